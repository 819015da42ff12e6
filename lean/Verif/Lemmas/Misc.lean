import Verif.Model.Misc
import Verif.Lemmas.Components
import Verif.Props.Search
import Mathlib.Data.List.Count
import Mathlib.Data.List.Nodup
import Mathlib.Tactic.Linarith
import Mathlib.Tactic.Positivity
import Mathlib.Tactic.FieldSimp

/-! # Lemmas for C47-C53 -/

namespace GiMPy
open Search
namespace Misc
variable {N : Type} [DecidableEq N] {g : Graph N}
set_option linter.unusedSectionVars false

/-! ## degrees -/

theorem count_fst (n v : N) (E : List (N × N)) :
    ((E.filter fun e => e.1 = n).map Prod.snd).count v = E.count (n, v) := by
  induction E with
  | nil => rfl
  | cons e E ih =>
    obtain ⟨a, b⟩ := e
    by_cases h : a = n
    · subst h
      simp only [List.filter_cons, decide_true, if_true, List.map_cons, List.count_cons, ih]
      by_cases h2 : b = v <;> simp [h2]
    · simp [List.filter_cons, h, List.count_cons, ih]

theorem count_snd (n v : N) (E : List (N × N)) :
    ((E.filter fun e => e.2 = n).map Prod.fst).count v = E.count (v, n) := by
  induction E with
  | nil => rfl
  | cons e E ih =>
    obtain ⟨a, b⟩ := e
    by_cases h : b = n
    · subst h
      simp only [List.filter_cons, decide_true, if_true, List.map_cons, List.count_cons, ih]
      by_cases h2 : a = v <;> simp [h2]
    · simp [List.filter_cons, h, List.count_cons, ih]

theorem ind_count (h : g.Wf) (u v : N) : g.ind u v = g.edgeAttr.keys.count (u, v) := by
  rw [List.Nodup.count h.edup]; rfl

theorem len_nbrs_und (h : g.Wf) (hd : g.directed = false) {n : N} {l : List N} (hl : g.neighbors.get? n = some l) :
    l.length = (g.getEdgeList.filter fun e => e.1 = n).length + (g.getEdgeList.filter fun e => e.2 = n).length := by
  have hp : l.Perm (((g.getEdgeList.filter fun e => e.1 = n).map Prod.snd) ++
      ((g.getEdgeList.filter fun e => e.2 = n).map Prod.fst)) := by
    rw [List.perm_iff_count]
    intro v
    rw [List.count_append, count_fst, count_snd]
    have := h.out n v
    simp only [Graph.outc, hl, hd, Option.getD_some, Bool.false_eq_true, if_false] at this
    rw [this, ind_count h, ind_count h]; rfl
  rw [hp.length_eq]; simp

theorem len_nbrs_dir (h : g.Wf) (hd : g.directed = true) {n : N} {l : List N} (hl : g.neighbors.get? n = some l) :
    l.length = (g.getEdgeList.filter fun e => e.1 = n).length := by
  have hp : l.Perm ((g.getEdgeList.filter fun e => e.1 = n).map Prod.snd) := by
    rw [List.perm_iff_count]
    intro v
    rw [count_fst]
    have := h.out n v
    simp only [Graph.outc, hl, hd, Option.getD_some, if_true, Nat.add_zero] at this
    rw [this, ind_count h]; rfl
  rw [hp.length_eq]; simp

theorem len_inn (h : g.Wf) (hd : g.directed = true) {n : N} {l : List N} (hl : g.inNeighbors.get? n = some l) :
    l.length = (g.getEdgeList.filter fun e => e.2 = n).length := by
  have hp : l.Perm ((g.getEdgeList.filter fun e => e.2 = n).map Prod.fst) := by
    rw [List.perm_iff_count]
    intro v
    rw [count_snd]
    have := h.inn hd n v
    simp only [Graph.innc, hl, Option.getD_some] at this
    rw [this, ind_count h]; rfl
  rw [hp.length_eq]; simp

theorem degTable_ok {f : N → Except PyErr (List N)} {k : N → Nat} : ∀ (l : List N) (d : Dict N Nat),
    (d.keys ++ l).Nodup → (∀ n ∈ l, ∃ x, f n = .ok x ∧ x.length = k n) → ∃ d', degTable f l d = .ok d' ∧
      d'.keys = d.keys ++ l ∧ ∀ n, d'.get? n = if n ∈ l then some (k n) else d.get? n := by
  intro l
  induction l with
  | nil => intro d _ _; exact ⟨d, rfl, by simp, by simp⟩
  | cons n l ih =>
    intro d hnd hf
    obtain ⟨x, hx, hk⟩ := hf n (by simp)
    have hn : n ∉ d.keys := fun hh => (List.nodup_append.1 hnd).2.2 n hh n (by simp) rfl
    have hkeys := Dict.keys_set_of_not_mem x.length hn
    obtain ⟨d', h1, h2, h3⟩ := ih (d.set n x.length) (by rw [hkeys]; simpa using hnd) fun m hm => hf m (by simp [hm])
    refine ⟨d', by simp [degTable, hx, h1], by rw [h2, hkeys]; simp, ?_⟩
    intro m
    rw [h3, Dict.get?_set]
    by_cases hml : m ∈ l
    · simp [hml]
    · by_cases hmn : n = m
      · subst hmn; simp [hml, hk]
      · simp [hml, hmn, Ne.symm hmn]

theorem degTable_nodes (h : g.Wf) {f : N → Except PyErr (List N)} {k : N → Nat}
    (hf : ∀ n ∈ g.getNodeList, ∃ x, f n = .ok x ∧ x.length = k n) :
    ∃ d, degTable f g.getNodeList .empty = .ok d ∧ d.keys = g.getNodeList ∧
      ∀ n ∈ g.getNodeList, d.get? n = some (k n) := by
  obtain ⟨d, h1, h2, h3⟩ := degTable_ok (k := k) g.getNodeList .empty (by
    rw [Dict.keys_empty, List.nil_append]; exact h.nodup) hf
  exact ⟨d, h1, by simpa using h2, fun n hn => by rw [h3, if_pos hn]⟩

theorem nbrs_get {n : N} (hn : n ∈ g.getNodeList) : ∃ l, g.neighbors.get? n = some l ∧ g.getNeighbors n = .ok l := by
  obtain ⟨l, hl⟩ := (Dict.mem_keys' _ _).1 hn
  exact ⟨l, hl, by simp [Graph.getNeighbors, hl]⟩

theorem inn_get (h : g.Wf) (hd : g.directed = true) {n : N} (hn : n ∈ g.getNodeList) :
    ∃ l, g.inNeighbors.get? n = some l ∧ g.getInNeighbors n = .ok l := by
  obtain ⟨l, hl⟩ := (Dict.mem_keys' g.inNeighbors n).1 (by rw [h.inEq hd]; exact hn)
  exact ⟨l, hl, by simp [Graph.getInNeighbors, hd, hl]⟩

/-! ## diameter -/

section
variable {Q : Type} {O : QOps N Q} {items : Q → List N} {q0 : Q} {fuel : Nat}

theorem diamInner_ok (hg : Built g) (hf : LawfulFIFO O items) (hO : O.isPQ = false) (hq : items q0 = [])
    (hfu : fuelBound g false ≤ fuel) {n : N} (hn : n ∈ g.getNodeList) : ∀ (l : List N) (col : SState N Q) (ecc : Nat),
    (∃ m ∈ l, ¬ Reach g false n m) ∧ diamInner g O q0 fuel n l col ecc = .ok none ∨
    (∀ m ∈ l, Reach g false n m) ∧ ∃ ecc' col', diamInner g O q0 fuel n l col ecc = .ok (some (ecc', col')) ∧
      ecc ≤ ecc' ∧ (∀ m ∈ l, ∀ k, IsLeastLen (Step g false) n m k → k ≤ ecc') ∧
      (ecc' = ecc ∨ ∃ m ∈ l, IsLeastLen (Step g false) n m ecc') := by
  intro l
  induction l with
  | nil => intro col ecc; exact Or.inr ⟨by simp, ecc, col, rfl, le_refl _, by simp, Or.inl rfl⟩
  | cons m l ih =>
    intro col ecc
    rcases C09_search_path hg hf.toLawfulBag hO (algo := .bfs) (by simp) false (Or.inr (by simp)) none hn m
      { col with q := q0 } hq hfu with ⟨hr, _⟩ | ⟨hr, st, hs⟩
    · obtain ⟨p, st, k, hs, _, hk, hl⟩ := (C10_bfs_shortest hg hf hO (algo := .bfs) (by simp) false none hn
        { col with q := q0 } hq hfu).2 m hr
      simp only [diamInner, hs, resLen, hk, Nat.add_sub_cancel]
      have huniq : ∀ k', IsLeastLen (Step g false) n m k' → k' = k := fun k' h' =>
        Nat.le_antisymm (h'.2 _ hl.1) (hl.2 _ h'.1)
      rcases ih st (if k > ecc then k else ecc) with ⟨⟨m', hm', hr'⟩, h2⟩ | ⟨hall, e', c', h2, h3, h4, h5⟩
      · exact Or.inl ⟨⟨m', by simp [hm'], hr'⟩, h2⟩
      · refine Or.inr ⟨?_, e', c', h2, ?_, ?_, ?_⟩
        · intro m' hm'
          rcases List.mem_cons.1 hm' with rfl | hm'
          · exact hr
          · exact hall m' hm'
        · split at h3 <;> omega
        · intro m' hm' k' hk'
          rcases List.mem_cons.1 hm' with rfl | hm'
          · have := huniq k' hk'; split at h3 <;> omega
          · exact h4 m' hm' k' hk'
        · rcases h5 with h5 | ⟨m', hm', h5⟩
          · split at h5
            · right; exact ⟨m, by simp, h5 ▸ hl⟩
            · left; exact h5
          · right; exact ⟨m', by simp [hm'], h5⟩
    · left
      exact ⟨⟨m, by simp, hr⟩, by simp [diamInner, hs, resLen]⟩

theorem diamOuter_ok (hg : Built g) (hf : LawfulFIFO O items) (hO : O.isPQ = false) (hq : items q0 = [])
    (hfu : fuelBound g false ≤ fuel) : ∀ (l l' : List N) (col : SState N Q) (ecc : Nat) (d : Diam),
    l' ++ l = g.getNodeList →
    (∀ n ∈ l', ∀ m ∈ g.getNodeList, Reach g false n m) →
    (∀ n ∈ l', ∀ m ∈ g.getNodeList, ∀ k, IsLeastLen (Step g false) n m k → k ≤ ecc) →
    ((l' = [] ∧ ecc = 0 ∧ d = .infinity) ∨
      d = .num ecc ∧ ∃ n ∈ l', ∃ m ∈ g.getNodeList, IsLeastLen (Step g false) n m ecc) →
    (∃ n ∈ g.getNodeList, ∃ m ∈ g.getNodeList, ¬ Reach g false n m) ∧ diamOuter g O q0 fuel l col ecc d = .ok .infinity ∨
    (∀ n ∈ g.getNodeList, ∀ m ∈ g.getNodeList, Reach g false n m) ∧
      (g.getNodeList = [] ∧ diamOuter g O q0 fuel l col ecc d = .ok .infinity ∨
        ∃ k, diamOuter g O q0 fuel l col ecc d = .ok (.num k) ∧
          (∃ n ∈ g.getNodeList, ∃ m ∈ g.getNodeList, IsLeastLen (Step g false) n m k) ∧
          ∀ n ∈ g.getNodeList, ∀ m ∈ g.getNodeList, ∀ j, IsLeastLen (Step g false) n m j → j ≤ k) := by
  intro l
  induction l with
  | nil =>
    intro l' col ecc d hl h1 h2 h3
    simp only [List.append_nil] at hl
    subst hl
    refine Or.inr ⟨h1, ?_⟩
    rcases h3 with ⟨h3, _, rfl⟩ | ⟨rfl, h3⟩
    · exact Or.inl ⟨h3, rfl⟩
    · exact Or.inr ⟨ecc, rfl, h3, h2⟩
  | cons n l ih =>
    intro l' col ecc d hl h1 h2 h3
    have hn : n ∈ g.getNodeList := by rw [← hl]; simp
    have hsub : ∀ n ∈ l', n ∈ g.getNodeList := fun n hn => by rw [← hl]; simp [hn]
    rcases diamInner_ok hg hf hO hq hfu hn g.getNodeList col ecc with ⟨⟨m, hm, hr⟩, h4⟩ | ⟨h4, e', c', h5, h6, h7, h8⟩
    · exact Or.inl ⟨⟨n, hn, m, hm, hr⟩, by simp [diamOuter, h4]⟩
    · simp only [diamOuter, h5]
      refine ih (l' ++ [n]) c' e' (diamUpd d e') (by simpa using hl) ?_ ?_ (Or.inr ?_)
      · intro n' hn'
        rcases List.mem_append.1 hn' with hn' | hn'
        · exact h1 n' hn'
        · obtain rfl := List.mem_singleton.1 hn'; exact h4
      · intro n' hn' m hm k hk
        rcases List.mem_append.1 hn' with hn' | hn'
        · exact (h2 n' hn' m hm k hk).trans h6
        · obtain rfl := List.mem_singleton.1 hn'; exact h7 m hm k hk
      · constructor
        · rcases h3 with ⟨_, _, rfl⟩ | ⟨rfl, _⟩
          · rfl
          · unfold diamUpd
            simp only []
            split
            · rfl
            · rw [show e' = ecc by omega]
        · rcases h8 with h8 | ⟨m, hm, h8⟩
          · rcases h3 with ⟨_, h9, _⟩ | ⟨_, n', hn', m, hm, h9⟩
            · refine ⟨n, by simp, n, hn, ?_⟩
              rw [h8, h9]
              exact ⟨.nil, fun _ _ => Nat.zero_le _⟩
            · exact ⟨n', by simp [hn'], m, hm, h8 ▸ h9⟩
          · exact ⟨n, by simp, m, hm, h8⟩

end
end Misc
end GiMPy
