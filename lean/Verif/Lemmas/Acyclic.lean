import Verif.Lemmas.Dfs

/-! # `acyclic_shortest_path` -/

namespace GiMPy
namespace Dfs
open Search
variable {N : Type} [DecidableEq N] {g : Graph N} {src : N} {w : N → N → Int}
set_option linter.unusedSectionVars false

/-- invariant while the nodes of `P` are processed and node `m` (if any) is being processed, `R` saying which
edges have been relaxed -/
structure AInv (g : Graph N) (w : N → N → Int) (src : N) (P : List N) (R : N → N → Prop) (st : AState N) : Prop where
  least : ∀ m ∈ P, ∃ d, st.dist.get? m = some d ∧ IsLeastCost (Step g false) w src m d
  sound : ∀ n d, st.dist.get? n = some d → WalkCost (Step g false) w src d n
  tri : ∀ m n, m ∈ P → R m n → ∃ d dm, st.dist.get? n = some d ∧ st.dist.get? m = some dm ∧ d ≤ dm + w m n
  links : ∀ n p, st.pred.get? n = some p → p ∈ P ∧ Step g false p n ∧
    ∃ d dp, st.dist.get? n = some d ∧ st.dist.get? p = some dp ∧ d = dp + w p n
  known : ∀ n d, st.dist.get? n = some d → n = src ∨ n ∈ st.pred.keys
  chain : ∀ v ∈ P, ∃ k < P.length, PC st.pred src (· ∈ P) k v

theorem acFor_ok (hw : HasCosts g false w) {m : N} {P : List N} (hmP : m ∈ P)
    (l : List N) (hl : ∀ n ∈ l, Step g false m n ∧ n ∉ P) (done : List N) (st : AState N)
    (h : AInv g w src P (fun a b => Step g false a b ∧ (a = m → b ∈ done)) st) :
    ∃ st', acFor g m l st = .ok st' ∧
      AInv g w src P (fun a b => Step g false a b ∧ (a = m → b ∈ l ∨ b ∈ done)) st' := by
  induction l generalizing done st with
  | nil => exact ⟨st, rfl, by simpa using h⟩
  | cons n l ih =>
    have hl' : ∀ i ∈ l, Step g false m i ∧ i ∉ P := fun i hi => hl i (by simp [hi])
    obtain ⟨hs, hnP⟩ := hl n (by simp)
    obtain ⟨dm, hdm, hleast⟩ := h.least m hmP
    have fin : ∀ st', AInv g w src P (fun a b => Step g false a b ∧ (a = m → b ∈ l ∨ b ∈ n :: done)) st' →
        AInv g w src P (fun a b => Step g false a b ∧ (a = m → b ∈ n :: l ∨ b ∈ done)) st' := by
      intro st' h'
      refine ⟨h'.least, h'.sound, ?_, h'.links, h'.known, h'.chain⟩
      intro a b ha hab
      refine h'.tri a b ha ⟨hab.1, fun e => ?_⟩
      rcases hab.2 e with h1 | h1
      · rcases List.mem_cons.1 h1 with rfl | h1
        · exact Or.inr (by simp)
        · exact Or.inl h1
      · exact Or.inr (by simp [h1])
    rw [acFor, hdm]
    simp only [hw m n hs]
    by_cases hc : better (st.dist.get? n) (dm + w m n) = true
    · rw [if_pos hc]
      have hold : ∀ d, st.dist.get? n = some d → dm + w m n < d := by
        intro d hd; rw [hd] at hc; simpa [better] using hc
      have hdist : ∀ x, x ≠ n → (st.dist.set n (dm + w m n)).get? x = st.dist.get? x :=
        fun x hx => Dict.get?_set_ne _ _ (Ne.symm hx)
      have hdn : (st.dist.set n (dm + w m n)).get? n = some (dm + w m n) := by simp
      have hmn : m ≠ n := by rintro rfl; exact hnP hmP
      obtain ⟨st', h1, h2⟩ := ih hl' (n :: done) ⟨st.dist.set n (dm + w m n), st.pred.set n m⟩ (by
        refine ⟨?_, ?_, ?_, ?_, ?_, ?_⟩
        · intro x hx
          obtain ⟨d, hd, hx2⟩ := h.least x hx
          exact ⟨d, by rw [hdist x (by rintro rfl; exact hnP hx)]; exact hd, hx2⟩
        · intro x d hd
          by_cases hxn : x = n
          · subst hxn
            rw [hdn] at hd
            obtain rfl := Option.some.inj hd
            exact .snoc hleast.1 hs
          · rw [hdist x hxn] at hd; exact h.sound x d hd
        · intro a b ha hab
          have han : a ≠ n := by rintro rfl; exact hnP ha
          by_cases hbn : b = n
          · subst hbn
            by_cases ham : a = m
            · subst ham
              exact ⟨_, dm, hdn, by rw [hdist a han]; exact hdm, Int.le_refl _⟩
            · obtain ⟨d, da, e1, e2, e3⟩ := h.tri a b ha ⟨hab.1, fun e => absurd e ham⟩
              have := hold d e1
              exact ⟨_, da, hdn, by rw [hdist a han]; exact e2, by omega⟩
          · obtain ⟨d, da, e1, e2, e3⟩ := h.tri a b ha ⟨hab.1, fun e => by
              rcases List.mem_cons.1 (hab.2 e) with h | h
              · exact absurd h hbn
              · exact h⟩
            exact ⟨d, da, by rw [hdist b hbn]; exact e1, by rw [hdist a han]; exact e2, e3⟩
        · intro x p hx
          replace hx : (st.pred.set n m).get? x = some p := hx
          rw [Dict.get?_set] at hx
          split at hx
          · next e =>
            subst e
            obtain rfl := Option.some.inj hx
            exact ⟨hmP, hs, _, dm, hdn, by rw [hdist m hmn]; exact hdm, rfl⟩
          · next e =>
            obtain ⟨e1, e2, d, dp, e3, e4, e5⟩ := h.links x p hx
            exact ⟨e1, e2, d, dp, by rw [hdist x (Ne.symm e)]; exact e3,
              by rw [hdist p (by rintro rfl; exact hnP e1)]; exact e4, e5⟩
        · intro x d hd
          show x = src ∨ x ∈ (st.pred.set n m).keys
          rw [Dict.mem_keys_set]
          by_cases hxn : x = n
          · exact Or.inr (Or.inl hxn)
          · rw [hdist x hxn] at hd
            exact (h.known x d hd).imp id Or.inr
        · intro v hv
          obtain ⟨k, hk, hpc⟩ := h.chain v hv
          exact ⟨k, hk, hpc.set_in (n := n) (by exact hnP) hv⟩)
      exact ⟨st', h1, fin st' h2⟩
    · rw [if_neg hc]
      obtain ⟨st', h1, h2⟩ := ih hl' (n :: done) st (by
        refine ⟨h.least, h.sound, ?_, h.links, h.known, h.chain⟩
        intro a b ha hab
        by_cases hcase : a = m ∧ b = n
        · obtain ⟨rfl, rfl⟩ := hcase
          cases hd : st.dist.get? b with
          | none => rw [hd] at hc; simp [better] at hc
          | some d =>
            rw [hd] at hc
            simp only [better, decide_eq_true_eq, gt_iff_lt] at hc
            exact ⟨d, dm, rfl, hdm, by omega⟩
        · refine h.tri a b ha ⟨hab.1, fun e => ?_⟩
          rcases List.mem_cons.1 (hab.2 e) with h | h
          · exact absurd ⟨e, h⟩ hcase
          · exact h)
      exact ⟨st', h1, fin st' h2⟩

/-- the node about to be processed already has its least cost and a chain of links -/
theorem ainv_next {P : List N} {st : AState N}
    (h : AInv g w src P (fun a b => Step g false a b) st) {m : N} (hms : m ≠ src) (hr : Reach g false src m)
    (hin : ∀ p, Step g false p m → p ∈ P) :
    (∃ d, st.dist.get? m = some d ∧ IsLeastCost (Step g false) w src m d) ∧
      ∃ k < P.length + 1, PC st.pred src (· ∈ P) k m := by
  obtain ⟨p, _, hp⟩ := (Relation.ReflTransGen.cases_tail hr).resolve_left hms
  obtain ⟨d, dp, e1, e2, e3⟩ := h.tri p m (hin p hp) hp
  refine ⟨⟨d, e1, h.sound m d e1, ?_⟩, ?_⟩
  · intro x hx
    cases hx with
    | nil => exact absurd rfl hms
    | @snoc y v _ hy hs =>
      obtain ⟨d', dv, e4, e5, e6⟩ := h.tri v m (hin v hs) hs
      obtain ⟨dv', e7, e8⟩ := h.least v (hin v hs)
      rw [e1] at e4; obtain rfl := Option.some.inj e4
      rw [e5] at e7; obtain rfl := Option.some.inj e7
      have := e8.2 y hy
      omega
  · obtain ⟨q, hq⟩ := (Dict.mem_keys' _ _).1 ((h.known m d e1).resolve_left hms)
    obtain ⟨k, hk, hpc⟩ := h.chain q (h.links m q hq).1
    exact ⟨k + 1, by omega, .step hpc (h.links m q hq).1 hq⟩

theorem acLoop_ok (hwf : g.Wf) (hdir : g.directed = true) (hw : HasCosts g false w) {dest : Option N}
    (hns : ∀ p, ¬ Step g false p src) (hall : ∀ v ∈ g.getNodeList, Reach g false src v)
    (L : List N) (P : List N) (hL : (P.reverse ++ L).Nodup) (hmem : ∀ v, v ∈ P.reverse ++ L ↔ v ∈ g.getNodeList)
    (htopo : ∀ A u B v, P.reverse ++ L = A ++ u :: B → Step g false u v → v ∈ B)
    (st : AState N) (h : AInv g w src P (fun a b => Step g false a b) st) (hsrc : P = [] → L.head? = some src)
    (hdL : ∀ dst, dest = some dst → dst ∈ L) {k : Nat} (hk : L.length = k) :
    ∃ a P', acLoop g dest k L st = .ok (dest.isSome, a) ∧ AInv g w src P' (fun a b => Step g false a b) a ∧
      (∀ dst, dest = some dst → (∀ p, Step g false p dst → p ∈ P') ∧ P'.length < P.length + L.length) ∧
      (dest = none → P' = L.reverse ++ P) := by
  induction L generalizing P st k with
  | nil =>
    cases dest with
    | none => subst hk; exact ⟨st, P, rfl, h, by simp, by simp⟩
    | some d => cases hdL d rfl
  | cons m L ih =>
    obtain ⟨k, rfl⟩ : ∃ k', k = k' + 1 := ⟨k - 1, by simp at hk; omega⟩
    have hmnode : m ∈ g.getNodeList := (hmem m).1 (by simp)
    -- every edge into `m` comes from a processed node
    have hin : ∀ p, Step g false p m → p ∈ P := by
      intro p hp
      have hpn := (hmem p).2 (step_node hwf hp).1
      by_contra hpP
      have hpL : p ∈ m :: L := by
        rcases List.mem_append.1 hpn with h1 | h1
        · exact absurd (by simpa using h1) hpP
        · exact h1
      obtain ⟨A, B, hAB⟩ := List.append_of_mem hpL
      have hB := htopo (P.reverse ++ A) p B m (by rw [hAB]; simp) hp
      rw [hAB] at hL
      cases A with
      | nil =>
        simp only [List.nil_append, List.cons.injEq] at hAB
        obtain ⟨rfl, rfl⟩ := hAB
        exact (List.nodup_cons.1 (List.nodup_append.1 hL).2.1).1 hB
      | cons a A =>
        simp only [List.cons_append, List.cons.injEq] at hAB
        obtain ⟨rfl, rfl⟩ := hAB
        have := (List.nodup_append.1 hL).2.1
        rw [List.cons_append] at this
        exact (List.nodup_cons.1 this).1 (by simp [hB])
    rw [acLoop]
    by_cases hd : dest = some m
    · rw [if_pos hd]
      subst hd
      exact ⟨st, P, rfl, h, fun d hd => by cases hd; exact ⟨hin, by simp⟩, by simp⟩
    · rw [if_neg hd]
      obtain ⟨inl, hinl, hinm⟩ := nbrs_ok hwf true hmnode
      have hinl : g.getInNeighbors m = .ok inl := by simpa [nbrs, hdir] using hinl
      obtain ⟨outl, houtl, houtm⟩ := nbrs_ok hwf false hmnode
      have houtl : g.getNeighbors m = .ok outl := by simpa [nbrs] using houtl
      rw [hinl]
      simp only [houtl]
      -- state when the out-neighbours of `m` are relaxed
      have hm0 : AInv g w src (m :: P) (fun a b => Step g false a b ∧ (a = m → b ∈ ([] : List N)))
          (if inl.length = 0 then { st with dist := st.dist.set m 0 } else st) := by
        have hmP : m ∉ P := by
          intro h1
          exact (List.nodup_append.1 hL).2.2 m (by simpa using h1) m (by simp) rfl
        by_cases hms : m = src
        · subst hms
          have hemp : inl.length = 0 := by
            cases inl with
            | nil => rfl
            | cons p _ =>
              have h1 : Step g true m p := (hinm p).1 (by simp)
              exact absurd h1 (hns p)
          rw [if_pos hemp]
          have hP : P = [] := by
            cases hP : P with
            | nil => rfl
            | cons x P' =>
              -- a processed node would have to be the source itself
              exfalso
              have hx : x ∈ P := by simp [hP]
              obtain ⟨j, _, hpc⟩ := h.chain x hx
              have : ∀ j v, PC st.pred m (· ∈ P) j v → v ∈ P → m ∈ P := by
                intro j v hpc
                induction hpc with
                | src => exact id
                | step _ hp _ ih => intro _; exact ih hp
              exact hmP (this j x hpc hx)
          subst hP
          have hpe : ∀ n p, st.pred.get? n ≠ some p := by
            intro n p hn
            have := (h.links n p hn).1
            cases this
          refine ⟨?_, ?_, ?_, ?_, ?_, ?_⟩
          · intro x hx
            obtain rfl := List.mem_singleton.1 hx
            refine ⟨0, by simp, .nil, ?_⟩
            intro y hy
            cases hy with
            | nil => exact Int.le_refl _
            | snoc _ hs => exact absurd hs (hns _)
          · intro n d hn
            replace hn : (st.dist.set m 0).get? n = some d := hn
            rw [Dict.get?_set] at hn
            split at hn
            · next e => subst e; obtain rfl := Option.some.inj hn; exact .nil
            · exact h.sound n d hn
          · rintro a b ha ⟨_, hb⟩
            exact absurd (hb (List.mem_singleton.1 ha)) (by simp)
          · intro n p hn; exact absurd hn (hpe n p)
          · intro n d hn
            replace hn : (st.dist.set m 0).get? n = some d := hn
            rw [Dict.get?_set] at hn
            split at hn
            · next e => exact Or.inl e.symm
            · exact h.known n d hn
          · intro v hv
            obtain rfl := List.mem_singleton.1 hv
            exact ⟨0, by simp, .src⟩
        · obtain ⟨hl1, j, hj, hpc⟩ := ainv_next h hms (hall m hmnode) hin
          have hne : inl.length ≠ 0 := by
            obtain ⟨p, _, hp⟩ := (Relation.ReflTransGen.cases_tail (hall m hmnode)).resolve_left hms
            have : p ∈ inl := (hinm p).2 hp
            have := List.length_pos_of_mem this
            omega
          rw [if_neg hne]
          refine ⟨?_, h.sound, ?_, ?_, h.known, ?_⟩
          · intro x hx
            rcases List.mem_cons.1 hx with rfl | hx
            · exact hl1
            · exact h.least x hx
          · rintro a b ha ⟨hs, hb⟩
            rcases List.mem_cons.1 ha with rfl | ha
            · exact absurd (hb rfl) (by simp)
            · exact h.tri a b ha hs
          · intro n p hn
            obtain ⟨e1, e2⟩ := h.links n p hn
            exact ⟨by simp [e1], e2⟩
          · intro v hv
            rcases List.mem_cons.1 hv with rfl | hv
            · exact ⟨j, by simpa using hj, hpc.mono fun x hx => by simp [hx]⟩
            · obtain ⟨i, hi, hpc⟩ := h.chain v hv
              exact ⟨i, by simp; omega, hpc.mono fun x hx => by simp [hx]⟩
      obtain ⟨st', e1, e2⟩ := acFor_ok hw (m := m) (P := m :: P) (by simp) outl (by
        intro n hn
        have hs := (houtm n).1 hn
        have hnL := htopo P.reverse m L n rfl hs
        refine ⟨hs, ?_⟩
        intro hn2
        have h3 := List.nodup_append.1 hL
        rcases List.mem_cons.1 hn2 with rfl | hn2
        · exact (List.nodup_cons.1 h3.2.1).1 hnL
        · exact h3.2.2 n (by simpa using hn2) n (by simp [hnL]) rfl) [] _ hm0
      rw [e1]
      simp only []
      have e3 : AInv g w src (m :: P) (fun a b => Step g false a b) st' :=
        ⟨e2.least, e2.sound, fun a b ha hs => e2.tri a b ha ⟨hs, fun e => Or.inl (by subst e; exact (houtm b).2 hs)⟩,
          e2.links, e2.known, e2.chain⟩
      have hassoc : (m :: P).reverse ++ L = P.reverse ++ m :: L := by simp
      obtain ⟨a, P', r1, r2, r3, r4⟩ := ih (m :: P) (by rw [hassoc]; exact hL) (by rw [hassoc]; exact hmem)
        (by rw [hassoc]; exact htopo) st' e3 (by simp)
        (fun d e => (List.mem_cons.1 (hdL d e)).resolve_left fun h1 => hd (h1 ▸ e)) (by simpa using hk)
      exact ⟨a, P', r1, r2, fun d e => ⟨(r3 d e).1, by have := (r3 d e).2; simp at this ⊢; omega⟩,
        fun e => by rw [r4 e]; simp⟩

end Dfs
end GiMPy
