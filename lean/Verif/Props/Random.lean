import Verif.Lemmas.Residual
import Verif.Lemmas.Tree
import Verif.Model.Misc

/-! # C51, C58: random graphs -/

namespace GiMPy
open Misc
namespace Misc

variable {g : Graph Nat} {a : AGraph Nat}

theorem rep_ok (h : Rep g a) (op : Op Nat) (hs : op.InScope a.directed) (hn : (a.step op).1 = none) :
    ∃ g', op.call.run g = .ok ⟨⟩ g' ∧ Rep g' (a.step op).2 := by
  obtain ⟨h1, h2⟩ := rep_step h op hs
  cases hr : op.call.run g with
  | ok x s => rw [hr] at h2; exact ⟨s, rfl, h2⟩
  | error e s => rw [hr, hn] at h1; cases h1

theorem addNodes_ok (A : RandomArgs) : ∀ (l : List Nat) (g : Graph Nat) (a : AGraph Nat), Rep g a → (a.V ++ l).Nodup →
    ∃ g' a', (addNodes A l).run g = .ok () g' ∧ Rep g' a' ∧ a'.V = a.V ++ l ∧ a'.E = a.E ∧ a'.directed = a.directed := by
  intro l
  induction l with
  | nil => intro g a h _; exact ⟨g, a, rfl, h, by simp, rfl, rfl⟩
  | cons m l ih =>
    intro g a h hnd
    have hm : m ∉ a.V := fun hh => (List.nodup_append.1 hnd).2.2 m hh m (by simp) rfl
    have hst : a.step (.addNode m (A.nodeFormat m)) = (none, { a with
        V := a.V ++ [m], na := AGraph.upd a.na m (AGraph.kw (A.nodeFormat m)) }) := by
      simp [AGraph.step, hm]
    obtain ⟨g1, h1, h2⟩ := rep_ok h (.addNode m (A.nodeFormat m)) trivial (by rw [hst])
    rw [hst] at h2
    obtain ⟨g', a', h3, h4, h5, h6, h7⟩ := ih g1 _ h2 (by simpa using hnd)
    refine ⟨g', a', ?_, h4, by rw [h5]; simp, h6, h7⟩
    rw [addNodes, gm_bind]
    replace h1 : (Graph.addNode m (A.nodeFormat m)).run g = .ok ⟨⟩ g1 := h1
    rw [h1]
    exact h3

/-- the abstract graph after adding the edge `e` -/
structure Added (a a' : AGraph Nat) (e : Nat × Nat) : Prop where
  dir : a'.directed = a.directed
  V : a'.V = a.V
  E : a'.E = a.E ++ [e]
  old : ∀ e', e' ≠ e → a'.ea e' = a.ea e'

theorem edge_ok (h : Rep g a) {m n : Nat} (hm : m ∈ a.V) (hn : n ∈ a.V) (hk : a.key? m n = none)
    (attr : List (String × Val Nat)) : ∃ g' a', (Graph.addEdge m n attr).run g = .ok ⟨⟩ g' ∧ Rep g' a' ∧
      Added a a' (m, n) ∧ a'.ea (m, n) = AGraph.kw attr := by
  have hst : a.step (.addEdge m n attr) = (none, { (a.ensure m).ensure n with
      E := a.E ++ [(m, n)], ea := AGraph.upd a.ea (m, n) (AGraph.kw attr) }) := by
    simp [AGraph.step, hk]
  obtain ⟨g1, h1, h2⟩ := rep_ok h (.addEdge m n attr) trivial (by rw [hst])
  rw [hst] at h2
  have he : (a.ensure m).ensure n = a := by
    have : a.ensure m = a := by unfold AGraph.ensure; rw [if_pos hm]
    rw [this]; unfold AGraph.ensure; rw [if_pos hn]
  rw [he] at h2
  refine ⟨g1, _, h1, h2, ⟨rfl, rfl, rfl, ?_⟩, ?_⟩
  · intro e' he'; simp [AGraph.upd, he']
  · simp [AGraph.upd]

theorem attr_ok (h : Rep g a) {m n : Nat} (he : (m, n) ∈ a.E) (s : String) (x : Val Nat) :
    ∃ g' a', (Graph.setEdgeAttr m n s x).run g = .ok ⟨⟩ g' ∧ Rep g' a' ∧ a'.directed = a.directed ∧ a'.V = a.V ∧ a'.E = a.E ∧
      (∀ e', e' ≠ (m, n) → a'.ea e' = a.ea e') ∧ ∀ t, a'.ea (m, n) t = if t = s then some x else a.ea (m, n) t := by
  have hst : a.step (.setEdgeAttr m n s x) = (none, { a with
      ea := AGraph.upd a.ea (m, n) (AGraph.upd (a.ea (m, n)) s (some x)) }) := by
    simp [AGraph.step, AGraph.key?, he]
  obtain ⟨g1, h1, h2⟩ := rep_ok h (.setEdgeAttr m n s x) trivial (by rw [hst])
  rw [hst] at h2
  refine ⟨g1, _, h1, h2, rfl, rfl, rfl, ?_, ?_⟩
  · intro e' he'; simp [AGraph.upd, he']
  · intro t; simp [AGraph.upd]

theorem kw_notin {fmt : List (String × Val Nat)} {s : String} (h : s ∉ fmt.map Prod.fst) : AGraph.kw fmt s = none := by
  unfold AGraph.kw
  rw [Option.map_eq_none_iff, List.find?_eq_none]
  intro p hp hps
  exact h (List.mem_map.2 ⟨p, List.mem_reverse.1 hp, by simpa using hps⟩)

theorem kw_costFmt {fmt : List (String × Val Nat)} (h : "cost" ∉ fmt.map Prod.fst) (x : Val Nat) :
    AGraph.kw (("cost", x) :: fmt) "cost" = some x := by
  have := kw_append [("cost", x)] fmt "cost"
  rw [List.singleton_append] at this
  rw [this, kw_notin h]
  simp [AGraph.kw]

theorem addRandom_ok (A : RandomArgs) (hfmt : "cost" ∉ A.edgeFormat.map Prod.fst) (h : Rep g a) {m n : Nat} (hm : m ∈ a.V)
    (hn : n ∈ a.V) (hk : a.key? m n = none) : ∃ g' a', (addRandom A m n).run g = .ok () g' ∧ Rep g' a' ∧ Added a a' (m, n) ∧
      (A.lengths = true → a'.ea (m, n) "cost" = some (.int (A.len m n))) ∧
      (A.lengths = true → A.addLabels = true → a'.ea (m, n) "label" = some (.str (toString (A.len m n)))) ∧
      (A.lengths = false → a'.ea (m, n) "cost" = none) := by
  unfold addRandom
  by_cases hl : A.lengths = true
  · rw [if_pos hl]
    obtain ⟨g1, a1, h1, h2, h3, h4⟩ := edge_ok h hm hn hk (("cost", .int (A.len m n)) :: A.edgeFormat)
    have hc : a1.ea (m, n) "cost" = some (.int (A.len m n)) := by rw [h4]; exact kw_costFmt hfmt _
    rw [gm_bind, h1]
    unfold addLabel
    by_cases hb : A.addLabels = true
    · simp only [if_pos hb]
      obtain ⟨g2, a2, h5, h6, h7, h8, h9, h10, h11⟩ := attr_ok h2 (by rw [h3.E]; simp : (m, n) ∈ a1.E) "label"
        (.str (toString (A.len m n)))
      refine ⟨g2, a2, h5, h6, ⟨h7.trans h3.dir, h8.trans h3.V, h9.trans h3.E, fun e' he' => (h10 e' he').trans (h3.old e' he')⟩,
        fun _ => ?_, fun _ _ => ?_, fun hh => by rw [hl] at hh; cases hh⟩
      · rw [h11, if_neg (by decide)]; exact hc
      · rw [h11, if_pos rfl]
    · simp only [if_neg hb]
      exact ⟨g1, a1, rfl, h2, h3, fun _ => hc, fun _ hh => absurd hh hb, fun hh => by rw [hl] at hh; cases hh⟩
  · rw [if_neg hl]
    obtain ⟨g1, a1, h1, h2, h3, h4⟩ := edge_ok h hm hn hk A.edgeFormat
    exact ⟨g1, a1, h1, h2, h3, fun hh => absurd hh hl, fun hh => absurd hh hl, fun _ => by rw [h4]; exact kw_notin hfmt⟩

/-- what holds after the pairs `P` were considered -/
structure RInv (A : RandomArgs) (d : Bool) (P : List (Nat × Nat)) (a : AGraph Nat) : Prop where
  dir : a.directed = d
  V : a.V = List.range A.numnodes
  sub : ∀ u v, (u, v) ∈ a.E → (u, v) ∈ P ∧ u ≠ v ∧ A.coin u v = true
  sup : ∀ u v, (u, v) ∈ P → u ≠ v → A.coin u v = true → (u, v) ∈ a.E ∨ A.parallel = false ∧ (v, u) ∈ a.E
  anti : A.parallel = false → ∀ u v, (u, v) ∈ a.E → (v, u) ∉ a.E
  cost : A.lengths = true → ∀ u v, (u, v) ∈ a.E → a.ea (u, v) "cost" = some (.int (A.len u v))
  label : A.lengths = true → A.addLabels = true → ∀ u v, (u, v) ∈ a.E →
    a.ea (u, v) "label" = some (.str (toString (A.len u v)))
  nocost : A.lengths = false → ∀ u v, (u, v) ∈ a.E → a.ea (u, v) "cost" = none

theorem tryPairs_ok (A : RandomArgs) (hfmt : "cost" ∉ A.edgeFormat.map Prod.fst) (d : Bool) :
    ∀ (l P : List (Nat × Nat)) (g : Graph Nat) (a : AGraph Nat), (P ++ l).Nodup →
    (∀ p ∈ P ++ l, p.1 < A.numnodes ∧ p.2 < A.numnodes) → (d = false → ∀ p ∈ P ++ l, p.2 < p.1) →
    Rep g a → RInv A d P a →
    ∃ g' a', (tryPairs A l).run g = .ok () g' ∧ Rep g' a' ∧ RInv A d (P ++ l) a' := by
  intro l
  induction l with
  | nil => intro P g a _ _ _ h hi; exact ⟨g, a, rfl, h, by simpa using hi⟩
  | cons p l ih =>
    intro P g a hnd hlt hun h hi
    obtain ⟨m, n⟩ := p
    have hnew : (m, n) ∉ P := fun hh => (List.nodup_append.1 hnd).2.2 _ hh (m, n) (by simp) rfl
    have hnd' : ((P ++ [(m, n)]) ++ l).Nodup := by simpa using hnd
    have hlt' : ∀ p ∈ (P ++ [(m, n)]) ++ l, p.1 < A.numnodes ∧ p.2 < A.numnodes := by simpa using hlt
    have hun' : d = false → ∀ p ∈ (P ++ [(m, n)]) ++ l, p.2 < p.1 := by simpa using hun
    have hmE : (m, n) ∉ a.E := fun hh => hnew (hi.sub _ _ hh).1
    have hcon : g.edgeAttr.contains (n, m) = true ↔ (n, m) ∈ a.E := by rw [Dict.contains_iff, h.E]
    have hPsub : ∀ e, e ∈ P → e ∈ P ++ [(m, n)] := fun e he => by simp [he]
    have main : ∃ g1 a1, (tryPair A m n).run g = .ok () g1 ∧ Rep g1 a1 ∧ RInv A d (P ++ [(m, n)]) a1 := by
      unfold tryPair
      rw [gm_bind]
      simp only [gm_get]
      by_cases hc : ((A.parallel || !g.edgeAttr.contains (n, m)) && decide (m ≠ n) && A.coin m n) = true
      · rw [if_pos hc]
        simp only [Bool.and_eq_true, Bool.or_eq_true, Bool.not_eq_true', decide_eq_true_eq] at hc
        obtain ⟨⟨hc1, hc2⟩, hc3⟩ := hc
        have hk : a.key? m n = none := by
          unfold AGraph.key?
          rw [if_neg hmE, hi.dir]
          cases hd : d with
          | true => rfl
          | false =>
            rw [if_neg (by simp), if_neg]
            intro hh
            have h1 := hun hd (n, m) (by simp [(hi.sub _ _ hh).1])
            have h2 := hun hd (m, n) (by simp)
            simp only [] at h1 h2
            omega
        have hm : m ∈ a.V := by rw [hi.V]; simpa using (hlt (m, n) (by simp)).1
        have hn : n ∈ a.V := by rw [hi.V]; simpa using (hlt (m, n) (by simp)).2
        obtain ⟨g1, a1, h1, h2, h3, h4, h5, h5'⟩ := addRandom_ok A hfmt h hm hn hk
        have hne : ∀ u v, (u, v) ∈ a.E → (u, v) ≠ (m, n) := fun u v huv hh => hmE (hh ▸ huv)
        refine ⟨g1, a1, h1, h2, h3.dir.trans hi.dir, h3.V.trans hi.V, ?_, ?_, ?_, ?_, ?_, ?_⟩
        · intro u v huv
          rw [h3.E, List.mem_append, List.mem_singleton, Prod.mk.injEq] at huv
          rcases huv with huv | ⟨rfl, rfl⟩
          · obtain ⟨h6, h7⟩ := hi.sub u v huv; exact ⟨hPsub _ h6, h7⟩
          · exact ⟨by simp, hc2, hc3⟩
        · intro u v huv h6 h7
          rw [h3.E]
          rw [List.mem_append, List.mem_singleton, Prod.mk.injEq] at huv
          rcases huv with huv | ⟨rfl, rfl⟩
          · rcases hi.sup u v huv h6 h7 with h8 | ⟨h8, h9⟩
            · exact Or.inl (by simp [h8])
            · exact Or.inr ⟨h8, by simp [h9]⟩
          · exact Or.inl (by simp)
        · intro hp u v huv hvu
          rw [h3.E, List.mem_append, List.mem_singleton, Prod.mk.injEq] at huv hvu
          have hnm : (n, m) ∉ a.E := by
            rcases hc1 with hc1 | hc1
            · rw [hp] at hc1; cases hc1
            · rw [← hcon, hc1]; simp
          rcases huv with huv | ⟨rfl, rfl⟩ <;> rcases hvu with hvu | ⟨h6, h7⟩
          · exact hi.anti hp u v huv hvu
          · subst h6 h7; exact hnm huv
          · exact hnm hvu
          · exact hc2 h7
        · intro hl u v huv
          rw [h3.E, List.mem_append, List.mem_singleton] at huv
          rcases huv with huv | huv
          · rw [h3.old _ (hne u v huv)]; exact hi.cost hl u v huv
          · obtain ⟨rfl, rfl⟩ := Prod.mk.inj huv; exact h4 hl
        · intro hl hb u v huv
          rw [h3.E, List.mem_append, List.mem_singleton] at huv
          rcases huv with huv | huv
          · rw [h3.old _ (hne u v huv)]; exact hi.label hl hb u v huv
          · obtain ⟨rfl, rfl⟩ := Prod.mk.inj huv; exact h5 hl hb
        · intro hl u v huv
          rw [h3.E, List.mem_append, List.mem_singleton] at huv
          rcases huv with huv | huv
          · rw [h3.old _ (hne u v huv)]; exact hi.nocost hl u v huv
          · obtain ⟨rfl, rfl⟩ := Prod.mk.inj huv; exact h5' hl
      · rw [if_neg hc]
        refine ⟨g, a, rfl, h, hi.dir, hi.V, ?_, ?_, hi.anti, hi.cost, hi.label, hi.nocost⟩
        · intro u v huv
          obtain ⟨h6, h7⟩ := hi.sub u v huv; exact ⟨hPsub _ h6, h7⟩
        · intro u v huv h6 h7
          rw [List.mem_append, List.mem_singleton, Prod.mk.injEq] at huv
          rcases huv with huv | ⟨rfl, rfl⟩
          · exact hi.sup u v huv h6 h7
          · right
            simp only [Bool.and_eq_true, Bool.or_eq_true, Bool.not_eq_true', decide_eq_true_eq, not_and] at hc
            have h8 : ¬ (A.parallel = true ∨ g.edgeAttr.contains (v, u) = false) := fun hh => hc ⟨hh, h6⟩ h7
            rw [not_or] at h8
            exact ⟨by simpa using h8.1, hcon.1 (by simpa using h8.2)⟩
    obtain ⟨g1, a1, h1, h2, h3⟩ := main
    obtain ⟨g', a', h4, h5, h6⟩ := ih (P ++ [(m, n)]) g1 a1 hnd' hlt' hun' h2 h3
    refine ⟨g', a', ?_, h5, by simpa using h6⟩
    rw [tryPairs, gm_bind, h1]
    exact h4

theorem mem_pairs {d : Bool} {k u v : Nat} : (u, v) ∈ pairs d k ↔ u < k ∧ if d then v < k else v < u := by
  unfold pairs
  simp only [List.mem_flatMap, List.mem_range, List.mem_map, Prod.mk.injEq, exists_eq_right_right]
  cases d <;> simp

theorem nodup_pairs (d : Bool) (k : Nat) : (pairs d k).Nodup := by
  unfold pairs
  rw [List.nodup_flatMap]
  refine ⟨fun m _ => (List.nodup_range).map fun _ _ h => (Prod.mk.inj h).2, ?_⟩
  refine List.Pairwise.imp ?_ (List.nodup_range (n := k))
  intro x y hxy p h1 h2
  simp only [List.mem_map, List.mem_range] at h1 h2
  obtain ⟨_, _, rfl⟩ := h1
  obtain ⟨_, _, h3⟩ := h2
  exact hxy (Prod.mk.inj h3).1.symm

end Misc

variable {g : Graph Nat}

/-- **C51.** `random(numnodes, density=...)` on a new graph, whatever the random numbers are (if `edge_format` has no entry
'cost'): the call does not raise, the nodes are 0..n-1; every edge joins different nodes for which the coin fell; without
`parallel_allowed` there are no two opposite edges, and for every pair for which the coin fell there is an edge in one of the
directions; with it, or on an undirected graph, the edges are exactly the pairs for which the coin fell; the cost of an edge
is the number drawn for it, hence within `length_range`; without lengths edges have no cost (which is the case for Euclidean
graphs with a `length_range`). -/
theorem C51_random (A : RandomArgs) (hfmt : "cost" ∉ A.edgeFormat.map Prod.fst) (d : Bool) :
    ∃ g, (Misc.random A).run (Graph.init d) = .ok () g ∧ g.getNodeList = List.range A.numnodes ∧
      (∀ u v, (u, v) ∈ g.getEdgeList → u < A.numnodes ∧ v < A.numnodes ∧ u ≠ v ∧ A.coin u v = true) ∧
      (A.parallel = false → ∀ u v, (u, v) ∈ g.getEdgeList → (v, u) ∉ g.getEdgeList) ∧
      (d = true → ∀ u v, u < A.numnodes → v < A.numnodes → u ≠ v → A.coin u v = true →
        (u, v) ∈ g.getEdgeList ∨ A.parallel = false ∧ (v, u) ∈ g.getEdgeList) ∧
      (d = false → ∀ u v, (u, v) ∈ g.getEdgeList ↔ v < u ∧ u < A.numnodes ∧ A.coin u v = true) ∧
      (A.lengths = true → ∀ u v, (u, v) ∈ g.getEdgeList → g.getEdgeAttr u v "cost" = .ok (.int (A.len u v))) ∧
      (A.lengths = true → ∀ lo hi, (∀ u v, lo ≤ A.len u v ∧ A.len u v ≤ hi) → ∀ u v, (u, v) ∈ g.getEdgeList →
        ∃ x, g.getEdgeAttr u v "cost" = .ok (.int x) ∧ lo ≤ x ∧ x ≤ hi) ∧
      (A.lengths = false → ∀ u v, (u, v) ∈ g.getEdgeList → g.getEdgeAttr u v "cost" = .error .keyError) := by
  obtain ⟨g1, a1, h1, h2, h3, h4, h5⟩ := addNodes_ok A (List.range A.numnodes) _ _ (rep_init d)
    (by simpa [AGraph.empty] using List.nodup_range)
  have hV : a1.V = List.range A.numnodes := by rw [h3]; rfl
  have hE : a1.E = [] := by rw [h4]; rfl
  have hdir : g1.directed = d := by rw [h2.dir, h5]; rfl
  obtain ⟨g, a, h6, h7, h8⟩ := tryPairs_ok A hfmt d (pairs d A.numnodes) [] g1 a1 (by simpa using nodup_pairs d _)
    (by
      rintro ⟨u, v⟩ hp
      rw [List.nil_append, mem_pairs] at hp
      refine ⟨hp.1, ?_⟩
      have := hp.2
      simp only []
      split at this <;> omega)
    (by
      rintro rfl ⟨u, v⟩ hp
      rw [List.nil_append, mem_pairs] at hp
      simpa using hp.2)
    h2 ⟨by rw [h5]; rfl, hV, by simp [hE], by simp, by simp [hE], by simp [hE], by simp [hE], by simp [hE]⟩
  rw [List.nil_append] at h8
  have hEl : g.getEdgeList = a.E := h7.E
  have hcost : A.lengths = true → ∀ u v, (u, v) ∈ g.getEdgeList → g.getEdgeAttr u v "cost" = .ok (.int (A.len u v)) := by
    intro hl u v huv
    have h9 := h8.cost hl u v (hEl ▸ huv)
    have h10 := h7.ea (u, v) (hEl ▸ huv) "cost"
    rw [h9] at h10
    unfold Graph.getEdgeAttr
    obtain ⟨at', h11⟩ := (Dict.mem_keys' _ _).1 huv
    rw [h11] at h10
    simp only [Option.bind_some] at h10
    simp [h11, h10]
  refine ⟨g, ?_, h7.V.trans h8.V, ?_, ?_, ?_, ?_, hcost, ?_, ?_⟩
  · rw [Misc.random, gm_bind, h1]
    simp only []
    rw [gm_bind]
    simp only [gm_get]
    rw [hdir]; exact h6
  · intro u v huv
    obtain ⟨h9, h10, h11⟩ := h8.sub u v (hEl ▸ huv)
    rw [mem_pairs] at h9
    refine ⟨h9.1, ?_, h10, h11⟩
    have := h9.2
    split at this <;> omega
  · intro hp u v huv; rw [hEl] at huv ⊢; exact h8.anti hp u v huv
  · intro hd u v hu hv hne hc
    rw [hEl]
    exact h8.sup u v (mem_pairs.2 ⟨hu, by simpa [hd] using hv⟩) hne hc
  · intro hd u v
    rw [hEl]
    constructor
    · intro huv
      obtain ⟨h9, h10, h11⟩ := h8.sub u v huv
      rw [mem_pairs, hd] at h9
      exact ⟨by simpa using h9.2, h9.1, h11⟩
    · rintro ⟨h9, h10, h11⟩
      rcases h8.sup u v (mem_pairs.2 ⟨h10, by simpa [hd] using h9⟩) (by omega) h11 with h12 | ⟨_, h12⟩
      · exact h12
      · have := (h8.sub v u h12).1
        rw [mem_pairs, hd] at this
        have := this.2
        simp at this
        omega
  · intro hl lo hi hb u v huv
    exact ⟨_, hcost hl u v huv, hb u v⟩
  · intro hl u v _
    have hno : ∀ u v, (g.edgeAttr.get? (u, v)).bind (·.get? "cost") = none := by
      intro u v
      by_cases h9 : (u, v) ∈ a.E
      · rw [h7.ea _ h9, h8.nocost hl u v h9]
      · rw [(Dict.get?_eq_none_iff _ _).2 (fun hh => h9 (h7.E ▸ hh))]; rfl
    unfold Graph.getEdgeAttr
    rw [hno, hno]
    simp

/-- arguments used in the examples: three nodes, all coins fall -/
def exRand (p : Bool) : RandomArgs := ⟨3, true, true, p, fun _ => [("shape", .str "circle")], [("fontsize", .int 10)], fun _ _ => true, fun m n => m + 2 * n⟩

/-- the edges with their costs -/
def costsOf : EStateM.Result PyErr (Graph Nat) Unit → Option (List ((Nat × Nat) × Option (Val Nat)))
  | .ok _ g => some (g.edgeAttr.entries.map fun e => (e.1, e.2.get? "cost"))
  | .error _ _ => none

/-- non-vacuity of C51 -/
example : costsOf ((Misc.random (exRand false)).run (Graph.init true)) =
      some [((0, 1), some (.int 2)), ((0, 2), some (.int 4)), ((1, 2), some (.int 5))] ∧
    (costsOf ((Misc.random (exRand true)).run (Graph.init true))).map List.length = some 6 ∧
    (costsOf ((Misc.random (exRand false)).run (Graph.init false))).map List.length = some 3 ∧
    "cost" ∉ (exRand true).edgeFormat.map Prod.fst := by decide +kernel

namespace Misc
variable {a : AGraph Nat}

/-- what holds after the rounds `P` -/
structure DInv (A : DegreeArgs) (P : List (Nat × Nat)) (a : AGraph Nat) : Prop where
  V : a.V = List.range A.numnodes
  sub : ∀ u v, (u, v) ∈ a.E → u ≠ v ∧ ∃ i, (u, i) ∈ P ∧ A.pick u i = v ∧ a.ea (u, v) "cost" = some (.int (A.lenAt u i))
  sup : ∀ u i, (u, i) ∈ P → A.pick u i ≠ u → (u, A.pick u i) ∈ a.E ∨ A.parallel = false ∧ (A.pick u i, u) ∈ a.E
  anti : A.parallel = false → ∀ u v, (u, v) ∈ a.E → (v, u) ∉ a.E

theorem degAdd_ok (A : DegreeArgs) (hfmt : "cost" ∉ A.edgeFormat.map Prod.fst) (hl : A.lengths = true)
    (hb : A.addLabels = true) (h : Rep g a) {m n : Nat} (hm : m ∈ a.V) (hn : n ∈ a.V) (hk : a.key? m n = none) (i : Nat) :
    ∃ g' a', (degAdd A m n i).run g = .ok () g' ∧ Rep g' a' ∧ Added a a' (m, n) ∧
      a'.ea (m, n) "cost" = some (.int (A.lenAt m i)) := by
  unfold degAdd degLabel
  rw [if_pos hl]
  obtain ⟨g1, a1, h1, h2, h3, h4⟩ := edge_ok h hm hn hk (("cost", .int (A.lenAt m i)) :: A.edgeFormat)
  have hc : a1.ea (m, n) "cost" = some (.int (A.lenAt m i)) := by rw [h4]; exact kw_costFmt hfmt _
  rw [gm_bind, h1]
  simp only [if_pos hb]
  obtain ⟨g2, a2, h5, h6, h7, h8, h9, h10, h11⟩ := attr_ok h2 (by rw [h3.E]; simp : (m, n) ∈ a1.E) "label"
    (.str (toString (A.lenAt m i)))
  refine ⟨g2, a2, h5, h6, ⟨h7.trans h3.dir, h8.trans h3.V, h9.trans h3.E, fun e' he' => (h10 e' he').trans (h3.old e' he')⟩, ?_⟩
  rw [h11, if_neg (by decide)]; exact hc

theorem degRounds_ok (A : DegreeArgs) (hfmt : "cost" ∉ A.edgeFormat.map Prod.fst) (hl : A.lengths = true)
    (hb : A.addLabels = true) : ∀ (l P : List (Nat × Nat)) (g : Graph Nat) (a : AGraph Nat),
    (∀ p ∈ l, p.1 < A.numnodes ∧ A.pick p.1 p.2 < A.numnodes) → (a.directed = true ∨ A.parallel = false) →
    Rep g a → DInv A P a →
    ∃ g' a', (degRounds A l).run g = .ok () g' ∧ Rep g' a' ∧ DInv A (P ++ l) a' := by
  intro l
  induction l with
  | nil => intro P g a _ _ h hi; exact ⟨g, a, rfl, h, by simpa using hi⟩
  | cons p l ih =>
    intro P g a hlt hdp h hi
    obtain ⟨m, i⟩ := p
    have hcon : ∀ e, g.edgeAttr.contains e = true ↔ e ∈ a.E := fun e => by rw [Dict.contains_iff, h.E]
    have hPsub : ∀ e, e ∈ P → e ∈ P ++ [(m, i)] := fun e he => by simp [he]
    have main : ∃ g1 a1, (degRound A m i).run g = .ok () g1 ∧ Rep g1 a1 ∧ a1.directed = a.directed ∧
        DInv A (P ++ [(m, i)]) a1 := by
      unfold degRound
      rw [gm_bind]
      simp only [gm_get]
      by_cases hc : (!g.edgeAttr.contains (m, A.pick m i) && decide (m ≠ A.pick m i) &&
          (A.parallel || !g.edgeAttr.contains (A.pick m i, m))) = true
      · rw [if_pos hc]
        simp only [Bool.and_eq_true, Bool.or_eq_true, Bool.not_eq_true', decide_eq_true_eq] at hc
        obtain ⟨⟨hc1, hc2⟩, hc3⟩ := hc
        have hmE : (m, A.pick m i) ∉ a.E := by rw [← hcon, hc1]; simp
        have hnm : A.parallel = false → (A.pick m i, m) ∉ a.E := by
          intro hp
          rcases hc3 with hc3 | hc3
          · rw [hp] at hc3; cases hc3
          · rw [← hcon, hc3]; simp
        have hk : a.key? m (A.pick m i) = none := by
          unfold AGraph.key?
          rw [if_neg hmE]
          rcases hdp with hd | hp
          · rw [if_pos hd]
          · split
            · rfl
            · rw [if_neg (hnm hp)]
        have hm : m ∈ a.V := by rw [hi.V]; simpa using (hlt (m, i) (by simp)).1
        have hn : A.pick m i ∈ a.V := by rw [hi.V]; simpa using (hlt (m, i) (by simp)).2
        obtain ⟨g1, a1, h1, h2, h3, h4⟩ := degAdd_ok A hfmt hl hb h hm hn hk i
        have hne : ∀ u v, (u, v) ∈ a.E → (u, v) ≠ (m, A.pick m i) := fun u v huv hh => hmE (hh ▸ huv)
        refine ⟨g1, a1, h1, h2, h3.dir, h3.V.trans hi.V, ?_, ?_, ?_⟩
        · intro u v huv
          rw [h3.E, List.mem_append, List.mem_singleton] at huv
          rcases huv with huv | huv
          · obtain ⟨h6, j, h7, h8, h9⟩ := hi.sub u v huv
            exact ⟨h6, j, hPsub _ h7, h8, by rw [h3.old _ (hne u v huv)]; exact h9⟩
          · obtain ⟨rfl, rfl⟩ := Prod.mk.inj huv
            exact ⟨hc2, i, by simp, rfl, h4⟩
        · intro u j huj h6
          rw [h3.E]
          rw [List.mem_append, List.mem_singleton, Prod.mk.injEq] at huj
          rcases huj with huj | ⟨rfl, rfl⟩
          · rcases hi.sup u j huj h6 with h8 | ⟨h8, h9⟩
            · exact Or.inl (by simp [h8])
            · exact Or.inr ⟨h8, by simp [h9]⟩
          · exact Or.inl (by simp)
        · intro hp u v huv hvu
          rw [h3.E, List.mem_append, List.mem_singleton, Prod.mk.injEq] at huv hvu
          rcases huv with huv | ⟨h8, h9⟩ <;> rcases hvu with hvu | ⟨h6, h7⟩
          · exact hi.anti hp u v huv hvu
          · rw [h6, h7] at huv; exact hnm hp huv
          · rw [h8, h9] at hvu; exact hnm hp hvu
          · exact hc2 (h8.symm.trans h7)
      · rw [if_neg hc]
        refine ⟨g, a, rfl, h, rfl, hi.V, ?_, ?_, hi.anti⟩
        · intro u v huv
          obtain ⟨h6, j, h7, h8, h9⟩ := hi.sub u v huv
          exact ⟨h6, j, hPsub _ h7, h8, h9⟩
        · intro u j huj h6
          rw [List.mem_append, List.mem_singleton, Prod.mk.injEq] at huj
          rcases huj with huj | ⟨rfl, rfl⟩
          · exact hi.sup u j huj h6
          · by_cases h7 : (u, A.pick u j) ∈ a.E
            · exact Or.inl h7
            · right
              simp only [Bool.and_eq_true, Bool.or_eq_true, Bool.not_eq_true', decide_eq_true_eq] at hc
              have h8 : ¬ (A.parallel = true ∨ g.edgeAttr.contains (A.pick u j, u) = false) := fun hh =>
                hc ⟨⟨by rw [← Bool.not_eq_true, hcon]; exact h7, Ne.symm h6⟩, hh⟩
              rw [not_or] at h8
              exact ⟨by simpa using h8.1, (hcon _).1 (by simpa using h8.2)⟩
    obtain ⟨g1, a1, h1, h2, h3, h4⟩ := main
    obtain ⟨g', a', h5, h6, h7⟩ := ih (P ++ [(m, i)]) g1 a1 (fun p hp => hlt p (by simp [hp])) (by rw [h3]; exact hdp) h2 h4
    refine ⟨g', a', ?_, h6, by simpa using h7⟩
    rw [degRounds, gm_bind, h1]
    exact h5

theorem mem_rounds {A : DegreeArgs} {m i : Nat} : (m, i) ∈ rounds A ↔ m < A.numnodes ∧ i < A.deg m := by
  unfold rounds
  simp

/-- without lengths nothing happens -/
theorem degRounds_none (A : DegreeArgs) (hl : A.lengths = false) (l : List (Nat × Nat)) (g : Graph Nat) :
    (degRounds A l).run g = .ok () g := by
  induction l with
  | nil => rfl
  | cons p l ih =>
    have h1 : (degRound A p.1 p.2).run g = .ok () g := by
      unfold degRound degAdd
      rw [gm_bind]
      simp only [gm_get, hl, Bool.false_eq_true, if_false, gm_pure, ite_self]
    rw [degRounds, gm_bind, h1]
    exact ih

/-- with lengths and without labels the first edge is added twice -/
theorem degRounds_raise (A : DegreeArgs) (hl : A.lengths = true) (hb : A.addLabels = false) :
    ∀ (l : List (Nat × Nat)) (g : Graph Nat) (a : AGraph Nat), Rep g a → a.E = [] →
    (∀ p ∈ l, p.1 ∈ a.V ∧ A.pick p.1 p.2 ∈ a.V) → (∃ p ∈ l, A.pick p.1 p.2 ≠ p.1) →
    ∃ g', (degRounds A l).run g = .error .multipleEdge g' := by
  intro l
  induction l with
  | nil => intro g a _ _ _ h; obtain ⟨p, hp, _⟩ := h; cases hp
  | cons p l ih =>
    intro g a h hE hV hex
    obtain ⟨m, i⟩ := p
    have hcon : ∀ e, g.edgeAttr.contains e = false := fun e => by
      rw [← Bool.not_eq_true, Dict.contains_iff, h.E, hE]; simp
    by_cases hc : A.pick m i = m
    · have h1 : (degRound A m i).run g = .ok () g := by
        unfold degRound
        rw [gm_bind]
        simp [hc]
      obtain ⟨g', h2⟩ := ih g a h hE (fun p hp => hV p (by simp [hp])) (by
        obtain ⟨p, hp, hpp⟩ := hex
        rcases List.mem_cons.1 hp with rfl | hp
        · exact absurd hc hpp
        · exact ⟨p, hp, hpp⟩)
      refine ⟨g', ?_⟩
      rw [degRounds, gm_bind, h1]
      exact h2
    · obtain ⟨hm, hn⟩ := hV (m, i) (by simp)
      obtain ⟨g1, a1, h1, h2, h3, _⟩ := edge_ok h hm hn (by simp [AGraph.key?, hE])
        (("cost", .int (A.lenAt m i)) :: A.edgeFormat)
      have hst : a1.step (.addEdge m (A.pick m i) A.edgeFormat) = (some .multipleEdge, a1) := by
        simp [AGraph.step, AGraph.key?, h3.E, hE]
      have h4 := (rep_step h2 (.addEdge m (A.pick m i) A.edgeFormat) trivial).1
      rw [hst] at h4
      replace h4 : EStateM.Result.err ((Graph.addEdge m (A.pick m i) A.edgeFormat).run g1) = some .multipleEdge := h4
      have h5 : ∃ g', (degRound A m i).run g = .error .multipleEdge g' := by
        unfold degRound
        rw [gm_bind]
        simp only [gm_get]
        rw [if_pos (by simp [hcon, Ne.symm hc])]
        unfold degAdd degLabel
        rw [if_pos hl, gm_bind, h1]
        simp only [hb, Bool.false_eq_true, if_false]
        cases hr : (Graph.addEdge m (A.pick m i) A.edgeFormat).run g1 with
        | ok x s => rw [hr] at h4; cases h4
        | error e s =>
          rw [hr] at h4
          injection h4 with h4
          subst h4
          exact ⟨s, rfl⟩
      obtain ⟨g', h6⟩ := h5
      refine ⟨g', ?_⟩
      rw [degRounds, gm_bind, h6]

end Misc

/-- **C58 (partial).** `random(numnodes, degree_range=..., length_range=..., add_labels=True)` on a new graph, for all outcomes
of the random numbers (directed, or without `parallel_allowed`): it does not raise; the nodes are 0..n-1; every edge (u, v)
joins different nodes, is one that was picked for u in one of its rounds, and has the cost drawn in that round; for every
picked pair of different nodes the edge, or (without `parallel_allowed`) the opposite one, exists; without `parallel_allowed`
there are no opposite edges.  Missing from the full claim: the other values of the arguments, see `C58_false`. -/
theorem C58_random_degree_partial (A : DegreeArgs) (hfmt : "cost" ∉ A.edgeFormat.map Prod.fst) (d : Bool)
    (hl : A.lengths = true) (hb : A.addLabels = true) (hdp : d = true ∨ A.parallel = false)
    (hpick : ∀ m i, m < A.numnodes → i < A.deg m → A.pick m i < A.numnodes) :
    ∃ g, (randomDegree A).run (Graph.init d) = .ok () g ∧ g.getNodeList = List.range A.numnodes ∧
      (∀ u v, (u, v) ∈ g.getEdgeList → u ≠ v ∧ ∃ i, u < A.numnodes ∧ i < A.deg u ∧ A.pick u i = v ∧
        g.getEdgeAttr u v "cost" = .ok (.int (A.lenAt u i))) ∧
      (∀ u i, u < A.numnodes → i < A.deg u → A.pick u i ≠ u →
        (u, A.pick u i) ∈ g.getEdgeList ∨ A.parallel = false ∧ (A.pick u i, u) ∈ g.getEdgeList) ∧
      (A.parallel = false → ∀ u v, (u, v) ∈ g.getEdgeList → (v, u) ∉ g.getEdgeList) := by
  obtain ⟨g1, a1, h1, h2, h3, h4, h5⟩ := addNodes_ok A.toRandomArgs (List.range A.numnodes) _ _ (rep_init d)
    (by simpa [AGraph.empty] using List.nodup_range)
  have hV : a1.V = List.range A.numnodes := by rw [h3]; rfl
  have hE : a1.E = [] := by rw [h4]; rfl
  obtain ⟨g, a, h6, h7, h8⟩ := degRounds_ok A hfmt hl hb (rounds A) [] g1 a1
    (by
      rintro ⟨m, i⟩ hp
      obtain ⟨h6, h7⟩ := mem_rounds.1 hp
      exact ⟨h6, hpick m i h6 h7⟩)
    (by rw [h5]; exact hdp) h2 ⟨hV, by simp [hE], by simp, by simp [hE]⟩
  rw [List.nil_append] at h8
  have hEl : g.getEdgeList = a.E := h7.E
  refine ⟨g, ?_, h7.V.trans h8.V, ?_, ?_, ?_⟩
  · rw [randomDegree, gm_bind, h1]
    exact h6
  · intro u v huv
    obtain ⟨h9, i, h10, h11, h12⟩ := h8.sub u v (hEl ▸ huv)
    obtain ⟨h13, h14⟩ := mem_rounds.1 h10
    refine ⟨h9, i, h13, h14, h11, ?_⟩
    have h15 := h7.ea (u, v) (hEl ▸ huv) "cost"
    rw [h12] at h15
    unfold Graph.getEdgeAttr
    obtain ⟨at', h16⟩ := (Dict.mem_keys' _ _).1 huv
    rw [h16] at h15
    simp only [Option.bind_some] at h15
    simp [h16, h15]
  · intro u i hu hi hne
    rw [hEl]
    exact h8.sup u i (mem_rounds.2 ⟨hu, hi⟩) hne
  · intro hp u v huv; rw [hEl] at huv ⊢; exact h8.anti hp u v huv

/-- **C58 is false** for the other arguments: without `length_range` the result has no edges whatever degrees are asked for,
and with `length_range` and without `add_labels` the call raises MultipleEdgeException as soon as a node picks
another node. -/
theorem C58_false (A : DegreeArgs) (d : Bool) :
    (A.lengths = false → ∃ g, (randomDegree A).run (Graph.init d) = .ok () g ∧ g.getNodeList = List.range A.numnodes ∧
      g.getEdgeList = []) ∧
    (A.lengths = true → A.addLabels = false → (∀ m i, m < A.numnodes → i < A.deg m → A.pick m i < A.numnodes) →
      (∃ m i, m < A.numnodes ∧ i < A.deg m ∧ A.pick m i ≠ m) →
      ∃ g, (randomDegree A).run (Graph.init d) = .error .multipleEdge g) := by
  obtain ⟨g1, a1, h1, h2, h3, h4, h5⟩ := addNodes_ok A.toRandomArgs (List.range A.numnodes) _ _ (rep_init d)
    (by simpa [AGraph.empty] using List.nodup_range)
  have hV : a1.V = List.range A.numnodes := by rw [h3]; rfl
  have hE : a1.E = [] := by rw [h4]; rfl
  constructor
  · intro hl
    refine ⟨g1, ?_, h2.V.trans hV, h2.E.trans hE⟩
    rw [randomDegree, gm_bind, h1]
    exact degRounds_none A hl _ g1
  · rintro hl hb hp ⟨m, i, hm, hi, hne⟩
    obtain ⟨g', h6⟩ := degRounds_raise A hl hb (rounds A) g1 a1 h2 hE (by
      rintro ⟨m, i⟩ hp'
      obtain ⟨h6, h7⟩ := mem_rounds.1 hp'
      rw [hV]
      exact ⟨by simpa using h6, by simpa using hp m i h6 h7⟩) ⟨(m, i), mem_rounds.2 ⟨hm, hi⟩, hne⟩
    refine ⟨g', ?_⟩
    rw [randomDegree, gm_bind, h1]
    exact h6

/-- arguments used in the example: every node picks 1 and then 2 -/
def exDegr (l b : Bool) : DegreeArgs :=
  { exRand false with lengths := l, addLabels := b, deg := fun _ => 2, pick := fun _ i => i + 1, lenAt := fun m i => 10 * m + i }

/-- non-vacuity of C58 -/
example : costsOf ((randomDegree (exDegr true true)).run (Graph.init true)) =
      some [((0, 1), some (.int 0)), ((0, 2), some (.int 1)), ((1, 2), some (.int 11))] ∧
    costsOf ((randomDegree (exDegr true false)).run (Graph.init true)) = none ∧
    costsOf ((randomDegree (exDegr false true)).run (Graph.init true)) = some [] ∧
    (∀ m i, m < 3 → i < (exDegr true true).deg m → (exDegr true true).pick m i < 3) :=
  ⟨by decide +kernel, by decide +kernel, by decide +kernel, fun m i _ hi => by
    simp only [exDegr] at hi ⊢; omega⟩

end GiMPy
