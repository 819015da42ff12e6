import Verif.Props.Kruskal
import Verif.Props.DisjointSet

/-! # C119: Kruskal's algorithm with a given disjoint set -/

namespace GiMPy
namespace Kruskal
open DSet
variable {N : Type} [DecidableEq N]

theorem addAll_gen (l : List N) {d : DSet N} {R : N → N → Prop} (h : FInv d R) (hnd : l.Nodup)
    (hl : ∀ x ∈ l, x ∉ d.g.neighbors.keys) :
    ∃ d', addAll d l = .ok d' ∧ FInv d' R ∧ d'.g.neighbors.keys = d.g.neighbors.keys ++ l := by
  induction l generalizing d with
  | nil => exact ⟨d, rfl, h, by simp⟩
  | cons n l ih =>
    have hnd' := List.nodup_cons.1 hnd
    obtain ⟨d1, e1, e2, e3, _⟩ := add_ok h [n] (by simp) (by simp) (by simpa using hl n (by simp))
    have : addRel R [n] = R := by
      funext u v
      simp only [addRel, List.mem_singleton, eq_iff_iff]
      constructor
      · rintro (h1 | ⟨h1, h2⟩)
        · exact h1
        · rw [h1, h2]; exact h.eqv.refl n
      · exact Or.inl
    rw [this] at e2
    obtain ⟨d2, f1, f2, f3⟩ := ih e2 hnd'.2 (by
      intro x hx
      rw [e3]
      have hne : x ≠ n := by rintro rfl; exact hnd'.1 hx
      simp [hl x (by simp [hx]), hne])
    exact ⟨d2, by rw [addAll, e1]; exact f1, f2, by rw [f3, e3]; simp⟩

/-- adding one node: it raises iff it is an item already -/
theorem add_one (d : DSet N) (n : N) :
    d.add [n] = if d.g.neighbors.contains n then .error .multipleNode
      else .ok { d with g := d.g.addNodeS n [], sizes := d.sizes.set n 1 } := by
  have h1 := Graph.addNode_run d.g n []
  unfold add
  simp only []
  by_cases h : d.g.neighbors.contains n = true
  · rw [if_pos h] at h1
    rw [if_pos h]
    have : (do Graph.addNode n []; addEdges n [] : GM N Unit).run d.g = .error .multipleNode d.g := by
      simp only [EStateM.run, bind, EStateM.bind] at h1 ⊢
      rw [h1]
    rw [this]
  · rw [if_neg h] at h1
    rw [if_neg h]
    have : (do Graph.addNode n []; addEdges n [] : GM N Unit).run d.g = .ok () (d.g.addNodeS n []) := by
      simp only [EStateM.run, bind, EStateM.bind] at h1 ⊢
      rw [h1]
      rfl
    rw [this]
    rfl

/-- a node that is an item already: the call raises -/
theorem addAll_raises (l : List N) {d : DSet N} {n : N} (hn : n ∈ l) (hd : n ∈ d.g.neighbors.keys) :
    addAll d l = .error .multipleNode := by
  induction l generalizing d with
  | nil => cases hn
  | cons m l ih =>
    rw [addAll, add_one]
    by_cases h : d.g.neighbors.contains m = true
    · rw [if_pos h]
    · rw [if_neg h]
      simp only []
      have hne : n ≠ m := by
        rintro rfl
        exact h ((Dict.contains_iff _ _).2 hd)
      refine ih ((List.mem_cons.1 hn).resolve_left hne) ?_
      have : m ∉ d.g.neighbors.keys := fun hh => h ((Dict.contains_iff _ _).2 hh)
      simp only [Graph.addNodeS]
      rw [Dict.keys_set_of_not_mem _ this]
      exact List.mem_append_left _ hd

/-- two disjoint sets that agree on the nodes: the loops return the same list -/
theorem loop_sync {V : List N} {fuel n : Nat} (l : List (N × N)) (hl : ∀ e ∈ l, e.1 ∈ V ∧ e.2 ∈ V) (F : List (N × N))
    {d0 d : DSet N} {R0 R : N → N → Prop} (h0 : FInv d0 R0) (h : FInv d R) (hV0 : ∀ v ∈ V, v ∈ d0.g.neighbors.keys)
    (hV : ∀ v ∈ V, v ∈ d.g.neighbors.keys) (hf0 : d0.g.neighbors.keys.length ≤ fuel) (hf : d.g.neighbors.keys.length ≤ fuel)
    (r0 : ∀ u ∈ V, ∀ v ∈ V, R0 u v ↔ EConn F u v) (r : ∀ u ∈ V, ∀ v ∈ V, R u v ↔ EConn F u v) :
    ∃ F' d' R', loop n fuel l d0 F = .ok F' ∧ loopD n fuel l d F = .ok (F', d') ∧ FInv d' R' ∧
      d'.g.neighbors.keys = d.g.neighbors.keys ∧ ∀ u ∈ V, ∀ v ∈ V, R' u v ↔ EConn F' u v := by
  induction l generalizing F d0 d R0 R with
  | nil => exact ⟨F, d, R, rfl, rfl, h, rfl, r⟩
  | cons e l ih =>
    rw [loop, loopD]
    by_cases hb : F.length + 1 = n
    · rw [if_pos hb, if_pos hb]
      exact ⟨F, d, R, rfl, rfl, h, rfl, r⟩
    rw [if_neg hb, if_neg hb]
    have he := hl e (by simp)
    have hl' := fun e he => hl e (List.mem_cons_of_mem _ he)
    obtain ⟨b0, d0', a1, a2, a3, _, a5⟩ := union_ok h0 (hV0 _ he.1) (hV0 _ he.2) hf0
    obtain ⟨b, d', c1, c2, c3, _, c5⟩ := union_ok h (hV _ he.1) (hV _ he.2) hf
    rw [a1, c1]
    have hm : ∀ (Q : N → N → Prop), (∀ u ∈ V, ∀ v ∈ V, Q u v ↔ EConn F u v) → ∀ u ∈ V, ∀ v ∈ V,
        merge Q e.1 e.2 u v ↔ EConn (F ++ [e]) u v := by
      intro Q hQ u hu v hv
      rw [show F ++ [e] = F ++ [(e.1, e.2)] from rfl, ← merge_econn]
      unfold merge
      rw [hQ u hu v hv, hQ u hu _ he.1, hQ _ he.2 v hv, hQ u hu _ he.2, hQ _ he.1 v hv]
    have hbb : b0 = b := by
      rw [Bool.eq_iff_iff, a2, c2, r0 _ he.1 _ he.2, r _ he.1 _ he.2]
    subst hbb
    cases b0 with
    | true =>
      simp only []
      have := ih hl' (F ++ [e]) a5 c5 (fun v hv => a3 ▸ hV0 v hv) (fun v hv => c3 ▸ hV v hv) (a3 ▸ hf0) (c3 ▸ hf) (hm R0 r0) (hm R r)
      rwa [c3] at this
    | false =>
      simp only []
      have hq : EConn F e.1 e.2 := by
        by_contra hh
        rw [← r _ he.1 _ he.2] at hh
        have := c2.2 hh
        cases this
      have hsame : ∀ u v, EConn (F ++ [e]) u v ↔ EConn F u v := by
        intro u v
        rw [show F ++ [e] = F ++ [(e.1, e.2)] from rfl, ← merge_econn]
        constructor
        · rintro (h | ⟨h1, h2⟩ | ⟨h1, h2⟩)
          · exact h
          · exact h1.trans (hq.trans h2)
          · exact h1.trans ((EConn.symm hq).trans h2)
        · exact Or.inl
      have := ih hl' F a5 c5 (fun v hv => a3 ▸ hV0 v hv) (fun v hv => c3 ▸ hV v hv) (a3 ▸ hf0) (c3 ▸ hf)
        (fun u hu v hv => (hm R0 r0 u hu v hv).trans (hsame u v)) (fun u hu v hv => (hm R r u hu v hv).trans (hsame u v))
      rwa [c3] at this

theorem econn_nil {u v : N} : EConn [] u v ↔ u = v := by
  refine ⟨fun h => ?_, fun h => h ▸ .refl⟩
  induction h with
  | refl => rfl
  | tail _ h _ => rcases h with h | h <;> cases h

theorem costs_fst {g : Graph N} (l : List (N × N)) {cs : List ((N × N) × Int)} (h : costs g l = .ok cs) :
    cs.map Prod.fst = l := by
  induction l generalizing cs with
  | nil => cases h; rfl
  | cons e l ih =>
    unfold costs at h
    split at h
    · cases h
    · split at h
      · cases h
      · next hc => cases h; simp [ih hc]

theorem sorted_mem {cs : List ((N × N) × Int)} {e : N × N} : e ∈ sorted cs ↔ e ∈ cs.map Prod.fst := by
  unfold sorted
  exact ((List.perm_insertionSort _ cs).map Prod.fst).mem_iff

end Kruskal

open Kruskal
variable {N : Type} [DecidableEq N]

/-- **C119 (partial).** Let `components` be a `DisjointSet` after any valid history of calls (C23), with or without path
compression, none of whose items is a node of the graph.  Then `minimum_spanning_tree_kruskal(components=d)` returns exactly what
`minimum_spanning_tree_kruskal()` returns, with the same exception if that raises (a cost that is missing), and after it
two nodes have the same root in `components` iff the returned edges join them.  Missing from the full claim: a set that has a
node of the graph as an item, for which the call raises, see `C119_false`. -/
theorem C119_given_components_partial {g : Graph N} (hg : Built g) (o : Bool) {fuel : Nat} (ops : List (DOp N))
    (hv : ValidOps ops) (hdis : ∀ n ∈ g.getNodeList, n ∉ items ops)
    (hf : (items ops).length + g.getNodeList.length ≤ fuel) :
    ∃ d, DSet.run o fuel ops = .ok d ∧
      ((∃ e, kruskal g fuel = .error e ∧ kruskalWith g d fuel = .error e) ∨
       ∃ F d', kruskal g fuel = .ok F ∧ kruskalWith g d fuel = .ok (F, d') ∧
        ∀ u ∈ g.getNodeList, ∀ v ∈ g.getNodeList, ∃ r s d1 d2, d'.find fuel u = .ok (r, d1) ∧ d1.find fuel v = .ok (s, d2) ∧
          (r = s ↔ EConn F u v)) := by
  have hw := hg.wf
  obtain ⟨d, h1, h2, h3, h4⟩ := run_ok o ops hv (fuel := fuel) (by omega)
  refine ⟨d, h1, ?_⟩
  unfold kruskal kruskalWith
  cases hc : costs g g.getEdgeList with
  | error e => exact Or.inl ⟨e, rfl, rfl⟩
  | ok cs =>
    right
    simp only []
    obtain ⟨d0, a1, a2, a3⟩ := addAll_ok g.getNodeList (DSet.finv_init false) hw.nodup (by simp [DSet.init, Graph.init])
    obtain ⟨d1, b1, b2, b3⟩ := addAll_gen g.getNodeList h2 hw.nodup (by rw [h3]; exact hdis)
    rw [a1, b1]
    simp only []
    have hk0 : d0.g.neighbors.keys = g.getNodeList := by rw [a3]; simp [DSet.init, Graph.init]
    have hends : ∀ e ∈ sorted cs, e.1 ∈ g.getNodeList ∧ e.2 ∈ g.getNodeList := by
      intro e he
      rw [sorted_mem, costs_fst _ hc] at he
      exact hw.endp e.1 e.2 he
    obtain ⟨F, d', R', f1, f2, f3, f4, f5⟩ := loop_sync (V := g.getNodeList) (n := g.getNodeList.length) (fuel := fuel)
      (sorted cs) hends [] a2 b2 (by rw [hk0]; exact fun _ h => h)
      (fun v hv => by rw [b3]; exact List.mem_append_right _ hv) (by rw [hk0]; omega)
      (by rw [b3, h3, List.length_append]; exact hf)
      (fun u _ v _ => econn_nil.symm) (fun u hu v hv => by
        rw [econn_nil]
        constructor
        · intro hR
          rcases h2.inV u v hR with h | ⟨h, _⟩
          · exact h
          · rw [h3] at h; exact absurd h (hdis u hu)
        · rintro rfl; exact h2.eqv.refl u)
    refine ⟨F, d', f1, f2, fun u hu v hv => ?_⟩
    have hmem : ∀ x ∈ g.getNodeList, x ∈ d'.g.neighbors.keys := fun x hx => by
      rw [f4, b3]; exact List.mem_append_right _ hx
    have hlen : d'.g.neighbors.keys.length ≤ fuel := by rw [f4, b3, h3, List.length_append]; exact hf
    obtain ⟨r0, e0, _, _, p1, p2, p3, _, _, p6, p7, p8, _⟩ := DSet.find_ok f3 (hmem u hu) (f := fuel) hlen
    obtain ⟨r1, e1, _, _, q1, q2, q3, _, _, q6, q7, q8, _, _, _, q9⟩ := DSet.find_ok p2 (i := v) (by rw [p3]; exact hmem v hv)
      (f := fuel) (by rw [p3]; exact hlen)
    refine ⟨r0, r1, e0, e1, p1, q1, ?_⟩
    rw [← f5 u hu v hv]
    have e := f3.eqv
    constructor
    · rintro rfl; exact e.trans p6 (e.symm q6)
    · intro hR
      exact q2.uniq r0 r1 (by rw [q3, p3]; exact p7) (by rw [q3]; exact q7) (q9 r0 p8) q8 (e.trans (e.symm p6) (e.trans hR q6))

/-- **C119 is false** when a node of the graph is an item of `components`: the call then raises (unless a cost is missing, which
raises before), so no partition of the nodes can be given, and a set that was used for a call cannot be used for a second one. -/
theorem C119_false {g : Graph N} (d : DSet N) (fuel : Nat) (hc : ∃ cs, costs g g.getEdgeList = .ok cs) {n : N}
    (hn : n ∈ g.getNodeList) (hd : n ∈ d.g.neighbors.keys) : kruskalWith g d fuel = .error .multipleNode := by
  obtain ⟨cs, hc⟩ := hc
  unfold kruskalWith
  rw [hc]
  simp only []
  rw [addAll_raises _ hn hd]

/-- non-vacuity of C119: a set with other items, used by path compression, and its second use -/
example : ValidOps ([.union 20 21, .add [21], .add [20, 22]] : List (DOp Nat)) ∧
    (∀ n ∈ exU.getNodeList, n ∉ items ([.union 20 21, .add [21], .add [20, 22]] : List (DOp Nat))) ∧
    (match DSet.run true 20 ([.union 20 21, .add [21], .add [20, 22]] : List (DOp Nat)) with
      | .ok d => (match kruskalWith exU d 20 with
        | .ok (F, d') => F == [(0, 2), (2, 3), (7, 8), (1, 2)] && (match kruskalWith exU d' 20 with
          | .error .multipleNode => true
          | _ => false)
        | .error _ => false)
      | .error _ => false) = true := by
  refine ⟨?_, by decide +kernel, by decide +kernel⟩
  simp only [ValidOps, items]
  decide

end GiMPy
