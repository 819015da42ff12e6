import Verif.Props.Random
import Verif.Model.Euclid

/-! # C92, C93: Euclidean random graphs with `degree_range` -/

namespace GiMPy
open Misc
namespace Misc

/-- `w` comes before `v` in the order of the distances from `m`: nearer, or as near and with a smaller number -/
def Before (A : EuclidArgs) (m w v : Nat) : Prop := A.dist w m < A.dist v m ∨ A.dist w m = A.dist v m ∧ w < v

instance (A : EuclidArgs) (m w v : Nat) : Decidable (Before A m w v) := inferInstanceAs (Decidable (_ ∨ _))

/-- the number of nodes that come before `v`, seen from `m` -/
def rank (A : EuclidArgs) (m v : Nat) : Nat := ((List.range A.numnodes).filter fun w => Before A m w v).length

/-- the same order on the pairs node, length -/
def Lex (a b : Nat × Int) : Prop := a.2 < b.2 ∨ a.2 = b.2 ∧ a.1 < b.1

instance (a b : Nat × Int) : Decidable (Lex a b) := inferInstanceAs (Decidable (_ ∨ _))

theorem lex_insert (a : Nat × Int) : ∀ l : List (Nat × Int), (∀ b ∈ l, a.1 < b.1) → l.Pairwise Lex →
    (l.orderedInsert (fun a b => a.2 ≤ b.2) a).Pairwise Lex := by
  intro l
  induction l with
  | nil => intro _ _; simp
  | cons b l ih =>
    intro ha hl
    rw [List.pairwise_cons] at hl
    by_cases h : a.2 ≤ b.2
    · rw [List.orderedInsert_cons, if_pos h, List.pairwise_cons]
      refine ⟨fun c hc => ?_, List.pairwise_cons.2 hl⟩
      have h1 := ha c hc
      rcases List.mem_cons.1 hc with rfl | hc
      · unfold Lex; omega
      · have := hl.1 c hc
        unfold Lex at this ⊢; omega
    · rw [List.orderedInsert_cons, if_neg h, List.pairwise_cons]
      refine ⟨fun c hc => ?_, ih (fun c hc => ha c (by simp [hc])) hl.2⟩
      rw [List.mem_orderedInsert] at hc
      rcases hc with rfl | hc
      · unfold Lex; omega
      · exact hl.1 c hc

theorem lex_sort : ∀ l : List (Nat × Int), l.Pairwise (fun a b => a.1 < b.1) →
    (l.insertionSort fun a b => a.2 ≤ b.2).Pairwise Lex := by
  intro l
  induction l with
  | nil => intro _; simp
  | cons a l ih =>
    intro h
    rw [List.pairwise_cons] at h
    rw [List.insertionSort_cons]
    exact lex_insert a _ (fun b hb => h.1 b ((List.mem_insertionSort _).1 hb)) (ih h.2)

theorem mem_take_lex {x : Nat × Int} : ∀ (l : List (Nat × Int)) (k : Nat), l.Pairwise Lex →
    (x ∈ l.take k ↔ x ∈ l ∧ (l.filter fun y => Lex y x).length < k) := by
  intro l
  induction l with
  | nil => intro k _; simp
  | cons b l ih =>
    intro k h
    rw [List.pairwise_cons] at h
    cases k with
    | zero => simp
    | succ k =>
      rw [List.take_succ_cons, List.mem_cons, List.mem_cons, ih k h.2]
      by_cases hx : x = b
      · subst hx
        have h1 : ((x :: l).filter fun y => decide (Lex y x)) = [] := by
          rw [List.filter_eq_nil_iff]
          intro c hc
          rcases List.mem_cons.1 hc with rfl | hc
          · simp [Lex]
          · have := h.1 c hc
            rw [decide_eq_true_eq]
            unfold Lex at this ⊢
            omega
        simp [h1]
      · by_cases hl : x ∈ l
        · have h1 := h.1 x hl
          simp [hx, hl, h1]
        · simp [hx, hl]

theorem mem_byLength {A : EuclidArgs} {m : Nat} {p : Nat × Int} :
    p ∈ byLength A m ↔ p.1 < A.numnodes ∧ p.2 = A.dist p.1 m := by
  unfold byLength
  rw [List.mem_insertionSort, List.mem_map]
  constructor
  · rintro ⟨n, hn, rfl⟩; exact ⟨by simpa using hn, rfl⟩
  · rintro ⟨h1, h2⟩; exact ⟨p.1, by simpa using h1, by rw [← h2]⟩

theorem length_byLength (A : EuclidArgs) (m : Nat) : (byLength A m).length = A.numnodes := by
  unfold byLength; simp

/-- the nodes looked at for `m` are those of rank at most the degree -/
theorem mem_near {A : EuclidArgs} {m v : Nat} : v ∈ ((byLength A m).take (A.deg m + 1)).map Prod.fst ↔
    v < A.numnodes ∧ rank A m v ≤ A.deg m := by
  have hp : (byLength A m).Pairwise Lex := by
    refine lex_sort _ ?_
    rw [List.pairwise_map]
    exact List.pairwise_lt_range
  have hr : ((byLength A m).filter fun y => Lex y (v, A.dist v m)).length = rank A m v := by
    have h1 : ((byLength A m).filter fun y => decide (Lex y (v, A.dist v m))).Perm
        (((List.range A.numnodes).map fun n => (n, A.dist n m)).filter fun y => decide (Lex y (v, A.dist v m))) :=
      (List.perm_insertionSort _ _).filter _
    rw [h1.length_eq, List.filter_map, List.length_map]
    rfl
  have hmem : (v, A.dist v m) ∈ byLength A m ↔ v < A.numnodes := by rw [mem_byLength]; simp
  rw [List.mem_map]
  constructor
  · rintro ⟨p, h1, rfl⟩
    have h2 := mem_byLength.1 (List.mem_of_mem_take h1)
    have h3 : p = (p.1, A.dist p.1 m) := by rw [← h2.2]
    have h4 := (mem_take_lex _ _ hp).1 h1
    rw [h3, hr] at h4
    exact ⟨h2.1, by simpa using Nat.lt_succ_iff.1 h4.2⟩
  · rintro ⟨h1, h2⟩
    exact ⟨(v, A.dist v m), (mem_take_lex _ _ hp).2 ⟨hmem.2 h1, by rw [hr]; omega⟩, rfl⟩

variable {g : Graph Nat} {a : AGraph Nat}

/-- what holds after the pairs `P` were looked at -/
structure EInv (A : EuclidArgs) (d : Bool) (P : List (Nat × Nat)) (a : AGraph Nat) : Prop where
  dir : a.directed = d
  V : a.V = List.range A.numnodes
  sub : ∀ u v, (u, v) ∈ a.E → (u, v) ∈ P ∧ u ≠ v ∧ a.ea (u, v) "cost" = some (.int (A.dist v u)) ∧
    (A.addLabels = true → a.ea (u, v) "label" = some (.str (toString (A.dist v u))))
  sup : ∀ u v, (u, v) ∈ P → u ≠ v → (u, v) ∈ a.E ∨ d = false ∧ (v, u) ∈ a.E
  anti : d = false → ∀ u v, (u, v) ∈ a.E → (v, u) ∉ a.E

theorem check_key (h : Rep g a) (u v : Nat) : g.checkEdge u v = true ↔ a.key? u v ≠ none := by
  have hcon : ∀ e, g.edgeAttr.contains e = true ↔ e ∈ a.E := fun e => by rw [Dict.contains_iff, h.E]
  unfold Graph.checkEdge AGraph.key?
  rw [h.dir]
  cases a.directed with
  | true => simp only [if_true]; rw [hcon]; split <;> simp_all
  | false =>
    simp only [Bool.false_eq_true, if_false, Bool.or_eq_true, hcon]
    split
    · simp_all
    · split <;> simp_all

theorem closeOne_ok (A : EuclidArgs) (hfmt : "cost" ∉ A.edgeFormat.map Prod.fst) (d : Bool) {P : List (Nat × Nat)}
    {m v : Nat} (hm : m < A.numnodes) (hv : v < A.numnodes) (h : Rep g a) (hi : EInv A d P a) :
    ∃ g' a', (closeOne A m (v, A.dist v m)).run g = .ok () g' ∧ Rep g' a' ∧ EInv A d (P ++ [(m, v)]) a' := by
  have hPsub : ∀ e, e ∈ P → e ∈ P ++ [(m, v)] := fun e he => by simp [he]
  unfold closeOne
  rw [gm_bind]
  simp only [gm_get]
  by_cases hc : v = m ∨ g.checkEdge m v = true
  · rw [if_pos hc]
    refine ⟨g, a, rfl, h, hi.dir, hi.V, ?_, ?_, hi.anti⟩
    · intro x y hxy
      obtain ⟨h1, h2⟩ := hi.sub x y hxy
      exact ⟨hPsub _ h1, h2⟩
    · intro x y hxy hne
      rw [List.mem_append, List.mem_singleton, Prod.mk.injEq] at hxy
      rcases hxy with hxy | ⟨rfl, rfl⟩
      · exact hi.sup x y hxy hne
      · rcases hc with hc | hc
        · exact absurd hc.symm hne
        · rw [check_key h] at hc
          unfold AGraph.key? at hc
          by_cases h1 : (x, y) ∈ a.E
          · exact Or.inl h1
          · rw [if_neg h1, hi.dir] at hc
            cases d with
            | true => simp at hc
            | false =>
              by_cases h2 : (y, x) ∈ a.E
              · exact Or.inr ⟨rfl, h2⟩
              · simp [h2] at hc
  · rw [if_neg hc]
    rw [not_or, check_key h, not_not] at hc
    obtain ⟨hne, hk⟩ := hc
    have hmE : (m, v) ∉ a.E := by
      intro hh; unfold AGraph.key? at hk; rw [if_pos hh] at hk; cases hk
    have hvE : d = false → (v, m) ∉ a.E := by
      intro hd hh
      unfold AGraph.key? at hk
      rw [if_neg hmE, hi.dir, hd, if_neg (by simp), if_pos hh] at hk
      cases hk
    obtain ⟨g1, a1, h1, h2, h3, h4⟩ := edge_ok h (m := m) (n := v) (by rw [hi.V]; simpa using hm)
      (by rw [hi.V]; simpa using hv) hk (("cost", .int (A.dist v m)) :: A.edgeFormat)
    have hcost : a1.ea (m, v) "cost" = some (.int (A.dist v m)) := by rw [h4]; exact kw_costFmt hfmt _
    have hne' : ∀ x y, (x, y) ∈ a.E → (x, y) ≠ (m, v) := fun x y hxy hh => hmE (hh ▸ hxy)
    have fin : ∀ a2 : AGraph Nat, Added a a2 (m, v) → a2.ea (m, v) "cost" = some (.int (A.dist v m)) →
        (A.addLabels = true → a2.ea (m, v) "label" = some (.str (toString (A.dist v m)))) →
        EInv A d (P ++ [(m, v)]) a2 := by
      intro a2 h5 h6 h7
      refine ⟨h5.dir.trans hi.dir, h5.V.trans hi.V, ?_, ?_, ?_⟩
      · intro x y hxy
        rw [h5.E, List.mem_append, List.mem_singleton] at hxy
        rcases hxy with hxy | hxy
        · obtain ⟨h8, h9, h10, h11⟩ := hi.sub x y hxy
          exact ⟨hPsub _ h8, h9, by rw [h5.old _ (hne' x y hxy)]; exact h10,
            fun hb => by rw [h5.old _ (hne' x y hxy)]; exact h11 hb⟩
        · obtain ⟨rfl, rfl⟩ := Prod.mk.inj hxy
          exact ⟨by simp, Ne.symm hne, h6, h7⟩
      · intro x y hxy hn
        rw [h5.E]
        rw [List.mem_append, List.mem_singleton, Prod.mk.injEq] at hxy
        rcases hxy with hxy | ⟨rfl, rfl⟩
        · rcases hi.sup x y hxy hn with h8 | ⟨h8, h9⟩
          · exact Or.inl (by simp [h8])
          · exact Or.inr ⟨h8, by simp [h9]⟩
        · exact Or.inl (by simp)
      · intro hd x y hxy hyx
        rw [h5.E, List.mem_append, List.mem_singleton, Prod.mk.injEq] at hxy hyx
        rcases hxy with hxy | ⟨h8, h9⟩ <;> rcases hyx with hyx | ⟨h10, h11⟩
        · exact hi.anti hd x y hxy hyx
        · rw [h10, h11] at hxy; exact hvE hd hxy
        · rw [h8, h9] at hyx; exact hvE hd hyx
        · exact hne (h9.symm.trans h10)
    rw [gm_bind, h1]
    unfold closeLabel
    by_cases hb : A.addLabels = true
    · simp only [if_pos hb]
      obtain ⟨g2, a2, h5, h6, h7, h8, h9, h10, h11⟩ := attr_ok h2 (by rw [h3.E]; simp : (m, v) ∈ a1.E) "label"
        (.str (toString (A.dist v m)))
      refine ⟨g2, a2, h5, h6, fin a2 ⟨h7.trans h3.dir, h8.trans h3.V, h9.trans h3.E,
        fun e' he' => (h10 e' he').trans (h3.old e' he')⟩ ?_ fun _ => ?_⟩
      · rw [h11, if_neg (by decide)]; exact hcost
      · rw [h11, if_pos rfl]
    · simp only [if_neg hb]
      exact ⟨g1, a1, rfl, h2, fin a1 h3 hcost fun hh => absurd hh hb⟩

theorem closeLoop_ok (A : EuclidArgs) (hfmt : "cost" ∉ A.edgeFormat.map Prod.fst) (d : Bool) {m : Nat}
    (hm : m < A.numnodes) : ∀ (l : List (Nat × Int)) (k : Nat) (P : List (Nat × Nat)) (g : Graph Nat) (a : AGraph Nat),
    (∀ p ∈ l, p.1 < A.numnodes ∧ p.2 = A.dist p.1 m) → Rep g a → EInv A d P a →
    if k ≤ l.length then ∃ g' a', (closeLoop A m l k).run g = .ok () g' ∧ Rep g' a' ∧
      EInv A d (P ++ (l.take k).map fun p => (m, p.1)) a'
    else ∃ g', (closeLoop A m l k).run g = .error .indexError g' := by
  intro l
  induction l with
  | nil =>
    intro k P g a _ h hi
    cases k with
    | zero => rw [if_pos (by simp)]; exact ⟨g, a, rfl, h, by simpa using hi⟩
    | succ k => rw [if_neg (by simp)]; exact ⟨g, rfl⟩
  | cons p l ih =>
    intro k P g a hl h hi
    cases k with
    | zero => rw [if_pos (by simp)]; exact ⟨g, a, rfl, h, by simpa using hi⟩
    | succ k =>
      obtain ⟨h1, h2⟩ := hl p (by simp)
      have h3 : p = (p.1, A.dist p.1 m) := by rw [← h2]
      obtain ⟨g1, a1, h4, h5, h6⟩ := closeOne_ok A hfmt d hm h1 h hi
      rw [← h3] at h4
      have h7 := ih k (P ++ [(m, p.1)]) g1 a1 (fun q hq => hl q (by simp [hq])) h5 h6
      by_cases hk : k ≤ l.length
      · rw [if_pos (by simpa using hk)]
        rw [if_pos hk] at h7
        obtain ⟨g', a', h8, h9, h10⟩ := h7
        refine ⟨g', a', ?_, h9, by simpa using h10⟩
        rw [closeLoop, gm_bind, h4]; exact h8
      · rw [if_neg (by simpa using hk)]
        rw [if_neg hk] at h7
        obtain ⟨g', h8⟩ := h7
        refine ⟨g', ?_⟩
        rw [closeLoop, gm_bind, h4]; exact h8

/-- the pairs looked at for the nodes of a list -/
def looked (A : EuclidArgs) (l : List Nat) : List (Nat × Nat) :=
  l.flatMap fun m => ((byLength A m).take (A.deg m + 1)).map fun p => (m, p.1)

theorem closeAll_ok (A : EuclidArgs) (hfmt : "cost" ∉ A.edgeFormat.map Prod.fst) (d : Bool) :
    ∀ (l : List Nat) (P : List (Nat × Nat)) (g : Graph Nat) (a : AGraph Nat), (∀ m ∈ l, m < A.numnodes) →
    Rep g a → EInv A d P a →
    if ∀ m ∈ l, A.deg m < A.numnodes then ∃ g' a', (closeAll A l).run g = .ok () g' ∧ Rep g' a' ∧
      EInv A d (P ++ looked A l) a'
    else ∃ g', (closeAll A l).run g = .error .indexError g' := by
  intro l
  induction l with
  | nil => intro P g a _ h hi; rw [if_pos (by simp)]; exact ⟨g, a, rfl, h, by simpa [looked] using hi⟩
  | cons m l ih =>
    intro P g a hl h hi
    have h1 := closeLoop_ok A hfmt d (hl m (by simp)) (byLength A m) (A.deg m + 1) P g a
      (fun p hp => mem_byLength.1 hp) h hi
    rw [length_byLength] at h1
    by_cases hm : A.deg m < A.numnodes
    · rw [if_pos (by omega)] at h1
      obtain ⟨g1, a1, h2, h3, h4⟩ := h1
      have h5 := ih _ g1 a1 (fun x hx => hl x (by simp [hx])) h3 h4
      by_cases hr : ∀ m ∈ l, A.deg m < A.numnodes
      · rw [if_pos (by simpa using ⟨hm, hr⟩)]
        rw [if_pos hr] at h5
        obtain ⟨g', a', h6, h7, h8⟩ := h5
        refine ⟨g', a', ?_, h7, by simpa [looked] using h8⟩
        rw [closeAll, gm_bind, h2]; exact h6
      · rw [if_neg fun hh => hr fun x hx => hh x (by simp [hx])]
        rw [if_neg hr] at h5
        obtain ⟨g', h6⟩ := h5
        refine ⟨g', ?_⟩
        rw [closeAll, gm_bind, h2]; exact h6
    · rw [if_neg fun hh => hm (hh m (by simp))]
      rw [if_neg (by omega)] at h1
      obtain ⟨g', h2⟩ := h1
      refine ⟨g', ?_⟩
      rw [closeAll, gm_bind, h2]

theorem mem_looked {A : EuclidArgs} {u v : Nat} :
    (u, v) ∈ looked A (List.range A.numnodes) ↔ u < A.numnodes ∧ v < A.numnodes ∧ rank A u v ≤ A.deg u := by
  unfold looked
  rw [← mem_near]
  simp only [List.mem_flatMap, List.mem_range, List.mem_map, Prod.mk.injEq]
  constructor
  · rintro ⟨m, h1, p, h2, rfl, rfl⟩; exact ⟨h1, p, h2, rfl⟩
  · rintro ⟨h1, p, h2, rfl⟩; exact ⟨u, h1, p, h2, rfl, rfl⟩

theorem start_ok (A : EuclidArgs) (d : Bool) : ∃ g a, (addNodes A.toRandomArgs (List.range A.numnodes)).run (Graph.init d) =
    .ok () g ∧ Rep g a ∧ EInv A d [] a ∧ a.E = [] := by
  obtain ⟨g1, a1, h1, h2, h3, h4, h5⟩ := addNodes_ok A.toRandomArgs (List.range A.numnodes) _ _ (rep_init d)
    (by simpa [AGraph.empty] using List.nodup_range)
  have hV : a1.V = List.range A.numnodes := by rw [h3]; rfl
  have hE : a1.E = [] := by rw [h4]; rfl
  exact ⟨g1, a1, h1, h2, ⟨by rw [h5]; rfl, hV, by simp [hE], by simp, by simp [hE]⟩, hE⟩

theorem rank_mono (A : EuclidArgs) {m v w : Nat} (h : A.dist w m < A.dist v m) : rank A m w ≤ rank A m v := by
  unfold rank
  refine (List.monotone_filter_right _ fun y hy => ?_).length_le
  have hy' : Before A m y w := of_decide_eq_true hy
  refine decide_eq_true (?_ : Before A m y v)
  unfold Before at hy' ⊢
  omega

theorem nodup_near (A : EuclidArgs) (m : Nat) : (((byLength A m).take (A.deg m + 1)).map Prod.fst).Nodup := by
  refine List.Nodup.sublist ((List.take_sublist _ _).map _) ?_
  have h1 : ((byLength A m).map Prod.fst).Perm (List.range A.numnodes) := by
    have := (List.perm_insertionSort (fun a b : Nat × Int => a.2 ≤ b.2)
      ((List.range A.numnodes).map fun n => (n, A.dist n m))).map Prod.fst
    rw [List.map_map] at this
    have h2 : (Prod.fst ∘ fun n => (n, A.dist n m)) = id := rfl
    rw [h2, List.map_id] at this
    exact this
  exact h1.nodup_iff.2 List.nodup_range

end Misc

/-- **C92.** `random(numnodes, Euclidean=True, degree_range=...)` with the default `node_selection='closest'` on a new graph,
whatever the random numbers are (if `edge_format` has no entry 'cost'), when every degree drawn is less than the number of
nodes: the call does not raise and the nodes are 0..n-1.  Seen from a node, the nodes are ordered by rounded distance, then by
number; the node is joined with the `degree+1` first ones other than itself, and every edge is of this form.  Hence no node
that is not joined is nearer than one to which an edge was added.  The cost of an edge is the rounded distance, and its label
if labels are asked for is the same number.  In a digraph a node has exactly `degree` outgoing arcs if it is itself among the
`degree+1` first, and one more if not; in an undirected graph no edge is stored twice. -/
theorem C92_closest (A : EuclidArgs) (hfmt : "cost" ∉ A.edgeFormat.map Prod.fst) (d : Bool)
    (hdeg : ∀ m < A.numnodes, A.deg m < A.numnodes) :
    ∃ g, (euclid A .closest).run (Graph.init d) = .ok () g ∧ g.getNodeList = List.range A.numnodes ∧
      (∀ u v, (u, v) ∈ g.getEdgeList → u < A.numnodes ∧ v < A.numnodes ∧ u ≠ v ∧ rank A u v ≤ A.deg u ∧
        g.getEdgeAttr u v "cost" = .ok (.int (A.dist v u)) ∧
        (A.addLabels = true → g.getEdgeAttr u v "label" = .ok (.str (toString (A.dist v u))))) ∧
      (∀ u v, u < A.numnodes → v < A.numnodes → u ≠ v → rank A u v ≤ A.deg u → g.checkEdge u v = true) ∧
      (∀ u v w, (u, v) ∈ g.getEdgeList → w < A.numnodes → w ≠ u → g.checkEdge u w = false → A.dist v u ≤ A.dist w u) ∧
      (d = true → ∀ u < A.numnodes, (g.getEdgeList.filter fun e => e.1 = u).length =
        if rank A u u ≤ A.deg u then A.deg u else A.deg u + 1) ∧
      (d = false → ∀ u v, (u, v) ∈ g.getEdgeList → (v, u) ∉ g.getEdgeList) := by
  obtain ⟨g1, a1, h1, h2, h3, _⟩ := start_ok A d
  have h4 := closeAll_ok A hfmt d (List.range A.numnodes) [] g1 a1 (fun m hm => by simpa using hm) h2 h3
  rw [if_pos fun m hm => hdeg m (by simpa using hm), List.nil_append] at h4
  obtain ⟨g, a, h5, h6, h7⟩ := h4
  have hEl : g.getEdgeList = a.E := h6.E
  have hattr : ∀ (u v : Nat) (s : String) (x : Val Nat), (u, v) ∈ a.E → a.ea (u, v) s = some x →
      g.getEdgeAttr u v s = .ok x := by
    intro u v s x huv hx
    have h8 := h6.ea (u, v) huv s
    rw [hx] at h8
    unfold Graph.getEdgeAttr
    simp [h8]
  have hsup : ∀ u v, u < A.numnodes → v < A.numnodes → u ≠ v → rank A u v ≤ A.deg u → g.checkEdge u v = true := by
    intro u v hu hv hne hr
    rw [check_key h6]
    unfold AGraph.key?
    rw [h7.dir]
    rcases h7.sup u v (mem_looked.2 ⟨hu, hv, hr⟩) hne with h8 | ⟨h8, h9⟩
    · rw [if_pos h8]; simp
    · simp only [h8, h9, Bool.false_eq_true, not_false_eq_true, and_self, if_true]
      split <;> simp
  refine ⟨g, ?_, h6.V.trans h7.V, ?_, hsup, ?_, ?_, ?_⟩
  · rw [euclid, gm_bind, h1]; exact h5
  · intro u v huv
    rw [hEl] at huv
    obtain ⟨h8, h9, h10, h11⟩ := h7.sub u v huv
    obtain ⟨h12, h13, h14⟩ := mem_looked.1 h8
    exact ⟨h12, h13, h9, h14, hattr _ _ _ _ huv h10, fun hb => hattr _ _ _ _ huv (h11 hb)⟩
  · intro u v w huv hw hwu hno
    rw [hEl] at huv
    obtain ⟨h8, h9, _⟩ := h7.sub u v huv
    obtain ⟨h12, h13, h14⟩ := mem_looked.1 h8
    by_contra hlt
    have := hsup u w h12 hw (Ne.symm hwu) (le_trans (rank_mono A (by omega)) h14)
    rw [hno] at this
    cases this
  · intro hd u hu
    have hnd : g.getEdgeList.Nodup := h6.wf.edup
    have hperm : ((g.getEdgeList.filter fun e => e.1 = u).map Prod.snd).Perm
        ((((byLength A u).take (A.deg u + 1)).map Prod.fst).filter fun v => v ≠ u) := by
      refine (List.perm_ext_iff_of_nodup ?_ ((nodup_near A u).filter _)).2 ?_
      · refine List.Nodup.map_on ?_ (hnd.filter _)
        rintro ⟨x, y⟩ hx ⟨x', y'⟩ hx' hy
        simp only [List.mem_filter, decide_eq_true_eq] at hx hx'
        simp only at hy
        rw [hx.2, hx'.2, hy]
      · intro v
        rw [List.mem_filter, mem_near, hEl]
        simp only [List.mem_map, List.mem_filter, decide_eq_true_eq]
        constructor
        · rintro ⟨⟨x, y⟩, ⟨h8, rfl⟩, rfl⟩
          obtain ⟨h9, h10, _⟩ := h7.sub _ _ h8
          obtain ⟨h12, h13, h14⟩ := mem_looked.1 h9
          exact ⟨⟨h13, h14⟩, Ne.symm h10⟩
        · rintro ⟨⟨h8, h9⟩, h10⟩
          rcases h7.sup u v (mem_looked.2 ⟨hu, h8, h9⟩) (Ne.symm h10) with h11 | ⟨h11, _⟩
          · exact ⟨(u, v), ⟨h11, rfl⟩, rfl⟩
          · rw [hd] at h11; cases h11
    have hlen := hperm.length_eq
    rw [List.length_map] at hlen
    rw [hlen]
    have htot : (((byLength A u).take (A.deg u + 1)).map Prod.fst).length = A.deg u + 1 := by
      rw [List.length_map, List.length_take, length_byLength]
      have := hdeg u hu
      omega
    have hmem := mem_near (A := A) (m := u) (v := u)
    by_cases hr : rank A u u ≤ A.deg u
    · rw [if_pos hr]
      have h8 := List.length_erase_of_mem (hmem.2 ⟨hu, hr⟩)
      rw [(nodup_near A u).erase_eq_filter, htot] at h8
      have h9 : (fun v => decide (v ≠ u)) = fun v => v != u := by funext v; simp [bne, BEq.beq]
      rw [h9, h8]
      omega
    · rw [if_neg hr]
      refine Eq.trans (congrArg List.length (List.filter_eq_self.2 ?_)) htot
      intro v hv
      simp only [ne_eq, decide_eq_true_eq]
      rintro rfl
      exact hr (hmem.1 hv).2
  · intro hd u v huv
    rw [hEl] at huv ⊢
    exact h7.anti hd u v huv

/-- **C92**, the remaining case: if some degree drawn is not less than the number of nodes, the call raises IndexError. -/
theorem C92_too_many (A : EuclidArgs) (hfmt : "cost" ∉ A.edgeFormat.map Prod.fst) (d : Bool)
    (hdeg : ∃ m < A.numnodes, A.numnodes ≤ A.deg m) :
    ∃ g, (euclid A .closest).run (Graph.init d) = .error .indexError g := by
  obtain ⟨g1, a1, h1, h2, h3, _⟩ := start_ok A d
  have h4 := closeAll_ok A hfmt d (List.range A.numnodes) [] g1 a1 (fun m hm => by simpa using hm) h2 h3
  obtain ⟨m, hm, hd⟩ := hdeg
  rw [if_neg fun hh => by have := hh m (by simpa using hm); omega] at h4
  obtain ⟨g', h5⟩ := h4
  exact ⟨g', by rw [euclid, gm_bind, h1]; exact h5⟩

/-- **C93 (partial).** `random(numnodes, Euclidean=True, degree_range=..., node_selection='random')` on a new graph returns
only if all degrees drawn are 0; then the graph has the nodes 0..n-1 and no edges, as asked.  Missing: a single case with
edges, see `C93_false`. -/
theorem C93_random_selection_partial (A : EuclidArgs) (d : Bool) (hdeg : ∀ m < A.numnodes, A.deg m = 0) :
    ∃ g, (euclid A .random).run (Graph.init d) = .ok () g ∧ g.getNodeList = List.range A.numnodes ∧ g.getEdgeList = [] := by
  obtain ⟨g1, a1, h1, h2, h3, h4⟩ := start_ok A d
  refine ⟨g1, ?_, h2.V.trans h3.V, h2.E.trans h4⟩
  rw [euclid, gm_bind, h1]
  have : ∀ l : List Nat, (∀ m ∈ l, A.deg m = 0) → (pickAll A l).run g1 = .ok () g1 := by
    intro l
    induction l with
    | nil => intro _; rfl
    | cons m l ih =>
      intro hl
      rw [pickAll, if_neg (by simp [hl m (by simp)])]
      exact ih fun x hx => hl x (by simp [hx])
  exact this _ fun m hm => hdeg m (by simpa using hm)

/-- **C93 is false**: as soon as one node asks for an edge the call raises UnboundLocalError, leaving a graph that has the
nodes 0..n-1 and no edges. -/
theorem C93_false (A : EuclidArgs) (d : Bool) (hdeg : ∃ m < A.numnodes, 0 < A.deg m) :
    ∃ g, (euclid A .random).run (Graph.init d) = .error .unboundLocal g ∧ g.getNodeList = List.range A.numnodes ∧
      g.getEdgeList = [] := by
  obtain ⟨g1, a1, h1, h2, h3, h4⟩ := start_ok A d
  refine ⟨g1, ?_, h2.V.trans h3.V, h2.E.trans h4⟩
  rw [euclid, gm_bind, h1]
  have : ∀ l : List Nat, (∃ m ∈ l, 0 < A.deg m) → (pickAll A l).run g1 = .error .unboundLocal g1 := by
    intro l
    induction l with
    | nil => rintro ⟨m, hm, _⟩; cases hm
    | cons m l ih =>
      rintro ⟨x, hx, hd⟩
      rw [pickAll]
      by_cases h5 : 0 < A.deg m
      · rw [if_pos h5]; rfl
      · rw [if_neg h5]
        rcases List.mem_cons.1 hx with rfl | hx
        · exact absurd hd h5
        · exact ih ⟨x, hx, hd⟩
  obtain ⟨m, hm, hd⟩ := hdeg
  exact this _ ⟨m, by simpa using hm, hd⟩

/-- four points on a line at 0, 1, 3, 7; every node asks for `k` edges -/
def exEuclid (k : Nat) : EuclidArgs :=
  { exRand false with
    numnodes := 4, deg := fun _ => k
    dist := fun n m => |([0, 1, 3, 7].getD n 0 : Int) - [0, 1, 3, 7].getD m 0| }

/-- three points so close that all rounded distances are 0 -/
def exTie : EuclidArgs := { exRand false with deg := fun _ => 1, dist := fun _ _ => 0 }

/-- non-vacuity of C92 and C93; the last node of three that coincide gets two arcs though it asked for one -/
example : costsOf ((euclid (exEuclid 1) .closest).run (Graph.init true)) =
      some [((0, 1), some (.int 1)), ((1, 0), some (.int 1)), ((2, 1), some (.int 2)), ((3, 2), some (.int 4))] ∧
    costsOf ((euclid (exEuclid 1) .closest).run (Graph.init false)) =
      some [((0, 1), some (.int 1)), ((2, 1), some (.int 2)), ((3, 2), some (.int 4))] ∧
    costsOf ((euclid (exEuclid 4) .closest).run (Graph.init true)) = none ∧
    costsOf ((euclid exTie .closest).run (Graph.init true)) =
      some [((0, 1), some (.int 0)), ((1, 0), some (.int 0)), ((2, 0), some (.int 0)), ((2, 1), some (.int 0))] ∧
    rank exTie 2 2 = 2 ∧ rank (exEuclid 1) 2 2 = 0 ∧ rank (exEuclid 1) 3 2 = 1 ∧
    costsOf ((euclid (exEuclid 1) .random).run (Graph.init true)) = none ∧
    costsOf ((euclid (exEuclid 0) .random).run (Graph.init true)) = some [] ∧
    "cost" ∉ (exEuclid 1).edgeFormat.map Prod.fst :=
  ⟨by decide +kernel, by decide +kernel, by decide +kernel, by decide +kernel, by decide +kernel, by decide +kernel,
    by decide +kernel, by decide +kernel, by decide +kernel, by decide +kernel⟩

end GiMPy
