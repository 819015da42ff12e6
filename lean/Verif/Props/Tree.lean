import Verif.Lemmas.Tree
import Verif.Spec.Tree
import Verif.Props.Core

/-! # C40, C41: class Tree -/

namespace GiMPy
variable {N : Type} [DecidableEq N]
set_option linter.unusedSectionVars false

/-- A call of `add_child(n, parent, **attr)`. -/
structure ChildCall (N : Type) where
  n : N
  parent : N
  attr : List (String × Val N)

/-- A history of `add_child` calls; a raising call is caught by the user, who goes on with the tree as it is. -/
def addChildren (t : Tree N) : List (ChildCall N) → Tree N
  | [] => t
  | c :: cs => addChildren (EStateM.Result.state ((Tree.addChild c.n c.parent c.attr).run t)) cs

/-- `Tree()`, then `add_root(r, **attr)`, then a history of `add_child` calls -/
def grow (r : N) (attr : List (String × Val N)) (cs : List (ChildCall N)) : Tree N :=
  addChildren (EStateM.Result.state ((Tree.addRoot r attr).run Tree.init)) cs

/-- the edges of a tree -/
def Tree.Edge (t : Tree N) (u v : N) : Prop := (u, v) ∈ t.g.getEdgeList

theorem addChildren_inv {r : N} : ∀ (cs : List (ChildCall N)) {t : Tree N} {a : AGraph N}, Rep t.g a → Tree.Inv a r →
    ∃ a', Rep (addChildren t cs).g a' ∧ Tree.Inv a' r ∧ (addChildren t cs).root = t.root := by
  intro cs
  induction cs with
  | nil => intro t a h hi; exact ⟨a, h, hi, rfl⟩
  | cons c cs ih =>
    intro t a h hi
    rw [addChildren]
    by_cases hp : c.parent ∈ a.V
    · obtain ⟨k, hk⟩ := hi.level hp
      by_cases hn : c.n ∈ a.V
      · rw [Tree.addChild_dup h hp hk hn]; exact ih h hi
      · obtain ⟨g', h1, h2⟩ := Tree.addChild_ok h hi.dir hp hk hn c.attr
        rw [h1]
        obtain ⟨a', h3, h4, h5⟩ := ih (t := { t with g := g' }) h2 (hi.child c.attr hp hk hn)
        exact ⟨a', h3, h4, h5⟩
    · rw [Tree.addChild_noparent h hp]; exact ih h hi

theorem grow_inv {r : N} {attr : List (String × Val N)} (hattr : AGraph.kw attr "parent" = none) (cs : List (ChildCall N)) :
    ∃ a, Rep (grow r attr cs).g a ∧ Tree.Inv a r ∧ (grow r attr cs).root = some r := by
  obtain ⟨g', h1, h2⟩ := Tree.addRoot_ok (t := Tree.init) (rep_init true) rfl (r := r) (by simp [AGraph.empty]) attr
  unfold grow
  rw [h1]
  exact addChildren_inv cs (t := ⟨g', some r⟩) h2 (.root_mk attr hattr)

theorem Tree.kids {t : Tree N} {a : AGraph N} (h : Rep t.g a) (hd : t.g.directed = true) {p : N}
    (hp : p ∈ t.g.getNodeList) : ∃ l, t.getChildren p = .ok l ∧ l.Nodup ∧ ∀ v, v ∈ l ↔ t.Edge p v := by
  have hv := digraphViews_of_wf h.wf hd
  obtain ⟨l, h1, h2, h3⟩ := hv.out_views p hp
  exact ⟨l, h1, h2, fun v => by rw [h3 v, hv.check_iff]; rfl⟩

theorem Tree.Inv.rooted {t : Tree N} {a : AGraph N} {r : N} (h : Rep t.g a) (hi : Tree.Inv a r) :
    RootedTree t.g.getNodeList t.Edge r := by
  have hV : t.g.getNodeList = a.V := h.V
  have hE : ∀ u v, t.Edge u v ↔ (u, v) ∈ a.E := by
    intro u v; show (u, v) ∈ t.g.edgeAttr.keys ↔ _; rw [h.E]
  have hR : t.Edge = fun x y => (x, y) ∈ a.E := by funext u v; exact propext (hE u v)
  constructor
  · rw [hV]; exact hi.root
  · intro u v huv
    rw [hE] at huv
    rw [hV]
    exact ⟨(hi.edge_level huv).1, (hi.edge u v huv).1⟩
  · intro u hu
    rw [hE] at hu
    exact (hi.edge u r hu).2.1 rfl
  · intro v hv hr
    rw [hV] at hv
    obtain ⟨p, k, h1, h2, h3, h4, h5⟩ := hi.other v hv hr
    refine ⟨p, (hE p v).2 h5, ?_⟩
    intro p' hp'
    have := (hi.edge p' v ((hE p' v).1 hp')).2.2
    rw [h4] at this
    cases this; rfl
  · intro v hv
    rw [hV] at hv
    obtain ⟨k, hk⟩ := hi.level hv
    have := hi.walk k v hv hk
    rw [hR]
    clear hk hv
    induction this with
    | nil => exact .refl
    | snoc _ h ih => exact ih.tail h
  · intro v hv
    rw [hR] at hv
    obtain ⟨j, k, h1, h2, h3⟩ := hi.lt hv
    rw [h1] at h2
    simp only [Option.some.injEq, Val.int.injEq] at h2
    omega

/-- **C40** After `add_root` (the root being given no attribute called `parent`) and any history of `add_child` calls,
raising or not: the graph is a rooted tree; `get_parent` and `get_children` agree with its edges; `level` is the number of
edges from the root; and `add_child` raises exactly if the parent is missing or the child is there already, and then
changes nothing. -/
theorem C40_rooted_tree (r : N) (attr : List (String × Val N)) (hattr : AGraph.kw attr "parent" = none)
    (cs : List (ChildCall N)) :
    let t := grow r attr cs
    RootedTree t.g.getNodeList t.Edge r ∧
    t.getParent r = .ok .none ∧
    (∀ v ∈ t.g.getNodeList, v ≠ r → ∃ p, t.getParent v = .ok (.name p)) ∧
    (∀ v ∈ t.g.getNodeList, ∀ p, t.getParent v = .ok (.name p) ↔ t.Edge p v) ∧
    (∀ p ∈ t.g.getNodeList, ∃ l, t.getChildren p = .ok l ∧ l.Nodup ∧ ∀ v, v ∈ l ↔ t.Edge p v) ∧
    (∀ v ∈ t.g.getNodeList, ∃ k : Nat, t.g.getNodeAttr v "level" = .ok (.int k) ∧ ∀ j, WalkLen t.Edge r j v ↔ j = k) ∧
    (∀ n p at', EStateM.Result.err ((Tree.addChild n p at').run t) =
      if p ∉ t.g.getNodeList then some .attributeError else if n ∈ t.g.getNodeList then some .multipleNode else none) ∧
    (∀ n p at', EStateM.Result.err ((Tree.addChild n p at').run t) ≠ none →
      EStateM.Result.state ((Tree.addChild n p at').run t) = t) := by
  obtain ⟨a, h, hi, hroot⟩ := grow_inv hattr cs
  intro t
  replace h : Rep t.g a := h
  have hV : t.g.getNodeList = a.V := h.V
  have hE : ∀ u v, t.Edge u v ↔ (u, v) ∈ a.E := by
    intro u v; show (u, v) ∈ t.g.edgeAttr.keys ↔ _; rw [h.E]
  have hR : t.Edge = fun x y => (x, y) ∈ a.E := by funext u v; exact propext (hE u v)
  refine ⟨hi.rooted h, ?_, ?_, ?_, ?_, ?_, ?_, ?_⟩
  · unfold Tree.getParent
    rw [MinCost.getNodeAttr_rep h, AGraph.getNodeAttr, if_pos hi.root, hi.parent0]; rfl
  · intro v hv hr
    rw [hV] at hv
    obtain ⟨p, k, h1, h2, h3, h4, h5⟩ := hi.other v hv hr
    refine ⟨p, ?_⟩
    unfold Tree.getParent
    rw [MinCost.getNodeAttr_rep h, AGraph.getNodeAttr, if_pos hv, h4]; rfl
  · intro v hv p
    rw [hV] at hv
    unfold Tree.getParent
    rw [MinCost.getNodeAttr_rep h, AGraph.getNodeAttr, if_pos hv, hE]
    by_cases hr : v = r
    · subst hr
      rw [hi.parent0]
      constructor
      · intro h; cases h
      · intro h; exact absurd rfl (hi.edge p v h).2.1
    · obtain ⟨p', k, h1, h2, h3, h4, h5⟩ := hi.other v hv hr
      constructor
      · intro hp
        rw [h4] at hp
        cases hp
        exact h5
      · intro hp
        rw [(hi.edge p v hp).2.2]; rfl
  · intro p hp
    exact Tree.kids h (by rw [h.dir]; exact hi.dir) hp
  · intro v hv
    rw [hV] at hv
    obtain ⟨k, hk⟩ := hi.level hv
    refine ⟨k, ?_, ?_⟩
    · rw [MinCost.getNodeAttr_rep h, AGraph.getNodeAttr, if_pos hv, hk]; rfl
    · intro j
      rw [hR]
      constructor
      · intro hw
        have := hi.walk_level hw
        rw [hk] at this
        simp only [Option.some.injEq, Val.int.injEq] at this
        omega
      · rintro rfl; exact hi.walk j v hv hk
  · intro n p at'
    rw [hV]
    by_cases hp : p ∈ a.V
    · rw [if_neg (by simp [hp])]
      obtain ⟨k, hk⟩ := hi.level hp
      by_cases hn : n ∈ a.V
      · rw [if_pos hn, Tree.addChild_dup h hp hk hn]; rfl
      · obtain ⟨g', h1, _⟩ := Tree.addChild_ok h hi.dir hp hk hn at'
        rw [if_neg hn, h1]; rfl
    · rw [if_pos hp, Tree.addChild_noparent h hp]; rfl
  · intro n p at'
    by_cases hp : p ∈ a.V
    · obtain ⟨k, hk⟩ := hi.level hp
      by_cases hn : n ∈ a.V
      · rw [Tree.addChild_dup h hp hk hn]; intro _; rfl
      · obtain ⟨g', h1, _⟩ := Tree.addChild_ok h hi.dir hp hk hn at'
        rw [h1]; intro h; exact absurd rfl h
    · rw [Tree.addChild_noparent h hp]; intro _; rfl

/-- a tree with two levels, whose calls include raising ones -/
example : let t := grow 0 [("label", .str "top")] [⟨1, 0, []⟩, ⟨2, 0, []⟩, ⟨1, 2, []⟩, ⟨3, 7, []⟩, ⟨3, 1, [("level", .int 9)]⟩]
    AGraph.kw (N := Nat) [("label", .str "top")] "parent" = none ∧ t.g.getNodeList = [0, 1, 2, 3] ∧
    t.getChildren 0 = .ok [1, 2] ∧ t.getParent 3 = .ok (.name 1) ∧ t.g.getNodeAttr 3 "level" = .ok (.int 2) := by
  decide +kernel

/-- **C41** (for a given root) `traverse` from a node `s` of the tree ends and visits the nodes of the subtree of `s`, each
once and after its parent; depth-first with a stack, breadth-first with a queue. -/
theorem C41_traverse_partial (r : N) (attr : List (String × Val N)) (hattr : AGraph.kw attr "parent" = none)
    (cs : List (ChildCall N)) (stack : Bool) :
    let t := grow r attr cs
    ∀ s ∈ t.g.getNodeList, ∀ fuel, t.g.getNodeList.length < fuel →
      ∃ l : List N, t.traverse stack (some s) fuel = .ok (l.map .name) ∧ IsTraversal t.Edge s l ∧
        (stack = true → IsDepthFirst t.Edge l) ∧ (stack = false → IsBreadthFirst t.Edge s l) := by
  obtain ⟨a, h, hi, hroot⟩ := grow_inv hattr cs
  intro t s hs fuel hf
  replace h : Rep t.g a := h
  have hrt := hi.rooted h
  have hE : ∀ u v, t.Edge u v ↔ (u, v) ∈ a.E := by
    intro u v; show (u, v) ∈ t.g.edgeAttr.keys ↔ _; rw [h.E]
  have hd : t.g.directed = true := by rw [h.dir]; exact hi.dir
  -- the children as a function
  have hex : ∀ p, ∃ l, p ∈ t.g.getNodeList → t.getChildren p = .ok l ∧ l.Nodup ∧ ∀ v, v ∈ l ↔ t.Edge p v := by
    intro p
    by_cases hp : p ∈ t.g.getNodeList
    · obtain ⟨l, hl⟩ := Tree.kids h hd hp; exact ⟨l, fun _ => hl⟩
    · exact ⟨[], fun h => absurd h hp⟩
  have hcf : ∃ ch : N → List N, ∀ p, p ∈ t.g.getNodeList →
      t.getChildren p = .ok (ch p) ∧ (ch p).Nodup ∧ ∀ v, v ∈ ch p ↔ t.Edge p v := Classical.axiomOfChoice hex
  obtain ⟨ch', hch'⟩ := hcf
  obtain ⟨ch, hchd⟩ : ∃ ch : N → List N, ch = fun p => if p ∈ t.g.getNodeList then ch' p else [] := ⟨_, rfl⟩
  have hin : ∀ p ∈ t.g.getNodeList, ch p = ch' p := by intro p hp; rw [hchd]; simp only [if_pos hp]
  have hch : ∀ p ∈ t.g.getNodeList, t.getChildren p = .ok (ch p) ∧ (ch p).Nodup ∧ ∀ v, v ∈ ch p ↔ t.Edge p v := by
    intro p hp; rw [hin p hp]; exact hch' p hp
  have hone : ∀ p p' x, t.Edge p x → t.Edge p' x → p = p' := by
    intro p p' x h1 h2
    have hx : x ≠ r := by rintro rfl; exact hrt.root_no_parent p h1
    exact (hrt.one_parent x (hrt.inside p x h1).2 hx).unique h1 h2
  obtain ⟨l, hl, hinv⟩ := Tree.nLoop_ok (R := t.Edge) (ch := ch) (V := t.g.getNodeList) (s := s)
    (fun v hv => (hch v hv).2.2) (fun v hv => (hch v hv).2.1) (fun v _ w hw => (hrt.inside v w hw).2) hs
    hone hrt.acyclic stack fuel [s] [] (.init s) (by simpa using hf)
  refine ⟨l, ?_, ?_, ?_, ?_⟩
  · have := Tree.travLoop_eq (t := t) (ch := ch) (V := t.g.getNodeList) (fun v hv => (hch v hv).1)
      (fun v hv w hw => (hrt.inside v w (((hch v hv).2.2 w).1 hw)).2) stack fuel [s] [] (by simpa using hs)
    rw [hl] at this
    unfold Tree.traverse
    exact this
  · have hn := hinv.nodup
    rw [List.append_nil] at hn
    refine ⟨hn, ?_, hinv.order⟩
    intro v
    constructor
    · intro hv; exact hinv.mem v (by simp [hv])
    · intro hv
      induction hv with
      | refl => simpa using hinv.start
      | tail _ he ih => simpa using hinv.closed _ ih _ he
  · intro hst
    rw [hst] at hl
    obtain ⟨l', h1, h2⟩ := Tree.nLoop_dfs _ _ _ _ hl
    rw [List.nil_append] at h1
    rw [h1]
    exact h2.block (R := t.Edge) (V := t.g.getNodeList) (fun v hv => (hch v hv).2.2)
      (fun v _ w hw => (hrt.inside v w hw).2) (by simpa using hs)
  · intro hst
    rw [hst] at hl
    obtain ⟨lev, hlev⟩ : ∃ lev : N → Nat, ∀ v w, t.Edge v w → lev w = lev v + 1 := by
      refine ⟨fun v => match a.na v "level" with | some (.int i) => i.toNat | _ => 0, ?_⟩
      intro v w hvw
      obtain ⟨_, k, h1, h2⟩ := hi.edge_level ((hE v w).1 hvw)
      simp only [h1, h2]
      omega
    have hw : ∀ j v, WalkLen t.Edge s j v → lev v = lev s + j := by
      intro j v hjv
      induction hjv with
      | nil => rfl
      | snoc _ he ih => rw [hlev _ _ he, ih]; omega
    have hchlev : ∀ v w, w ∈ ch v → lev w = lev v + 1 := by
      intro v w hvw
      by_cases hv : v ∈ t.g.getNodeList
      · exact hlev v w (((hch v hv).2.2 w).1 hvw)
      · rw [hchd] at hvw; simp [hv] at hvw
    have := Tree.nLoop_bfs hchlev fuel [s] [] l (by simp) (by simp) hl
    refine this.imp ?_
    intro v w hvw j k hj hk
    rw [hw j v hj, hw k w hk] at hvw
    omega

example : (grow (0 : Nat) [] [⟨1, 0, []⟩, ⟨2, 0, []⟩, ⟨3, 1, []⟩, ⟨4, 2, []⟩, ⟨5, 1, []⟩]).traverse true (some 0) 9
    matches .ok [.name 0, .name 2, .name 4, .name 1, .name 5, .name 3] := by decide +kernel

example : (grow (0 : Nat) [] [⟨1, 0, []⟩, ⟨2, 0, []⟩, ⟨3, 1, []⟩, ⟨4, 2, []⟩, ⟨5, 1, []⟩]).traverse false (some 0) 9
    matches .ok [.name 0, .name 1, .name 2, .name 3, .name 5, .name 4] := by decide +kernel

/-- **C41** is false when `root` is omitted: then the `Node` object `self.root` is looked up in the dictionary of
adjacency lists, whose keys are names, so that every call of `traverse`, `dfs` or `bfs` without `root` raises KeyError. -/
theorem C41_root_omitted_raises (t : Tree N) (stack : Bool) (fuel : Nat) (hf : 0 < fuel) :
    t.traverse stack none fuel = .error .keyError := by
  obtain ⟨k, rfl⟩ : ∃ k, fuel = k + 1 := ⟨fuel - 1, by omega⟩
  unfold Tree.traverse
  cases t.root <;> rfl

end GiMPy
