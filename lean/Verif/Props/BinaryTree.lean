import Verif.Lemmas.BinaryTree
import Verif.Props.Tree

/-! # C42, C43, C44, C54, C55, C56: class BinaryTree -/

namespace GiMPy
variable {N : Type} [DecidableEq N]
set_option linter.unusedSectionVars false

open BinaryTree BTree

/-- the calls that change a binary tree after `add_root` -/
inductive BOp (N : Type)
  | add (left : Bool) (n parent : N) (attr : List (String × Val N))
  | del (n : N)

/-- the call on the object -/
def BOp.call : BOp N → TM N Unit
  | .add left n p attr => addChildLR left n p attr
  | .del n => BinaryTree.delNode n

/-- what the call does to the abstract binary tree, and the exception it raises -/
def BOp.spec (T : BTree N) : BOp N → Option PyErr × BTree N
  | .add left n p _ =>
    if p ∉ T.inorder then (some .attributeError, T)
    else if T.hasChild left p = true then (some .exception, T)
    else (none, T.insert left n p)
  | .del n => if n ∉ T.inorder ∨ T.top = some n then (some .attributeError, T) else (none, T.remove n)

/-- A call in scope: the keyword arguments do not name children, an insertion into a free slot uses a new name, and a node to be
deleted is a leaf (or the root, where the call raises, or no node). -/
def BOp.Ok (T : BTree N) : BOp N → Prop
  | .add left n p attr => (∀ b, (AGraph.kw attr (side b)).getD .none = .none) ∧
      ¬ (p ∈ T.inorder ∧ T.hasChild left p = false ∧ n ∈ T.inorder)
  | .del n => T.top = some n ∨ T.hasChild true n = false ∧ T.hasChild false n = false

/-- every call of the history is in scope -/
def BHist (T : BTree N) : List (BOp N) → Prop
  | [] => True
  | op :: ops => op.Ok T ∧ BHist (op.spec T).2 ops

/-- the abstract binary tree after a history -/
def brun (T : BTree N) : List (BOp N) → BTree N
  | [] => T
  | op :: ops => brun (op.spec T).2 ops

/-- the object after a history; raising calls are caught -/
def bcalls (t : Tree N) : List (BOp N) → Tree N
  | [] => t
  | op :: ops => bcalls (EStateM.Result.state (op.call.run t)) ops

/-- the exceptions of the calls of a history -/
def boutcomes (t : Tree N) : List (BOp N) → List (Option PyErr)
  | [] => []
  | op :: ops => EStateM.Result.err (op.call.run t) :: boutcomes (EStateM.Result.state (op.call.run t)) ops

/-- the exceptions according to the specification -/
def bspecs (T : BTree N) : List (BOp N) → List (Option PyErr)
  | [] => []
  | op :: ops => (op.spec T).1 :: bspecs (op.spec T).2 ops

/-- `BinaryTree()`, `add_root(r, **attr)`, then a history -/
def bgrow (r : N) (attr : List (String × Val N)) (ops : List (BOp N)) : Tree N :=
  bcalls (EStateM.Result.state ((Tree.addRoot r attr).run Tree.init)) ops

/-- the tree with one node -/
def leaf (r : N) : BTree N := .node .nil r .nil

/-- keyword arguments of the root that name no relatives -/
def RootOk (attr : List (String × Val N)) : Prop :=
  (∀ b, (AGraph.kw attr (side b)).getD .none = .none) ∧ AGraph.kw attr "parent" = none

/-- the sequence asked for: pre-, in- or postorder, of the mirrored tree unless `left` -/
def printed (o : Order) (left : Bool) (T : BTree N) : List N :=
  match o with
  | .pre => (if left then T else T.mirror).preorder
  | .ino => (if left then T else T.mirror).inorder
  | .post => (if left then T else T.mirror).postorder

theorem brep_call {t : Tree N} {a : AGraph N} {r : N} {T : BTree N} (h : BRep t a r T) {op : BOp N} (ho : op.Ok T) :
    EStateM.Result.err (op.call.run t) = (op.spec T).1 ∧
      ∃ a', BRep (EStateM.Result.state (op.call.run t)) a' r (op.spec T).2 := by
  cases op with
  | add left n p attr =>
    obtain ⟨o1, o2⟩ := ho
    simp only [BOp.call, BOp.spec]
    by_cases hp : p ∈ T.inorder
    · rw [if_neg (by simp [hp])]
      by_cases hc : T.hasChild left p = true
      · rw [if_pos hc, addLR_taken h attr hp hc]; exact ⟨rfl, a, h⟩
      · rw [if_neg hc]
        have hc' : T.hasChild left p = false := by simpa using hc
        obtain ⟨t', a', e1, e2⟩ := addLR_ok h (n := n) o1 hp hc' (fun hn => o2 ⟨hp, hc', hn⟩)
        rw [e1]; exact ⟨rfl, a', e2⟩
    · rw [if_pos hp, addLR_noparent h attr hp]; exact ⟨rfl, a, h⟩
  | del n =>
    simp only [BOp.call, BOp.spec]
    by_cases hn : n ∈ T.inorder
    · by_cases hr : T.top = some n
      · rw [if_pos (.inr hr)]
        have : n = r := by rw [h.top] at hr; simpa using hr.symm
        rw [this, del_root h]; exact ⟨rfl, a, h⟩
      · rw [if_neg (by simp [hn, hr])]
        have : n ≠ r := by rintro rfl; exact hr h.top
        have ho : T.top = some n ∨ T.hasChild true n = false ∧ T.hasChild false n = false := ho
        obtain ⟨o1, o2⟩ := ho.resolve_left hr
        obtain ⟨t', a', e1, e2⟩ := del_leaf h hn this o1 o2
        rw [e1]; exact ⟨rfl, a', e2⟩
    · rw [if_pos (.inl hn), del_missing h hn]; exact ⟨rfl, a, h⟩

theorem brep_calls {r : N} : ∀ (ops : List (BOp N)) {t : Tree N} {a : AGraph N} {T : BTree N}, BRep t a r T → BHist T ops →
    boutcomes t ops = bspecs T ops ∧ ∃ a', BRep (bcalls t ops) a' r (brun T ops) := by
  intro ops
  induction ops with
  | nil => intro t a T h _; exact ⟨rfl, a, h⟩
  | cons op ops ih =>
    intro t a T h hh
    obtain ⟨e1, a', e2⟩ := brep_call h hh.1
    obtain ⟨e3, e4⟩ := ih e2 hh.2
    exact ⟨by rw [boutcomes, bspecs, e1, e3], e4⟩

theorem brep_grow {r : N} {attr : List (String × Val N)} (hattr : RootOk attr) {ops : List (BOp N)}
    (hops : BHist (leaf r) ops) : ∃ a, BRep (bgrow r attr ops) a r (brun (leaf r) ops) := by
  obtain ⟨t, a, e1, e2⟩ := brep_root (r := r) hattr.1 hattr.2
  unfold bgrow
  rw [e1]
  exact (brep_calls ops e2 hops).2

/-- **C55** Every call of `add_left_child`, `add_right_child` and `del_node` in scope returns or raises as on the abstract
binary tree, and afterwards the object represents the abstract tree: the same nodes, every slot holding the child in it,
and the edges of the digraph being the pairs of a node and its child. -/
theorem C55_refines_binary_tree (r : N) (attr : List (String × Val N)) (hattr : RootOk attr) (ops : List (BOp N))
    (hops : BHist (leaf r) ops) :
    boutcomes (bgrow r attr []) ops = bspecs (leaf r) ops ∧
    (let t := bgrow r attr ops; let T := brun (leaf r) ops
     T.inorder.Perm t.g.getNodeList ∧ T.inorder.Nodup ∧ RootedTree t.g.getNodeList t.Edge r ∧
     (∀ v w, t.Edge v w ↔ ∃ b, getChild t b v = .ok (.name w)) ∧
     ∀ v ∈ T.inorder, ∀ b, (∃ w, getChild t b v = .ok (.name w)) ↔ T.hasChild b v = true) := by
  refine ⟨?_, ?_⟩
  · obtain ⟨t, a, e1, e2⟩ := brep_root (r := r) hattr.1 hattr.2
    unfold bgrow
    rw [e1]
    exact (brep_calls ops e2 hops).1
  · obtain ⟨a, h⟩ := brep_grow hattr hops
    intro t T
    replace h : BRep t a r T := h
    have hV : t.g.getNodeList = a.V := h.rep.V
    have hE : ∀ u v, t.Edge u v ↔ (u, v) ∈ a.E := by
      intro u v; show (u, v) ∈ t.g.edgeAttr.keys ↔ _; rw [h.rep.E]
    refine ⟨?_, h.nodup, h.inv.rooted h.rep, ?_, ?_⟩
    · refine (List.perm_ext_iff_of_nodup h.nodup h.rep.wf.nodup).2 ?_
      intro v; rw [h.mem, h.rep.V]
    · intro v w
      by_cases hv : v ∈ a.V
      · rw [hE, ← kidsOf_iff h true hv, mem_kidsOf h true hv]
        simp only [getChild_rep h.rep hv, Except.ok.injEq]
      · rw [hE]
        constructor
        · intro he; exact absurd (h.inv.edge_level he).1 hv
        · rintro ⟨b, hb⟩
          unfold getChild at hb
          rw [MinCost.getNodeAttr_rep h.rep, AGraph.getNodeAttr, if_neg hv] at hb
          cases hb
    · intro v hv b
      have hvV := (h.mem v).1 hv
      have := (hasChild_iff (left := b) h.holds h.nodup hv).not
      simp only [getChild_rep h.rep hvV, Except.ok.injEq]
      rw [Bool.not_eq_false] at this
      rw [this]
      rcases slot h b hvV with h1 | ⟨w, h1, _⟩
      · rw [h1]; simp
      · rw [h1]; simp

/-- a history with raising calls and a deletion -/
def exBOps : List (BOp Nat) :=
  [.add true 2 1 [("label", .str "a")], .add false 3 1 [], .add true 9 1 [], .add true 4 2 [], .add false 5 2 [], .add true 6 8 [],
   .add false 6 3 [], .del 4, .del 4, .del 1, .add true 7 3 [], .add true 4 2 []]

theorem exBOps_ok : RootOk (N := Nat) [] ∧ BHist (leaf 1) exBOps := by
  refine ⟨⟨fun b => by cases b <;> rfl, rfl⟩, ?_⟩
  unfold exBOps
  refine ⟨⟨fun b => by cases b <;> rfl, by decide⟩, ⟨fun b => by cases b <;> rfl, by decide⟩,
    ⟨fun b => by cases b <;> rfl, by decide⟩, ⟨fun b => by cases b <;> rfl, by decide⟩,
    ⟨fun b => by cases b <;> rfl, by decide⟩, ⟨fun b => by cases b <;> rfl, by decide⟩,
    ⟨fun b => by cases b <;> rfl, by decide⟩, by unfold BOp.Ok; decide, by unfold BOp.Ok; decide, by unfold BOp.Ok; decide,
    ⟨fun b => by cases b <;> rfl, by decide⟩, ⟨fun b => by cases b <;> rfl, by decide⟩, trivial⟩

/-- **C42** After `add_root` and any history in scope, `print_nodes(order, priority)` ends and prints every node once,
in the order asked for of the abstract binary tree. -/
theorem C42_print_nodes (r : N) (attr : List (String × Val N)) (hattr : RootOk attr) (ops : List (BOp N))
    (hops : BHist (leaf r) ops) (o : Order) (left : Bool) (fuel : Nat) (hf : (brun (leaf r) ops).size ≤ fuel) :
    printAll (bgrow r attr ops) o left fuel = .ok (printed o left (brun (leaf r) ops)) ∧
      (printed o left (brun (leaf r) ops)).Perm (bgrow r attr ops).g.getNodeList ∧
      (bgrow r attr ops).g.getNodeList.Nodup := by
  obtain ⟨a, h⟩ := brep_grow hattr hops
  have hp : ∀ (S : BTree N), S.mirror.inorder.Perm S.inorder ∧ S.preorder.Perm S.inorder ∧ S.postorder.Perm S.inorder := by
    intro S
    induction S with
    | nil => exact ⟨.refl _, .refl _, .refl _⟩
    | node l v r ihl ihr =>
      refine ⟨?_, ?_, ?_⟩
      · simp only [mirror, inorder]
        refine List.perm_middle.trans (List.Perm.trans ?_ List.perm_middle.symm)
        exact (List.perm_append_comm.trans (ihl.1.append ihr.1)).cons v
      · simp only [preorder, inorder]
        exact ((ihl.2.1.append ihr.2.1).cons v).trans List.perm_middle.symm
      · simp only [postorder, inorder]
        exact List.perm_append_comm.trans (((ihl.2.2.append ihr.2.2).cons v).trans List.perm_middle.symm)
  have hpr : ∀ T : BTree N, printed o left T = seq o (if left then T else T.mirror) := by
    intro T; cases o <;> rfl
  refine ⟨?_, ?_, h.rep.wf.nodup⟩
  · have := print_ok h.rep o left _ h.holds (fun v hv => (h.mem v).1 hv) fuel hf
    rw [topVal_name.2 h.top] at this
    unfold printAll
    rw [h.root, hpr]
    exact this
  · have e1 : (brun (leaf r) ops).inorder.Perm (bgrow r attr ops).g.getNodeList := by
      refine (List.perm_ext_iff_of_nodup h.nodup h.rep.wf.nodup).2 ?_
      intro v; rw [h.mem, h.rep.V]
    refine List.Perm.trans ?_ e1
    have e2 : ∀ S : BTree N, (seq o S).Perm S.inorder := by
      intro S; cases o
      · exact (hp S).2.1
      · exact .refl _
      · exact (hp S).2.2
    rw [hpr]
    refine (e2 _).trans ?_
    cases left
    · exact (hp _).1
    · exact .refl _

example : printed .ino true (brun (leaf 1) exBOps) = [4, 2, 5, 1, 7, 3, 6] ∧
    printAll (bgrow 1 [] exBOps) .post false 9 matches .ok [6, 7, 3, 5, 4, 2, 1] := by decide +kernel

/-- **C43** is false: a call that raises because the name of the new child is in the tree already has written that name
into the slot of the parent before; afterwards the node is the child of two nodes (here `print_nodes` prints it twice). -/
theorem C43_false :
    let ops : List (BOp Nat) := [.add true 2 1 [], .add false 3 1 []]
    let t := bgrow 1 [] ops
    let t' := EStateM.Result.state ((addChildLR true 2 3 []).run t)
    EStateM.Result.err ((addChildLR true 2 3 []).run t) = some .multipleNode ∧
    decide (getChild t true 3 = .ok .none) = true ∧ decide (getChild t' true 3 = .ok (.name 2)) = true ∧
    decide (printAll t .pre true 9 = .ok [1, 2, 3]) = true ∧ decide (printAll t' .pre true 9 = .ok [1, 2, 3, 2]) = true := by
  decide +kernel

/-- **C43** What holds: after a history in scope, a raising `add_left_child`/`add_right_child` leaves the object as it was
unless the parent is there, its slot is free and the name is in use; in that case it raises MultipleNodeException, and the
slot has been changed.  (Missing for C43: that last case.) -/
theorem C43_raise_unchanged_partial (r : N) (attr : List (String × Val N)) (hattr : RootOk attr) (ops : List (BOp N))
    (hops : BHist (leaf r) ops) (left : Bool) (n p : N) (at' : List (String × Val N))
    (hclean : ∀ b, (AGraph.kw at' (side b)).getD .none = .none) :
    let t := bgrow r attr ops; let T := brun (leaf r) ops
    (EStateM.Result.err ((addChildLR left n p at').run t) ≠ none →
      (EStateM.Result.state ((addChildLR left n p at').run t) = t ↔
        ¬ (p ∈ T.inorder ∧ T.hasChild left p = false ∧ n ∈ T.inorder))) ∧
    ((p ∈ T.inorder ∧ T.hasChild left p = false ∧ n ∈ T.inorder) →
      EStateM.Result.err ((addChildLR left n p at').run t) = some .multipleNode) := by
  obtain ⟨a, h⟩ := brep_grow hattr hops
  intro t T
  replace h : BRep t a r T := h
  by_cases hbad : p ∈ T.inorder ∧ T.hasChild left p = false ∧ n ∈ T.inorder
  · obtain ⟨t', e1, e2⟩ := addLR_dup h (attr := at') hbad.1 hbad.2.1 hbad.2.2
    rw [e1]
    refine ⟨fun _ => ⟨?_, fun h => absurd hbad h⟩, fun _ => rfl⟩
    intro he
    replace he : t' = t := he
    have hpV := (h.mem p).1 hbad.1
    have h1 := getChild_rep (t := t') e2 (p := p) hpV left
    rw [he, getChild_rep h.rep hpV, setG_na_self, (hasChild_iff h.holds h.nodup hbad.1).1 hbad.2.1] at h1
    cases h1
  · refine ⟨fun he => ⟨fun _ => hbad, fun _ => ?_⟩, fun h => absurd h hbad⟩
    by_cases hp : p ∈ T.inorder
    · by_cases hc : T.hasChild left p = true
      · rw [addLR_taken h at' hp hc]; rfl
      · have hc' : T.hasChild left p = false := by simpa using hc
        obtain ⟨t', a', e1, _⟩ := addLR_ok h (n := n) hclean hp hc' (fun hn => hbad ⟨hp, hc', hn⟩)
        rw [e1] at he
        exact absurd rfl he
    · rw [addLR_noparent h at' hp]; rfl

/-- **C44** is false: in `0 + 1` the left operand has the value 0, which `if res1 and res2` takes for missing, so that
`int('+')` raises ValueError although the expression has the value 1. -/
theorem C44_false :
    let lab : String → List (String × Val String) := fun s => [("label", .str s)]
    let ops : List (BOp String) := [.add true "x" "r" (lab "0"), .add false "y" "r" (lab "1")]
    let t := bgrow "r" (lab "+") ops
    let R : Reading String := ⟨fun s => decide (s ≠ ""), fun v => if v = .str "0" then some 0 else if v = .str "1" then some 1 else none,
      fun v => if v = .str "+" then some .add else none⟩
    let l : String → Val String := fun v => .str (if v = "r" then "+" else if v = "x" then "0" else "1")
    (brun (leaf "r") ops).value l R.int R.oper = some 1 ∧
    decide (eval t R 9 "r" = .error .valueError) = true := by
  decide +kernel

/-- **C44** What holds: let the tree be an arithmetic expression, the names of the nodes truthy (the root's need not be) and
the labels of operators not numerals.  If no proper subexpression has the value 0 then the expression has a value and
`postordereval` returns it; otherwise the call raises ValueError.  (Missing for C44: subexpressions with value 0.) -/
theorem C44_value_partial (r : N) (attr : List (String × Val N)) (hattr : RootOk attr) (ops : List (BOp N))
    (hops : BHist (leaf r) ops) (R : Reading N) (lab : N → Val N) :
    let t := bgrow r attr ops; let T := brun (leaf r) ops
    (∀ v ∈ t.g.getNodeList, labelOf t v = .ok (lab v)) → (∀ v ∈ t.g.getNodeList, v ≠ r → R.truthy v = true) →
    (∀ v ∈ t.g.getNodeList, (R.oper (lab v)).isSome → R.int (lab v) = none) → T.isExpr lab R.int R.oper = true →
    ∀ fuel, T.size ≤ fuel →
    (T.Below (fun S => S.value lab R.int R.oper ≠ some 0) →
      ∃ x, T.value lab R.int R.oper = some x ∧ eval t R fuel r = .ok x) ∧
    (¬ T.Below (fun S => S.value lab R.int R.oper ≠ some 0) → eval t R fuel r = .error .valueError) := by
  obtain ⟨a, h⟩ := brep_grow hattr hops
  intro t T hlab htr hop hb fuel hf
  replace h : BRep t a r T := h
  have hV : t.g.getNodeList = a.V := h.rep.V
  rw [hV] at hlab htr hop
  rcases eval_ok h.rep hlab hop T r h.top h.holds (fun v hv => (h.mem v).1 hv) (fun w hw => htr w ((h.mem w).1 hw)) h.nodup hb
    fuel hf with ⟨h1, h2⟩ | ⟨h1, h2⟩
  · exact ⟨fun _ => h2, fun h3 => absurd h1 h3⟩
  · exact ⟨fun h3 => absurd h3 h1, fun _ => h2⟩

/-- **C54** If the names of the nodes are truthy and every inner node has two children, then `printexp` prints the fully
parenthesised infix form of the expression. -/
theorem C54_printexp (r : N) (attr : List (String × Val N)) (hattr : RootOk attr) (ops : List (BOp N))
    (hops : BHist (leaf r) ops) (R : Reading N) (lab : N → Val N) :
    let t := bgrow r attr ops; let T := brun (leaf r) ops
    (∀ v ∈ t.g.getNodeList, labelOf t v = .ok (lab v)) → (∀ v ∈ t.g.getNodeList, v ≠ r → R.truthy v = true) →
    T.full = true → ∀ fuel, T.size ≤ fuel → printexp t R fuel r = .ok (T.infixForm lab) := by
  obtain ⟨a, h⟩ := brep_grow hattr hops
  intro t T hlab htr hb fuel hf
  replace h : BRep t a r T := h
  have hV : t.g.getNodeList = a.V := h.rep.V
  rw [hV] at hlab htr
  exact exp_ok h.rep hlab T r h.top h.holds (fun v hv => (h.mem v).1 hv) (fun w hw => htr w ((h.mem w).1 hw)) h.nodup hb fuel hf

/-- `(3 / 5) * 4`, with names for nodes and labels for the operators and numbers -/
def exExpr : List (BOp Nat) :=
  [.add true 2 1 [("label", .str "/")], .add false 3 1 [("label", .int 4)], .add true 4 2 [("label", .int 3)],
   .add false 5 2 [("label", .int 5)]]

/-- reading of the labels of `exExpr` -/
def exRead : Reading Nat := ⟨fun n => decide (n ≠ 0), fun v => match v with | .int i => some i | _ => none,
  fun v => if v = .str "/" then some .div else if v = .str "*" then some .mul else none⟩

/-- the labels of `exExpr` -/
def exLab (v : Nat) : Val Nat :=
  if v = 1 then .str "*" else if v = 2 then .str "/" else if v = 3 then .int 4 else if v = 4 then .int 3 else .int 5

example : BHist (leaf 1) exExpr ∧ (brun (leaf 1) exExpr).full = true ∧
    (brun (leaf 1) exExpr).Below (fun S => S.value exLab exRead.int exRead.oper ≠ some 0) ∧
    (brun (leaf 1) exExpr).value exLab exRead.int exRead.oper = some (12 / 5) ∧
    (brun (leaf 1) exExpr).isExpr exLab exRead.int exRead.oper = true := by
  refine ⟨⟨⟨fun b => by cases b <;> rfl, by decide⟩, ⟨fun b => by cases b <;> rfl, by decide⟩,
    ⟨fun b => by cases b <;> rfl, by decide⟩, ⟨fun b => by cases b <;> rfl, by decide⟩, trivial⟩, by decide, ?_, by decide +kernel, by decide⟩
  have : brun (leaf 1) exExpr = .node (.node (.node .nil 4 .nil) 2 (.node .nil 5 .nil)) 1 (.node .nil 3 .nil) := rfl
  rw [this]
  refine ⟨fun _ => by decide +kernel, fun _ => by decide +kernel, ⟨fun _ => by decide +kernel, fun _ => by decide +kernel, ?_, ?_⟩, ?_⟩ <;> simp [Below, top]

example : RootOk (N := Nat) [("label", .str "*")] := ⟨fun b => by cases b <;> rfl, rfl⟩

example : let t := bgrow 1 [("label", .str "*")] exExpr
    (∀ v ∈ t.g.getNodeList, labelOf t v = .ok (exLab v)) ∧ (∀ v ∈ t.g.getNodeList, v ≠ 1 → exRead.truthy v = true) ∧
    eval t exRead 9 1 = .ok (12 / 5) ∧
    printexp t exRead 9 1 = .ok [.op, .op, .lab (.int 3), .lab (.str "/"), .lab (.int 5), .cl, .lab (.str "*"), .lab (.int 4), .cl] := by
  decide +kernel

/-- with a missing right child the parentheses of `printexp` do not match -/
theorem C54_unbalanced : let t := bgrow 1 [] [.add true 2 1 []]
    printexp t ⟨fun _ => true, fun _ => none, fun _ => none⟩ 9 1 = .ok [.op, .lab (.name 2), .lab (.name 1)] := by
  decide +kernel

/-- **C56** `BinaryTree.traverse` from a node `s` visits the nodes of its subtree once each, every node after its parent,
depth-first with a stack, breadth-first with a queue.  From the root (given or omitted) with a stack the order is the
preorder of the tree for priority 'R', and of the mirrored tree for priority 'L': the child of the other side comes
first. -/
theorem C56_traverse (r : N) (attr : List (String × Val N)) (hattr : RootOk attr) (ops : List (BOp N))
    (hops : BHist (leaf r) ops) (stack left : Bool) :
    let t := bgrow r attr ops; let T := brun (leaf r) ops
    (∀ s ∈ t.g.getNodeList, ∀ fuel, t.g.getNodeList.length < fuel →
      ∃ l : List N, btraverse t stack left (some s) fuel = .ok l ∧ IsTraversal t.Edge s l ∧
        (stack = true → IsDepthFirst t.Edge l) ∧ (stack = false → IsBreadthFirst t.Edge s l)) ∧
    (∀ fuel, btraverse t stack left none fuel = btraverse t stack left (some r) fuel) ∧
    (stack = true → ∀ fuel, t.g.getNodeList.length < fuel →
      btraverse t stack left (some r) fuel = .ok (if left then T.mirror.preorder else T.preorder)) := by
  obtain ⟨a, h⟩ := brep_grow hattr hops
  intro t T
  replace h : BRep t a r T := h
  have hrt := h.inv.rooted h.rep
  have hV : t.g.getNodeList = a.V := h.rep.V
  have hE : ∀ u v, t.Edge u v ↔ (u, v) ∈ a.E := by
    intro u v; show (u, v) ∈ t.g.edgeAttr.keys ↔ _; rw [h.rep.E]
  have hch : ∀ v ∈ t.g.getNodeList, ∀ w, w ∈ kidsOf a left v ↔ t.Edge v w := by
    intro v hv w
    rw [hV] at hv
    rw [hE, kidsOf_iff h left hv]
  have hnd : ∀ v ∈ t.g.getNodeList, (kidsOf a left v).Nodup := by
    intro v hv; rw [hV] at hv; exact kidsOf_nodup h left hv
  have hone : ∀ p p' x, t.Edge p x → t.Edge p' x → p = p' := by
    intro p p' x h1 h2
    have hx : x ≠ r := by rintro rfl; exact hrt.root_no_parent p h1
    exact (hrt.one_parent x (hrt.inside p x h1).2 hx).unique h1 h2
  have hrun : ∀ s ∈ t.g.getNodeList, ∀ fuel, t.g.getNodeList.length < fuel →
      ∃ l, Tree.nLoop (kidsOf a left) stack fuel [s] [] = some l ∧ Tree.TInv t.Edge s l [] ∧
        btraverse t stack left (some s) fuel = .ok l := by
    intro s hs fuel hf
    obtain ⟨l, hl, hinv⟩ := Tree.nLoop_ok (R := t.Edge) (ch := kidsOf a left) (V := t.g.getNodeList) (s := s)
      hch hnd (fun v _ w hw => (hrt.inside v w hw).2) hs
      hone hrt.acyclic stack fuel [s] [] (.init s) (by simpa using hf)
    refine ⟨l, hl, hinv, ?_⟩
    have := btravLoop_eq (t := t) (ch := kidsOf a left) (V := t.g.getNodeList) stack left
      (fun v hv => kids_eq h left (by rw [← hV]; exact hv))
      (fun v hv w hw => (hrt.inside v w ((hch v hv w).1 hw)).2) fuel [s] [] (by simpa using hs)
    rw [hl] at this
    exact this
  refine ⟨?_, ?_, ?_⟩
  · intro s hs fuel hf
    obtain ⟨l, hl, hinv, hb⟩ := hrun s hs fuel hf
    refine ⟨l, hb, ?_, ?_, ?_⟩
    · have hn := hinv.nodup
      rw [List.append_nil] at hn
      refine ⟨hn, ?_, hinv.order⟩
      intro v
      constructor
      · intro hv; exact hinv.mem v (by simp [hv])
      · intro hv
        induction hv with
        | refl => simpa using hinv.start
        | tail _ he ih => simpa using hinv.closed _ ih _ he
    · intro hst
      rw [hst] at hl
      obtain ⟨l', h1, h2⟩ := Tree.nLoop_dfs _ _ _ _ hl
      rw [List.nil_append] at h1
      rw [h1]
      exact h2.block (R := t.Edge) (V := t.g.getNodeList) hch
        (fun v _ w hw => (hrt.inside v w hw).2) (by simpa using hs)
    · intro hst
      rw [hst] at hl
      obtain ⟨lev, hlev⟩ : ∃ lev : N → Nat, ∀ v w, (v, w) ∈ a.E → lev w = lev v + 1 := by
        refine ⟨fun v => match a.na v "level" with | some (.int i) => i.toNat | _ => 0, ?_⟩
        intro v w hvw
        obtain ⟨_, k, h1, h2⟩ := h.inv.edge_level hvw
        simp only [h1, h2]
        omega
      have hw : ∀ j v, WalkLen t.Edge s j v → lev v = lev s + j := by
        intro j v hjv
        induction hjv with
        | nil => rfl
        | snoc _ he ih => rw [hlev _ _ ((hE _ _).1 he), ih]; omega
      obtain ⟨ch, hchd⟩ : ∃ ch : N → List N, ch = fun p => if p ∈ a.V then kidsOf a left p else [] := ⟨_, rfl⟩
      have hchlev : ∀ v w, w ∈ ch v → lev w = lev v + 1 := by
        intro v w hvw
        rw [hchd] at hvw
        by_cases hv : v ∈ a.V
        · simp only [if_pos hv] at hvw
          exact hlev v w ((kidsOf_iff h left hv).1 hvw)
        · simp [hv] at hvw
      have hsame : ∀ k q vis, (∀ x ∈ q, x ∈ a.V) →
          Tree.nLoop (kidsOf a left) false k q vis = Tree.nLoop ch false k q vis := by
        intro k
        induction k with
        | zero => intro q vis _; rfl
        | succ k ih =>
          intro q vis hq
          cases q with
          | nil => rfl
          | cons x q =>
            have hx := hq x (by simp)
            have e : ch x = kidsOf a left x := by rw [hchd]; simp only [if_pos hx]
            rw [Tree.nLoop, Tree.nLoop, e]
            refine ih _ _ ?_
            intro y hy
            rw [if_neg (by simp), List.mem_append] at hy
            rcases hy with hy | hy
            · exact hq y (by simp [hy])
            · exact (h.inv.edge x y ((kidsOf_iff h left hx).1 hy)).1
      rw [hsame _ _ _ (by intro x hx; simp at hx; rw [hx, ← hV]; exact hs)] at hl
      have := Tree.nLoop_bfs hchlev fuel [s] [] l (by simp) (by simp) hl
      refine this.imp ?_
      intro v w hvw j k hj hk
      rw [hw j v hj, hw k w hk] at hvw
      omega
  · intro fuel
    unfold btraverse
    rw [h.root]
  · intro hst fuel hf
    obtain ⟨l, hl, hinv, hb⟩ := hrun r (by rw [hV]; exact h.inv.root) fuel hf
    rw [hb]
    rw [hst] at hl
    obtain ⟨l', h1, h2⟩ := Tree.nLoop_dfs _ _ _ _ hl
    rw [List.nil_append] at h1
    have := dfs_seq (left := left) T h.holds l' (by rw [h.top]; exact h2)
    rw [h1, this]
    cases left <;> rfl

example : btraverse (bgrow 1 [] exBOps) true true none 9 = .ok [1, 3, 6, 7, 2, 5, 4] ∧
    btraverse (bgrow 1 [] exBOps) false true none 9 = .ok [1, 2, 3, 4, 5, 7, 6] := by decide +kernel

end GiMPy
