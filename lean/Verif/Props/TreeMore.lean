import Verif.Model.TreeMore
import Verif.Props.Tree
import Verif.Props.BinaryTree

/-! # C94-C96: the shared default stack of `traverse`, the output of `postordereval`, `del_node` of an inner node -/

namespace GiMPy
variable {N : Type} [DecidableEq N]
set_option linter.unusedSectionVars false

open Tree BinaryTree BTree MinCost

theorem Tree.travQ_eq {t : Tree N} {a : AGraph N} (h : Rep t.g a) (hd : t.g.directed = true) : ∀ (k : Nat) (q vis : List (Ref N)),
    (∀ x ∈ q, ∃ n, x = .name n ∧ n ∈ t.g.getNodeList) →
    (travQ t k q vis).1 = travLoop t true k q vis ∧ (travLoop t true k q vis ≠ .error .diverge → (travQ t k q vis).2 = []) := by
  intro k
  induction k with
  | zero => intro q vis _; exact ⟨rfl, fun h => absurd rfl h⟩
  | succ k ih =>
    intro q vis hq
    cases q with
    | nil => exact ⟨rfl, fun _ => rfl⟩
    | cons x q =>
      obtain ⟨n, rfl, hn⟩ := hq x (by simp)
      obtain ⟨l, hl, _, h3⟩ := Tree.kids h hd hn
      have hc : t.childrenOf (.name n) = .ok l := hl
      rw [travQ, travLoop, hc]
      simp only [if_true]
      refine ih _ _ fun y hy => ?_
      rcases List.mem_append.1 hy with hy | hy
      · obtain ⟨m, hm, rfl⟩ := List.mem_map.1 (List.mem_reverse.1 hy)
        exact ⟨m, rfl, (h.wf.endp n m ((h3 m).1 hm)).2⟩
      · exact hq y (by simp [hy])

theorem Tree.traverseQ_eq {t : Tree N} {a : AGraph N} (h : Rep t.g a) (hd : t.g.directed = true) (root : Option N) (fuel : Nat)
    (hf : t.traverse true root fuel ≠ .error .diverge) :
    traverseQ t root fuel [] = (t.traverse true root fuel, []) := by
  have key : ∀ x : Ref N, travLoop t true fuel [x] [] ≠ .error .diverge →
      travQ t fuel [x] [] = (travLoop t true fuel [x] [], []) := by
    intro x hx
    by_cases hn : ∃ n, x = .name n ∧ n ∈ t.g.getNodeList
    · have := travQ_eq h hd fuel [x] [] (by simpa using hn)
      exact Prod.ext this.1 (this.2 hx)
    · cases fuel with
      | zero => exact absurd rfl hx
      | succ k =>
        have hc : ∃ e, t.childrenOf x = .error e := by
          cases x with
          | obj n => exact ⟨_, rfl⟩
          | name n =>
            refine ⟨.keyError, ?_⟩
            have : t.g.neighbors.get? n = none := (Dict.get?_eq_none_iff _ _).2 fun hh => hn ⟨n, rfl, hh⟩
            simp only [childrenOf, getChildren, Graph.getNeighbors, this]
        obtain ⟨e, he⟩ := hc
        rw [travQ, travLoop, he]
  unfold traverseQ traverse at *
  cases root with
  | some r => exact key _ hf
  | none =>
    cases hr : t.root with
    | none => rfl
    | some r => rw [hr] at hf; exact key _ hf

/-- **C94**, class `Tree`: consecutive calls of `traverse` without `q`, on any trees built and edited by calls of the graph
API and from any roots, existing or not, each do what the call does on a new stack, as long as none runs forever. -/
theorem C94_tree_calls_independent : ∀ (cs : List (Tree N × Option N × Nat)),
    (∀ c ∈ cs, ∃ ops, c.1.g = runOps (Graph.init true) ops) →
    (∀ c ∈ cs, c.1.traverse true c.2.1 c.2.2 ≠ .error .diverge) →
    sharedCalls cs [] = (cs.map fun c => c.1.traverse true c.2.1 c.2.2, [])
  | [], _, _ => rfl
  | c :: cs, hb, hf => by
    obtain ⟨ops, ho⟩ := hb c (by simp)
    have hs : ∀ op ∈ ops, op.InScope true := by intro op _; cases op <;> simp [Op.InScope]
    have hr := rep_reachable (N := N) true ops hs
    rw [← ho] at hr
    have hd : c.1.g.directed = true := by rw [ho]; exact runOps_directed true ops hs
    have h1 := traverseQ_eq hr hd c.2.1 c.2.2 (hf c (by simp))
    have h2 := C94_tree_calls_independent cs (fun c hc => hb c (by simp [hc])) (fun c hc => hf c (by simp [hc]))
    rw [sharedCalls, h1, h2]
    rfl

theorem Tree.travQ_append {t : Tree N} (k₂ : Nat) (q : List (Ref N)) : ∀ (k : Nat) (l vis A : List (Ref N)),
    travLoop t true k l vis = .ok A → ∃ j, k₂ ≤ j ∧ travQ t (k + k₂) (l ++ q) vis = travQ t j q A := by
  intro k
  induction k with
  | zero => intro l vis A h; cases h
  | succ k ih =>
    intro l vis A h
    cases l with
    | nil =>
      rw [travLoop] at h
      cases h
      exact ⟨k + 1 + k₂, by omega, rfl⟩
    | cons x l =>
      rw [travLoop] at h
      rw [show k + 1 + k₂ = (k + k₂) + 1 by omega, List.cons_append, travQ]
      cases hc : t.childrenOf x with
      | error e => rw [hc] at h; cases h
      | ok ch =>
        rw [hc] at h
        simp only [if_true] at h ⊢
        obtain ⟨j, h1, h2⟩ := ih _ _ _ h
        exact ⟨j, h1, by rw [← h2, List.append_assoc]⟩

theorem Tree.travQ_ok {t : Tree N} : ∀ (k j : Nat) (q vis A B : List (Ref N)), travLoop t true k q vis = .ok B → k ≤ j →
    travQ t j q (A ++ vis) = (.ok (A ++ B), []) := by
  intro k
  induction k with
  | zero => intro j q vis A B h; cases h
  | succ k ih =>
    intro j q vis A B h hj
    obtain ⟨j, rfl⟩ : ∃ i, j = i + 1 := ⟨j - 1, by omega⟩
    cases q with
    | nil => rw [travLoop] at h; cases h; rfl
    | cons x q =>
      rw [travLoop] at h
      rw [travQ]
      cases hc : t.childrenOf x with
      | error e => rw [hc] at h; cases h
      | ok ch =>
        rw [hc] at h
        simp only [if_true] at h ⊢
        have := ih j _ _ A _ h (by omega)
        rw [List.append_assoc]
        exact this

/-- **C94**, a stack that is not empty: the root goes on top.  If the traversal from `r` and that of the items on the stack end
without an error, visiting `A` and `B`, the call visits `A` and then `B` and leaves the stack empty.  Without a root the call
raises and leaves the stack as it was. -/
theorem C94_given_stack (t : Tree N) (q A B : List (Ref N)) :
    (∀ (r : N) (k₁ k₂ : Nat), t.traverse true (some r) k₁ = .ok A → travLoop t true k₂ q [] = .ok B →
      traverseQ t (some r) (k₁ + k₂) q = (.ok (A ++ B), [])) ∧
    ∀ k, traverseQ t none (k + 1) q = (.error .keyError, q) := by
  refine ⟨fun r k₁ k₂ h1 h2 => ?_, fun k => ?_⟩
  · obtain ⟨j, h3, h4⟩ := travQ_append k₂ q k₁ [.name r] [] A h1
    show travQ t (k₁ + k₂) ([.name r] ++ q) [] = _
    rw [h4]
    simpa using travQ_ok k₂ j q [] A B h2 h3
  · unfold traverseQ
    cases t.root with
    | none => rfl
    | some r => rfl

example : let t := grow 0 [] [⟨1, 0, []⟩, ⟨2, 0, []⟩, ⟨3, 1, []⟩]
    t.traverse true (some 1) 9 = .ok [.name 1, .name (3 : Nat)] ∧ travLoop t true 9 [.name 2] [] = .ok [.name 2] ∧
    traverseQ t (some 1) 9 [.name 2] = (.ok [.name 1, .name 3, .name 2], []) := ⟨rfl, rfl, rfl⟩

/-- non-vacuity of C94 for trees: the second call raises and the third is not disturbed -/
example : let t := grow 0 [] [⟨1, 0, []⟩, ⟨2, 0, []⟩, ⟨3, 1, []⟩]
    (∃ ops, t.g = runOps (Graph.init true) ops) ∧
    (sharedCalls [(t, some 0, 9), (t, some (7 : Nat), 9), (t, none, 9), (t, some 1, 9)] []).1.map (fun r => match r with
      | .ok l => some l.length | .error _ => none) = [some 4, none, none, some 2] :=
  ⟨⟨[.addNode 0 [("level", .int 0)], .addNode 1 [("level", .int 1), ("parent", .name 0)], .addEdge 0 1 [],
    .addNode 2 [("level", .int 1), ("parent", .name 0)], .addEdge 0 2 [],
    .addNode 3 [("level", .int 2), ("parent", .name 1)], .addEdge 1 3 []], rfl⟩, by decide⟩

namespace BinaryTree

theorem btravQ_eq {t : Tree N} {left : Bool} {V : List N} {ch : N → List N} (hch : ∀ v ∈ V, kids t left v = .ok (ch v))
    (hV : ∀ v ∈ V, ∀ w ∈ ch v, w ∈ V) : ∀ (k : Nat) (q vis : List N), (∀ x ∈ q, x ∈ V) →
    (btravQ t left k q vis).1 = btravLoop t true left k q vis ∧
    (btravLoop t true left k q vis ≠ .error .diverge → (btravQ t left k q vis).2 = []) := by
  intro k
  induction k with
  | zero => intro q vis _; exact ⟨rfl, fun h => absurd rfl h⟩
  | succ k ih =>
    intro q vis hq
    cases q with
    | nil => exact ⟨rfl, fun _ => rfl⟩
    | cons x q =>
      have hx := hq x (by simp)
      rw [btravQ, btravLoop, hch x hx]
      simp only [if_true]
      refine ih _ _ fun y hy => ?_
      rcases List.mem_append.1 hy with hy | hy
      · exact hV x hx y (List.mem_reverse.1 hy)
      · exact hq y (by simp [hy])

theorem btraverseQ_eq {t : Tree N} {a : AGraph N} {r : N} {T : BTree N} (h : BRep t a r T) (left : Bool) (root : Option N)
    (fuel : Nat) (hf : btraverse t true left root fuel ≠ .error .diverge) :
    btraverseQ t left root fuel [] = (btraverse t true left root fuel, []) := by
  have key : ∀ x : N, btravLoop t true left fuel [x] [] ≠ .error .diverge →
      btravQ t left fuel [x] [] = (btravLoop t true left fuel [x] [], []) := by
    intro x hx
    by_cases hn : x ∈ a.V
    · have := btravQ_eq (V := a.V) (ch := kidsOf a left) (fun v hv => kids_eq h left hv)
        (fun v hv w hw => by
          have := (kidsOf_iff h left hv).1 hw
          have h2 := h.rep.wf.endp v w (by rw [h.rep.E]; exact this)
          rw [← h.rep.V]; exact h2.2) fuel [x] [] (by simpa using hn)
      exact Prod.ext this.1 (this.2 hx)
    · cases fuel with
      | zero => exact absurd rfl hx
      | succ k =>
        have hc : ∃ e, kids t left x = .error e := by
          refine ⟨.attributeError, ?_⟩
          have : t.g.nodes.get? x = none := (Dict.get?_eq_none_iff _ _).2 fun hh => hn (by
            rw [h.rep.wf.nodesEq] at hh; exact h.rep.V ▸ hh)
          unfold kids getChild Graph.getNodeAttr
          rw [this]
        obtain ⟨e, he⟩ := hc
        rw [btravQ, btravLoop, he]
  unfold btraverseQ btraverse at *
  cases root with
  | some r => exact key _ hf
  | none =>
    cases hr : t.root with
    | none => rfl
    | some r => rw [hr] at hf; exact key _ hf

end BinaryTree

/-- **C94 (partial)**, class `BinaryTree`: consecutive calls of `traverse` without `q`, from any roots, existing or not, each do
what the call does on a new stack, as long as none runs forever, if all trees were built by calls in the scope of C55.
Missing: other trees, see `C94_false`. -/
theorem C94_binary_calls_independent_partial : ∀ (cs : List (BCall N)),
    (∀ c ∈ cs, ∃ r attr ops, c.t = bgrow r attr ops ∧ RootOk attr ∧ BHist (leaf r) ops) →
    (∀ c ∈ cs, btraverse c.t true c.left c.root c.fuel ≠ .error .diverge) →
    bsharedCalls cs [] = (cs.map fun c => btraverse c.t true c.left c.root c.fuel, [])
  | [], _, _ => rfl
  | c :: cs, hb, hf => by
    obtain ⟨r, attr, ops, ho, h1, h2⟩ := hb c (by simp)
    obtain ⟨a, hr⟩ := brep_grow h1 h2
    rw [← ho] at hr
    have h1 := btraverseQ_eq hr c.left c.root c.fuel (hf c (by simp))
    have h2 := C94_binary_calls_independent_partial cs (fun c hc => hb c (by simp [hc])) (fun c hc => hf c (by simp [hc]))
    rw [bsharedCalls, h1, h2]
    rfl

/-- a tree in which 2 was offered to node 0 as right child though it was the left child of 1 already, and then deleted -/
def exDangling : List (BOp Nat) := [.add true 1 0 [], .add true 2 1 [], .add false 2 0 [], .del 2]

/-- **C94 is false** for binary trees: after a call that raised, a call on a sound tree raises too, though on a new stack it
would visit the two nodes; a call on a tree that has the node left over visits it in addition. -/
theorem C94_false : let bad := bgrow 0 [] exDangling
    let good := bgrow 5 [] [.add true 6 5 []]
    let good' := bgrow 5 [] [.add true 1 5 []]
    boutcomes (bgrow 0 [] []) exDangling = [none, none, some .multipleNode, none] ∧
    (bsharedCalls [⟨bad, true, some 0, 9⟩, ⟨good, true, some 5, 9⟩] []).1 = [.error .attributeError, .error .attributeError] ∧
    btraverse good true true (some 5) 9 = .ok [5, 6] ∧
    (bsharedCalls [⟨bad, true, some 0, 9⟩, ⟨good', true, some 5, 9⟩] []).1 = [.error .attributeError, .ok [5, 1, 1]] ∧
    btraverse good' true true (some 5) 9 = .ok [5, 1] := by
  exact ⟨by decide, rfl, rfl, rfl, rfl⟩

/-- non-vacuity of C94 for binary trees: the first call raises, a missing root, and the others are not disturbed -/
example : let t := bgrow 1 [] exBOps
    (∃ r attr ops, t = bgrow r attr ops ∧ RootOk attr ∧ BHist (leaf r) ops) ∧
    (bsharedCalls [⟨t, true, some 77, 9⟩, ⟨t, true, none, 9⟩, ⟨t, false, some 3, 9⟩] []).1 =
      [.error .attributeError, .ok [1, 3, 6, 7, 2, 5, 4], .ok [3, 7, 6]] :=
  ⟨⟨1, [], exBOps, rfl, exBOps_ok⟩, rfl⟩

/-! ## What `postordereval` prints -/

/-- the output asked for: the operands around the operator, then the value of the operation, twice -/
def BTree.evalTrace (lab : N → Val N) (int : Val N → Option Int) (oper : Val N → Option BinOp) : BTree N → List (Out N)
  | .nil => []
  | .node .nil v .nil => [.lab (lab v)]
  | .node l v r => l.evalTrace lab int oper ++ [.lab (lab v)] ++ r.evalTrace lab int oper ++
      match (BTree.node l v r).value lab int oper with | some x => [.eq x, .num x] | none => []

namespace BinaryTree

theorem outOpt_snd (R : Reading N) {ev : N → List (Out N) × Except PyErr Rat} {ev' : N → Except PyErr Rat}
    (h : ∀ n, (ev n).2 = ev' n) (v : Val N) : (outOpt R ev v).2 = evalOpt R ev' v := by
  cases v with
  | name n =>
    simp only [outOpt, evalOpt]
    split
    · simp only [h]; cases ev' n <;> rfl
    · rfl
  | _ => rfl

/-- the result does not depend on modelling the output -/
theorem evalOut_snd (t : Tree N) (R : Reading N) : ∀ (k : Nat) (v : N), (evalOut t R k v).2 = eval t R k v := by
  intro k
  induction k with
  | zero => intro v; rfl
  | succ k ih =>
    intro v
    rw [evalOut, eval]
    cases getChild t true v with
    | error e => rfl
    | ok c1 =>
      simp only []
      have h1 := outOpt_snd R ih c1
      rw [← h1]
      rcases outOpt R (evalOut t R k) c1 with ⟨o1, e | r1⟩
      · rfl
      · simp only []
        cases labelOf t v with
        | error e => rfl
        | ok lab =>
          simp only []
          cases getChild t false v with
          | error e => rfl
          | ok c2 =>
            simp only []
            rw [← outOpt_snd R ih c2]
            rcases outOpt R (evalOut t R k) c2 with ⟨o2, e | r2⟩ <;> rfl

theorem evalOut_fst {t : Tree N} {a : AGraph N} (h : Rep t.g a) {R : Reading N} {lab : N → Val N}
    (hlab : ∀ v ∈ a.V, labelOf t v = .ok (lab v)) (hop : ∀ v ∈ a.V, (R.oper (lab v)).isSome → R.int (lab v) = none) :
    ∀ (S : BTree N) (v : N), S.top = some v → Holds a S → (∀ v ∈ S.inorder, v ∈ a.V) →
    (∀ w ∈ S.inorder, w ≠ v → R.truthy w = true) → S.inorder.Nodup → S.isExpr lab R.int R.oper = true →
    S.Below (fun S => S.value lab R.int R.oper ≠ some 0) → ∀ k, S.size ≤ k →
    (evalOut t R k v).1 = S.evalTrace lab R.int R.oper
  | .nil, _, h, _, _, _, _, _, _, _, _ => by cases h
  | .node l v' r', v, ht, hh, hV, htr, hnd, hb, hbel, k, hk => by
    have hmain := eval_ok h hlab hop _ v ht hh hV htr hnd hb k hk
    rcases hmain with ⟨_, z, hz, hev⟩ | ⟨hn, _⟩
    swap; · exact absurd hbel hn
    simp only [BTree.top, Option.some.injEq] at ht
    subst ht
    rw [BTree.size] at hk
    obtain ⟨k', rfl⟩ : ∃ k', k = k' + 1 := ⟨k - 1, by omega⟩
    have hv : v' ∈ a.V := hV v' (by simp [BTree.inorder])
    simp only [BTree.inorder, List.nodup_append, List.nodup_cons, List.mem_cons] at hnd
    obtain ⟨n1, ⟨n2, n3⟩, n4⟩ := hnd
    have hvl : ∀ w ∈ l.inorder, w ≠ v' := fun w hw e => n4 w hw v' (.inl rfl) e
    have hvr : ∀ w ∈ r'.inorder, w ≠ v' := fun w hw e => n2 (e ▸ hw)
    rw [evalOut, getChild_holds h hv hh, getChild_holds h hv hh]
    simp only [if_true, Bool.false_eq_true, if_false, hlab v' hv]
    rw [eval, getChild_holds h hv hh, getChild_holds h hv hh] at hev
    simp only [if_true, Bool.false_eq_true, if_false, hlab v' hv] at hev
    cases l with
    | nil =>
      cases r' with
      | nil => simp [topVal, outOpt, outEnd, BTree.evalTrace]
      | node ra rb rc =>
        rw [BTree.isExpr] at hb
        · simp [BTree.isExpr] at hb
        · simp
    | node la lb lc =>
      cases r' with
      | nil =>
        rw [BTree.isExpr] at hb
        · simp [BTree.isExpr] at hb
        · simp
      | node ra rb rc =>
        rw [BTree.isExpr] at hb
        swap; · simp
        rw [Bool.and_eq_true, Bool.and_eq_true] at hb
        obtain ⟨⟨b1, b2⟩, b3⟩ := hb
        obtain ⟨d1, d2, d3, d4⟩ := hbel
        have hV1 : ∀ w ∈ (BTree.node la lb lc).inorder, w ∈ a.V :=
          fun w hw => hV w (by rw [BTree.inorder]; exact List.mem_append_left _ hw)
        have hV2 : ∀ w ∈ (BTree.node ra rb rc).inorder, w ∈ a.V :=
          fun w hw => hV w (by rw [BTree.inorder]; exact List.mem_append_right _ (List.mem_cons_of_mem _ hw))
        have ht1 : ∀ w ∈ (BTree.node la lb lc).inorder, w ≠ lb → R.truthy w = true :=
          fun w hw _ => htr w (by rw [BTree.inorder]; exact List.mem_append_left _ hw) (hvl w hw)
        have ht2 : ∀ w ∈ (BTree.node ra rb rc).inorder, w ≠ rb → R.truthy w = true :=
          fun w hw _ => htr w (by rw [BTree.inorder]; exact List.mem_append_right _ (List.mem_cons_of_mem _ hw)) (hvr w hw)
        have e1 := evalOut_fst h hlab hop _ lb rfl hh.2.2.1 hV1 ht1 n1 b2 d3 k' (by omega)
        have e2 := evalOut_fst h hlab hop _ rb rfl hh.2.2.2 hV2 ht2 n3 b3 d4 k' (by omega)
        have f1 := eval_ok h hlab hop _ lb rfl hh.2.2.1 hV1 ht1 n1 b2 k' (by omega)
        have f2 := eval_ok h hlab hop _ rb rfl hh.2.2.2 hV2 ht2 n3 b3 k' (by omega)
        rcases f1 with ⟨_, x, hx, f1⟩ | ⟨c, _⟩
        swap; · exact absurd d3 c
        rcases f2 with ⟨_, y, hy, f2⟩ | ⟨c, _⟩
        swap; · exact absurd d4 c
        have t1 : R.truthy lb = true := htr lb (by simp [BTree.inorder]) (hvl lb (by simp [BTree.inorder]))
        have t2 : R.truthy rb = true := htr rb (by simp [BTree.inorder]) (hvr rb (by simp [BTree.inorder]))
        have x0 : x ≠ 0 := by
          have := d1 rfl
          simp only [] at this
          rw [hx] at this; exact fun e => this (by rw [e])
        have y0 : y ≠ 0 := by
          have := d2 rfl
          simp only [] at this
          rw [hy] at this; exact fun e => this (by rw [e])
        simp only [topVal, BTree.top, evalOpt, t1, t2, f1, f2, if_true] at hev
        have g1 : outOpt R (evalOut t R k') (topVal (.node la lb lc)) =
            (BTree.evalTrace lab R.int R.oper (.node la lb lc), .ok (some x)) := by
          simp only [topVal, BTree.top, outOpt, t1, if_true, evalOut_snd, f1, e1]
        have g2 : outOpt R (evalOut t R k') (topVal (.node ra rb rc)) =
            (BTree.evalTrace lab R.int R.oper (.node ra rb rc), .ok (some y)) := by
          simp only [topVal, BTree.top, outOpt, t2, if_true, evalOut_snd, f2, e2]
        rw [g1, g2]
        simp only []
        have htr' : BTree.evalTrace lab R.int R.oper (.node (.node la lb lc) v' (.node ra rb rc)) =
            BTree.evalTrace lab R.int R.oper (.node la lb lc) ++ [.lab (lab v')] ++
              BTree.evalTrace lab R.int R.oper (.node ra rb rc) ++ [.eq z, .num z] := by
          conv_lhs => rw [BTree.evalTrace.eq_3 _ _ _ _ _ _ (by simp), hz]
        rw [htr']
        simp only [outEnd, ne_eq, x0, y0, not_false_eq_true, and_self, if_true, hev]

end BinaryTree

/-- the labels among the output of `postordereval` -/
def outLabels (l : List (Out N)) : List (Val N) := l.filterMap fun o => match o with | .lab x => some x | _ => none

/-- the labels among the output of `printexp` -/
def tokLabels (l : List (Tok N)) : List (Val N) := l.filterMap fun o => match o with | .lab x => some x | _ => none

theorem labels_agree (lab : N → Val N) (int : Val N → Option Int) (oper : Val N → Option BinOp) : ∀ T : BTree N,
    outLabels (T.evalTrace lab int oper) = tokLabels (T.infixForm lab)
  | .nil => rfl
  | .node .nil v .nil => by simp [BTree.evalTrace, BTree.infixForm, outLabels, tokLabels]
  | .node (.node a b c) v r => by
    have h1 := labels_agree lab int oper (.node a b c)
    have h2 := labels_agree lab int oper r
    rw [BTree.evalTrace, BTree.infixForm]
    · unfold outLabels tokLabels at *
      simp only [List.filterMap_append, List.filterMap_cons, List.filterMap_nil, List.cons_append, h1, h2]
      cases (BTree.node (.node a b c) v r).value lab int oper <;> simp
    all_goals simp
  | .node .nil v (.node a b c) => by
    have h2 := labels_agree lab int oper (.node a b c)
    rw [BTree.evalTrace, BTree.infixForm]
    · unfold outLabels tokLabels at *
      simp only [BTree.evalTrace, BTree.infixForm, List.filterMap_append, List.filterMap_cons, List.filterMap_nil, List.cons_append, h2]
      cases (BTree.node .nil v (.node a b c)).value lab int oper <;> simp
    all_goals simp

/-- **C95.** If the tree is an arithmetic expression, the names of the nodes are truthy (the root's need not be), the labels of
operators are not numerals and no proper subexpression has the value 0, then `postordereval` prints, for every operation, the
output of the left operand, the operator, the output of the right operand, and the value of the operation twice, once after
'='.  The labels appear in the same order as in the output of `printexp`. -/
theorem C95_eval_output (r : N) (attr : List (String × Val N)) (hattr : RootOk attr) (ops : List (BOp N))
    (hops : BHist (leaf r) ops) (R : Reading N) (lab : N → Val N) :
    let t := bgrow r attr ops; let T := brun (leaf r) ops
    (∀ v ∈ t.g.getNodeList, labelOf t v = .ok (lab v)) → (∀ v ∈ t.g.getNodeList, v ≠ r → R.truthy v = true) →
    (∀ v ∈ t.g.getNodeList, (R.oper (lab v)).isSome → R.int (lab v) = none) → T.isExpr lab R.int R.oper = true →
    T.Below (fun S => S.value lab R.int R.oper ≠ some 0) → ∀ fuel, T.size ≤ fuel →
    ∃ x, T.value lab R.int R.oper = some x ∧ evalOut t R fuel r = (T.evalTrace lab R.int R.oper, .ok x) ∧
      outLabels (evalOut t R fuel r).1 = tokLabels (T.infixForm lab) := by
  obtain ⟨a, h⟩ := brep_grow hattr hops
  intro t T hlab htr hop hb hbel fuel hf
  obtain ⟨x, h1, h2⟩ := (C44_value_partial r attr hattr ops hops R lab hlab htr hop hb fuel hf).1 hbel
  replace h : BRep t a r T := h
  have hV : t.g.getNodeList = a.V := h.rep.V
  rw [hV] at hlab htr hop
  have h3 := evalOut_fst h.rep hlab hop T r h.top h.holds (fun v hv => (h.mem v).1 hv) (fun w hw => htr w ((h.mem w).1 hw)) h.nodup
    hb hbel fuel hf
  refine ⟨x, h1, Prod.ext h3 ((evalOut_snd t R fuel r).trans h2), ?_⟩
  rw [h3, labels_agree]

/-- non-vacuity of C95: `(3 / 5) * 4` -/
example : evalOut (bgrow 1 [("label", .str "*")] exExpr) exRead 9 1 =
    ([.lab (.int 3), .lab (.str "/"), .lab (.int 5), .eq (3 / 5), .num (3 / 5), .lab (.str "*"), .lab (.int 4), .eq (12 / 5),
      .num (12 / 5)], .ok (12 / 5)) := by decide +kernel

/-! ## `del_node` of an inner node -/

namespace BinaryTree

theorem del_any {t : Tree N} {a : AGraph N} {r : N} {T : BTree N} (h : BRep t a r T) {n : N} (hn : n ∈ T.inorder) (hr : n ≠ r) :
    ∃ t' a', (BinaryTree.delNode n).run t = .ok () t' ∧ Rep t'.g a' ∧ a'.directed = true ∧ t'.root = some r ∧
      a'.V = a.V.filter (· ≠ n) ∧ (a'.E = a.E.filter fun e => e.1 ≠ n ∧ e.2 ≠ n) ∧
      (∀ v, a'.na v "parent" = a.na v "parent") ∧ Holds a' (T.remove n) := by
  have hnV := (h.mem n).1 hn
  have htop : T.top ≠ some n := by rw [h.top]; simpa using Ne.symm hr
  obtain ⟨p, b, p1, p2, p3, p4, p5⟩ := holds_place h.holds hn htop
  have hpV := (h.mem p).1 p1
  have hb : decide (Val.str (N := N) (letter b) ≠ .str "R") = b := by cases b <;> simp [letter]
  obtain ⟨g1, e1, r1⟩ := lift_set h.rep h.inv.dir hpV (side b) .none
  have i1 : Inv (setG a p (side b) .none) r :=
    inv_setG h.inv _ (Ne.symm (side_ne b).2.2.1) (Ne.symm (side_ne b).1)
  obtain ⟨a', ha', hst⟩ : ∃ a', a' = ({ setG a p (side b) .none with V := a.V.filter (· ≠ n), E := a.E.filter fun e => e.1 ≠ n ∧ e.2 ≠ n } : AGraph N) ∧
      (setG a p (side b) .none).step (.delNode n) = (none, a') :=
    ⟨_, rfl, by
      have : n ∈ (setG a p (side b) .none).V := hnV
      simp only [AGraph.step, if_pos this]; rfl⟩
  obtain ⟨g2, e2, r2⟩ := lift_ok (t := { t with g := g1 }) r1 i1.dir (.delNode n) (by rw [hst])
  rw [hst] at r2
  have hna' : a'.na = (setG a p (side b) .none).na := by rw [ha']
  refine ⟨{ t with g := g2 }, a', ?_, r2, by rw [ha']; exact h.inv.dir, h.root, by rw [ha'], by rw [ha'], ?_, ?_⟩
  · rw [delNode_run, getNodeAttr_rep h.rep, getNodeAttr_rep h.rep, AGraph.getNodeAttr, if_pos hnV, AGraph.getNodeAttr,
      if_pos hnV, p2, p3]
    show (lift (Graph.setNodeAttr p (side (decide (Val.str (N := N) (letter b) ≠ .str "R"))) .none) >>= fun _ =>
        lift (Graph.delNode n)).run t = _
    rw [hb, tm_bind, e1]
    exact e2
  · intro v
    rw [hna']
    exact setG_na fun hh => (side_ne b).1 hh.2.symm
  · refine holds_remove (p := p) (b := b) ?_ ?_ p2 p3 p4 htop h.holds
    · intro v s _ hvs; rw [hna']; exact setG_na hvs
    · rw [hna', setG_na_self]; rfl

theorem getParent_rep {t : Tree N} {a : AGraph N} (h : Rep t.g a) {v : N} (hv : v ∈ a.V) :
    t.getParent v = .ok ((a.na v "parent").getD .none) := by
  unfold getParent
  rw [getNodeAttr_rep h, AGraph.getNodeAttr, if_pos hv]

theorem size_remove (n : N) : ∀ T : BTree N, (T.remove n).size ≤ T.size
  | .nil => le_refl _
  | .node l v r => by
    rw [BTree.remove]
    split
    · simp [BTree.size]
    · have := size_remove n l; have := size_remove n r
      simp only [BTree.size]; omega

end BinaryTree

/-- **C96 (partial).** On a tree built by calls in the scope of C55, `del_node` of any node other than the root returns; the
nodes afterwards are the others, the edges those that do not touch the node, and printing from the root gives what is left
when the subtree of the node is removed.  Missing: below an inner node the rest of the subtree stays behind, see `C96_false`. -/
theorem C96_del_node_partial (r : N) (attr : List (String × Val N)) (hattr : RootOk attr) (ops : List (BOp N))
    (hops : BHist (leaf r) ops) (n : N) :
    let t := bgrow r attr ops; let T := brun (leaf r) ops
    n ∈ t.g.getNodeList → n ≠ r → ∃ t', (BinaryTree.delNode n).run t = .ok () t' ∧
      t'.g.getNodeList = t.g.getNodeList.filter (· ≠ n) ∧
      (∀ u v, t'.Edge u v ↔ t.Edge u v ∧ u ≠ n ∧ v ≠ n) ∧
      ∀ o left fuel, T.size ≤ fuel → printAll t' o left fuel = .ok (printed o left (T.remove n)) := by
  obtain ⟨a, h⟩ := brep_grow hattr hops
  intro t T hn hr
  replace h : BRep t a r T := h
  have hV : t.g.getNodeList = a.V := h.rep.V
  rw [hV] at hn
  obtain ⟨t', a', h1, h2, h3, h4, h5, h6, h7, h8⟩ := del_any h ((h.mem n).2 hn) hr
  have htop : T.top ≠ some n := by rw [h.top]; simpa using Ne.symm hr
  refine ⟨t', h1, ?_, ?_, ?_⟩
  · rw [hV, ← h5]; exact h2.V
  · intro u v
    have e1 : t'.Edge u v ↔ (u, v) ∈ a'.E := by unfold Tree.Edge; rw [show t'.g.getEdgeList = a'.E from h2.E]
    have e2 : t.Edge u v ↔ (u, v) ∈ a.E := by unfold Tree.Edge; rw [show t.g.getEdgeList = a.E from h.rep.E]
    rw [e1, e2, h6]; simp
  · intro o left fuel hf
    have := print_ok h2 o left _ h8 (fun v hv => by
      obtain ⟨c1, c2⟩ := remove_mem hv
      rw [h5]; simp [(h.mem v).1 c1, c2]) fuel (le_trans (size_remove n T) hf)
    rw [topVal_name.2 (by rw [remove_top, if_neg htop]; exact h.top : (T.remove n).top = some r)] at this
    unfold printAll
    rw [h4]
    simp only []
    rw [show printed o left (T.remove n) = seq o (if left then T.remove n else (T.remove n).mirror) by cases o <;> rfl]
    exact this

/-- **C96 is false**: after `del_node` of any inner node other than the root the nodes no longer form a tree: each child of the
deleted node is still a node, no edge leads to it, its parent is the node that is gone, and `del_node` of it raises
AttributeError. -/
theorem C96_false (r : N) (attr : List (String × Val N)) (hattr : RootOk attr) (ops : List (BOp N))
    (hops : BHist (leaf r) ops) (n c : N) :
    let t := bgrow r attr ops
    n ≠ r → t.Edge n c → ∃ t', (BinaryTree.delNode n).run t = .ok () t' ∧
      c ∈ t'.g.getNodeList ∧ (∀ u, ¬ t'.Edge u c) ∧ c ≠ r ∧ ¬ RootedTree t'.g.getNodeList t'.Edge r ∧
      t'.getParent c = .ok (.name n) ∧ (BinaryTree.delNode c).run t' = .error .attributeError t' := by
  obtain ⟨a, h⟩ := brep_grow hattr hops
  intro t hr hnc
  replace h : BRep t a r (brun (leaf r) ops) := h
  have hE : (n, c) ∈ a.E := by
    unfold Tree.Edge at hnc; rw [show t.g.getEdgeList = a.E from h.rep.E] at hnc; exact hnc
  obtain ⟨i1, i2, i3⟩ := h.inv.edge n c hE
  have hnV : n ∈ a.V := by
    have := (h.rep.wf.endp n c (by rw [h.rep.E]; exact hE)).1
    rw [← h.rep.V]; exact this
  have hcn : c ≠ n := by
    rintro rfl
    obtain ⟨j, k, e1, e2, e3⟩ := h.inv.lt (.single hE)
    rw [e1] at e2
    simp only [Option.some.injEq, Val.int.injEq] at e2
    omega
  obtain ⟨t', a', h1, h2, h3, h4, h5, h6, h7, h8⟩ := del_any h ((h.mem n).2 hnV) hr
  have hcV : c ∈ a'.V := by rw [h5]; simp [i1, hcn]
  have hnV' : n ∉ a'.V := by rw [h5]; simp
  have hcl : c ∈ t'.g.getNodeList := by rw [show t'.g.getNodeList = a'.V from h2.V]; exact hcV
  have hno : ∀ u, ¬ t'.Edge u c := by
    intro u hu
    unfold Tree.Edge at hu
    rw [show t'.g.getEdgeList = a'.E from h2.E, h6] at hu
    simp only [List.mem_filter, decide_eq_true_eq] at hu
    have := (h.inv.edge u c hu.1).2.2
    rw [i3] at this
    simp only [Option.some.injEq, Val.name.injEq] at this
    exact hu.2.1 this.symm
  refine ⟨t', h1, hcl, hno, i2, ?_, ?_, ?_⟩
  · intro hT
    obtain ⟨p, hp, _⟩ := hT.one_parent c hcl i2
    exact hno p hp
  · rw [getParent_rep h2 hcV, h7, i3]; rfl
  · have hgone : t'.g.nodes.get? n = none := (Dict.get?_eq_none_iff _ _).2 fun hh => hnV' (by
      rw [h2.wf.nodesEq] at hh; exact h2.V ▸ hh)
    rw [delNode_run, getNodeAttr_rep h2, getNodeAttr_rep h2, AGraph.getNodeAttr, if_pos hcV, AGraph.getNodeAttr, if_pos hcV, h7, i3]
    simp only [Option.getD_some]
    rw [tm_bind, lift_run]
    have : ∀ s x, (Graph.setNodeAttr n s x).run t'.g = .error .attributeError t'.g := by
      intro s x
      unfold Graph.setNodeAttr
      rw [gm_bind]
      show (match t'.g.nodes.get? n with | none => throw .attributeError | some d => _ : GM N Unit).run t'.g = _
      rw [hgone]; rfl
    rw [this]

/-- non-vacuity of C96: node 2 with the children 4 and 5 -/
example : let t := bgrow 1 [] exBOps
    t.Edge 2 4 ∧ (EStateM.Result.state ((BinaryTree.delNode 2).run t)).g.getNodeList = [1, 3, 5, 6, 7, 4] ∧
    (match printAll (EStateM.Result.state ((BinaryTree.delNode 2).run t)) .ino true 9 with | .ok l => l | _ => []) = [1, 7, 3, 6] := by
  refine ⟨by unfold Tree.Edge; decide, ?_, ?_⟩ <;> decide

end GiMPy
