import Verif.Props.BinaryTree

/-! # C122: the recursion of `print_nodes`, `printexp` and `postordereval`

The fuel of the models is the number of nested calls that are allowed, `diverge` is RecursionError. -/

namespace GiMPy
open BTree BinaryTree
variable {N : Type} [DecidableEq N] {t : Tree N} {a : AGraph N}

theorem print_depth (h : Rep t.g a) (o : Order) (left : Bool) : ∀ (S : BTree N), Holds a S → (∀ v ∈ S.inorder, v ∈ a.V) →
    ∀ k, printOpt (printNodes t o left k) (topVal S) =
      if S.height ≤ k then .ok (seq o (if left then S else S.mirror)) else .error .diverge
  | .nil, _, _, k => by rw [if_pos (by simp [height])]; cases left <;> cases o <;> rfl
  | .node l v r', hh, hV, 0 => by rw [if_neg (by simp [height])]; rfl
  | .node l v r', hh, hV, k + 1 => by
    have hv : v ∈ a.V := hV v (by simp [BTree.inorder])
    have ihl := print_depth h o left l hh.2.2.1 (fun w hw => hV w (by simp [BTree.inorder, hw])) k
    have ihr := print_depth h o left r' hh.2.2.2 (fun w hw => hV w (by simp [BTree.inorder, hw])) k
    show printNodes t o left (k + 1) v = _
    rw [printNodes, getChild_holds h hv hh, getChild_holds h hv hh]
    have hle : (BTree.node l v r').height ≤ k + 1 ↔ l.height ≤ k ∧ r'.height ≤ k := by rw [height]; omega
    cases left
    · simp only [Bool.false_eq_true, if_false, Bool.not_false, if_true] at ihl ihr ⊢
      rw [ihr]
      by_cases h1 : r'.height ≤ k
      · rw [if_pos h1]
        simp only [ihl]
        by_cases h2 : l.height ≤ k
        · rw [if_pos h2, if_pos (hle.2 ⟨h2, h1⟩)]
          cases o <;> simp [seq, BTree.mirror, BTree.preorder, BTree.inorder, BTree.postorder]
        · rw [if_neg h2, if_neg (fun e => h2 (hle.1 e).1)]
      · rw [if_neg h1, if_neg (fun e => h1 (hle.1 e).2)]
    · simp only [if_true, Bool.not_true, Bool.false_eq_true, if_false] at ihl ihr ⊢
      rw [ihl]
      by_cases h1 : l.height ≤ k
      · rw [if_pos h1]
        simp only [ihr]
        by_cases h2 : r'.height ≤ k
        · rw [if_pos h2, if_pos (hle.2 ⟨h1, h2⟩)]
          cases o <;> simp [seq, BTree.preorder, BTree.inorder, BTree.postorder]
        · rw [if_neg h2, if_neg (fun e => h2 (hle.1 e).2)]
      · rw [if_neg h1, if_neg (fun e => h1 (hle.1 e).1)]

theorem exp_depth (h : Rep t.g a) {R : Reading N} {lab : N → Val N} (hlab : ∀ v ∈ a.V, labelOf t v = .ok (lab v)) :
    ∀ (S : BTree N) (v : N), S.top = some v → Holds a S → (∀ v ∈ S.inorder, v ∈ a.V) →
    (∀ w ∈ S.inorder, w ≠ v → R.truthy w = true) → S.inorder.Nodup → S.full = true →
    ∀ k, printexp t R k v = if S.height ≤ k then .ok (S.infixForm lab) else .error .diverge
  | .nil, _, h, _, _, _, _, _, _ => by cases h
  | .node l v' r', v, _, _, _, _, _, _, 0 => by rw [if_neg (by simp [height])]; rfl
  | .node l v' r', v, ht, hh, hV, htr, hnd, hf, k + 1 => by
    simp only [BTree.top, Option.some.injEq] at ht
    subst ht
    have hv : v' ∈ a.V := hV v' (by simp [BTree.inorder])
    have hle : (BTree.node l v' r').height ≤ k + 1 ↔ l.height ≤ k ∧ r'.height ≤ k := by rw [height]; omega
    simp only [BTree.inorder, List.nodup_append, List.nodup_cons, List.mem_cons] at hnd
    obtain ⟨n1, ⟨n2, n3⟩, n4⟩ := hnd
    have hvl : ∀ w ∈ l.inorder, w ≠ v' := fun w hw e => n4 w hw v' (.inl rfl) e
    have hvr : ∀ w ∈ r'.inorder, w ≠ v' := fun w hw e => n2 (e ▸ hw)
    rw [printexp, getChild_holds h hv hh, getChild_holds h hv hh]
    simp only [if_true, Bool.false_eq_true, if_false, hlab v' hv]
    cases l with
    | nil =>
      cases r' with
      | nil => simp [topVal, expOpt, BTree.infixForm, height]
      | node ra rb rc => simp [BTree.full] at hf
    | node la lb lc =>
      cases r' with
      | nil => simp [BTree.full] at hf
      | node ra rb rc =>
        rw [BTree.full, Bool.and_eq_true] at hf
        have e1 := exp_depth h hlab _ lb rfl hh.2.2.1 (fun w hw => hV w (by rw [BTree.inorder]; exact List.mem_append_left _ hw))
          (fun w hw _ => htr w (by rw [BTree.inorder]; exact List.mem_append_left _ hw) (hvl w hw)) n1 hf.1 k
        have e2 := exp_depth h hlab _ rb rfl hh.2.2.2 (fun w hw => hV w (by rw [BTree.inorder]; exact List.mem_append_right _ (List.mem_cons_of_mem _ hw)))
          (fun w hw _ => htr w (by rw [BTree.inorder]; exact List.mem_append_right _ (List.mem_cons_of_mem _ hw)) (hvr w hw)) n3 hf.2 k
        have t1 : R.truthy lb = true := htr lb (by simp [BTree.inorder]) (hvl lb (by simp [BTree.inorder]))
        have t2 : R.truthy rb = true := htr rb (by simp [BTree.inorder]) (hvr rb (by simp [BTree.inorder]))
        rw [BTree.infixForm]
        swap
        · simp
        generalize hL : (BTree.node la lb lc).height = L at *
        generalize hR : (BTree.node ra rb rc).height = Rt at *
        simp only [topVal, BTree.top, expOpt, t1, t2, e1, e2, if_true]
        by_cases h1 : L ≤ k
        · simp only [if_pos h1]
          by_cases h2 : Rt ≤ k
          · simp only [if_pos h2]
            rw [if_pos (hle.2 ⟨h1, h2⟩)]
            simp
          · simp only [if_neg h2]
            rw [if_neg (fun e => h2 (hle.1 e).2)]
        · simp only [if_neg h1]
          rw [if_neg (fun e => h1 (hle.1 e).1)]

theorem eval_depth (h : Rep t.g a) {R : Reading N} {lab : N → Val N} (hlab : ∀ v ∈ a.V, labelOf t v = .ok (lab v))
    (hop : ∀ v ∈ a.V, (R.oper (lab v)).isSome → R.int (lab v) = none) :
    ∀ (S : BTree N) (v : N), S.top = some v → Holds a S → (∀ v ∈ S.inorder, v ∈ a.V) →
    (∀ w ∈ S.inorder, w ≠ v → R.truthy w = true) → S.inorder.Nodup → S.isExpr lab R.int R.oper = true →
    S.Below (fun S => S.value lab R.int R.oper ≠ some 0) →
    ∃ x, S.value lab R.int R.oper = some x ∧ ∀ k, eval t R k v = if S.height ≤ k then .ok x else .error .diverge
  | .nil, _, h, _, _, _, _, _, _ => by cases h
  | .node l v' r', v, ht, hh, hV, htr, hnd, hb, h0 => by
    simp only [BTree.top, Option.some.injEq] at ht
    subst ht
    have hv : v' ∈ a.V := hV v' (by simp [BTree.inorder])
    simp only [BTree.inorder, List.nodup_append, List.nodup_cons, List.mem_cons] at hnd
    obtain ⟨n1, ⟨n2, n3⟩, n4⟩ := hnd
    have hvl : ∀ w ∈ l.inorder, w ≠ v' := fun w hw e => n4 w hw v' (.inl rfl) e
    have hvr : ∀ w ∈ r'.inorder, w ≠ v' := fun w hw e => n2 (e ▸ hw)
    cases l with
    | nil =>
      cases r' with
      | nil =>
        rw [BTree.isExpr] at hb
        obtain ⟨i, hi⟩ := Option.isSome_iff_exists.1 hb
        refine ⟨i, by rw [BTree.value, hi]; rfl, fun k => ?_⟩
        cases k with
        | zero => rw [if_neg (by simp [height])]; rfl
        | succ k =>
          rw [if_pos (by simp [height]), eval, getChild_holds h hv hh, getChild_holds h hv hh]
          simp [hlab v' hv, topVal, evalOpt, combine, hi]
      | node ra rb rc =>
        rw [BTree.isExpr] at hb
        · simp [BTree.isExpr] at hb
        · simp
    | node la lb lc =>
      cases r' with
      | nil =>
        rw [BTree.isExpr] at hb
        · simp [BTree.isExpr] at hb
        · simp
      | node ra rb rc =>
        rw [BTree.isExpr] at hb
        swap; · simp
        rw [Bool.and_eq_true, Bool.and_eq_true] at hb
        obtain ⟨⟨b1, b2⟩, b3⟩ := hb
        obtain ⟨f, hf⟩ := Option.isSome_iff_exists.1 b1
        obtain ⟨d1, d2, d3, d4⟩ := h0
        obtain ⟨x, hx, e1⟩ := eval_depth h hlab hop _ lb rfl hh.2.2.1 (fun w hw => hV w (by rw [BTree.inorder]; exact List.mem_append_left _ hw))
          (fun w hw _ => htr w (by rw [BTree.inorder]; exact List.mem_append_left _ hw) (hvl w hw)) n1 b2 d3
        obtain ⟨y, hy, e2⟩ := eval_depth h hlab hop _ rb rfl hh.2.2.2 (fun w hw => hV w (by rw [BTree.inorder]; exact List.mem_append_right _ (List.mem_cons_of_mem _ hw)))
          (fun w hw _ => htr w (by rw [BTree.inorder]; exact List.mem_append_right _ (List.mem_cons_of_mem _ hw)) (hvr w hw)) n3 b3 d4
        have t1 : R.truthy lb = true := htr lb (by simp [BTree.inorder]) (hvl lb (by simp [BTree.inorder]))
        have t2 : R.truthy rb = true := htr rb (by simp [BTree.inorder]) (hvr rb (by simp [BTree.inorder]))
        have d1 := d1 rfl
        have d2 := d2 rfl
        simp only [] at d1 d2
        rw [hx] at d1; rw [hy] at d2
        have hx0 : x ≠ 0 := fun e => d1 (by rw [e])
        have hy0 : y ≠ 0 := fun e => d2 (by rw [e])
        obtain ⟨z, hz, hz'⟩ := run_arith (f := f) (x := x) hy0
        refine ⟨z, ?_, fun k => ?_⟩
        · rw [BTree.value]
          · simp only [hf, hx, hy]; exact hz
          · simp
        cases k with
        | zero => rw [if_neg (by simp [height])]; rfl
        | succ k =>
          have hle : (BTree.node (.node la lb lc) v' (.node ra rb rc)).height ≤ k + 1 ↔
              (BTree.node la lb lc).height ≤ k ∧ (BTree.node ra rb rc).height ≤ k := by rw [height]; omega
          rw [eval, getChild_holds h hv hh, getChild_holds h hv hh]
          simp only [if_true, Bool.false_eq_true, if_false, hlab v' hv]
          generalize hL : (BTree.node la lb lc).height = L at *
          generalize hR : (BTree.node ra rb rc).height = Rt at *
          simp only [topVal, BTree.top, evalOpt, t1, t2, e1, e2, if_true]
          by_cases h1 : L ≤ k
          · simp only [if_pos h1]
            by_cases h2 : Rt ≤ k
            · simp only [if_pos h2]
              rw [if_pos (hle.2 ⟨h1, h2⟩)]
              simp [combine, hf, hx0, hy0, hz']
            · simp only [if_neg h2]
              rw [if_neg (fun e => h2 (hle.1 e).2)]
          · simp only [if_neg h1]
            rw [if_neg (fun e => h1 (hle.1 e).1)]

/-- **C122.** Let Python allow `limit` nested calls.  After `add_root` and any history in scope, `print_nodes` prints the nodes
in the order asked for if the tree has at most `limit` levels, and raises RecursionError otherwise. -/
theorem C122_print_nodes (r : N) (attr : List (String × Val N)) (hattr : RootOk attr) (ops : List (BOp N))
    (hops : BHist (leaf r) ops) (o : Order) (left : Bool) (limit : Nat) :
    ((brun (leaf r) ops).height ≤ limit → printAll (bgrow r attr ops) o left limit = .ok (printed o left (brun (leaf r) ops))) ∧
    (limit < (brun (leaf r) ops).height → printAll (bgrow r attr ops) o left limit = .error .diverge) := by
  obtain ⟨a, h⟩ := brep_grow hattr hops
  have := print_depth h.rep o left _ h.holds (fun v hv => (h.mem v).1 hv) limit
  rw [topVal_name.2 h.top] at this
  have hpr : ∀ T : BTree N, printed o left T = seq o (if left then T else T.mirror) := by intro T; cases o <;> rfl
  unfold printAll
  rw [h.root, hpr]
  refine ⟨fun hl => ?_, fun hl => ?_⟩
  · rw [if_pos hl] at this; exact this
  · rw [if_neg (by omega)] at this; exact this

/-- **C122** for `printexp`, on the trees of C54 -/
theorem C122_printexp (r : N) (attr : List (String × Val N)) (hattr : RootOk attr) (ops : List (BOp N))
    (hops : BHist (leaf r) ops) (R : Reading N) (lab : N → Val N) :
    let t := bgrow r attr ops; let T := brun (leaf r) ops
    (∀ v ∈ t.g.getNodeList, labelOf t v = .ok (lab v)) → (∀ v ∈ t.g.getNodeList, v ≠ r → R.truthy v = true) →
    T.full = true → ∀ limit, (T.height ≤ limit → printexp t R limit r = .ok (T.infixForm lab)) ∧
      (limit < T.height → printexp t R limit r = .error .diverge) := by
  obtain ⟨a, h⟩ := brep_grow hattr hops
  intro t T hlab htr hb limit
  replace h : BRep t a r T := h
  have hV : t.g.getNodeList = a.V := h.rep.V
  rw [hV] at hlab htr
  rw [exp_depth h.rep hlab T r h.top h.holds (fun v hv => (h.mem v).1 hv) (fun w hw => htr w ((h.mem w).1 hw)) h.nodup hb limit]
  exact ⟨fun hl => if_pos hl, fun hl => if_neg (by omega)⟩

/-- **C122** for `postordereval`, on the expressions without a proper subexpression of value 0 (see C44) -/
theorem C122_postordereval (r : N) (attr : List (String × Val N)) (hattr : RootOk attr) (ops : List (BOp N))
    (hops : BHist (leaf r) ops) (R : Reading N) (lab : N → Val N) :
    let t := bgrow r attr ops; let T := brun (leaf r) ops
    (∀ v ∈ t.g.getNodeList, labelOf t v = .ok (lab v)) → (∀ v ∈ t.g.getNodeList, v ≠ r → R.truthy v = true) →
    (∀ v ∈ t.g.getNodeList, (R.oper (lab v)).isSome → R.int (lab v) = none) → T.isExpr lab R.int R.oper = true →
    T.Below (fun S => S.value lab R.int R.oper ≠ some 0) →
    ∃ x, T.value lab R.int R.oper = some x ∧ ∀ limit, (T.height ≤ limit → eval t R limit r = .ok x) ∧
      (limit < T.height → eval t R limit r = .error .diverge) := by
  obtain ⟨a, h⟩ := brep_grow hattr hops
  intro t T hlab htr hop hb h0
  replace h : BRep t a r T := h
  have hV : t.g.getNodeList = a.V := h.rep.V
  rw [hV] at hlab htr hop
  obtain ⟨x, hx, he⟩ := eval_depth h.rep hlab hop T r h.top h.holds (fun v hv => (h.mem v).1 hv)
    (fun w hw => htr w ((h.mem w).1 hw)) h.nodup hb h0
  refine ⟨x, hx, fun limit => ?_⟩
  rw [he]
  exact ⟨fun hl => if_pos hl, fun hl => if_neg (by omega)⟩

/-- non-vacuity of C122: seven nodes on three levels -/
example : (brun (leaf 1) exBOps).height = 3 ∧ (brun (leaf 1) exBOps).size = 7 ∧
    (printAll (bgrow 1 [] exBOps) .ino true 2 matches .error .diverge) ∧
    (printAll (bgrow 1 [] exBOps) .ino true 3 matches .ok [4, 2, 5, 1, 7, 3, 6]) := by decide +kernel

example : let t := bgrow 1 [("label", .str "*")] exExpr
    (brun (leaf 1) exExpr).height = 3 ∧ eval t exRead 2 1 = .error .diverge ∧ eval t exRead 3 1 = .ok (12 / 5) ∧
    printexp t exRead 2 1 = .error .diverge ∧
    printexp t exRead 3 1 = .ok [.op, .op, .lab (.int 3), .lab (.str "/"), .lab (.int 5), .cl, .lab (.str "*"), .lab (.int 4), .cl] := by
  decide +kernel

end GiMPy
