import Verif.Lemmas.Tree
import Verif.Spec.Tree

namespace GiMPy
variable {N : Type} [DecidableEq N]
set_option linter.unusedSectionVars false

namespace BinaryTree
open Tree MinCost BTree

/-- the name of the root, as an attribute value -/
def topVal : BTree N → Val N
  | .nil => .none
  | .node _ v _ => .name v

/-- the letter stored in the attribute `direction` -/
def letter (left : Bool) : String := if left then "L" else "R"

/-- the child `T` on the side `left` of `v` has the right attributes -/
def ChildOk (a : AGraph N) (left : Bool) (v : N) (T : BTree N) : Prop :=
  (a.na v (side left)).getD .none = topVal T ∧
  ∀ w, T.top = some w → a.na w "parent" = some (.name v) ∧ a.na w "direction" = some (.str (letter left))

/-- the attributes of the nodes describe the binary tree -/
def Holds (a : AGraph N) : BTree N → Prop
  | .nil => True
  | .node l v r => ChildOk a true v l ∧ ChildOk a false v r ∧ Holds a l ∧ Holds a r

theorem topVal_none {T : BTree N} : topVal T = .none ↔ T.top = none := by cases T <;> simp [topVal, BTree.top]

theorem topVal_name {T : BTree N} {w : N} : topVal T = .name w ↔ T.top = some w := by cases T <;> simp [topVal, BTree.top]

theorem top_mem {T : BTree N} {w : N} (h : T.top = some w) : w ∈ T.inorder := by
  cases T with
  | nil => cases h
  | node l v r => simp only [BTree.top, Option.some.injEq] at h; simp [BTree.inorder, h]

theorem hasChild_not_mem {left : Bool} {p : N} : ∀ {T : BTree N}, p ∉ T.inorder → T.hasChild left p = false
  | .nil, _ => rfl
  | .node l v r, h => by
    simp only [BTree.inorder, List.mem_append, List.mem_cons, not_or] at h
    simp [BTree.hasChild, hasChild_not_mem h.1, hasChild_not_mem h.2.2, Ne.symm h.2.1]

theorem insert_not_mem {left : Bool} {n p : N} : ∀ {T : BTree N}, p ∉ T.inorder → T.insert left n p = T
  | .nil, _ => rfl
  | .node l v r, h => by
    simp only [BTree.inorder, List.mem_append, List.mem_cons, not_or] at h
    rw [BTree.insert, if_neg (Ne.symm h.2.1), insert_not_mem h.1, insert_not_mem h.2.2]

theorem insert_top {left : Bool} {n p : N} (T : BTree N) : (T.insert left n p).top = T.top := by
  cases T with
  | nil => rfl
  | node l v r => rw [BTree.insert]; split; · cases left <;> rfl
                  rfl

/-- a slot is free in the tree iff the attribute is None -/
theorem hasChild_iff {a : AGraph N} {left : Bool} {p : N} : ∀ {T : BTree N}, Holds a T → T.inorder.Nodup → p ∈ T.inorder →
    (T.hasChild left p = false ↔ (a.na p (side left)).getD .none = .none)
  | .nil, _, _, h => by cases h
  | .node l v r, ⟨hl, hr, h1, h2⟩, hn, hm => by
    simp only [BTree.inorder, List.nodup_append, List.nodup_cons, List.mem_cons] at hn
    obtain ⟨n1, ⟨n2, n3⟩, n4⟩ := hn
    have hvl : v ∉ l.inorder := fun h => n4 v h v (.inl rfl) rfl
    by_cases hv : v = p
    · subst hv
      rw [BTree.hasChild, hasChild_not_mem hvl, hasChild_not_mem n2]
      cases left
      · rw [hr.1, topVal_none]
        simp only [decide_true, Bool.true_and, Bool.or_false, Bool.false_eq_true, if_false]
        cases r.top <;> simp
      · rw [hl.1, topVal_none]
        simp only [decide_true, Bool.true_and, Bool.or_false, if_true]
        cases l.top <;> simp
    · simp only [BTree.inorder, List.mem_append, List.mem_cons, Ne.symm hv, false_or] at hm
      rw [BTree.hasChild]
      rcases hm with hm | hm
      · have : p ∉ r.inorder := fun h => n4 p hm p (.inr h) rfl
        rw [hasChild_not_mem this, ← hasChild_iff h1 n1 hm]
        simp [hv]
      · have : p ∉ l.inorder := fun h => n4 p h p (.inr hm) rfl
        rw [hasChild_not_mem this, ← hasChild_iff h2 n3 hm]
        simp [hv]

theorem insert_perm {left : Bool} {n p : N} : ∀ {T : BTree N}, T.inorder.Nodup → p ∈ T.inorder → T.hasChild left p = false →
    (T.insert left n p).inorder.Perm (n :: T.inorder)
  | .nil, _, h, _ => by cases h
  | .node l v r, hn, hm, hc => by
    simp only [BTree.inorder, List.nodup_append, List.nodup_cons, List.mem_cons] at hn
    obtain ⟨n1, ⟨n2, n3⟩, n4⟩ := hn
    simp only [BTree.hasChild, Bool.or_eq_false_iff, Bool.and_eq_false_iff] at hc
    obtain ⟨⟨hc, hcl⟩, hcr⟩ := hc
    rw [BTree.insert]
    by_cases hv : v = p
    · rw [if_pos hv]
      have hc := hc.resolve_left (by simp [hv])
      cases left
      · cases r with
        | nil =>
          simp only [Bool.false_eq_true, if_false, BTree.inorder, List.nil_append]
          have := List.perm_append_comm (l₁ := l.inorder ++ [v]) (l₂ := [n])
          simpa using this
        | node _ _ _ => simp [BTree.top] at hc
      · cases l with
        | nil => simp [BTree.inorder]
        | node _ _ _ => simp [BTree.top] at hc
    · rw [if_neg hv]
      simp only [BTree.inorder, List.mem_append, List.mem_cons, Ne.symm hv, false_or] at hm ⊢
      rcases hm with hm | hm
      · have : p ∉ r.inorder := fun h => n4 p hm p (.inr h) rfl
        rw [insert_not_mem this]
        exact (insert_perm n1 hm hcl).append_right _
      · have : p ∉ l.inorder := fun h => n4 p h p (.inr hm) rfl
        rw [insert_not_mem this]
        have h1 := ((insert_perm (n := n) n3 hm hcr).cons v).append_left l.inorder
        refine h1.trans ?_
        have := List.perm_middle (a := n) (l₁ := l.inorder ++ [v]) (l₂ := r.inorder)
        simpa using this

theorem holds_congr {a a' : AGraph N} : ∀ {T : BTree N}, (∀ v ∈ T.inorder, a'.na v = a.na v) → Holds a T → Holds a' T
  | .nil, _, _ => trivial
  | .node l v r, he, ⟨h1, h2, h3, h4⟩ => by
    have hv := he v (by simp [BTree.inorder])
    have hl : ∀ w ∈ l.inorder, a'.na w = a.na w := fun w hw => he w (by simp [BTree.inorder, hw])
    have hr : ∀ w ∈ r.inorder, a'.na w = a.na w := fun w hw => he w (by simp [BTree.inorder, hw])
    refine ⟨⟨by rw [hv]; exact h1.1, ?_⟩, ⟨by rw [hv]; exact h2.1, ?_⟩, holds_congr hl h3, holds_congr hr h4⟩
    · intro w hw; rw [hl w (top_mem hw)]; exact h1.2 w hw
    · intro w hw; rw [hr w (top_mem hw)]; exact h2.2 w hw

theorem side_inj {b b' : Bool} : side b = side b' ↔ b = b' := by cases b <;> cases b' <;> simp [side]

theorem side_ne (b : Bool) : side b ≠ "parent" ∧ side b ≠ "direction" ∧ side b ≠ "level" ∧ side b ≠ "label" := by
  cases b <;> simp [side]

/-- inserting a fresh leaf -/
theorem holds_insert {a a' : AGraph N} {left : Bool} {n p : N} (hnp : n ≠ p)
    (hsame : ∀ v s, v ≠ n → ¬ (v = p ∧ s = side left) → a'.na v s = a.na v s)
    (hp : a'.na p (side left) = some (.name n)) (hL : (a'.na n (side true)).getD .none = .none)
    (hR : (a'.na n (side false)).getD .none = .none) (hpar : a'.na n "parent" = some (.name p))
    (hdir : a'.na n "direction" = some (.str (letter left))) :
    ∀ {T : BTree N}, n ∉ T.inorder → T.inorder.Nodup → T.hasChild left p = false → Holds a T → Holds a' (T.insert left n p)
  | .nil, _, _, _, _ => trivial
  | .node l v r, hn, hnd, hc, ⟨h1, h2, h3, h4⟩ => by
    simp only [BTree.inorder, List.nodup_append, List.nodup_cons, List.mem_cons] at hnd
    obtain ⟨n1, ⟨n2, n3⟩, n4⟩ := hnd
    simp only [BTree.inorder, List.mem_append, List.mem_cons, not_or] at hn
    simp only [BTree.hasChild, Bool.or_eq_false_iff, Bool.and_eq_false_iff] at hc
    obtain ⟨⟨hc, hcl⟩, hcr⟩ := hc
    have ihl := holds_insert hnp hsame hp hL hR hpar hdir hn.1 n1 hcl h3
    have ihr := holds_insert hnp hsame hp hL hR hpar hdir hn.2.2 n3 hcr h4
    have hother : ∀ w, w ≠ n → ∀ s, (∀ b, s ≠ side b) → a'.na w s = a.na w s := by
      intro w hw s hs; exact hsame w s hw (fun h => hs _ h.2)
    have hpd : ∀ {b : Bool} {T : BTree N}, n ∉ T.inorder → ChildOk a b v T → ∀ w, T.top = some w →
        a'.na w "parent" = some (.name v) ∧ a'.na w "direction" = some (.str (letter b)) := by
      intro b T hnT hT w hw
      have hwn : w ≠ n := by rintro rfl; exact hnT (top_mem hw)
      rw [hother w hwn _ (fun b h => (side_ne b).1 h.symm), hother w hwn _ (fun b h => (side_ne b).2.1 h.symm)]
      exact hT.2 w hw
    have hkeep : ∀ b, ¬ (v = p ∧ b = left) → a'.na v (side b) = a.na v (side b) :=
      fun b h => hsame v _ (Ne.symm hn.2.1) (fun h' => h ⟨h'.1, side_inj.1 h'.2⟩)
    have hleaf : Holds a' (.node .nil n .nil) :=
      ⟨⟨hL, fun w hw => by cases hw⟩, ⟨hR, fun w hw => by cases hw⟩, trivial, trivial⟩
    rw [BTree.insert]
    by_cases hv : v = p
    · rw [if_pos hv]
      rw [← hv] at hp hpar ihl ihr
      have hvl : v ∉ l.inorder := fun h => n4 v h v (.inl rfl) rfl
      rw [insert_not_mem hvl] at ihl
      rw [insert_not_mem n2] at ihr
      have hnew : ChildOk a' left v (.node .nil n .nil) :=
        ⟨by rw [hp]; rfl, fun w hw => by cases hw; exact ⟨hpar, hdir⟩⟩
      cases left
      · exact ⟨⟨by rw [hkeep true (by simp)]; exact h1.1, hpd hn.1 h1⟩, hnew, ihl, hleaf⟩
      · exact ⟨hnew, ⟨by rw [hkeep false (by simp)]; exact h2.1, hpd hn.2.2 h2⟩, hleaf, ihr⟩
    · rw [if_neg hv]
      have htv : ∀ T : BTree N, topVal (T.insert left n p) = topVal T := by
        intro T
        have := insert_top (left := left) (n := n) (p := p) T
        cases hT : T.top with
        | none => rw [hT] at this; rw [topVal_none.2 this, topVal_none.2 hT]
        | some w => rw [hT] at this; rw [topVal_name.2 this, topVal_name.2 hT]
      refine ⟨⟨?_, ?_⟩, ⟨?_, ?_⟩, ihl, ihr⟩
      · rw [hkeep true (fun h => hv h.1), htv]; exact h1.1
      · rw [insert_top]; exact hpd hn.1 h1
      · rw [hkeep false (fun h => hv h.1), htv]; exact h2.1
      · rw [insert_top]; exact hpd hn.2.2 h2

/-- where a node other than the root hangs -/
theorem holds_place {a : AGraph N} {n : N} : ∀ {T : BTree N}, Holds a T → n ∈ T.inorder → T.top ≠ some n →
    ∃ p b, p ∈ T.inorder ∧ a.na n "parent" = some (.name p) ∧ a.na n "direction" = some (.str (letter b)) ∧
      (a.na p (side b)).getD .none = .name n ∧ T.hasChild b p = true
  | .nil, _, h, _ => by cases h
  | .node l v r, ⟨h1, h2, h3, h4⟩, hm, ht => by
    simp only [BTree.inorder, List.mem_append, List.mem_cons] at hm
    have hnv : n ≠ v := by rintro rfl; exact ht rfl
    rcases hm with hm | hm | hm
    · by_cases hl : l.top = some n
      · exact ⟨v, true, by simp [BTree.inorder], (h1.2 n hl).1, (h1.2 n hl).2, by rw [h1.1, topVal_name.2 hl],
          by simp [BTree.hasChild, hl]⟩
      · obtain ⟨p, b, a1, a2, a3, a4, a5⟩ := holds_place h3 hm hl
        exact ⟨p, b, by simp [BTree.inorder, a1], a2, a3, a4, by simp [BTree.hasChild, a5]⟩
    · exact absurd hm hnv
    · by_cases hl : r.top = some n
      · exact ⟨v, false, by simp [BTree.inorder], (h2.2 n hl).1, (h2.2 n hl).2, by rw [h2.1, topVal_name.2 hl],
          by simp [BTree.hasChild, hl]⟩
      · obtain ⟨p, b, a1, a2, a3, a4, a5⟩ := holds_place h4 hm hl
        exact ⟨p, b, by simp [BTree.inorder, a1], a2, a3, a4, by simp [BTree.hasChild, a5]⟩

theorem letter_inj {b b' : Bool} : letter b = letter b' ↔ b = b' := by cases b <;> cases b' <;> simp [letter]

theorem remove_top {n : N} {T : BTree N} : (T.remove n).top = if T.top = some n then none else T.top := by
  cases T with
  | nil => rfl
  | node l v r =>
    rw [BTree.remove]
    by_cases h : v = n
    · simp [h, BTree.top]
    · simp [h, BTree.top]

theorem remove_mem {n w : N} : ∀ {T : BTree N}, w ∈ (T.remove n).inorder → w ∈ T.inorder ∧ w ≠ n
  | .nil, h => by cases h
  | .node l v r, h => by
    rw [BTree.remove] at h
    by_cases hv : v = n
    · rw [if_pos hv] at h; cases h
    · rw [if_neg hv] at h
      simp only [BTree.inorder, List.mem_append, List.mem_cons] at h ⊢
      rcases h with h | h | h
      · exact ⟨.inl (remove_mem h).1, (remove_mem h).2⟩
      · exact ⟨.inr (.inl h), by rw [h]; exact hv⟩
      · exact ⟨.inr (.inr (remove_mem h).1), (remove_mem h).2⟩

theorem remove_inorder {n : N} : ∀ {T : BTree N}, T.hasChild true n = false → T.hasChild false n = false →
    (T.remove n).inorder = T.inorder.filter (· ≠ n)
  | .nil, _, _ => rfl
  | .node l v r, h1, h2 => by
    simp only [BTree.hasChild, Bool.or_eq_false_iff, Bool.and_eq_false_iff] at h1 h2
    obtain ⟨⟨c1, a1⟩, b1⟩ := h1
    obtain ⟨⟨c2, a2⟩, b2⟩ := h2
    rw [BTree.remove]
    by_cases hv : v = n
    · have c1 := c1.resolve_left (by simp [hv])
      have c2 := c2.resolve_left (by simp [hv])
      cases l with
      | node _ _ _ => simp [BTree.top] at c1
      | nil => cases r with
        | node _ _ _ => simp [BTree.top] at c2
        | nil => simp [hv, BTree.inorder]
    · rw [if_neg hv]
      simp only [BTree.inorder, List.filter_append, remove_inorder a1 a2, remove_inorder b1 b2]
      rw [List.filter_cons_of_pos (by simpa using hv)]

/-- cutting off a node -/
theorem holds_remove {a a' : AGraph N} {n p : N} {b : Bool}
    (hsame : ∀ v s, v ≠ n → ¬ (v = p ∧ s = side b) → a'.na v s = a.na v s)
    (hp : (a'.na p (side b)).getD .none = .none) (hpar : a.na n "parent" = some (.name p))
    (hdir : a.na n "direction" = some (.str (letter b))) (hpn : (a.na p (side b)).getD .none = .name n) :
    ∀ {T : BTree N}, T.top ≠ some n → Holds a T → Holds a' (T.remove n)
  | .nil, _, _ => trivial
  | .node l v r, ht, ⟨h1, h2, h3, h4⟩ => by
    have hv : v ≠ n := by rintro rfl; exact ht rfl
    rw [BTree.remove, if_neg hv]
    have key : ∀ {b' : Bool} {T : BTree N}, ChildOk a b' v T → Holds a T →
        (T.top ≠ some n → Holds a' (T.remove n)) → ChildOk a' b' v (T.remove n) ∧ Holds a' (T.remove n) := by
      intro b' T hc hh ih
      by_cases hT : T.top = some n
      · have hnil : T.remove n = .nil := by
          cases T with
          | nil => cases hT
          | node _ w _ =>
            simp only [BTree.top, Option.some.injEq] at hT
            rw [BTree.remove, if_pos hT]
        rw [hnil]
        obtain ⟨h5, h6⟩ := hc.2 n hT
        rw [hpar] at h5
        rw [hdir] at h6
        simp only [Option.some.injEq, Val.name.injEq, Val.str.injEq] at h5 h6
        rw [letter_inj] at h6
        rw [← h5, ← h6]
        exact ⟨⟨hp, fun w hw => by cases hw⟩, trivial⟩
      · have htop : (T.remove n).top = T.top := by rw [remove_top, if_neg hT]
        have htv : topVal (T.remove n) = topVal T := by
          cases hT' : T.top with
          | none => rw [topVal_none.2 hT', topVal_none.2 (htop.trans hT')]
          | some w => rw [topVal_name.2 hT', topVal_name.2 (htop.trans hT')]
        refine ⟨⟨?_, ?_⟩, ih hT⟩
        · rw [htv, ← hc.1, hsame v _ hv]
          rintro ⟨e1, e2⟩
          have := hc.1
          rw [e2, e1, hpn] at this
          exact hT (topVal_name.1 this.symm)
        · intro w hw
          rw [htop] at hw
          have hwn : w ≠ n := by rintro rfl; exact hT hw
          rw [hsame w _ hwn (fun h => (side_ne b).1 h.2.symm), hsame w _ hwn (fun h => (side_ne b).2.1 h.2.symm)]
          exact hc.2 w hw
    have kl := key h1 h3 (fun h => holds_remove hsame hp hpar hdir hpn h h3)
    have kr := key h2 h4 (fun h => holds_remove hsame hp hpar hdir hpn h h4)
    exact ⟨kl.1, kr.1, kl.2, kr.2⟩

/-- the tree object `t` represents the binary tree `T` -/
structure BRep (t : Tree N) (a : AGraph N) (r : N) (T : BTree N) : Prop where
  rep : Rep t.g a
  inv : Inv a r
  root : t.root = some r
  top : T.top = some r
  nodup : T.inorder.Nodup
  mem : ∀ v, v ∈ T.inorder ↔ v ∈ a.V
  holds : Holds a T

/-- keyword arguments that do not name a child -/
def Clean (attr : List (String × Val N)) : Prop := ∀ b, (AGraph.kw attr (side b)).getD .none = .none

theorem brep_root {r : N} {attr : List (String × Val N)} (hc : Clean attr) (hp : AGraph.kw attr "parent" = none) :
    ∃ t a, (addRoot r attr).run Tree.init = .ok () t ∧ BRep t a r (.node .nil r .nil) := by
  obtain ⟨g', h1, h2⟩ := addRoot_ok (t := Tree.init) (rep_init true) rfl (r := r) (by simp [AGraph.empty]) attr
  refine ⟨_, _, h1, h2, .root_mk attr hp, rfl, rfl, by simp [BTree.inorder], ?_, ?_⟩
  · intro v; simp [BTree.inorder, rootG, AGraph.empty]
  · have : ∀ b, ((rootG (.empty true) r attr).na r (side b)).getD .none = .none := by
      intro b
      simp only [rootG, AGraph.upd, if_pos]
      rw [kw_append]
      have h0 : AGraph.kw [("level", Val.int (N := N) 0)] (side b) = none := by cases b <;> rfl
      rw [h0]
      exact hc b
    exact ⟨⟨this true, fun w hw => by cases hw⟩, ⟨this false, fun w hw => by cases hw⟩, trivial, trivial⟩

theorem addLR_run (left : Bool) (n p : N) (attr : List (String × Val N)) (t : Tree N) : (addChildLR left n p attr).run t =
    match getChild t left p with
    | .error e => .error e t
    | .ok .none => (lift (Graph.setNodeAttr p (side left) (.name n)) >>= fun _ =>
        addChild n p (attr ++ [("direction", .str (letter left))])).run t
    | .ok _ => .error .exception t := by
  unfold addChildLR
  rw [tm_bind]
  show (match getChild t left p with
    | .error e => throw e
    | .ok .none => _
    | .ok _ => throw .exception : TM N Unit).run t = _
  cases getChild t left p with
  | error e => rfl
  | ok x => cases x <;> rfl

theorem addLR_free {left : Bool} {n p : N} {t : Tree N} (h : getChild t left p = .ok .none) (attr : List (String × Val N)) :
    (addChildLR left n p attr).run t = (lift (Graph.setNodeAttr p (side left) (.name n)) >>= fun _ =>
        addChild n p (attr ++ [("direction", .str (letter left))])).run t := by
  rw [addLR_run, h]

theorem getChild_rep {t : Tree N} {a : AGraph N} (h : Rep t.g a) {p : N} (hp : p ∈ a.V) (b : Bool) :
    getChild t b p = .ok ((a.na p (side b)).getD .none) := by
  unfold getChild
  rw [getNodeAttr_rep h, AGraph.getNodeAttr, if_pos hp]

section Calls
variable {t : Tree N} {a : AGraph N} {r : N} {T : BTree N}

theorem addLR_noparent (h : BRep t a r T) {left : Bool} {n p : N} (attr : List (String × Val N)) (hp : p ∉ T.inorder) :
    (addChildLR left n p attr).run t = .error .attributeError t := by
  rw [h.mem] at hp
  rw [addLR_run]
  unfold getChild
  rw [getNodeAttr_rep h.rep, AGraph.getNodeAttr, if_neg hp]

theorem addLR_taken (h : BRep t a r T) {left : Bool} {n p : N} (attr : List (String × Val N)) (hp : p ∈ T.inorder)
    (hc : T.hasChild left p = true) : (addChildLR left n p attr).run t = .error .exception t := by
  have h1 := (hasChild_iff (left := left) h.holds h.nodup hp).not
  rw [hc] at h1
  rw [addLR_run, getChild_rep h.rep ((h.mem p).1 hp)]
  cases hx : (a.na p (side left)).getD Val.none with
  | none => exact absurd hx (h1.1 (by simp))
  | _ => rfl

/-- the graph after `set_node_attr` -/
def setG (a : AGraph N) (p : N) (s : String) (x : Val N) : AGraph N :=
  { a with na := AGraph.upd a.na p (AGraph.upd (a.na p) s (some x)) }

theorem setG_na {a : AGraph N} {p : N} {s : String} {x : Val N} {v : N} {s' : String} (h : ¬ (v = p ∧ s' = s)) :
    (setG a p s x).na v s' = a.na v s' := by
  unfold setG AGraph.upd
  by_cases hv : v = p
  · simp only [hv, if_true]; rw [if_neg (fun hs => h ⟨hv, hs⟩)]
  · simp [hv]

theorem setG_na_self {a : AGraph N} {p : N} {s : String} {x : Val N} : (setG a p s x).na p s = some x := by
  simp [setG, AGraph.upd]

theorem inv_setG (h : Inv a r) {p : N} {s : String} (x : Val N) (h1 : "level" ≠ s) (h2 : "parent" ≠ s) :
    Inv (setG a p s x) r := by
  have e1 : ∀ v, (setG a p s x).na v "level" = a.na v "level" := fun v => setG_na (fun h => h1 h.2)
  have e2 : ∀ v, (setG a p s x).na v "parent" = a.na v "parent" := fun v => setG_na (fun h => h2 h.2)
  constructor
  · exact h.dir
  · exact h.root
  · rw [e1]; exact h.level0
  · rw [e2]; exact h.parent0
  · intro v hv hr
    obtain ⟨p', k, a1, a2, a3, a4, a5⟩ := h.other v hv hr
    exact ⟨p', k, a1, by rw [e1]; exact a2, by rw [e1]; exact a3, by rw [e2]; exact a4, a5⟩
  · intro u v huv
    obtain ⟨a1, a2, a3⟩ := h.edge u v huv
    exact ⟨a1, a2, by rw [e2]; exact a3⟩

theorem lift_set {t : Tree N} {a : AGraph N} (h : Rep t.g a) (hd : a.directed = true) {p : N} (hp : p ∈ a.V) (s : String)
    (x : Val N) : ∃ g', (lift (Graph.setNodeAttr p s x)).run t = .ok () { t with g := g' } ∧ Rep g' (setG a p s x) := by
  have hst : a.step (.setNodeAttr p s x) = (none, setG a p s x) := by
    simp only [AGraph.step, if_pos hp]; rfl
  obtain ⟨g', h1, h2⟩ := lift_ok h hd (.setNodeAttr p s x) (by rw [hst])
  rw [hst] at h2
  exact ⟨g', h1, h2⟩

theorem addLR_ok (h : BRep t a r T) {left : Bool} {n p : N} {attr : List (String × Val N)} (hcl : Clean attr)
    (hp : p ∈ T.inorder) (hc : T.hasChild left p = false) (hn : n ∉ T.inorder) :
    ∃ t' a', (addChildLR left n p attr).run t = .ok () t' ∧ BRep t' a' r (T.insert left n p) := by
  have hpV := (h.mem p).1 hp
  have hnV : n ∉ a.V := fun hm => hn ((h.mem n).2 hm)
  have hnp : n ≠ p := by rintro rfl; exact hn hp
  have hfree : getChild t left p = .ok .none := by
    rw [getChild_rep h.rep hpV, (hasChild_iff h.holds h.nodup hp).1 hc]
  rw [addLR_free hfree]
  obtain ⟨g1, e1, r1⟩ := lift_set h.rep h.inv.dir hpV (side left) (.name n)
  have i1 : Inv (setG a p (side left) (.name n)) r :=
    inv_setG h.inv _ (Ne.symm (side_ne left).2.2.1) (Ne.symm (side_ne left).1)
  obtain ⟨k, hk⟩ := i1.level (v := p) hpV
  obtain ⟨g2, e2, r2⟩ := addChild_ok (t := { t with g := g1 }) r1 i1.dir (n := n) hpV hk hnV
    (attr ++ [("direction", .str (letter left))])
  refine ⟨{ t with g := g2 }, _, ?_, r2, i1.child _ hpV hk hnV, h.root, by rw [insert_top]; exact h.top, ?_, ?_, ?_⟩
  · rw [tm_bind, e1]
    exact e2
  · rw [(insert_perm h.nodup hp hc).nodup_iff, List.nodup_cons]
    exact ⟨hn, h.nodup⟩
  · intro v
    rw [(insert_perm h.nodup hp hc).mem_iff, List.mem_cons, h.mem]
    show _ ↔ v ∈ a.V ++ [n]
    simp [or_comm]
  · have hnn : ∀ s, (childG (setG a p (side left) (.name n)) n p k (attr ++ [("direction", .str (letter left))])).na n s =
        AGraph.kw ((attr ++ [("direction", .str (letter left))]) ++ [("level", .int (k + 1)), ("parent", .name p)]) s := by
      intro s; simp only [childG, AGraph.upd, if_pos]
    have hne : ∀ v, v ≠ n → (childG (setG a p (side left) (.name n)) n p k (attr ++ [("direction", .str (letter left))])).na v =
        (setG a p (side left) (.name n)).na v := by
      intro v hv; simp only [childG, AGraph.upd, if_neg hv]
    have hside : ∀ b, ((childG (setG a p (side left) (.name n)) n p k (attr ++ [("direction", .str (letter left))])).na n
        (side b)).getD .none = .none := by
      intro b
      rw [hnn, kw_append, kw_append]
      have h1 : AGraph.kw [("level", Val.int (N := N) (k + 1)), ("parent", .name p)] (side b) = none := by cases b <;> rfl
      have h2 : AGraph.kw [("direction", Val.str (N := N) (letter left))] (side b) = none := by cases b <;> rfl
      rw [h1, h2]
      exact hcl b
    refine holds_insert hnp ?_ ?_ (hside true) (hside false) ?_ ?_ hn h.nodup hc h.holds
    · intro v s hv hvs
      rw [hne v hv, setG_na hvs]
    · rw [hne p (Ne.symm hnp), setG_na_self]
    · rw [hnn, kw_append]; rfl
    · rw [hnn, kw_append, kw_append]; rfl

/-- the corrupting case -/
theorem addLR_dup (h : BRep t a r T) {left : Bool} {n p : N} {attr : List (String × Val N)}
    (hp : p ∈ T.inorder) (hc : T.hasChild left p = false) (hn : n ∈ T.inorder) :
    ∃ t', (addChildLR left n p attr).run t = .error .multipleNode t' ∧ Rep t'.g (setG a p (side left) (.name n)) := by
  have hpV := (h.mem p).1 hp
  have hnV := (h.mem n).1 hn
  have hfree : getChild t left p = .ok .none := by
    rw [getChild_rep h.rep hpV, (hasChild_iff h.holds h.nodup hp).1 hc]
  rw [addLR_free hfree]
  obtain ⟨g1, e1, r1⟩ := lift_set h.rep h.inv.dir hpV (side left) (.name n)
  have i1 : Inv (setG a p (side left) (.name n)) r :=
    inv_setG h.inv _ (Ne.symm (side_ne left).2.2.1) (Ne.symm (side_ne left).1)
  obtain ⟨k, hk⟩ := i1.level (v := p) hpV
  refine ⟨{ t with g := g1 }, ?_, r1⟩
  rw [tm_bind, e1]
  exact addChild_dup (t := { t with g := g1 }) r1 hpV hk hnV _

/-! ## del_node -/

theorem delNode_run (n : N) (t : Tree N) : (BinaryTree.delNode n).run t =
    match t.g.getNodeAttr n "parent", t.g.getNodeAttr n "direction" with
    | .ok (.name p), .ok d => (lift (Graph.setNodeAttr p (side (decide (d ≠ .str "R"))) .none) >>= fun _ =>
        lift (Graph.delNode n)).run t
    | .ok _, _ => .error .attributeError t
    | .error e, _ => .error e t := by
  unfold BinaryTree.delNode
  rw [tm_bind]
  show (match t.g.getNodeAttr n "parent", t.g.getNodeAttr n "direction" with
    | .ok (.name p), .ok d => _
    | .ok _, _ => throw .attributeError
    | .error e, _ => throw e : TM N Unit).run t = _
  cases t.g.getNodeAttr n "parent" with
  | error e => cases t.g.getNodeAttr n "direction" <;> rfl
  | ok x => cases t.g.getNodeAttr n "direction" <;> cases x <;> rfl

theorem del_missing (h : BRep t a r T) {n : N} (hn : n ∉ T.inorder) :
    (BinaryTree.delNode n).run t = .error .attributeError t := by
  rw [h.mem] at hn
  rw [delNode_run, getNodeAttr_rep h.rep, getNodeAttr_rep h.rep, AGraph.getNodeAttr, if_neg hn]

theorem del_root (h : BRep t a r T) : (BinaryTree.delNode r).run t = .error .attributeError t := by
  have := (h.mem r).1 (top_mem h.top)
  rw [delNode_run, getNodeAttr_rep h.rep, getNodeAttr_rep h.rep, AGraph.getNodeAttr, if_pos this, h.inv.parent0]
  simp only [AGraph.getNodeAttr, if_pos this]
  rfl

theorem del_leaf (h : BRep t a r T) {n : N} (hn : n ∈ T.inorder) (hr : n ≠ r) (h1 : T.hasChild true n = false)
    (h2 : T.hasChild false n = false) :
    ∃ t' a', (BinaryTree.delNode n).run t = .ok () t' ∧ BRep t' a' r (T.remove n) := by
  have hnV := (h.mem n).1 hn
  have htop : T.top ≠ some n := by rw [h.top]; simpa using Ne.symm hr
  obtain ⟨p, b, p1, p2, p3, p4, p5⟩ := holds_place h.holds hn htop
  have hpV := (h.mem p).1 p1
  have hpn : p ≠ n := by
    rintro rfl
    cases b
    · rw [h2] at p5; cases p5
    · rw [h1] at p5; cases p5
  have hb : decide (Val.str (N := N) (letter b) ≠ .str "R") = b := by cases b <;> simp [letter]
  obtain ⟨g1, e1, r1⟩ := lift_set h.rep h.inv.dir hpV (side b) .none
  have i1 : Inv (setG a p (side b) .none) r :=
    inv_setG h.inv _ (Ne.symm (side_ne b).2.2.1) (Ne.symm (side_ne b).1)
  obtain ⟨a', ha', hst⟩ : ∃ a', a' = ({ setG a p (side b) .none with V := a.V.filter (· ≠ n), E := a.E.filter fun e => e.1 ≠ n ∧ e.2 ≠ n } : AGraph N) ∧
      (setG a p (side b) .none).step (.delNode n) = (none, a') :=
    ⟨_, rfl, by
      have : n ∈ (setG a p (side b) .none).V := hnV
      simp only [AGraph.step, if_pos this]; rfl⟩
  obtain ⟨g2, e2, r2⟩ := lift_ok (t := { t with g := g1 }) r1 i1.dir (.delNode n) (by rw [hst])
  rw [hst] at r2
  have hV' : ∀ v, v ∈ a'.V ↔ v ∈ a.V ∧ v ≠ n := by intro v; rw [ha']; simp
  have hE' : ∀ u v, (u, v) ∈ a'.E ↔ (u, v) ∈ a.E ∧ u ≠ n ∧ v ≠ n := by intro u v; rw [ha']; simp
  have hna' : a'.na = (setG a p (side b) .none).na := by rw [ha']
  -- no edge leaves `n`
  have hout : ∀ v, (n, v) ∉ a.E := by
    intro v hv
    obtain ⟨b1, b2, b3⟩ := h.inv.edge n v hv
    have hvT := (h.mem v).2 b1
    obtain ⟨p', b', q1, q2, q3, q4, q5⟩ := holds_place h.holds hvT (by rw [h.top]; simpa using Ne.symm b2)
    rw [b3] at q2
    cases q2
    cases b'
    · rw [h2] at q5; cases q5
    · rw [h1] at q5; cases q5
  refine ⟨{ t with g := g2 }, a', ?_, r2, ?_, h.root, by rw [remove_top, if_neg htop]; exact h.top, ?_, ?_, ?_⟩
  · rw [delNode_run, getNodeAttr_rep h.rep, getNodeAttr_rep h.rep, AGraph.getNodeAttr, if_pos hnV, AGraph.getNodeAttr,
      if_pos hnV, p2, p3]
    show (lift (Graph.setNodeAttr p (side (decide (Val.str (N := N) (letter b) ≠ .str "R"))) .none) >>= fun _ =>
        lift (Graph.delNode n)).run t = _
    rw [hb, tm_bind, e1]
    exact e2
  · constructor
    · rw [ha']; exact h.inv.dir
    · rw [hV']; exact ⟨h.inv.root, Ne.symm hr⟩
    · rw [hna']; exact i1.level0
    · rw [hna']; exact i1.parent0
    · intro v hv hvr
      rw [hV'] at hv
      obtain ⟨p', k, c1, c2, c3, c4, c5⟩ := i1.other v hv.1 hvr
      have hp'n : p' ≠ n := by rintro rfl; exact hout v c5
      rw [hna']
      exact ⟨p', k, (hV' p').2 ⟨c1, hp'n⟩, c2, c3, c4, (hE' p' v).2 ⟨c5, hp'n, hv.2⟩⟩
    · intro u v huv
      rw [hE'] at huv
      rw [hV', hna']
      obtain ⟨c1, c2, c3⟩ := i1.edge u v huv.1
      exact ⟨⟨c1, huv.2.2⟩, c2, c3⟩
  · rw [remove_inorder h1 h2]; exact h.nodup.filter _
  · intro v
    rw [remove_inorder h1 h2, hV', List.mem_filter, h.mem]
    simp
  · refine holds_remove (p := p) (b := b) ?_ ?_ p2 p3 p4 htop h.holds
    · intro v s _ hvs; rw [hna']; exact setG_na hvs
    · rw [hna', setG_na_self]; rfl

/-! ## Reading the tree -/

theorem getChild_holds {l r' : BTree N} {v : N} (h : Rep t.g a) (hv : v ∈ a.V) (hh : Holds a (.node l v r')) (b : Bool) :
    getChild t b v = .ok (topVal (if b then l else r')) := by
  rw [getChild_rep h hv]
  cases b
  · rw [hh.2.1.1]; rfl
  · rw [hh.1.1]; rfl

/-- the sequence printed for a subtree -/
def seq (o : Order) (T : BTree N) : List N :=
  match o with | .pre => T.preorder | .ino => T.inorder | .post => T.postorder

theorem seq_nil (o : Order) : seq o (.nil : BTree N) = [] := by cases o <;> rfl

theorem print_ok (h : Rep t.g a) (o : Order) (left : Bool) : ∀ (S : BTree N), Holds a S → (∀ v ∈ S.inorder, v ∈ a.V) →
    ∀ k, S.size ≤ k → printOpt (printNodes t o left k) (topVal S) = .ok (seq o (if left then S else S.mirror))
  | .nil, _, _, k, _ => by cases left <;> cases o <;> rfl
  | .node l v r', hh, hV, k, hk => by
    rw [BTree.size] at hk
    obtain ⟨k', rfl⟩ : ∃ k', k = k' + 1 := ⟨k - 1, by omega⟩
    have hv : v ∈ a.V := hV v (by simp [BTree.inorder])
    have ihl := print_ok h o left l hh.2.2.1 (fun w hw => hV w (by simp [BTree.inorder, hw])) k' (by omega)
    have ihr := print_ok h o left r' hh.2.2.2 (fun w hw => hV w (by simp [BTree.inorder, hw])) k' (by omega)
    show printNodes t o left (k' + 1) v = _
    rw [printNodes, getChild_holds h hv hh, getChild_holds h hv hh]
    cases left
    · simp only [Bool.false_eq_true, if_false, Bool.not_false, if_true] at ihl ihr ⊢
      rw [ihr]
      simp only [ihl]
      cases o <;> simp [seq, BTree.mirror, BTree.preorder, BTree.inorder, BTree.postorder]
    · simp only [if_true, Bool.not_true, Bool.false_eq_true, if_false] at ihl ihr ⊢
      rw [ihl]
      simp only [ihr]
      cases o <;> simp [seq, BTree.preorder, BTree.inorder, BTree.postorder]

theorem run_arith {f : BinOp} {x y : Rat} (hy : y ≠ 0) : ∃ z, BTree.arith f x y = some z ∧ f.run x y = .ok z := by
  cases f <;> simp [BTree.arith, BinOp.run, hy]

/-- what `postordereval` does on an expression -/
theorem eval_ok (h : Rep t.g a) {R : Reading N} {lab : N → Val N} (hlab : ∀ v ∈ a.V, labelOf t v = .ok (lab v))
    (hop : ∀ v ∈ a.V, (R.oper (lab v)).isSome → R.int (lab v) = none) :
    ∀ (S : BTree N) (v : N), S.top = some v → Holds a S → (∀ v ∈ S.inorder, v ∈ a.V) →
    (∀ w ∈ S.inorder, w ≠ v → R.truthy w = true) → S.inorder.Nodup → S.isExpr lab R.int R.oper = true →
    ∀ k, S.size ≤ k →
    (S.Below (fun S => S.value lab R.int R.oper ≠ some 0) ∧
      ∃ x, S.value lab R.int R.oper = some x ∧ eval t R k v = .ok x) ∨
    (¬ S.Below (fun S => S.value lab R.int R.oper ≠ some 0) ∧ eval t R k v = .error .valueError)
  | .nil, _, h, _, _, _, _, _, _, _ => by cases h
  | .node l v' r', v, ht, hh, hV, htr, hnd, hb, k, hk => by
    simp only [BTree.top, Option.some.injEq] at ht
    subst ht
    rw [BTree.size] at hk
    obtain ⟨k', rfl⟩ : ∃ k', k = k' + 1 := ⟨k - 1, by omega⟩
    have hv : v' ∈ a.V := hV v' (by simp [BTree.inorder])
    simp only [BTree.inorder, List.nodup_append, List.nodup_cons, List.mem_cons] at hnd
    obtain ⟨n1, ⟨n2, n3⟩, n4⟩ := hnd
    have hvl : ∀ w ∈ l.inorder, w ≠ v' := fun w hw e => n4 w hw v' (.inl rfl) e
    have hvr : ∀ w ∈ r'.inorder, w ≠ v' := fun w hw e => n2 (e ▸ hw)
    rw [eval, getChild_holds h hv hh, getChild_holds h hv hh]
    simp only [if_true, Bool.false_eq_true, if_false, hlab v' hv]
    cases l with
    | nil =>
      cases r' with
      | nil =>
        rw [BTree.isExpr] at hb
        obtain ⟨i, hi⟩ := Option.isSome_iff_exists.1 hb
        left
        refine ⟨by simp [BTree.Below, BTree.top], i, ?_, ?_⟩
        · rw [BTree.value, hi]; rfl
        · simp [topVal, evalOpt, combine, hi]
      | node ra rb rc =>
        rw [BTree.isExpr] at hb
        · simp [BTree.isExpr] at hb
        · simp
    | node la lb lc =>
      cases r' with
      | nil =>
        rw [BTree.isExpr] at hb
        · simp [BTree.isExpr] at hb
        · simp
      | node ra rb rc =>
        rw [BTree.isExpr] at hb
        swap; · simp
        rw [Bool.and_eq_true, Bool.and_eq_true] at hb
        obtain ⟨⟨b1, b2⟩, b3⟩ := hb
        obtain ⟨f, hf⟩ := Option.isSome_iff_exists.1 b1
        have hi := hop v' hv b1
        have e1 := eval_ok h hlab hop _ lb rfl hh.2.2.1 (fun w hw => hV w (by rw [BTree.inorder]; exact List.mem_append_left _ hw))
          (fun w hw _ => htr w (by rw [BTree.inorder]; exact List.mem_append_left _ hw) (hvl w hw)) n1 b2 k' (by omega)
        have e2 := eval_ok h hlab hop _ rb rfl hh.2.2.2 (fun w hw => hV w (by rw [BTree.inorder]; exact List.mem_append_right _ (List.mem_cons_of_mem _ hw)))
          (fun w hw _ => htr w (by rw [BTree.inorder]; exact List.mem_append_right _ (List.mem_cons_of_mem _ hw)) (hvr w hw)) n3 b3 k' (by omega)
        have t1 : R.truthy lb = true := htr lb (by simp [BTree.inorder]) (hvl lb (by simp [BTree.inorder]))
        have t2 : R.truthy rb = true := htr rb (by simp [BTree.inorder]) (hvr rb (by simp [BTree.inorder]))
        rcases e1 with ⟨c1, x, hx, e1⟩ | ⟨c1, e1⟩
        · rcases e2 with ⟨c2, y, hy, e2⟩ | ⟨c2, e2⟩
          · by_cases h0 : x ≠ 0 ∧ y ≠ 0
            · obtain ⟨z, hz, hz'⟩ := run_arith (f := f) (x := x) h0.2
              left
              refine ⟨⟨fun _ => ?_, fun _ => ?_, c1, c2⟩, z, ?_, ?_⟩
              · simp only []; rw [hx]; simpa using h0.1
              · simp only []; rw [hy]; simpa using h0.2
              · rw [BTree.value]
                · simp only [hf, hx, hy]; exact hz
                · simp
              · simp [topVal, evalOpt, t1, t2, e1, e2, combine, hf, h0.1, h0.2, hz']
            · right
              constructor
              · rintro ⟨d1, d2, _, _⟩
                have d1 := d1 rfl
                have d2 := d2 rfl
                simp only [] at d1 d2
                rw [hx] at d1; rw [hy] at d2
                exact h0 ⟨fun e => d1 (by rw [e]), fun e => d2 (by rw [e])⟩
              · simp only [topVal, BTree.top, evalOpt, t1, t2, e1, e2, combine, if_true]
                rw [if_neg h0, hi]
          · exact .inr ⟨fun d => c2 d.2.2.2, by simp [topVal, BTree.top, evalOpt, t1, t2, e1, e2]⟩
        · exact .inr ⟨fun d => c1 d.2.2.1, by simp [topVal, BTree.top, evalOpt, t1, e1]⟩

theorem exp_ok (h : Rep t.g a) {R : Reading N} {lab : N → Val N} (hlab : ∀ v ∈ a.V, labelOf t v = .ok (lab v)) :
    ∀ (S : BTree N) (v : N), S.top = some v → Holds a S → (∀ v ∈ S.inorder, v ∈ a.V) →
    (∀ w ∈ S.inorder, w ≠ v → R.truthy w = true) → S.inorder.Nodup → S.full = true →
    ∀ k, S.size ≤ k → printexp t R k v = .ok (S.infixForm lab)
  | .nil, _, h, _, _, _, _, _, _, _ => by cases h
  | .node l v' r', v, ht, hh, hV, htr, hnd, hf, k, hk => by
    simp only [BTree.top, Option.some.injEq] at ht
    subst ht
    rw [BTree.size] at hk
    obtain ⟨k', rfl⟩ : ∃ k', k = k' + 1 := ⟨k - 1, by omega⟩
    have hv : v' ∈ a.V := hV v' (by simp [BTree.inorder])
    simp only [BTree.inorder, List.nodup_append, List.nodup_cons, List.mem_cons] at hnd
    obtain ⟨n1, ⟨n2, n3⟩, n4⟩ := hnd
    have hvl : ∀ w ∈ l.inorder, w ≠ v' := fun w hw e => n4 w hw v' (.inl rfl) e
    have hvr : ∀ w ∈ r'.inorder, w ≠ v' := fun w hw e => n2 (e ▸ hw)
    rw [printexp, getChild_holds h hv hh, getChild_holds h hv hh]
    simp only [if_true, Bool.false_eq_true, if_false, hlab v' hv]
    cases l with
    | nil =>
      cases r' with
      | nil => simp [topVal, expOpt, BTree.infixForm]
      | node ra rb rc => simp [BTree.full] at hf
    | node la lb lc =>
      cases r' with
      | nil => simp [BTree.full] at hf
      | node ra rb rc =>
        rw [BTree.full, Bool.and_eq_true] at hf
        have e1 := exp_ok h hlab _ lb rfl hh.2.2.1 (fun w hw => hV w (by rw [BTree.inorder]; exact List.mem_append_left _ hw))
          (fun w hw _ => htr w (by rw [BTree.inorder]; exact List.mem_append_left _ hw) (hvl w hw)) n1 hf.1 k' (by omega)
        have e2 := exp_ok h hlab _ rb rfl hh.2.2.2 (fun w hw => hV w (by rw [BTree.inorder]; exact List.mem_append_right _ (List.mem_cons_of_mem _ hw)))
          (fun w hw _ => htr w (by rw [BTree.inorder]; exact List.mem_append_right _ (List.mem_cons_of_mem _ hw)) (hvr w hw)) n3 hf.2 k' (by omega)
        have t1 : R.truthy lb = true := htr lb (by simp [BTree.inorder]) (hvl lb (by simp [BTree.inorder]))
        have t2 : R.truthy rb = true := htr rb (by simp [BTree.inorder]) (hvr rb (by simp [BTree.inorder]))
        rw [BTree.infixForm]
        · simp [topVal, expOpt, t1, t2, e1, e2]
        · simp

/-! ## Traversals -/

theorem btravLoop_eq {ch : N → List N} {V : List N} (stack left : Bool) (hch : ∀ v ∈ V, kids t left v = .ok (ch v))
    (hV : ∀ v ∈ V, ∀ w ∈ ch v, w ∈ V) : ∀ (k : Nat) (q vis : List N), (∀ x ∈ q, x ∈ V) →
    btravLoop t stack left k q vis =
      match nLoop ch stack k q vis with | none => .error .diverge | some l => .ok l := by
  intro k
  induction k with
  | zero => intro q vis _; rfl
  | succ k ih =>
    intro q vis hq
    cases q with
    | nil => rfl
    | cons v q =>
      rw [btravLoop, nLoop, hch v (hq v (by simp))]
      refine ih _ _ ?_
      intro x hx
      have : x ∈ ch v ∨ x ∈ q := by
        cases stack <;> simp at hx
        · exact hx.symm
        · exact hx
      rcases this with h | h
      · exact hV v (hq v (by simp)) x h
      · exact hq x (by simp [h])

/-- the names below `v`, first child first -/
def kidsOf (a : AGraph N) (left : Bool) (v : N) : List N :=
  (match (a.na v (side left)).getD .none with | .name n => [n] | _ => []) ++
  (match (a.na v (side (!left))).getD .none with | .name n => [n] | _ => [])

/-- every child slot holds a name or None -/
theorem slot (h : BRep t a r T) (b : Bool) {v : N} (hv : v ∈ a.V) :
    (a.na v (side b)).getD .none = .none ∨ ∃ w, (a.na v (side b)).getD .none = .name w ∧ w ∈ a.V ∧ w ≠ r ∧
      a.na w "parent" = some (.name v) ∧ a.na w "direction" = some (.str (letter b)) := by
  have key : ∀ {S : BTree N}, Holds a S → v ∈ S.inorder → ∃ S', (a.na v (side b)).getD .none = topVal S' ∧
      (∀ w, S'.top = some w → a.na w "parent" = some (.name v) ∧ a.na w "direction" = some (.str (letter b))) ∧
      ∀ w ∈ S'.inorder, w ∈ S.inorder := by
    intro S
    induction S with
    | nil => intro _ h; cases h
    | node l v' r' ihl ihr =>
      intro hh hm
      simp only [BTree.inorder, List.mem_append, List.mem_cons] at hm
      rcases hm with hm | hm | hm
      · obtain ⟨S', e1, e2, e3⟩ := ihl hh.2.2.1 hm
        exact ⟨S', e1, e2, fun w hw => by simp [BTree.inorder, e3 w hw]⟩
      · subst hm
        cases b
        · exact ⟨r', hh.2.1.1, hh.2.1.2, fun w hw => by simp [BTree.inorder, hw]⟩
        · exact ⟨l, hh.1.1, hh.1.2, fun w hw => by simp [BTree.inorder, hw]⟩
      · obtain ⟨S', e1, e2, e3⟩ := ihr hh.2.2.2 hm
        exact ⟨S', e1, e2, fun w hw => by simp [BTree.inorder, e3 w hw]⟩
  obtain ⟨S', e1, e2, e3⟩ := key h.holds ((h.mem v).2 hv)
  cases hS : S'.top with
  | none => exact .inl (by rw [e1, topVal_none.2 hS])
  | some w =>
    refine .inr ⟨w, by rw [e1, topVal_name.2 hS], (h.mem w).1 (e3 w (top_mem hS)), ?_, e2 w hS⟩
    rintro rfl
    have := (e2 w hS).1
    rw [h.inv.parent0] at this
    cases this

theorem kids_eq (h : BRep t a r T) (left : Bool) {v : N} (hv : v ∈ a.V) : kids t left v = .ok (kidsOf a left v) := by
  unfold kids kidsOf
  rw [getChild_rep h.rep hv, getChild_rep h.rep hv]
  rcases slot h left hv with h1 | ⟨w, h1, _⟩ <;> rcases slot h (!left) hv with h2 | ⟨w', h2, _⟩ <;> rw [h1, h2] <;> rfl

theorem mem_kidsOf (h : BRep t a r T) (left : Bool) {v w : N} (hv : v ∈ a.V) :
    w ∈ kidsOf a left v ↔ ∃ b, (a.na v (side b)).getD .none = .name w := by
  unfold kidsOf
  rcases slot h left hv with h1 | ⟨w1, h1, _⟩ <;> rcases slot h (!left) hv with h2 | ⟨w2, h2, _⟩ <;> rw [h1, h2] <;>
    cases left <;> simp only [Bool.not_true, Bool.not_false] at h2 <;> simp [h1, h2, eq_comm, or_comm]

theorem kidsOf_iff (h : BRep t a r T) (left : Bool) {v w : N} (hv : v ∈ a.V) :
    w ∈ kidsOf a left v ↔ (v, w) ∈ a.E := by
  rw [mem_kidsOf h left hv]
  constructor
  · rintro ⟨b, hb⟩
    rcases slot h b hv with h1 | ⟨w', h1, h2, h3, h4, _⟩
    · rw [h1] at hb; cases hb
    · rw [h1] at hb
      cases hb
      obtain ⟨p, k, _, _, _, c4, c5⟩ := h.inv.other w h2 h3
      rw [h4] at c4
      cases c4
      exact c5
  · intro he
    obtain ⟨b1, b2, b3⟩ := h.inv.edge v w he
    obtain ⟨p', b', _, q2, _, q4, _⟩ := holds_place h.holds ((h.mem w).2 b1) (by rw [h.top]; simpa using Ne.symm b2)
    rw [b3] at q2
    cases q2
    exact ⟨b', q4⟩

theorem kidsOf_nodup (h : BRep t a r T) (left : Bool) {v : N} (hv : v ∈ a.V) : (kidsOf a left v).Nodup := by
  unfold kidsOf
  rcases slot h left hv with h1 | ⟨w, h1, _, _, _, d1⟩ <;> rcases slot h (!left) hv with h2 | ⟨w', h2, _, _, _, d2⟩ <;>
    rw [h1, h2]
  · simp
  · simp
  · simp
  · have : w ≠ w' := by
      rintro rfl
      rw [d1] at d2
      simp only [Option.some.injEq, Val.str.injEq] at d2
      rw [letter_inj] at d2
      cases left <;> cases d2
    simpa using this

/-- depth-first order with a stack: the second child first -/
theorem dfs_seq {left : Bool} : ∀ (S : BTree N), Holds a S → ∀ l, DFSOrder (kidsOf a left) S.top.toList l →
    l = (if left then S.mirror else S).preorder
  | .nil, _, l, hd => by cases hd; cases left <;> rfl
  | .node l v r', hh, out, hd => by
    cases hd with
    | @cons _ _ B C h1 h2 =>
      cases h2
      have e1 : ∀ (S : BTree N), (match topVal S with | .name n => [n] | _ => []) = S.top.toList := by
        intro S; cases S <;> rfl
      have hk : kidsOf a left v = if left then l.top.toList ++ r'.top.toList else r'.top.toList ++ l.top.toList := by
        unfold kidsOf
        cases left
        · simp only [Bool.not_false, hh.1.1, hh.2.1.1]; rw [e1, e1]; rfl
        · simp only [Bool.not_true, hh.1.1, hh.2.1.1]; rw [e1, e1]; rfl
      have hrev : ∀ (S : BTree N), S.top.toList.reverse = S.top.toList := by intro S; cases S <;> rfl
      rw [hk] at h1
      cases left
      · simp only [Bool.false_eq_true, if_false, List.reverse_append, hrev] at h1 ⊢
        obtain ⟨B1, B2, rfl, d1, d2⟩ := h1.split
        rw [dfs_seq l hh.2.2.1 B1 d1, dfs_seq r' hh.2.2.2 B2 d2]
        simp [BTree.preorder]
      · simp only [if_true, List.reverse_append, hrev] at h1 ⊢
        obtain ⟨B1, B2, rfl, d1, d2⟩ := h1.split
        rw [dfs_seq r' hh.2.2.2 B1 d1, dfs_seq l hh.2.2.1 B2 d2]
        simp [BTree.preorder, BTree.mirror]

end Calls
end BinaryTree
end GiMPy
