import Verif.Model.Preflow
import Verif.Lemmas.MaxFlow
import Verif.Spec.Queue
import Mathlib.Data.Finset.Card
import Mathlib.Data.Finset.Range

/-! # The preflow-push algorithm -/

namespace GiMPy

/-- The queue of the preflow-push method: a bag in which one can look whether an item is present.  An item that is
pushed while absent occurs once, and `remove` takes out its only occurrence. -/
structure LawfulSet {N Q : Type} [DecidableEq N] (O : QOps N Q) (items : Q → List N) (has : Q → N → Bool) : Prop
    extends LawfulBag O items where
  has_iff : ∀ q x, has q x = true ↔ x ∈ items q
  nodup_push : ∀ q x, (items q).Nodup → x ∉ items q → (items (O.push q x)).Nodup
  nodup_pushP : ∀ q x p, (items q).Nodup → x ∉ items q → (items (O.pushP q x p)).Nodup
  nodup_remove : ∀ q x, (items q).Nodup → x ∈ items q → (items (O.remove q x)).Nodup ∧ x ∉ items (O.remove q x)

namespace Preflow
open Search MaxFlow
variable {N : Type} [DecidableEq N] {Q : Type} {g : Graph N} {O : QOps N Q} {items : Q → List N} {has : Q → N → Bool}
variable {cap : N × N → Int} {src sink : N} {algo : PAlgo}
set_option linter.unusedSectionVars false

/-- what holds of the columns at all times -/
structure PInv (g : Graph N) (cap : N × N → Int) (items : Q → List N) (src sink : N) (st : PState N Q) : Prop where
  within : Within g.getEdgeList cap st.flow
  net : ∀ v, st.excess v = net g.getEdgeList st.flow v
  pos : ∀ v, v ≠ src → 0 ≤ st.excess v
  node : ∀ v ∈ items st.q, v ≠ src ∧ ∃ w, Adj g v w
  dsrc : st.dist src = g.getNodeList.length
  dsink : st.dist sink = 0
  d0 : ∀ v, 0 ≤ st.dist v
  valid : ∀ u v, Use g cap st.flow u v →
    min (st.dist u) g.getNodeList.length ≤ min (st.dist v) g.getNodeList.length + 1

/-- all nodes with excess are in the queue, except those in `X` -/
def Active (items : Q → List N) (src sink : N) (X : N → Prop) (st : PState N Q) : Prop :=
  ∀ v, v ≠ src → v ≠ sink → 0 < st.excess v → v ∈ items st.q ∨ X v

/-- a step along which flow can be pushed -/
def Adm (g : Graph N) (cap : N × N → Int) (st : PState N Q) (u v : N) : Prop :=
  st.dist u = st.dist v + 1 ∧ 0 < pot g cap st.flow u v

/-- the effect of a push of the amount `a` -/
structure Pushed (g : Graph N) (cap : N × N → Int) (st : PState N Q) (i j : N) (a : Int) (st' : PState N Q) : Prop where
  q : st'.q = st.q
  dist : st'.dist = st.dist
  within : Within g.getEdgeList cap st'.flow
  net : ∀ v, net g.getEdgeList st'.flow v = net g.getEdgeList st.flow v + ((if j = v then a else 0) - (if i = v then a else 0))
  exc : ∀ v, st'.excess v = st.excess v + ((if j = v then a else 0) - (if i = v then a else 0))
  pot : ∀ u v, ¬ (u = i ∧ v = j) → ¬ (u = j ∧ v = i) → pot g cap st'.flow u v = pot g cap st.flow u v
  fwd : MaxFlow.pot g cap st'.flow i j = MaxFlow.pot g cap st.flow i j - a

section
variable (hanti : ∀ u v, (u, v) ∈ g.getEdgeList → (v, u) ∉ g.getEdgeList)
include hanti

theorem ne_of_adj {i j : N} (h : Adj g i j) : i ≠ j := by
  rintro rfl
  rcases h with h | h <;> exact hanti _ _ h h

theorem pushOn_ok (hwf : g.Wf) {st : PState N Q} (hw : Within g.getEdgeList cap st.flow) {i j : N}
    (h : Adj g i j) (h0 : 0 ≤ st.excess i) {e : N × N} {mult c : Int}
    (hc : ((i, j) ∈ g.getEdgeList ∧ e = (i, j) ∧ mult = 1 ∧ c = cap (i, j)) ∨
      ((j, i) ∈ g.getEdgeList ∧ e = (j, i) ∧ mult = -1 ∧ c = 0)) :
    (MaxFlow.pot g cap st.flow i j = 0 ∧ pushOn st e mult c i j = (false, st)) ∨
    (0 < MaxFlow.pot g cap st.flow i j ∧ ∃ st', pushOn st e mult c i j = (true, st') ∧
      Pushed g cap st i j (min (st.excess i) (MaxFlow.pot g cap st.flow i j)) st') := by
  have hij := ne_of_adj hanti h
  have hE : g.getEdgeList.Nodup := hwf.edup
  have hpot : c - mult * st.flow e = MaxFlow.pot g cap st.flow i j := by
    unfold MaxFlow.pot
    rcases hc with ⟨h1, rfl, rfl, rfl⟩ | ⟨h1, rfl, rfl, rfl⟩
    · rw [if_pos h1]; ring
    · rw [if_neg (fun h2 => hanti _ _ h1 h2)]; ring
  have hnn : 0 ≤ MaxFlow.pot g cap st.flow i j := by
    unfold MaxFlow.pot
    rcases hc with ⟨h1, rfl, rfl, rfl⟩ | ⟨h1, rfl, rfl, rfl⟩
    · rw [if_pos h1]; have := hw _ h1; omega
    · rw [if_neg (fun h2 => hanti _ _ h1 h2)]; exact (hw _ h1).1
  unfold pushOn
  rw [hpot]
  by_cases hp : MaxFlow.pot g cap st.flow i j = 0
  · left; rw [if_pos hp]; exact ⟨hp, rfl⟩
  · right
    rw [if_neg hp]
    refine ⟨by omega, _, rfl, ?_⟩
    generalize ha : min (st.excess i) (MaxFlow.pot g cap st.flow i j) = a
    have ha0 : 0 ≤ a := by omega
    have ha1 : a ≤ MaxFlow.pot g cap st.flow i j := by omega
    have hexc : ∀ v, upd (upd st.excess i (st.excess i - a)) j (st.excess j + a) v =
        st.excess v + ((if j = v then a else 0) - (if i = v then a else 0)) := by
      intro v
      unfold upd
      by_cases h1 : v = j
      · subst h1; simp [hij]
      · by_cases h2 : v = i
        · subst h2; simp [h1, Ne.symm h1]; ring
        · simp [h1, h2, Ne.symm h1, Ne.symm h2]
    rcases hc with ⟨h1, rfl, rfl, rfl⟩ | ⟨h1, rfl, rfl, rfl⟩
    · have h2 : (j, i) ∉ g.getEdgeList := hanti _ _ h1
      have hval : (1 : Int) * (1 * st.flow (i, j) + a) = st.flow (i, j) + a := by ring
      rw [hval]
      have hP : MaxFlow.pot g cap st.flow i j = cap (i, j) - st.flow (i, j) := by unfold MaxFlow.pot; rw [if_pos h1]
      refine ⟨rfl, rfl, ?_, ?_, hexc, ?_, ?_⟩
      · intro e he
        have := hw e he
        show 0 ≤ upd _ _ _ e ∧ upd _ _ _ e ≤ _
        unfold upd
        split
        · next h => subst h; omega
        · exact this
      · intro v
        show net _ (upd _ _ _) v = _
        rw [net_upd hE _ h1]; simp only [add_sub_cancel_left]
      · intro u v n1 n2
        unfold MaxFlow.pot
        show (if _ then _ - upd _ _ _ _ else upd _ _ _ _) = _
        unfold upd
        rw [if_neg (show ¬ (u, v) = (i, j) by rintro h; cases h; exact n1 ⟨rfl, rfl⟩),
          if_neg (show ¬ (v, u) = (i, j) by rintro h; cases h; exact n2 ⟨rfl, rfl⟩)]
      · rw [hP]
        unfold MaxFlow.pot
        rw [if_pos h1]
        show _ - upd _ _ _ _ = _
        unfold upd; rw [if_pos rfl]; ring
    · have h2 : (i, j) ∉ g.getEdgeList := fun h2 => hanti _ _ h1 h2
      have hval : (-1 : Int) * (-1 * st.flow (j, i) + a) = st.flow (j, i) - a := by ring
      rw [hval]
      have hP : MaxFlow.pot g cap st.flow i j = st.flow (j, i) := by unfold MaxFlow.pot; rw [if_neg h2]
      refine ⟨rfl, rfl, ?_, ?_, hexc, ?_, ?_⟩
      · intro e he
        have := hw e he
        show 0 ≤ upd _ _ _ e ∧ upd _ _ _ e ≤ _
        unfold upd
        split
        · next h => subst h; omega
        · exact this
      · intro v
        show net _ (upd _ _ _) v = _
        rw [net_upd hE _ h1]; simp only []
        split <;> split <;> omega
      · intro u v n1 n2
        unfold MaxFlow.pot
        show (if _ then _ - upd _ _ _ _ else upd _ _ _ _) = _
        unfold upd
        rw [if_neg (show ¬ (u, v) = (j, i) by rintro h; cases h; exact n2 ⟨rfl, rfl⟩),
          if_neg (show ¬ (v, u) = (j, i) by rintro h; cases h; exact n1 ⟨rfl, rfl⟩)]
      · rw [hP]
        unfold MaxFlow.pot
        rw [if_neg h2]
        show upd _ _ _ _ = _
        unfold upd; rw [if_pos rfl]

/-- one call of `process_edge_flow` -/
theorem processEdge_ok (hwf : g.Wf) (hc : HasCaps g cap) {st : PState N Q} (hw : Within g.getEdgeList cap st.flow)
    {i j : N} (h : Adj g i j) (h0 : 0 ≤ st.excess i) :
    (¬ Adm g cap st i j ∧ processEdge g st i j = .ok (false, st)) ∨
    (Adm g cap st i j ∧ ∃ st', processEdge g st i j = .ok (true, st') ∧
      Pushed g cap st i j (min (st.excess i) (MaxFlow.pot g cap st.flow i j)) st') := by
  unfold processEdge Adm
  by_cases hd : st.dist i = st.dist j + 1
  · rw [if_neg (not_not.2 hd)]
    by_cases h1 : (i, j) ∈ g.getEdgeList
    · rw [if_pos ((contains_edge g i j).2 h1), hc i j h1]
      simp only []
      rcases pushOn_ok hanti hwf hw h h0 (Or.inl ⟨h1, rfl, rfl, rfl⟩) with ⟨a, b⟩ | ⟨a, st', b, c⟩
      · left; rw [b]; exact ⟨by omega, rfl⟩
      · right; rw [b]; exact ⟨⟨hd, a⟩, st', rfl, c⟩
    · have h2 := h.resolve_left h1
      rw [if_neg (fun h' => h1 ((contains_edge g i j).1 h')), if_pos ((contains_edge g j i).2 h2)]
      rcases pushOn_ok hanti hwf hw h h0 (cap := cap) (Or.inr ⟨h2, rfl, rfl, rfl⟩) with ⟨a, b⟩ | ⟨a, st', b, c⟩
      · left; rw [b]; exact ⟨by omega, rfl⟩
      · right; rw [b]; exact ⟨⟨hd, a⟩, st', rfl, c⟩
  · left
    rw [if_pos hd]
    exact ⟨fun h => hd h.1, rfl⟩

omit hanti in
theorem Pushed.use {st st' : PState N Q} {i j : N} {a : Int} (h : Pushed g cap st i j a st')
    {u v : N} (hU : Use g cap st'.flow u v) (ha : 0 ≤ a) : (u = j ∧ v = i) ∨ Use g cap st.flow u v := by
  by_cases h2 : u = j ∧ v = i
  · exact Or.inl h2
  · right
    refine ⟨hU.1, ?_⟩
    by_cases h1 : u = i ∧ v = j
    · obtain ⟨rfl, rfl⟩ := h1
      have := h.fwd
      have := hU.2
      omega
    · have := h.pot u v h1 h2
      have := hU.2
      omega

theorem Pushed.inv {st st' : PState N Q} {i j : N} (hI : PInv g cap items src sink st) (hA : Adm g cap st i j)
    (hij : Adj g i j) (hi : i ≠ src)
    (h : Pushed g cap st i j (min (st.excess i) (MaxFlow.pot g cap st.flow i j)) st') : PInv g cap items src sink st' := by
  have h0 := hI.pos i hi
  have hp := hA.2
  have hne := ne_of_adj hanti hij
  generalize ha : min (st.excess i) (MaxFlow.pot g cap st.flow i j) = a at h
  have ha0 : 0 ≤ a := by omega
  refine ⟨h.within, fun v => by rw [h.exc, h.net, hI.net], ?_, by rw [h.q]; exact hI.node, by rw [h.dist]; exact hI.dsrc,
    by rw [h.dist]; exact hI.dsink, by rw [h.dist]; exact hI.d0, ?_⟩
  · intro v hv
    rw [h.exc]
    have := hI.pos v hv
    by_cases h1 : i = v
    · subst h1; rw [if_neg (Ne.symm hne), if_pos rfl]; omega
    · rw [if_neg h1]; split <;> omega
  · intro u v hU
    rw [h.dist]
    rcases h.use hU ha0 with ⟨rfl, rfl⟩ | h1
    · have := hA.1; omega
    · exact hI.valid u v h1

end

/-! ## relabel -/

theorem minOut_ok (hc : HasCaps g cap) (st : PState N Q) {i : N} : ∀ (l : List N) (m : Int),
    (∀ j ∈ l, (i, j) ∈ g.getEdgeList) → ∃ m', minOut g st i l m = .ok m' ∧ m' ≤ m ∧
      (∀ j ∈ l, st.flow (i, j) < cap (i, j) → m' ≤ st.dist j) ∧
      (m' = m ∨ ∃ j ∈ l, st.flow (i, j) < cap (i, j) ∧ m' = st.dist j) := by
  intro l
  induction l with
  | nil => intro m _; exact ⟨m, rfl, Int.le_refl _, by simp, Or.inl rfl⟩
  | cons j l ih =>
    intro m hl
    rw [minOut]
    have hj := hl j (by simp)
    have hl' : ∀ j ∈ l, (i, j) ∈ g.getEdgeList := fun x hx => hl x (by simp [hx])
    by_cases h1 : st.dist j < m
    · rw [if_pos h1, flowOf_ok hj, hc i j hj]
      simp only []
      by_cases h2 : st.flow (i, j) < cap (i, j)
      · rw [if_pos h2]
        obtain ⟨m', a, b, c, d⟩ := ih (st.dist j) hl'
        refine ⟨m', a, by omega, ?_, ?_⟩
        · intro x hx hlt
          rcases List.mem_cons.1 hx with rfl | hx
          · exact b
          · exact c x hx hlt
        · rcases d with d | ⟨x, hx, d⟩
          · exact Or.inr ⟨j, by simp, h2, d⟩
          · exact Or.inr ⟨x, by simp [hx], d⟩
      · rw [if_neg h2]
        obtain ⟨m', a, b, c, d⟩ := ih m hl'
        refine ⟨m', a, b, ?_, ?_⟩
        · intro x hx hlt
          rcases List.mem_cons.1 hx with rfl | hx
          · exact absurd hlt h2
          · exact c x hx hlt
        · exact d.imp id fun ⟨x, hx, d⟩ => ⟨x, by simp [hx], d⟩
    · rw [if_neg h1]
      obtain ⟨m', a, b, c, d⟩ := ih m hl'
      refine ⟨m', a, b, ?_, ?_⟩
      · intro x hx hlt
        rcases List.mem_cons.1 hx with rfl | hx
        · omega
        · exact c x hx hlt
      · exact d.imp id fun ⟨x, hx, d⟩ => ⟨x, by simp [hx], d⟩

theorem minIn_ok (st : PState N Q) {i : N} : ∀ (l : List N) (m : Int),
    (∀ j ∈ l, (j, i) ∈ g.getEdgeList) → ∃ m', minIn g st i l m = .ok m' ∧ m' ≤ m ∧
      (∀ j ∈ l, 0 < st.flow (j, i) → m' ≤ st.dist j) ∧
      (m' = m ∨ ∃ j ∈ l, 0 < st.flow (j, i) ∧ m' = st.dist j) := by
  intro l
  induction l with
  | nil => intro m _; exact ⟨m, rfl, Int.le_refl _, by simp, Or.inl rfl⟩
  | cons j l ih =>
    intro m hl
    rw [minIn]
    have hj := hl j (by simp)
    have hl' : ∀ j ∈ l, (j, i) ∈ g.getEdgeList := fun x hx => hl x (by simp [hx])
    by_cases h1 : st.dist j < m
    · rw [if_pos h1, flowOf_ok hj]
      simp only []
      by_cases h2 : 0 < st.flow (j, i)
      · rw [if_pos h2]
        obtain ⟨m', a, b, c, d⟩ := ih (st.dist j) hl'
        refine ⟨m', a, by omega, ?_, ?_⟩
        · intro x hx hlt
          rcases List.mem_cons.1 hx with rfl | hx
          · exact b
          · exact c x hx hlt
        · rcases d with d | ⟨x, hx, d⟩
          · exact Or.inr ⟨j, by simp, h2, d⟩
          · exact Or.inr ⟨x, by simp [hx], d⟩
      · rw [if_neg h2]
        obtain ⟨m', a, b, c, d⟩ := ih m hl'
        refine ⟨m', a, b, ?_, ?_⟩
        · intro x hx hlt
          rcases List.mem_cons.1 hx with rfl | hx
          · exact absurd hlt h2
          · exact c x hx hlt
        · exact d.imp id fun ⟨x, hx, d⟩ => ⟨x, by simp [hx], d⟩
    · rw [if_neg h1]
      obtain ⟨m', a, b, c, d⟩ := ih m hl'
      refine ⟨m', a, b, ?_, ?_⟩
      · intro x hx hlt
        rcases List.mem_cons.1 hx with rfl | hx
        · omega
        · exact c x hx hlt
      · exact d.imp id fun ⟨x, hx, d⟩ => ⟨x, by simp [hx], d⟩

/-- one call of `relabel` -/
theorem relabel_ok (hwf : g.Wf) (hd : g.directed = true) (hc : HasCaps g cap)
    (hanti : ∀ u v, (u, v) ∈ g.getEdgeList → (v, u) ∉ g.getEdgeList) (st : PState N Q) {i : N}
    (hi : i ∈ g.getNodeList) :
    ∃ m, relabel g st i = .ok { st with dist := upd st.dist i (m + 1) } ∧ m ≤ 2 * g.getNodeList.length + 1 ∧
      (∀ j, Use g cap st.flow i j → m ≤ st.dist j) ∧
      (m = 2 * g.getNodeList.length + 1 ∨ ∃ j, Use g cap st.flow i j ∧ m = st.dist j) := by
  obtain ⟨out, inn, h1, h2, h3, h4⟩ := nbrs_edges hwf hd hi
  obtain ⟨m1, a1, a2, a3, a4⟩ := minOut_ok hc st out (2 * g.getNodeList.length + 1) fun j hj => (h3 j).1 hj
  obtain ⟨m2, b1, b2, b3, b4⟩ := minIn_ok st inn m1 fun j hj => (h4 j).1 hj
  have huse : ∀ j, (i, j) ∈ g.getEdgeList → (Use g cap st.flow i j ↔ st.flow (i, j) < cap (i, j)) := by
    intro j hj
    unfold Use MaxFlow.pot
    rw [if_pos hj]
    exact ⟨fun h => by have := h.2; omega, fun h => ⟨Or.inl hj, by omega⟩⟩
  have huse' : ∀ j, (j, i) ∈ g.getEdgeList → (Use g cap st.flow i j ↔ 0 < st.flow (j, i)) := by
    intro j hj
    unfold Use MaxFlow.pot
    rw [if_neg (hanti _ _ hj)]
    exact ⟨fun h => h.2, fun h => ⟨Or.inr hj, h⟩⟩
  refine ⟨m2, ?_, by omega, ?_, ?_⟩
  · unfold relabel
    rw [h1]; simp only []
    rw [a1]; simp only []
    rw [h2]; simp only []
    rw [b1]
  · intro j hj
    rcases hj.1 with h | h
    · exact Int.le_trans b2 (a3 j ((h3 j).2 h) ((huse j h).1 hj))
    · exact b3 j ((h4 j).2 h) ((huse' j h).1 hj)
  · rcases b4 with b4 | ⟨j, hj, b4, b5⟩
    · rcases a4 with a4 | ⟨j, hj, a4, a5⟩
      · left; omega
      · exact Or.inr ⟨j, (huse j ((h3 j).1 hj)).2 a4, by omega⟩
    · exact Or.inr ⟨j, (huse' j ((h4 j).1 hj)).2 b4, b5⟩

theorem relabel_inv {st : PState N Q} (hI : PInv g cap items src sink st) {i : N} (hs : i ≠ src) (ht : i ≠ sink) {m : Int}
    (h1 : ∀ j, Use g cap st.flow i j → m ≤ st.dist j)
    (h2 : m = 2 * g.getNodeList.length + 1 ∨ ∃ j, Use g cap st.flow i j ∧ m = st.dist j) :
    PInv g cap items src sink { st with dist := upd st.dist i (m + 1) } := by
  have hm0 : 0 ≤ m := by
    rcases h2 with h2 | ⟨j, _, h2⟩
    · omega
    · rw [h2]; exact hI.d0 j
  have hmono : min (st.dist i) g.getNodeList.length ≤ min (m + 1) g.getNodeList.length := by
    rcases h2 with h2 | ⟨j, hj, h2⟩
    · omega
    · have := hI.valid i j hj; omega
  clear h2
  refine ⟨hI.within, hI.net, hI.pos, hI.node, ?_, ?_, ?_, ?_⟩
  · show upd _ _ _ _ = _
    unfold upd; rw [if_neg (Ne.symm hs)]; exact hI.dsrc
  · show upd _ _ _ _ = _
    unfold upd; rw [if_neg (Ne.symm ht)]; exact hI.dsink
  · intro v
    show 0 ≤ upd _ _ _ _
    unfold upd; split
    · omega
    · exact hI.d0 v
  · intro u v hU
    have hv := hI.valid u v hU
    show min (upd _ _ _ _) _ ≤ min (upd _ _ _ _) _ + 1
    unfold upd
    by_cases hu : u = i
    · subst hu
      rw [if_pos rfl]
      have := h1 v hU
      split <;> omega
    · rw [if_neg hu]
      split
      · next h => subst h; clear h1; omega
      · exact hv

/-! ## The loop over the neighbours -/

theorem sum_single (u : N) (x : Int) {V : List N} (hV : V.Nodup) :
    (V.map fun v => if u = v then x else 0).sum = if u ∈ V then x else 0 := by
  induction V with
  | nil => simp
  | cons b V ih =>
    rw [List.nodup_cons] at hV
    simp only [List.map_cons, List.sum_cons]
    rw [ih hV.2]
    by_cases h : u = b
    · subst h; simp [hV.1]
    · simp [h]

/-- number of the arcs along which flow can be pushed, in either direction -/
def open_ (g : Graph N) (cap : N × N → Int) (st : PState N Q) : Int :=
  (g.getEdgeList.map fun e => if (st.dist e.1 = st.dist e.2 + 1 ∧ 0 < MaxFlow.pot g cap st.flow e.1 e.2) ∨
    (st.dist e.2 = st.dist e.1 + 1 ∧ 0 < MaxFlow.pot g cap st.flow e.2 e.1) then 1 else 0).sum

/-- sum of the labels of the nodes with excess -/
def act (g : Graph N) (src : N) (st : PState N Q) : Int :=
  (g.getNodeList.map fun v => if v ≠ src ∧ 0 < st.excess v then st.dist v else 0).sum

/-- measure of the pushes: a push that leaves room closes no arc but lowers the labels of the nodes with excess, another
push closes an arc -/
def phi (g : Graph N) (cap : N × N → Int) (src : N) (st : PState N Q) : Int :=
  (2 * g.getNodeList.length + 3) * open_ g cap st + act g src st

/-- labels are valid for all usable steps; items occur once -/
structure Full (g : Graph N) (cap : N × N → Int) (items : Q → List N) (st : PState N Q) : Prop where
  valid : ∀ u v, Use g cap st.flow u v → st.dist u ≤ st.dist v + 1
  le : ∀ v, st.dist v ≤ 2 * g.getNodeList.length + 2
  nodup : (items st.q).Nodup

theorem sum_le_lt {A : Type} {l : List A} {f f' : A → Int} (h : ∀ x ∈ l, f' x ≤ f x) :
    (l.map f').sum ≤ (l.map f).sum ∧ ∀ x ∈ l, f' x < f x → (l.map f').sum < (l.map f).sum := by
  induction l with
  | nil => simp
  | cons a l ih =>
    have h1 := h a (by simp)
    obtain ⟨h2, h3⟩ := ih fun v hv => h v (by simp [hv])
    simp only [List.map_cons, List.sum_cons]
    refine ⟨by omega, fun x hx hlt => ?_⟩
    rcases List.mem_cons.1 hx with rfl | hx
    · omega
    · have := h3 x hx hlt; omega

/-- a push opens no arc; it closes one if it takes all the room -/
theorem open_pushed {st st' : PState N Q} {i j : N} {a : Int} (h : Pushed g cap st i j a st')
    (ha : 0 ≤ a) (hij : Adj g i j) (hd : st.dist i = st.dist j + 1) (hp : 0 < MaxFlow.pot g cap st.flow i j) :
    open_ g cap st' ≤ open_ g cap st ∧ (a = MaxFlow.pot g cap st.flow i j → open_ g cap st' < open_ g cap st) := by
  have hadm : ∀ u v, st'.dist u = st'.dist v + 1 ∧ 0 < MaxFlow.pot g cap st'.flow u v →
      st.dist u = st.dist v + 1 ∧ 0 < MaxFlow.pot g cap st.flow u v := by
    rintro u v ⟨h1, h2⟩
    rw [h.dist] at h1
    refine ⟨h1, ?_⟩
    by_cases e1 : u = i ∧ v = j
    · rw [e1.1, e1.2]; exact hp
    · by_cases e2 : u = j ∧ v = i
      · rw [e2.1, e2.2] at h1; omega
      · rw [← h.pot u v e1 e2]; exact h2
  have hterm : ∀ e ∈ g.getEdgeList,
      (if (st'.dist e.1 = st'.dist e.2 + 1 ∧ 0 < MaxFlow.pot g cap st'.flow e.1 e.2) ∨
        (st'.dist e.2 = st'.dist e.1 + 1 ∧ 0 < MaxFlow.pot g cap st'.flow e.2 e.1) then (1 : Int) else 0) ≤
      (if (st.dist e.1 = st.dist e.2 + 1 ∧ 0 < MaxFlow.pot g cap st.flow e.1 e.2) ∨
        (st.dist e.2 = st.dist e.1 + 1 ∧ 0 < MaxFlow.pot g cap st.flow e.2 e.1) then 1 else 0) := by
    intro e _
    by_cases c : (st'.dist e.1 = st'.dist e.2 + 1 ∧ 0 < MaxFlow.pot g cap st'.flow e.1 e.2) ∨
        (st'.dist e.2 = st'.dist e.1 + 1 ∧ 0 < MaxFlow.pot g cap st'.flow e.2 e.1)
    · rw [if_pos c, if_pos (c.imp (hadm _ _) (hadm _ _))]
    · rw [if_neg c]; split <;> omega
  obtain ⟨s1, s2⟩ := sum_le_lt hterm
  refine ⟨s1, fun hap => ?_⟩
  have hf := h.fwd
  have hno : ¬ (st'.dist i = st'.dist j + 1 ∧ 0 < MaxFlow.pot g cap st'.flow i j) := by rintro ⟨_, h2⟩; omega
  have hno' : ¬ (st'.dist j = st'.dist i + 1 ∧ 0 < MaxFlow.pot g cap st'.flow j i) := by
    rintro ⟨h2, _⟩; rw [h.dist] at h2; omega
  rcases hij with he | he
  · refine s2 (i, j) he ?_
    simp only []
    rw [if_neg (not_or.2 ⟨hno, hno'⟩), if_pos (Or.inl ⟨hd, hp⟩)]
    decide
  · refine s2 (j, i) he ?_
    simp only []
    rw [if_neg (not_or.2 ⟨hno', hno⟩), if_pos (Or.inr ⟨hd, hp⟩)]
    decide

theorem act_pushed (hwf : g.Wf) {st st' : PState N Q} {i j : N} {a : Int} (h : Pushed g cap st i j a st') (ha : 0 ≤ a)
    (hd0 : ∀ v, 0 ≤ st.dist v) (hi : i ∈ g.getNodeList) (hj : j ∈ g.getNodeList) (his : i ≠ src) (hij : i ≠ j)
    (h0 : 0 < st.excess i) :
    act g src st' ≤ act g src st + st.dist j - (if a = st.excess i then st.dist i else 0) := by
  have e : (g.getNodeList.map fun v => if v ≠ src ∧ 0 < st'.excess v then st'.dist v else 0).sum ≤
      (g.getNodeList.map fun v => ((if v ≠ src ∧ 0 < st.excess v then st.dist v else 0) +
        (if j = v then st.dist j else 0)) - (if i = v then (if a = st.excess i then st.dist i else 0) else 0)).sum := by
    refine List.sum_le_sum fun v _ => ?_
    have hv0 := hd0 v
    rw [h.exc, h.dist]
    by_cases h1 : i = v
    · subst h1
      have hb : (if i ≠ src ∧ 0 < st.excess i then st.dist i else 0) = st.dist i := if_pos ⟨his, h0⟩
      have hj' : ∀ x : Int, (if j = i then x else 0) = 0 := fun x => if_neg (Ne.symm hij)
      rw [hb, hj', hj', if_pos rfl, if_pos rfl]
      by_cases h2 : a = st.excess i
      · rw [if_neg (by omega), if_pos h2]; omega
      · rw [if_neg h2]; split <;> omega
    · rw [if_neg h1, if_neg h1]
      by_cases h2 : j = v
      · subst h2
        rw [if_pos rfl, if_pos rfl]
        split <;> split <;> omega
      · rw [if_neg h2, if_neg h2, sub_zero, add_zero, add_zero, sub_zero]
  rw [sum_map_sub', List.sum_map_add, sum_single _ _ (V := g.getNodeList) hwf.nodup,
    sum_single _ _ (V := g.getNodeList) hwf.nodup, if_pos hj, if_pos hi] at e
  exact e

theorem phi_pushed (hwf : g.Wf) {st st' : PState N Q} {i j : N}
    (h : Pushed g cap st i j (min (st.excess i) (MaxFlow.pot g cap st.flow i j)) st') (he0 : 0 ≤ st.excess i)
    (hd0 : ∀ v, 0 ≤ st.dist v) (hle : ∀ v, st.dist v ≤ 2 * g.getNodeList.length + 2) (hij : Adj g i j) (hne : i ≠ j)
    (his : i ≠ src) (hd : st.dist i = st.dist j + 1) (hp : 0 < MaxFlow.pot g cap st.flow i j) :
    phi g cap src st' ≤ phi g cap src st ∧ (0 < st.excess i → phi g cap src st' < phi g cap src st) := by
  have hn : i ∈ g.getNodeList ∧ j ∈ g.getNodeList := by
    rcases hij with h' | h'
    · exact hwf.endp _ _ h'
    · exact (hwf.endp _ _ h').symm
  generalize ha : min (st.excess i) (MaxFlow.pot g cap st.flow i j) = a at h
  obtain ⟨o1, o2⟩ := open_pushed h (by omega) hij hd hp
  have hlt : 0 < st.excess i → phi g cap src st' < phi g cap src st := by
    intro h0
    have h1 := act_pushed hwf h (by omega) hd0 hn.1 hn.2 his hne h0
    have h2 := hle j
    unfold phi
    by_cases hc : a = st.excess i
    · rw [if_pos hc] at h1
      have := Int.mul_le_mul_of_nonneg_left o1 (show (0 : Int) ≤ 2 * g.getNodeList.length + 3 by omega)
      omega
    · rw [if_neg hc] at h1
      have := Int.mul_le_mul_of_nonneg_left (show open_ g cap st' + 1 ≤ open_ g cap st from o2 (by omega))
        (show (0 : Int) ≤ 2 * g.getNodeList.length + 3 by omega)
      rw [Int.mul_add, Int.mul_one] at this
      omega
  refine ⟨?_, hlt⟩
  rcases Int.lt_or_eq_of_le he0 with h0 | h0
  · exact Int.le_of_lt (hlt h0)
  · have ha0 : a = 0 := by omega
    have hex : st'.excess = st.excess := funext fun v => by rw [h.exc, ha0]; simp
    have hact : act g src st' = act g src st := by unfold act; rw [hex, h.dist]
    have := Int.mul_le_mul_of_nonneg_left o1 (show (0 : Int) ≤ 2 * g.getNodeList.length + 3 by omega)
    unfold phi
    omega

/-- what the loop over the neighbours does -/
structure Scan (g : Graph N) (cap : N × N → Int) (items : Q → List N) (src sink cur : N) (algo : PAlgo) (l : List N)
    (st : PState N Q) (rel : Bool) (last : Option (Bool × N)) (st' : PState N Q) : Prop where
  inv : PInv g cap items src sink st'
  dist : st'.dist = st.dist
  active : Active items src sink (fun v => algo ≠ .fifo ∧ last = some (true, v)) st'
  mem : cur ∈ items st'.q
  adm : ∀ m, ¬ Adm g cap st cur m → ¬ Adm g cap st' cur m
  none : rel = true → ∀ m ∈ l, ¬ Adm g cap st' cur m
  rest : rel = true → st' = st ∨ 0 < st'.excess cur
  le : (∀ v, st.dist v ≤ 2 * g.getNodeList.length + 2) → phi g cap src st' ≤ phi g cap src st
  lt : (∀ v, st.dist v ≤ 2 * g.getNodeList.length + 2) → rel = false → 0 < st.excess cur →
    phi g cap src st' < phi g cap src st
  zero : rel = false → st.excess cur = 0 → st'.excess = st.excess ∧ ∃ n, last = some (true, n) ∧
    st.dist cur = st.dist n + 1 ∧ ∀ v ∈ items st'.q, v ∈ items st.q ∨ v = n
  nodup : (items st.q).Nodup → (items st'.q).Nodup
  full : (∀ u v, Use g cap st.flow u v → st.dist u ≤ st.dist v + 1) →
    ∀ u v, Use g cap st'.flow u v → st'.dist u ≤ st'.dist v + 1
  flag : algo ≠ .fifo → rel = true → l ≠ [] → ∃ n, last = some (false, n)
  idle : (∀ m ∈ l, st.dist cur ≠ st.dist m + 1) → rel = true ∧ st' = st

theorem Adj.node (hwf : g.Wf) {u v : N} (h : Adj g u v) : u ∈ g.getNodeList ∧ v ∈ g.getNodeList := by
  rcases h with h | h
  · exact hwf.endp _ _ h
  · exact (hwf.endp _ _ h).symm

/-- the queue after the head of the arc has been put into it -/
theorem enqHead_ok (hs : LawfulSet O items has) (n : N) (q : Q) :
    (∀ v, v ∈ items (enqHead O has algo src sink n q) → v ∈ items q ∨ (v = n ∧ n ≠ src)) ∧
    (∀ v ∈ items q, v ∈ items (enqHead O has algo src sink n q)) ∧
    (algo = .fifo → n ≠ src → n ≠ sink → n ∈ items (enqHead O has algo src sink n q)) ∧
    ((items q).Nodup → (items (enqHead O has algo src sink n q)).Nodup) := by
  unfold enqHead
  by_cases h : algo = .fifo ∧ has q n = false ∧ n ≠ src ∧ n ≠ sink
  · rw [if_pos h]
    have hn : n ∉ items q := fun h' => by rw [(hs.has_iff q n).2 h'] at h; simp at h
    refine ⟨fun v hv => ?_, fun v hv => (hs.mem_push _ _ _).2 (Or.inr hv), fun _ _ _ => (hs.mem_push _ _ _).2 (Or.inl rfl),
      fun h' => hs.nodup_push _ _ h' hn⟩
    rcases (hs.mem_push _ _ _).1 hv with rfl | hv
    · exact Or.inr ⟨rfl, h.2.2.1⟩
    · exact Or.inl hv
  · rw [if_neg h]
    refine ⟨fun v hv => Or.inl hv, fun v hv => hv, fun h1 h2 h3 => ?_, id⟩
    by_contra h4
    exact h ⟨h1, by rw [← Bool.not_eq_true, hs.has_iff]; exact h4, h2, h3⟩

theorem forNbrs_ok (hwf : g.Wf) (hs : LawfulSet O items has) (hc : HasCaps g cap)
    (hanti : ∀ u v, (u, v) ∈ g.getEdgeList → (v, u) ∉ g.getEdgeList) {cur : N} (hcur : cur ≠ src) :
    ∀ (l : List N) (last : Option (Bool × N)) (st : PState N Q), (∀ m ∈ l, Adj g cur m) →
    PInv g cap items src sink st → Active items src sink (fun _ => False) st → cur ∈ items st.q →
    ∃ rel last' st', forNbrs g O has algo src sink cur l last st = .ok (rel, last', st') ∧
      Scan g cap items src sink cur algo l st rel last' st' ∧
      ((l = [] ∧ last' = last) ∨ ∃ b n, last' = some (b, n) ∧ Adj g cur n) := by
  intro l
  induction l with
  | nil =>
    intro last st _ hI hA hq
    refine ⟨true, last, st, rfl, ⟨hI, rfl, fun v h1 h2 h3 => (hA v h1 h2 h3).imp id False.elim, hq, fun _ h => h, by simp,
      fun _ => Or.inl rfl, fun _ => Int.le_refl _, by simp, by simp, id, id, fun _ _ h => absurd rfl h,
      fun _ => ⟨rfl, rfl⟩⟩, Or.inl ⟨rfl, rfl⟩⟩
  | cons n l ih =>
    intro last st hl hI hA hq
    have hn := hl n (by simp)
    have hl' : ∀ m ∈ l, Adj g cur m := fun m hm => hl m (by simp [hm])
    have hcn := Adj.node hwf hn
    rw [forNbrs]
    rcases processEdge_ok hanti hwf hc hI.within hn (hI.pos cur hcur) with ⟨h1, h2⟩ | ⟨h1, st1, h2, h3⟩
    · rw [h2]
      simp only []
      obtain ⟨rel, last', st', a, b, c⟩ := ih (some (false, n)) st hl' hI hA hq
      refine ⟨rel, last', st', a, ⟨b.inv, b.dist, b.active, b.mem, b.adm, ?_, b.rest, b.le, b.lt, b.zero, b.nodup, b.full,
        ?_, fun hm => b.idle fun m hm' => hm m (by simp [hm'])⟩, ?_⟩
      · intro hr m hm
        rcases List.mem_cons.1 hm with rfl | hm
        · exact b.adm _ h1
        · exact b.none hr m hm
      · intro hal hr _
        rcases c with ⟨c, c'⟩ | _
        · exact ⟨n, c'⟩
        · by_cases hl0 : l = []
          · subst hl0
            rw [forNbrs] at a
            simp only [Except.ok.injEq, Prod.mk.injEq] at a
            exact ⟨n, a.2.1.symm⟩
          · exact b.flag hal hr hl0
      · right
        rcases c with ⟨_, c⟩ | c
        · exact ⟨false, n, c, hn⟩
        · exact c
    · rw [h2]
      simp only []
      have hI1 := h3.inv hanti hI h1 hn hcur
      have hp := h1.2
      have h0 := hI.pos cur hcur
      have hne := ne_of_adj hanti hn
      have hphi := fun hle => phi_pushed (src := src) hwf h3 h0 hI.d0 hle hn hne hcur h1.1 hp
      generalize ha : min (st.excess cur) (MaxFlow.pot g cap st.flow cur n) = a at h3
      have ha0 : 0 ≤ a := by omega
      have hexc : st1.excess cur = st.excess cur - a := by
        rw [h3.exc, if_neg (Ne.symm hne), if_pos rfl]; ring
      obtain ⟨q1, q2, q3, q4⟩ := enqHead_ok (algo := algo) (src := src) (sink := sink) hs n st1.q
      have hI2 : PInv g cap items src sink { st1 with q := enqHead O has algo src sink n st1.q } := by
        refine ⟨hI1.within, hI1.net, hI1.pos, ?_, hI1.dsrc, hI1.dsink, hI1.d0, hI1.valid⟩
        intro v hv
        rcases q1 v hv with hv | ⟨rfl, hv⟩
        · exact hI1.node v hv
        · exact ⟨hv, cur, hn.symm⟩
      have hq2 : cur ∈ items (enqHead O has algo src sink n st1.q) := q2 _ (by rw [h3.q]; exact hq)
      have hact : ∀ v, v ≠ src → v ≠ sink → 0 < st1.excess v →
          v ∈ items (enqHead O has algo src sink n st1.q) ∨ (algo ≠ .fifo ∧ v = n) := by
        intro v v1 v2 v3
        by_cases hvn : v = n
        · subst hvn
          by_cases hal : algo = .fifo
          · exact Or.inl (q3 hal v1 v2)
          · exact Or.inr ⟨hal, rfl⟩
        · left
          rw [h3.exc, if_neg (Ne.symm hvn)] at v3
          refine q2 v ?_
          rw [h3.q]
          refine (hA v v1 v2 ?_).resolve_right id
          split at v3 <;> omega
      have hadm : ∀ m, ¬ Adm g cap st cur m → ¬ Adm g cap st1 cur m := by
        intro m hm h'
        refine hm ⟨by rw [← h3.dist]; exact h'.1, ?_⟩
        by_cases hmn : m = n
        · subst hmn; exact hp
        · have h5 := h3.pot cur m (fun h => hmn h.2) (fun h => hne h.1)
          have := h'.2
          omega
      have hfull : (∀ u v, Use g cap st.flow u v → st.dist u ≤ st.dist v + 1) →
          ∀ u v, Use g cap st1.flow u v → st1.dist u ≤ st1.dist v + 1 := by
        intro hv u v hU
        rw [h3.dist]
        rcases h3.use hU ha0 with ⟨rfl, rfl⟩ | h4
        · have := h1.1; omega
        · exact hv u v h4
      by_cases hcase : algo = .fifo ∧ st1.excess cur > 0
      · rw [if_pos hcase]
        obtain ⟨rel, last', st', e1, e2, e3⟩ := ih (some (true, n)) _ hl' hI2 (by
          intro v v1 v2 v3
          exact (hact v v1 v2 v3).imp id fun h => absurd hcase.1 h.1) hq2
        have hpos : 0 < st.excess cur := by have := hcase.2; omega
        refine ⟨rel, last', st', e1, ⟨e2.inv, e2.dist.trans h3.dist, e2.active, e2.mem, fun m hm => e2.adm m (hadm m hm),
          ?_, ?_, ?_, ?_, ?_, fun h => e2.nodup (q4 (by rw [h3.q]; exact h)), fun h => e2.full (hfull h),
          fun h => absurd hcase.1 h, fun h => absurd h1.1 (h n (by simp))⟩, ?_⟩
        · intro hr m hm
          rcases List.mem_cons.1 hm with rfl | hm
          · refine e2.adm _ fun h => ?_
            have h5 := h.2
            have h6 := h3.fwd
            have h7 := hcase.2
            have h5' : 0 < MaxFlow.pot g cap st1.flow cur m := h5
            omega
          · exact e2.none hr m hm
        · intro hr
          rcases e2.rest hr with h | h
          · rw [h]; exact Or.inr hcase.2
          · exact Or.inr h
        · intro hle
          have h5 : phi g cap src st' ≤ phi g cap src st1 := e2.le (by show ∀ v, st1.dist v ≤ _; rw [h3.dist]; exact hle)
          have := (hphi hle).1
          omega
        · intro hle hr _
          have h5 : phi g cap src st' < phi g cap src st1 :=
            e2.lt (by show ∀ v, st1.dist v ≤ _; rw [h3.dist]; exact hle) hr hcase.2
          have := (hphi hle).1
          omega
        · intro _ hz; omega
        · right
          rcases e3 with ⟨_, e3⟩ | e3
          · exact ⟨true, n, e3, hn⟩
          · exact e3
      · rw [if_neg hcase]
        refine ⟨false, some (true, n), _, rfl, ⟨hI2, h3.dist, ?_, hq2, hadm, by simp, by simp, ?_, ?_, ?_,
          fun h => q4 (by rw [h3.q]; exact h), hfull, by simp, fun h => absurd h1.1 (h n (by simp))⟩,
          Or.inr ⟨true, n, rfl, hn⟩⟩
        · intro v v1 v2 v3
          exact (hact v v1 v2 v3).imp id fun h => ⟨h.1, by rw [h.2]⟩
        · exact fun hle => (hphi hle).1
        · exact fun hle _ hpos => (hphi hle).2 hpos
        · intro _ hz
          have : a = 0 := by omega
          refine ⟨funext fun v => ?_, n, rfl, h1.1, ?_⟩
          · show st1.excess v = _
            rw [h3.exc, this]; simp
          · intro v hv
            rcases q1 v hv with hv | hv
            · left; rw [← h3.q]; exact hv
            · exact Or.inr hv.1

/-! ## Gaps between labels -/

theorem gap_finset (V : List N) (f : N → Int) : ∀ T : Finset Int, V.length < T.card → ∃ L ∈ T, ∀ v ∈ V, f v ≠ L := by
  induction V with
  | nil =>
    intro T hT
    obtain ⟨L, hL⟩ := Finset.card_pos.1 (by simpa using hT)
    exact ⟨L, hL, by simp⟩
  | cons a V ih =>
    intro T hT
    obtain ⟨L, hL, h⟩ := ih (T.erase (f a)) (by
      have := Finset.pred_card_le_card_erase (s := T) (a := f a)
      simp only [List.length_cons] at hT
      omega)
    rw [Finset.mem_erase] at hL
    refine ⟨L, hL.2, ?_⟩
    intro v hv
    rcases List.mem_cons.1 hv with rfl | hv
    · exact Ne.symm hL.1
    · exact h v hv

/-- among one more value than there are nodes one is not a label -/
theorem gap (V : List N) (f : N → Int) (a : Int) : ∃ L, a ≤ L ∧ L ≤ a + V.length ∧ ∀ v ∈ V, f v ≠ L := by
  obtain ⟨L, hL, h⟩ := gap_finset V f ((Finset.range (V.length + 1)).image fun k : Nat => a + k) (by
    rw [Finset.card_image_of_injective _ (fun x y h => by simpa using h), Finset.card_range]; omega)
  obtain ⟨k, hk, rfl⟩ := Finset.mem_image.1 hL
  have := Finset.mem_range.1 hk
  exact ⟨a + k, by omega, by omega, h⟩

/-- a node with excess can send it back, so its label is bounded -/
theorem dist_le (hwf : g.Wf) (hanti : ∀ u v, (u, v) ∈ g.getEdgeList → (v, u) ∉ g.getEdgeList) {st : PState N Q}
    (hI : PInv g cap items src sink st) (hF : ∀ u v, Use g cap st.flow u v → st.dist u ≤ st.dist v + 1)
    (hsn : src ∈ g.getNodeList) {v : N} (hv : v ∈ g.getNodeList) (hvs : v ≠ src) (hpos : 0 < st.excess v) :
    st.dist v < 2 * g.getNodeList.length := by
  by_contra hcon
  obtain ⟨L, h1, h2, h3⟩ := gap g.getNodeList st.dist g.getNodeList.length
  have hL1 := h3 src hsn
  have hL2 := h3 v hv
  rw [hI.dsrc] at hL1
  have hsum := potential_sum (E := g.getEdgeList) st.flow (V := g.getNodeList) hwf.nodup
    (fun e he => hwf.endp e.1 e.2 he) fun u => if st.dist u > L then 1 else 0
  have hle : (g.getEdgeList.map fun e => st.flow e *
      ((if st.dist e.2 > L then (1 : Int) else 0) - (if st.dist e.1 > L then 1 else 0))).sum ≤ 0 := by
    refine (List.sum_le_sum (g := fun _ => 0) ?_).trans (by simp)
    rintro ⟨u, w⟩ he
    replace he : (u, w) ∈ g.getEdgeList := he
    have hw := hI.within _ he
    simp only []
    by_cases ha : st.dist w > L <;> by_cases hb : st.dist u > L
    · simp [ha, hb]
    · have : st.flow (u, w) = 0 := by
        by_contra hne
        have hU : Use g cap st.flow w u := ⟨Or.inr he, by
          unfold MaxFlow.pot; rw [if_neg (hanti _ _ he)]; omega⟩
        have := hF w u hU
        have := h3 u (hwf.endp _ _ he).1
        omega
      simp [this]
    · simp [ha, hb]; exact hw.1
    · simp [ha, hb]
  have hge : 0 < (g.getNodeList.map fun u => (if st.dist u > L then (1 : Int) else 0) * GiMPy.net g.getEdgeList st.flow u).sum := by
    have hnn : ∀ x ∈ g.getNodeList.map fun u => (if st.dist u > L then (1 : Int) else 0) * GiMPy.net g.getEdgeList st.flow u,
        0 ≤ x := by
      intro x hx
      obtain ⟨u, _, rfl⟩ := List.mem_map.1 hx
      split
      · next h =>
        rw [← hI.net, one_mul]
        refine hI.pos u ?_
        rintro rfl
        rw [hI.dsrc] at h; omega
      · simp
    have hmem : GiMPy.net g.getEdgeList st.flow v ∈
        g.getNodeList.map fun u => (if st.dist u > L then (1 : Int) else 0) * GiMPy.net g.getEdgeList st.flow u := by
      refine List.mem_map.2 ⟨v, hv, ?_⟩
      rw [if_pos (by omega), one_mul]
    have := List.single_le_sum hnn _ hmem
    rw [← hI.net] at this
    omega
  omega

/-- without active nodes the flow is maximum -/
theorem max_of_inv (hwf : g.Wf) (hanti : ∀ u v, (u, v) ∈ g.getEdgeList → (v, u) ∉ g.getEdgeList) {st : PState N Q}
    (hI : PInv g cap items src sink st) (hA : Active items src sink (fun _ => False) st) (hq : items st.q = [])
    (hsn : src ∈ g.getNodeList) (htn : sink ∈ g.getNodeList) (hst : src ≠ sink) :
    IsMaxFlow g.getEdgeList cap src sink st.flow := by
  obtain ⟨L, h1, h2, h3⟩ := gap g.getNodeList (fun v => min (st.dist v) g.getNodeList.length) 0
  have hL1 := h3 src hsn
  have hL2 := h3 sink htn
  simp only [hI.dsrc, hI.dsink] at hL1 hL2
  refine maxFlow_of_cut (E := g.getEdgeList) (V := g.getNodeList) hwf.nodup (fun e he => hwf.endp e.1 e.2 he) htn ⟨hI.within, ?_⟩
    (fun v => min (st.dist v) g.getNodeList.length > L) ?_ ?_ ?_ ?_
  · intro v v1 v2
    have := hI.pos v v1
    rw [← hI.net]
    by_contra hne
    have := (hA v v1 v2 (by omega)).resolve_right id
    rw [hq] at this; cases this
  · simp only [hI.dsrc]; omega
  · simp only [hI.dsink]; omega
  · rintro ⟨u, v⟩ he hu hv
    have hw := hI.within _ he
    by_contra hne
    have hU : Use g cap st.flow u v := ⟨Or.inl he, by unfold MaxFlow.pot; rw [if_pos he]; omega⟩
    have a := hI.valid u v hU
    have b := h3 v (hwf.endp _ _ he).2
    simp only [] at b hu hv
    omega
  · rintro ⟨u, v⟩ he hu hv
    have hw := hI.within _ he
    by_contra hne
    have hU : Use g cap st.flow v u := ⟨Or.inr he, by unfold MaxFlow.pot; rw [if_neg (hanti _ _ he)]; omega⟩
    have a := hI.valid v u hU
    have b := h3 u (hwf.endp _ _ he).1
    simp only [] at b hu hv
    omega

/-! ## One round of the loop -/

theorem enq_ok (hs : LawfulSet O items has) (q : Q) (x : N) (p : Int) :
    (∀ v, v ∈ items (enq O algo q x p) ↔ v = x ∨ v ∈ items q) ∧
    ((items q).Nodup → x ∉ items q → (items (enq O algo q x p)).Nodup) := by
  unfold enq
  cases algo
  · exact ⟨fun v => hs.mem_push _ _ _, hs.nodup_push _ _⟩
  · exact ⟨fun v => hs.mem_push _ _ _, hs.nodup_push _ _⟩
  · exact ⟨fun v => hs.mem_pushP _ _ _ _, hs.nodup_pushP _ _ _⟩

theorem PInv.queue {st : PState N Q} (hI : PInv g cap items src sink st) {q' : Q}
    (h : ∀ v ∈ items q', v ≠ src ∧ ∃ w, Adj g v w) : PInv g cap items src sink { st with q := q' } :=
  ⟨hI.within, hI.net, hI.pos, h, hI.dsrc, hI.dsink, hI.d0, hI.valid⟩

theorem finish_ok (hs : LawfulSet O items has) (b : Bool) (n : N) (st : PState N Q) :
    ∃ q', finish O has algo src (some (b, n)) st = .ok { st with q := q' } ∧
      (∀ v ∈ items q', v ∈ items st.q ∨ (v = n ∧ b = true ∧ algo ≠ .fifo ∧ n ≠ src)) ∧
      (∀ v ∈ items st.q, v ∈ items q') ∧ (algo ≠ .fifo → b = true → n ≠ src → n ∈ items q') ∧
      ((items st.q).Nodup → (items q').Nodup) := by
  unfold finish
  simp only []
  by_cases h : b = true ∧ has st.q n = false ∧ n ≠ src ∧ algo ≠ .fifo
  · rw [if_pos h]
    obtain ⟨e1, e2⟩ := enq_ok (algo := algo) hs st.q n (-st.dist n)
    have hn : n ∉ items st.q := fun h' => by rw [(hs.has_iff _ n).2 h'] at h; simp at h
    refine ⟨_, rfl, ?_, fun v hv => (e1 v).2 (Or.inr hv), fun _ _ _ => (e1 n).2 (Or.inl rfl), fun h' => e2 h' hn⟩
    intro v hv
    rcases (e1 v).1 hv with rfl | hv
    · exact Or.inr ⟨rfl, h.1, h.2.2.2, h.2.2.1⟩
    · exact Or.inl hv
  · rw [if_neg h]
    refine ⟨st.q, rfl, fun v hv => Or.inl hv, fun v hv => hv, fun h1 h2 h3 => ?_, id⟩
    by_contra h4
    exact h ⟨h2, by rw [← Bool.not_eq_true, hs.has_iff]; exact h4, h3, h1⟩

/-- the part of the round after the loop over the neighbours -/
theorem settle_ok (hwf : g.Wf) (hd : g.directed = true) (hs : LawfulSet O items has) (hc : HasCaps g cap)
    (hanti : ∀ u v, (u, v) ∈ g.getEdgeList → (v, u) ∉ g.getEdgeList) {cur : N} (hcur : cur ≠ src) (hct : cur ≠ sink)
    (rel : Bool) {st : PState N Q} (hI : PInv g cap items src sink st) (hq : cur ∈ items st.q) :
    ∃ st', settle g O algo cur rel { st with q := O.remove st.q cur } = .ok st' ∧ PInv g cap items src sink st' ∧
      st'.flow = st.flow ∧ st'.excess = st.excess ∧ (∀ v, v ≠ cur → (v ∈ items st'.q ↔ v ∈ items st.q)) ∧
      (0 < st.excess cur → cur ∈ items st'.q) ∧
      ((items st.q).Nodup → (items st'.q).Nodup ∧ (st.excess cur = 0 → cur ∉ items st'.q)) ∧
      (rel = false → st'.dist = st.dist) ∧
      (rel = true → ∃ m, st'.dist = upd st.dist cur (m + 1) ∧ m ≤ 2 * g.getNodeList.length + 1 ∧
        (∀ j, Use g cap st.flow cur j → m ≤ st.dist j) ∧
        (m = 2 * g.getNodeList.length + 1 ∨ ∃ j, Use g cap st.flow cur j ∧ m = st.dist j)) := by
  have hnode : cur ∈ g.getNodeList := (Adj.node hwf (hI.node cur hq).2.choose_spec).1
  have hsub : ∀ v ∈ items (O.remove st.q cur), v ∈ items st.q := by
    intro v hv
    by_cases hvc : v = cur
    · rw [hvc]; exact hq
    · exact (hs.mem_remove _ _ hq v hvc).1 hv
  have hI1 : PInv g cap items src sink { st with q := O.remove st.q cur } := hI.queue fun v hv => hI.node v (hsub v hv)
  -- the state after relabelling
  obtain ⟨d, hd1, hd2, hd3, hd4⟩ : ∃ d : N → Int,
      (if rel then relabel g { st with q := O.remove st.q cur } cur else .ok { st with q := O.remove st.q cur }) =
        .ok { st with q := O.remove st.q cur, dist := d } ∧
      PInv g cap items src sink { st with q := O.remove st.q cur, dist := d } ∧ (rel = false → d = st.dist) ∧
      (rel = true → ∃ m, d = upd st.dist cur (m + 1) ∧ m ≤ 2 * g.getNodeList.length + 1 ∧
        (∀ j, Use g cap st.flow cur j → m ≤ st.dist j) ∧
        (m = 2 * g.getNodeList.length + 1 ∨ ∃ j, Use g cap st.flow cur j ∧ m = st.dist j)) := by
    cases rel with
    | false => exact ⟨st.dist, rfl, hI1, fun _ => rfl, by simp⟩
    | true =>
      obtain ⟨m, a1, a2, a3, a4⟩ := relabel_ok hwf hd hc hanti { st with q := O.remove st.q cur } hnode
      refine ⟨upd st.dist cur (m + 1), ?_, relabel_inv hI1 hcur hct a3 a4, by simp, fun _ => ⟨m, rfl, a2, a3, a4⟩⟩
      rw [if_pos rfl, a1]
  unfold settle
  rw [hd1]
  simp only []
  by_cases hpos : st.excess cur > 0
  · rw [if_pos hpos]
    obtain ⟨e1, e2⟩ := enq_ok (algo := algo) hs (O.remove st.q cur) cur (-d cur)
    refine ⟨_, rfl, hd2.queue ?_, rfl, rfl, ?_, fun _ => (e1 cur).2 (Or.inl rfl), ?_, hd3, hd4⟩
    · intro v hv
      rcases (e1 v).1 hv with rfl | hv
      · exact hI.node v hq
      · exact hI.node v (hsub v hv)
    · intro v hv
      rw [e1]
      simp only [hv, false_or]
      exact hs.mem_remove _ _ hq v hv
    · intro hnd
      obtain ⟨h1, h2⟩ := hs.nodup_remove _ _ hnd hq
      exact ⟨e2 h1 h2, fun h => by omega⟩
  · rw [if_neg hpos]
    refine ⟨_, rfl, hd2, rfl, rfl, fun v hv => hs.mem_remove _ _ hq v hv, fun h => absurd h hpos, ?_, hd3, hd4⟩
    intro hnd
    obtain ⟨h1, h2⟩ := hs.nodup_remove _ _ hnd hq
    exact ⟨h1, fun _ => h2⟩

/-- measure of the labels -/
def lab (g : Graph N) (st : PState N Q) : Int := (g.getNodeList.map fun v => 2 * g.getNodeList.length + 2 - st.dist v).sum

/-- measure of the queue -/
def wait (g : Graph N) (items : Q → List N) (st : PState N Q) : Int :=
  (g.getNodeList.map fun v => if v ∈ items st.q then st.dist v + 1 else 0).sum

/-- progress: labels first, then pushes, then the queue -/
def Less (g : Graph N) (cap : N × N → Int) (items : Q → List N) (src : N) (st' st : PState N Q) : Prop :=
  lab g st' < lab g st ∨ (lab g st' ≤ lab g st ∧ phi g cap src st' < phi g cap src st) ∨
    (lab g st' ≤ lab g st ∧ phi g cap src st' ≤ phi g cap src st ∧ wait g items st' < wait g items st)

theorem lab_upd (hwf : g.Wf) {st st' : PState N Q} {i : N} (hi : i ∈ g.getNodeList) {x : Int}
    (h : st'.dist = upd st.dist i x) : lab g st' = lab g st - (x - st.dist i) := by
  have e : (g.getNodeList.map fun v => 2 * (g.getNodeList.length : Int) + 2 - st'.dist v) =
      g.getNodeList.map fun v => (2 * (g.getNodeList.length : Int) + 2 - st.dist v) - (if i = v then x - st.dist i else 0) := by
    refine List.map_congr_left fun v _ => ?_
    rw [h]
    unfold upd
    by_cases hv : v = i
    · subst hv; rw [if_pos rfl, if_pos rfl]; ring
    · rw [if_neg hv, if_neg (Ne.symm hv)]; ring
  unfold lab
  rw [e, sum_map_sub', sum_single _ _ (V := g.getNodeList) hwf.nodup, if_pos hi]

theorem lab_same {st st' : PState N Q} (h : st'.dist = st.dist) : lab g st' = lab g st := by
  unfold lab; rw [h]

theorem phi_same {st st' : PState N Q} (h1 : st'.excess = st.excess) (h2 : st'.dist = st.dist) (h3 : st'.flow = st.flow) :
    phi g cap src st' = phi g cap src st := by
  unfold phi open_ act
  rw [h1, h2, h3]

/-- `cur` leaves the queue, a lower node `n` may enter it -/
theorem wait_lt (hwf : g.Wf) {st st' : PState N Q} {cur : N} (hcur : cur ∈ items st.q) (hcn : cur ∈ g.getNodeList)
    (hd0 : ∀ v, 0 ≤ st.dist v) (hout : cur ∉ items st'.q) (hd : ∀ v, v ≠ cur → st'.dist v = st.dist v) {P : Prop} {n : N}
    (hP : P → st.dist cur = st.dist n + 1) (h : ∀ v ∈ items st'.q, v ∈ items st.q ∨ (P ∧ v = n)) :
    wait g items st' < wait g items st := by
  classical
  unfold wait
  have e : (g.getNodeList.map fun v => if v ∈ items st'.q then st'.dist v + 1 else 0).sum ≤
      (g.getNodeList.map fun v => ((if v ∈ items st.q then st.dist v + 1 else 0) +
        (if n = v then (if P then st.dist n + 1 else 0) else 0)) - (if cur = v then st.dist cur + 1 else 0)).sum := by
    refine List.sum_le_sum fun v _ => ?_
    have h0 := hd0 v
    by_cases hv : v = cur
    · subst hv; rw [if_neg hout, if_pos hcur, if_pos rfl]
      have := hd0 n
      split
      · split <;> omega
      · omega
    · rw [if_neg (Ne.symm hv), hd v hv]
      by_cases hvq : v ∈ items st'.q
      · rw [if_pos hvq]
        rcases h v hvq with h1 | ⟨h1, rfl⟩
        · rw [if_pos h1]
          have := hd0 n
          split
          · split <;> omega
          · omega
        · rw [if_pos rfl, if_pos h1]
          split <;> omega
      · rw [if_neg hvq]
        have := hd0 n
        split <;> split
        · split <;> omega
        · omega
        · split <;> omega
        · omega
  rw [sum_map_sub', List.sum_map_add, sum_single _ _ (V := g.getNodeList) hwf.nodup,
    sum_single _ _ (V := g.getNodeList) hwf.nodup, if_pos hcn] at e
  have h1 := hd0 cur
  by_cases hp : P
  · have := hP hp
    rw [if_pos hp] at e
    split at e <;> omega
  · rw [if_neg hp] at e
    split at e <;> omega

theorem step_ok (hwf : g.Wf) (hd : g.directed = true) (hs : LawfulSet O items has) (hc : HasCaps g cap)
    (hanti : ∀ u v, (u, v) ∈ g.getEdgeList → (v, u) ∉ g.getEdgeList) (hsn : src ∈ g.getNodeList)
    {cur : N} (last : Option (Bool × N)) {st : PState N Q} (hI : PInv g cap items src sink st)
    (hA : Active items src sink (fun _ => False) st) (hq : cur ∈ items st.q) :
    ∃ last' st', step g O has algo src sink cur last st = .ok (last', st') ∧ PInv g cap items src sink st' ∧
      Active items src sink (fun _ => False) st' ∧
      (Full g cap items st → Full g cap items st' ∧ Less g cap items src st' st) := by
  obtain ⟨hcs, w, hw⟩ := hI.node cur hq
  have hcn := (Adj.node hwf hw).1
  obtain ⟨out, inn, h1, h2, h3, h4⟩ := nbrs_edges hwf hd hcn
  have hadj : ∀ m, m ∈ out ++ inn ↔ Adj g cur m := by
    intro m; rw [List.mem_append, h3, h4]; rfl
  have hne : out ++ inn ≠ [] := by
    intro h
    have := (hadj w).2 hw
    rw [h] at this; cases this
  obtain ⟨rel, last', s1, e1, e2, e3⟩ := forNbrs_ok (O := O) (algo := algo) (sink := sink) hwf hs hc hanti hcs (out ++ inn)
    last st (fun m hm => (hadj m).1 hm) hI hA hq
  obtain ⟨b, n, rfl, hn⟩ := e3.resolve_left fun h => hne h.1
  have hnn := (Adj.node hwf hn).2
  have hcne := ne_of_adj hanti hn
  unfold step
  rw [h1]; simp only []
  rw [h2]; simp only []
  rw [e1]; simp only []
  by_cases hct : cur = sink
  · -- the sink has label 0 and cannot push
    rw [if_pos hct]
    simp only []
    obtain ⟨hr, rfl⟩ := e2.idle (by
      intro m _
      rw [hct, hI.dsink]
      have := hI.d0 m
      omega)
    have hsub : ∀ v ∈ items (O.remove s1.q cur), v ∈ items s1.q := by
      intro v hv
      by_cases hvc : v = cur
      · rw [hvc]; exact hq
      · exact (hs.mem_remove _ _ hq v hvc).1 hv
    obtain ⟨q', f1, f2, f3, f4, f5⟩ := finish_ok (algo := algo) (src := src) hs b n { s1 with q := O.remove s1.q cur }
    rw [f1]
    simp only []
    have f2' : ∀ v ∈ items q', v ∈ items (O.remove s1.q cur) := by
      intro v hv
      refine (f2 v hv).resolve_right fun h => ?_
      obtain ⟨n', h'⟩ := e2.flag h.2.2.1 hr hne
      rw [h.2.1] at h'; simp at h'
    refine ⟨_, _, rfl, hI.queue fun v hv => hI.node v (hsub v (f2' v hv)), ?_, ?_⟩
    · intro v v1 v2 v3
      left
      refine f3 v ?_
      refine (hs.mem_remove _ _ hq v (by rw [hct]; exact v2)).2 ?_
      exact (hA v v1 v2 v3).resolve_right id
    · intro hF
      obtain ⟨g1, g2⟩ := hs.nodup_remove _ _ hF.nodup hq
      refine ⟨⟨hF.valid, hF.le, f5 g1⟩, Or.inr (Or.inr ⟨Int.le_refl _, Int.le_refl _, ?_⟩)⟩
      exact wait_lt (P := False) (n := cur) hwf hq hcn hI.d0 (fun h => g2 (f2' _ h)) (fun _ _ => rfl) False.elim
        fun v hv => Or.inl (hsub v (f2' v hv))
  · rw [if_neg hct]
    obtain ⟨s2, k1, k2, k3, k4, k5, k6, k7, k8, k9⟩ := settle_ok (algo := algo) (O := O) hwf hd hs hc hanti hcs hct rel
      e2.inv e2.mem
    rw [k1]
    simp only []
    obtain ⟨q', f1, f2, f3, f4, f5⟩ := finish_ok (algo := algo) (src := src) hs b n s2
    rw [f1]
    simp only []
    refine ⟨_, _, rfl, k2.queue ?_, ?_, ?_⟩
    · intro v hv
      rcases f2 v hv with hv | ⟨rfl, _, _, hv⟩
      · exact k2.node v hv
      · exact ⟨hv, cur, hn.symm⟩
    · intro v v1 v2 v3
      left
      have v3' : 0 < s1.excess v := by rw [← k4]; exact v3
      by_cases hvc : v = cur
      · subst hvc; exact f3 _ (k6 v3')
      · rcases e2.active v v1 v2 v3' with h | ⟨h, h'⟩
        · exact f3 v ((k5 v hvc).2 h)
        · simp only [Option.some.injEq, Prod.mk.injEq] at h'
          obtain ⟨rfl, rfl⟩ := h'
          exact f4 h rfl v1
    · intro hF
      have hfull1 := e2.full hF.valid
      obtain ⟨k7a, k7b⟩ := k7 (e2.nodup hF.nodup)
      cases rel with
      | false =>
        have hdist : s2.dist = st.dist := (k8 rfl).trans e2.dist
        refine ⟨⟨?_, ?_, f5 k7a⟩, ?_⟩
        · show ∀ u v, Use g cap s2.flow u v → s2.dist u ≤ s2.dist v + 1
          rw [k3, k8 rfl]; exact hfull1
        · intro v; show s2.dist v ≤ _
          rw [hdist]; exact hF.le v
        · right
          have hlab : lab g ({ s2 with q := q' } : PState N Q) ≤ lab g st := Int.le_of_eq (lab_same hdist)
          have hphi : phi g cap src ({ s2 with q := q' } : PState N Q) = phi g cap src s1 := phi_same k4 (k8 rfl) k3
          rcases Int.lt_or_eq_of_le (hI.pos cur hcs) with h0 | h0
          · left
            exact ⟨hlab, by rw [hphi]; exact e2.lt hF.le rfl h0⟩
          · right
            obtain ⟨z1, n', z2, z3, z4⟩ := e2.zero rfl h0.symm
            simp only [Option.some.injEq, Prod.mk.injEq] at z2
            obtain ⟨rfl, rfl⟩ := z2
            have h10 : s1.excess cur = 0 := by rw [z1]; exact h0.symm
            have hout : cur ∉ items q' := by
              intro h
              rcases f2 cur h with h | h
              · exact k7b h10 h
              · exact hcne h.1
            refine ⟨hlab, by rw [hphi]; exact e2.le hF.le, ?_⟩
            refine wait_lt (P := True) (n := n) hwf hq hcn hI.d0 hout (fun v _ => by show s2.dist v = _; rw [hdist])
              (fun _ => z3) ?_
            intro v hv
            rcases f2 v hv with h | h
            · have hvc : v ≠ cur := fun h' => hout (h' ▸ hv)
              rcases z4 v ((k5 v hvc).1 h) with h | h
              · exact Or.inl h
              · exact Or.inr ⟨trivial, h⟩
            · exact Or.inr ⟨trivial, h.1⟩
      | true =>
        obtain ⟨m, m1, m2, m3, m4⟩ := k9 rfl
        have hnadm := e2.none rfl
        have hlow : ∀ j, Use g cap s1.flow cur j → s1.dist cur ≤ s1.dist j := by
          intro j hj
          have h5 := hfull1 cur j hj
          have h6 := hnadm j ((hadj j).2 hj.1)
          have h7 : s1.dist cur ≠ s1.dist j + 1 := fun h => h6 ⟨h, hj.2⟩
          omega
        have hle1 : ∀ v, s1.dist v ≤ 2 * g.getNodeList.length + 2 := by rw [e2.dist]; exact hF.le
        have hmono : s1.dist cur ≤ m + 1 := by
          have := hle1 cur
          rcases m4 with m4 | ⟨j, hj, m4⟩
          · omega
          · have := hlow j hj; omega
        refine ⟨⟨?_, ?_, f5 k7a⟩, ?_⟩
        · show ∀ u v, Use g cap s2.flow u v → s2.dist u ≤ s2.dist v + 1
          rw [k3, m1]
          clear m4
          intro u v hU
          have h5 := hfull1 u v hU
          unfold upd
          by_cases hu : u = cur
          · subst hu
            rw [if_pos rfl]
            have := m3 v hU
            split <;> omega
          · rw [if_neg hu]
            split
            · next h => subst h; omega
            · exact h5
        · intro v; show s2.dist v ≤ _
          rw [m1]
          unfold upd
          have := hle1 v
          clear m4
          split <;> omega
        · have hlab := lab_upd (st := s1) (st' := ({ s2 with q := q' } : PState N Q)) hwf hcn m1
          rw [lab_same (g := g) e2.dist] at hlab
          by_cases h0 : 0 < s1.excess cur
          · left
            have h5 := dist_le hwf hanti e2.inv hfull1 hsn hcn hcs h0
            have h6 : s1.dist cur < m + 1 := by
              rcases m4 with m4 | ⟨j, hj, m4⟩
              · omega
              · have := hlow j hj; omega
            clear m4
            omega
          · rcases Int.lt_or_eq_of_le hmono with hrise | hkeep
            · left; clear m4; omega
            right; right
            have hdk : s2.dist = s1.dist := by
              rw [m1, ← hkeep]
              funext v; unfold upd
              split
              · next h => rw [h]
              · rfl
            rcases e2.rest rfl with rfl | h
            · have h00 : s1.excess cur = 0 := by have := hI.pos cur hcs; omega
              have hnopush : b = true → algo ≠ .fifo → False := by
                intro hb hal
                obtain ⟨n', h'⟩ := e2.flag hal rfl hne
                rw [hb] at h'; simp at h'
              have f2' : ∀ v ∈ items q', v ∈ items s2.q := fun v hv => (f2 v hv).resolve_right fun h => hnopush h.2.1 h.2.2.1
              have hout : cur ∉ items q' := fun h => k7b h00 (f2' _ h)
              refine ⟨by clear m4; omega, ?_, ?_⟩
              · exact Int.le_of_eq (phi_same k4 hdk k3)
              · refine wait_lt (P := False) (n := cur) hwf hq hcn hI.d0 hout (fun v hv => ?_) False.elim fun v hv => ?_
                · show s2.dist v = _
                  rw [m1]; unfold upd; rw [if_neg hv]
                · left
                  have hvc : v ≠ cur := fun h' => hout (h' ▸ hv)
                  exact (k5 v hvc).1 (f2' v hv)
            · exact absurd h h0

/-! ## The loop -/

/-- bound for `phi` -/
def phiMax (g : Graph N) : Int :=
  (2 * g.getNodeList.length + 3) * g.getEdgeList.length + g.getNodeList.length * (2 * g.getNodeList.length + 2)

/-- bound for `wait` -/
def waitMax (g : Graph N) : Int := g.getNodeList.length * (2 * g.getNodeList.length + 3)

/-- the three measures in one number -/
def measure (g : Graph N) (cap : N × N → Int) (items : Q → List N) (src : N) (st : PState N Q) : Int :=
  (lab g st * (phiMax g + 1) + phi g cap src st) * (waitMax g + 1) + wait g items st

theorem sum_bounds {A : Type} {V : List A} {f : A → Int} {b : Int} (h : ∀ v ∈ V, 0 ≤ f v ∧ f v ≤ b) :
    0 ≤ (V.map f).sum ∧ (V.map f).sum ≤ V.length * b := by
  induction V with
  | nil => simp
  | cons a V ih =>
    have h1 := h a (by simp)
    have h2 := ih fun v hv => h v (by simp [hv])
    simp only [List.map_cons, List.sum_cons, List.length_cons, Nat.cast_add, Nat.cast_one]
    rw [add_mul]
    omega

theorem bounds {st : PState N Q} (hI : PInv g cap items src sink st) (hF : Full g cap items st) :
    0 ≤ lab g st ∧ lab g st ≤ g.getNodeList.length * (2 * g.getNodeList.length + 2) ∧
    0 ≤ phi g cap src st ∧ phi g cap src st ≤ phiMax g ∧ 0 ≤ wait g items st ∧ wait g items st ≤ waitMax g := by
  have h1 := sum_bounds (V := g.getNodeList) (f := fun v => 2 * (g.getNodeList.length : Int) + 2 - st.dist v)
    (b := 2 * g.getNodeList.length + 2) fun v _ => by have := hF.le v; have := hI.d0 v; constructor <;> omega
  have h2 := sum_bounds (V := g.getNodeList) (f := fun v => if v ∈ items st.q then st.dist v + 1 else 0)
    (b := 2 * g.getNodeList.length + 3) fun v _ => by
      have := hF.le v; have := hI.d0 v; constructor <;> (split <;> omega)
  have h3 := sum_bounds (V := g.getNodeList) (f := fun v => if v ≠ src ∧ 0 < st.excess v then st.dist v else 0)
    (b := 2 * g.getNodeList.length + 2) fun v _ => by
      have := hF.le v; have := hI.d0 v; constructor <;> (split <;> omega)
  have h4 := sum_bounds (V := g.getEdgeList) (f := fun e =>
    if (st.dist e.1 = st.dist e.2 + 1 ∧ 0 < MaxFlow.pot g cap st.flow e.1 e.2) ∨
      (st.dist e.2 = st.dist e.1 + 1 ∧ 0 < MaxFlow.pot g cap st.flow e.2 e.1) then 1 else 0)
    (b := 1) fun v _ => by constructor <;> (split <;> omega)
  have h5 := Int.mul_le_mul_of_nonneg_left h4.2 (show (0 : Int) ≤ 2 * g.getNodeList.length + 3 by omega)
  have h6 := Int.mul_nonneg (show (0 : Int) ≤ 2 * g.getNodeList.length + 3 by omega) h4.1
  rw [mul_one] at h5
  exact ⟨h1.1, h1.2, Int.add_nonneg h6 h3.1, Int.add_le_add h5 h3.2, h2.1, h2.2⟩

theorem lex_lt {R P W R' P' W' B C : Int} (hP : 0 ≤ P) (hW : 0 ≤ W) (hP' : P' ≤ B) (hW' : W' ≤ C) (hB : 0 ≤ B) (hC : 0 ≤ C)
    (h : R' < R ∨ (R' ≤ R ∧ P' < P) ∨ (R' ≤ R ∧ P' ≤ P ∧ W' < W)) :
    (R' * (B + 1) + P') * (C + 1) + W' < (R * (B + 1) + P) * (C + 1) + W := by
  have hB1 : 0 ≤ B + 1 := by omega
  have hC1 : 0 ≤ C + 1 := by omega
  have key : ∀ X X' : Int, X' + 1 ≤ X → X' * (C + 1) + W' < X * (C + 1) + W := by
    intro X X' hX
    have := Int.mul_le_mul_of_nonneg_right hX hC1
    rw [add_mul] at this
    omega
  rcases h with h | ⟨h1, h2⟩ | ⟨h1, h2, h3⟩
  · refine key _ _ ?_
    have := Int.mul_le_mul_of_nonneg_right (show R' + 1 ≤ R from h) hB1
    rw [add_mul] at this
    omega
  · refine key _ _ ?_
    have := Int.mul_le_mul_of_nonneg_right h1 hB1
    omega
  · have := Int.mul_le_mul_of_nonneg_right h1 hB1
    have := Int.mul_le_mul_of_nonneg_right (show R' * (B + 1) + P' ≤ R * (B + 1) + P by omega) hC1
    omega

theorem loop_ok (hwf : g.Wf) (hd : g.directed = true) (hs : LawfulSet O items has) (hc : HasCaps g cap)
    (hanti : ∀ u v, (u, v) ∈ g.getEdgeList → (v, u) ∉ g.getEdgeList) (hsn : src ∈ g.getNodeList)
    (k : Nat) : ∀ (last : Option (Bool × N)) (st : PState N Q),
    PInv g cap items src sink st → Active items src sink (fun _ => False) st →
    (loop g O has algo src sink k last st = .error .diverge ∧
      (Full g cap items st → k ≤ measure g cap items src st)) ∨
    ∃ st', loop g O has algo src sink k last st = .ok st' ∧ PInv g cap items src sink st' ∧
      Active items src sink (fun _ => False) st' ∧ items st'.q = [] := by
  have hB : 0 ≤ phiMax g :=
    Int.add_nonneg (Int.mul_nonneg (by omega) (by omega)) (Int.mul_nonneg (by omega) (by omega))
  have hC : 0 ≤ waitMax g := Int.mul_nonneg (by omega) (by omega)
  have hnn : ∀ st : PState N Q, PInv g cap items src sink st → Full g cap items st → 0 ≤ measure g cap items src st := by
    intro st hI hF
    obtain ⟨b1, _, b3, _, b5, _⟩ := bounds hI hF
    unfold measure
    have := Int.mul_nonneg b1 (show 0 ≤ phiMax g + 1 by omega)
    have := Int.mul_nonneg (show 0 ≤ lab g st * (phiMax g + 1) + phi g cap src st by omega) (show 0 ≤ waitMax g + 1 by omega)
    omega
  induction k with
  | zero =>
    intro last st hI _
    exact Or.inl ⟨rfl, fun hF => by simpa using hnn st hI hF⟩
  | succ k ih =>
    intro last st hI hA
    rw [loop]
    by_cases he : O.isEmpty st.q = true
    · rw [if_pos he]
      exact Or.inr ⟨st, rfl, hI, hA, (hs.isEmpty_iff _).1 he⟩
    · rw [if_neg he]
      obtain ⟨cur, hcur, hpk⟩ := hs.peek_mem st.q (fun h => he ((hs.isEmpty_iff _).2 h))
      rw [hpk]
      simp only []
      obtain ⟨last', st', h1, h2, h3, h4⟩ := step_ok (algo := algo) hwf hd hs hc hanti hsn last hI hA hcur
      rw [h1]
      simp only []
      rcases ih last' st' h2 h3 with ⟨a, b⟩ | h
      · refine Or.inl ⟨a, fun hF => ?_⟩
        obtain ⟨hF', hL⟩ := h4 hF
        have := b hF'
        obtain ⟨_, _, c3, _, c5, _⟩ := bounds hI hF
        obtain ⟨_, _, _, d4, _, d6⟩ := bounds h2 hF'
        have : measure g cap items src st' < measure g cap items src st := lex_lt c3 c5 d4 d6 hB hC hL
        push_cast
        omega
      · exact Or.inr h

/-! ## The start -/

theorem out_nodup (hwf : g.Wf) (hd : g.directed = true) {u : N} {l : List N} (h : g.getNeighbors u = .ok l) : l.Nodup := by
  rw [List.nodup_iff_count_le_one]
  intro v
  have h1 := hwf.out u v
  unfold Graph.outc Graph.ind at h1
  unfold Graph.getNeighbors at h
  rw [hd] at h1
  cases hg : g.neighbors.get? u with
  | none => rw [hg] at h; cases h
  | some l' =>
    rw [hg] at h
    cases h
    rw [hg] at h1
    simp only [Option.getD_some] at h1
    rw [h1]
    simp only [if_true, Nat.add_zero]
    split <;> omega

/-- the state after the arcs to the nodes in `done` have been saturated -/
structure SatInv (g : Graph N) (cap : N × N → Int) (items : Q → List N) (src : N) (d : N → Int) (done : List N)
    (st : PState N Q) : Prop where
  flow : ∀ e, st.flow e = if e.1 = src ∧ e.2 ∈ done then cap e else 0
  net : ∀ v, st.excess v = net g.getEdgeList st.flow v
  zero : ∀ v, v ≠ src → v ∉ done → st.excess v = 0
  pos : ∀ v, v ≠ src → 0 ≤ st.excess v
  item : ∀ v, v ∈ items st.q ↔ v ∈ done
  nodup : (items st.q).Nodup
  dist : st.dist = d

theorem saturate_ok (hwf : g.Wf) (hs : LawfulSet O items has) (hc : HasCaps g cap)
    (hpos : ∀ e ∈ g.getEdgeList, 0 ≤ cap e) {d : N → Int} : ∀ (l done : List N) (st : PState N Q),
    (∀ n ∈ l, (src, n) ∈ g.getEdgeList ∧ n ≠ src ∧ n ∉ done) → l.Nodup → SatInv g cap items src d done st →
    ∃ st', saturate g O algo src l st = .ok st' ∧ SatInv g cap items src d (l ++ done) st' := by
  intro l
  induction l with
  | nil => intro done st _ _ h; exact ⟨st, rfl, h⟩
  | cons n l ih =>
    intro done st hl hn h
    rw [List.nodup_cons] at hn
    obtain ⟨h1, h2, h3⟩ := hl n (by simp)
    rw [saturate, hc src n h1]
    simp only []
    have hpn := hpos _ h1
    obtain ⟨e1, e2⟩ := enq_ok (algo := algo) hs st.q n (-1)
    obtain ⟨st', a, b⟩ := ih (n :: done)
      ⟨enq O algo st.q n (-1), upd st.flow (src, n) (cap (src, n)),
        upd (upd st.excess n (cap (src, n))) src (upd st.excess n (cap (src, n)) src - cap (src, n)), st.dist⟩
      (fun m hm => by
        obtain ⟨m1, m2, m3⟩ := hl m (by simp [hm])
        refine ⟨m1, m2, ?_⟩
        rw [List.mem_cons, not_or]
        exact ⟨fun h => hn.1 (h ▸ hm), m3⟩) hn.2 (by
        have hz := h.zero n h2 h3
        have hf0 : st.flow (src, n) = 0 := by rw [h.flow, if_neg (fun h' => h3 h'.2)]
        have hex : ∀ v, upd (upd st.excess n (cap (src, n))) src (upd st.excess n (cap (src, n)) src - cap (src, n)) v =
            st.excess v + ((if n = v then cap (src, n) else 0) - (if src = v then cap (src, n) else 0)) := by
          intro v
          unfold upd
          by_cases v1 : v = src
          · subst v1
            rw [if_pos rfl, if_neg (Ne.symm h2), if_neg h2, if_pos rfl]; ring
          · by_cases v2 : v = n
            · subst v2
              rw [if_neg v1, if_pos rfl, if_pos rfl, if_neg (Ne.symm v1), hz]; ring
            · rw [if_neg v1, if_neg v2, if_neg (Ne.symm v1), if_neg (Ne.symm v2)]; ring
        refine ⟨?_, ?_, ?_, ?_, ?_, ?_, h.dist⟩
        · rintro ⟨u, v⟩
          show upd _ _ _ _ = _
          unfold upd
          by_cases hu : (u, v) = (src, n)
          · cases hu; simp
          · rw [if_neg hu, h.flow]
            by_cases h5 : u = src ∧ v ∈ done
            · rw [if_pos h5, if_pos ⟨h5.1, by simp [h5.2]⟩]
            · rw [if_neg h5, if_neg]
              rintro ⟨h6, h7⟩
              rcases List.mem_cons.1 h7 with h7 | h7
              · simp only [] at h6 h7
                subst h6; subst h7; exact hu rfl
              · exact h5 ⟨h6, h7⟩
        · intro v
          show upd _ _ _ _ = GiMPy.net _ (upd _ _ _) _
          rw [hex, net_upd (E := g.getEdgeList) hwf.edup _ h1, h.net, hf0]
          simp only [sub_zero]
        · intro v v1 v2
          rw [List.mem_cons, not_or] at v2
          show upd _ _ _ _ = _
          rw [hex, if_neg (Ne.symm v2.1), if_neg (Ne.symm v1), h.zero v v1 v2.2]; rfl
        · intro v v1
          show 0 ≤ upd _ _ _ _
          rw [hex, if_neg (Ne.symm v1)]
          have := h.pos v v1
          split <;> omega
        · intro v; rw [e1, h.item, List.mem_cons]
        · exact e2 h.nodup (fun h' => h3 ((h.item n).1 h')))
    refine ⟨st', a, ?_⟩
    refine ⟨?_, b.net, ?_, b.pos, ?_, b.nodup, b.dist⟩
    · intro e; rw [b.flow]
      simp only [List.mem_append, List.mem_cons, List.cons_append]
      congr 1
      apply propext
      constructor <;> rintro ⟨x, y⟩ <;> exact ⟨x, by tauto⟩
    · intro v v1 v2
      refine b.zero v v1 fun h' => v2 ?_
      simp only [List.mem_append, List.mem_cons, List.cons_append] at h' ⊢
      tauto
    · intro v; rw [b.item]
      simp only [List.mem_append, List.mem_cons, List.cons_append]
      tauto

/-- the labels at the start -/
theorem labels_ok (hwf : g.Wf) (hd : g.directed = true) {d : N → Option Int} (hsink : sink ∈ g.getNodeList)
    (hdist : ∀ v, (Reach g true sink v → ∃ k : Nat, d v = some (k : Int) ∧ IsLeastLen (Step g true) sink v k) ∧
      (¬ Reach g true sink v → d v = none)) :
    firstLabels g d sink = 0 ∧ (∀ v, 0 ≤ firstLabels g d v) ∧ (∀ v, firstLabels g d v ≤ 2 * g.getNodeList.length + 1) ∧
    (∀ u v, (u, v) ∈ g.getEdgeList → firstLabels g d u ≤ firstLabels g d v + 1) ∧
    (∀ v, Reach g true sink v → firstLabels g d v ≤ g.getNodeList.length) := by
  have hstep : ∀ u v, (u, v) ∈ g.getEdgeList → Step g true v u := by
    intro u v h
    unfold Step Graph.checkEdge
    rw [if_pos rfl, if_pos hd]
    exact (contains_edge g u v).2 h
  have hnode : ∀ v, Reach g true sink v → v ∈ g.getNodeList := by
    intro v h
    induction h with
    | refl => exact hsink
    | tail _ h _ =>
      unfold Step Graph.checkEdge at h
      rw [if_pos rfl, if_pos hd] at h
      exact (hwf.endp _ _ ((contains_edge g _ _).1 h)).1
  have hz : firstLabels g d sink = 0 := by
    obtain ⟨k, h1, h2⟩ := (hdist sink).1 .refl
    have := h2.2 0 .nil
    unfold firstLabels
    rw [h1]; simp only [Option.getD_some]; omega
  have hval : ∀ u v, Reach g true sink v → Step g true v u → firstLabels g d u ≤ firstLabels g d v + 1 := by
    intro u v hr hs
    obtain ⟨k, h1, h2⟩ := (hdist v).1 hr
    obtain ⟨k', h1', h2'⟩ := (hdist u).1 (hr.tail hs)
    have := h2'.2 (k + 1) (h2.1.snoc hs)
    unfold firstLabels
    rw [h1, h1']; simp only [Option.getD_some]; omega
  have hle : ∀ v, Reach g true sink v → firstLabels g d v ≤ g.getNodeList.length := by
    obtain ⟨L, l1, l2, l3⟩ := gap g.getNodeList (firstLabels g d) 0
    have hL := l3 sink hsink
    rw [hz] at hL
    intro v hr
    suffices firstLabels g d v < L by omega
    induction hr with
    | refl => rw [hz]; omega
    | @tail b c hb hs ih =>
      have := hval c b hb hs
      have := l3 c (hnode c (hb.tail hs))
      omega
  have h0 : ∀ v, 0 ≤ firstLabels g d v := by
    intro v
    by_cases hr : Reach g true sink v
    · obtain ⟨k, h1, _⟩ := (hdist v).1 hr
      unfold firstLabels; rw [h1]; simp
    · unfold firstLabels; rw [(hdist v).2 hr]; simp only [Option.getD_none]; omega
  have hu : ∀ v, firstLabels g d v ≤ 2 * g.getNodeList.length + 1 := by
    intro v
    by_cases hr : Reach g true sink v
    · have := hle v hr; omega
    · unfold firstLabels; rw [(hdist v).2 hr]; simp
  refine ⟨hz, h0, hu, ?_, hle⟩
  intro u v he
  by_cases hr : Reach g true sink v
  · exact hval u v hr (hstep u v he)
  · have : firstLabels g d v = 2 * g.getNodeList.length + 1 := by
      unfold firstLabels; rw [(hdist v).2 hr]; simp
    have := hu u
    omega

/-- the invariant holds when the main loop starts -/
theorem start_ok (hwf : g.Wf) (hd : g.directed = true) (hs : LawfulSet O items has) (hc : HasCaps g cap)
    (hanti : ∀ u v, (u, v) ∈ g.getEdgeList → (v, u) ∉ g.getEdgeList) (hsn : src ∈ g.getNodeList)
    (htn : sink ∈ g.getNodeList) (hst : src ≠ sink) (hpos : ∀ e ∈ g.getEdgeList, 0 ≤ cap e) {newQ : Q}
    (hq : items newQ = []) {d : N → Option Int}
    (hdist : ∀ v, (Reach g true sink v → ∃ k : Nat, d v = some (k : Int) ∧ IsLeastLen (Step g true) sink v k) ∧
      (¬ Reach g true sink v → d v = none)) :
    ∃ out st, g.getNeighbors src = .ok out ∧
      saturate g O algo src out ⟨newQ, fun _ => 0, fun _ => 0, firstLabels g d⟩ = .ok st ∧
      PInv g cap items src sink { st with dist := upd st.dist src g.getNodeList.length } ∧
      Active items src sink (fun _ => False) { st with dist := upd st.dist src g.getNodeList.length } ∧
      ((∀ v, ((src, v) ∈ g.getEdgeList ∧ 0 < cap (src, v)) ∨ ((v, src) ∈ g.getEdgeList ∧ 0 < cap (v, src)) →
          Reach g true sink v) →
        Full g cap items { st with dist := upd st.dist src g.getNodeList.length }) := by
  obtain ⟨out, inn, h1, h2, h3, h4⟩ := nbrs_edges hwf hd hsn
  obtain ⟨l1, l2, l3, l4, l5⟩ := labels_ok hwf hd htn hdist
  obtain ⟨st, a, b⟩ := saturate_ok (O := O) (algo := algo) (src := src) (d := firstLabels g d) hwf hs hc hpos out []
    ⟨newQ, fun _ => 0, fun _ => 0, firstLabels g d⟩
    (fun n hn => ⟨(h3 n).1 hn, fun h => by have := (h3 n).1 hn; rw [h] at this; exact hanti _ _ this this, by simp⟩)
    (out_nodup hwf hd h1)
    ⟨by simp, by simp [net], by simp, by simp, by simp [hq], by simp [hq], rfl⟩
  rw [List.append_nil] at b
  have hflow : ∀ v, (src, v) ∈ g.getEdgeList → st.flow (src, v) = cap (src, v) := by
    intro v hv
    rw [b.flow, if_pos ⟨rfl, (h3 v).2 hv⟩]
  have hflow0 : ∀ u v, u ≠ src → st.flow (u, v) = 0 := by
    intro u v hu
    rw [b.flow, if_neg (fun h => hu h.1)]
  have huse : ∀ u v, Use g cap st.flow u v → (u ≠ src ∧ v = src) ∨ (u ≠ src ∧ v ≠ src ∧ (u, v) ∈ g.getEdgeList) := by
    rintro u v ⟨hU, hp⟩
    unfold MaxFlow.pot at hp
    by_cases he : (u, v) ∈ g.getEdgeList
    · rw [if_pos he] at hp
      have hu : u ≠ src := by
        rintro rfl
        rw [hflow v he] at hp; omega
      by_cases hv : v = src
      · exact Or.inl ⟨hu, hv⟩
      · exact Or.inr ⟨hu, hv, he⟩
    · rw [if_neg he] at hp
      have hv : v = src := by
        by_contra hv
        rw [hflow0 v u hv] at hp; omega
      left
      refine ⟨?_, hv⟩
      rintro rfl
      subst hv
      exact ne_of_adj hanti hU rfl
  refine ⟨out, st, h1, a, ⟨?_, b.net, b.pos, ?_, ?_, ?_, ?_, ?_⟩, ?_, ?_⟩
  · intro e he
    show 0 ≤ st.flow e ∧ st.flow e ≤ cap e
    rw [b.flow]
    have := hpos e he
    split <;> omega
  · intro v hv
    have := (h3 v).1 ((b.item v).1 hv)
    exact ⟨fun h => by rw [h] at this; exact hanti _ _ this this, src, Or.inr this⟩
  · show upd _ _ _ _ = _
    unfold upd; rw [if_pos rfl]
  · show upd _ _ _ _ = _
    unfold upd; rw [if_neg (Ne.symm hst), b.dist, l1]
  · intro v
    show 0 ≤ upd _ _ _ _
    unfold upd
    split
    · omega
    · rw [b.dist]; exact l2 v
  · intro u v hU
    show min (upd _ _ _ _) _ ≤ min (upd _ _ _ _) _ + 1
    rw [b.dist]
    unfold upd
    rcases huse u v hU with ⟨h5, h6⟩ | ⟨h5, h6, h7⟩
    · rw [if_neg h5, if_pos h6]; omega
    · rw [if_neg h5, if_neg h6]
      have := l4 u v h7
      omega
  · intro v v1 v2 v3
    left
    show v ∈ items st.q
    rw [b.item]
    by_contra h
    have h' : st.excess v = 0 := b.zero v v1 h
    have v3' : 0 < st.excess v := v3
    omega
  · intro hall
    refine ⟨?_, ?_, b.nodup⟩
    · intro u v hU
      show upd _ _ _ _ ≤ upd _ _ _ _ + 1
      rw [b.dist]
      unfold upd
      rcases huse u v hU with ⟨h5, h6⟩ | ⟨h5, h6, h7⟩
      · rw [if_neg h5, if_pos h6]
        subst h6
        have := l5 u (hall u (by
          obtain ⟨hA, hp⟩ := hU
          unfold MaxFlow.pot at hp
          by_cases he : (u, v) ∈ g.getEdgeList
          · rw [if_pos he, hflow0 u v h5] at hp
            exact Or.inr ⟨he, by omega⟩
          · rcases hA with hA | hA
            · exact absurd hA he
            · rw [if_neg he, hflow u hA] at hp
              exact Or.inl ⟨hA, by omega⟩))
        omega
      · rw [if_neg h5, if_neg h6]
        exact l4 u v h7
    · intro v
      show upd _ _ _ _ ≤ _
      unfold upd
      split
      · omega
      · rw [b.dist]
        have := l3 v
        omega

/-! ## The list implementations -/

theorem stack_set : LawfulSet (stackOps : QOps N (List N)) id fun q x => decide (x ∈ q) where
  toLawfulBag := stack_lawful
  has_iff q x := by simp
  nodup_push q x h1 h2 := List.nodup_cons.2 ⟨h2, h1⟩
  nodup_pushP q x p h1 h2 := List.nodup_cons.2 ⟨h2, h1⟩
  nodup_remove q x h1 _ := by
    have h : q.reverse.Nodup := List.nodup_reverse.2 h1
    simp only [id, stackOps]
    exact ⟨List.nodup_reverse.2 (h.erase x), by simp [h.mem_erase_iff]⟩

theorem queue_set : LawfulSet (queueOps : QOps N (List N)) id fun q x => decide (x ∈ q) where
  toLawfulBag := queue_lawful.toLawfulBag
  has_iff q x := by simp
  nodup_push q x h1 h2 := by simp only [id, queueOps] at *; exact List.nodup_append.2 ⟨h1, by simp, by rintro a ha b hb rfl; simp at hb; exact h2 (hb ▸ ha)⟩
  nodup_pushP q x p h1 h2 := by simp only [id, queueOps] at *; exact List.nodup_append.2 ⟨h1, by simp, by rintro a ha b hb rfl; simp at hb; exact h2 (hb ▸ ha)⟩
  nodup_remove q x h1 _ := by
    simp only [id, queueOps] at *
    exact ⟨h1.erase x, by simp [h1.mem_erase_iff]⟩

theorem pq_set : LawfulSet (pqOps' : QOps N (PQ N)) (fun d => d.1.keys) fun d x => d.1.contains x where
  toLawfulBag := pq_lawful.toLawfulBag
  has_iff q x := Dict.contains_iff _ _
  nodup_push q x _ _ := (pqOps'.push q x).2
  nodup_pushP q x p _ _ := (pqOps'.pushP q x p).2
  nodup_remove q x _ _ := ⟨(pqOps'.remove q x).2, by simp [pqOps', Dict.mem_keys_erase]⟩

end Preflow
end GiMPy
