import Verif.Model.SimplexPic
import Verif.Lemmas.SimplexStart

/-! # Lemmas on the picture of `network_simplex`: it is a function of the flow and of the tree -/

namespace GiMPy
namespace Simplex
open MinCost MaxFlow
variable {N : Type} [DecidableEq N] {Q : Type} {g t : Graph N} {cap cost f : N × N → Int}
variable {V W seq : List N} {root : N} {ix : Idx N}

/-- the picture of a flow and a tree -/
def picOf (g t : Graph N) (f : N × N → Int) : SPic N :=
  ⟨arcLabel g f, fun e => if t.edgeAttr.contains e then "blue" else "black"⟩

theorem contains_pair (t : Graph N) (e : N × N) : t.edgeAttr.contains e = true ↔ e ∈ t.getEdgeList := Dict.contains_iff _ _

/-! ## The pivot changes the flow on arcs of the tree and on the entering arc only -/

theorem pushStep_outside {d : Int} {u v : N} (h : EAdj t.getEdgeList u v) {f' : N × N → Int}
    (hp : pushStep g t d u v f = .ok f') : ∀ e, e ∉ t.getEdgeList → f' e = f e := by
  intro e he
  unfold pushStep at hp
  by_cases hc : t.edgeAttr.contains (u, v) = true
  · rw [if_pos hc] at hp
    cases hx : g.flowOf f u v with
    | error => rw [hx] at hp; cases hp
    | ok x =>
      rw [hx] at hp
      simp only [Except.ok.injEq] at hp
      subst hp
      have : e ≠ (u, v) := fun h' => he (h' ▸ (contains_pair t _).1 hc)
      simp [upd, this]
  · rw [if_neg hc] at hp
    cases hx : g.flowOf f v u with
    | error => rw [hx] at hp; cases hp
    | ok x =>
      rw [hx] at hp
      simp only [Except.ok.injEq] at hp
      subst hp
      have hvu : (v, u) ∈ t.getEdgeList := h.resolve_left fun h' => hc ((contains_pair t _).2 h')
      have : e ≠ (v, u) := fun h' => he (h' ▸ hvu)
      simp [upd, this]

theorem pushLoop_outside {d : Int} : ∀ (l : List N) (f f' : N × N → Int), l.IsChain (EAdj t.getEdgeList) →
    pushLoop g t d l f = .ok f' → ∀ e, e ∉ t.getEdgeList → f' e = f e := by
  intro l
  induction l with
  | nil => intro f f' _ h e _; cases h; rfl
  | cons u l ih =>
    intro f f' hc h e he
    cases l with
    | nil => cases h; rfl
    | cons v l =>
      unfold pushLoop at h
      have hc' := List.isChain_cons_cons.1 hc
      cases hx : pushStep g t d u v f with
      | error => rw [hx] at h; cases h
      | ok f1 =>
        rw [hx] at h
        exact (ih f1 f' hc'.2 h e he).trans (pushStep_outside hc'.1 hx e he)

theorem pushCycle_outside {d : Int} {v : N} {l : List N} {y : N} (hc : (v :: l).IsChain (EAdj t.getEdgeList))
    (hy : (v :: l).getLast? = some y) (hyv : EAdj t.getEdgeList y v) {f' : N × N → Int}
    (h : pushCycle g t d (v :: l) f = .ok f') : ∀ e, e ∉ t.getEdgeList → f' e = f e := by
  intro e he
  have hl : (v :: l).getLast (by simp) = y := by
    rw [List.getLast?_eq_some_getLast (by simp)] at hy
    exact Option.some.inj hy
  unfold pushCycle at h
  simp only [] at h
  cases hx : pushLoop g t d (v :: l) f with
  | error => rw [hx] at h; cases h
  | ok f1 =>
    rw [hx] at h
    simp only [hl] at h
    exact (pushStep_outside hyv h e he).trans (pushLoop_outside _ _ _ hc hx e he)

/-- `o`, if any, is an arc of the tree -/
def OnTree (t : Graph N) (o : Option (N × N)) : Prop := ∀ e, o = some e → e ∈ t.getEdgeList

theorem leaveStep_mem {u v : N} (h : EAdj t.getEdgeList u v) {c c' : Option (N × N) × Int} (hc : OnTree t c.1)
    (hp : leaveStep g t f u v c = .ok c') : OnTree t c'.1 := by
  unfold leaveStep at hp
  by_cases hk : t.edgeAttr.contains (u, v) = true
  · rw [if_pos hk] at hp
    have hm := (contains_pair t _).1 hk
    cases hx : g.flowOf f u v with
    | error => rw [hx] at hp; cases hp
    | ok x =>
      rw [hx] at hp
      cases hz : g.capOf u v with
      | error => rw [hz] at hp; cases hp
      | ok z =>
        rw [hz] at hp
        simp only [Except.ok.injEq] at hp
        subst hp
        by_cases hq : c.2 ≥ z - x
        · rw [if_pos hq]; intro e he; cases he; exact hm
        · rw [if_neg hq]; exact hc
  · rw [if_neg hk] at hp
    have hm : (v, u) ∈ t.getEdgeList := h.resolve_left fun h' => hk ((contains_pair t _).2 h')
    cases hx : g.flowOf f v u with
    | error => rw [hx] at hp; cases hp
    | ok x =>
      rw [hx] at hp
      simp only [Except.ok.injEq] at hp
      subst hp
      by_cases hq : c.2 ≥ x
      · rw [if_pos hq]; intro e he; cases he; exact hm
      · rw [if_neg hq]; exact hc

theorem leaveLoop_mem : ∀ (l : List N) (c c' : Option (N × N) × Int), l.IsChain (EAdj t.getEdgeList) → OnTree t c.1 →
    leaveLoop g t f l c = .ok c' → OnTree t c'.1 := by
  intro l
  induction l with
  | nil => intro c c' _ hc h; cases h; exact hc
  | cons u l ih =>
    intro c c' hch hc h
    cases l with
    | nil => cases h; exact hc
    | cons v l =>
      unfold leaveLoop at h
      have hc' := List.isChain_cons_cons.1 hch
      cases hx : leaveStep g t f u v c with
      | error => rw [hx] at h; cases h
      | ok c1 =>
        rw [hx] at h
        exact ih c1 c' hc'.2 (leaveStep_mem hc'.1 hc hx) h

theorem leaving_mem {v : N} {l : List N} {y : N} (hc : (v :: l).IsChain (EAdj t.getEdgeList))
    (hy : (v :: l).getLast? = some y) (hyv : EAdj t.getEdgeList y v) {c0 m : Int} {e : N × N}
    (h : leaving g t f (v :: l) c0 = .ok (e, m)) : e ∈ t.getEdgeList := by
  have hl : (v :: l).getLast (by simp) = y := by
    rw [List.getLast?_eq_some_getLast (by simp)] at hy
    exact Option.some.inj hy
  unfold leaving at h
  simp only [] at h
  cases hx : leaveLoop g t f (v :: l) (none, c0) with
  | error => rw [hx] at h; cases h
  | ok c =>
    rw [hx] at h
    simp only [hl] at h
    have h1 : OnTree t c.1 := leaveLoop_mem _ _ _ hc (by intro e he; cases he) hx
    cases hz : leaveStep g t f y v c with
    | error => rw [hz] at h; cases h
    | ok c2 =>
      rw [hz] at h
      have h2 := leaveStep_mem hyv h1 hz
      obtain ⟨o, m'⟩ := c2
      cases o with
      | none => cases h
      | some e' =>
        simp only [Except.ok.injEq, Prod.mk.injEq] at h
        exact h2 e (by rw [h.1])

/-- the pivot with the leaving arc is the pivot -/
theorem pivotOnP_eq (g t : Graph N) (f : N × N → Int) (ix : Idx N) (k : N × N) (fuel : Nat) :
    pivotOn g t f ix k fuel = match pivotOnP g t f ix k fuel with
      | .error e => .error e
      | .ok (t', f', _) => .ok (t', f') := by
  unfold pivotOn pivotOnP
  cases identify t ix k.1 k.2 fuel with
  | error => rfl
  | ok cy =>
    cases g.flowOf f k.1 k.2 with
    | error => rfl
    | ok fl =>
      cases g.capOf k.1 k.2 with
      | error => rfl
      | ok c =>
        simp only []
        cases t.call (.addEdge k.1 k.2 []) with
        | error => rfl
        | ok t1 =>
          simp only []
          cases leaving g t1 f (if fl = c then cy.reverse else cy) c with
          | error => rfl
          | ok pd =>
            obtain ⟨p, d⟩ := pd
            simp only []
            cases pushCycle g t1 d (if fl = c then cy.reverse else cy) f with
            | error => rfl
            | ok f1 =>
              simp only []
              cases t1.call (.delEdge p.1 p.2) with
              | error => rfl
              | ok t2 => rfl

theorem pivotOnP_outside (hn : Netw g cap cost) (ht : STree g W t) (hix : Good t.getEdgeList W root seq ix)
    {k : N × N} (he : k ∈ g.getEdgeList) (het : k ∉ t.getEdgeList) {fuel : Nat} (hfu : 2 * g.getNodeList.length ≤ fuel)
    {t' : Graph N} {f' : N × N → Int} {out : N × N} (h : pivotOnP g t f ix k fuel = .ok (t', f', out)) :
    ∀ e, e ∉ t'.getEdgeList → e ≠ out → f' e = f e := by
  obtain ⟨k, l⟩ := k
  have hV := hn.ends he
  obtain ⟨P, h1, h2, h3, h4, h5⟩ := identify_ok ht.tg ht.sub hix (ht.ends _ he).1 (ht.ends _ he).2
    (fuel := fuel) (by have := ht.toCore.len; omega)
  obtain ⟨t1, h6, h7, h8⟩ := ht.tg.add hV.1 hV.2 he het
  have hmono : ∀ a b, EAdj t.getEdgeList a b → EAdj t1.getEdgeList a b := by
    intro a b hab
    rw [h8]
    rcases hab with h | h
    · exact .inl (List.mem_append_left _ h)
    · exact .inr (List.mem_append_left _ h)
  have hkl : (k, l) ∈ t1.getEdgeList := by rw [h8]; simp
  have key : ∀ C : List N, C = P ∨ C = P.reverse → ∃ v L y, C = v :: L ∧ (v :: L).IsChain (EAdj t1.getEdgeList) ∧
      (v :: L).getLast? = some y ∧ EAdj t1.getEdgeList y v := by
    intro C hC
    have hch : C.IsChain (EAdj t1.getEdgeList) := by
      rcases hC with rfl | rfl
      · exact h3.imp hmono
      · rw [List.isChain_reverse]; exact h3.imp fun a b h => (hmono a b h).symm
    have hends : ∃ y v, C.head? = some v ∧ C.getLast? = some y ∧ EAdj t1.getEdgeList y v := by
      rcases hC with rfl | rfl
      · exact ⟨k, l, h4, h5, .inl hkl⟩
      · exact ⟨l, k, by rw [List.head?_reverse]; exact h5, by rw [List.getLast?_reverse]; exact h4, .inr hkl⟩
    obtain ⟨y, v, q1, q2, q3⟩ := hends
    cases C with
    | nil => cases q1
    | cons a L =>
      simp only [List.head?_cons, Option.some.injEq] at q1
      subst q1
      exact ⟨a, L, y, rfl, hch, q2, q3⟩
  unfold pivotOnP at h
  rw [h1] at h
  simp only [] at h
  rw [flowOf_ok he, hn.caps k l he] at h
  simp only [] at h
  rw [h6] at h
  simp only [] at h
  obtain ⟨v, L, y, hC, q1, q2, q3⟩ := key (if f (k, l) = cap (k, l) then P.reverse else P) (by split <;> simp)
  rw [hC] at h
  cases hx : leaving g t1 f (v :: L) (cap (k, l)) with
  | error => rw [hx] at h; cases h
  | ok pd =>
    obtain ⟨p, d⟩ := pd
    rw [hx] at h
    simp only [] at h
    have hmem := leaving_mem q1 q2 q3 hx
    cases hz : pushCycle g t1 d (v :: L) f with
    | error => rw [hz] at h; cases h
    | ok f1 =>
      rw [hz] at h
      simp only [] at h
      obtain ⟨t2, h12, h13, h14⟩ := h7.del hmem
      rw [h12] at h
      simp only [Except.ok.injEq, Prod.mk.injEq] at h
      obtain ⟨rfl, rfl, rfl⟩ := h
      intro e he1 he2
      refine pushCycle_outside q1 q2 q3 hz e fun hin => he1 ?_
      rw [h14]
      exact List.mem_filter.2 ⟨hin, by simpa using he2⟩

/-! ## The picture follows the flow and the tree -/

theorem refresh_keeps {st st' : SState N} {fuel : Nat} (h : refresh g root st fuel = .ok st') : st'.t = st.t ∧ st'.f = st.f := by
  unfold refresh at h
  split at h
  · cases h
  · split at h
    · cases h
    · cases h; exact ⟨rfl, rfl⟩

theorem labelPivot_eq {t' : Graph N} {f' : N × N → Int} {out : N × N}
    (h : ∀ e, e ∉ t'.getEdgeList → e ≠ out → f' e = f e) (q : SPic N) (hq : q.label = arcLabel g f) :
    paintTree t' (labelPivot g t' f' out q) = picOf g t' f' := by
  unfold paintTree labelPivot picOf
  simp only [SPic.mk.injEq, and_true]
  funext e
  by_cases h1 : t'.edgeAttr.contains e = true
  · rw [if_pos h1]
  · rw [if_neg h1]
    by_cases h2 : e = out
    · rw [if_pos h2]
    · rw [if_neg h2, hq]
      unfold arcLabel
      rw [h e (mt (contains_pair t' e).2 h1) h2]

theorem pivotStepP_eq (hn : Netw g cap cost) {st : SState N} (h : Inv g W cap cost root st)
    {pv : Pivot} (hpv : pv ≠ .other) {fuel : Nat} (hf : 2 * g.getNodeList.length ≤ fuel) {p : N → Int}
    (hp : PotOK g st.t cost st.pi p) (hne : violL st.t cap cost st.f p g.getEdgeList ≠ []) :
    pivotStepP g root pv st (picOf g st.t st.f) fuel = match pivotStep g root pv st fuel with
      | .error e => .error e
      | .ok st' => .ok (st', picOf g st'.t st'.f) := by
  obtain ⟨e, x, h1, h2, h3, h4⟩ := entering_ok hn hp.val hpv hne
  obtain ⟨seq, hix⟩ := h.index
  unfold pivotStepP pivotStep
  rw [h1]
  simp only []
  rw [pivotOnP_eq]
  cases hx : pivotOnP g st.t st.f st.ix e fuel with
  | error => rfl
  | ok r =>
    obtain ⟨t', f', out⟩ := r
    have hout := pivotOnP_outside hn h.tree hix h2 h3 hf hx
    simp only []
    cases stamps g f' t'.getEdgeList with
    | error => rfl
    | ok s =>
      simp only []
      cases markArcs g t' f' g.getEdgeList with
      | error => rfl
      | ok _ =>
        simp only []
        cases redraw t' st.ix s root fuel with
        | error => rfl
        | ok _ =>
          simp only []
          cases hr : refresh g root { st with t := t', f := f' } fuel with
          | error => rfl
          | ok st' =>
            have hk := refresh_keeps hr
            simp only []
            rw [labelPivot_eq hout _ rfl, hk.1, hk.2]

theorem mainLoopP_eq (hn : Netw g cap cost) (hroot : root ∈ W) {pv : Pivot} (hpv : pv ≠ .other) {inner : Nat}
    (hf : 2 * g.getNodeList.length ≤ inner) : ∀ (k : Nat) (st : SState N), Inv g W cap cost root st →
    mainLoopP g root pv inner k st (picOf g st.t st.f) = match mainLoop g root pv inner k st with
      | .error e => .error e
      | .ok st' => .ok (st', picOf g st'.t st'.f) := by
  intro k
  induction k with
  | zero => intro st _; rfl
  | succ k ih =>
    intro st h
    obtain ⟨p, hp⟩ := h.pots
    unfold mainLoopP mainLoop
    rw [optimal_ok hn hp.val _ fun e he => he]
    by_cases hv : violL st.t cap cost st.f p g.getEdgeList = []
    · rw [hv]; rfl
    · have hb : (violL st.t cap cost st.f p g.getEdgeList).isEmpty = false := by simpa using hv
      rw [hb]
      simp only []
      obtain ⟨st', e, h1, h2, h3, _⟩ := pivotStep_ok hn hroot h hpv hf hp hv
      rw [pivotStepP_eq hn h hpv hf hp hv, h1]
      exact ih st' h2

theorem setupP_eq (g : Graph N) (root : N) (f : N × N → Int) (ix : Idx N) (pi : N → Option Int) (p : SPic N) (fuel : Nat) :
    setupP g root f ix pi p fuel = match setup g root f ix pi fuel with
      | .error e => .error e
      | .ok st => .ok (st, picOf g st.t st.f) := by
  unfold setupP setup
  cases findTree g f ix fuel with
  | error => rfl
  | ok r =>
    obtain ⟨t, f, ix⟩ := r
    simp only []
    cases stamps g f t.getEdgeList with
    | error => rfl
    | ok s =>
      simp only []
      cases markArcs g t f g.getEdgeList with
      | error => rfl
      | ok _ =>
        simp only []
        cases redraw t ix s root fuel with
        | error => rfl
        | ok _ =>
          simp only []
          cases hr : refresh g root ⟨t, f, ix, pi⟩ fuel with
          | error => rfl
          | ok st =>
            have hk := refresh_keeps hr
            simp only []
            rw [hk.1, hk.2]
            rfl

end Simplex
end GiMPy
