import Verif.Model.DfsPic
import Verif.Lemmas.Dict

/-! # Lemmas on the colours and labels that `dfs` leaves -/

namespace GiMPy
variable {N : Type} [DecidableEq N] {g : Graph N} {component : Option Int}
namespace Dfs

/-! ## the picture does not influence the search -/

theorem dfsForP_map {recP : N → DState N → DPic N → Int → Int → ResP N} {rec : N → DState N → Int → Int → Res N}
    (hr : ∀ i st p dc fc, (recP i st p dc fc).map Prod.fst = rec i st dc fc) (root : N) (l : List N) (st : DState N)
    (p : DPic N) (dc fc : Int) : (dfsForP recP root l st p dc fc).map Prod.fst = dfsFor rec root l st dc fc := by
  induction l generalizing st p dc fc with
  | nil => rfl
  | cons i l ih =>
    unfold dfsForP dfsFor
    by_cases h : st.disc i = none
    · rw [if_pos h, if_pos h, ← hr i { st with pred := st.pred.set i root } p dc fc]
      cases recP i { st with pred := st.pred.set i root } p dc fc with
      | error e => rfl
      | ok s => exact ih _ _ _ _
    · rw [if_neg h, if_neg h]; exact ih _ _ _ _

theorem dfsP_map (f : Nat) (root : N) (st : DState N) (p : DPic N) (dc fc : Int) :
    (dfsP g component f root st p dc fc).map Prod.fst = dfs g component f root st dc fc := by
  induction f generalizing root st p dc fc with
  | zero => rfl
  | succ f ih =>
    unfold dfsP dfs
    by_cases h : ¬ g.hasNode root
    · rw [if_pos h, if_pos h]; rfl
    · rw [if_neg h, if_neg h]
      cases touchPred g st.pred root with
      | error e => rfl
      | ok _ =>
        simp only []
        cases g.getNeighbors root with
        | error e => rfl
        | ok l =>
          simp only []
          rw [← dfsForP_map (recP := dfsP g component f) (rec := dfs g component f) ih root l (enter component root st dc)
            (enterP g root st.pred p dc)]
          cases dfsForP (dfsP g component f) root l (enter component root st dc) (enterP g root st.pred p dc) (dc + 1) fc with
          | error e => rfl
          | ok s => rfl

/-! ## the effect of a call -/

/-- the label of a finished node -/
def timesLabel (d f : Int) : String := "\"" ++ toString d ++ "," ++ toString f ++ "\""

/-- the effect of a call that visits the nodes `New` -/
structure Eff (g : Graph N) (New : N → Prop) (st : DState N) (p : DPic N) (st' : DState N) (p' : DPic N) : Prop where
  frame : ∀ v, ¬ New v → st'.disc v = st.disc v ∧ st'.fin v = st.fin v ∧ st'.pred.get? v = st.pred.get? v ∧
    p'.node v = p.node v ∧ p'.label v = p.label v
  done : ∀ v, New v → ∃ d f, st'.disc v = some d ∧ st'.fin v = some f ∧ p'.node v = "green" ∧ p'.label v = timesLabel d f
  tree : ∀ v u, New v → st'.pred.get? v = some u → p'.edge (g.edgeKey u v) = "green"
  other : ∀ e, (∀ v u, New v → st'.pred.get? v = some u → e ≠ g.edgeKey u v) → p'.edge e = p.edge e

theorem Eff.refl (st : DState N) (p : DPic N) : Eff g (fun _ => False) st p st p :=
  ⟨fun _ _ => ⟨rfl, rfl, rfl, rfl, rfl⟩, fun _ h => h.elim, fun _ _ h => h.elim, fun _ _ => rfl⟩

theorem Eff.trans {A B : N → Prop} {s1 s2 s3 : DState N} {p1 p2 p3 : DPic N} (h1 : Eff g A s1 p1 s2 p2)
    (h2 : Eff g B s2 p2 s3 p3) (hd : ∀ v, A v → ¬ B v) : Eff g (fun v => A v ∨ B v) s1 p1 s3 p3 := by
  refine ⟨?_, ?_, ?_, ?_⟩
  · intro v hv
    rw [not_or] at hv
    obtain ⟨a1, a2, a3, a4, a5⟩ := h1.frame v hv.1
    obtain ⟨b1, b2, b3, b4, b5⟩ := h2.frame v hv.2
    exact ⟨b1.trans a1, b2.trans a2, b3.trans a3, b4.trans a4, b5.trans a5⟩
  · rintro v (hv | hv)
    · obtain ⟨b1, b2, b3, b4, b5⟩ := h2.frame v (hd v hv)
      rw [b1, b2, b4, b5]
      exact h1.done v hv
    · exact h2.done v hv
  · rintro v u (hv | hv) hu
    · have hu2 : s2.pred.get? v = some u := by rw [← (h2.frame v (hd v hv)).2.2.1]; exact hu
      have ha := h1.tree v u hv hu2
      by_cases hx : ∀ w x, B w → s3.pred.get? w = some x → g.edgeKey u v ≠ g.edgeKey x w
      · rw [h2.other _ hx]; exact ha
      · push Not at hx
        obtain ⟨w, x, hw, hxw, he⟩ := hx
        rw [he]; exact h2.tree w x hw hxw
    · exact h2.tree v u hv hu
  · intro e he
    rw [h2.other e fun v u hv => he v u (.inr hv)]
    refine h1.other e fun v u hv hu => he v u (.inl hv) ?_
    rw [(h2.frame v (hd v hv)).2.2.1]; exact hu

/-- the effect of `dfs` started at `root` -/
def Visits (g : Graph N) (root : N) (st : DState N) (p : DPic N) (st' : DState N) (p' : DPic N) : Prop :=
  ∃ New : N → Prop, New root ∧ (∀ v, New v → v = root ∨ st.disc v = none) ∧ Eff g New st p st' p' ∧
    st'.pred.get? root = st.pred.get? root

theorem dfsForP_eff {recP : N → DState N → DPic N → Int → Int → ResP N}
    (hr : ∀ i st p dc fc st' dc' fc' p', recP i st p dc fc = .ok ((st', dc', fc'), p') → Visits g i st p st' p')
    (root : N) (l : List N) (st : DState N) (p : DPic N) (dc fc : Int) {st' : DState N} {p' : DPic N} {dc' fc' : Int}
    (he : dfsForP recP root l st p dc fc = .ok ((st', dc', fc'), p')) :
    ∃ New : N → Prop, (∀ v, New v → st.disc v = none) ∧ Eff g New st p st' p' := by
  induction l generalizing st p dc fc with
  | nil => cases he; exact ⟨_, fun _ h => h.elim, Eff.refl _ _⟩
  | cons i l ih =>
    unfold dfsForP at he
    by_cases h : st.disc i = none
    · rw [if_pos h] at he
      cases hc : recP i { st with pred := st.pred.set i root } p dc fc with
      | error e => rw [hc] at he; cases he
      | ok s =>
        obtain ⟨⟨s2, dc2, fc2⟩, p2⟩ := s
        rw [hc] at he
        obtain ⟨A, hA1, hA2, hA3, -⟩ := hr _ _ _ _ _ _ _ _ _ hc
        obtain ⟨B, hB1, hB2⟩ := ih s2 p2 dc2 fc2 he
        have hAn : ∀ v, A v → st.disc v = none := fun v hv => (hA2 v hv).elim (fun h' => h' ▸ h) id
        have hA4 : Eff g A st p s2 p2 := by
          refine ⟨fun v hv => ?_, hA3.done, hA3.tree, hA3.other⟩
          obtain ⟨a1, a2, a3, a4, a5⟩ := hA3.frame v hv
          refine ⟨a1, a2, a3.trans ?_, a4, a5⟩
          simp only []
          exact Dict.get?_set_ne _ _ (by rintro rfl; exact hv hA1)
        have hd : ∀ v, A v → ¬ B v := by
          intro v hv hv'
          obtain ⟨d, f, h1, _⟩ := hA3.done v hv
          rw [hB1 v hv'] at h1; cases h1
        refine ⟨fun v => A v ∨ B v, ?_, hA4.trans hB2 hd⟩
        rintro v (hv | hv)
        · exact hAn v hv
        · by_cases hav : A v
          · exact hAn v hav
          · rw [← (hA4.frame v hav).1]; exact hB1 v hv
    · rw [if_neg h] at he
      exact ih st p dc fc he

theorem dfsP_eff (f : Nat) (root : N) (st : DState N) (p : DPic N) (dc fc : Int) {st' : DState N} {p' : DPic N}
    {dc' fc' : Int} (he : dfsP g component f root st p dc fc = .ok ((st', dc', fc'), p')) : Visits g root st p st' p' := by
  induction f generalizing root st p dc fc st' p' dc' fc' with
  | zero => cases he
  | succ f ih =>
    unfold dfsP at he
    by_cases h : ¬ g.hasNode root
    · rw [if_pos h] at he; cases he
    · rw [if_neg h] at he
      cases ht : touchPred g st.pred root with
      | error e => rw [ht] at he; cases he
      | ok _ =>
        rw [ht] at he
        simp only [] at he
        cases hn : g.getNeighbors root with
        | error e => rw [hn] at he; cases he
        | ok l =>
          rw [hn] at he
          simp only [] at he
          cases hl : dfsForP (dfsP g component f) root l (enter component root st dc) (enterP g root st.pred p dc) (dc + 1) fc with
          | error e => rw [hl] at he; cases he
          | ok s =>
            obtain ⟨⟨s1, dc1, fc1⟩, p1⟩ := s
            rw [hl] at he
            cases he
            obtain ⟨B, hB1, hB2⟩ := dfsForP_eff (g := g) (fun i st p dc fc st' dc' fc' p' h => ih i st p dc fc h) root l _ _ _ _ hl
            have hrB : ¬ B root := by
              intro hb
              have := hB1 root hb
              simp [enter, upd] at this
            obtain ⟨r1, r2, r3, r4, r5⟩ := hB2.frame root hrB
            have hu : ∀ {C : Type} (F : N → C) (y : C) {v : N}, v ≠ root → upd F root y v = F v :=
              fun F y v hv => by simp [upd, hv]
            have hur : ∀ {C : Type} (F : N → C) (y : C), upd F root y root = y := fun F y => by simp [upd]
            refine ⟨fun v => v = root ∨ B v, .inl rfl, ?_, ⟨?_, ?_, ?_, ?_⟩, r3⟩
            · rintro v (rfl | hv)
              · exact .inl rfl
              · have hvr : v ≠ root := by rintro rfl; exact hrB hv
                have := hB1 v hv
                simp only [enter, hu _ _ hvr] at this
                exact .inr this
            · intro v hv
              rw [not_or] at hv
              obtain ⟨a1, a2, a3, a4, a5⟩ := hB2.frame v hv.2
              simp only [leave, leaveP, hu _ _ hv.1]
              simp only [enter, enterP, hu _ _ hv.1] at a1 a2 a3 a4 a5
              exact ⟨a1, a2, a3, a4, a5⟩
            · rintro v (rfl | hv)
              · simp only [enter, hur] at r1
                refine ⟨dc + 1, fc1, r1, by simp [leave, upd], by simp [leaveP, upd], ?_⟩
                simp only [leaveP, hur, r1, timesLabel]
              · have hvr : v ≠ root := by rintro rfl; exact hrB hv
                simp only [leave, leaveP, hu _ _ hvr]
                exact hB2.done v hv
            · have key : ∀ u, st.pred.get? root = some u → p1.edge (g.edgeKey u root) = "green" := by
                intro u hu'
                by_cases hx : ∀ w x, B w → s1.pred.get? w = some x → g.edgeKey u root ≠ g.edgeKey x w
                · rw [hB2.other _ hx]
                  simp [enterP, hu', upd]
                · push Not at hx
                  obtain ⟨w, x, hw, hxw, he⟩ := hx
                  rw [he]; exact hB2.tree w x hw hxw
              rintro v u (rfl | hv) hp
              · simp only [leave, leaveP] at hp ⊢
                rw [r3] at hp
                exact key u hp
              · exact hB2.tree v u hv hp
            · intro e hne
              simp only [leaveP]
              rw [hB2.other e fun v u hv hp => hne v u (.inr hv) hp]
              unfold enterP
              simp only []
              cases hp : st.pred.get? root with
              | none => rfl
              | some u =>
                simp only []
                have : e ≠ g.edgeKey u root := hne root u (.inl rfl) (by simp only [leave]; rw [r3]; exact hp)
                simp [upd, this]

end Dfs
end GiMPy
