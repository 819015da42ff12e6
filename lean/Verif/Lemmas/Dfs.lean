import Verif.Model.Dfs
import Verif.Lemmas.Components

/-! # What a recursive `dfs` call does -/

namespace GiMPy
namespace Dfs
open Search
variable {N : Type} [DecidableEq N] {g : Graph N}
set_option linter.unusedSectionVars false

/-- the consecutive times `t, t+1, ...` -/
def ticks (t : Int) : Nat → List (Option Int)
  | 0 => []
  | n + 1 => some t :: ticks (t + 1) n

theorem ticks_add (t : Int) (a b : Nat) : ticks t (a + b) = ticks t a ++ ticks (t + a) b := by
  induction a generalizing t with
  | zero => simp [ticks]
  | succ a ih =>
    rw [Nat.succ_add]
    simp only [ticks, List.cons_append, ih]
    congr 2
    congr 1
    push_cast; omega

/-- effect of a call: `L` are the newly visited nodes, last finished first; `M` the same nodes, first discovered first -/
structure DRes (g : Graph N) (st st' : DState N) (dc dc' fc fc' : Int) (L M : List N) : Prop where
  ord : st'.order = L ++ st.order
  nodup : L.Nodup
  fresh : ∀ v ∈ L, st.disc v = none
  nodeL : ∀ v ∈ L, v ∈ g.getNodeList
  some : ∀ v, (st'.disc v).isSome ↔ (st.disc v).isSome ∨ v ∈ L
  dkeep : ∀ v, v ∉ L → st'.disc v = st.disc v
  fkeep : ∀ v, v ∉ L → st'.fin v = st.fin v
  dcount : dc' = dc + L.length
  fcount : fc' = fc + L.length
  perm : M.Perm L
  dtimes : M.map st'.disc = ticks (dc + 1) L.length
  ftimes : L.reverse.map st'.fin = ticks fc L.length
  closed : ∀ u v, u ∈ L → Step g false u v → (st'.disc v).isSome
  topo : ∀ A u B v, L = A ++ u :: B → Step g false u v → v ∈ B ∨ (st.disc v).isSome ∨ Reach g false v u
  anc : ∀ A v C u B, L = A ++ v :: (C ++ u :: B) → Step g false u v → ∀ x ∈ C ++ [u], Reach g false v x
  predOK : ∀ v p, st'.pred.get? v = .some p → Step g false p v

theorem DRes.refl {st : DState N} (dc fc : Int) (hp : ∀ v p, st.pred.get? v = .some p → Step g false p v) :
    DRes g st st dc dc fc fc [] [] :=
  ⟨by simp, by simp, by simp, by simp, by simp, by simp, by simp, by simp, by simp, by simp, by simp [ticks],
    by simp [ticks], by simp, by simp, by simp, hp⟩

theorem DRes.trans {st st1 st2 : DState N} {dc dc1 dc2 fc fc1 fc2 : Int} {L1 M1 L2 M2 : List N}
    (h1 : DRes g st st1 dc dc1 fc fc1 L1 M1) (h2 : DRes g st1 st2 dc1 dc2 fc1 fc2 L2 M2) :
    DRes g st st2 dc dc2 fc fc2 (L2 ++ L1) (M1 ++ M2) := by
  have hdisj : ∀ v, v ∈ L2 → v ∉ L1 := by
    intro v hv hv1
    have := h2.fresh v hv
    have h3 := (h1.some v).2 (Or.inr hv1)
    rw [this] at h3; cases h3
  refine ⟨?_, ?_, ?_, ?_, ?_, ?_, ?_, ?_, ?_, ?_, ?_, ?_, ?_, ?_, ?_, h2.predOK⟩
  · rw [h2.ord, h1.ord, List.append_assoc]
  · exact List.nodup_append.2 ⟨h2.nodup, h1.nodup, fun a ha b hb hab => hdisj a ha (hab ▸ hb)⟩
  · intro v hv
    rcases List.mem_append.1 hv with hv | hv
    · have := h2.fresh v hv
      rw [h1.dkeep v (hdisj v hv)] at this
      exact this
    · exact h1.fresh v hv
  · intro v hv
    rcases List.mem_append.1 hv with hv | hv
    · exact h2.nodeL v hv
    · exact h1.nodeL v hv
  · intro v
    rw [h2.some, h1.some, List.mem_append]
    constructor
    · rintro ((h | h) | h) <;> simp [h]
    · rintro (h | h | h) <;> simp [h]
  · intro v hv
    rw [List.mem_append, not_or] at hv
    rw [h2.dkeep v hv.1, h1.dkeep v hv.2]
  · intro v hv
    rw [List.mem_append, not_or] at hv
    rw [h2.fkeep v hv.1, h1.fkeep v hv.2]
  · rw [h2.dcount, h1.dcount]; simp; omega
  · rw [h2.fcount, h1.fcount]; simp; omega
  · exact (List.perm_append_comm).trans (h2.perm.append h1.perm)
  · have e : M1.map st2.disc = M1.map st1.disc := by
      refine List.map_congr_left fun v hv => h2.dkeep v fun h => hdisj v h (h1.perm.mem_iff.1 hv)
    rw [List.map_append, e, h1.dtimes, h2.dtimes, List.length_append, Nat.add_comm, ticks_add, h1.dcount]
    congr 2; omega
  · have e : L1.reverse.map st2.fin = L1.reverse.map st1.fin := by
      refine List.map_congr_left fun v hv => h2.fkeep v fun h => hdisj v h (by simpa using hv)
    rw [List.reverse_append, List.map_append, e, h1.ftimes, h2.ftimes, List.length_append, Nat.add_comm, ticks_add,
      h1.fcount]
  · intro u v hu hs
    rcases List.mem_append.1 hu with hu | hu
    · exact h2.closed u v hu hs
    · exact (h2.some v).2 (Or.inl (h1.closed u v hu hs))
  · intro A u B v hL hs
    rcases List.append_eq_append_iff.1 hL with ⟨C, hC, h⟩ | ⟨C, hC, h⟩
    · rcases h1.topo C u B v h hs with h | h | h
      · exact Or.inl h
      · exact Or.inr (Or.inl h)
      · exact Or.inr (Or.inr h)
    · cases C with
      | nil =>
        simp only [List.nil_append] at h
        rcases h1.topo [] u B v (by simpa using h.symm) hs with h | h | h
        · exact Or.inl h
        · exact Or.inr (Or.inl h)
        · exact Or.inr (Or.inr h)
      | cons c C =>
        simp only [List.cons_append, List.cons.injEq] at h
        obtain ⟨rfl, rfl⟩ := h
        rcases h2.topo A u C v hC hs with h | h | h
        · exact Or.inl (by simp [h])
        · rcases (h1.some v).1 h with h | h
          · exact Or.inr (Or.inl h)
          · exact Or.inl (by simp [h])
        · exact Or.inr (Or.inr h)
  · intro A v C u B hL hs
    rcases List.append_eq_append_iff.1 hL with ⟨D, hD, h⟩ | ⟨D, hD, h⟩
    · exact h1.anc D v C u B h hs
    · cases D with
      | nil =>
        simp only [List.nil_append] at h
        exact h1.anc [] v C u B (by simpa using h.symm) hs
      | cons d D =>
        simp only [List.cons_append, List.cons.injEq] at h
        obtain ⟨rfl, h⟩ := h
        rcases List.append_eq_append_iff.1 h with ⟨F, hF, h⟩ | ⟨F, hF, h⟩
        · cases F with
          | nil =>
            simp only [List.nil_append] at h
            have hu : u ∈ L1 := by rw [← h]; simp
            have := h1.closed u v hu hs
            rw [h2.fresh v (by rw [hD]; simp)] at this
            cases this
          | cons e F =>
            simp only [List.cons_append, List.cons.injEq] at h
            obtain ⟨rfl, h⟩ := h
            exact h2.anc A v C u F (by rw [hD, hF]) hs
        · have hu : u ∈ L1 := by rw [h]; simp
          have := h1.closed u v hu hs
          rw [h2.fresh v (by rw [hD]; simp)] at this
          cases this

/-- number of nodes without a discovery time -/
def undisc (g : Graph N) (disc : N → Option Int) : Nat := (g.getNodeList.filter fun v => disc v = none).length

theorem undisc_mono {d d' : N → Option Int} (h : ∀ v, (d v).isSome → (d' v).isSome) :
    undisc g d' ≤ undisc g d := by
  unfold undisc
  rw [← List.countP_eq_length_filter, ← List.countP_eq_length_filter]
  refine List.countP_mono_left fun v _ hv => ?_
  simp only [decide_eq_true_eq] at hv ⊢
  cases hd : d v with
  | none => rfl
  | some x => have := h v (by simp [hd]); rw [hv] at this; cases this

theorem undisc_lt {d d' : N → Option Int} (h : ∀ v, (d v).isSome → (d' v).isSome) {r : N} (hr : r ∈ g.getNodeList)
    (h1 : d r = none) (h2 : (d' r).isSome) : undisc g d' < undisc g d := by
  unfold undisc
  have : (g.getNodeList.filter fun v => d' v = none) =
      ((g.getNodeList.filter fun v => d v = none).filter fun v => d' v = none) := by
    rw [List.filter_filter]
    refine List.filter_congr fun v _ => ?_
    by_cases hv : d' v = none
    · have : d v = none := by
        cases hd : d v with
        | none => rfl
        | some x => have := h v (by simp [hd]); rw [hv] at this; cases this
      simp [hv, this]
    · simp [hv]
  rw [this]
  refine List.length_filter_lt_length_iff_exists.2 ⟨r, by simp [hr, h1], ?_⟩
  obtain ⟨x, hx⟩ := Option.isSome_iff_exists.1 h2
  simp [hx]

/-- specification of the recursive call used by the loop -/
def CallOK (g : Graph N) (rec : N → DState N → Int → Int → Res N) (f : Nat) : Prop :=
  ∀ r st dc fc, r ∈ g.getNodeList → st.disc r = none → undisc g st.disc ≤ f →
    (∀ v p, st.pred.get? v = some p → Step g false p v) →
    ∃ st' dc' fc' L M, rec r st dc fc = .ok (st', dc', fc') ∧ DRes g st st' dc dc' fc fc' L M ∧ r ∈ L ∧
      (∀ v ∈ L, Reach g false r v) ∧ L.head? = some r

theorem dfsFor_ok (hw : g.Wf) {rec : N → DState N → Int → Int → Res N} {f : Nat} (hrec : CallOK g rec f) (root : N)
    (l : List N) (hl : ∀ i ∈ l, Step g false root i) (st : DState N) (dc fc : Int) (hu : undisc g st.disc ≤ f)
    (hp : ∀ v p, st.pred.get? v = some p → Step g false p v) :
    ∃ st' dc' fc' L M, dfsFor rec root l st dc fc = .ok (st', dc', fc') ∧ DRes g st st' dc dc' fc fc' L M ∧
      (∀ i ∈ l, (st'.disc i).isSome) ∧ (∀ v ∈ L, Reach g false root v) := by
  induction l generalizing st dc fc with
  | nil => exact ⟨st, dc, fc, [], [], rfl, .refl dc fc hp, by simp, by simp⟩
  | cons i l ih =>
    have hs := hl i (by simp)
    have hl' : ∀ j ∈ l, Step g false root j := fun j hj => hl j (by simp [hj])
    rw [dfsFor]
    by_cases hd : st.disc i = none
    · rw [if_pos hd]
      obtain ⟨st1, dc1, fc1, L1, M1, e1, e2, e3, e4, _⟩ := hrec i { st with pred := st.pred.set i root } dc fc
        (step_node hw hs).2 hd hu (by
          intro v p hv
          replace hv : (st.pred.set i root).get? v = some p := hv
          rw [Dict.get?_set] at hv
          split at hv
          · next h => subst h; obtain rfl := Option.some.inj hv; exact hs
          · exact hp v p hv)
      have e2' : DRes g st st1 dc dc1 fc fc1 L1 M1 :=
        ⟨e2.ord, e2.nodup, e2.fresh, e2.nodeL, e2.some, e2.dkeep, e2.fkeep, e2.dcount, e2.fcount, e2.perm, e2.dtimes,
          e2.ftimes, e2.closed, e2.topo, e2.anc, e2.predOK⟩
      rw [e1]
      simp only []
      have hu1 : undisc g st1.disc ≤ f :=
        le_trans (undisc_mono fun v hv => (e2'.some v).2 (Or.inl hv)) hu
      obtain ⟨st2, dc2, fc2, L2, M2, r1, r2, r3, r4⟩ := ih hl' st1 dc1 fc1 hu1 e2'.predOK
      refine ⟨st2, dc2, fc2, L2 ++ L1, M1 ++ M2, r1, e2'.trans r2, ?_, ?_⟩
      · intro j hj
        rcases List.mem_cons.1 hj with rfl | hj
        · exact (r2.some j).2 (Or.inl ((e2'.some j).2 (Or.inr e3)))
        · exact r3 j hj
      · intro v hv
        rcases List.mem_append.1 hv with hv | hv
        · exact r4 v hv
        · exact .head hs (e4 v hv)
    · rw [if_neg hd]
      obtain ⟨st2, dc2, fc2, L2, M2, r1, r2, r3, r4⟩ := ih hl' st dc fc hu hp
      refine ⟨st2, dc2, fc2, L2, M2, r1, r2, ?_, r4⟩
      intro j hj
      rcases List.mem_cons.1 hj with rfl | hj
      · exact (r2.some j).2 (Or.inl (Option.isSome_iff_ne_none.2 hd))
      · exact r3 j hj

theorem dfs_ok (hw : g.Wf) (component : Option Int) (f : Nat) : CallOK g (dfs g component f) f := by
  induction f with
  | zero =>
    intro r st dc fc hr hd hu _
    exfalso
    have : r ∈ g.getNodeList.filter fun v => st.disc v = none := by simp [hr, hd]
    have := List.length_pos_of_mem this
    unfold undisc at hu
    omega
  | succ f ih =>
    intro r st dc fc hr hd hu hp
    obtain ⟨l, hl, hmem⟩ := nbrs_ok hw false hr
    have hl : g.getNeighbors r = .ok l := by simpa [nbrs] using hl
    have hn : g.hasNode r = true := by unfold Graph.hasNode; rw [Dict.contains_iff, hw.nodesEq]; exact hr
    have htp : touchPred g st.pred r = .ok () := by
      unfold touchPred
      split
      · rfl
      · next p h => exact touch_ok (hp r p h)
    have hsome0 : ∀ v, ((enter component r st dc).disc v).isSome ↔ (st.disc v).isSome ∨ v = r := by
      intro v
      show (upd st.disc r (some (dc + 1)) v).isSome = true ↔ _
      by_cases hv : v = r
      · subst hv; simp
      · rw [upd_ne _ _ hv]; simp [hv]
    have hu0 : undisc g (enter component r st dc).disc ≤ f := by
      have := undisc_lt (g := g) (d := st.disc) (d' := (enter component r st dc).disc)
        (fun v hv => (hsome0 v).2 (Or.inl hv)) hr hd ((hsome0 r).2 (Or.inr rfl))
      omega
    obtain ⟨st', dc', fc', L, M, e1, e2, e3, e4⟩ := dfsFor_ok hw ih r l (fun i hi => (hmem i).1 hi)
      (enter component r st dc) (dc + 1) fc hu0 hp
    have hrL : r ∉ L := by
      intro h
      have h1 := e2.fresh r h
      have h2 := (hsome0 r).2 (Or.inr rfl)
      rw [h1] at h2; cases h2
    refine ⟨leave r st' fc', dc', fc' + 1, r :: L, r :: M, ?_, ?_, by simp, ?_, rfl⟩
    · rw [dfs, if_neg (by simp [hn]), htp]
      simp only [hl, e1]
    · have hdr : (leave r st' fc').disc = st'.disc := rfl
      have hfin : (leave r st' fc').fin = upd st'.fin r (some fc') := rfl
      refine ⟨?_, ?_, ?_, ?_, ?_, ?_, ?_, ?_, ?_, ?_, ?_, ?_, ?_, ?_, ?_, e2.predOK⟩
      · show r :: st'.order = _
        rw [e2.ord]; rfl
      · exact List.nodup_cons.2 ⟨hrL, e2.nodup⟩
      · intro v hv
        rcases List.mem_cons.1 hv with rfl | hv
        · exact hd
        · have h1 := e2.fresh v hv
          cases h2 : st.disc v with
          | none => rfl
          | some x => have := (hsome0 v).2 (Or.inl (by simp [h2])); rw [h1] at this; cases this
      · intro v hv
        rcases List.mem_cons.1 hv with rfl | hv
        · exact hr
        · exact e2.nodeL v hv
      · intro v
        rw [hdr, e2.some, hsome0, List.mem_cons, or_assoc]
      · intro v hv
        rw [List.mem_cons, not_or] at hv
        rw [hdr, e2.dkeep v hv.2]
        exact upd_ne _ _ hv.1
      · intro v hv
        rw [List.mem_cons, not_or] at hv
        rw [hfin, upd_ne _ _ hv.1, e2.fkeep v hv.2]
        rfl
      · rw [e2.dcount]; simp; omega
      · rw [e2.fcount]; simp; omega
      · exact e2.perm.cons _
      · have : st'.disc r = some (dc + 1) := by
          rw [e2.dkeep r hrL]; exact upd_same _ _ _
        rw [hdr, List.map_cons, e2.dtimes, this]; rfl
      · have e : L.reverse.map (upd st'.fin r (some fc')) = L.reverse.map st'.fin := by
          refine List.map_congr_left fun v hv => upd_ne _ _ ?_
          rintro rfl; exact hrL (by simpa using hv)
        rw [hfin, List.reverse_cons, List.map_append, e, e2.ftimes, List.length_cons, ticks_add]
        simp [ticks, e2.fcount]
      · intro u v hu hs
        rw [hdr]
        rcases List.mem_cons.1 hu with rfl | hu
        · exact e3 v ((hmem v).2 hs)
        · exact e2.closed u v hu hs
      · intro A u B v hL hs
        cases A with
        | nil =>
          simp only [List.nil_append, List.cons.injEq] at hL
          obtain ⟨rfl, rfl⟩ := hL
          rcases (e2.some v).1 (e3 v ((hmem v).2 hs)) with h | h
          · rcases (hsome0 v).1 h with h | rfl
            · exact Or.inr (Or.inl h)
            · exact Or.inr (Or.inr .refl)
          · exact Or.inl h
        | cons a A =>
          simp only [List.cons_append, List.cons.injEq] at hL
          obtain ⟨rfl, rfl⟩ := hL
          rcases e2.topo A u B v rfl hs with h | h | h
          · exact Or.inl h
          · rcases (hsome0 v).1 h with h | rfl
            · exact Or.inr (Or.inl h)
            · exact Or.inr (Or.inr (e4 u (by simp)))
          · exact Or.inr (Or.inr h)
      · intro A v C u B hL hs x hx
        cases A with
        | nil =>
          simp only [List.nil_append, List.cons.injEq] at hL
          obtain ⟨rfl, rfl⟩ := hL
          refine e4 x ?_
          rcases List.mem_append.1 hx with h | h
          · simp [h]
          · simp at h; simp [h]
        | cons a A =>
          simp only [List.cons_append, List.cons.injEq] at hL
          obtain ⟨rfl, rfl⟩ := hL
          exact e2.anc A v C u B rfl hs x hx
    · intro v hv
      rcases List.mem_cons.1 hv with rfl | hv
      · exact .refl
      · exact e4 v hv

/-- the column `component`: newly discovered nodes have the component of the call, the others keep theirs -/
def CompOK (component : Option Int) (st st' : DState N) : Prop :=
  (∀ v, (st.disc v).isSome → (st'.disc v).isSome) ∧
    ∀ v, st'.comp v = if st.disc v = none ∧ (st'.disc v).isSome then component else st.comp v

theorem CompOK.trans {component : Option Int} {st st1 st2 : DState N} (h1 : CompOK component st st1)
    (h2 : CompOK component st1 st2) : CompOK component st st2 := by
  refine ⟨fun v h => h2.1 v (h1.1 v h), fun v => ?_⟩
  rw [h2.2, h1.2]
  have a1 := h1.1 v
  have a2 := h2.1 v
  cases hd : st.disc v <;> cases hd1 : st1.disc v <;> cases hd2 : st2.disc v <;> simp_all

theorem dfsFor_comp {component : Option Int} {rec : N → DState N → Int → Int → Res N}
    (h : ∀ r st dc fc st' dc' fc', st.disc r = none → rec r st dc fc = .ok (st', dc', fc') → CompOK component st st') (root : N)
    (l : List N) (st : DState N) (dc fc : Int) {st' : DState N} {dc' fc' : Int}
    (he : dfsFor rec root l st dc fc = .ok (st', dc', fc')) : CompOK component st st' := by
  induction l generalizing st dc fc with
  | nil => cases he; exact ⟨fun _ h => h, fun v => by cases st'.disc v <;> simp⟩
  | cons i l ih =>
    rw [dfsFor] at he
    split at he
    · next hd =>
      split at he
      · cases he
      · next st1 dc1 fc1 h1 => 
        have h2 : CompOK component st st1 := h i { st with pred := st.pred.set i root } dc fc st1 dc1 fc1 hd h1
        exact h2.trans (ih st1 dc1 fc1 he)
    · exact ih st dc fc he

theorem dfs_comp (component : Option Int) (f : Nat) : ∀ (r : N) (st : DState N) (dc fc : Int) (st' : DState N) (dc' fc' : Int),
    st.disc r = none → dfs g component f r st dc fc = .ok (st', dc', fc') → CompOK component st st' := by
  induction f with
  | zero => intro r st dc fc st' dc' fc' _ h; cases h
  | succ f ih =>
    intro r st dc fc st' dc' fc' hd h
    rw [dfs] at h
    split at h
    · cases h
    · split at h
      · cases h
      · split at h
        · cases h
        · split at h
          · cases h
          · next st1 dc1 fc1 h1 =>
            cases h
            have h2 := dfsFor_comp ih r _ _ _ _ h1
            have h3 : CompOK component st (enter component r st dc) := by
              refine ⟨fun v hv => ?_, fun v => ?_⟩
              · show (upd st.disc r (some (dc + 1)) v).isSome = true
                by_cases hv' : v = r
                · subst hv'; simp
                · rw [upd_ne _ _ hv']; exact hv
              · have e1 : (enter component r st dc).comp v = upd st.comp r component v := rfl
                have e2 : (enter component r st dc).disc v = upd st.disc r (some (dc + 1)) v := rfl
                rw [e1]
                simp only [e2]
                by_cases hv' : v = r
                · subst hv'; simp [hd]
                · simp only [upd_ne _ _ hv']
                  cases st.disc v <;> simp
            exact h3.trans h2

/-- a top-level call on a graph without discovery times -/
theorem dfs_fresh (hw : g.Wf) (component : Option Int) {f : Nat} {r : N} {st : DState N} (hr : r ∈ g.getNodeList)
    (hfresh : ∀ v, st.disc v = none) (hpred : st.pred = .empty) (hf : g.getNodeList.length ≤ f) (dc fc : Int) :
    ∃ st' dc' fc' L M, dfs g component f r st dc fc = .ok (st', dc', fc') ∧ DRes g st st' dc dc' fc fc' L M ∧
      (∀ v, v ∈ L ↔ Reach g false r v) ∧ L.head? = some r := by
  obtain ⟨st', dc', fc', L, M, h1, h2, h3, h4, h5⟩ := dfs_ok hw component f r st dc fc hr (hfresh r)
    (le_trans (List.length_filter_le _ _) hf) (by intro v p hv; rw [hpred] at hv; cases hv)
  refine ⟨st', dc', fc', L, M, h1, h2, fun v => ⟨h4 v, fun hv => ?_⟩, h5⟩
  induction hv with
  | refl => exact h3
  | tail _ hs ih =>
    have := (h2.some _).1 (h2.closed _ _ ih hs)
    rcases this with h | h
    · rw [hfresh] at h; cases h
    · exact h

end Dfs
end GiMPy
