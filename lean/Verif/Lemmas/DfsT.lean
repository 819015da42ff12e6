import Verif.Lemmas.Dfs

/-! # What a `dfs` call with `transpose=True` does -/

namespace GiMPy
namespace Dfs
open Search
variable {N : Type} [DecidableEq N] {g : Graph N}
set_option linter.unusedSectionVars false

theorem insertBy_perm (x : N × Int) : ∀ l : List (N × Int), (insertBy x l).Perm (x :: l)
  | [] => by simp [insertBy]
  | y :: l => by
    unfold insertBy
    split
    · exact .refl _
    · exact ((insertBy_perm x l).cons y).trans (.swap x y l)

theorem foldr_insertBy_perm : ∀ l : List (N × Int), (l.foldr insertBy []).Perm l
  | [] => .refl _
  | x :: l => (insertBy_perm x _).trans ((foldr_insertBy_perm l).cons x)

/-- if all neighbours have finish times, the loop runs over a permutation of them -/
theorem byFinish_ok {st : DState N} {l : List N} (h : ∀ v ∈ l, (st.fin v).isSome) :
    ∃ l', byFinish st l = .ok l' ∧ l'.Perm l := by
  unfold byFinish
  rw [if_neg]
  · refine ⟨_, rfl, (List.reverse_perm _).trans ?_⟩
    refine ((foldr_insertBy_perm _).map Prod.fst).trans ?_
    rw [List.map_map]
    have : (Prod.fst ∘ fun v => (v, (st.fin v).getD 0)) = (id : N → N) := rfl
    rw [this, List.map_id]
  · rintro ⟨_, v, hv, hn⟩
    have := h v hv
    rw [hn] at this; cases this

/-- effect of a transposed call with component `k`: `L` are the newly labelled nodes, last finished first; `M` the same
nodes, first discovered first -/
structure TRes (g : Graph N) (k : Int) (st st' : DState N) (dc dc' fc fc' : Int) (L M : List N) : Prop where
  ord : st'.order = L ++ st.order
  nodup : L.Nodup
  fresh : ∀ v ∈ L, st.comp v = none
  nodeL : ∀ v ∈ L, v ∈ g.getNodeList
  comp : ∀ v, st'.comp v = if v ∈ L then some k else st.comp v
  dkeep : ∀ v, v ∉ L → st'.disc v = st.disc v
  fkeep : ∀ v, v ∉ L → st'.fin v = st.fin v
  fsome : ∀ v ∈ L, (st'.fin v).isSome
  dcount : dc' = dc + L.length
  fcount : fc' = fc + L.length
  perm : M.Perm L
  dtimes : M.map st'.disc = ticks (dc + 1) L.length
  ftimes : L.reverse.map st'.fin = ticks fc L.length
  closed : ∀ u v, u ∈ L → Step g true u v → (st'.comp v).isSome
  pred : st'.pred = st.pred

theorem TRes.some {k : Int} {st st' : DState N} {dc dc' fc fc' : Int} {L M : List N}
    (h : TRes g k st st' dc dc' fc fc' L M) (v : N) : (st'.comp v).isSome ↔ (st.comp v).isSome ∨ v ∈ L := by
  rw [h.comp]; split <;> simp [*]

theorem TRes.refl {k : Int} {st : DState N} (dc fc : Int) : TRes g k st st dc dc fc fc [] [] :=
  ⟨by simp, by simp, by simp, by simp, by simp, by simp, by simp, by simp, by simp, by simp, by simp, by simp [ticks],
    by simp [ticks], by simp, rfl⟩

theorem TRes.trans {k : Int} {st st1 st2 : DState N} {dc dc1 dc2 fc fc1 fc2 : Int} {L1 M1 L2 M2 : List N}
    (h1 : TRes g k st st1 dc dc1 fc fc1 L1 M1) (h2 : TRes g k st1 st2 dc1 dc2 fc1 fc2 L2 M2) :
    TRes g k st st2 dc dc2 fc fc2 (L2 ++ L1) (M1 ++ M2) := by
  have hdisj : ∀ v, v ∈ L2 → v ∉ L1 := by
    intro v hv hv1
    have := h2.fresh v hv
    have h3 := (h1.some v).2 (Or.inr hv1)
    rw [this] at h3; cases h3
  refine ⟨?_, ?_, ?_, ?_, ?_, ?_, ?_, ?_, ?_, ?_, ?_, ?_, ?_, ?_, ?_⟩
  · rw [h2.ord, h1.ord, List.append_assoc]
  · exact List.nodup_append.2 ⟨h2.nodup, h1.nodup, fun a ha b hb hab => hdisj a ha (hab ▸ hb)⟩
  · intro v hv
    rcases List.mem_append.1 hv with hv | hv
    · have := h2.fresh v hv
      rw [h1.comp v, if_neg (hdisj v hv)] at this
      exact this
    · exact h1.fresh v hv
  · intro v hv
    rcases List.mem_append.1 hv with hv | hv
    · exact h2.nodeL v hv
    · exact h1.nodeL v hv
  · intro v
    rw [h2.comp, h1.comp]
    by_cases ha : v ∈ L2 <;> by_cases hb : v ∈ L1 <;> simp [ha, hb]
  · intro v hv
    rw [List.mem_append, not_or] at hv
    rw [h2.dkeep v hv.1, h1.dkeep v hv.2]
  · intro v hv
    rw [List.mem_append, not_or] at hv
    rw [h2.fkeep v hv.1, h1.fkeep v hv.2]
  · intro v hv
    by_cases h : v ∈ L2
    · exact h2.fsome v h
    · rw [h2.fkeep v h]
      rcases List.mem_append.1 hv with hv | hv
      · exact absurd hv h
      · exact h1.fsome v hv
  · rw [h2.dcount, h1.dcount]; simp; omega
  · rw [h2.fcount, h1.fcount]; simp; omega
  · exact (List.perm_append_comm).trans (h2.perm.append h1.perm)
  · have e : M1.map st2.disc = M1.map st1.disc := by
      refine List.map_congr_left fun v hv => h2.dkeep v fun h => hdisj v h (h1.perm.mem_iff.1 hv)
    rw [List.map_append, e, h1.dtimes, h2.dtimes, List.length_append, Nat.add_comm, ticks_add, h1.dcount]
    congr 2; omega
  · have e : L1.reverse.map st2.fin = L1.reverse.map st1.fin := by
      refine List.map_congr_left fun v hv => h2.fkeep v fun h => hdisj v h (by simpa using hv)
    rw [List.reverse_append, List.map_append, e, h1.ftimes, h2.ftimes, List.length_append, Nat.add_comm, ticks_add,
      h1.fcount]
  · intro u v hu hs
    rcases List.mem_append.1 hu with hu | hu
    · exact h2.closed u v hu hs
    · exact (h2.some v).2 (Or.inl (h1.closed u v hu hs))
  · rw [h2.pred, h1.pred]

/-- reachable against the edges through unlabelled nodes -/
abbrev UReach (g : Graph N) (comp : N → Option Int) : N → N → Prop :=
  Relation.ReflTransGen fun a b => Step g true a b ∧ comp b = none

theorem UReach.mono {c c' : N → Option Int} (h : ∀ v, c' v = none → c v = none) {u v : N} (hr : UReach g c' u v) :
    UReach g c u v := by
  induction hr with
  | refl => exact .refl
  | tail _ hs ih => exact ih.tail ⟨hs.1, h _ hs.2⟩

/-- specification of the recursive call used by the loop -/
def CallOKT (g : Graph N) (k : Int) (rec : N → DState N → Int → Int → Res N) (f : Nat) : Prop :=
  ∀ r st dc fc, r ∈ g.getNodeList → st.comp r = none → undisc g st.comp ≤ f →
    (∀ v ∈ g.getNodeList, (st.fin v).isSome) → st.pred = .empty →
    ∃ st' dc' fc' L M, rec r st dc fc = .ok (st', dc', fc') ∧ TRes g k st st' dc dc' fc fc' L M ∧ r ∈ L ∧
      (∀ v ∈ L, UReach g st.comp r v) ∧ L.head? = some r

theorem TRes.fin {k : Int} {st st' : DState N} {dc dc' fc fc' : Int} {L M : List N}
    (h : TRes g k st st' dc dc' fc fc' L M) (hf : ∀ v ∈ g.getNodeList, (st.fin v).isSome) :
    ∀ v ∈ g.getNodeList, (st'.fin v).isSome := by
  intro v hv
  by_cases hl : v ∈ L
  · exact h.fsome v hl
  · rw [h.fkeep v hl]; exact hf v hv

theorem TRes.unlab {k : Int} {st st' : DState N} {dc dc' fc fc' : Int} {L M : List N}
    (h : TRes g k st st' dc dc' fc fc' L M) (v : N) (hv : st'.comp v = none) : st.comp v = none := by
  rw [h.comp] at hv
  split at hv
  · cases hv
  · exact hv

theorem dfsForT_ok (hw : g.Wf) {k : Int} {rec : N → DState N → Int → Int → Res N} {f : Nat} (hrec : CallOKT g k rec f) (root : N)
    (l : List N) (hl : ∀ i ∈ l, Step g true root i) (st : DState N) (dc fc : Int) (hu : undisc g st.comp ≤ f)
    (hf : ∀ v ∈ g.getNodeList, (st.fin v).isSome) (hp : st.pred = .empty) :
    ∃ st' dc' fc' L M, dfsForT rec l st dc fc = .ok (st', dc', fc') ∧ TRes g k st st' dc dc' fc fc' L M ∧
      (∀ i ∈ l, (st'.comp i).isSome) ∧ (∀ v ∈ L, UReach g st.comp root v) := by
  induction l generalizing st dc fc with
  | nil => exact ⟨st, dc, fc, [], [], rfl, .refl dc fc, by simp, by simp⟩
  | cons i l ih =>
    have hs := hl i (by simp)
    have hl' : ∀ j ∈ l, Step g true root j := fun j hj => hl j (by simp [hj])
    rw [dfsForT]
    by_cases hd : st.comp i = none
    · rw [if_pos hd]
      obtain ⟨st1, dc1, fc1, L1, M1, e1, e2, e3, e4, _⟩ := hrec i st dc fc (step_node hw hs).2 hd hu hf hp
      rw [e1]
      simp only []
      have hu1 : undisc g st1.comp ≤ f :=
        le_trans (undisc_mono fun v hv => (e2.some v).2 (Or.inl hv)) hu
      obtain ⟨st2, dc2, fc2, L2, M2, r1, r2, r3, r4⟩ := ih hl' st1 dc1 fc1 hu1 (e2.fin hf) (by rw [e2.pred, hp])
      refine ⟨st2, dc2, fc2, L2 ++ L1, M1 ++ M2, r1, e2.trans r2, ?_, ?_⟩
      · intro j hj
        rcases List.mem_cons.1 hj with rfl | hj
        · exact (r2.some j).2 (Or.inl ((e2.some j).2 (Or.inr e3)))
        · exact r3 j hj
      · intro v hv
        rcases List.mem_append.1 hv with hv | hv
        · exact (r4 v hv).mono e2.unlab
        · exact .head ⟨hs, hd⟩ (e4 v hv)
    · rw [if_neg hd]
      obtain ⟨st2, dc2, fc2, L2, M2, r1, r2, r3, r4⟩ := ih hl' st dc fc hu hf hp
      refine ⟨st2, dc2, fc2, L2, M2, r1, r2, ?_, r4⟩
      intro j hj
      rcases List.mem_cons.1 hj with rfl | hj
      · exact (r2.some j).2 (Or.inl (Option.isSome_iff_ne_none.2 hd))
      · exact r3 j hj

theorem dfsT_ok (hw : g.Wf) (k : Int) (f : Nat) : CallOKT g k (dfsT g (some k) f) f := by
  induction f with
  | zero =>
    intro r st dc fc hr hd hu _ _
    exfalso
    have : r ∈ g.getNodeList.filter fun v => st.comp v = none := by simp [hr, hd]
    have := List.length_pos_of_mem this
    unfold undisc at hu
    omega
  | succ f ih =>
    intro r st dc fc hr hd hu hfin hp
    obtain ⟨l, hl, hmem⟩ := nbrs_ok hw true hr
    have hn : g.hasNode r = true := by unfold Graph.hasNode; rw [Dict.contains_iff, hw.nodesEq]; exact hr
    have htp : touchPred g st.pred r = .ok () := by
      rw [hp]; rfl
    have hcomp0 : ∀ v, (enter (some k) r st dc).comp v = if v = r then some k else st.comp v := by
      intro v
      show upd st.comp r (some k) v = _
      by_cases hv : v = r
      · subst hv; simp
      · rw [upd_ne _ _ hv]; simp [hv]
    have hsome0 : ∀ v, ((enter (some k) r st dc).comp v).isSome ↔ (st.comp v).isSome ∨ v = r := by
      intro v; rw [hcomp0]; split <;> simp [*]
    have hu0 : undisc g (enter (some k) r st dc).comp ≤ f := by
      have := undisc_lt (g := g) (d := st.comp) (d' := (enter (some k) r st dc).comp)
        (fun v hv => (hsome0 v).2 (Or.inl hv)) hr hd ((hsome0 r).2 (Or.inr rfl))
      omega
    obtain ⟨l', hl', hperm⟩ := byFinish_ok (st := enter (some k) r st dc) (l := l)
      (fun v hv => hfin v (step_node hw ((hmem v).1 hv)).2)
    have hmem' : ∀ v, v ∈ l' ↔ Step g true r v := fun v => hperm.mem_iff.trans (hmem v)
    obtain ⟨st', dc', fc', L, M, e1, e2, e3, e4⟩ := dfsForT_ok hw ih r l' (fun i hi => (hmem' i).1 hi)
      (enter (some k) r st dc) (dc + 1) fc hu0 hfin hp
    have hrL : r ∉ L := by
      intro h
      have h1 := e2.fresh r h
      have h2 := (hsome0 r).2 (Or.inr rfl)
      rw [h1] at h2; cases h2
    have hun : ∀ v, (enter (some k) r st dc).comp v = none → st.comp v = none := by
      intro v hv
      rw [hcomp0] at hv
      split at hv
      · cases hv
      · exact hv
    refine ⟨leave r st' fc', dc', fc' + 1, r :: L, r :: M, ?_, ?_, by simp, ?_, rfl⟩
    · rw [dfsT, if_neg (by simp [hn]), htp]
      simp only [hl, hl', e1]
    · have hdr : (leave r st' fc').disc = st'.disc := rfl
      have hcr : (leave r st' fc').comp = st'.comp := rfl
      have hfin' : (leave r st' fc').fin = upd st'.fin r (some fc') := rfl
      refine ⟨?_, ?_, ?_, ?_, ?_, ?_, ?_, ?_, ?_, ?_, ?_, ?_, ?_, ?_, e2.pred⟩
      · show r :: st'.order = _
        rw [e2.ord]; rfl
      · exact List.nodup_cons.2 ⟨hrL, e2.nodup⟩
      · intro v hv
        rcases List.mem_cons.1 hv with rfl | hv
        · exact hd
        · exact hun v (e2.fresh v hv)
      · intro v hv
        rcases List.mem_cons.1 hv with rfl | hv
        · exact hr
        · exact e2.nodeL v hv
      · intro v
        rw [hcr, e2.comp, hcomp0]
        by_cases ha : v ∈ L <;> by_cases hb : v = r <;> simp [ha, hb]
      · intro v hv
        rw [List.mem_cons, not_or] at hv
        rw [hdr, e2.dkeep v hv.2]
        exact upd_ne _ _ hv.1
      · intro v hv
        rw [List.mem_cons, not_or] at hv
        rw [hfin', upd_ne _ _ hv.1, e2.fkeep v hv.2]
        rfl
      · intro v hv
        rw [hfin']
        by_cases h : v = r
        · subst h; simp
        · rw [upd_ne _ _ h]
          rcases List.mem_cons.1 hv with hv | hv
          · exact absurd hv h
          · exact e2.fsome v hv
      · rw [e2.dcount]; simp; omega
      · rw [e2.fcount]; simp; omega
      · exact e2.perm.cons _
      · have : st'.disc r = some (dc + 1) := by
          rw [e2.dkeep r hrL]; exact upd_same _ _ _
        rw [hdr, List.map_cons, e2.dtimes, this]; rfl
      · have e : L.reverse.map (upd st'.fin r (some fc')) = L.reverse.map st'.fin := by
          refine List.map_congr_left fun v hv => upd_ne _ _ ?_
          rintro rfl; exact hrL (by simpa using hv)
        rw [hfin', List.reverse_cons, List.map_append, e, e2.ftimes, List.length_cons, ticks_add]
        simp [ticks, e2.fcount]
      · intro u v hu hs
        rw [hcr]
        rcases List.mem_cons.1 hu with rfl | hu
        · exact e3 v ((hmem' v).2 hs)
        · exact e2.closed u v hu hs
    · intro v hv
      rcases List.mem_cons.1 hv with rfl | hv
      · exact .refl
      · exact (e4 v hv).mono hun

/-- a top-level transposed call -/
theorem dfsT_top (hw : g.Wf) (k : Int) {f : Nat} {r : N} {st : DState N} (hr : r ∈ g.getNodeList) (hc : st.comp r = none)
    (hfin : ∀ v ∈ g.getNodeList, (st.fin v).isSome) (hpred : st.pred = .empty) (hf : g.getNodeList.length ≤ f) (dc fc : Int) :
    ∃ st' dc' fc' L M, dfsT g (some k) f r st dc fc = .ok (st', dc', fc') ∧ TRes g k st st' dc dc' fc fc' L M ∧
      (∀ v, v ∈ L ↔ UReach g st.comp r v) ∧ L.head? = some r := by
  obtain ⟨st', dc', fc', L, M, h1, h2, h3, h4, h5⟩ := dfsT_ok hw k f r st dc fc hr hc
    (le_trans (List.length_filter_le _ _) hf) hfin hpred
  refine ⟨st', dc', fc', L, M, h1, h2, fun v => ⟨h4 v, fun hv => ?_⟩, h5⟩
  induction hv with
  | refl => exact h3
  | tail _ hs ih =>
    have := (h2.some _).1 (h2.closed _ _ ih hs.1)
    rcases this with h | h
    · rw [hs.2] at h; cases h
    · exact h

/-! ## The default `component=None` -/

/-- with `component=None` a transposed call changes no label and removes no finish time; it returns or runs out of fuel -/
def Quiet (g : Graph N) (rec : N → DState N → Int → Int → Res N) : Prop :=
  ∀ r st dc fc, r ∈ g.getNodeList → (∀ v, st.comp v = none) → (∀ v ∈ g.getNodeList, (st.fin v).isSome) → st.pred = .empty →
    rec r st dc fc = .error .diverge ∨ ∃ st' dc' fc', rec r st dc fc = .ok (st', dc', fc') ∧ (∀ v, st'.comp v = none) ∧
      (∀ v ∈ g.getNodeList, (st'.fin v).isSome) ∧ st'.pred = .empty

theorem dfsForT_quiet {rec : N → DState N → Int → Int → Res N} (h : Quiet g rec) (l : List N)
    (hl : ∀ i ∈ l, i ∈ g.getNodeList) (st : DState N) (dc fc : Int) (hc : ∀ v, st.comp v = none)
    (hf : ∀ v ∈ g.getNodeList, (st.fin v).isSome) (hp : st.pred = .empty) :
    ((∃ i ∈ l, ∀ st dc fc, (∀ v, st.comp v = none) → (∀ v ∈ g.getNodeList, (st.fin v).isSome) → st.pred = .empty →
      rec i st dc fc = .error .diverge) → dfsForT rec l st dc fc = .error .diverge) ∧
    (dfsForT rec l st dc fc = .error .diverge ∨ ∃ st' dc' fc', dfsForT rec l st dc fc = .ok (st', dc', fc') ∧
      (∀ v, st'.comp v = none) ∧ (∀ v ∈ g.getNodeList, (st'.fin v).isSome) ∧ st'.pred = .empty) := by
  induction l generalizing st dc fc with
  | nil => exact ⟨fun ⟨i, hi, _⟩ => (List.not_mem_nil hi).elim, .inr ⟨st, dc, fc, rfl, hc, hf, hp⟩⟩
  | cons i l ih =>
    rw [dfsForT, if_pos (hc i)]
    rcases h i st dc fc (hl i (by simp)) hc hf hp with h1 | ⟨st1, dc1, fc1, h1, h2, h3, h4⟩
    · rw [h1]; exact ⟨fun _ => rfl, .inl rfl⟩
    · rw [h1]
      obtain ⟨i1, i2⟩ := ih (fun j hj => hl j (by simp [hj])) st1 dc1 fc1 h2 h3 h4
      refine ⟨?_, i2⟩
      rintro ⟨j, hj, hdiv⟩
      rcases List.mem_cons.1 hj with rfl | hj
      · rw [hdiv st dc fc hc hf hp] at h1; cases h1
      · exact i1 ⟨j, hj, hdiv⟩

theorem dfsT_quiet (hw : g.Wf) (f : Nat) : Quiet g (dfsT g none f) := by
  induction f with
  | zero => intro r st dc fc _ _ _ _; exact .inl rfl
  | succ f ih =>
    intro r st dc fc hr hc hfin hp
    obtain ⟨l, hl, hmem⟩ := nbrs_ok hw true hr
    have hn : g.hasNode r = true := by unfold Graph.hasNode; rw [Dict.contains_iff, hw.nodesEq]; exact hr
    have htp : touchPred g st.pred r = .ok () := by rw [hp]; rfl
    have hc0 : ∀ v, (enter none r st dc).comp v = none := by
      intro v
      show upd st.comp r none v = _
      by_cases hv : v = r
      · subst hv; simp
      · rw [upd_ne _ _ hv]; exact hc v
    obtain ⟨l', hl', hperm⟩ := byFinish_ok (st := enter none r st dc) (l := l)
      (fun v hv => hfin v (step_node hw ((hmem v).1 hv)).2)
    have hin : ∀ i ∈ l', i ∈ g.getNodeList := fun i hi => (step_node hw ((hmem i).1 (hperm.mem_iff.1 hi))).2
    rw [dfsT, if_neg (by simp [hn]), htp]
    simp only [hl, hl']
    rcases (dfsForT_quiet ih l' hin (enter none r st dc) (dc + 1) fc hc0 hfin hp).2 with h1 | ⟨st1, dc1, fc1, h1, h2, h3, h4⟩
    · rw [h1]; exact .inl rfl
    · rw [h1]
      refine .inr ⟨_, _, _, rfl, h2, ?_, h4⟩
      intro v hv
      show ((upd st1.fin r (some fc1)) v).isSome
      by_cases h : v = r
      · subst h; simp
      · rw [upd_ne _ _ h]; exact h3 v hv

/-- a node with a step to another such node never finishes -/
theorem dfsT_none_diverges (hw : g.Wf) {P : N → Prop} (hP : ∀ v, P v → ∃ w, Step g true v w ∧ P w) (f : Nat) :
    ∀ (r : N) (st : DState N) (dc fc : Int), P r → (∀ v, st.comp v = none) → (∀ v ∈ g.getNodeList, (st.fin v).isSome) →
      st.pred = .empty → dfsT g none f r st dc fc = .error .diverge := by
  induction f with
  | zero => intro r st dc fc _ _ _ _; rfl
  | succ f ih =>
    intro r st dc fc hr hc hfin hp
    obtain ⟨w, hs, hw'⟩ := hP r hr
    have hrn := (step_node hw hs).1
    obtain ⟨l, hl, hmem⟩ := nbrs_ok hw true hrn
    have hn : g.hasNode r = true := by unfold Graph.hasNode; rw [Dict.contains_iff, hw.nodesEq]; exact hrn
    have htp : touchPred g st.pred r = .ok () := by rw [hp]; rfl
    have hc0 : ∀ v, (enter none r st dc).comp v = none := by
      intro v
      show upd st.comp r none v = _
      by_cases hv : v = r
      · subst hv; simp
      · rw [upd_ne _ _ hv]; exact hc v
    obtain ⟨l', hl', hperm⟩ := byFinish_ok (st := enter none r st dc) (l := l)
      (fun v hv => hfin v (step_node hw ((hmem v).1 hv)).2)
    have hin : ∀ i ∈ l', i ∈ g.getNodeList := fun i hi => (step_node hw ((hmem i).1 (hperm.mem_iff.1 hi))).2
    rw [dfsT, if_neg (by simp [hn]), htp]
    simp only [hl, hl']
    rw [(dfsForT_quiet (dfsT_quiet hw f) l' hin (enter none r st dc) (dc + 1) fc hc0 hfin hp).1
      ⟨w, hperm.mem_iff.2 ((hmem w).2 hs), fun st dc fc h1 h2 h3 => ih w st dc fc hw' h1 h2 h3⟩]

end Dfs
end GiMPy
