import Verif.Model.MaxFlowPic
import Verif.Lemmas.MaxFlow

/-! # Lemmas on the colours and labels that `max_flow` leaves -/

namespace GiMPy
open MaxFlow Search
variable {N : Type} [DecidableEq N] {Q : Type} {g : Graph N} {O : QOps N Q} {items : Q → List N}
variable {cap f : N × N → Int} {src sink : N}

/-! ## the picture does not influence the flow -/

theorem scanP_map (cur : N) (out l : List N) (st : XState N Q) (p : FPic N) :
    (scanP g O f cur out l st p).map Prod.fst = scan g O f cur out l st := by
  induction l generalizing st p with
  | nil => rfl
  | cons m l ih =>
    unfold scanP scan
    by_cases h : m ∈ st.explored
    · rw [if_pos h, if_pos h]; exact ih _ _
    · rw [if_neg h, if_neg h]
      cases avail g f cur out m with
      | error e => rfl
      | ok a =>
        simp only []
        by_cases ha : a > 0
        · rw [if_pos ha, if_pos ha]; exact ih _ _
        · rw [if_neg ha, if_neg ha]; exact ih _ _

theorem findP_map (k : Nat) (st : XState N Q) (p : FPic N) :
    (findP g O f sink k st p).map Prod.fst = find g O f sink k st := by
  induction k generalizing st p with
  | zero => rfl
  | succ k ih =>
    unfold findP find
    by_cases h : O.isEmpty st.q
    · rw [if_pos h, if_pos h]; rfl
    · rw [if_neg h, if_neg h]
      cases O.peek st.q with
      | none => rfl
      | some cur =>
        simp only []
        by_cases hc : cur = sink
        · rw [if_pos hc, if_pos hc]; rfl
        · rw [if_neg hc, if_neg hc]
          cases g.getNeighbors cur with
          | error e => rfl
          | ok out =>
            simp only []
            cases g.getInNeighbors cur with
            | error e => rfl
            | ok inn =>
              simp only []
              rw [← scanP_map cur out (out ++ inn) { st with q := O.remove st.q cur } p]
              cases scanP g O f cur out (out ++ inn) { st with q := O.remove st.q cur } p with
              | error e => rfl
              | ok s => exact ih _ _

theorem pushArcP_map (f : N × N → Int) (p : FPic N) (m cur : N) (d : Int) :
    (pushArcP g f p m cur d).map Prod.fst = pushArc g f m cur d := by
  unfold pushArcP pushArc
  by_cases h : g.edgeAttr.contains (m, cur)
  · rw [if_pos h, if_pos h]; rfl
  · rw [if_neg h, if_neg h]
    by_cases h2 : g.edgeAttr.contains (cur, m)
    · rw [if_pos h2, if_pos h2]; rfl
    · rw [if_neg h2, if_neg h2]; rfl

theorem augmentP_map (pred : Dict N (Option N)) (d : Int) (k : Nat) (cur : N) (f : N × N → Int) (p : FPic N) :
    (augmentP g pred src d k cur f p).map Prod.fst = augment g pred src d k cur f := by
  induction k generalizing cur f p with
  | zero => rfl
  | succ k ih =>
    unfold augmentP augment
    cases pred.get? cur with
    | none => rfl
    | some o =>
      cases o with
      | none => rfl
      | some m =>
        simp only []
        rw [← pushArcP_map f p m cur d]
        cases pushArcP g f p m cur d with
        | error e => rfl
        | ok s =>
          simp only [Except.map]
          by_cases h : m = src
          · rw [if_pos h, if_pos h]
          · rw [if_neg h, if_neg h]; exact ih _ _ _

theorem loopP_map (newQ : Q) (inner k : Nat) (f : N × N → Int) (p : FPic N) :
    (MaxFlow.loopP g O newQ src sink inner k f p).map Prod.fst = MaxFlow.loop g O newQ src sink inner k f := by
  induction k generalizing f p with
  | zero => rfl
  | succ k ih =>
    unfold MaxFlow.loopP MaxFlow.loop
    rw [← findP_map inner _ (reset g f p)]
    cases findP g O f sink inner ⟨O.push newQ src, Dict.empty.set src none, [src]⟩ (reset g f p) with
    | error e => rfl
    | ok s =>
      obtain ⟨st, p1⟩ := s
      simp only [Except.map]
      by_cases h : st.pred.contains sink
      · rw [if_pos h, if_pos h]
        cases bottleneck g f st.pred src inner sink none with
        | error e => rfl
        | ok d =>
          simp only []
          rw [← augmentP_map st.pred d inner sink f p1]
          cases augmentP g st.pred src d inner sink f p1 with
          | error e => rfl
          | ok s => exact ih _ _
      · rw [if_neg h, if_neg h]

theorem maxFlowP_map (newQ : Q) (p : FPic N) (fuel : Nat) :
    (maxFlowP g O newQ src sink p fuel).map Prod.fst = maxFlow g O newQ src sink fuel := loopP_map ..

/-! ## the last search -/

/-- the colour of an arc tells its flow: black for 0, red for the capacity, green for anything else -/
def TellsFlow (c x : Int) (col : FColor) : Prop :=
  (col = .black ∧ x = 0) ∨ (col = .red ∧ x = c) ∨ (col = .green ∧ x ≠ 0 ∧ x ≠ c)

/-- invariant of the search; `X u v` says that `v` has been looked at from `u` -/
structure PicInv (g : Graph N) (cap f : N × N → Int) (items : Q → List N) (src : N) (X : N → N → Prop) (st : XState N Q)
    (p : FPic N) : Prop where
  keys : ∀ v, v ∈ st.pred.keys ↔ v ∈ st.explored
  item : ∀ v ∈ items st.q, v ∈ st.explored
  seen : ∀ u v, X u v → u ∈ st.explored
  source : src ∈ st.explored
  isNode : ∀ v ∈ st.explored, v ∈ g.getNodeList
  node : ∀ v, p.node v = if v ∈ st.explored ∧ v ≠ src then .blue else .black
  arc : ∀ u v, (u, v) ∈ g.getEdgeList → TellsFlow (cap (u, v)) (f (u, v)) (p.edge (u, v)) ∨
    (p.edge (u, v) = .blue ∧ u ∈ st.explored ∧ v ∈ st.explored)
  out : ∀ u v, (u, v) ∈ g.getEdgeList → X u v → v ∉ st.explored → f (u, v) = cap (u, v) ∧ p.edge (u, v) = .red
  inn : ∀ u v, (u, v) ∈ g.getEdgeList → X v u → u ∉ st.explored → f (u, v) = 0 ∧
    p.edge (u, v) = if cap (u, v) = 0 then .red else .black

theorem scanP_inv (hwf : g.Wf) (hb : LawfulBag O items) (hc : HasCaps g cap) (hw : Within g.getEdgeList cap f)
    (hanti : ∀ u v, u ≠ v → (u, v) ∈ g.getEdgeList → (v, u) ∉ g.getEdgeList) {cur : N} {out : List N}
    (hout : ∀ v, v ∈ out ↔ (cur, v) ∈ g.getEdgeList) (X : N → N → Prop) (l : List N) (hl : ∀ m ∈ l, Adj g cur m)
    (done : List N) (st : XState N Q) (p : FPic N) (hcur : cur ∈ st.explored)
    (h : PicInv g cap f items src (fun u v => X u v ∨ (u = cur ∧ v ∈ done)) st p) {st' : XState N Q} {p' : FPic N}
    (he : scanP g O f cur out l st p = .ok (st', p')) :
    p'.label = p.label ∧ (∀ v, v ∈ items st'.q ↔ v ∈ items st.q ∨ (v ∈ st'.explored ∧ v ∉ st.explored)) ∧
    (∀ v ∈ st.explored, v ∈ st'.explored) ∧
    PicInv g cap f items src (fun u v => X u v ∨ (u = cur ∧ (v ∈ l ∨ v ∈ done))) st' p' := by
  induction l generalizing done st p with
  | nil =>
    cases he
    refine ⟨rfl, fun v => by tauto, fun v h => h, by simpa using h⟩
  | cons m l ih =>
    have hl' : ∀ x ∈ l, Adj g cur x := fun x hx => hl x (by simp [hx])
    have hX : (fun u v => X u v ∨ (u = cur ∧ (v ∈ m :: l ∨ v ∈ done))) = fun u v => X u v ∨ (u = cur ∧ (v ∈ l ∨ v ∈ m :: done)) := by
      funext u v; simp only [List.mem_cons, eq_iff_iff]; tauto
    rw [hX]
    unfold scanP at he
    by_cases hm : m ∈ st.explored
    · rw [if_pos hm] at he
      refine ih hl' (m :: done) st p hcur ?_ he
      refine ⟨h.keys, h.item, ?_, h.source, h.isNode, h.node, h.arc, ?_, ?_⟩
      · rintro u v (hx | ⟨rfl, _⟩)
        · exact h.seen u v (.inl hx)
        · exact hcur
      · rintro u v huv (hx | ⟨rfl, hx⟩) hv
        · exact h.out u v huv (.inl hx) hv
        · rcases List.mem_cons.1 hx with rfl | hx
          · exact absurd hm hv
          · exact h.out u v huv (.inr ⟨rfl, hx⟩) hv
      · rintro u v huv (hx | ⟨rfl, hx⟩) hv
        · exact h.inn u v huv (.inl hx) hv
        · rcases List.mem_cons.1 hx with rfl | hx
          · exact absurd hm hv
          · exact h.inn u v huv (.inr ⟨rfl, hx⟩) hv
    · rw [if_neg hm] at he
      have hadj := hl m (by simp)
      rw [avail_ok hc (hout m) hadj] at he
      simp only [] at he
      have hmc : m ≠ cur := by rintro rfl; exact hm hcur
      have hms : m ≠ src := by rintro rfl; exact hm h.source
      -- the arc between `cur` and `m`
      have hk : (arcKey cur out m = (cur, m) ∧ (cur, m) ∈ g.getEdgeList ∧ (m, cur) ∉ g.getEdgeList ∧
            pot g cap f cur m = cap (cur, m) - f (cur, m)) ∨
          (arcKey cur out m = (m, cur) ∧ (m, cur) ∈ g.getEdgeList ∧ (cur, m) ∉ g.getEdgeList ∧
            pot g cap f cur m = f (m, cur)) := by
        unfold arcKey pot
        by_cases h1 : (cur, m) ∈ g.getEdgeList
        · rw [if_pos ((hout m).2 h1), if_pos h1]
          exact .inl ⟨rfl, h1, hanti _ _ (Ne.symm hmc) h1, rfl⟩
        · rw [if_neg (fun h => h1 ((hout m).1 h)), if_neg h1]
          exact .inr ⟨rfl, hadj.resolve_left h1, h1, rfl⟩
      have hkm : arcKey cur out m ∈ g.getEdgeList := by
        rcases hk with ⟨h1, h2, _⟩ | ⟨h1, h2, _⟩ <;> rw [h1] <;> exact h2
      -- an arc between an explored and an unexplored node other than `m` is not this one
      by_cases ha : pot g cap f cur m > 0
      · rw [if_pos ha] at he
        obtain ⟨i1, i2, i3, i4⟩ := ih hl' (m :: done)
          (⟨O.push st.q m, st.pred.set m (some cur), m :: st.explored⟩ : XState N Q)
          ((p.paint m (arcKey cur out m) .yellow .yellow).paint m (arcKey cur out m) .blue .blue)
          (by simp [hcur]) (by
            have hedge : ∀ e, ((p.paint m (arcKey cur out m) .yellow .yellow).paint m (arcKey cur out m) .blue .blue).edge e =
                if e = arcKey cur out m then .blue else p.edge e := by
              intro e; simp only [FPic.paint, upd]; split <;> rfl
            refine ⟨?_, ?_, ?_, ?_, ?_, ?_, ?_, ?_, ?_⟩
            · intro v; simp only [Dict.mem_keys_set, List.mem_cons, h.keys v]
            · intro v hv
              rcases (hb.mem_push _ _ _).1 hv with rfl | hv
              · simp
              · exact List.mem_cons_of_mem _ (h.item v hv)
            · rintro u v (hx | ⟨rfl, _⟩)
              · exact List.mem_cons_of_mem _ (h.seen u v (.inl hx))
              · exact List.mem_cons_of_mem _ hcur
            · exact List.mem_cons_of_mem _ h.source
            · intro v hv
              rcases List.mem_cons.1 hv with rfl | hv
              · exact hadj.elim (fun h => (hwf.endp _ _ h).2) fun h => (hwf.endp _ _ h).1
              · exact h.isNode v hv
            · intro v
              simp only [FPic.paint, upd, List.mem_cons]
              by_cases hv : v = m
              · subst hv; simp [hms]
              · simp only [if_neg hv, hv, false_or]; exact h.node v
            · intro u v huv
              rw [hedge]
              by_cases hek : (u, v) = arcKey cur out m
              · rw [if_pos hek]
                right
                refine ⟨rfl, ?_⟩
                rcases hk with ⟨h1, _⟩ | ⟨h1, _⟩ <;> rw [h1] at hek <;> cases hek <;> simp [hcur]
              · rw [if_neg hek]
                refine (h.arc u v huv).imp id ?_
                rintro ⟨h1, h2, h3⟩
                exact ⟨h1, List.mem_cons_of_mem _ h2, List.mem_cons_of_mem _ h3⟩
            · intro u v huv hx hv
              simp only [List.mem_cons, not_or] at hv
              rw [hedge, if_neg]
              · refine h.out u v huv ?_ hv.2
                rcases hx with hx | ⟨rfl, hx⟩
                · exact .inl hx
                · exact .inr ⟨rfl, (List.mem_cons.1 hx).resolve_left hv.1⟩
              · intro hek
                rcases hk with ⟨h1, _⟩ | ⟨h1, _⟩ <;> rw [h1] at hek <;> cases hek
                · exact hv.1 rfl
                · exact hv.2 hcur
            · intro u v huv hx hv
              simp only [List.mem_cons, not_or] at hv
              rw [hedge, if_neg]
              · refine h.inn u v huv ?_ hv.2
                rcases hx with hx | ⟨rfl, hx⟩
                · exact .inl hx
                · exact .inr ⟨rfl, (List.mem_cons.1 hx).resolve_left hv.1⟩
              · intro hek
                rcases hk with ⟨h1, _⟩ | ⟨h1, _⟩ <;> rw [h1] at hek <;> cases hek
                · exact hv.2 hcur
                · exact hv.1 rfl) he
        refine ⟨i1, fun v => ?_, fun v hv => i3 v (List.mem_cons_of_mem _ hv), i4⟩
        rw [i2, hb.mem_push]
        simp only [List.mem_cons, not_or]
        constructor
        · rintro ((rfl | hv) | hv)
          · exact .inr ⟨i3 v (by simp), hm⟩
          · exact .inl hv
          · exact .inr ⟨hv.1, hv.2.2⟩
        · rintro (hv | hv)
          · exact .inl (.inr hv)
          · by_cases hvm : v = m
            · exact .inl (.inl hvm)
            · exact .inr ⟨hv.1, hvm, hv.2⟩
      · rw [if_neg ha] at he
        have hedge : ∀ e, ((p.paint m (arcKey cur out m) .yellow .yellow).paint m (arcKey cur out m) .black
            (fullColor g f (arcKey cur out m))).edge e =
            if e = arcKey cur out m then fullColor g f (arcKey cur out m) else p.edge e := by
          intro e; simp only [FPic.paint, upd]; split <;> rfl
        have hnode : ∀ v, ((p.paint m (arcKey cur out m) .yellow .yellow).paint m (arcKey cur out m) .black
            (fullColor g f (arcKey cur out m))).node v = p.node v := by
          intro v; simp only [FPic.paint, upd]
          by_cases hv : v = m
          · subst hv; rw [if_pos rfl, h.node v]; simp [hm]
          · rw [if_neg hv, if_neg hv]
        have hwk := hw _ hkm
        have hcap : g.capOf (arcKey cur out m).1 (arcKey cur out m).2 = .ok (cap (arcKey cur out m)) := hc _ _ hkm
        have hfull : fullColor g f (arcKey cur out m) =
            if cap (arcKey cur out m) = f (arcKey cur out m) then .red else if f (arcKey cur out m) = 0 then .black else .yellow := by
          unfold fullColor atCap; rw [hcap]; simp only [beq_iff_eq, eq_comm (a := cap _)]
        refine ih hl' (m :: done) st ((p.paint m (arcKey cur out m) .yellow .yellow).paint m (arcKey cur out m) .black (fullColor g f (arcKey cur out m))) hcur ?_ he
        refine ⟨h.keys, h.item, ?_, h.source, h.isNode, fun v => by rw [hnode]; exact h.node v, ?_, ?_, ?_⟩
        · rintro u v (hx | ⟨rfl, _⟩)
          · exact h.seen u v (.inl hx)
          · exact hcur
        · intro u v huv
          rw [hedge]
          by_cases hek : (u, v) = arcKey cur out m
          · rw [if_pos hek, hek, hfull]
            left
            unfold TellsFlow
            rcases hk with ⟨h1, _, _, h2⟩ | ⟨h1, _, _, h2⟩ <;> rw [h1] at hwk ⊢
            · rw [if_pos (by omega)]; exact .inr (.inl ⟨rfl, by omega⟩)
            · have : f (m, cur) = 0 := by omega
              by_cases h3 : cap (m, cur) = f (m, cur)
              · rw [if_pos h3]; exact .inr (.inl ⟨rfl, h3.symm⟩)
              · rw [if_neg h3, if_pos this]; exact .inl ⟨rfl, this⟩
          · rw [if_neg hek]; exact h.arc u v huv
        · intro u v huv hx hv
          rw [hedge]
          by_cases hek : (u, v) = arcKey cur out m
          · rw [if_pos hek, hek, hfull]
            rcases hk with ⟨h1, _, _, h2⟩ | ⟨h1, _, _, h2⟩
            · rw [h1] at hwk ⊢
              rw [if_pos (by omega)]; exact ⟨by omega, rfl⟩
            · rw [h1] at hek; cases hek
              exact absurd hcur hv
          · rw [if_neg hek]
            refine h.out u v huv ?_ hv
            rcases hx with hx | ⟨rfl, hx⟩
            · exact .inl hx
            · refine .inr ⟨rfl, (List.mem_cons.1 hx).resolve_left ?_⟩
              rintro rfl
              rcases hk with ⟨h1, _⟩ | ⟨_, _, h1, _⟩
              · exact hek h1.symm
              · exact h1 huv
        · intro u v huv hx hv
          rw [hedge]
          by_cases hek : (u, v) = arcKey cur out m
          · rw [if_pos hek, hek, hfull]
            rcases hk with ⟨h1, _, _, h2⟩ | ⟨h1, _, _, h2⟩
            · rw [h1] at hek; cases hek
              exact absurd hcur hv
            · rw [h1] at hwk ⊢
              have : f (m, cur) = 0 := by omega
              refine ⟨this, ?_⟩
              rw [this]
              by_cases h3 : cap (m, cur) = 0
              · rw [if_pos h3, if_pos h3]
              · rw [if_neg h3, if_neg h3, if_pos rfl]
          · rw [if_neg hek]
            refine h.inn u v huv ?_ hv
            rcases hx with hx | ⟨rfl, hx⟩
            · exact .inl hx
            · refine .inr ⟨rfl, (List.mem_cons.1 hx).resolve_left ?_⟩
              rintro rfl
              rcases hk with ⟨_, _, h1, _⟩ | ⟨h1, _⟩
              · exact h1 huv
              · exact hek h1.symm

/-- what the search leaves when the queue has run empty -/
theorem findP_inv (hwf : g.Wf) (hd : g.directed = true) (hb : LawfulBag O items) (hc : HasCaps g cap)
    (hw : Within g.getEdgeList cap f)
    (hanti : ∀ u v, u ≠ v → (u, v) ∈ g.getEdgeList → (v, u) ∉ g.getEdgeList) (k : Nat) (X : N → Prop)
    (st : XState N Q) (p : FPic N) (hcl : ∀ v ∈ st.explored, X v ∨ v ∈ items st.q)
    (h : PicInv g cap f items src (fun u v => X u ∧ Adj g u v) st p) {st' : XState N Q} {p' : FPic N}
    (he : findP g O f sink k st p = .ok (st', p')) (hsk : sink ∉ st'.pred.keys) :
    PicInv g cap f items src (fun u v => u ∈ st'.explored ∧ Adj g u v) st' p' := by
  induction k generalizing X st p with
  | zero => cases he
  | succ k ih =>
    unfold findP at he
    by_cases hem : O.isEmpty st.q
    · rw [if_pos hem] at he
      cases he
      refine ⟨h.keys, h.item, fun u v hx => hx.1, h.source, h.isNode, h.node, h.arc, ?_, ?_⟩
      · intro u v huv hx
        refine h.out u v huv ⟨(hcl u hx.1).resolve_right ?_, hx.2⟩
        rw [(hb.isEmpty_iff _).1 hem]; simp
      · intro u v huv hx
        refine h.inn u v huv ⟨(hcl v hx.1).resolve_right ?_, hx.2⟩
        rw [(hb.isEmpty_iff _).1 hem]; simp
    · rw [if_neg hem] at he
      obtain ⟨cur, hcq, hp⟩ := hb.peek_mem st.q (fun h => hem ((hb.isEmpty_iff _).2 h))
      rw [hp] at he
      simp only [] at he
      have hce := h.item cur hcq
      by_cases hs : cur = sink
      · rw [if_pos hs] at he
        cases he
        exact absurd ((h.keys cur).2 hce) (hs ▸ hsk)
      · rw [if_neg hs] at he
        obtain ⟨out, inn, h1, h2, h3, h4⟩ := nbrs_edges hwf hd (h.isNode cur hce)
        simp only [h1, h2] at he
        cases hsc : scanP g O f cur out (out ++ inn) { st with q := O.remove st.q cur } p with
        | error e => rw [hsc] at he; cases he
        | ok s =>
          obtain ⟨st1, p1⟩ := s
          rw [hsc] at he
          simp only [] at he
          have hrem : ∀ v, v ∈ items (O.remove st.q cur) → v ∈ items st.q := by
            intro v hv
            by_cases hvc : v = cur
            · rw [hvc]; exact hcq
            · exact (hb.mem_remove _ _ hcq v hvc).1 hv
          obtain ⟨-, i2, i3, i4⟩ := scanP_inv (src := src) hwf hb hc hw hanti h3 (fun u v => X u ∧ Adj g u v) (out ++ inn)
            (by
              intro m hm
              rcases List.mem_append.1 hm with hm | hm
              · exact Or.inl ((h3 m).1 hm)
              · exact Or.inr ((h4 m).1 hm)) [] { st with q := O.remove st.q cur } p hce
            ⟨h.keys, fun v hv => h.item v (hrem v hv), by simpa using h.seen, h.source, h.isNode, h.node, h.arc,
              by simpa using h.out, by simpa using h.inn⟩ hsc
          refine ih (fun u => X u ∨ u = cur) st1 p1 ?_ ?_ he
          · intro v hv
            by_cases hvc : v = cur
            · exact .inl (.inr hvc)
            · by_cases hve : v ∈ st.explored
              · rcases hcl v hve with hx | hx
                · exact .inl (.inl hx)
                · exact .inr ((i2 v).2 (.inl ((hb.mem_remove _ _ hcq v hvc).2 hx)))
              · exact .inr ((i2 v).2 (.inr ⟨hv, hve⟩))
          · have hX : ∀ u v, (X u ∨ u = cur) ∧ Adj g u v →
                (X u ∧ Adj g u v) ∨ (u = cur ∧ (v ∈ out ++ inn ∨ v ∈ ([] : List N))) := by
              rintro u v ⟨hx | rfl, ha⟩
              · exact .inl ⟨hx, ha⟩
              · exact .inr ⟨rfl, .inl (by rw [List.mem_append, h3, h4]; exact ha)⟩
            exact ⟨i4.keys, i4.item, fun u v hx => i4.seen u v (hX u v hx), i4.source, i4.isNode, i4.node, i4.arc,
              fun u v huv hx => i4.out u v huv (hX _ _ hx), fun u v huv hx => i4.inn u v huv (hX _ _ hx)⟩

/-! ## the labels -/

theorem scanP_label (cur : N) (out l : List N) (st : XState N Q) (p : FPic N) {st' : XState N Q} {p' : FPic N}
    (he : scanP g O f cur out l st p = .ok (st', p')) : p'.label = p.label := by
  induction l generalizing st p with
  | nil => cases he; rfl
  | cons m l ih =>
    unfold scanP at he
    by_cases h : m ∈ st.explored
    · rw [if_pos h] at he; exact ih _ _ he
    · rw [if_neg h] at he
      cases ha : avail g f cur out m with
      | error e => rw [ha] at he; cases he
      | ok a =>
        rw [ha] at he
        simp only [] at he
        by_cases h0 : a > 0
        · rw [if_pos h0] at he; have := ih _ _ he; exact this
        · rw [if_neg h0] at he; have := ih _ _ he; exact this

theorem findP_label (k : Nat) (st : XState N Q) (p : FPic N) {st' : XState N Q} {p' : FPic N}
    (he : findP g O f sink k st p = .ok (st', p')) : p'.label = p.label := by
  induction k generalizing st p with
  | zero => cases he
  | succ k ih =>
    unfold findP at he
    by_cases h : O.isEmpty st.q
    · rw [if_pos h] at he; cases he; rfl
    · rw [if_neg h] at he
      cases hp : O.peek st.q with
      | none => rw [hp] at he; cases he
      | some cur =>
        rw [hp] at he
        simp only [] at he
        by_cases hc : cur = sink
        · rw [if_pos hc] at he; cases he; rfl
        · rw [if_neg hc] at he
          cases ho : g.getNeighbors cur with
          | error e => rw [ho] at he; cases he
          | ok out =>
            rw [ho] at he
            simp only [] at he
            cases hn : g.getInNeighbors cur with
            | error e => rw [hn] at he; cases he
            | ok inn =>
              rw [hn] at he
              simp only [] at he
              cases hs : scanP g O f cur out (out ++ inn) { st with q := O.remove st.q cur } p with
              | error e => rw [hs] at he; cases he
              | ok s =>
                obtain ⟨st1, p1⟩ := s
                rw [hs] at he
                exact (ih st1 p1 he).trans (scanP_label _ _ _ _ _ hs)

/-- the label shows the capacity and the flow; nothing is said of an arc that is given the capacity 10000 = INF -/
def Labelled (g : Graph N) (f : N × N → Int) (label : N × N → String) : Prop :=
  ∀ e a, g.edgeAttr.get? e = some a →
    (a.get? "capacity" = none → label e = "INF/" ++ toString (f e)) ∧
    (∀ c : Int, a.get? "capacity" = some (.int c) → c ≠ 10000 → label e = toString c ++ "/" ++ toString (f e))

theorem Labelled.set {label : N × N → String} (h : Labelled g f label) (k : N × N) (x : Int) :
    Labelled g (upd f k x) (upd label k (flowLabel g k x)) := by
  intro e a ha
  by_cases hk : e = k
  · subst hk
    have hu : ∀ {B : Type} (F : N × N → B) (y : B), upd F e y e = y := fun F y => by simp [upd]
    rw [hu, hu]
    unfold flowLabel Graph.capOf
    rw [ha]
    constructor
    · intro h1
      simp [h1]
    · intro c h1 h2
      have h3 : c ≠ INF := h2
      simp only [h1]
      rw [if_neg h3]
  · have hu : ∀ {B : Type} (F : N × N → B) (y : B), upd F k y e = F e := fun F y => by simp [upd, hk]
    rw [hu, hu]
    exact h e a ha

theorem pushArcP_label {p p' : FPic N} {f' : N × N → Int} {m cur : N} {d : Int} (h : Labelled g f p.label)
    (he : pushArcP g f p m cur d = .ok (f', p')) : Labelled g f' p'.label := by
  unfold pushArcP at he
  by_cases h1 : g.edgeAttr.contains (m, cur)
  · rw [if_pos h1] at he; cases he; exact h.set _ _
  · rw [if_neg h1] at he
    by_cases h2 : g.edgeAttr.contains (cur, m)
    · rw [if_pos h2] at he; cases he; exact h.set _ _
    · rw [if_neg h2] at he; cases he

theorem augmentP_label (pred : Dict N (Option N)) (d : Int) (k : Nat) (cur : N) (f : N × N → Int) (p : FPic N)
    (h : Labelled g f p.label) {f' : N × N → Int} {p' : FPic N} (he : augmentP g pred src d k cur f p = .ok (f', p')) :
    Labelled g f' p'.label := by
  induction k generalizing cur f p with
  | zero => cases he
  | succ k ih =>
    unfold augmentP at he
    cases hp : pred.get? cur with
    | none => rw [hp] at he; cases he
    | some o =>
      cases o with
      | none => rw [hp] at he; cases he
      | some m =>
        rw [hp] at he
        simp only [] at he
        cases hs : pushArcP g f p m cur d with
        | error e => rw [hs] at he; cases he
        | ok s =>
          obtain ⟨f1, p1⟩ := s
          rw [hs] at he
          simp only [] at he
          by_cases hm : m = src
          · rw [if_pos hm] at he; cases he; exact pushArcP_label h hs
          · rw [if_neg hm] at he; exact ih m f1 p1 (pushArcP_label h hs) he

/-- the last round: the search starts from the reset picture and does not reach the sink -/
theorem loopP_last (newQ : Q) (inner k : Nat) (f : N × N → Int) (p : FPic N) (h : Labelled g f p.label)
    {f' : N × N → Int} {p' : FPic N} (he : MaxFlow.loopP g O newQ src sink inner k f p = .ok (f', p')) :
    Labelled g f' p'.label ∧ ∃ p0 st,
      findP g O f' sink inner ⟨O.push newQ src, Dict.empty.set src none, [src]⟩ (reset g f' p0) = .ok (st, p') ∧
      sink ∉ st.pred.keys := by
  induction k generalizing f p with
  | zero => cases he
  | succ k ih =>
    unfold MaxFlow.loopP at he
    cases hf : findP g O f sink inner ⟨O.push newQ src, Dict.empty.set src none, [src]⟩ (reset g f p) with
    | error e => rw [hf] at he; cases he
    | ok s =>
      obtain ⟨st, p1⟩ := s
      have hl : p1.label = p.label := (findP_label _ _ (reset g f p) hf).trans rfl
      rw [hf] at he
      simp only [] at he
      by_cases hs : st.pred.contains sink
      · rw [if_pos hs] at he
        cases hbn : bottleneck g f st.pred src inner sink none with
        | error e => rw [hbn] at he; cases he
        | ok d =>
          rw [hbn] at he
          simp only [] at he
          cases ha : augmentP g st.pred src d inner sink f p1 with
          | error e => rw [ha] at he; cases he
          | ok s =>
            obtain ⟨f2, p2⟩ := s
            rw [ha] at he
            exact ih f2 p2 (augmentP_label _ _ _ _ _ _ (by rw [hl]; exact h) ha) he
      · rw [if_neg hs] at he
        cases he
        exact ⟨by rw [hl]; exact h, p, st, hf, fun hk => hs ((Dict.contains_iff _ _).2 hk)⟩

theorem first_labelled (g : Graph N) : Labelled g (fun _ => 0) (firstLabel g) := by
  intro e a ha
  unfold firstLabel
  rw [ha]
  constructor
  · intro h1; simp [h1]; rfl
  · intro c h1 _
    simp only [Option.bind_some, h1]
    rw [String.append_assoc]; rfl

end GiMPy
