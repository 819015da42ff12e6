import Verif.Model.SearchPic
import Verif.Lemmas.Components

/-! # Lemmas on the colours and labels of `search` -/

namespace GiMPy
namespace Search
variable {N : Type} [DecidableEq N] {Q : Type}
variable {g : Graph N} {O : QOps N Q} {items : Q → List N} {rev : Bool} {src : N}

/-! ## the picture does not influence the search -/

theorem touchAllP_map (i : N) (l : List N) (p : Pic N) :
    (touchAllP g rev i l p).map (fun _ => ()) = touchAll g rev i l := by
  induction l generalizing p with
  | nil => rfl
  | cons j l ih =>
    unfold touchAllP touchAll
    cases touch g rev i j with
    | error e => rfl
    | ok u => exact ih _

theorem resetP_map (l : List N) (p : Pic N) : (resetP g rev l p).map (fun _ => ()) = resetEdges g rev l := by
  induction l generalizing p with
  | nil => rfl
  | cons i l ih =>
    unfold resetP resetEdges
    cases nbrs g rev i with
    | error e => rfl
    | ok m =>
      simp only []
      rw [← touchAllP_map i m (tag i (.str "-") p)]
      cases touchAllP g rev i m (tag i (.str "-") p) with
      | error e => rfl
      | ok u => exact ih _

theorem processEdgePQP_map (st : SState N Q) (p : Pic N) (cur n : N) (est : Int) :
    (processEdgePQP O st p cur n est).map Prod.fst = processEdgePQ O st cur n est := by
  unfold processEdgePQP processEdgePQ
  by_cases h : st.pred.contains n
  · rw [if_pos h, if_pos h]
    cases O.getPriority st.q n with
    | none => rfl
    | some x =>
      simp only []
      by_cases h2 : est < x
      · rw [if_pos h2, if_pos h2]; rfl
      · rw [if_neg h2, if_neg h2]; rfl
  · rw [if_neg h, if_neg h]; rfl

theorem processEdgeP_map (algo : Algo) (comp : Option Int) (st : SState N Q) (p : Pic N) (cur n : N) :
    (processEdgeP g O algo comp st p cur n).map Prod.fst = processEdge g O algo comp st cur n := by
  unfold processEdgeP processEdge
  cases algo with
  | dijkstra =>
    simp only []
    cases O.getPriority st.q cur with
    | none => rfl
    | some x =>
      simp only []
      cases g.getEdgeCost cur n with
      | error e => rfl
      | ok w => exact processEdgePQP_map ..
  | prim =>
    simp only []
    cases g.getEdgeCost cur n with
    | error e => rfl
    | ok w => exact processEdgePQP_map ..
  | dfs =>
    simp only []
    cases st.dist cur with
    | none => rfl
    | some d => simp only [apply_ite (Except.map Prod.fst)]; rfl
  | bfs =>
    simp only []
    cases st.dist cur with
    | none => rfl
    | some d => simp only [apply_ite (Except.map Prod.fst)]; rfl
  | unweightedSPT =>
    simp only []
    cases st.dist cur with
    | none => rfl
    | some d => simp only [apply_ite (Except.map Prod.fst)]; rfl

theorem forNbrsP_map (algo : Algo) (comp : Option Int) (cur : N) (l : List N) (st : SState N Q) (p : Pic N) :
    (forNbrsP g O algo rev comp cur l st p).map Prod.fst = forNbrs g O algo rev comp cur l st := by
  induction l generalizing st p with
  | nil => rfl
  | cons n l ih =>
    unfold forNbrsP forNbrs
    by_cases h : st.color n = .green
    · rw [if_pos h, if_pos h]; exact ih _ _
    · rw [if_neg h, if_neg h]
      cases touch g rev cur n with
      | error e => rfl
      | ok u =>
        simp only []
        rw [← processEdgeP_map algo comp st (paint g rev cur n .yellow p) cur n]
        cases processEdgeP g O algo comp st (paint g rev cur n .yellow p) cur n with
        | error e => rfl
        | ok s => exact ih _ _

theorem enterP_map (st : SState N Q) (p : Pic N) (cur : N) :
    (enterP g O rev src st p cur).map Prod.fst = enter g O rev src st cur := by
  unfold enterP enter
  simp only []
  by_cases h : cur = src
  · rw [if_pos h, if_pos h]; rfl
  · rw [if_neg h, if_neg h]
    cases (if O.isPQ = true then { st with prio := upd st.prio cur (O.getPriority st.q cur) } else st).pred.get? cur with
    | none => rfl
    | some x =>
      simp only []
      cases touch g rev x cur <;> rfl

theorem visitP_map (algo : Algo) (comp : Option Int) (st : SState N Q) (p : Pic N) (cur : N) :
    (visitP g O algo rev comp st p cur).map Prod.fst = visit g O algo rev comp st cur := by
  unfold visitP visit
  cases nbrs g rev cur with
  | error e => rfl
  | ok l =>
    simp only []
    rw [← forNbrsP_map algo comp cur l st p]
    cases forNbrsP g O algo rev comp cur l st p <;> rfl

theorem loopP_map (algo : Algo) (comp : Option Int) (dest : Option N) (f : Nat) (st : SState N Q) (p : Pic N) :
    (loopP g O algo rev comp dest src f st p).map (fun r => (r.1, r.2.1)) = loop g O algo rev comp dest src f st := by
  induction f generalizing st p with
  | zero => rfl
  | succ f ih =>
    unfold loopP loop
    by_cases h : O.isEmpty st.q
    · rw [if_pos h, if_pos h]; rfl
    · rw [if_neg h, if_neg h]
      cases O.peek st.q with
      | none => rfl
      | some cur =>
        simp only []
        by_cases hc : st.color cur = .green
        · rw [if_pos hc, if_pos hc]; exact ih _ _
        · rw [if_neg hc, if_neg hc, ← enterP_map st p cur]
          cases enterP g O rev src st p cur with
          | error e => rfl
          | ok s =>
            obtain ⟨st1, p1⟩ := s
            simp only [Except.map]
            by_cases hd : dest = some cur
            · rw [if_pos hd, if_pos hd]
            · rw [if_neg hd, if_neg hd, ← visitP_map algo comp st1 p1 cur]
              cases visitP g O algo rev comp st1 p1 cur with
              | error e => rfl
              | ok s => exact ih _ _

theorem searchP_map (algo : Algo) (comp : Option Int) (dest : Option N) (col : SState N Q) (pic : Pic N) (fuel : Nat) :
    (searchP g O algo rev comp dest src col pic fuel).map (fun r => (r.1, r.2.1)) =
      search g O algo rev comp dest src col fuel := by
  unfold searchP search
  by_cases h : ¬ g.hasNode src
  · rw [if_pos h, if_pos h]; rfl
  · rw [if_neg h, if_neg h, ← resetP_map g.getNodeList pic]
    cases resetP g rev g.getNodeList pic with
    | error e => rfl
    | ok p0 =>
      have key : (if dest = some src then Except.ok (true, start O algo comp src col, tag src (sourceLabel algo comp) p0)
          else loopP g O algo rev comp dest src fuel (start O algo comp src col)
            (tag src (sourceLabel algo comp) p0)).map (fun r => (r.1, r.2.1)) =
          (if dest = some src then .ok (true, start O algo comp src col)
             else loop g O algo rev comp dest src fuel (start O algo comp src col)) := by
        by_cases hd : dest = some src
        · rw [if_pos hd, if_pos hd]; rfl
        · rw [if_neg hd, if_neg hd]; exact loopP_map ..
      simp only [Except.map] at key ⊢
      rw [← key]
      generalize (if dest = some src then Except.ok (true, start O algo comp src col, tag src (sourceLabel algo comp) p0)
          else loopP g O algo rev comp dest src fuel (start O algo comp src col)
            (tag src (sourceLabel algo comp) p0)) = a
      cases a with
      | error e => rfl
      | ok r =>
        obtain ⟨found, st, p⟩ := r
        cases found <;> cases dest <;> simp only [if_true, if_false, Bool.false_eq_true]
        cases reconstruct st.pred src fuel _ [_] <;> rfl

/-! ## what one edge changes -/

theorem processEdgePQP_cases {st st' : SState N Q} {p p' : Pic N} {cur n : N} {est : Int}
    (h : processEdgePQP O st p cur n est = .ok (st', p')) :
    (st' = st ∧ p' = p) ∨
    (st' = { st with pred := st.pred.set n cur, q := O.pushP st.q n est, color := upd st.color n .black } ∧
      p' = tag n (.int est) p) := by
  unfold processEdgePQP at h
  by_cases h1 : st.pred.contains n
  · rw [if_pos h1] at h
    cases h2 : O.getPriority st.q n with
    | none => rw [h2] at h; cases h
    | some x =>
      rw [h2] at h
      simp only [] at h
      by_cases h3 : est < x
      · rw [if_pos h3] at h; cases h; exact .inr ⟨rfl, rfl⟩
      · rw [if_neg h3] at h; cases h; exact .inl ⟨rfl, rfl⟩
  · rw [if_neg h1] at h; cases h; exact .inr ⟨rfl, rfl⟩

/-- the algorithms handled by `process_edge_search` itself -/
def Plain (algo : Algo) : Prop := algo ≠ .dijkstra ∧ algo ≠ .prim

theorem processEdgeP_plain {algo : Algo} (ha : Plain algo) {comp : Option Int} {st st' : SState N Q} {p p' : Pic N}
    {cur n : N} (h : processEdgeP g O algo comp st p cur n = .ok (st', p')) :
    (st' = st ∧ p' = p) ∨
    (O.isPQ = true ∧ ∃ x dist', st' = finishEdge comp { st with q := O.pushP st.q n x, dist := dist' } cur n ∧
      p' = finishLabel comp n p) ∨
    (O.isPQ = false ∧ ∃ d, st' = finishEdge comp { st with q := O.push st.q n, dist := upd st.dist n (some d) } cur n ∧
      p' = finishLabel comp n (tag n (.str (toString d)) p)) := by
  have key : processEdgeP g O algo comp st p cur n = match st.dist cur with
    | none => .error .typeError
    | some d =>
      if O.isPQ then
        let pr : Int := if algo = .dfs then -d - 1 else d + 1
        if (match O.getPriority st.q n with | some p => decide (pr ≥ p) | none => false) then .ok (st, p)
        else .ok (finishEdge comp { st with q := O.pushP st.q n pr,
                                            dist := if algo = .dfs then st.dist else upd st.dist n (some pr) } cur n,
          finishLabel comp n p)
      else if algo ≠ .dfs ∧ (st.dist n).isSome then .ok (st, p)
      else .ok (finishEdge comp { st with q := O.push st.q n, dist := upd st.dist n (some (d + 1)) } cur n,
        finishLabel comp n (tag n (.str (toString (d + 1))) p)) := by
    cases algo with
    | dijkstra => exact absurd rfl ha.1
    | prim => exact absurd rfl ha.2
    | _ => rfl
  rw [key] at h
  cases h1 : st.dist cur with
  | none => rw [h1] at h; cases h
  | some d =>
    rw [h1] at h
    simp only [] at h
    by_cases h2 : O.isPQ = true
    · rw [if_pos h2] at h
      by_cases h3 : (match O.getPriority st.q n with
        | some p => decide ((if algo = .dfs then -d - 1 else d + 1) ≥ p) | none => false) = true
      · rw [if_pos h3] at h; cases h; exact .inl ⟨rfl, rfl⟩
      · rw [if_neg h3] at h; cases h; exact .inr (.inl ⟨h2, _, _, rfl, rfl⟩)
    · rw [if_neg h2] at h
      by_cases h3 : algo ≠ .dfs ∧ (st.dist n).isSome
      · rw [if_pos h3] at h; cases h; exact .inl ⟨rfl, rfl⟩
      · rw [if_neg h3] at h; cases h; exact .inr (.inr ⟨by simpa using h2, _, rfl, rfl⟩)

theorem processEdgeP_weighted {algo : Algo} (ha : ¬ Plain algo) {comp : Option Int} {st st' : SState N Q} {p p' : Pic N}
    {cur n : N} (h : processEdgeP g O algo comp st p cur n = .ok (st', p')) :
    (st' = st ∧ p' = p) ∨
    ∃ x, st' = { st with pred := st.pred.set n cur, q := O.pushP st.q n x, color := upd st.color n .black } ∧
      p' = tag n (.int x) p ∧ (algo = .prim → g.getEdgeCost cur n = .ok x) := by
  cases algo with
  | dijkstra =>
    unfold processEdgeP at h
    simp only [] at h
    cases h1 : O.getPriority st.q cur with
    | none => rw [h1] at h; cases h
    | some x =>
      rw [h1] at h; simp only [] at h
      cases h2 : g.getEdgeCost cur n with
      | error e => rw [h2] at h; cases h
      | ok w =>
        rw [h2] at h; simp only [] at h
        rcases processEdgePQP_cases h with h3 | h3
        · exact .inl h3
        · exact .inr ⟨_, h3.1, h3.2, fun h => by cases h⟩
  | prim =>
    unfold processEdgeP at h
    simp only [] at h
    cases h2 : g.getEdgeCost cur n with
    | error e => rw [h2] at h; cases h
    | ok w =>
      rw [h2] at h; simp only [] at h
      rcases processEdgePQP_cases h with h3 | h3
      · exact .inl h3
      · exact .inr ⟨_, h3.1, h3.2, fun _ => rfl⟩
  | dfs => exact absurd ⟨by decide, by decide⟩ ha
  | bfs => exact absurd ⟨by decide, by decide⟩ ha
  | unweightedSPT => exact absurd ⟨by decide, by decide⟩ ha

theorem finishLabel_edge (comp : Option Int) (n : N) (p : Pic N) : (finishLabel comp n p).edge = p.edge := by
  cases comp <;> rfl

/-- whatever the algorithm: either nothing changes, or `n` gets the predecessor `cur` and is put into the queue -/
theorem processEdgeP_cases (hb : LawfulBag O items) {algo : Algo} {comp : Option Int} {st st' : SState N Q} {p p' : Pic N}
    {cur n : N} (h : processEdgeP g O algo comp st p cur n = .ok (st', p')) :
    p'.edge = p.edge ∧ ((st' = st ∧ p' = p) ∨
      (st'.pred = st.pred.set n cur ∧ (∃ c, (c = .black ∨ c = .red) ∧ st'.color = upd st.color n c) ∧
        ∀ y, y ∈ items st'.q ↔ y = n ∨ y ∈ items st.q)) := by
  by_cases ha : Plain algo
  · rcases processEdgeP_plain ha h with ⟨h1, h2⟩ | ⟨_, x, d', h1, h2⟩ | ⟨_, d, h1, h2⟩
    · exact ⟨by rw [h2], .inl ⟨h1, h2⟩⟩
    · refine ⟨by rw [h2, finishLabel_edge], .inr ⟨by rw [h1]; rfl, ⟨.red, .inr rfl, by rw [h1]; rfl⟩, fun y => ?_⟩⟩
      rw [h1]; exact hb.mem_pushP _ _ _ _
    · refine ⟨by rw [h2, finishLabel_edge]; rfl, .inr ⟨by rw [h1]; rfl, ⟨.red, .inr rfl, by rw [h1]; rfl⟩, fun y => ?_⟩⟩
      rw [h1]; exact hb.mem_push _ _ _
  · rcases processEdgeP_weighted ha h with ⟨h1, h2⟩ | ⟨x, h1, h2, _⟩
    · exact ⟨by rw [h2], .inl ⟨h1, h2⟩⟩
    · refine ⟨by rw [h2]; rfl, .inr ⟨by rw [h1], ⟨.black, .inl rfl, by rw [h1]⟩, fun y => ?_⟩⟩
      rw [h1]; exact hb.mem_pushP _ _ _ _

/-! ## keys of edges -/

theorem ekey_or (u v : N) : ekey g rev u v = (u, v) ∨ ekey g rev u v = (v, u) := by
  unfold ekey Graph.edgeKey
  cases rev <;> simp only [if_true, if_false, Bool.false_eq_true] <;> split <;> simp

theorem ekey_inj {c n p v : N} (h : ekey g rev c n = ekey g rev p v) : (c = p ∧ n = v) ∨ (c = v ∧ n = p) := by
  rcases ekey_or (g := g) (rev := rev) c n with h1 | h1 <;> rcases ekey_or (g := g) (rev := rev) p v with h2 | h2 <;>
    rw [h1, h2, Prod.mk.injEq] at h <;> tauto

/-! ## the invariant -/

/-- invariant of both loops; `S` are the nodes that have been taken out of the queue (with the current node) -/
structure PI (g : Graph N) (items : Q → List N) (rev : Bool) (src : N) (S : N → Prop) (st : SState N Q) (p : Pic N) :
    Prop where
  done : ∀ v, S v → v = src ∨ v ∈ st.pred.keys
  link : ∀ v u, st.pred.get? v = some u → S u ∧ Step g rev u v
  wait : ∀ v, v = src ∨ v ∈ st.pred.keys → S v ∨ v ∈ items st.q
  item : ∀ v, v ∈ items st.q → v = src ∨ v ∈ st.pred.keys
  dark : ∀ v, ¬ (v = src ∨ v ∈ st.pred.keys) → st.color v = .black
  nosrc : src ∉ st.pred.keys
  edge : ∀ e ∈ g.edgeAttr.keys, (p.edge e = .green ∨ p.edge e = .black) ∧
    (p.edge e = .green ↔ ∃ v u, S v ∧ st.pred.get? v = some u ∧ ekey g rev u v = e)

/-- what is shown about the labels: `J` is kept by the steps of the search -/
structure Lab (g : Graph N) (O : QOps N Q) (items : Q → List N) (rev : Bool) (src : N) (algo : Algo) (comp : Option Int)
    (J : (N → Prop) → SState N Q → (N → Val N) → Prop) : Prop where
  drop : ∀ S st p c, PI g items rev src S st p → J S st p.label → c ∈ items st.q → S c →
    J S { st with q := O.remove st.q c } p.label
  enter : ∀ S st p c, PI g items rev src S st p → J S st p.label → c ∈ items st.q → ¬ S c →
    J (fun v => S v ∨ v = c) { st with
      prio := if O.isPQ then upd st.prio c (O.getPriority st.q c) else st.prio, color := upd st.color c .blue } p.label
  edge : ∀ S st p p₀ c n st' p', PI g items rev src S st p → J S st p.label → S src → S c → ¬ S n → p₀.label = p.label →
    processEdgeP g O algo comp st p₀ c n = .ok (st', p') → J S st' p'.label
  leave : ∀ S st p c, PI g items rev src S st p → J S st p.label → c ∈ items st.q → S c →
    J S { st with q := O.remove st.q c, color := upd st.color c .green } p.label

theorem forNbrsP_inv (hb : LawfulBag O items) {algo : Algo} {comp : Option Int} {J} (L : Lab g O items rev src algo comp J)
    {S : N → Prop} {c : N} (hsrc : S src) (l : List N) (hl : ∀ n ∈ l, Step g rev c n) (hns : ∀ v, ¬ Step g rev v v)
    (st : SState N Q) (p : Pic N) (hS : ∀ v, S v ↔ st.color v = .green ∨ v = c) (hc : c ∈ items st.q)
    (h : PI g items rev src S st p) (hJ : J S st p.label) {st' : SState N Q} {p' : Pic N}
    (he : forNbrsP g O algo rev comp c l st p = .ok (st', p')) :
    PI g items rev src S st' p' ∧ J S st' p'.label ∧ (∀ v, S v ↔ st'.color v = .green ∨ v = c) ∧ c ∈ items st'.q := by
  induction l generalizing st p with
  | nil => cases he; exact ⟨h, hJ, hS, hc⟩
  | cons n l ih =>
    have hl' : ∀ m ∈ l, Step g rev c m := fun m hm => hl m (by simp [hm])
    unfold forNbrsP at he
    by_cases h1 : st.color n = .green
    · rw [if_pos h1] at he; exact ih hl' st p hS hc h hJ he
    · rw [if_neg h1] at he
      have hst : Step g rev c n := hl n (by simp)
      rw [touch_ok hst] at he
      simp only [] at he
      have hnc : n ≠ c := by intro e; subst e; exact hns n hst
      have hnS : ¬ S n := by rw [hS]; push Not; exact ⟨h1, hnc⟩
      have hSc : S c := (hS c).2 (.inr rfl)
      cases hp : processEdgeP g O algo comp st (paint g rev c n .yellow p) c n with
      | error e => rw [hp] at he; cases he
      | ok r =>
        obtain ⟨st1, p1⟩ := r
        rw [hp] at he
        simp only [] at he
        obtain ⟨hE, hcase⟩ := processEdgeP_cases (items := items) hb hp
        have hJ1 : J S st1 (paint g rev c n .black p1).label := L.edge S st p (paint g rev c n .yellow p) c n st1 p1 h hJ hsrc hSc hnS rfl hp
        have hkey : ∀ v u, S v → st.pred.get? v = some u → ekey g rev u v ≠ ekey g rev c n := by
          intro v u hv hu e
          rcases ekey_inj e with ⟨_, rfl⟩ | ⟨rfl, rfl⟩
          · exact hnS hv
          · exact hnS (h.link _ _ hu).1
        have hedge0 : ∀ e, (paint g rev c n .black p1).edge e = if e = ekey g rev c n then .black else p.edge e := by
          intro e
          simp only [paint, upd, hE]
          split <;> rfl
        rcases hcase with ⟨rfl, _⟩ | ⟨hpred, ⟨col, hcol, hcolor⟩, hq⟩
        · -- nothing but the colours
          refine ih hl' st1 _ hS hc ⟨h.done, h.link, h.wait, h.item, h.dark, h.nosrc, ?_⟩ hJ1 he
          intro e hmem
          rw [hedge0]
          by_cases hek : e = ekey g rev c n
          · rw [if_pos hek]
            refine ⟨.inr rfl, by simp, ?_⟩
            rintro ⟨v, u, hv, hu, huv⟩
            exact absurd (huv.trans hek) (hkey v u hv hu)
          · rw [if_neg hek]; exact h.edge e hmem
        · have hkeys : ∀ v, v ∈ st1.pred.keys ↔ v = n ∨ v ∈ st.pred.keys := by
            intro v; rw [hpred, Dict.mem_keys_set]
          have hgs : ∀ v, S v → st1.pred.get? v = st.pred.get? v := by
            intro v hv
            rw [hpred, Dict.get?_set_ne]
            intro e; subst e; exact hnS hv
          refine ih hl' st1 _ ?_ ((hq c).2 (.inr hc)) ⟨?_, ?_, ?_, ?_, ?_, ?_, ?_⟩ hJ1 he
          · intro v
            rw [hS, hcolor]
            unfold upd
            by_cases hv : v = n
            · subst hv
              rw [if_pos rfl]
              rcases hcol with rfl | rfl <;> simp [h1]
            · rw [if_neg hv]
          · intro v hv
            rcases h.done v hv with h2 | h2
            · exact .inl h2
            · exact .inr ((hkeys v).2 (.inr h2))
          · intro v u hvu
            rw [hpred, Dict.get?_set] at hvu
            by_cases hv : n = v
            · rw [if_pos hv] at hvu; cases hvu; subst hv; exact ⟨hSc, hst⟩
            · rw [if_neg hv] at hvu; exact h.link v u hvu
          · intro v hv
            rw [hkeys] at hv
            by_cases hvn : v = n
            · exact .inr ((hq v).2 (.inl hvn))
            · rcases h.wait v (by tauto) with h2 | h2
              · exact .inl h2
              · exact .inr ((hq v).2 (.inr h2))
          · intro v hv
            rw [hkeys]
            rcases (hq v).1 hv with h2 | h2
            · exact .inr (.inl h2)
            · rcases h.item v h2 with h3 | h3
              · exact .inl h3
              · exact .inr (.inr h3)
          · intro v hv
            rw [hkeys] at hv
            push Not at hv
            rw [hcolor]; unfold upd; rw [if_neg hv.2.1]
            exact h.dark v (by tauto)
          · rw [hkeys]; push Not
            refine ⟨?_, h.nosrc⟩
            intro e; subst e; exact hnS hsrc
          · intro e hmem
            rw [hedge0]
            by_cases hek : e = ekey g rev c n
            · rw [if_pos hek]
              refine ⟨.inr rfl, by simp, ?_⟩
              rintro ⟨v, u, hv, hu, huv⟩
              rw [hgs v hv] at hu
              exact absurd (huv.trans hek) (hkey v u hv hu)
            · rw [if_neg hek]
              refine ⟨(h.edge e hmem).1, (h.edge e hmem).2.trans ?_⟩
              constructor
              · rintro ⟨v, u, hv, hu, huv⟩; exact ⟨v, u, hv, by rw [hgs v hv]; exact hu, huv⟩
              · rintro ⟨v, u, hv, hu, huv⟩; exact ⟨v, u, hv, by rw [← hgs v hv]; exact hu, huv⟩

/-- the state before the loop -/
theorem start_PI (hb : LawfulBag O items) (algo : Algo) (comp : Option Int) (col : SState N Q) (hq : items col.q = [])
    {p : Pic N} (hp : ∀ e ∈ g.edgeAttr.keys, p.edge e = .black) :
    PI g items rev src (fun v => (start O algo comp src col).color v = .green) (start O algo comp src col) p ∧
    (∀ v, (start O algo comp src col).color v ≠ .blue) ∧ ∀ v ∈ items (start O algo comp src col).q, v = src := by
  obtain ⟨h1, h2, h3⟩ := start_fields (O := O) (src := src) algo comp col
  have hit : ∀ y, y ∈ items (start O algo comp src col).q ↔ y = src := by
    rcases h3 with h3 | h3 <;> intro y <;> rw [h3]
    · rw [hb.mem_pushP, hq]; simp
    · rw [hb.mem_push, hq]; simp
  refine ⟨⟨?_, ?_, ?_, ?_, ?_, ?_, ?_⟩, ?_, fun v => (hit v).1⟩
  · intro v hv; rw [h2] at hv; cases hv
  · intro v u hv; rw [h1] at hv; cases hv
  · intro v hv
    rw [h1] at hv
    refine .inr ((hit v).2 ?_)
    rcases hv with hv | hv
    · exact hv
    · cases hv
  · intro v hv; exact .inl ((hit v).1 hv)
  · intro v _; exact h2 v
  · rw [h1]; intro h; cases h
  · intro e he
    refine ⟨.inr (hp e he), ?_, ?_⟩
    · rw [hp e he]; intro h; cases h
    · rintro ⟨v, u, hv, _⟩; simp only [h2] at hv; cases hv
  · intro v; rw [h2]; intro h; cases h

/-- state after entering `c` -/
def entered (O : QOps N Q) (st : SState N Q) (c : N) : SState N Q :=
  { st with prio := if O.isPQ then upd st.prio c (O.getPriority st.q c) else st.prio, color := upd st.color c .blue }

theorem enterP_inv {st st' : SState N Q} {p p' : Pic N} {c : N}
    (h : PI g items rev src (fun v => st.color v = .green) st p)
    (hc : st.color c ≠ .green) (hq : c ∈ items st.q) (he : enterP g O rev src st p c = .ok (st', p')) :
    st' = entered O st c ∧ p'.label = p.label ∧ PI g items rev src (fun v => st.color v = .green ∨ v = c) st' p' := by
  have hst : st' = entered O st c ∧ p'.label = p.label ∧
      ((c = src ∧ p' = p) ∨ ∃ u, c ≠ src ∧ st.pred.get? c = some u ∧ p' = paint g rev u c .green p) := by
    unfold enterP at he
    simp only [] at he
    have hpr : (if O.isPQ = true then { st with prio := upd st.prio c (O.getPriority st.q c) } else st).pred = st.pred := by
      split <;> rfl
    have hen : { (if O.isPQ = true then { st with prio := upd st.prio c (O.getPriority st.q c) } else st) with
        color := upd (if O.isPQ = true then { st with prio := upd st.prio c (O.getPriority st.q c) } else st).color c .blue } =
        entered O st c := by
      unfold entered; cases O.isPQ <;> rfl
    rw [hen, hpr] at he
    by_cases h1 : c = src
    · rw [if_pos h1] at he; cases he; exact ⟨rfl, rfl, .inl ⟨h1, rfl⟩⟩
    · rw [if_neg h1] at he
      cases h2 : st.pred.get? c with
      | none => rw [h2] at he; cases he
      | some u =>
        rw [h2] at he
        simp only [] at he
        rw [touch_ok (h.link _ _ h2).2] at he
        cases he
        exact ⟨rfl, rfl, .inr ⟨u, h1, rfl, rfl⟩⟩
  obtain ⟨rfl, hlab, hp⟩ := hst
  refine ⟨rfl, hlab, ?_, ?_, ?_, ?_, ?_, h.nosrc, ?_⟩
  · rintro v (hv | rfl)
    · exact h.done v hv
    · exact h.item v hq
  · intro v u hv; exact ⟨.inl (h.link v u hv).1, (h.link v u hv).2⟩
  · intro v hv
    rcases h.wait v hv with h1 | h1
    · exact .inl (.inl h1)
    · exact .inr h1
  · exact h.item
  · intro v hv
    have hvc : v ≠ c := by rintro rfl; exact hv (h.item v hq)
    simp only [entered, upd, if_neg hvc]
    exact h.dark v hv
  · intro e he
    obtain ⟨h1, h2⟩ := h.edge e he
    rcases hp with ⟨rfl, rfl⟩ | ⟨u, hcs, hu, rfl⟩
    · refine ⟨h1, h2.trans ?_⟩
      constructor
      · rintro ⟨v, u, hv, hvu⟩; exact ⟨v, u, .inl hv, hvu⟩
      · rintro ⟨v, u, hv | rfl, hvu, hk⟩
        · exact ⟨v, u, hv, hvu, hk⟩
        · exact absurd (Dict.mem_keys_of_get? hvu) h.nosrc
    · simp only [paint, upd]
      by_cases hk : e = ekey g rev u c
      · rw [if_pos hk]
        exact ⟨.inl rfl, by simp only [true_iff]; exact ⟨c, u, .inr rfl, hu, hk.symm⟩⟩
      · rw [if_neg hk]
        refine ⟨h1, h2.trans ?_⟩
        constructor
        · rintro ⟨v, u, hv, hvu⟩; exact ⟨v, u, .inl hv, hvu⟩
        · rintro ⟨v, u', hv | rfl, hvu, hk'⟩
          · exact ⟨v, u', hv, hvu, hk'⟩
          · have : (entered O st v).pred.get? v = some u := hu
            rw [hvu] at this; cases this
            exact absurd hk'.symm hk

/-- what the loop keeps -/
structure LI (g : Graph N) (items : Q → List N) (rev : Bool) (src : N)
    (J : (N → Prop) → SState N Q → (N → Val N) → Prop) (st : SState N Q) (p : Pic N) : Prop where
  pi : PI g items rev src (fun v => st.color v = .green) st p
  lab : J (fun v => st.color v = .green) st p.label
  first : st.color src = .green ∨ ∀ v ∈ items st.q, v = src

theorem loopP_inv (hw : g.Wf) (hb : LawfulBag O items) {algo : Algo} {comp : Option Int} {dest : Option N} {J}
    (L : Lab g O items rev src algo comp J) (hns : ∀ v, ¬ Step g rev v v) (hsrc : src ∈ g.getNodeList) (f : Nat)
    (st : SState N Q) (p : Pic N) (h : LI g items rev src J st p) {b : Bool} {st' : SState N Q} {p' : Pic N}
    (he : loopP g O algo rev comp dest src f st p = .ok (b, st', p')) :
    (b = false ∧ LI g items rev src J st' p' ∧ items st'.q = []) ∨
    (b = true ∧ ∃ c st0, dest = some c ∧ st0.color c ≠ .green ∧ st' = entered O st0 c ∧
      PI g items rev src (fun v => st0.color v = .green ∨ v = c) st' p' ∧
      J (fun v => st0.color v = .green ∨ v = c) st' p'.label) := by
  induction f generalizing st p with
  | zero => cases he
  | succ f ih =>
    unfold loopP at he
    by_cases h1 : O.isEmpty st.q
    · rw [if_pos h1] at he; cases he
      exact .inl ⟨rfl, h, (hb.isEmpty_iff _).1 h1⟩
    · rw [if_neg h1] at he
      have hne : items st.q ≠ [] := by rw [Ne, ← hb.isEmpty_iff]; exact h1
      obtain ⟨c, hcq, hpk⟩ := hb.peek_mem _ hne
      rw [hpk] at he
      simp only [] at he
      have hrem : ∀ (q : Q), c ∈ items q → ∀ y ∈ items (O.remove q c), y ∈ items q := by
        intro q hc y hy
        by_cases hyc : y = c
        · subst hyc; exact hc
        · exact (hb.mem_remove q c hc y hyc).1 hy
      by_cases h2 : st.color c = .green
      · rw [if_pos h2] at he
        refine ih { st with q := O.remove st.q c } p ⟨⟨h.pi.done, h.pi.link, ?_, ?_, h.pi.dark, h.pi.nosrc, h.pi.edge⟩,
          L.drop _ st p c h.pi h.lab hcq h2, ?_⟩ he
        · intro v hv
          rcases h.pi.wait v hv with h3 | h3
          · exact .inl h3
          · by_cases hvc : v = c
            · subst hvc; exact .inl h2
            · exact .inr ((hb.mem_remove _ _ hcq v hvc).2 h3)
        · intro v hv; exact h.pi.item v (hrem _ hcq v hv)
        · rcases h.first with h3 | h3
          · exact .inl h3
          · exact .inr fun v hv => h3 v (hrem _ hcq v hv)
      · rw [if_neg h2] at he
        cases hen : enterP g O rev src st p c with
        | error e => rw [hen] at he; cases he
        | ok r =>
          obtain ⟨st1, p1⟩ := r
          rw [hen] at he
          simp only [] at he
          obtain ⟨rfl, hlab, hPI⟩ := enterP_inv h.pi h2 hcq hen
          have hJ : J (fun v => st.color v = .green ∨ v = c) (entered O st c) p1.label := by
            rw [hlab]; exact L.enter _ st p c h.pi h.lab hcq h2
          by_cases h3 : dest = some c
          · rw [if_pos h3] at he; cases he
            exact .inr ⟨rfl, c, st, h3, h2, rfl, hPI, hJ⟩
          · rw [if_neg h3] at he
            cases hvi : visitP g O algo rev comp (entered O st c) p1 c with
            | error e => rw [hvi] at he; cases he
            | ok r =>
              obtain ⟨st2, p2⟩ := r
              rw [hvi] at he
              simp only [] at he
              unfold visitP at hvi
              cases hn : nbrs g rev c with
              | error e => rw [hn] at hvi; cases hvi
              | ok l =>
                rw [hn] at hvi
                simp only [] at hvi
                have hstep : ∀ n ∈ l, Step g rev c n := by
                  have hcn : c ∈ g.getNodeList := by
                    rcases h.pi.item c hcq with rfl | hck
                    · exact hsrc
                    · obtain ⟨u, hu⟩ := (Dict.mem_keys' _ _).1 hck
                      exact (step_node hw (h.pi.link c u hu).2).2
                  obtain ⟨l', hl', hmem⟩ := nbrs_ok hw rev hcn
                  rw [hn] at hl'; cases hl'
                  exact fun n hn => (hmem n).1 hn
                cases hfn : forNbrsP g O algo rev comp c l (entered O st c) p1 with
                | error e => rw [hfn] at hvi; cases hvi
                | ok r =>
                  obtain ⟨st3, p3⟩ := r
                  rw [hfn] at hvi
                  cases hvi
                  have hsrcS : st.color src = .green ∨ src = c := by
                    rcases h.first with h4 | h4
                    · exact .inl h4
                    · exact .inr (h4 c hcq).symm
                  have hS0 : ∀ v, (st.color v = .green ∨ v = c) ↔ (entered O st c).color v = .green ∨ v = c := by
                    intro v
                    simp only [entered, upd]
                    by_cases hvc : v = c
                    · simp [hvc]
                    · rw [if_neg hvc]
                  obtain ⟨h5, h6, h7, h8⟩ := forNbrsP_inv hb L (S := fun v => st.color v = .green ∨ v = c) hsrcS l hstep hns
                    _ _ hS0 hcq hPI hJ hfn
                  have hS : (fun v => st.color v = .green ∨ v = c) = fun v => upd st3.color c .green v = .green := by
                    funext v
                    rw [eq_iff_iff, h7 v]
                    unfold upd
                    by_cases hvc : v = c
                    · simp [hvc]
                    · rw [if_neg hvc]; simp [hvc]
                  have hSc : (fun v => st.color v = .green ∨ v = c) c := .inr rfl
                  have h9 := L.leave _ st3 _ c h5 h6 h8 hSc
                  rw [hS] at h5 h9
                  refine ih { st3 with q := O.remove st3.q c, color := upd st3.color c .green } p2 ⟨⟨h5.done, h5.link, ?_, ?_, ?_, h5.nosrc, h5.edge⟩, h9, .inl ?_⟩ he
                  · intro v hv
                    rcases h5.wait v hv with h10 | h10
                    · exact .inl h10
                    · by_cases hvc : v = c
                      · subst hvc; left; simp [upd]
                      · exact .inr ((hb.mem_remove _ _ h8 v hvc).2 h10)
                  · intro v hv; exact h5.item v (hrem _ h8 v hv)
                  · intro v hv
                    have hvc : v ≠ c := by rintro rfl; exact hv (h5.item v h8)
                    simp only [upd, if_neg hvc]
                    exact h5.dark v hv
                  · have := congrFun hS src
                    simp only [eq_iff_iff] at this
                    exact this.1 hsrcS

/-! ## the reset -/

theorem touchAllP_edge (i : N) (l : List N) (p : Pic N) {p' : Pic N} (h : touchAllP g rev i l p = .ok p') :
    p'.label = p.label ∧ ∀ e, (e ∈ l.map (ekey g rev i) → p'.edge e = .black) ∧
      (e ∉ l.map (ekey g rev i) → p'.edge e = p.edge e) := by
  induction l generalizing p with
  | nil => cases h; exact ⟨rfl, fun e => ⟨fun h => (by cases h), fun _ => rfl⟩⟩
  | cons j l ih =>
    unfold touchAllP at h
    cases ht : touch g rev i j with
    | error e => rw [ht] at h; cases h
    | ok u =>
      rw [ht] at h
      obtain ⟨h1, h2⟩ := ih _ h
      refine ⟨h1, fun e => ⟨?_, ?_⟩⟩
      · intro he
        by_cases hl : e ∈ l.map (ekey g rev i)
        · exact (h2 e).1 hl
        · rw [(h2 e).2 hl]
          have : e = ekey g rev i j := by simpa [hl] using he
          simp [paint, upd, this]
      · intro he
        have hl : e ∉ l.map (ekey g rev i) := by intro h; apply he; simp only [List.map_cons, List.mem_cons]; exact .inr h
        rw [(h2 e).2 hl]
        have : e ≠ ekey g rev i j := by rintro rfl; apply he; simp
        simp [paint, upd, this]

theorem resetP_spec (l : List N) (p : Pic N) {p' : Pic N} (h : resetP g rev l p = .ok p') :
    (∀ v, (v ∈ l → p'.label v = .str "-") ∧ (v ∉ l → p'.label v = p.label v)) ∧
    ∀ e, (p.edge e = .black ∨ ∃ i ∈ l, ∃ m, nbrs g rev i = .ok m ∧ ∃ j ∈ m, e = ekey g rev i j) → p'.edge e = .black := by
  induction l generalizing p with
  | nil =>
    cases h
    refine ⟨fun v => ⟨fun h => (by cases h), fun _ => rfl⟩, ?_⟩
    rintro e (h | ⟨i, hi, _⟩)
    · exact h
    · cases hi
  | cons i l ih =>
    unfold resetP at h
    cases hn : nbrs g rev i with
    | error e => rw [hn] at h; cases h
    | ok m =>
      rw [hn] at h
      simp only [] at h
      cases ht : touchAllP g rev i m (tag i (.str "-") p) with
      | error e => rw [ht] at h; cases h
      | ok p1 =>
        rw [ht] at h
        obtain ⟨h1, h2⟩ := touchAllP_edge _ _ _ ht
        obtain ⟨h3, h4⟩ := ih _ h
        refine ⟨fun v => ⟨?_, ?_⟩, ?_⟩
        · intro hv
          by_cases hvl : v ∈ l
          · exact (h3 v).1 hvl
          · rw [(h3 v).2 hvl, h1]
            have : v = i := by simpa [hvl] using hv
            simp [tag, upd, this]
        · intro hv
          simp only [List.mem_cons, not_or] at hv
          rw [(h3 v).2 hv.2, h1]
          simp [tag, upd, hv.1]
        · intro e he
          apply h4
          by_cases hm : e ∈ m.map (ekey g rev i)
          · exact .inl ((h2 e).1 hm)
          · rcases he with he | ⟨i', hi', m', hm', j, hj, rfl⟩
            · left; rw [(h2 e).2 hm]; exact he
            · rcases List.mem_cons.1 hi' with rfl | hi'
              · rw [hn] at hm'; cases hm'
                exact absurd (List.mem_map.2 ⟨j, hj, rfl⟩) hm
              · exact .inr ⟨i', hi', m', hm', j, hj, rfl⟩

theorem resetP_black (hw : g.Wf) (p : Pic N) {p' : Pic N} (h : resetP g rev g.getNodeList p = .ok p') :
    ∀ e ∈ g.edgeAttr.keys, p'.edge e = .black := by
  rintro ⟨a, b⟩ he
  obtain ⟨ha, hb⟩ := hw.endp a b he
  apply (resetP_spec _ _ h).2
  right
  have hc : g.edgeAttr.contains (a, b) = true := (Dict.contains_iff _ _).2 he
  cases rev with
  | false =>
    obtain ⟨m, hm, hmem⟩ := nbrs_ok hw false (u := a) ha
    refine ⟨a, ha, m, hm, b, (hmem b).2 ?_, ?_⟩
    · simp [Step, Graph.checkEdge, hc]
    · simp [ekey, Graph.edgeKey, hc]
  | true =>
    obtain ⟨m, hm, hmem⟩ := nbrs_ok hw true (u := b) hb
    refine ⟨b, hb, m, hm, a, (hmem a).2 ?_, ?_⟩
    · simp [Step, Graph.checkEdge, hc]
    · simp [ekey, Graph.edgeKey, hc]

end Search
end GiMPy
