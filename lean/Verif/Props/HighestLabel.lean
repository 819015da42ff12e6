import Verif.Spec.Preflow
import Verif.Props.Preflow

/-! # C103: the node that 'HighestLabel' takes -/

namespace GiMPy
open Search
variable {N : Type} [DecidableEq N] {Q QS : Type} {g : Graph N} {O : QOps N Q} {items : Q → List N}
variable {has : Q → N → Bool} {src sink : N}

namespace Preflow

/-- the method is `started` followed by the loop -/
theorem preflowPush_eq (g : Graph N) (OS : QOps N QS) (col : SState N QS) (O : QOps N Q) (has : Q → N → Bool) (newQ : Q)
    (algo : PAlgo) (src sink : N) (fuel : Nat) :
    preflowPush g OS col O has newQ algo src sink fuel =
      match started g OS col O newQ algo src sink fuel with
      | .error e => .error e
      | .ok st => loop g O has algo src sink fuel none st := by
  unfold preflowPush started
  cases search g OS .unweightedSPT true none none sink col fuel with
  | error e => rfl
  | ok s =>
    obtain ⟨_, s⟩ := s
    cases hn : g.getNeighbors src with
    | error e => simp only [hn]
    | ok out =>
      simp only [hn]
      cases saturate g O algo src out ⟨newQ, fun _ => 0, fun _ => 0, firstLabels g s.dist⟩ <;> rfl

/-- the loop ends in the last state it passes through -/
theorem loop_at {algo : PAlgo} {st₀ : PState N Q} (k : Nat) : ∀ {taken last} {st st' : PState N Q},
    At g O has algo src sink st₀ taken last st → loop g O has algo src sink k last st = .ok st' →
    ∃ taken' last', At g O has algo src sink st₀ taken' last' st' ∧ O.isEmpty st'.q = true := by
  induction k with
  | zero => intro _ _ _ _ _ h; cases h
  | succ k ih =>
    intro taken last st st' ha h
    rw [loop] at h
    by_cases he : O.isEmpty st.q = true
    · rw [if_pos he] at h
      cases h
      exact ⟨_, _, ha, he⟩
    · rw [if_neg he] at h
      cases hp : O.peek st.q with
      | none => rw [hp] at h; cases h
      | some cur =>
        rw [hp] at h
        simp only [] at h
        cases hst : step g O has algo src sink cur last st with
        | error e => rw [hst] at h; cases h
        | ok r =>
          obtain ⟨last', st1⟩ := r
          rw [hst] at h
          exact ih (ha.turn (by simpa using he) hp hst) h

theorem processEdge_same {st st' : PState N Q} {i j : N} {b : Bool} (h : processEdge g st i j = .ok (b, st')) :
    st'.q = st.q ∧ st'.dist = st.dist := by
  have hp : ∀ e m c, (pushOn st e m c i j).2.q = st.q ∧ (pushOn st e m c i j).2.dist = st.dist := by
    intro e m c
    unfold pushOn
    split <;> exact ⟨rfl, rfl⟩
  have hp' : ∀ e m c, (Except.ok (pushOn st e m c i j) : Except PyErr _) = .ok (b, st') → st'.q = st.q ∧ st'.dist = st.dist := by
    intro e m c h
    have h1 : pushOn st e m c i j = (b, st') := by injection h
    have h2 := hp e m c
    rw [h1] at h2
    exact h2
  unfold processEdge at h
  split at h
  · cases h; exact ⟨rfl, rfl⟩
  · split at h
    · split at h
      · cases h
      · exact hp' _ _ _ h
    · split at h
      · exact hp' _ _ _ h
      · cases h

theorem forNbrs_same {cur : N} (l : List N) : ∀ {last} {st : PState N Q} {rel last' st'},
    forNbrs g O has .highest src sink cur l last st = .ok (rel, last', st') → st'.q = st.q ∧ st'.dist = st.dist := by
  induction l with
  | nil => intro last st rel last' st' h; cases h; exact ⟨rfl, rfl⟩
  | cons n l ih =>
    intro last st rel last' st' h
    rw [forNbrs] at h
    cases hp : processEdge g st cur n with
    | error e => rw [hp] at h; cases h
    | ok r =>
      obtain ⟨b, st1⟩ := r
      have hs := processEdge_same hp
      rw [hp] at h
      cases b with
      | false =>
        simp only [] at h
        have := ih h
        exact ⟨this.1.trans hs.1, this.2.trans hs.2⟩
      | true =>
        simp only [enqHead, reduceCtorEq, false_and, if_false] at h
        cases h
        exact hs

theorem relabel_same {st st' : PState N Q} {i : N} (h : relabel g st i = .ok st') :
    st'.q = st.q ∧ ∀ v, v ≠ i → st'.dist v = st.dist v := by
  unfold relabel at h
  split at h
  · cases h
  · split at h
    · cases h
    · split at h
      · cases h
      · split at h
        · cases h
        · cases h
          exact ⟨rfl, fun v hv => by simp [upd, hv]⟩

/-- the priority of a waiting node is its distance with the sign changed, except for a neighbour of the source that has waited
since the start -/
def PrioOk (g : Graph N) (O : QOps N Q) (src : N) (taken : List N) (st : PState N Q) : Prop :=
  ∀ v p, O.getPriority st.q v = some p → p = -st.dist v ∨ (p = -1 ∧ v ∉ taken ∧ ∃ l, g.getNeighbors src = .ok l ∧ v ∈ l)

theorem saturate_prio (hp : LawfulPQ O items) (l : List N) : ∀ {st st' : PState N Q}, saturate g O .highest src l st = .ok st' →
    st'.dist = st.dist ∧ ∀ v p, O.getPriority st'.q v = some p → (p = -1 ∧ v ∈ l) ∨ O.getPriority st.q v = some p := by
  induction l with
  | nil => intro st st' h; cases h; exact ⟨rfl, fun v p h => Or.inr h⟩
  | cons n l ih =>
    intro st st' h
    rw [saturate] at h
    cases hc : g.capOf src n with
    | error e => rw [hc] at h; cases h
    | ok c =>
      rw [hc] at h
      simp only [] at h
      obtain ⟨h1, h2⟩ := ih h
      refine ⟨h1, fun v p hv => ?_⟩
      rcases h2 v p hv with h3 | h3
      · exact Or.inl ⟨h3.1, by simp [h3.2]⟩
      · simp only [enq] at h3
        rw [hp.prio_push] at h3
        split at h3
        · next e => cases h3; exact Or.inl ⟨rfl, by simp [e]⟩
        · exact Or.inr h3

theorem started_prio (hp : LawfulPQ O items) {OS : QOps N QS} {col : SState N QS} {newQ : Q} (hq : items newQ = []) {fuel : Nat}
    {st : PState N Q} (h : started g OS col O newQ .highest src sink fuel = .ok st) : PrioOk g O src [] st := by
  unfold started at h
  split at h
  · cases h
  · split at h
    · cases h
    · next out hout =>
      split at h
      · cases h
      · next st1 hst =>
        cases h
        intro v p hv
        rcases (saturate_prio hp out hst).2 v p hv with h1 | h1
        · exact Or.inr ⟨h1.1, by simp, out, hout, h1.2⟩
        · have := (hp.prio_isSome newQ v).1 (by rw [h1]; rfl)
          rw [hq] at this; cases this

theorem step_prio (hp : LawfulPQ O items) {taken : List N} {cur : N}
    {last last' : Option (Bool × N)} {st st' : PState N Q} (h : PrioOk g O src taken st)
    (hmem : cur ∈ items st.q) (hs : step g O has .highest src sink cur last st = .ok (last', st')) :
    PrioOk g O src (cur :: taken) st' := by
  -- what waits besides `cur`
  have key : ∀ (st1 : PState N Q), st1.q = O.remove st.q cur → (∀ v, v ≠ cur → st1.dist v = st.dist v) →
      PrioOk g O src (cur :: taken) st1 := by
    intro st1 hq hd v p hv
    rw [hq, hp.prio_remove _ _ hmem] at hv
    split at hv
    · cases hv
    · next hne =>
      rw [hd v hne]
      rcases h v p hv with h1 | ⟨h1, h2, h3⟩
      · exact Or.inl h1
      · exact Or.inr ⟨h1, by simp [hne, h2], h3⟩
  have push : ∀ (st1 : PState N Q) (x : N), PrioOk g O src (cur :: taken) st1 →
      PrioOk g O src (cur :: taken) { st1 with q := enq O .highest st1.q x (-st1.dist x) } := by
    intro st1 x h1 v p hv
    simp only [enq] at hv
    rw [hp.prio_push] at hv
    split at hv
    · next e => cases hv; subst e; exact Or.inl rfl
    · exact h1 v p hv
  have fin : ∀ (st1 : PState N Q) last, PrioOk g O src (cur :: taken) st1 → finish O has .highest src last st1 = .ok st' →
      PrioOk g O src (cur :: taken) st' := by
    intro st1 last h1 h2
    unfold finish at h2
    split at h2
    · cases h2
    · split at h2
      · cases h2; exact push _ _ h1
      · cases h2; exact h1
  unfold step at hs
  split at hs
  · cases hs
  · split at hs
    · cases hs
    · split at hs
      · cases hs
      · next rel last1 st1 hf =>
        obtain ⟨f1, f2⟩ := forNbrs_same _ hf
        by_cases hsink : cur = sink
        · rw [if_pos hsink] at hs
          simp only [] at hs
          split at hs
          · cases hs
          · next st2 h2 =>
            cases hs
            exact fin _ _ (key _ (by rw [f1]) (fun v _ => by rw [f2])) h2
        · rw [if_neg hsink] at hs
          split at hs
          · cases hs
          · next st2 h2 =>
            split at hs
            · cases hs
            · next st3 h3 =>
              cases hs
              refine fin _ _ ?_ h3
              unfold settle at h2
              split at h2
              · cases h2
              · next st4 h4 =>
                have h5 : PrioOk g O src (cur :: taken) st4 := by
                  cases rel with
                  | true =>
                    rw [if_pos rfl] at h4
                    obtain ⟨r1, r2⟩ := relabel_same h4
                    exact key _ (by rw [r1, f1]) (fun v hv => by rw [r2 v hv, f2])
                  | false =>
                    rw [if_neg (by simp)] at h4
                    cases h4
                    exact key _ (by rw [f1]) (fun v _ => by rw [f2])
                split at h2
                · cases h2; exact push _ _ h5
                · cases h2; exact h5

theorem at_prio (hp : LawfulPQ O items) {st₀ : PState N Q}
    (h0 : PrioOk g O src [] st₀) {taken last} {st : PState N Q} (h : At g O has .highest src sink st₀ taken last st) :
    PrioOk g O src taken st := by
  induction h with
  | start => exact h0
  | @turn taken last st cur last' st' _ he hpk hs ih =>
    have hne : items st.q ≠ [] := fun h => by rw [(hp.isEmpty_iff _).2 h] at he; cases he
    obtain ⟨x, hx, hxp⟩ := hp.peek_mem st.q hne
    rw [hpk] at hxp
    cases hxp
    exact step_prio hp ih hx hs

end Preflow

/-- **C103 (partial).** With 'HighestLabel' and any priority queue: when the `while` loop takes node `x` and `y` waits too, then
the distance of `y` is not greater, unless `x` or `y` is a neighbour of the source that waits since the start (its priority is
-1 whatever its distance).  So from the turn on at which all neighbours of the source have been taken, the node taken has
the greatest distance.  Missing from the full claim: those exceptions, see `C103_not_highest`. -/
theorem C103_highest_partial (hp : LawfulPQ O items) {OS : QOps N QS}
    {col : SState N QS} {newQ : Q} (hq : items newQ = []) {fuel : Nat} {st₀ : Preflow.PState N Q}
    (h0 : Preflow.started g OS col O newQ .highest src sink fuel = .ok st₀) {out : List N} (ho : g.getNeighbors src = .ok out)
    {taken last} {st : Preflow.PState N Q} (ha : Preflow.At g O has .highest src sink st₀ taken last st) {x y : N}
    (hx : O.peek st.q = some x) (hy : y ∈ items st.q) :
    st.dist y ≤ st.dist x ∨ (x ∈ out ∧ x ∉ taken) ∨ (y ∈ out ∧ y ∉ taken) := by
  have hok := Preflow.at_prio hp (Preflow.started_prio hp hq h0) ha
  have hne : items st.q ≠ [] := fun h => by rw [h] at hy; cases hy
  obtain ⟨x', hxm, hxp⟩ := hp.peek_mem st.q hne
  rw [hx] at hxp
  cases hxp
  obtain ⟨px, hpx⟩ := Option.isSome_iff_exists.1 ((hp.prio_isSome st.q x).2 hxm)
  obtain ⟨py, hpy⟩ := Option.isSome_iff_exists.1 ((hp.prio_isSome st.q y).2 hy)
  have hle := hp.peek_min _ _ _ _ _ hx hpx hpy
  rcases hok x px hpx with h1 | ⟨_, h1, l, hl, h2⟩
  · rcases hok y py hpy with h3 | ⟨_, h3, l, hl, h4⟩
    · left; omega
    · rw [ho] at hl; cases hl
      exact Or.inr (Or.inr ⟨h4, h3⟩)
  · rw [ho] at hl; cases hl
    exact Or.inr (Or.inl ⟨h2, h1⟩)

/-- source 0, sink 5; 1 and 2 are three steps away from the sink -/
def exH : Graph Nat := runOps (Graph.init true)
  ([((0, 1), 1), ((0, 2), 1), ((1, 3), 1), ((2, 3), 1), ((3, 4), 2), ((4, 5), 2)].map fun e =>
    Op.addEdge e.1.1 e.1.2 [("capacity", .int e.2)])

/-- the first turn on `exH` -/
theorem exH_step {O : QOps Nat Q} {items : Q → List Nat} {has : Q → Nat → Bool} (hp : LawfulPQ O items) (hs : LawfulSet O items has)
    {st : Preflow.PState Nat Q} (hnd : (items st.q).Nodup) {a : Nat} (ha : a = 1 ∨ a = 2) (hm : a ∈ items st.q)
    (h3 : 3 ∉ items st.q) (hf : st.flow (a, 3) = 0) (he : st.excess a = 1) (d : st.dist a = 3) (d3 : st.dist 3 = 2) :
    ∃ st', Preflow.step exH O has .highest 0 5 a none st = .ok (some (true, 3), st') ∧
      st'.q = O.pushP (O.remove st.q a) 3 (-2) ∧ st'.dist = st.dist := by
  have n1 : exH.getNeighbors a = .ok [3] := by rcases ha with rfl | rfl <;> decide +kernel
  have i1 : exH.getInNeighbors a = .ok [0] := by rcases ha with rfl | rfl <;> decide +kernel
  have k1 : exH.capOf a 3 = .ok 1 := by rcases ha with rfl | rfl <;> decide +kernel
  have e1 : exH.edgeAttr.contains (a, 3) = true := by rcases ha with rfl | rfl <;> decide +kernel
  have a3 : a ≠ 3 := by omega
  have a5 : a ≠ 5 := by omega
  have hpush : Preflow.processEdge exH st a 3 = 
      .ok (true, ⟨st.q, upd st.flow (a, 3) 1, upd (upd st.excess a 0) 3 (st.excess 3 + 1), st.dist⟩) := by
    unfold Preflow.processEdge
    rw [if_neg (by rw [d, d3]; decide), if_pos e1, k1]
    simp only []
    unfold Preflow.pushOn
    rw [hf, he, if_neg (by decide)]
    rfl
  have hhas : has (O.remove st.q a) 3 = false := by
    rw [Bool.eq_false_iff]
    intro h
    exact h3 ((hp.mem_remove _ _ hm 3 a3.symm).1 ((hs.has_iff _ _).1 h))
  unfold Preflow.step
  rw [n1]
  simp only []
  rw [i1]
  simp only [List.cons_append, List.nil_append]
  rw [Preflow.forNbrs, hpush]
  simp only [reduceCtorEq, false_and, if_false, Preflow.enqHead]
  rw [if_neg a5]
  unfold Preflow.settle
  simp only [Bool.false_eq_true, if_false]
  rw [if_neg (by simp [upd, a3])]
  simp only []
  unfold Preflow.finish
  simp only []
  rw [if_pos ⟨trivial, hhas, by decide, by decide⟩]
  exact ⟨_, rfl, by simp [Preflow.enq, d3], rfl⟩

/-- **C103 is false**: on `exH` and with every priority queue, at the second turn a node of distance 2 is taken while one of
distance 3 waits. -/
theorem C103_not_highest : Built exH ∧ exH.directed = true ∧
    ∀ {Q : Type} {O : QOps Nat Q} {items : Q → List Nat} {has : Q → Nat → Bool}, LawfulPQ O items → LawfulSet O items has →
    ∀ newQ : Q, items newQ = [] → ∃ st₀ taken last st x y,
      Preflow.started exH queueOps (exCol []) O newQ .highest 0 5 40 = .ok st₀ ∧
      Preflow.At exH O has .highest 0 5 st₀ taken last st ∧ O.isEmpty st.q = false ∧ O.peek st.q = some x ∧ y ∈ items st.q ∧
      st.dist x = 2 ∧ st.dist y = 3 := by
  refine ⟨⟨true, _, by intro op _; cases op <;> simp [Op.InScope], rfl⟩, by decide +kernel, ?_⟩
  intro Q O items has hp hs newQ hq
  have n0 : exH.getNeighbors 0 = .ok [1, 2] := by decide +kernel
  have c1 : exH.capOf 0 1 = .ok 1 := by decide +kernel
  have c2 : exH.capOf 0 2 = .ok 1 := by decide +kernel
  have len : exH.getNodeList.length = 6 := by decide +kernel
  obtain ⟨s, hs0, d1, d2, d3⟩ : ∃ s, search exH queueOps .unweightedSPT true none none 5 (exCol []) 40 = .ok s ∧
      Preflow.firstLabels exH s.2.dist 1 = 3 ∧ Preflow.firstLabels exH s.2.dist 2 = 3 ∧ Preflow.firstLabels exH s.2.dist 3 = 2 := by
    have h : (match search exH queueOps .unweightedSPT true none none 5 (exCol []) 40 with
      | .ok s => decide (Preflow.firstLabels exH s.2.dist 1 = 3 ∧ Preflow.firstLabels exH s.2.dist 2 = 3 ∧
          Preflow.firstLabels exH s.2.dist 3 = 2)
      | .error _ => false) = true := by decide +kernel
    split at h
    · next s hs => exact ⟨s, hs, by simpa using h⟩
    · cases h
  let st₀ : Preflow.PState Nat Q := ⟨O.pushP (O.pushP newQ 1 (-1)) 2 (-1), upd (upd (fun _ => 0) (0, 1) 1) (0, 2) 1,
    upd (upd (upd (upd (fun _ => 0) 1 1) 0 (-1)) 2 1) 0 (-2), upd (Preflow.firstLabels exH s.2.dist) 0 6⟩
  have hst : Preflow.started exH queueOps (exCol []) O newQ .highest 0 5 40 = .ok st₀ := by
    unfold Preflow.started
    rw [hs0]
    simp only []
    rw [n0]
    simp only []
    rw [Preflow.saturate, c1]
    simp only []
    rw [Preflow.saturate, c2]
    simp only []
    rw [Preflow.saturate]
    simp only [len]
    rfl
  have hitems : ∀ v, v ∈ items st₀.q ↔ v = 2 ∨ v = 1 := by
    intro v
    show v ∈ items (O.pushP (O.pushP newQ 1 (-1)) 2 (-1)) ↔ _
    rw [hp.mem_pushP, hp.mem_pushP, hq]
    simp
  have hprio : ∀ v p, O.getPriority st₀.q v = some p → p = -1 := by
    intro v p h
    replace h : O.getPriority (O.pushP (O.pushP newQ 1 (-1)) 2 (-1)) v = some p := h
    rw [hp.prio_push, hp.prio_push] at h
    split at h
    · cases h; rfl
    · split at h
      · cases h; rfl
      · have := (hp.prio_isSome newQ v).1 (by rw [h]; rfl)
        rw [hq] at this; cases this
  have hnd : (items st₀.q).Nodup := hs.nodup_pushP _ _ _ (hs.nodup_pushP _ _ _ (by rw [hq]; exact List.nodup_nil)
    (by rw [hq]; simp)) (by rw [hp.mem_pushP, hq]; simp)
  have hne : items st₀.q ≠ [] := fun h => by have := (hitems 1).2 (Or.inr rfl); rw [h] at this; cases this
  obtain ⟨a, ha, hpk⟩ := hp.peek_mem st₀.q hne
  -- the other one
  obtain ⟨b, hb, hab, hb'⟩ : ∃ b, b ∈ items st₀.q ∧ b ≠ a ∧ (b = 1 ∨ b = 2) := by
    rcases (hitems a).1 ha with rfl | rfl
    · exact ⟨1, (hitems 1).2 (Or.inr rfl), by decide, Or.inl rfl⟩
    · exact ⟨2, (hitems 2).2 (Or.inl rfl), by decide, Or.inr rfl⟩
  have ha' : a = 1 ∨ a = 2 := ((hitems a).1 ha).symm
  have hd : ∀ v, v = 1 ∨ v = 2 → st₀.dist v = 3 := by
    rintro v (rfl | rfl)
    · exact d1
    · exact d2
  have h3 : 3 ∉ items st₀.q := fun h => by have := (hitems 3).1 h; omega
  obtain ⟨st1, h4, h5, h6⟩ := exH_step hp hs hnd ha' ha h3 (by rcases ha' with rfl | rfl <;> rfl)
    (by rcases ha' with rfl | rfl <;> rfl) (hd a ha') d3
  have hb3 : b ≠ 3 := by omega
  have hb1 : b ∈ items st1.q := by
    rw [h5, hp.mem_pushP]
    exact Or.inr ((hp.mem_remove _ _ ha b hab).2 hb)
  have hne1 : items st1.q ≠ [] := fun h => by rw [h] at hb1; cases hb1
  obtain ⟨x, hx, hxp⟩ := hp.peek_mem st1.q hne1
  have hx3 : x = 3 := by
    by_contra hx3
    obtain ⟨p, hpx⟩ := Option.isSome_iff_exists.1 ((hp.prio_isSome st1.q x).2 hx)
    have h7 := hp.peek_min st1.q x 3 p (-2) hxp hpx (by rw [h5, hp.prio_push, if_pos rfl])
    rw [h5, hp.prio_push, if_neg hx3, hp.prio_remove _ _ ha] at hpx
    split at hpx
    · cases hpx
    · have := hprio x p hpx; omega
  subst hx3
  have hemp : ∀ q, items q ≠ [] → O.isEmpty q = false := fun q h => by
    rw [Bool.eq_false_iff]; exact fun h' => h ((hp.isEmpty_iff _).1 h')
  exact ⟨st₀, [a], _, st1, 3, b, hst, .turn .start (hemp _ hne) hpk h4, hemp _ hne1, hxp, hb1, by rw [h6]; exact d3,
    by rw [h6]; exact hd b hb'⟩

/-- non-vacuity of C103: the hypotheses on the queue hold for `pqOps'`, and on `exH` the method goes through its loop and ends -/
example : LawfulPQ (pqOps' : QOps Nat (PQ Nat)) (fun d => d.1.keys) ∧ (⟨.empty, by decide⟩ : PQ Nat).1.keys = [] ∧
    pushOf exH (Preflow.preflowPush exH queueOps (exCol []) pqOps' (fun q x => q.1.contains x) ⟨.empty, by decide⟩
      .highest 0 5 40) = some ([1, 1, 1, 1, 2, 2], [-2, 0, 0, 0, 0, 2]) := ⟨pq_lawful, rfl, by decide +kernel⟩

end GiMPy
