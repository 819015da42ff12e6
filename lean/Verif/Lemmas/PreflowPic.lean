import Verif.Model.PreflowPic
import Verif.Lemmas.Preflow

/-! # The picture is that of the current columns at every turn of `max_flow_preflowpush` -/

namespace GiMPy
namespace Preflow
open Search MaxFlow
variable {N : Type} [DecidableEq N] {Q QS : Type} {g : Graph N} {O : QOps N Q} {has : Q → N → Bool} {algo : PAlgo} {src sink : N}

/-- `processEdge` that reports no push leaves the columns -/
theorem processEdge_false {st st' : PState N Q} {i j : N} (h : processEdge g st i j = .ok (false, st')) : st' = st := by
  have hp : ∀ (e : N × N) (m c : Int), pushOn st e m c i j = (false, st') → st' = st := by
    intro e m c h
    unfold pushOn at h
    by_cases h1 : c - m * st.flow e = 0
    · rw [if_pos h1] at h; exact (Prod.mk.inj h).2.symm
    · rw [if_neg h1] at h; exact absurd (Prod.mk.inj h).1 (by simp)
  unfold processEdge at h
  by_cases h1 : st.dist i ≠ st.dist j + 1
  · rw [if_pos h1] at h; cases h; rfl
  · rw [if_neg h1] at h
    by_cases h2 : g.edgeAttr.contains (i, j) = true
    · rw [if_pos h2] at h
      cases h3 : g.capOf i j with
      | error e => rw [h3] at h; cases h
      | ok c => rw [h3] at h; exact hp _ _ _ (Except.ok.inj h)
    · rw [if_neg h2] at h
      by_cases h3 : g.edgeAttr.contains (j, i) = true
      · rw [if_pos h3] at h; exact hp _ _ _ (Except.ok.inj h)
      · rw [if_neg h3] at h; cases h

theorem forNbrsP_eq {cur : N} : ∀ (l : List N) (last : Option (Bool × N)) (st : PState N Q),
    forNbrsP g O has algo src sink cur l last st (showP g st) =
      match forNbrs g O has algo src sink cur l last st with
      | .error e => .error e
      | .ok (r, la, s) => .ok (r, la, s, showP g s)
  | [], _, _ => rfl
  | n :: l, _, st => by
    unfold forNbrsP forNbrs
    match h : processEdge g st cur n with
    | .error e => rfl
    | .ok (false, s) =>
      have := processEdge_false h
      subst this
      simp only []
      exact forNbrsP_eq l _ _
    | .ok (true, s) =>
      simp only []
      by_cases h1 : algo = .fifo ∧ s.excess cur > 0
      · rw [if_pos h1, if_pos h1]
        exact forNbrsP_eq l _ { s with q := enqHead O has algo src sink n s.q }
      · rw [if_neg h1, if_neg h1]
        rfl

theorem settleP_eq {cur : N} {rel : Bool} (st : PState N Q) : settleP g O algo cur rel st (showP g st) =
      match settle g O algo cur rel st with
      | .error e => .error e
      | .ok s => .ok (s, showP g s) := by
  have key : ∀ s : PState N Q, (if s.excess cur > 0 then
      (Except.ok ({ s with q := enq O algo s.q cur (-s.dist cur) }, showP g s) : Except PyErr (PState N Q × PPic N))
      else .ok (s, showP g s)) =
      match (if s.excess cur > 0 then (Except.ok { s with q := enq O algo s.q cur (-s.dist cur) } : Except PyErr (PState N Q))
        else .ok s) with
      | .error e => .error e
      | .ok s => .ok (s, showP g s) := by
    intro s
    by_cases h : s.excess cur > 0
    · rw [if_pos h, if_pos h]; rfl
    · rw [if_neg h, if_neg h]
  unfold settleP settle relabelP
  cases rel with
  | false => exact key st
  | true =>
    simp only [if_true]
    cases h : relabel g st cur with
    | error e => rfl
    | ok s => exact key s

theorem finish_show {last : Option (Bool × N)} {st st' : PState N Q} (h : finish O has algo src last st = .ok st') :
    showP g st' = showP g st := by
  unfold finish at h
  match last with
  | none => cases h
  | some (b, n) =>
    simp only [] at h
    split at h
    · cases h; rfl
    · cases h; rfl

theorem stepP_eq {cur : N} (last : Option (Bool × N)) (st : PState N Q) :
    stepP g O has algo src sink cur last st (showP g st) =
      match step g O has algo src sink cur last st with
      | .error e => .error e
      | .ok (la, s) => .ok (la, s, showP g s) := by
  unfold stepP step
  cases g.getNeighbors cur with
  | error e => rfl
  | ok out =>
    simp only []
    cases g.getInNeighbors cur with
    | error e => rfl
    | ok inn =>
      simp only []
      rw [forNbrsP_eq]
      match forNbrs g O has algo src sink cur (out ++ inn) last st with
      | .error e => rfl
      | .ok (rel, la, s) =>
        simp only []
        have key : (if cur = sink then (Except.ok ({ s with q := O.remove s.q cur }, showP g s) : Except PyErr (PState N Q × PPic N))
            else settleP g O algo cur rel { s with q := O.remove s.q cur } (showP g s)) =
            match (if cur = sink then (Except.ok { s with q := O.remove s.q cur } : Except PyErr (PState N Q))
              else settle g O algo cur rel { s with q := O.remove s.q cur }) with
            | .error e => .error e
            | .ok s => .ok (s, showP g s) := by
          by_cases h : cur = sink
          · rw [if_pos h, if_pos h]; rfl
          · rw [if_neg h, if_neg h]
            exact settleP_eq { s with q := O.remove s.q cur }
        rw [key]
        cases (if cur = sink then (Except.ok { s with q := O.remove s.q cur } : Except PyErr (PState N Q))
              else settle g O algo cur rel { s with q := O.remove s.q cur }) with
        | error e => rfl
        | ok s2 =>
          simp only []
          cases h : finish O has algo src la s2 with
          | error e => rfl
          | ok s3 => simp only [finish_show h]

theorem loopP_eq : ∀ (k : Nat) (last : Option (Bool × N)) (st : PState N Q),
    loopP g O has algo src sink k last st (showP g st) =
      match loop g O has algo src sink k last st with
      | .error e => .error e
      | .ok s => .ok (s, showP g s)
  | 0, _, _ => rfl
  | k + 1, last, st => by
    unfold loopP loop
    by_cases h : O.isEmpty st.q = true
    · rw [if_pos h, if_pos h]
    · rw [if_neg h, if_neg h]
      cases O.peek st.q with
      | none => rfl
      | some cur =>
        simp only []
        rw [stepP_eq]
        match step g O has algo src sink cur last st with
        | .error e => rfl
        | .ok (la, s) =>
          simp only []
          exact loopP_eq k la s

/-- the whole method: the same columns as without the picture, and the picture of these columns -/
theorem preflowPushP_eq {OS : QOps N QS} {col : SState N QS} {newQ : Q} {fuel : Nat} (p : PPic N) :
    preflowPushP g OS col O has newQ algo src sink fuel p =
      match preflowPush g OS col O has newQ algo src sink fuel with
      | .error e => .error e
      | .ok s => .ok (s, showP g s) := by
  unfold preflowPushP preflowPush
  match search g OS .unweightedSPT true none none sink col fuel with
  | .error e => rfl
  | .ok (_, s) =>
    simp only []
    cases g.getNeighbors src with
    | error e => rfl
    | ok out =>
      simp only []
      cases saturate g O algo src out ⟨newQ, fun _ => 0, fun _ => 0, firstLabels g s.dist⟩ with
      | error e => rfl
      | ok st => exact loopP_eq fuel none _

end Preflow
end GiMPy
