import Verif.Model.Preflow
import Verif.Spec.Queue

/-! # The states that `max_flow_preflowpush` with 'HighestLabel' passes through -/

namespace GiMPy
namespace Preflow
open Search
variable {N : Type} [DecidableEq N] {Q QS : Type}

/-- everything before the `while` loop of `max_flow_preflowpush`: graph.py 1358-1403 -/
def started (g : Graph N) (OS : QOps N QS) (col : SState N QS) (O : QOps N Q) (newQ : Q) (algo : PAlgo) (src sink : N)
    (fuel : Nat) : Except PyErr (PState N Q) :=
  match search g OS .unweightedSPT true none none sink col fuel with
  | .error e => .error e
  | .ok (_, s) => match g.getNeighbors src with
    | .error e => .error e
    | .ok out => match saturate g O algo src out ⟨newQ, fun _ => 0, fun _ => 0, firstLabels g s.dist⟩ with
      | .error e => .error e
      | .ok st => .ok { st with dist := upd st.dist src g.getNodeList.length }

/-- `At st₀ taken last st`: starting in `st₀`, the test of the `while` loop is reached in state `st` after turns for the nodes
`taken`, last one first -/
inductive At (g : Graph N) (O : QOps N Q) (has : Q → N → Bool) (algo : PAlgo) (src sink : N) (st₀ : PState N Q) :
    List N → Option (Bool × N) → PState N Q → Prop
  | start : At g O has algo src sink st₀ [] none st₀
  | turn {taken last st cur last' st'} : At g O has algo src sink st₀ taken last st → O.isEmpty st.q = false →
      O.peek st.q = some cur →
      step g O has algo src sink cur last st = .ok (last', st') → At g O has algo src sink st₀ (cur :: taken) last' st'

end Preflow
end GiMPy
