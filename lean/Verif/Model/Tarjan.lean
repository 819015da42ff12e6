import Verif.Model.Search

/-! # Model of `tarjan`, `strong_connect`, `label_strong_component` (src/gimpy/graph.py 724-801)

Columns: node attributes `index`, `lowlink`, `component`; `num` is `self.num_components`.  The Python list `q` is kept
with its end (where `append` and `pop` work) at the head.  The fuel is Python's recursion limit, `diverge`
is RecursionError. -/

namespace GiMPy
variable {N : Type} [DecidableEq N]
namespace Tarjan

/-- attribute columns, the shared list `q` and `self.num_components` -/
structure TState (N : Type) where
  index : N → Option Int
  low : N → Option Int
  comp : N → Option Int
  q : List N
  num : Int

/-- result: state, `index`, `component` -/
abbrev Res (N : Type) := Except PyErr (TState N × Int × Int)

/-- `min([a, b])` where either may be None: graph.py 768-770, 772-774 -/
def pyMin : Option Int → Option Int → Except PyErr (Option Int)
  | some a, some b => .ok (some (min a b))
  | _, _ => .error .typeError

/-- lowering `lowlink` of `node` to the value `x`: graph.py 768-774 -/
def lower (st : TState N) (node : N) (x : Option Int) : Except PyErr (TState N) :=
  match pyMin (st.low node) x with
  | .error e => .error e
  | .ok v => .ok { st with low := upd st.low node v }

/-- the loop over the neighbours: graph.py 765-774; `rec` is the recursive call -/
def scFor (rec : N → TState N → Int → Int → Res N) (node : N) : List N → TState N → Int → Int → Res N
  | [], st, i, c => .ok (st, i, c)
  | m :: l, st, i, c =>
    if st.index m = none then
      match rec m st i c with
      | .error e => .error e
      | .ok (st, i, c) => match lower st node (st.low m) with
        | .error e => .error e
        | .ok st => scFor rec node l st i c
    else if m ∈ st.q then
      match lower st node (st.index m) with
      | .error e => .error e
      | .ok st => scFor rec node l st i c
    else scFor rec node l st i c

/-- popping and labelling down to `node`: graph.py 776-780 -/
def popTo (node : N) (c : Int) : List N → (N → Option Int) → Except PyErr (List N × (N → Option Int))
  | [], _ => .error .indexError
  | m :: q, comp => if node = m then .ok (q, upd comp m (some c)) else popTo node c q (upd comp m (some c))

/-- graph.py 775-784 -/
def finish (node : N) (st : TState N) (i c : Int) : Res N :=
  if st.low node = st.index node then
    match popTo node c st.q st.comp with
    | .error e => .error e
    | .ok (q, comp) => .ok ({ st with q := q, comp := comp, num := c + 1 }, i, c + 1)
  else .ok (st, i, c)

/-- graph.py 761-764 -/
def enter (node : N) (st : TState N) (i : Int) : TState N :=
  { st with index := upd st.index node (some i), low := upd st.low node (some i), q := node :: st.q }

/-- `Graph.strong_connect`: graph.py 743-784.  The fuel bounds the recursion depth. -/
def strongConnect (g : Graph N) : Nat → N → TState N → Int → Int → Res N
  | 0, _, _, _, _ => .error .diverge
  | f + 1, node, st, i, c =>
    if ¬ g.hasNode node then .error .attributeError
    else match g.getNeighbors node with
      | .error e => .error e
      | .ok l => match scFor (strongConnect g f) node l (enter node st i) (i + 1) c with
        | .error e => .error e
        | .ok (st, i, c) => finish node st i c

/-- the loop of `tarjan`: graph.py 739-741 -/
def tarjanLoop (g : Graph N) (fuel : Nat) : List N → TState N → Int → Int → Res N
  | [], st, i, c => .ok (st, i, c)
  | n :: l, st, i, c =>
    if st.index n = none then
      match strongConnect g fuel n st i c with
      | .error e => .error e
      | .ok (st, i, c) => tarjanLoop g fuel l st i c
    else tarjanLoop g fuel l st i c

/-- `Graph.tarjan`: graph.py 724-741 -/
def tarjan (g : Graph N) (fuel : Nat) (st : TState N) : Except PyErr (TState N) :=
  match tarjanLoop g fuel g.getNodeList { st with q := [] } 0 0 with
  | .error e => .error e
  | .ok (st, _, _) => .ok st

/-- `Graph.label_strong_component`: graph.py 787-801 -/
def labelStrongComponent (g : Graph N) (fuel : Nat) (st : TState N) : Except PyErr (TState N) :=
  tarjan g fuel { st with num := 0 }

end Tarjan
end GiMPy
