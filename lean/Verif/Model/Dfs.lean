import Verif.Model.Search

/-! # Model of `dfs` and `acyclic_shortest_path` (src/gimpy/graph.py 803-874, 946-972)

`dfs` is modelled as `dfs` for `transpose=False` and as `dfsT` for `transpose=True`.  Columns: `disc_time`, `finish_time`, `component`.  `label` and `color` are
written and never read here, so they are left out, but the KeyError of the edge-colour write (838-839) is kept.
`order` is the list passed as `topological_order`.  The fuel is Python's recursion limit, `diverge`
is RecursionError. -/

namespace GiMPy
variable {N : Type} [DecidableEq N]
namespace Dfs

/-- columns and shared lists of a `dfs` call -/
structure DState (N : Type) where
  disc : N → Option Int
  fin : N → Option Int
  comp : N → Option Int
  pred : Dict N N
  order : List N

/-- result: the state, `disc_count`, `finish_count` -/
abbrev Res (N : Type) := Except PyErr (DState N × Int × Int)

/-- loop over the neighbours: graph.py 851-866 (branch `not transpose`); `rec` is the recursive call -/
def dfsFor (rec : N → DState N → Int → Int → Res N) (root : N) : List N → DState N → Int → Int → Res N
  | [], st, dc, fc => .ok (st, dc, fc)
  | i :: l, st, dc, fc =>
    if st.disc i = none then
      match rec i { st with pred := st.pred.set i root } dc fc with
      | .error e => .error e
      | .ok (st, dc, fc) => dfsFor rec root l st dc fc
    else dfsFor rec root l st dc fc

/-- the writes on entering a node: graph.py 833-839 -/
def enter (component : Option Int) (root : N) (st : DState N) (dc : Int) : DState N :=
  { st with comp := upd st.comp root component, disc := upd st.disc root (some (dc + 1)) }

/-- the writes on leaving a node: graph.py 867-869 -/
def leave (root : N) (st : DState N) (fc : Int) : DState N :=
  { st with fin := upd st.fin root (some fc), order := root :: st.order }

/-- `if root in pred: set_edge_attr(pred[root], root, ...)`: graph.py 838-839 -/
def touchPred (g : Graph N) (pred : Dict N N) (root : N) : Except PyErr Unit :=
  match pred.get? root with
  | none => .ok ()
  | some p => Search.touch g false p root

/-- `Graph.dfs` with `transpose=False`: graph.py 803-874.  The fuel bounds the recursion depth. -/
def dfs (g : Graph N) (component : Option Int) : Nat → N → DState N → Int → Int → Res N
  | 0, _, _, _, _ => .error .diverge
  | f + 1, root, st, dc, fc =>
    if ¬ g.hasNode root then .error .attributeError
    else match touchPred g st.pred root with
      | .error e => .error e
      | .ok _ => match g.getNeighbors root with
        | .error e => .error e
        | .ok l => match dfsFor (dfs g component f) root l (enter component root st dc) (dc + 1) fc with
          | .error e => .error e
          | .ok (st, dc, fc) => .ok (leave root st fc, dc, fc + 1)

/-- one insertion of a stable insertion sort by the second component -/
def insertBy (x : N × Int) : List (N × Int) → List (N × Int)
  | [] => [x]
  | y :: l => if x.2 ≤ y.2 then x :: y :: l else y :: insertBy x l

/-- the neighbours in the order of a transposed search: graph.py 842-848.  `sorted` is stable and the list is reversed
afterwards.  With two or more entries every entry is compared, and comparing `None` raises TypeError; a single entry is not
compared. -/
def byFinish (st : DState N) (l : List N) : Except PyErr (List N) :=
  if 2 ≤ l.length ∧ ∃ v ∈ l, st.fin v = none then .error .typeError
  else .ok (((l.map fun v => (v, (st.fin v).getD 0)).foldr insertBy []).map Prod.fst).reverse

/-- loop over the neighbours: graph.py 851-866 (branch `transpose`); `rec` is the recursive call -/
def dfsForT (rec : N → DState N → Int → Int → Res N) : List N → DState N → Int → Int → Res N
  | [], st, dc, fc => .ok (st, dc, fc)
  | i :: l, st, dc, fc =>
    if st.comp i = none then
      match rec i st dc fc with
      | .error e => .error e
      | .ok (st, dc, fc) => dfsForT rec l st dc fc
    else dfsForT rec l st dc fc

/-- `Graph.dfs` with `transpose=True`: graph.py 803-874.  On a digraph it follows the edges backwards.  The fuel bounds the
recursion depth. -/
def dfsT (g : Graph N) (component : Option Int) : Nat → N → DState N → Int → Int → Res N
  | 0, _, _, _, _ => .error .diverge
  | f + 1, root, st, dc, fc =>
    if ¬ g.hasNode root then .error .attributeError
    else match touchPred g st.pred root with
      | .error e => .error e
      | .ok _ => match Search.nbrs g true root with
        | .error e => .error e
        | .ok l => match byFinish (enter component root st dc) l with
          | .error e => .error e
          | .ok l => match dfsForT (dfsT g component f) l (enter component root st dc) (dc + 1) fc with
            | .error e => .error e
            | .ok (st, dc, fc) => .ok (leave root st fc, dc, fc + 1)

/-- local dictionaries of `acyclic_shortest_path` -/
structure AState (N : Type) where
  dist : Dict N Int
  pred : Dict N N

/-- the test `n not in dist or dist[n] > estimate`: graph.py 961 -/
def better (d : Option Int) (estimate : Int) : Bool :=
  match d with
  | none => true
  | some d => decide (d > estimate)

/-- the loop over the out-neighbours of `m`: graph.py 959-963 -/
def acFor (g : Graph N) (m : N) : List N → AState N → Except PyErr (AState N)
  | [], st => .ok st
  | n :: l, st =>
    match st.dist.get? m with
    | none => .error .keyError
    | some dm => match g.getEdgeCost m n with
      | .error e => .error e
      | .ok c =>
        if better (st.dist.get? n) (dm + c) then
          acFor g m l ⟨st.dist.set n (dm + c), st.pred.set n m⟩
        else acFor g m l st

/-- the main loop: graph.py 952-963; `k` iterations are left, `order` is the unread part of the list; the Boolean is
`found`. -/
def acLoop (g : Graph N) (dest : Option N) : Nat → List N → AState N → Except PyErr (Bool × AState N)
  | 0, _, st => .ok (false, st)
  | _ + 1, [], _ => .error .indexError
  | k + 1, m :: order, st =>
    if dest = some m then .ok (true, st)
    else match g.getInNeighbors m with
      | .error e => .error e
      | .ok inl =>
        let st := if inl.length = 0 then { st with dist := st.dist.set m 0 } else st
        match g.getNeighbors m with
        | .error e => .error e
        | .ok outl => match acFor g m outl st with
          | .error e => .error e
          | .ok st => acLoop g dest k order st

/-- `acyclic_shortest_path`: graph.py 946-972.  `st` are the node columns; also returns the columns afterwards. -/
def acyclicShortestPath (g : Graph N) (src : N) (dest : Option N) (st : DState N) (fuel : Nat) :
    Except PyErr (SearchRes N × DState N) :=
  match dfs g none fuel src { st with pred := .empty, order := [] } 0 1 with
  | .error e => .error e
  | .ok (st, _, _) =>
    match acLoop g dest g.getNodeList.length st.order ⟨.empty, .empty⟩ with
    | .error e => .error e
    | .ok (true, a) =>
      match dest with
      | none => .error .keyError
      | some d => match Search.reconstruct a.pred src fuel d [d] with
        | .error e => .error e
        | .ok l => .ok (.path l, st)
    | .ok (false, a) => .ok (.pred a.pred, st)

end Dfs
end GiMPy
