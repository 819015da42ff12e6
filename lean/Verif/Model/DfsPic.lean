import Verif.Model.Dfs
import Verif.Model.SearchPic

/-! # Model of `Graph.dfs` with the attributes it only writes (src/gimpy/graph.py 803-874)

The same code as in `Model/Dfs.lean`, branch `transpose=False`, with the node attributes `color` and `label` and the edge
attribute `color` kept.  Each function here is the function of the same name there, carrying a `DPic` along.  Simplified:
`display()` is a no-op, the pictures between the steps are not kept. -/

namespace GiMPy
variable {N : Type} [DecidableEq N]
namespace Dfs

/-- the columns `color` and `label` of the nodes and `color` of the edges (by key of `edge_attr`) -/
structure DPic (N : Type) where
  node : N → String
  label : N → String
  edge : N × N → String

/-- result: the state, `disc_count`, `finish_count`, the picture -/
abbrev ResP (N : Type) := Except PyErr ((DState N × Int × Int) × DPic N)

/-- loop over the neighbours: graph.py 851-866 (branch `not transpose`); `rec` is the recursive call -/
def dfsForP (rec : N → DState N → DPic N → Int → Int → ResP N) (root : N) :
    List N → DState N → DPic N → Int → Int → ResP N
  | [], st, p, dc, fc => .ok ((st, dc, fc), p)
  | i :: l, st, p, dc, fc =>
    if st.disc i = none then
      match rec i { st with pred := st.pred.set i root } p dc fc with
      | .error e => .error e
      | .ok ((st, dc, fc), p) => dfsForP rec root l st p dc fc
    else dfsForP rec root l st p dc fc

/-- label and colours on entering a node: graph.py 836-839 -/
def enterP (g : Graph N) (root : N) (pred : Dict N N) (p : DPic N) (dc : Int) : DPic N :=
  { node := upd p.node root "blue", label := upd p.label root (toString (dc + 1) ++ ",-"),
    edge := match pred.get? root with
      | none => p.edge
      | some u => upd p.edge (g.edgeKey u root) "green" }

/-- label and colour on leaving a node: graph.py 870-873 -/
def leaveP (root : N) (disc : Option Int) (p : DPic N) (fc : Int) : DPic N :=
  { node := upd p.node root "green",
    label := upd p.label root ("\"" ++ (match disc with | some d => toString d | none => "None") ++ "," ++ toString fc ++ "\""),
    edge := p.edge }

/-- `Graph.dfs` with `transpose=False`: graph.py 803-874.  The fuel bounds the recursion depth. -/
def dfsP (g : Graph N) (component : Option Int) : Nat → N → DState N → DPic N → Int → Int → ResP N
  | 0, _, _, _, _, _ => .error .diverge
  | f + 1, root, st, p, dc, fc =>
    if ¬ g.hasNode root then .error .attributeError
    else match touchPred g st.pred root with
      | .error e => .error e
      | .ok _ => match g.getNeighbors root with
        | .error e => .error e
        | .ok l => match dfsForP (dfsP g component f) root l (enter component root st dc) (enterP g root st.pred p dc)
            (dc + 1) fc with
          | .error e => .error e
          | .ok ((st, dc, fc), p) => .ok ((leave root st fc, dc, fc + 1), leaveP root (st.disc root) p fc)

end Dfs
end GiMPy
