import Verif.Model.Search

/-! # Model of `bfs` and `label_components` (src/gimpy/graph.py 694-722, 931-944) -/

namespace GiMPy
variable {N : Type} [DecidableEq N] {Q : Type}
namespace Search

/-- `Graph.bfs`: graph.py 931-944.  It calls `search` with `q = Queue()` and no `algo`, hence with `algo='DFS'`, and
drops the result.  `O` is the `Queue` class, `col.q` the new queue. -/
def bfs (g : Graph N) (O : QOps N Q) (comp : Option Int) (root : N) (col : SState N Q) (fuel : Nat) :
    Except PyErr (SState N Q) :=
  match search g O .dfs false comp none root col fuel with
  | .error e => .error e
  | .ok (_, st) => .ok st

/-- outcome of `label_components`: the exception if any, `self.num_components` and the columns -/
structure LabelRes (N Q : Type) where
  err : Option PyErr
  num : Int
  st : SState N Q

/-- the last loop of `label_components`: graph.py 718-722; `newQ` is a new `Stack()` for each search. -/
def labelLoop (g : Graph N) (O : QOps N Q) (newQ : Q) (fuel : Nat) : List N → Int → SState N Q → LabelRes N Q
  | [], k, st => ⟨none, k, st⟩
  | n :: l, k, st =>
    if st.comp n = none then
      match search g O .dfs false (some k) none n { st with q := newQ } fuel with
      | .error e => ⟨some e, k, st⟩
      | .ok (_, st) => labelLoop g O newQ fuel l (k + 1) st
    else labelLoop g O newQ fuel l k st

/-- `Graph.label_components`: graph.py 694-722.  `num0` is the old value of `num_components`. -/
def labelComponents (g : Graph N) (O : QOps N Q) (newQ : Q) (num0 : Int) (st : SState N Q) (fuel : Nat) :
    LabelRes N Q :=
  if g.directed then ⟨some .exception, num0, st⟩
  else labelLoop g O newQ fuel g.getNodeList 0 { st with comp := fun x => if x ∈ g.getNodeList then none else st.comp x }

end Search
end GiMPy
