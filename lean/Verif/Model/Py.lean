/-! # Python building blocks: exceptions as values, insertion-ordered dictionaries, list.remove -/

namespace GiMPy

/-- The exceptions the modelled code can raise.
`multipleNode`/`multipleEdge`: global_constants.py 8-12.  `exception`: a bare `raise Exception(...)`.
`diverge` is not a Python exception: it is what a fuelled `while` loop returns when its fuel is used up. -/
inductive PyErr
  | keyError | attributeError | typeError | indexError | valueError | zeroDivision | unboundLocal
  | multipleNode | multipleEdge | exception | diverge
  deriving DecidableEq, Repr

/-- A Python dictionary: association list in insertion order (Python >= 3.7 semantics). -/
structure Dict (K V : Type) where
  entries : List (K × V)
  deriving Repr, DecidableEq

namespace Dict
variable {K V : Type} [DecidableEq K]

/-- lookup in the entry list -/
def getL : List (K × V) → K → Option V
  | [], _ => none
  | (k', v) :: d, k => if k' = k then some v else getL d k

/-- assignment in the entry list: overwrite in place or append at the end -/
def setL : List (K × V) → K → V → List (K × V)
  | [], k, v => [(k, v)]
  | (k', v') :: d, k, v => if k' = k then (k', v) :: d else (k', v') :: setL d k v

/-- `dict()` -/
def empty : Dict K V := ⟨[]⟩

/-- `d.get(k)`; `d[k]` raises KeyError when this is `none`. -/
def get? (d : Dict K V) (k : K) : Option V := getL d.entries k

/-- `k in d` -/
def contains (d : Dict K V) (k : K) : Bool := (d.get? k).isSome

/-- `d[k] = v`: overwrites in place, or appends a new key at the end. -/
def set (d : Dict K V) (k : K) (v : V) : Dict K V := ⟨setL d.entries k v⟩

/-- `del d[k]` for a present key (the caller checks presence and raises KeyError otherwise);
also `d.pop(k, None)`. -/
def erase (d : Dict K V) (k : K) : Dict K V := ⟨d.entries.filter (fun e => ¬ e.1 = k)⟩

/-- `list(d.keys())`, also the iteration order of `for k in d` -/
def keys (d : Dict K V) : List K := d.entries.map Prod.fst

/-- `for a in attr: d[a] = attr[a]` -/
def update (d : Dict K V) : List (K × V) → Dict K V
  | [] => d
  | (k, v) :: l => (d.set k v).update l

end Dict

/-- Attribute values. `none` is Python's `None`; numbers are integers. -/
inductive Val (N : Type)
  | none | bool (b : Bool) | int (i : Int) | str (s : String) | name (n : N)
  deriving DecidableEq, Repr

/-- An attribute dictionary (`Node.attr`, `Graph.edge_attr[e]`). -/
abbrev Attrs (N : Type) := Dict String (Val N)

end GiMPy
