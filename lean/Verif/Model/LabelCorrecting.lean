import Verif.Model.Search

/-! # Model of `fifo_label_correcting`, `label_correcting_check_cycle` and `label_correcting_get_cycle`
(src/gimpy/graph.py 2217-2319)

The node attribute `distance`, which every node gets before it is read, is a function; `none` is the string 'inf'.  What
`'inf' > x` gives for an integer `x` is a parameter: Python 3 raises TypeError, Python 2 gives True. -/

namespace GiMPy
variable {N : Type} [DecidableEq N]

namespace LC

/-- the labels, `pred` and `q` -/
structure LState (N : Type) where
  dist : N → Option Int
  pred : Dict N (Option N)
  q : List N

/-- Python 3: `'inf' > x` -/
def py3 : Except PyErr Bool := .error .typeError

/-- Python 2: `'inf' > x` -/
def py2 : Except PyErr Bool := .ok true

/-- the while loop of `label_correcting_get_cycle`: graph.py 2314-2319 -/
def getCycle (pred : Dict N (Option N)) (j : N) : Nat → List N → Option N → Except PyErr (List N)
  | 0, _, _ => .error .diverge
  | _ + 1, _, none => .error .keyError
  | f + 1, cycle, some k =>
    if k = j then .ok cycle.reverse
    else match pred.get? k with
      | none => .error .keyError
      | some p => getCycle pred j f (cycle ++ [k]) p

/-- the while loop of `label_correcting_check_cycle`: graph.py 2283-2291; `labelled` are the nodes with label `j`.  True if
a labelled node is met. -/
def meets (nl : List N) (pred : Dict N (Option N)) : Nat → List N → Option N → Except PyErr Bool
  | 0, _, _ => .error .diverge
  | _ + 1, _, none => .ok false
  | f + 1, labelled, some k =>
    if k ∉ nl then .error .keyError
    else if k ∈ labelled then .ok true
    else match pred.get? k with
      | none => .error .keyError
      | some p => meets nl pred f (k :: labelled) p

/-- `label_correcting_get_cycle`: graph.py 2293-2319 -/
def cycleOf (j : N) (pred : Dict N (Option N)) (fuel : Nat) : Except PyErr (List N) :=
  match pred.get? j with
  | none => .error .keyError
  | some p => getCycle pred j fuel [j] p

/-- `label_correcting_check_cycle`: graph.py 2265-2291 -/
def checkCycle (g : Graph N) (j : N) (pred : Dict N (Option N)) (fuel : Nat) : Except PyErr (Option (List N)) :=
  match meets g.getNodeList pred fuel [] (some j) with
  | .error e => .error e
  | .ok false => .ok none
  | .ok true => match cycleOf j pred fuel with
    | .error e => .error e
    | .ok c => .ok (some c)

/-- `if j not in q: q.append(j)`: graph.py 2261-2262 -/
def enqueue (q : List N) (j : N) : List N := if j ∈ q then q else q ++ [j]

/-- `distance_j > x`: graph.py 2251 -/
def longer (inf : Except PyErr Bool) : Option Int → Int → Except PyErr Bool
  | none, _ => inf
  | some d, x => .ok (decide (d > x))

/-- the body of the test: graph.py 2252-2262; `.inr c` is `return (False, c)` -/
def update (g : Graph N) (fuel : Nat) (st : LState N) (i j : N) (x : Int) : Except PyErr (LState N ⊕ List N) :=
  if st.pred.contains j then
    match checkCycle g j (st.pred.set j (some i)) fuel with
    | .error e => .error e
    | .ok (some c) => .ok (.inr c)
    | .ok none => .ok (.inl ⟨upd st.dist j (some x), st.pred.set j (some i), enqueue st.q j⟩)
  else .ok (.inl ⟨upd st.dist j (some x), st.pred.set j (some i), enqueue st.q j⟩)

/-- one turn of the for loop: graph.py 2248-2262 -/
def relax (g : Graph N) (inf : Except PyErr Bool) (fuel : Nat) (i : N) (st : LState N) (j : N) :
    Except PyErr (LState N ⊕ List N) :=
  match g.getEdgeCost i j with
  | .error e => .error e
  | .ok c => match st.dist i with
    | none => .error .typeError
    | some d => match longer inf (st.dist j) (d + c) with
      | .error e => .error e
      | .ok false => .ok (.inl st)
      | .ok true => update g fuel st i j (d + c)

/-- the for loop: graph.py 2247-2262 -/
def scan (g : Graph N) (inf : Except PyErr Bool) (fuel : Nat) (i : N) : List N → LState N → Except PyErr (LState N ⊕ List N)
  | [], st => .ok (.inl st)
  | j :: l, st => match relax g inf fuel i st j with
    | .error e => .error e
    | .ok (.inr c) => .ok (.inr c)
    | .ok (.inl st') => scan g inf fuel i l st'

/-- the while loop: graph.py 2244-2263 -/
def loop (g : Graph N) (inf : Except PyErr Bool) (fuel : Nat) : Nat → LState N → Except PyErr (LState N ⊕ List N)
  | 0, _ => .error .diverge
  | f + 1, st => match st.q with
    | [] => .ok (.inl st)
    | i :: q => match Search.nbrs g false i with
      | .error e => .error e
      | .ok l => match scan g inf fuel i l ⟨st.dist, st.pred, q⟩ with
        | .error e => .error e
        | .ok (.inr c) => .ok (.inr c)
        | .ok (.inl st') => loop g inf fuel f st'

/-- the initial labels, `pred` and `q`: graph.py 2237-2243 -/
def start (s : N) : LState N := ⟨fun n => if n = s then some 0 else none, ⟨[(s, none)]⟩, [s]⟩

/-- `fifo_label_correcting`: graph.py 2217-2263; `.inl st` is `(True, st.pred)` with the labels `st.dist`, `.inr c` is
`(False, c)`.  `get_node(source)` is None for a missing node. -/
def fifo (g : Graph N) (inf : Except PyErr Bool) (s : N) (fuel : Nat) : Except PyErr (LState N ⊕ List N) :=
  if g.hasNode s then loop g inf fuel fuel (start s) else .error .attributeError

end LC
end GiMPy
