import Verif.Model.DisjointSet
import Mathlib.Logic.Relation

/-! # Histories of disjoint-set calls -/

namespace GiMPy
variable {N : Type} [DecidableEq N]

/-- a call on a `DisjointSet` -/
inductive DOp (N : Type)
  | add (l : List N)
  | union (i j : N)
  | find (i : N)

/-- perform the call -/
def DSet.step (d : DSet N) (fuel : Nat) : DOp N → Except PyErr (DSet N)
  | .add l => d.add l
  | .union i j => (d.union fuel i j).map Prod.snd
  | .find i => (d.find fuel i).map Prod.snd

/-- perform a history of calls (the latest call is at the head of the list) -/
def DSet.run (optimize : Bool) (fuel : Nat) : List (DOp N) → Except PyErr (DSet N)
  | [] => .ok (DSet.init optimize)
  | op :: ops => match DSet.run optimize fuel ops with
    | .error e => .error e
    | .ok d => d.step fuel op

/-- the items added by a history -/
def items : List (DOp N) → List N
  | [] => []
  | .add l :: ops => items ops ++ l
  | _ :: ops => items ops

/-- `add` only of new distinct items, `union` and `find` only of items -/
def ValidOps : List (DOp N) → Prop
  | [] => True
  | .add l :: ops => ValidOps ops ∧ l ≠ [] ∧ l.Nodup ∧ ∀ x ∈ l, x ∉ items ops
  | .union i j :: ops => ValidOps ops ∧ i ∈ items ops ∧ j ∈ items ops
  | .find i :: ops => ValidOps ops ∧ i ∈ items ops

/-- `u` and `v` were placed in the same `add` or were arguments of the same `union` -/
def Told (ops : List (DOp N)) (u v : N) : Prop :=
  (∃ l, DOp.add l ∈ ops ∧ u ∈ l ∧ v ∈ l) ∨ DOp.union u v ∈ ops

/-- in the same set: linked by a chain of such calls -/
def SameSet (ops : List (DOp N)) : N → N → Prop := Relation.EqvGen (Told ops)

end GiMPy
