import Mathlib.Data.List.Basic

/-! # Routes through a network and families of routes (independent of flows) -/

namespace GiMPy
variable {N : Type} [DecidableEq N]

/-- the arcs `l`, all in `E`, lead from the given node to `t`, each starting where the one before ends -/
def IsRoute (E : List (N × N)) (t : N) : N → List (N × N) → Prop
  | s, [] => s = t
  | s, e :: l => e.1 = s ∧ e ∈ E ∧ IsRoute E t e.2 l

/-- the nodes of a route that starts at `s` -/
def routeNodes (s : N) (l : List (N × N)) : List N := s :: l.map Prod.snd

/-- a family of routes from `s` to `t`, in which no arc is used more often than its capacity allows -/
structure IsPacking (E : List (N × N)) (cap : N × N → Int) (s t : N) (Ps : List (List (N × N))) : Prop where
  route : ∀ P ∈ Ps, IsRoute E t s P
  load : ∀ e ∈ E, (Ps.flatten.count e : Int) ≤ cap e

/-- a family of routes from `s` to `t` without a common arc, each going through every arc at most once -/
structure ArcDisjoint (E : List (N × N)) (s t : N) (Ps : List (List (N × N))) : Prop where
  route : ∀ P ∈ Ps, IsRoute E t s P
  once : Ps.flatten.Nodup

/-- after the removal of the arcs `C` there is no route from `s` to `t` -/
def Separates (E : List (N × N)) (s t : N) (C : List (N × N)) : Prop :=
  ∀ l, IsRoute (E.filter fun e => e ∉ C) t s l → False

end GiMPy
