import Verif.Model.Misc

/-! # create_cluster with objects: graph.py 3451-3479

`Model/Misc.lean` has `create_cluster` on values.  Here the arguments are objects, which the caller may share between calls and
change later: dictionaries and lists with numbers as addresses.  The default value of `cluster_attrs` is one of the dictionaries. -/

namespace GiMPy
namespace Misc
variable {N : Type} [DecidableEq N]

/-- the objects of the caller -/
structure Heap (N : Type) where
  dicts : Nat → Dict String (Val N)
  lists : Nat → List N

/-- `d[k] = v` -/
def Heap.setItem (h : Heap N) (d : Nat) (k : String) (v : Val N) : Heap N :=
  { h with dicts := fun x => if x = d then (h.dicts d).set k v else h.dicts x }

/-- `l[:] = nodes` -/
def Heap.setList (h : Heap N) (i : Nat) (nodes : List N) : Heap N :=
  { h with lists := fun x => if x = i then nodes else h.lists x }

/-- an entry of `self.cluster`: graph.py 3477-3479.  The list is the object given, the dictionaries are copies. -/
structure RCluster (N : Type) where
  nodes : Nat
  attrs : Dict String (Val N)
  nodeAttrs : Dict String (Val N)

/-- the objects, `self.cluster` and `self.attr['cluster_count']` -/
structure RState (N : Type) where
  heap : Heap N
  clusters : Dict (Val N) (RCluster N)
  count : Nat

/-- `create_cluster(node_list, cluster_attrs, node_attrs)`, the arguments being objects: graph.py 3467-3479 -/
def createRef (s : RState N) (i d a : Nat) : Except PyErr (RState N) :=
  match (s.heap.dicts d).get? "name" with
  | some nm =>
    if s.clusters.contains (.str "name") then .error .exception
    else .ok { s with clusters := s.clusters.set nm ⟨i, s.heap.dicts d, s.heap.dicts a⟩ }
  | none =>
    let nm := autoName s.count
    let h := s.heap.setItem d "name" nm
    .ok ⟨h, s.clusters.set nm ⟨i, h.dicts d, h.dicts a⟩, s.count + 1⟩

/-- what a caller does: changes objects and makes clusters -/
inductive COp (N : Type)
  | setItem (d : Nat) (k : String) (v : Val N)
  | setList (i : Nat) (nodes : List N)
  | create (i d a : Nat)

/-- one step -/
def cstep (s : RState N) : COp N → Except PyErr (RState N)
  | .setItem d k v => .ok { s with heap := s.heap.setItem d k v }
  | .setList i l => .ok { s with heap := s.heap.setList i l }
  | .create i d a => createRef s i d a

/-- the steps one after the other -/
def crun (s : RState N) : List (COp N) → Except PyErr (RState N)
  | [] => .ok s
  | op :: l => match cstep s op with
    | .error e => .error e
    | .ok s => crun s l

/-- a cluster as `to_string` sees it (graph.py 650-676): with the present contents of the list -/
def look (s : RState N) (nm : Val N) : Option (Cluster N) :=
  (s.clusters.get? nm).map fun c => ⟨s.heap.lists c.nodes, c.attrs, c.nodeAttrs⟩

end Misc
end GiMPy
