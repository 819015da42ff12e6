import Verif.Model.Clusters
import Verif.Props.Misc

/-! # C144: clusters and the objects from which they are made -/

namespace GiMPy
namespace Misc
variable {N : Type} [DecidableEq N]

/-- the calls of `create_cluster` in the steps, each with the contents that its arguments have at that time -/
def callsOf (s : RState N) : List (COp N) → List (CCall N)
  | [] => []
  | op :: l =>
    let rest := match cstep s op with
      | .error _ => []
      | .ok s => callsOf s l
    match op with
    | .create i d a => ⟨s.heap.lists i, s.heap.dicts d,
        if a = d ∧ (s.heap.dicts d).get? "name" = none then (s.heap.dicts d).set "name" (autoName s.count)
        else s.heap.dicts a⟩ :: rest
    | _ => rest

/-- no list is changed after it was given to `create_cluster`; `G` are the lists given so far -/
def Kept (G : Nat → Prop) : List (COp N) → Prop
  | [] => True
  | .setItem _ _ _ :: l => Kept G l
  | .setList i _ :: l => ¬ G i ∧ Kept G l
  | .create i _ _ :: l => Kept (fun x => x = i ∨ G x) l

/-- the clusters made from objects are those made from values -/
structure Same (s : RState N) (t : ClusterState N) : Prop where
  count : t.count = s.count
  keys : t.clusters.keys = s.clusters.keys
  look : ∀ nm, t.clusters.get? nm = look s nm

/-- all lists in clusters are in `G` -/
def Given (G : Nat → Prop) (s : RState N) : Prop := ∀ nm c, s.clusters.get? nm = some c → G c.nodes

theorem same_set {s : RState N} {t : ClusterState N} (h : Same s t) (hp : Heap N) (hl : hp.lists = s.heap.lists) (nm : Val N) (i : Nat)
    (at1 at2 : Dict String (Val N)) (k : Nat) (df : Dict String (Val N)) :
    Same ⟨hp, s.clusters.set nm ⟨i, at1, at2⟩, k⟩ ⟨t.clusters.set nm ⟨s.heap.lists i, at1, at2⟩, k, df⟩ := by
  refine ⟨rfl, ?_, fun x => ?_⟩
  · by_cases hk : nm ∈ s.clusters.keys
    · show (t.clusters.set nm _).keys = (s.clusters.set nm _).keys
      rw [Dict.keys_set_of_mem _ hk, Dict.keys_set_of_mem _ (by rw [h.keys]; exact hk), h.keys]
    · show (t.clusters.set nm _).keys = (s.clusters.set nm _).keys
      rw [Dict.keys_set_of_not_mem _ hk, Dict.keys_set_of_not_mem _ (by rw [h.keys]; exact hk), h.keys]
  · have := h.look x
    unfold look at this ⊢
    simp only [Dict.get?_set, hl]
    by_cases hx : nm = x
    · simp [hx]
    · simp only [if_neg hx]; exact this

theorem contains_same {s : RState N} {t : ClusterState N} (h : Same s t) (x : Val N) :
    t.clusters.contains x = s.clusters.contains x := by
  rw [Bool.eq_iff_iff, Dict.contains_iff, Dict.contains_iff, h.keys]

/-- objects simulate values -/
theorem crun_sim (l : List (COp N)) : ∀ (s : RState N) (t : ClusterState N) (G : Nat → Prop), Same s t → Given G s → Kept G l →
    (∃ e, crun s l = .error e ∧ createAll t (callsOf s l) = .error e) ∨
    ∃ s' t', crun s l = .ok s' ∧ createAll t (callsOf s l) = .ok t' ∧ Same s' t' := by
  induction l with
  | nil => intro s t G h _ _; exact .inr ⟨s, t, rfl, rfl, h⟩
  | cons op l ih =>
    intro s t G h hG hK
    cases op with
    | setItem d k v =>
      exact ih _ t G ⟨h.count, h.keys, h.look⟩ hG hK
    | setList i v =>
      obtain ⟨hi, hK⟩ := hK
      refine ih { s with heap := s.heap.setList i v } t G ⟨h.count, h.keys, fun nm => ?_⟩ hG hK
      rw [h.look nm]
      unfold look
      cases hc : s.clusters.get? nm with
      | none => rfl
      | some c =>
        have hne : c.nodes ≠ i := fun he => hi (he ▸ hG nm c hc)
        simp [Heap.setList, hne]
    | create i d a =>
      have hGset : ∀ (hp : Heap N) (nm : Val N) (x y : Dict String (Val N)) (k : Nat),
          Given (fun x => x = i ∨ G x) (⟨hp, s.clusters.set nm ⟨i, x, y⟩, k⟩ : RState N) := by
        intro hp nm x y k nm' c hc
        simp only [Dict.get?_set] at hc
        by_cases hx : nm = nm'
        · rw [if_pos hx] at hc
          cases hc; exact .inl rfl
        · rw [if_neg hx] at hc
          exact .inr (hG nm' c hc)
      unfold crun callsOf cstep createRef
      simp only [createAll, createCluster, Option.getD_some]
      cases hn : (s.heap.dicts d).get? "name" with
      | some nm =>
        simp only [contains_same h]
        by_cases hc : s.clusters.contains (.str "name") = true
        · simp only [if_pos hc]
          exact .inl ⟨_, rfl, rfl⟩
        · simp only [if_neg hc]
          rw [if_neg (by simp)]
          have hS := same_set h s.heap rfl nm i (s.heap.dicts d) (s.heap.dicts a) s.count t.dflt
          rw [← h.count] at hS
          exact ih _ _ _ (by rw [h.count] at hS ⊢; exact hS) (hGset _ _ _ _ _) hK
      | none =>
        simp only [Option.isNone_some, h.count]
        have e : (if a = d ∧ True then (s.heap.dicts d).set "name" (autoName s.count) else s.heap.dicts a) =
            (s.heap.setItem d "name" (autoName s.count)).dicts a := by
          simp [Heap.setItem]
        have e2 : (s.heap.setItem d "name" (autoName s.count)).dicts d = (s.heap.dicts d).set "name" (autoName s.count) := by
          simp [Heap.setItem]
        rw [e, e2]
        exact ih _ _ _ (same_set h (s.heap.setItem d "name" (autoName s.count)) rfl _ _ _ _ _ _) (hGset _ _ _ _ _) hK

/-- **C144 (partial).** A caller makes clusters on a new graph from dictionaries and lists, shares the objects between calls and
changes the dictionaries as it likes, but changes no list after it was given to `create_cluster`.  If the names at the times of the
calls (given, or c0, c1, ...) are all different and none is the word 'name', then all calls succeed, the clusters have those names in
that order, and at the end every cluster has the nodes and attributes that its arguments had when it was made.  Missing from the full
claim: lists that are changed later (`C144_list_shared`), a dictionary that is used again without a new name (`C144_dict_reused`). -/
theorem C144_clusters_keep_partial (hp : Heap N) (l : List (COp N)) (hk : Kept (fun _ => False) l)
    (h1 : (cnames 0 (callsOf ⟨hp, .empty, 0⟩ l)).Nodup) (h2 : .str "name" ∉ cnames 0 (callsOf ⟨hp, .empty, 0⟩ l)) :
    ∃ s, crun ⟨hp, .empty, 0⟩ l = .ok s ∧ s.clusters.keys = cnames 0 (callsOf ⟨hp, .empty, 0⟩ l) ∧
      List.Forall₂ (fun c nm => ∃ x, look s nm = some x ∧ Made c nm x) (callsOf ⟨hp, .empty, 0⟩ l)
        (cnames 0 (callsOf ⟨hp, .empty, 0⟩ l)) := by
  obtain ⟨t, a1, a2, a3⟩ := (C50_create_cluster_partial (callsOf ⟨hp, .empty, 0⟩ l) .empty).1 h1 h2
  rcases crun_sim l ⟨hp, .empty, 0⟩ ⟨.empty, 0, .empty⟩ (fun _ => False) ⟨rfl, rfl, fun _ => by simp [look]⟩
    (fun nm c hc => by simp at hc) hk with ⟨e, b1, b2⟩ | ⟨s, t', b1, b2, b3⟩
  · rw [a1] at b2; cases b2
  · rw [a1] at b2
    cases b2
    refine ⟨s, b1, by rw [← b3.keys, a2], a3.imp fun c nm hx => ?_⟩
    obtain ⟨x, hx1, hx2⟩ := hx
    exact ⟨x, by rw [← b3.look]; exact hx1, hx2⟩

/-- after a call the dictionary has a name, and the cluster of that name has the list that was given -/
theorem createRef_made (s s1 : RState N) (i d a : Nat) (h1 : createRef s i d a = .ok s1) :
    ∃ nm c1, (s1.heap.dicts d).get? "name" = some nm ∧ s1.clusters.get? nm = some c1 ∧ c1.nodes = i := by
  unfold createRef at h1
  cases hn : (s.heap.dicts d).get? "name" with
  | some nm =>
    simp only [hn] at h1
    by_cases hc : s.clusters.contains (.str "name") = true
    · rw [if_pos hc] at h1; cases h1
    · rw [if_neg hc] at h1
      cases h1
      exact ⟨nm, _, hn, Dict.get?_set_self _ _ _, rfl⟩
  | none =>
    simp only [hn] at h1
    cases h1
    exact ⟨autoName s.count, _, by simp [Heap.setItem, Dict.get?_set_self], Dict.get?_set_self _ _ _, rfl⟩

/-- **C144 is false, the dictionary.** Whatever came before, a second call with the same dictionary and no change in between makes no
new cluster: the cluster of the first call is replaced by one with the new list. -/
theorem C144_dict_reused (s s1 s2 : RState N) (i j d a b : Nat) (h1 : createRef s i d a = .ok s1) (h2 : createRef s1 j d b = .ok s2) :
    s2.clusters.keys = s1.clusters.keys ∧ ∃ nm c1 c2, s1.clusters.get? nm = some c1 ∧ c1.nodes = i ∧
      s2.clusters.get? nm = some c2 ∧ c2.nodes = j := by
  obtain ⟨nm, c1, k1, k2, k3⟩ := createRef_made s s1 i d a h1
  unfold createRef at h2
  simp only [k1] at h2
  by_cases hc : s1.clusters.contains (.str "name") = true
  · rw [if_pos hc] at h2; cases h2
  · rw [if_neg hc] at h2
    cases h2
    exact ⟨Dict.keys_set_of_mem _ (Dict.mem_keys_of_get? k2), nm, c1, _, k2, k3, Dict.get?_set_self _ _ _, rfl⟩

/-- **C144 is false, the list.** A cluster made from a list shows whatever the caller puts into the list later. -/
theorem C144_list_shared (s s1 : RState N) (i d a : Nat) (h1 : createRef s i d a = .ok s1) (nodes : List N) :
    ∃ s2 nm x, crun s [.create i d a, .setList i nodes] = .ok s2 ∧ (s1.heap.dicts d).get? "name" = some nm ∧
      look s2 nm = some x ∧ x.nodes = nodes := by
  obtain ⟨nm, c1, k1, k2, k3⟩ := createRef_made s s1 i d a h1
  refine ⟨{ s1 with heap := s1.heap.setList i nodes }, nm, ⟨nodes, c1.attrs, c1.nodeAttrs⟩, ?_, k1, ?_, rfl⟩
  · simp [crun, cstep, h1]
  · simp [look, k2, k3, Heap.setList]

/-- objects at the start: list 1 has the nodes 1 and 2, list 2 has node 3, all dictionaries are empty -/
def heapEx : Heap Nat := ⟨fun _ => .empty, fun i => if i = 1 then [1, 2] else if i = 2 then [3] else []⟩

/-- one dictionary with a new name for every cluster, as in examples/prerequisites.py -/
def opsEx : List (COp Nat) :=
  [.setItem 0 "name" (.str "math"), .create 1 0 5, .setItem 0 "name" (.str "ops"), .setItem 5 "color" (.str "red"), .create 2 0 5]

/-- the hypotheses of `C144_clusters_keep_partial` hold for it -/
example : Kept (fun _ => False) opsEx ∧ (cnames 0 (callsOf ⟨heapEx, .empty, 0⟩ opsEx)).Nodup ∧
    Val.str "name" ∉ cnames 0 (callsOf ⟨heapEx, .empty, 0⟩ opsEx) ∧
    cnames 0 (callsOf ⟨heapEx, .empty, 0⟩ opsEx) = [.str "math", .str "ops"] :=
  ⟨by simp [Kept, opsEx], by decide, by decide, by decide⟩

/-- two calls with the same dictionary and no name: one cluster, though two were asked for -/
theorem C144_false_dict : ∃ s, crun ⟨heapEx, .empty, 0⟩ [.create 1 0 5, .create 2 0 5] = .ok s ∧ s.clusters.keys = [.str "c0"] ∧
    (look s (.str "c0")).map (·.nodes) = some [3] := ⟨_, rfl, by decide, by decide⟩

/-- a list that the caller empties after the call: the cluster is empty -/
theorem C144_false_list : ∃ s, crun ⟨heapEx, .empty, 0⟩ [.create 1 0 5, .setList 1 []] = .ok s ∧
    (look s (.str "c0")).map (·.nodes) = some [] := ⟨_, rfl, by decide⟩

/-- the hypotheses of `C144_dict_reused` and `C144_list_shared` hold for them -/
example : ∃ s1 s2, createRef ⟨heapEx, .empty, 0⟩ 1 0 5 = .ok s1 ∧ createRef s1 2 0 5 = .ok s2 := ⟨_, _, rfl, rfl⟩

end Misc
end GiMPy
