import Verif.Model.Graph
import Verif.Lemmas.Dict
import Mathlib.Data.List.Nodup

/-! # The representation invariant of `Graph` and its preservation -/

namespace GiMPy
variable {N : Type} [DecidableEq N]
set_option linter.unusedSectionVars false

/-! ## running the method monad -/

@[simp] theorem gm_pure {α : Type} (a : α) (g : Graph N) : (pure a : GM N α).run g = .ok a g := rfl
theorem gm_bind {α β : Type} (x : GM N α) (f : α → GM N β) (g : Graph N) :
    (x >>= f).run g = match x.run g with | .ok a g' => (f a).run g' | .error e g' => .error e g' := by
  rw [EStateM.run_bind]; cases x.run g <;> rfl
@[simp] theorem gm_get (g : Graph N) : (get : GM N (Graph N)).run g = .ok g g := rfl
@[simp] theorem gm_modify (f : Graph N → Graph N) (g : Graph N) : (modify f : GM N PUnit).run g = .ok ⟨⟩ (f g) := rfl
@[simp] theorem gm_throw {α : Type} (e : PyErr) (g : Graph N) : (throw e : GM N α).run g = .error e g := rfl
@[simp] theorem gm_ite {α : Type} (c : Prop) [Decidable c] (x y : GM N α) (g : Graph N) :
    (if c then x else y).run g = if c then x.run g else y.run g := by split <;> rfl

namespace Graph

/-- multiplicity of `v` in the adjacency list of `u` -/
def outc (g : Graph N) (u v : N) : Nat := ((g.neighbors.get? u).getD []).count v
/-- multiplicity of `v` in the in-adjacency list of `u` -/
def innc (g : Graph N) (u v : N) : Nat := ((g.inNeighbors.get? u).getD []).count v
/-- 1 when `(u,v)` is a stored edge, else 0 -/
def ind (g : Graph N) (u v : N) : Nat := if (u, v) ∈ g.edgeAttr.keys then 1 else 0

/-- The representation invariant. -/
structure Wf (g : Graph N) : Prop where
  nodesEq : g.nodes.keys = g.neighbors.keys
  nodup : g.neighbors.keys.Nodup
  inEq : g.directed = true → g.inNeighbors.keys = g.neighbors.keys
  edup : g.edgeAttr.keys.Nodup
  endp : ∀ u v, (u, v) ∈ g.edgeAttr.keys → u ∈ g.neighbors.keys ∧ v ∈ g.neighbors.keys
  out : ∀ u v, g.outc u v = g.ind u v + if g.directed then 0 else g.ind v u
  inn : g.directed = true → ∀ u v, g.innc u v = g.ind v u
  simple : g.directed = false → ∀ u v, (u, v) ∈ g.edgeAttr.keys → (v, u) ∈ g.edgeAttr.keys → u = v

theorem wf_init (d : Bool) : (init d : Graph N).Wf where
  nodesEq := rfl
  nodup := by simp [init]
  inEq := by simp [init]
  edup := by simp [init]
  endp := by simp [init]
  out := by simp [init, outc, ind]
  inn := by simp [init, innc, ind]
  simple := by simp [init]

/-! ## add_node -/

/-- the state after a successful `add_node` -/
def addNodeS (g : Graph N) (name : N) (attr : List (String × Val N)) : Graph N :=
  { g with neighbors := g.neighbors.set name []
           inNeighbors := if g.directed then g.inNeighbors.set name [] else g.inNeighbors
           nodes := g.nodes.set name (Dict.empty.update attr) }

theorem addNode_run (g : Graph N) (name : N) (attr) :
    (addNode name attr).run g = if g.neighbors.contains name then .error .multipleNode g
      else .ok ⟨⟩ (g.addNodeS name attr) := by
  unfold addNode addNodeS
  cases hd : g.directed <;> by_cases h : g.neighbors.contains name <;> simp [h, hd]

theorem wf_addNodeS {g : Graph N} (h : g.Wf) {name : N} (hn : name ∉ g.neighbors.keys) (attr) :
    (g.addNodeS name attr).Wf where
  nodesEq := by
    simp only [addNodeS]
    rw [Dict.keys_set_of_not_mem _ (h.nodesEq ▸ hn), Dict.keys_set_of_not_mem _ hn, h.nodesEq]
  nodup := Dict.nodup_keys_set h.nodup _ _
  inEq := by
    intro hd
    have hd' : g.directed = true := hd
    simp only [addNodeS, hd', if_true]
    rw [Dict.keys_set_of_not_mem _ (h.inEq hd' ▸ hn), Dict.keys_set_of_not_mem _ hn, h.inEq hd']
  edup := h.edup
  endp := by
    intro u v huv
    simp only [addNodeS, Dict.mem_keys_set]
    exact ⟨Or.inr (h.endp u v huv).1, Or.inr (h.endp u v huv).2⟩
  out := by
    intro u v
    have := h.out u v
    change (g.addNodeS name attr).outc u v = g.ind u v + if g.directed then 0 else g.ind v u
    rw [← this]
    simp only [outc, addNodeS]
    rw [Dict.get?_set]
    split
    · next hu =>
      subst hu
      rw [(Dict.get?_eq_none_iff _ _).2 hn]; rfl
    · rfl
  inn := by
    intro hd u v
    have hd' : g.directed = true := hd
    have := h.inn hd u v
    change (g.addNodeS name attr).innc u v = g.ind v u
    rw [← this]
    simp only [innc, addNodeS]
    rw [if_pos hd', Dict.get?_set]
    split
    · next hu =>
      subst hu
      rw [(Dict.get?_eq_none_iff _ _).2 (h.inEq hd' ▸ hn)]; rfl
    · rfl
  simple := h.simple

/-- `if n not in self.nodes: self.add_node(n)` -/
def ensureS (g : Graph N) (n : N) : Graph N := if n ∈ g.neighbors.keys then g else g.addNodeS n []

theorem wf_ensureS {g : Graph N} (h : g.Wf) (n : N) : (g.ensureS n).Wf := by
  unfold ensureS; split
  · exact h
  · next hn => exact wf_addNodeS h hn _

@[simp] theorem ensureS_directed (g : Graph N) (n : N) : (g.ensureS n).directed = g.directed := by
  unfold ensureS; split <;> rfl
@[simp] theorem ensureS_edgeAttr (g : Graph N) (n : N) : (g.ensureS n).edgeAttr = g.edgeAttr := by
  unfold ensureS; split <;> rfl
theorem ensureS_keys (g : Graph N) (n : N) : (g.ensureS n).neighbors.keys =
    if n ∈ g.neighbors.keys then g.neighbors.keys else g.neighbors.keys ++ [n] := by
  unfold ensureS; split
  · rfl
  · next h => simp only [addNodeS]; rw [Dict.keys_set_of_not_mem _ h]
theorem mem_ensureS_keys (g : Graph N) (n m : N) :
    m ∈ (g.ensureS n).neighbors.keys ↔ m = n ∨ m ∈ g.neighbors.keys := by
  rw [ensureS_keys]; split
  · constructor
    · exact Or.inr
    · rintro (rfl | h) <;> assumption
  · simp [or_comm]

/-! ## adjacency updates -/

/-- `neighbors[u].append(v)` -/
def appS (g : Graph N) (u v : N) : Graph N :=
  { g with neighbors := g.neighbors.set u ((g.neighbors.get? u).getD [] ++ [v]) }
/-- `in_neighbors[u].append(v)` -/
def appInS (g : Graph N) (u v : N) : Graph N :=
  { g with inNeighbors := g.inNeighbors.set u ((g.inNeighbors.get? u).getD [] ++ [v]) }
/-- `neighbors[u].remove(v)` -/
def remS (g : Graph N) (u v : N) : Graph N :=
  { g with neighbors := g.neighbors.set u (((g.neighbors.get? u).getD []).erase v) }
/-- `in_neighbors[u].remove(v)` -/
def remInS (g : Graph N) (u v : N) : Graph N :=
  { g with inNeighbors := g.inNeighbors.set u (((g.inNeighbors.get? u).getD []).erase v) }

theorem appendNbr_run {g : Graph N} {u : N} (h : u ∈ g.neighbors.keys) (v : N) :
    (appendNbr u v).run g = .ok ⟨⟩ (g.appS u v) := by
  obtain ⟨l, hl⟩ := (Dict.mem_keys' _ _).1 h
  simp [appendNbr, hl, appS]

theorem appendIn_run {g : Graph N} {u : N} (hd : g.directed = true) (h : u ∈ g.inNeighbors.keys) (v : N) :
    (appendIn u v).run g = .ok ⟨⟩ (g.appInS u v) := by
  obtain ⟨l, hl⟩ := (Dict.mem_keys' _ _).1 h
  simp [appendIn, hl, appInS, hd]

theorem mem_of_outc_pos {g : Graph N} {u v : N} (h : 0 < g.outc u v) : u ∈ g.neighbors.keys := by
  unfold outc at h
  rw [Dict.mem_keys']
  cases hu : g.neighbors.get? u with
  | none => simp [hu] at h
  | some l => exact ⟨l, rfl⟩

theorem mem_of_innc_pos {g : Graph N} {u v : N} (h : 0 < g.innc u v) : u ∈ g.inNeighbors.keys := by
  unfold innc at h
  rw [Dict.mem_keys']
  cases hu : g.inNeighbors.get? u with
  | none => simp [hu] at h
  | some l => exact ⟨l, rfl⟩

theorem removeNbr_run {g : Graph N} {u v : N} (h : 0 < g.outc u v) :
    (removeNbr u v).run g = .ok ⟨⟩ (g.remS u v) := by
  obtain ⟨l, hl⟩ := (Dict.mem_keys' _ _).1 (mem_of_outc_pos h)
  have hv : v ∈ l := by simpa [outc, hl, List.count_pos_iff] using h
  simp [removeNbr, hl, remS, hv]

theorem removeIn_run {g : Graph N} {u v : N} (hd : g.directed = true) (h : 0 < g.innc u v) :
    (removeIn u v).run g = .ok ⟨⟩ (g.remInS u v) := by
  obtain ⟨l, hl⟩ := (Dict.mem_keys' _ _).1 (mem_of_innc_pos h)
  have hv : v ∈ l := by simpa [innc, hl, List.count_pos_iff] using h
  simp [removeIn, hl, remInS, hv, hd]

theorem outc_appS (g : Graph N) (u v a b : N) :
    (g.appS u v).outc a b = g.outc a b + if a = u ∧ b = v then 1 else 0 := by
  simp only [outc, appS, Dict.get?_set]
  by_cases h : u = a
  · subst h
    by_cases hb : b = v
    · subst hb; simp
    · simp [hb, List.count_append, Ne.symm hb]
  · simp [h, Ne.symm h]

theorem innc_appInS (g : Graph N) (u v a b : N) :
    (g.appInS u v).innc a b = g.innc a b + if a = u ∧ b = v then 1 else 0 := by
  simp only [innc, appInS, Dict.get?_set]
  by_cases h : u = a
  · subst h
    by_cases hb : b = v
    · subst hb; simp
    · simp [hb, List.count_append, Ne.symm hb]
  · simp [h, Ne.symm h]

theorem outc_remS (g : Graph N) (u v a b : N) :
    (g.remS u v).outc a b = g.outc a b - if a = u ∧ b = v then 1 else 0 := by
  simp only [outc, remS, Dict.get?_set]
  by_cases h : u = a
  · subst h
    by_cases hb : b = v
    · subst hb; simp
    · simp [hb, List.count_erase_of_ne hb]
  · simp [h, Ne.symm h]

theorem innc_remInS (g : Graph N) (u v a b : N) :
    (g.remInS u v).innc a b = g.innc a b - if a = u ∧ b = v then 1 else 0 := by
  simp only [innc, remInS, Dict.get?_set]
  by_cases h : u = a
  · subst h
    by_cases hb : b = v
    · subst hb; simp
    · simp [hb, List.count_erase_of_ne hb]
  · simp [h, Ne.symm h]

theorem keys_appS {g : Graph N} {u : N} (h : u ∈ g.neighbors.keys) (v : N) :
    (g.appS u v).neighbors.keys = g.neighbors.keys := by
  simp only [appS]; rw [Dict.keys_set_of_mem _ h]
theorem keys_appInS {g : Graph N} {u : N} (h : u ∈ g.inNeighbors.keys) (v : N) :
    (g.appInS u v).inNeighbors.keys = g.inNeighbors.keys := by
  simp only [appInS]; rw [Dict.keys_set_of_mem _ h]
theorem keys_remS {g : Graph N} {u v : N} (h : 0 < g.outc u v) :
    (g.remS u v).neighbors.keys = g.neighbors.keys := by
  simp only [remS]; rw [Dict.keys_set_of_mem _ (mem_of_outc_pos h)]
theorem keys_remInS {g : Graph N} {u v : N} (h : 0 < g.innc u v) :
    (g.remInS u v).inNeighbors.keys = g.inNeighbors.keys := by
  simp only [remInS]; rw [Dict.keys_set_of_mem _ (mem_of_innc_pos h)]

/-! ## add_edge -/

/-- the state after a successful `add_edge` -/
def addEdgeS (g : Graph N) (u v : N) (attr : List (String × Val N)) : Graph N :=
  let g1 := (g.ensureS u).ensureS v
  let g2 := { g1 with edgeAttr := g.edgeAttr.set (u, v) (Dict.empty.update attr) }
  if g.directed then (g2.appS u v).appInS v u else (g2.appS u v).appS v u

/-- the edge exists (in either orientation when undirected) -/
def dup (g : Graph N) (u v : N) : Prop :=
  (u, v) ∈ g.edgeAttr.keys ∨ (g.directed = false ∧ (v, u) ∈ g.edgeAttr.keys)

instance (g : Graph N) (u v : N) : Decidable (g.dup u v) := by unfold dup; infer_instance

theorem contains_nodes {g : Graph N} (h : g.Wf) (n : N) : g.nodes.contains n = true ↔ n ∈ g.neighbors.keys := by
  rw [Dict.contains_iff, h.nodesEq]

theorem ensure_run {g : Graph N} (hk : g.nodes.keys = g.neighbors.keys) (n : N) :
    (ensureNode n).run g = .ok ⟨⟩ (g.ensureS n) := by
  have hc : g.nodes.contains n = true ↔ n ∈ g.neighbors.keys := by rw [Dict.contains_iff, hk]
  unfold ensureNode
  simp only [gm_bind, gm_get, gm_ite, addNode_run, ensureS]
  by_cases hn : n ∈ g.neighbors.keys
  · simp [hc.2 hn, hn]
  · have : g.nodes.contains n = false := by simpa [hn] using mt hc.1 hn
    have h2 : g.neighbors.contains n = false := by
      have := mt (Dict.contains_iff _ _).1 hn; simpa using this
    simp [this, h2, hn]

theorem nodes_ensureS {g : Graph N} (hk : g.nodes.keys = g.neighbors.keys) (n : N) :
    (g.ensureS n).nodes.keys = (g.ensureS n).neighbors.keys := by
  unfold ensureS; split
  · exact hk
  · next hn =>
    simp only [addNodeS]
    rw [Dict.keys_set_of_not_mem _ (hk ▸ hn), Dict.keys_set_of_not_mem _ hn, hk]

theorem ensureS_with (g : Graph N) (n : N) (E : Dict (N × N) (Attrs N)) :
    ({ g with edgeAttr := E } : Graph N).ensureS n = { g.ensureS n with edgeAttr := E } := by
  unfold ensureS; split <;> rfl

theorem addEdge_run {g : Graph N} (h : g.Wf) (u v : N) (attr) :
    (addEdge u v attr).run g = if g.dup u v then .error .multipleEdge g else .ok ⟨⟩ (g.addEdgeS u v attr) := by
  unfold addEdge
  simp only [gm_bind, gm_get, gm_ite]
  by_cases h1 : (u, v) ∈ g.edgeAttr.keys
  · rw [if_pos ((Dict.contains_iff _ _).2 h1), if_pos (show g.dup u v from Or.inl h1)]; rfl
  · rw [if_neg (mt (Dict.contains_iff _ _).1 h1)]
    by_cases h2 : g.directed = false ∧ (v, u) ∈ g.edgeAttr.keys
    · rw [if_pos (by rw [Dict.contains_iff]; simpa using h2), if_pos (show g.dup u v from Or.inr h2)]; rfl
    · rw [if_neg (by rw [Dict.contains_iff]; simpa using h2), if_neg (show ¬ g.dup u v by rintro (h | h); exacts [h1 h, h2 h])]
      simp only [gm_modify]
      set E := g.edgeAttr.set (u, v) (Dict.empty.update attr) with hE
      have e1 := ensure_run (g := { g with edgeAttr := E }) h.nodesEq u
      have e2 := ensure_run (g := ({ g with edgeAttr := E } : Graph N).ensureS u)
        (nodes_ensureS (g := { g with edgeAttr := E }) h.nodesEq u) v
      rw [e1]; simp only []
      rw [e2]; simp only []
      simp only [ensureS_with]
      have hw := wf_ensureS (wf_ensureS h u) v
      have hu : u ∈ ((g.ensureS u).ensureS v).neighbors.keys := by simp [mem_ensureS_keys]
      have hv : v ∈ ((g.ensureS u).ensureS v).neighbors.keys := by simp [mem_ensureS_keys]
      rw [appendNbr_run (by exact hu)]
      simp only []
      unfold addEdgeS
      cases hd : g.directed
      · simp only [Bool.false_eq_true, not_false_eq_true, if_true, if_false]
        rw [appendNbr_run]
        rw [keys_appS (by exact hu)]; exact hv
      · simp only [not_true_eq_false, if_true, if_false]
        rw [appendIn_run]
        · simpa [appS] using hd
        · have := hw.inEq (by simpa using hd)
          simp only [appS]; rw [this]; exact hv

theorem wf_addEdgeS {g : Graph N} (h : g.Wf) {u v : N} (hdup : ¬ g.dup u v) (attr) :
    (g.addEdgeS u v attr).Wf := by
  have hw := wf_ensureS (wf_ensureS h u) v
  have hu : u ∈ ((g.ensureS u).ensureS v).neighbors.keys := by simp [mem_ensureS_keys]
  have hv : v ∈ ((g.ensureS u).ensureS v).neighbors.keys := by simp [mem_ensureS_keys]
  have hnew : (u, v) ∉ g.edgeAttr.keys := fun hh => hdup (Or.inl hh)
  have hE : ((g.ensureS u).ensureS v).edgeAttr = g.edgeAttr := by simp
  have hdir : ((g.ensureS u).ensureS v).directed = g.directed := by simp
  unfold addEdgeS
  generalize ((g.ensureS u).ensureS v) = g1 at *
  simp only []
  set A := (Dict.empty.update attr : Attrs N)
  set g2 : Graph N := { g1 with edgeAttr := g.edgeAttr.set (u, v) A } with hg2
  have hind : ∀ a b, g2.ind a b = g1.ind a b + if a = u ∧ b = v then 1 else 0 := by
    intro a b
    simp only [ind, hg2, Dict.mem_keys_set, hE, Prod.mk.injEq]
    by_cases hab : a = u ∧ b = v
    · rw [if_pos (Or.inl hab), if_pos hab, hab.1, hab.2, if_neg hnew]
    · simp only [hab, false_or, if_false, Nat.add_zero]
  have hu2 : u ∈ g2.neighbors.keys := hu
  have hv2 : v ∈ g2.neighbors.keys := hv
  have hv3 : v ∈ (g2.appS u v).neighbors.keys := by rw [keys_appS hu2]; exact hv
  have hedge : g2.edgeAttr.keys.Nodup := Dict.nodup_keys_set h.edup _ _
  have hend : ∀ a b, (a, b) ∈ g2.edgeAttr.keys → a ∈ g2.neighbors.keys ∧ b ∈ g2.neighbors.keys := by
    intro a b hab
    simp only [hg2, Dict.mem_keys_set, Prod.mk.injEq] at hab
    rcases hab with ⟨rfl, rfl⟩ | hab
    · exact ⟨hu, hv⟩
    · exact hw.endp a b (hE ▸ hab)
  cases hd : g.directed
  · simp only [Bool.false_eq_true, if_false]
    have hd1 : g1.directed = false := hdir.trans hd
    refine ⟨?_, ?_, ?_, hedge, ?_, ?_, ?_, ?_⟩
    · rw [keys_appS hv3, keys_appS hu2]; exact hw.nodesEq
    · rw [keys_appS hv3, keys_appS hu2]; exact hw.nodup
    · intro hh; exact absurd (hd1.symm.trans hh) (by simp)
    · intro a b; rw [keys_appS hv3, keys_appS hu2]; exact hend a b
    · intro a b
      have h1 := hw.out a b
      rw [outc_appS, outc_appS]
      change g1.outc a b + _ + _ = g2.ind a b + if g1.directed then 0 else g2.ind b a
      rw [h1, hind, hind, hd1]
      simp only [Bool.false_eq_true, if_false]
      have : (b = u ∧ a = v) ↔ (a = v ∧ b = u) := And.comm
      simp only [this]; omega
    · intro hh; exact absurd (hd1.symm.trans hh) (by simp)
    · intro _ a b hab hba
      have hnew2 : (v, u) ∉ g.edgeAttr.keys := fun hh => hdup (Or.inr ⟨hd, hh⟩)
      change (a, b) ∈ g2.edgeAttr.keys at hab
      change (b, a) ∈ g2.edgeAttr.keys at hba
      simp only [hg2, Dict.mem_keys_set, Prod.mk.injEq] at hab hba
      rcases hab with ⟨rfl, rfl⟩ | hab <;> rcases hba with ⟨h1, h2⟩ | hba
      · exact h2
      · exact absurd hba hnew2
      · subst h1; subst h2; exact absurd hab hnew2
      · exact h.simple hd a b hab hba
  · simp only [if_true]
    have hd1 : g1.directed = true := hdir.trans hd
    have hvin : v ∈ (g2.appS u v).inNeighbors.keys := by
      change v ∈ g1.inNeighbors.keys; rw [hw.inEq hd1]; exact hv
    refine ⟨?_, ?_, ?_, hedge, ?_, ?_, ?_, ?_⟩
    · change g1.nodes.keys = (g2.appS u v).neighbors.keys
      rw [keys_appS hu2]; exact hw.nodesEq
    · change (g2.appS u v).neighbors.keys.Nodup
      rw [keys_appS hu2]; exact hw.nodup
    · intro _
      rw [keys_appInS hvin]
      change g1.inNeighbors.keys = (g2.appS u v).neighbors.keys
      rw [keys_appS hu2]; exact hw.inEq hd1
    · intro a b
      change _ → a ∈ (g2.appS u v).neighbors.keys ∧ b ∈ (g2.appS u v).neighbors.keys
      rw [keys_appS hu2]; exact hend a b
    · intro a b
      have h1 := hw.out a b
      change (g2.appS u v).outc a b = g2.ind a b + if g1.directed then 0 else g2.ind b a
      rw [outc_appS]
      change g1.outc a b + _ = _
      rw [h1, hind, hd1]
      simp only [if_true]; omega
    · intro _ a b
      have h1 := hw.inn hd1 a b
      rw [innc_appInS]
      change g1.innc a b + _ = g2.ind b a
      rw [h1, hind]
      have : (b = u ∧ a = v) ↔ (a = v ∧ b = u) := And.comm
      simp only [this]
    · intro hh; exact absurd (hd1.symm.trans hh) (by simp)

/-! ## del_edge -/

/-- the state after a successful `del_edge` whose stored key is `k` -/
def delEdgeS (g : Graph N) (u v : N) (k : N × N) : Graph N :=
  let g2 := { g with edgeAttr := g.edgeAttr.erase k }
  if g.directed then (g2.remS u v).remInS v u else (g2.remS u v).remS v u

/-- the stored key of the edge `u,v` -/
def key (g : Graph N) (u v : N) : N × N := if (u, v) ∈ g.edgeAttr.keys then (u, v) else (v, u)

theorem delEdgeAttr_run {g : Graph N} {e : N × N} (h : e ∈ g.edgeAttr.keys) :
    (delEdgeAttr e).run g = .ok ⟨⟩ { g with edgeAttr := g.edgeAttr.erase e } := by
  simp [delEdgeAttr, (Dict.contains_iff _ _).2 h]

theorem ind_pos {g : Graph N} {u v : N} (h : (u, v) ∈ g.edgeAttr.keys) : g.ind u v = 1 := if_pos h

theorem outc_pos_dup {g : Graph N} (h : g.Wf) {u v : N} (hdup : g.dup u v) : 0 < g.outc u v := by
  rw [h.out]
  rcases hdup with h1 | ⟨h1, h2⟩
  · rw [ind_pos h1]; omega
  · rw [h1, ind_pos h2]; simp

theorem dup_symm {g : Graph N} (hd : g.directed = false) {u v : N} (h : g.dup u v) : g.dup v u := by
  rcases h with h1 | ⟨h1, h2⟩
  · exact Or.inr ⟨hd, h1⟩
  · exact Or.inl h2

theorem key_mem {g : Graph N} {u v : N} (hdup : g.dup u v) : g.key u v ∈ g.edgeAttr.keys := by
  unfold key
  split
  · assumption
  · next h => rcases hdup with h1 | ⟨_, h2⟩; exacts [absurd h1 h, h2]

theorem second_pos {g : Graph N} (h : g.Wf) {u v : N} (hd : g.directed = false) (hdup : g.dup u v)
    (E : Dict (N × N) (Attrs N)) :
    0 < (({ g with edgeAttr := E } : Graph N).remS u v).outc v u := by
  rw [outc_remS]
  change 0 < g.outc v u - _
  have h1 := outc_pos_dup h (dup_symm hd hdup)
  split
  · next hh =>
    obtain ⟨rfl, -⟩ := hh
    rw [h.out, hd]
    rcases hdup with h2 | ⟨_, h2⟩ <;> rw [ind_pos h2] <;> simp
  · exact h1

theorem delEdge_run {g : Graph N} (h : g.Wf) (u v : N) :
    (delEdge (u, v)).run g = if g.dup u v then .ok ⟨⟩ (g.delEdgeS u v (g.key u v)) else .error .exception g := by
  unfold delEdge
  simp only [gm_bind, gm_get, gm_ite]
  cases hd : g.directed
  · simp only [Bool.false_eq_true, if_false]
    by_cases h1 : (u, v) ∈ g.edgeAttr.keys
    · have hdup : g.dup u v := Or.inl h1
      rw [if_pos ((Dict.contains_iff _ _).2 h1), if_pos hdup, delEdgeAttr_run h1]
      simp only []
      rw [removeNbr_run (by exact outc_pos_dup h hdup)]
      simp only []
      rw [removeNbr_run (second_pos h hd hdup _)]
      simp [delEdgeS, hd, key, h1]
    · rw [if_neg (mt (Dict.contains_iff _ _).1 h1)]
      by_cases h2 : (v, u) ∈ g.edgeAttr.keys
      · have hdup : g.dup u v := Or.inr ⟨hd, h2⟩
        rw [if_pos ((Dict.contains_iff _ _).2 h2), if_pos hdup, delEdgeAttr_run h2]
        simp only []
        rw [removeNbr_run (by exact outc_pos_dup h hdup)]
        simp only []
        rw [removeNbr_run (second_pos h hd hdup _)]
        simp [delEdgeS, hd, key, h1]
      · rw [if_neg (mt (Dict.contains_iff _ _).1 h2),
          if_neg (show ¬ g.dup u v by rintro (hh | hh); exacts [h1 hh, h2 hh.2])]; rfl
  · simp only [if_true]
    by_cases h1 : (u, v) ∈ g.edgeAttr.keys
    · have hdup : g.dup u v := Or.inl h1
      rw [if_pos ((Dict.contains_iff _ _).2 h1), if_pos hdup, delEdgeAttr_run h1]
      simp only []
      rw [removeNbr_run (by exact outc_pos_dup h hdup)]
      simp only []
      rw [removeIn_run (by exact hd)]
      · simp [delEdgeS, hd, key, h1]
      · change 0 < g.innc v u
        rw [h.inn hd, ind_pos h1]; omega
    · rw [if_neg (mt (Dict.contains_iff _ _).1 h1),
        if_neg (show ¬ g.dup u v by rintro (hh | hh); exacts [h1 hh, absurd (hh.1.symm.trans hd) (by simp)])]
      rfl

theorem wf_delEdgeS {g : Graph N} (h : g.Wf) {u v : N} (hdup : g.dup u v) :
    (g.delEdgeS u v (g.key u v)).Wf := by
  have hk := key_mem hdup
  unfold delEdgeS
  set g2 : Graph N := { g with edgeAttr := g.edgeAttr.erase (g.key u v) } with hg2
  have hind : ∀ a b, g2.ind a b = g.ind a b - if (a, b) = g.key u v then 1 else 0 := by
    intro a b
    simp only [ind, hg2, Dict.mem_keys_erase]
    by_cases hab : (a, b) = g.key u v
    · rw [if_neg (by simp [hab]), if_pos hab]
      split <;> rfl
    · simp [hab]
  have hp : 0 < g2.outc u v := outc_pos_dup h hdup
  have hedge : g2.edgeAttr.keys.Nodup := Dict.nodup_keys_erase h.edup _
  have hend : ∀ a b, (a, b) ∈ g2.edgeAttr.keys → a ∈ g2.neighbors.keys ∧ b ∈ g2.neighbors.keys := by
    intro a b hab
    simp only [hg2, Dict.mem_keys_erase] at hab
    exact h.endp a b hab.2
  cases hd : g.directed
  · simp only [Bool.false_eq_true, if_false]
    have hp2 : 0 < (g2.remS u v).outc v u := second_pos h hd hdup _
    refine ⟨?_, ?_, ?_, hedge, ?_, ?_, ?_, ?_⟩
    · rw [keys_remS hp2, keys_remS hp]; exact h.nodesEq
    · rw [keys_remS hp2, keys_remS hp]; exact h.nodup
    · intro hh; exact absurd (hd.symm.trans hh) (by simp)
    · intro a b; rw [keys_remS hp2, keys_remS hp]; exact hend a b
    · intro a b
      have h1 := h.out a b
      rw [outc_remS, outc_remS]
      change g.outc a b - _ - _ = g2.ind a b + if g.directed then 0 else g2.ind b a
      rw [h1, hind, hind, hd]
      simp only [Bool.false_eq_true, if_false]
      -- at least one of the orientations is stored, and only one unless u = v
      have e1 : ∀ x y, (x, y) = g.key u v → g.ind x y = 1 := fun x y hxy => ind_pos (hxy ▸ hk)
      have e2 : ∀ x y, g.ind x y = 1 → g.ind y x = 1 → x = y := by
        intro x y hx hy
        apply h.simple hd
        · by_contra hc; simp [ind, hc] at hx
        · by_contra hc; simp [ind, hc] at hy
      have e3 : ∀ x y, g.ind x y = 0 ∨ g.ind x y = 1 := by intro x y; unfold ind; split <;> simp
      unfold key at e1 ⊢
      by_cases hs : (u, v) ∈ g.edgeAttr.keys
      · simp only [hs, if_true, Prod.mk.injEq] at e1 ⊢
        have i1 := e1 u v ⟨rfl, rfl⟩
        by_cases c1 : a = u ∧ b = v
        · obtain ⟨rfl, rfl⟩ := c1
          by_cases c2 : a = b
          · subst c2; simp [i1]
          · have : g.ind b a ≠ 1 := fun hh => c2 (e2 _ _ i1 hh)
            simp [i1, c2]
        · by_cases c2 : a = v ∧ b = u
          · obtain ⟨rfl, rfl⟩ := c2
            by_cases c3 : a = b
            · subst c3; simp at c1
            · have : g.ind a b ≠ 1 := fun hh => c3 (e2 _ _ hh i1)
              simp [i1, c3]
          · have c3 : ¬ (b = u ∧ a = v) := fun hh => c2 hh.symm
            simp [c1, c2, c3]
      · simp only [hs, if_false, Prod.mk.injEq] at e1 ⊢
        have i1 := e1 v u ⟨rfl, rfl⟩
        have i0 : g.ind u v = 0 := by simp [ind, hs]
        have hne : u ≠ v := by rintro rfl; omega
        by_cases c1 : a = u ∧ b = v
        · obtain ⟨rfl, rfl⟩ := c1
          simp [i1, i0, hne]
        · by_cases c2 : a = v ∧ b = u
          · obtain ⟨rfl, rfl⟩ := c2
            simp [i1, i0, Ne.symm hne]
          · have c3 : ¬ (b = v ∧ a = u) := fun hh => c1 hh.symm
            simp [c1, c2, c3]
    · intro hh; exact absurd (hd.symm.trans hh) (by simp)
    · intro _ a b hab hba
      change (a, b) ∈ (g.edgeAttr.erase _).keys at hab
      change (b, a) ∈ (g.edgeAttr.erase _).keys at hba
      rw [Dict.mem_keys_erase] at hab hba
      exact h.simple hd a b hab.2 hba.2
  · simp only [if_true]
    have hkey : g.key u v = (u, v) := by
      unfold key; rw [if_pos]
      rcases hdup with h1 | h1
      · exact h1
      · exact absurd (h1.1.symm.trans hd) (by simp)
    have hmem : (u, v) ∈ g.edgeAttr.keys := hkey ▸ hk
    have hp2 : 0 < (g2.remS u v).innc v u := by
      change 0 < g.innc v u
      rw [h.inn hd, ind_pos hmem]; omega
    rw [hkey] at hind
    simp only [Prod.mk.injEq] at hind
    refine ⟨?_, ?_, ?_, hedge, ?_, ?_, ?_, ?_⟩
    · change g.nodes.keys = (g2.remS u v).neighbors.keys
      rw [keys_remS hp]; exact h.nodesEq
    · change (g2.remS u v).neighbors.keys.Nodup
      rw [keys_remS hp]; exact h.nodup
    · intro _
      rw [keys_remInS hp2]
      change g.inNeighbors.keys = (g2.remS u v).neighbors.keys
      rw [keys_remS hp]; exact h.inEq hd
    · intro a b
      change _ → a ∈ (g2.remS u v).neighbors.keys ∧ b ∈ (g2.remS u v).neighbors.keys
      rw [keys_remS hp]; exact hend a b
    · intro a b
      have h1 := h.out a b
      change (g2.remS u v).outc a b = g2.ind a b + if g.directed then 0 else g2.ind b a
      rw [outc_remS]
      change g.outc a b - _ = _
      rw [h1, hind, hd]
      simp
    · intro _ a b
      have h1 := h.inn hd a b
      rw [innc_remInS]
      change g.innc a b - _ = g2.ind b a
      rw [h1, hind]
      have : (b = u ∧ a = v) ↔ (a = v ∧ b = u) := And.comm
      simp only [this]
    · intro hh; exact absurd (hd.symm.trans hh) (by simp)

/-! ## del_node -/

/-- `for n in l: d[n].remove(name)` -/
def remFold (name : N) : List N → Dict N (List N) → Dict N (List N)
  | [], d => d
  | n :: l, d => remFold name l (d.set n (((d.get? n).getD []).erase name))

theorem keys_remFold (name : N) (l : List N) (d : Dict N (List N)) (h : ∀ n ∈ l, n ∈ d.keys) :
    (remFold name l d).keys = d.keys := by
  induction l generalizing d with
  | nil => rfl
  | cons n l ih =>
    have hn := h n (by simp)
    rw [remFold, ih, Dict.keys_set_of_mem _ hn]
    intro m hm
    rw [Dict.keys_set_of_mem _ hn]; exact h m (by simp [hm])

theorem get?_remFold (name : N) (l : List N) (d : Dict N (List N)) (h : ∀ n ∈ l, n ∈ d.keys) (hl : l.Nodup) (a : N) :
    (remFold name l d).get? a = if a ∈ l then (d.get? a).map (·.erase name) else d.get? a := by
  induction l generalizing d with
  | nil => simp [remFold]
  | cons n l ih =>
    have hn := h n (by simp)
    obtain ⟨x, hx⟩ := (Dict.mem_keys' _ _).1 hn
    have hnl := (List.nodup_cons.1 hl).1
    rw [remFold, ih _ _ (List.nodup_cons.1 hl).2, Dict.get?_set]
    · by_cases ha : n = a
      · subst ha; simp [hnl, hx]
      · simp [ha, Ne.symm ha]
    · intro m hm
      rw [Dict.keys_set_of_mem _ hn]; exact h m (by simp [hm])

/-- remove the edges selected by `p` -/
def dropE (d : Dict (N × N) (Attrs N)) (p : N × N → Bool) : Dict (N × N) (Attrs N) :=
  ⟨d.entries.filter fun e => !p e.1⟩

theorem keys_dropE (d : Dict (N × N) (Attrs N)) (p) : (dropE d p).keys = d.keys.filter fun e => !p e := by
  unfold dropE Dict.keys; rw [List.filter_map]; rfl

theorem mem_keys_dropE (d : Dict (N × N) (Attrs N)) (p) (e) : e ∈ (dropE d p).keys ↔ e ∈ d.keys ∧ p e = false := by
  rw [keys_dropE]; simp

theorem dropE_dropE (d : Dict (N × N) (Attrs N)) (p q) : dropE (dropE d p) q = dropE d fun e => p e || q e := by
  simp only [dropE, List.filter_filter, Dict.mk.injEq]
  congr 1; funext e; cases p e.1 <;> simp

theorem erase_eq_dropE (d : Dict (N × N) (Attrs N)) (k) : d.erase k = dropE d fun e => decide (e = k) := by
  simp only [dropE, Dict.erase, Dict.mk.injEq]
  congr 1; funext e; simp

theorem delOut_run (name : N) (l : List N) (hl : l.Nodup) (g : Graph N) (hd : g.directed = true)
    (hE : ∀ n ∈ l, (name, n) ∈ g.edgeAttr.keys) (hI : ∀ n ∈ l, 0 < g.innc n name) :
    (delOut name l).run g = .ok ⟨⟩ { g with
      edgeAttr := dropE g.edgeAttr fun e => decide (e.1 = name ∧ e.2 ∈ l)
      inNeighbors := remFold name l g.inNeighbors } := by
  induction l generalizing g with
  | nil =>
    have : g.edgeAttr = dropE g.edgeAttr fun e => decide (e.1 = name ∧ e.2 ∈ ([] : List N)) := by
      simp [dropE]
    rw [← this]; rfl
  | cons n l ih =>
    obtain ⟨hnl, hl'⟩ := List.nodup_cons.1 hl
    rw [delOut, gm_bind, delEdgeAttr_run (hE n (by simp))]
    simp only [gm_bind, gm_get, gm_ite]
    rw [if_neg (by simp [hd]), removeIn_run (by exact hd) (by exact hI n (by simp))]
    simp only []
    rw [ih hl' _ (by exact hd)]
    · simp only [remInS, remFold]
      congr 2
      rw [erase_eq_dropE, dropE_dropE]
      congr 1; funext e
      obtain ⟨a, b⟩ := e
      simp only [Prod.mk.injEq, List.mem_cons]
      by_cases h1 : a = name <;> by_cases h2 : b = n <;> simp [h1, h2]
    · intro m hm
      simp only [remInS, Dict.mem_keys_erase, ne_eq, Prod.mk.injEq, true_and]
      exact ⟨by rintro rfl; exact hnl hm, hE m (by simp [hm])⟩
    · intro m hm
      rw [innc_remInS]
      change 0 < g.innc m name - _
      have := hI m (by simp [hm])
      rw [if_neg (by rintro ⟨rfl, -⟩; exact hnl hm)]; exact this

theorem delOut_run_und (name : N) (l : List N) (hl : l.Nodup) (g : Graph N) (hd : g.directed = false)
    (hE : ∀ n ∈ l, (name, n) ∈ g.edgeAttr.keys) (hI : ∀ n ∈ l, 0 < g.outc n name) :
    (delOut name l).run g = .ok ⟨⟩ { g with
      edgeAttr := dropE g.edgeAttr fun e => decide (e.1 = name ∧ e.2 ∈ l)
      neighbors := remFold name l g.neighbors } := by
  induction l generalizing g with
  | nil =>
    have : g.edgeAttr = dropE g.edgeAttr fun e => decide (e.1 = name ∧ e.2 ∈ ([] : List N)) := by
      simp [dropE]
    rw [← this]; rfl
  | cons n l ih =>
    obtain ⟨hnl, hl'⟩ := List.nodup_cons.1 hl
    rw [delOut, gm_bind, delEdgeAttr_run (hE n (by simp))]
    simp only [gm_bind, gm_get, gm_ite]
    rw [if_pos (by simp [hd]), removeNbr_run (by exact hI n (by simp))]
    simp only []
    rw [ih hl' _ (by exact hd)]
    · simp only [remS, remFold]
      congr 2
      rw [erase_eq_dropE, dropE_dropE]
      congr 1; funext e
      obtain ⟨a, b⟩ := e
      simp only [Prod.mk.injEq, List.mem_cons]
      by_cases h1 : a = name <;> by_cases h2 : b = n <;> simp [h1, h2]
    · intro m hm
      simp only [remS, Dict.mem_keys_erase, ne_eq, Prod.mk.injEq, true_and]
      exact ⟨by rintro rfl; exact hnl hm, hE m (by simp [hm])⟩
    · intro m hm
      rw [outc_remS]
      change 0 < g.outc m name - _
      have := hI m (by simp [hm])
      rw [if_neg (by rintro ⟨rfl, -⟩; exact hnl hm)]; exact this

theorem delIn_run (name : N) (l : List N) (hl : l.Nodup) (g : Graph N)
    (hE : ∀ n ∈ l, (n, name) ∈ g.edgeAttr.keys) (hI : ∀ n ∈ l, 0 < g.outc n name) :
    (delIn name l).run g = .ok ⟨⟩ { g with
      edgeAttr := dropE g.edgeAttr fun e => decide (e.2 = name ∧ e.1 ∈ l)
      neighbors := remFold name l g.neighbors } := by
  induction l generalizing g with
  | nil =>
    have : g.edgeAttr = dropE g.edgeAttr fun e => decide (e.2 = name ∧ e.1 ∈ ([] : List N)) := by
      simp [dropE]
    rw [← this]; rfl
  | cons n l ih =>
    obtain ⟨hnl, hl'⟩ := List.nodup_cons.1 hl
    rw [delIn, gm_bind, delEdgeAttr_run (hE n (by simp))]
    simp only [gm_bind]
    rw [removeNbr_run (by exact hI n (by simp))]
    simp only []
    rw [ih hl']
    · simp only [remS, remFold]
      congr 2
      rw [erase_eq_dropE, dropE_dropE]
      congr 1; funext e
      obtain ⟨a, b⟩ := e
      simp only [Prod.mk.injEq, List.mem_cons]
      by_cases h1 : b = name <;> by_cases h2 : a = n <;> simp [h1, h2]
    · intro m hm
      simp only [remS, Dict.mem_keys_erase, ne_eq, Prod.mk.injEq, and_true]
      exact ⟨by rintro rfl; exact hnl hm, hE m (by simp [hm])⟩
    · intro m hm
      rw [outc_remS]
      change 0 < g.outc m name - _
      have := hI m (by simp [hm])
      rw [if_neg (by rintro ⟨rfl, -⟩; exact hnl hm)]; exact this

/-- What `del_node` does on a digraph. -/
theorem delNode_run_dir {g : Graph N} (h : g.Wf) (hd : g.directed = true) {name : N}
    (hn : name ∈ g.neighbors.keys) :
    ∃ g', (delNode name).run g = .ok ⟨⟩ g' ∧ g'.directed = true ∧ g'.nodes = g.nodes.erase name ∧
      g'.edgeAttr = dropE g.edgeAttr (fun e => decide (e.1 = name ∨ e.2 = name)) ∧
      g'.neighbors.keys = g.neighbors.keys.filter (fun x => ¬ x = name) ∧
      g'.inNeighbors.keys = g.neighbors.keys.filter (fun x => ¬ x = name) ∧
      (∀ a, a ≠ name → g'.neighbors.get? a = (g.neighbors.get? a).map (·.erase name)) ∧
      (∀ a, a ≠ name → g'.inNeighbors.get? a = (g.inNeighbors.get? a).map (·.erase name)) := by
  have hn2 : name ∈ g.inNeighbors.keys := by rw [h.inEq hd]; exact hn
  obtain ⟨lo, hlo⟩ := (Dict.mem_keys' _ _).1 hn
  obtain ⟨li, hli⟩ := (Dict.mem_keys' _ _).1 hn2
  have clo : ∀ n, lo.count n = g.ind name n := by
    intro n; have := h.out name n; simpa [outc, hlo, hd] using this
  have cli : ∀ n, li.count n = g.ind n name := by
    intro n; have := h.inn hd name n; simpa [innc, hli] using this
  have ind_le : ∀ a b, g.ind a b ≤ 1 := by intro a b; unfold ind; split <;> omega
  have ind_mem : ∀ {a b}, 0 < g.ind a b → (a, b) ∈ g.edgeAttr.keys := by
    intro a b hh; by_contra hc; simp [ind, hc] at hh
  have ndo : lo.Nodup := List.nodup_iff_count_le_one.2 fun a => by rw [clo]; exact ind_le _ _
  have ndi : li.Nodup := List.nodup_iff_count_le_one.2 fun a => by rw [cli]; exact ind_le _ _
  have memlo : ∀ n, n ∈ lo ↔ (name, n) ∈ g.edgeAttr.keys := by
    intro n; rw [← List.count_pos_iff, clo]
    exact ⟨ind_mem, fun hh => by rw [ind_pos hh]; omega⟩
  have memli : ∀ n, n ∈ li ↔ (n, name) ∈ g.edgeAttr.keys := by
    intro n; rw [← List.count_pos_iff, cli]
    exact ⟨ind_mem, fun hh => by rw [ind_pos hh]; omega⟩
  have hsubo : ∀ n ∈ lo, n ∈ g.inNeighbors.keys := fun n hm => by
    rw [h.inEq hd]; exact (h.endp _ _ ((memlo n).1 hm)).2
  have hsubi : ∀ n ∈ li, n ∈ g.neighbors.keys := fun n hm => (h.endp _ _ ((memli n).1 hm)).1
  have r1 := delOut_run name lo ndo g hd (fun n hm => (memlo n).1 hm)
    (fun n hm => by rw [h.inn hd, ind_pos ((memlo n).1 hm)]; omega)
  -- the in-list after the first loop
  set g1 : Graph N := { g with
      edgeAttr := dropE g.edgeAttr fun e => decide (e.1 = name ∧ e.2 ∈ lo)
      inNeighbors := remFold name lo g.inNeighbors } with hg1
  set li' := if name ∈ lo then li.erase name else li with hli'
  have hget : g1.inNeighbors.get? name = some li' := by
    simp only [hg1, get?_remFold name lo _ hsubo ndo, hli, hli']
    split <;> rfl
  have hself : name ∈ lo ↔ name ∈ li := by rw [memlo, memli]
  have hli'mem : ∀ n, n ∈ li' ↔ n ∈ li ∧ n ≠ name := by
    intro n; rw [hli']; split
    · rw [ndi.mem_erase_iff]; exact And.comm
    · next hh => exact ⟨fun hm => ⟨hm, by rintro rfl; exact hh (hself.2 hm)⟩, fun hm => hm.1⟩
  have ndi' : li'.Nodup := by rw [hli']; split; exacts [ndi.erase _, ndi]
  have hE2 : ∀ n ∈ li', (n, name) ∈ g1.edgeAttr.keys := by
    intro n hm
    simp only [hg1]; rw [mem_keys_dropE]
    exact ⟨(memli n).1 ((hli'mem n).1 hm).1, by simp [((hli'mem n).1 hm).2]⟩
  have r2 := delIn_run name li' ndi' g1 hE2 (fun n hm => by
    change 0 < g.outc n name
    rw [h.out, ind_pos ((memli n).1 ((hli'mem n).1 hm).1)]; omega)
  have hsubi' : ∀ n ∈ li', n ∈ g.neighbors.keys := fun n hm => hsubi n ((hli'mem n).1 hm).1
  refine ⟨{ g with
    nodes := g.nodes.erase name
    neighbors := (remFold name li' g.neighbors).erase name
    inNeighbors := (remFold name lo g.inNeighbors).erase name
    edgeAttr := dropE g.edgeAttr (fun e => decide (e.1 = name ∨ e.2 = name)) }, ?_, hd, rfl, rfl, ?_, ?_, ?_, ?_⟩
  · unfold delNode
    simp only [gm_bind, gm_get, hlo]
    rw [r1]
    simp only [delInAll, gm_bind, gm_get, gm_ite]
    rw [if_pos (by exact hd), hget]
    simp only []
    rw [r2]
    simp only [delEntries, gm_bind, gm_get, gm_modify, gm_ite]
    have : g1.nodes.contains name = true := by rw [Dict.contains_iff]; simpa [hg1, h.nodesEq] using hn
    rw [if_neg (by simp [hg1, hd]), if_pos (by exact this)]
    simp only [hg1, dropE_dropE]
    congr 2
    unfold dropE
    congr 1
    apply List.filter_congr
    rintro ⟨⟨a, b⟩, at'⟩ hmem
    have hkey : (a, b) ∈ g.edgeAttr.keys := List.mem_map.2 ⟨_, hmem, rfl⟩
    simp only []
    simp only [hli'mem]
    by_cases h1 : a = name
    · subst h1
      have := (memlo b).2 hkey
      simp [this]
    · by_cases h2 : b = name
      · subst h2
        have := (memli a).2 hkey
        simp [this, h1]
      · simp [h1, h2]
  · change ((remFold name li' g.neighbors).erase name).keys = _
    rw [Dict.keys_erase, keys_remFold name li' _ hsubi']
  · change ((remFold name lo g.inNeighbors).erase name).keys = _
    rw [Dict.keys_erase, keys_remFold name lo _ hsubo, h.inEq hd]
  · intro a ha
    change ((remFold name li' g.neighbors).erase name).get? a = _
    rw [Dict.get?_erase, if_neg (Ne.symm ha), get?_remFold name li' _ hsubi' ndi']
    split
    · rfl
    · next hh =>
      cases hx : g.neighbors.get? a with
      | none => rfl
      | some l =>
        have : name ∉ l := by
          rw [← List.count_pos_iff]
          have h1 := h.out a name
          simp only [outc, hx, hd, if_true, Option.getD_some] at h1
          rw [h1]
          intro hc
          exact hh ((hli'mem a).2 ⟨(memli a).2 (ind_mem hc), ha⟩)
        simp [List.erase_of_not_mem this]
  · intro a ha
    change ((remFold name lo g.inNeighbors).erase name).get? a = _
    rw [Dict.get?_erase, if_neg (Ne.symm ha), get?_remFold name lo _ hsubo ndo]
    split
    · rfl
    · next hh =>
      cases hx : g.inNeighbors.get? a with
      | none => rfl
      | some l =>
        have : name ∉ l := by
          rw [← List.count_pos_iff]
          have h1 := h.inn hd a name
          simp only [innc, hx, Option.getD_some] at h1
          rw [h1]
          intro hc
          exact hh ((memlo a).2 (ind_mem hc))
        simp [List.erase_of_not_mem this]

theorem wf_delNode_dir {g g' : Graph N} (h : g.Wf) (hd : g.directed = true) {name : N}
    (hd' : g'.directed = true) (hnodes : g'.nodes = g.nodes.erase name)
    (hedge : g'.edgeAttr = dropE g.edgeAttr (fun e => decide (e.1 = name ∨ e.2 = name)))
    (hk : g'.neighbors.keys = g.neighbors.keys.filter (fun x => ¬ x = name))
    (hki : g'.inNeighbors.keys = g.neighbors.keys.filter (fun x => ¬ x = name))
    (hg : ∀ a, a ≠ name → g'.neighbors.get? a = (g.neighbors.get? a).map (·.erase name))
    (hgi : ∀ a, a ≠ name → g'.inNeighbors.get? a = (g.inNeighbors.get? a).map (·.erase name)) : g'.Wf := by
  have hmem : ∀ a b, (a, b) ∈ g'.edgeAttr.keys ↔ (a, b) ∈ g.edgeAttr.keys ∧ a ≠ name ∧ b ≠ name := by
    intro a b; rw [hedge, mem_keys_dropE]; simp
  have hind : ∀ a b, g'.ind a b = if a = name ∨ b = name then 0 else g.ind a b := by
    intro a b; unfold ind
    by_cases h1 : a = name <;> by_cases h2 : b = name <;> simp [hmem, h1, h2]
  refine ⟨?_, ?_, ?_, ?_, ?_, ?_, ?_, ?_⟩
  · rw [hnodes, Dict.keys_erase, hk, h.nodesEq]
  · rw [hk]; exact h.nodup.filter _
  · intro _; rw [hki, hk]
  · rw [hedge, keys_dropE]; exact h.edup.filter _
  · intro a b hab
    rw [hmem] at hab
    have := h.endp a b hab.1
    rw [hk]; simp [this, hab.2]
  · intro a b
    rw [hd', hind]
    simp only [if_true, Nat.add_zero]
    by_cases ha : a = name
    · subst ha
      have : g'.neighbors.get? a = none := by rw [Dict.get?_eq_none_iff, hk]; simp
      simp [outc, this]
    · have h1 := h.out a b
      simp only [hd, if_true, Nat.add_zero] at h1
      unfold outc at *
      rw [hg a ha]
      cases hx : g.neighbors.get? a with
      | none => simp [hx] at h1 ⊢; intro _ _; exact h1
      | some l =>
        simp only [hx, Option.getD_some, Option.map_some, ha, false_or] at h1 ⊢
        by_cases hb : b = name
        · subst hb
          rw [List.count_erase_self, h1]
          have : g.ind a b ≤ 1 := by unfold ind; split <;> omega
          simp; omega
        · rw [List.count_erase_of_ne hb, h1]; simp [hb]
  · intro _ a b
    rw [hind]
    by_cases ha : a = name
    · subst ha
      have : g'.inNeighbors.get? a = none := by rw [Dict.get?_eq_none_iff, hki]; simp
      simp [innc, this]
    · have h1 := h.inn hd a b
      unfold innc at *
      rw [hgi a ha]
      cases hx : g.inNeighbors.get? a with
      | none => simp [hx] at h1 ⊢; intro _ _; exact h1
      | some l =>
        simp only [hx, Option.getD_some, Option.map_some, ha, or_false] at h1 ⊢
        by_cases hb : b = name
        · subst hb
          rw [List.count_erase_self, h1]
          have : g.ind b a ≤ 1 := by unfold ind; split <;> omega
          simp; omega
        · rw [List.count_erase_of_ne hb, h1]; simp [hb]
  · intro hh; exact absurd (hd'.symm.trans hh) (by simp)

theorem delNode_run_missing (g : Graph N) {name : N} (hn : name ∉ g.neighbors.keys) :
    (delNode name).run g = .error .exception g := by
  unfold delNode
  simp [(Dict.get?_eq_none_iff _ _).2 hn]

theorem delEdgeAttr_dir {g g' : Graph N} {e : N × N} (h : (delEdgeAttr e).run g = .ok ⟨⟩ g') :
    g'.directed = g.directed := by
  unfold delEdgeAttr at h
  simp only [gm_bind, gm_get, gm_ite] at h
  split at h
  · simp only [gm_modify, EStateM.Result.ok.injEq, true_and] at h; subst h; rfl
  · simp at h

theorem removeNbr_dir {g g' : Graph N} {u v : N} (h : (removeNbr u v).run g = .ok ⟨⟩ g') :
    g'.directed = g.directed := by
  unfold removeNbr at h
  simp only [gm_bind, gm_get] at h
  cases hx : g.neighbors.get? u with
  | none => simp [hx] at h
  | some l =>
    simp only [hx, gm_ite] at h
    split at h
    · simp only [gm_modify, EStateM.Result.ok.injEq, true_and] at h; subst h; rfl
    · simp at h

theorem delOut_dir (name : N) (l : List N) {g g' : Graph N} (hd : g.directed = false)
    (h : (delOut name l).run g = .ok ⟨⟩ g') : g'.directed = false := by
  induction l generalizing g with
  | nil => simp only [delOut, gm_pure, EStateM.Result.ok.injEq, true_and] at h; subst h; exact hd
  | cons n l ih =>
    rw [delOut, gm_bind] at h
    cases h1 : (delEdgeAttr (name, n)).run g with
    | error e s => simp [h1] at h
    | ok x g1 =>
      have d1 := (delEdgeAttr_dir h1).trans hd
      simp only [h1, gm_bind, gm_get, gm_ite] at h
      rw [if_pos (by simp [d1])] at h
      cases h2 : (removeNbr n name).run g1 with
      | error e s => simp [h2] at h
      | ok x g2 =>
        simp only [h2] at h
        exact ih ((removeNbr_dir h2).trans d1) h

/-- On an undirected graph `del_node` raises, whatever the state. -/
theorem delNode_undirected_raises (g : Graph N) (hd : g.directed = false) (name : N) :
    ∃ e g', (delNode name).run g = .error e g' := by
  unfold delNode
  simp only [gm_bind, gm_get]
  cases g.neighbors.get? name with
  | none => exact ⟨_, _, rfl⟩
  | some l =>
    simp only [gm_bind]
    cases h1 : (delOut name l).run g with
    | error e s => exact ⟨_, _, rfl⟩
    | ok x g1 =>
      have d1 := delOut_dir name l hd h1
      have : (delInAll name).run g1 = .ok ⟨⟩ g1 := by simp [delInAll, d1]
      simp only [this]
      simp [delEntries, d1]

/-! ## attribute writes -/

theorem setNodeAttr_run (g : Graph N) (n : N) (a : String) (v : Val N) :
    (setNodeAttr n a v).run g = match g.nodes.get? n with
      | none => .error .attributeError g
      | some d => .ok ⟨⟩ { g with nodes := g.nodes.set n (d.set a v) } := by
  unfold setNodeAttr
  simp only [gm_bind, gm_get]
  cases g.nodes.get? n <;> rfl

theorem setEdgeAttr_run (g : Graph N) (u v : N) (a : String) (x : Val N) :
    (setEdgeAttr u v a x).run g = match g.edgeAttr.get? (u, v) with
      | some d => .ok ⟨⟩ { g with edgeAttr := g.edgeAttr.set (u, v) (d.set a x) }
      | none => if g.directed then .error .keyError g else match g.edgeAttr.get? (v, u) with
        | some d => .ok ⟨⟩ { g with edgeAttr := g.edgeAttr.set (v, u) (d.set a x) }
        | none => .error .keyError g := by
  unfold setEdgeAttr
  simp only [gm_bind, gm_get]
  cases g.edgeAttr.get? (u, v) with
  | some d => rfl
  | none =>
    simp only [gm_ite]
    split
    · rfl
    · cases g.edgeAttr.get? (v, u) <;> rfl

theorem wf_nodes {g : Graph N} (h : g.Wf) {n : N} {d : Attrs N} (hn : n ∈ g.nodes.keys) :
    ({ g with nodes := g.nodes.set n d } : Graph N).Wf where
  nodesEq := by simp only; rw [Dict.keys_set_of_mem _ hn]; exact h.nodesEq
  nodup := h.nodup
  inEq := h.inEq
  edup := h.edup
  endp := h.endp
  out := h.out
  inn := h.inn
  simple := h.simple

theorem wf_edgeAttr {g : Graph N} (h : g.Wf) {e : N × N} {d : Attrs N} (hn : e ∈ g.edgeAttr.keys) :
    ({ g with edgeAttr := g.edgeAttr.set e d } : Graph N).Wf := by
  have hk : (g.edgeAttr.set e d).keys = g.edgeAttr.keys := Dict.keys_set_of_mem _ hn
  have hind : ∀ a b, ({ g with edgeAttr := g.edgeAttr.set e d } : Graph N).ind a b = g.ind a b := by
    intro a b; simp only [ind, hk]
  refine ⟨h.nodesEq, h.nodup, h.inEq, ?_, ?_, ?_, ?_, ?_⟩
  · simp only [hk]; exact h.edup
  · simp only [hk]; exact h.endp
  · intro a b; rw [hind, hind]; exact h.out a b
  · intro hd a b; rw [hind]; exact h.inn hd a b
  · simp only [hk]; exact h.simple

end Graph
end GiMPy
