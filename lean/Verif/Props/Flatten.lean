import Verif.Props.DisjointSet

/-! # C69: path compression -/

namespace GiMPy
open DSet
variable {N : Type} [DecidableEq N]
set_option linter.unusedSectionVars false

theorem compress_par {r : N} (E : List (N × N)) {g g' : Graph N} (h : FWf g) (hr : r ∈ g.neighbors.keys)
    (hE : ∀ e ∈ E, par g e.1 = some e.2) (hnd : (E.map Prod.fst).Nodup) (hrun : (compress r E).run g = .ok ⟨⟩ g') :
    ∀ x, par g' x = if x ∈ E.map Prod.fst then some r else par g x := by
  induction E generalizing g with
  | nil => intro x; cases hrun; simp
  | cons e E ih =>
    have he := hE e (by simp)
    have hE' : ∀ e ∈ E, par g e.1 = some e.2 := fun e h => hE e (by simp [h])
    have hnd' := (List.nodup_cons.1 hnd)
    rw [compress, gm_bind, redirect, gm_ite] at hrun
    intro x
    by_cases hc : e.2 ≠ r
    · rw [if_pos hc] at hrun
      obtain ⟨g1, e1, e2, e3, e4⟩ := redirect_ok h he hr []
      rw [e1] at hrun
      have := ih e2 (e3 ▸ hr) (by
        intro e' h'
        have hne : e'.1 ≠ e.1 := fun h1 => hnd'.1 (h1 ▸ List.mem_map_of_mem h')
        rw [e4]; simp [upd, hne, hE' e' h']) hnd'.2 hrun x
      rw [this, e4]
      by_cases hx : x = e.1
      · subst hx; simp [upd]
      · have hm : x ∈ (e :: E).map Prod.fst ↔ x ∈ E.map Prod.fst := by simp only [List.map_cons, List.mem_cons, hx, false_or]
        simp only [upd, if_neg hx, hm]
    · rw [if_neg hc] at hrun
      rw [ih h hr hE' hnd'.2 hrun x]
      by_cases hx : x = e.1
      · subst hx
        have : e.2 = r := by simpa using hc
        simp [hnd'.1, he, this]
      · have hm : x ∈ (e :: E).map Prod.fst ↔ x ∈ E.map Prod.fst := by simp only [List.map_cons, List.mem_cons, hx, false_or]
        simp only [hm]

/-- the nodes on the links from `i` -/
theorem upL_mem {p : N → Option N} {i r : N} {E : List (N × N)} (h : UpL p i E r) (v : N) :
    Relation.ReflTransGen (fun a b => p a = some b) i v ↔ v ∈ E.map Prod.fst ∨ v = r := by
  induction h with
  | @root r hr =>
    constructor
    · intro hv
      rcases Relation.ReflTransGen.cases_head hv with h | ⟨c, h, _⟩
      · exact .inr h.symm
      · rw [hr] at h; cases h
    · rintro (h | rfl)
      · cases h
      · exact .refl
  | @step i s E r h1 _ ih =>
    constructor
    · intro hv
      rcases Relation.ReflTransGen.cases_head hv with h | ⟨c, h, hc⟩
      · left; simp [h]
      · rw [h1] at h
        obtain rfl := Option.some.inj h
        rcases ih.1 hc with h | h
        · left; exact List.mem_cons_of_mem _ h
        · exact .inr h
    · rintro (h | h)
      · rcases List.mem_cons.1 h with rfl | h
        · exact .refl
        · exact .head h1 (ih.2 (.inl h))
      · exact .head h1 (ih.2 (.inr h))

theorem par_iff {g : Graph N} (h : FWf g) (a b : N) : par g a = some b ↔ (a, b) ∈ g.getEdgeList := by
  constructor
  · intro hp
    exact (Graph.mem_nbrs_iff h.wf h.dir a b).1 (by simp [h.of_some hp])
  · intro he
    have := (Graph.mem_nbrs_iff h.wf h.dir a b).2 he
    obtain ⟨l, hl⟩ := (Dict.mem_keys' _ _).1 (h.wf.endp a b he).1
    rw [hl] at this
    have h1 := h.short a l hl
    match l, h1, this with
    | [c], _, this =>
      have : b = c := by simpa using this
      subst this
      unfold par; rw [hl]; rfl

theorem getNeighbors_of_par {g : Graph N} (h : FWf g) {v : N} (hv : v ∈ g.neighbors.keys) :
    g.getNeighbors v = .ok (match par g v with | some s => [s] | none => []) := by
  unfold Graph.getNeighbors
  cases hp : par g v with
  | none => rw [h.of_none hv hp]
  | some s => rw [h.of_some hp]

/-- **C69.** Take any valid history of a `DisjointSet` with `optimize=True` and call `find(i)`.  Afterwards every item met on
the way from `i` (other than the root) points directly to the root that is returned, all other items point where they did
before, and the sizes are unchanged.  With `optimize=False` the call changes nothing. -/
theorem C69_find_flattens {fuel : Nat} (ops : List (DOp N)) (hv : ValidOps ops) (hf : (items ops).length ≤ fuel) {i : N}
    (hi : i ∈ items ops) :
    (∃ d r d', DSet.run true fuel ops = .ok d ∧ d.find fuel i = .ok (r, d') ∧ d'.sizes = d.sizes ∧
      d'.g.getNeighbors r = .ok [] ∧ ∀ v ∈ items ops,
        (Relation.ReflTransGen (fun a b => (a, b) ∈ d.g.getEdgeList) i v → v ≠ r → d'.g.getNeighbors v = .ok [r]) ∧
        (¬ Relation.ReflTransGen (fun a b => (a, b) ∈ d.g.getEdgeList) i v → d'.g.getNeighbors v = d.g.getNeighbors v)) ∧
    ∃ d r, DSet.run false fuel ops = .ok d ∧ d.find fuel i = .ok (r, d) := by
  constructor
  · obtain ⟨d, h1, h2, h3, h4⟩ := run_ok true ops hv hf
    obtain ⟨k, r, u1, u2⟩ := h2.root i (h3 ▸ hi)
    obtain ⟨E, u3, u4⟩ := u1.toL
    obtain ⟨r', d', E', k', e1, e2, e3, e4, e5, _, e7, e8, e9, _⟩ := find_ok h2 (h3 ▸ hi) (f := fuel) (h3 ▸ hf)
    have hlen := u1.lt (fun v s hvs => (h2.fwf.par_mem hvs).2) (h3 ▸ hi)
    have hc := climb_ok h2.fwf u3 (h3 ▸ hi) (f := fuel) (by rw [h3] at hlen; omega) []
    rw [List.nil_append] at hc
    rw [hc] at e9
    obtain ⟨rfl, rfl⟩ : r = r' ∧ E = E' := by cases e9; exact ⟨rfl, rfl⟩
    have e1' := e1
    unfold DSet.find at e1'
    rw [hc] at e1'
    simp only [h4, if_true] at e1'
    have hpar : ∀ x, par d'.g x = if x ∈ E.map Prod.fst then some r else par d.g x := by
      split at e1'
      · cases e1'
      · next g' hg' =>
        cases e1'
        exact compress_par E h2.fwf e7 (fun e he => (u3.mem e he).1) u3.nodup hg'
    have hpath : ∀ v, Relation.ReflTransGen (fun a b => (a, b) ∈ d.g.getEdgeList) i v ↔ v ∈ E.map Prod.fst ∨ v = r := by
      intro v
      rw [← upL_mem u3 v]
      have : (fun a b => par d.g a = some b) = fun a b => (a, b) ∈ d.g.getEdgeList := by
        funext a b; exact propext (par_iff h2.fwf a b)
      rw [this]
    refine ⟨d, r, d', h1, e1, e4, ?_, ?_⟩
    · rw [getNeighbors_of_par e2.fwf (by rw [e3]; exact e7), e8]
    · intro v hvi
      have hvk : v ∈ d'.g.neighbors.keys := by rw [e3, h3]; exact hvi
      constructor
      · intro hp hne
        rw [getNeighbors_of_par e2.fwf hvk, hpar, if_pos]
        rcases (hpath v).1 hp with h | h
        · exact h
        · exact absurd h hne
      · intro hp
        rw [getNeighbors_of_par e2.fwf hvk, getNeighbors_of_par h2.fwf (by rw [h3]; exact hvi), hpar, if_neg]
        exact fun h => hp ((hpath v).2 (.inl h))
  · obtain ⟨d, h1, h2, h3, h4⟩ := run_ok false ops hv hf
    obtain ⟨r, d', E, k, e1, _⟩ := find_ok h2 (h3 ▸ hi) (f := fuel) (h3 ▸ hf)
    refine ⟨d, r, h1, ?_⟩
    have e1' := e1
    unfold DSet.find at e1'
    split at e1'
    · cases e1'
    · next hc =>
      rw [if_neg (by simp [h4])] at e1'
      cases e1'
      exact e1

/-- the list, if there is no exception -/
def nbrList (d : DSet Nat) (v : Nat) : List Nat := match d.g.getNeighbors v with | .ok l => l | .error _ => [99]

/-- non-vacuity: three links before the call, one after it -/
example : (match DSet.run true 20 [.union 0 4, .union 6 4, .union 0 2, .add [6, 7], .add [4, 5], .add [2, 3], .add [0, 1]] with
    | .ok d => (match d.find 20 1 with
      | .ok (r, d') => some ([1, 0, 2].map (nbrList d), r, [1, 0, 2].map (nbrList d'))
      | .error _ => none)
    | .error _ => none) = some ([[0], [2], [4]], 4, [[4], [4], [4]]) := by decide +kernel

end GiMPy
