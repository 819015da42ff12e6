import Verif.Model.DisjointSet
import Verif.Model.Search
import Verif.Lemmas.DGraph
import Mathlib.Logic.Relation
import Mathlib.Tactic.Ring
import Mathlib.Algebra.Order.Ring.Nat

/-! # Disjoint sets: parent forest, path compression, union -/

namespace GiMPy
namespace DSet
open Graph
variable {N : Type} [DecidableEq N]
set_option linter.unusedSectionVars false

/-- following parents from `v` for `k` steps ends in the root `r` -/
inductive Up (p : N → Option N) : N → Nat → N → Prop
  | root {r} : p r = none → Up p r 0 r
  | step {v s k r} : p v = some s → Up p s k r → Up p v (k + 1) r

variable {p p' : N → Option N}

theorem Up.top {v : N} {k : Nat} {r : N} (h : Up p v k r) : p r = none := by
  induction h with
  | root h => exact h
  | step _ _ ih => exact ih

theorem Up.func {v : N} {k : Nat} {r : N} (h : Up p v k r) {k' : Nat} {r' : N} (h' : Up p v k' r') :
    k = k' ∧ r = r' := by
  induction h generalizing k' with
  | root h1 =>
    cases h' with
    | root => exact ⟨rfl, rfl⟩
    | step h2 _ => rw [h1] at h2; cases h2
  | step h1 _ ih =>
    cases h' with
    | root h2 => rw [h1] at h2; cases h2
    | step h2 h3 =>
      rw [h1] at h2; cases h2
      obtain ⟨rfl, rfl⟩ := ih h3
      exact ⟨rfl, rfl⟩

/-- depth is smaller than the number of nodes -/
theorem Up.lt {V : List N} (hV : ∀ v s, p v = some s → s ∈ V) {v : N} {k : Nat} {r : N} (h : Up p v k r) (hv : v ∈ V) :
    k < V.length := by
  have : ∃ l : List N, l.length = k + 1 ∧ l.Nodup ∧ (∀ x ∈ l, x ∈ V) ∧ ∀ x ∈ l, ∃ j ≤ k, Up p x j r := by
    induction h with
    | @root r h => exact ⟨[r], rfl, by simp, by simpa using hv, by simpa using .root h⟩
    | @step v s k r h1 h2 ih =>
      obtain ⟨l, e1, e2, e3, e4⟩ := ih (hV _ _ h1)
      refine ⟨v :: l, by simp [e1], List.nodup_cons.2 ⟨?_, e2⟩, ?_, ?_⟩
      · intro hvl
        obtain ⟨j, hj, hu⟩ := e4 v hvl
        have := (hu.func (.step h1 h2)).1
        omega
      · intro x hx
        rcases List.mem_cons.1 hx with rfl | hx
        · exact hv
        · exact e3 x hx
      · intro x hx
        rcases List.mem_cons.1 hx with rfl | hx
        · exact ⟨k + 1, le_refl _, .step h1 h2⟩
        · obtain ⟨j, hj, hu⟩ := e4 x hx
          exact ⟨j, by omega, hu⟩
  obtain ⟨l, e1, e2, e3, _⟩ := this
  have := (List.subperm_of_subset e2 e3).length_le
  omega

/-- `p'` has the same roots and no larger depths -/
def Flat (p p' : N → Option N) : Prop := ∀ x k y, Up p x k y → ∃ k' ≤ k, Up p' x k' y

theorem Flat.rfl : Flat p p := fun _ k _ h => ⟨k, Nat.le_refl _, h⟩

theorem Flat.trans {p'' : N → Option N} (h : Flat p p') (h' : Flat p' p'') : Flat p p'' := by
  intro x k y hx
  obtain ⟨k1, h1, h2⟩ := h x k y hx
  obtain ⟨k2, h3, h4⟩ := h' x k1 y h2
  exact ⟨k2, by omega, h4⟩

/-- hanging a node directly below its root -/
theorem flat_redirect {v r : N} {k : Nat} (h : Up p v k r) (hne : v ≠ r) : Flat p (upd p v (some r)) := by
  intro x d y hx
  induction hx with
  | @root y hy =>
    refine ⟨0, Nat.le_refl _, .root ?_⟩
    have : y ≠ v := by
      rintro rfl
      cases h with
      | root _ => exact hne rfl
      | step h1 _ => rw [hy] at h1; cases h1
    simp [upd, this, hy]
  | @step x s d y h1 h2 ih =>
    by_cases hxv : x = v
    · subst hxv
      obtain ⟨_, rfl⟩ := h.func (.step h1 h2)
      refine ⟨1, by omega, .step (s := r) (by simp [upd]) (.root ?_)⟩
      simp [upd, Ne.symm hne, h.top]
    · obtain ⟨d', h3, h4⟩ := ih
      exact ⟨d' + 1, by omega, .step (by simp [upd, hxv, h1]) h4⟩

/-- the links walked from `v` to its root -/
inductive UpL (p : N → Option N) : N → List (N × N) → N → Prop
  | root {r} : p r = none → UpL p r [] r
  | step {v s E r} : p v = some s → UpL p s E r → UpL p v ((v, s) :: E) r

theorem Up.toL {v : N} {k : Nat} {r : N} (h : Up p v k r) : ∃ E, UpL p v E r ∧ E.length = k := by
  induction h with
  | root h => exact ⟨[], .root h, rfl⟩
  | step h1 _ ih =>
    obtain ⟨E, h2, h3⟩ := ih
    exact ⟨_, .step h1 h2, by simp [h3]⟩

theorem UpL.toUp {v : N} {E : List (N × N)} {r : N} (h : UpL p v E r) : Up p v E.length r := by
  induction h with
  | root h => exact .root h
  | step h1 _ ih => exact .step h1 ih

theorem UpL.mem {v : N} {E : List (N × N)} {r : N} (h : UpL p v E r) :
    ∀ e ∈ E, p e.1 = some e.2 ∧ ∃ j, 0 < j ∧ j ≤ E.length ∧ Up p e.1 j r := by
  induction h with
  | root _ => simp
  | @step v s E r h1 h2 ih =>
    intro e he
    rcases List.mem_cons.1 he with rfl | he
    · exact ⟨h1, E.length + 1, by omega, by simp, .step h1 h2.toUp⟩
    · obtain ⟨a, j, b, c, d⟩ := ih e he
      exact ⟨a, j, b, by simp; omega, d⟩

theorem UpL.nodup {v : N} {E : List (N × N)} {r : N} (h : UpL p v E r) : (E.map Prod.fst).Nodup := by
  induction h with
  | root _ => simp
  | @step v s E r h1 h2 ih =>
    refine List.nodup_cons.2 ⟨?_, ih⟩
    intro hv
    obtain ⟨e, he, hev⟩ := List.mem_map.1 hv
    obtain ⟨_, j, _, hj, hu⟩ := h2.mem e he
    rw [hev] at hu
    have := (hu.func (.step h1 h2.toUp)).1
    omega

/-! ## The graph of a disjoint set -/

/-- parent of a node -/
def par (g : Graph N) (v : N) : Option N := ((g.neighbors.get? v).getD []).head?

/-- directed graph in which every node has at most one out-neighbour -/
structure FWf (g : Graph N) : Prop where
  wf : g.Wf
  dir : g.directed = true
  short : ∀ v l, g.neighbors.get? v = some l → l.length ≤ 1

theorem FWf.of_none {g : Graph N} (_ : FWf g) {v : N} (hv : v ∈ g.neighbors.keys) (hp : par g v = none) :
    g.neighbors.get? v = some [] := by
  obtain ⟨l, hl⟩ := (Dict.mem_keys' _ _).1 hv
  cases l with
  | nil => exact hl
  | cons a l => simp [par, hl] at hp

theorem FWf.of_some {g : Graph N} (h : FWf g) {v s : N} (hp : par g v = some s) :
    g.neighbors.get? v = some [s] := by
  unfold par at hp
  cases hl : g.neighbors.get? v with
  | none => simp [hl] at hp
  | some l =>
    have := h.short v l hl
    match l, this with
    | [], _ => simp [hl] at hp
    | [a], _ => simp [hl] at hp; simp [hp]

theorem FWf.par_mem {g : Graph N} (h : FWf g) {v s : N} (hp : par g v = some s) :
    v ∈ g.neighbors.keys ∧ s ∈ g.neighbors.keys := by
  have h1 := h.of_some hp
  have : (v, s) ∈ g.edgeAttr.keys := (mem_nbrs_iff h.wf h.dir v s).1 (by simp [h1])
  exact h.wf.endp _ _ this

/-- adding a link from a root -/
theorem addEdge_ok {g : Graph N} (h : FWf g) {v r : N} (hv : v ∈ g.neighbors.keys) (hr : r ∈ g.neighbors.keys)
    (hp : par g v = none) (attr) : ∃ g', (addEdge v r attr).run g = .ok ⟨⟩ g' ∧ FWf g' ∧
      g'.neighbors.keys = g.neighbors.keys ∧ par g' = upd (par g) v (some r) := by
  have h0 := h.of_none hv hp
  have hdup : ¬ g.dup v r := by
    rw [dup_iff_directed h.dir, ← mem_nbrs_iff h.wf h.dir, h0]; simp
  refine ⟨g.addEdgeS v r attr, by rw [addEdge_run h.wf, if_neg hdup], ⟨wf_addEdgeS h.wf hdup attr, by simp [h.dir], ?_⟩,
    addEdgeS_keys g v r attr hv hr, ?_⟩
  · intro x l hx
    rw [addEdgeS_nbrs h.dir, h0] at hx
    split at hx
    · simp at hx; simp [← hx]
    · split at hx
      · simp at hx; simp [hx]
      · exact h.short x l hx
  · funext x
    unfold par upd
    rw [addEdgeS_nbrs h.dir, h0]
    by_cases hx : x = v
    · simp [hx]
    · simp [hx, hr]

/-- replacing the parent of a node -/
theorem redirect_ok {g : Graph N} (h : FWf g) {v s r : N} (hp : par g v = some s) (hr : r ∈ g.neighbors.keys) (attr) :
    ∃ g', (do delEdge (v, s); addEdge v r attr : GM N Unit).run g = .ok ⟨⟩ g' ∧ FWf g' ∧
      g'.neighbors.keys = g.neighbors.keys ∧ par g' = upd (par g) v (some r) := by
  have h0 := h.of_some hp
  have hv := (h.par_mem hp).1
  have hin : (v, s) ∈ g.edgeAttr.keys := (mem_nbrs_iff h.wf h.dir v s).1 (by simp [h0])
  have hdup : g.dup v s := (dup_iff_directed h.dir v s).2 hin
  set g1 := g.delEdgeS v s (g.key v s) with hg1
  have hn1 : ∀ x, g1.neighbors.get? x = if x = v then some [] else g.neighbors.get? x := by
    intro x; rw [hg1, delEdgeS_nbrs h.dir, h0]; simp
  have hk1 : g1.neighbors.keys = g.neighbors.keys := delEdgeS_keys h.dir v s _ hv
  have h1 : FWf g1 := by
    refine ⟨wf_delEdgeS h.wf hdup, by simp [hg1, h.dir], ?_⟩
    intro x l hx
    rw [hn1] at hx
    split at hx
    · simp at hx; simp [hx]
    · exact h.short x l hx
  have hp1 : par g1 v = none := by simp [par, hn1]
  obtain ⟨g', e1, e2, e3, e4⟩ := addEdge_ok h1 (hk1 ▸ hv) (hk1 ▸ hr) hp1 attr
  refine ⟨g', ?_, e2, e3.trans hk1, ?_⟩
  · rw [gm_bind, delEdge_run h.wf, if_pos hdup]; exact e1
  · rw [e4]
    funext x
    simp only [upd]
    by_cases hx : x = v
    · simp [hx]
    · simp [hx, par, hn1]

theorem climb_ok {g : Graph N} (h : FWf g) {v r : N} {E : List (N × N)} (hu : UpL (par g) v E r)
    (hv : v ∈ g.neighbors.keys) {f : Nat} (hf : E.length < f) (acc : List (N × N)) :
    climb g f v acc = .ok (r, acc ++ E) := by
  induction hu generalizing f acc with
  | @root r hr =>
    obtain ⟨f, rfl⟩ : ∃ f', f = f' + 1 := ⟨f - 1, by omega⟩
    rw [climb, Graph.getNeighbors, h.of_none hv hr]; simp
  | @step v s E r h1 h2 ih =>
    obtain ⟨f, rfl⟩ : ∃ f', f = f' + 1 := ⟨f - 1, by omega⟩
    rw [climb, Graph.getNeighbors, h.of_some h1]
    simp only []
    rw [ih (h.par_mem h1).2 (by simp at hf; omega)]; simp

theorem compress_ok {r : N} (E : List (N × N)) {g : Graph N} (h : FWf g) (hr : r ∈ g.neighbors.keys)
    (hE : ∀ e ∈ E, par g e.1 = some e.2 ∧ ∃ j, 0 < j ∧ Up (par g) e.1 j r) (hnd : (E.map Prod.fst).Nodup) :
    ∃ g', (compress r E).run g = .ok ⟨⟩ g' ∧ FWf g' ∧ g'.neighbors.keys = g.neighbors.keys ∧ Flat (par g) (par g') := by
  induction E generalizing g with
  | nil => exact ⟨g, rfl, h, rfl, .rfl⟩
  | cons e E ih =>
    obtain ⟨he, j, hj, hu⟩ := hE e (by simp)
    have hE' : ∀ e ∈ E, par g e.1 = some e.2 ∧ ∃ j, 0 < j ∧ Up (par g) e.1 j r := fun e h => hE e (by simp [h])
    have hnd' := (List.nodup_cons.1 hnd)
    have hner : e.1 ≠ r := by
      intro h1
      have := hu.top
      rw [← h1, he] at this; cases this
    rw [compress, gm_bind, redirect, gm_ite]
    by_cases hc : e.2 ≠ r
    · rw [if_pos hc]
      obtain ⟨g1, e1, e2, e3, e4⟩ := redirect_ok h he hr []
      rw [e1]
      have hf1 : Flat (par g) (par g1) := by rw [e4]; exact flat_redirect hu hner
      obtain ⟨g2, d1, d2, d3, d4⟩ := ih e2 (e3 ▸ hr) (by
        intro e' h'
        have hne : e'.1 ≠ e.1 := fun h1 => hnd'.1 (h1 ▸ List.mem_map_of_mem h')
        obtain ⟨a, i, b, c⟩ := hE' e' h'
        obtain ⟨i', hi', c'⟩ := hf1 _ _ _ c
        refine ⟨by rw [e4]; simp [upd, hne, a], i', ?_, c'⟩
        cases c' with
        | root h1 => exfalso; have := c.top; rw [e4] at h1; simp [upd, hne, a] at h1
        | step _ _ => omega) hnd'.2
      exact ⟨g2, d1, d2, d3.trans e3, hf1.trans d4⟩
    · rw [if_neg hc]
      exact ih h hr hE' hnd'.2

/-! ## The set invariant -/

open Classical in
/-- `R` is the intended "same set" relation -/
structure FInv (d : DSet N) (R : N → N → Prop) : Prop where
  fwf : FWf d.g
  eqv : Equivalence R
  inV : ∀ u v, R u v → u = v ∨ (u ∈ d.g.neighbors.keys ∧ v ∈ d.g.neighbors.keys)
  root : ∀ v ∈ d.g.neighbors.keys, ∃ k r, Up (par d.g) v k r ∧ R v r
  uniq : ∀ r s, r ∈ d.g.neighbors.keys → s ∈ d.g.neighbors.keys → par d.g r = none → par d.g s = none → R r s → r = s
  size : ∀ r ∈ d.g.neighbors.keys, par d.g r = none →
    d.sizes.get? r = some ((d.g.neighbors.keys.filter fun v => decide (R r v)).length)
  deep : d.optimize = true → ∀ v k r n, Up (par d.g) v k r → d.sizes.get? r = some n → 2 ^ k ≤ n

theorem Up.memV {g : Graph N} (h : FWf g) {v : N} {k : Nat} {r : N} (hu : Up (par g) v k r)
    (hv : v ∈ g.neighbors.keys) : r ∈ g.neighbors.keys := by
  induction hu with
  | root => exact hv
  | step h1 _ ih => exact ih (h.par_mem h1).2

theorem FInv.up_rel {d : DSet N} {R} (h : FInv d R) {v : N} {k : Nat} {r : N} (hv : v ∈ d.g.neighbors.keys)
    (hu : Up (par d.g) v k r) : R v r := by
  obtain ⟨k', r', h1, h2⟩ := h.root v hv
  obtain ⟨_, rfl⟩ := h1.func hu
  exact h2

/-- roots decide membership in the same set -/
theorem FInv.same {d : DSet N} {R} (h : FInv d R) {u v : N} (hu : u ∈ d.g.neighbors.keys) (hv : v ∈ d.g.neighbors.keys)
    {k k' r r'} (h1 : Up (par d.g) u k r) (h2 : Up (par d.g) v k' r') : r = r' ↔ R u v := by
  have e1 := h.up_rel hu h1
  have e2 := h.up_rel hv h2
  constructor
  · rintro rfl; exact h.eqv.trans e1 (h.eqv.symm e2)
  · intro hR
    exact h.uniq r r' (h1.memV h.fwf hu) (h2.memV h.fwf hv) h1.top h2.top
      (h.eqv.trans (h.eqv.symm e1) (h.eqv.trans hR e2))

theorem FInv.flat {d : DSet N} {R} (h : FInv d R) {g' : Graph N} (hw : FWf g')
    (hk : g'.neighbors.keys = d.g.neighbors.keys) (hf : Flat (par d.g) (par g')) : FInv { d with g := g' } R := by
  have hnone : ∀ r ∈ d.g.neighbors.keys, par g' r = none → par d.g r = none := by
    intro r hr h1
    obtain ⟨k, r', h2, _⟩ := h.root r hr
    obtain ⟨k', _, h3⟩ := hf _ _ _ h2
    obtain ⟨_, rfl⟩ := h3.func (.root h1)
    exact h2.top
  refine ⟨hw, h.eqv, ?_, ?_, ?_, ?_, ?_⟩
  · simp only [hk]; exact h.inV
  · simp only [hk]
    intro v hv
    obtain ⟨k, r, h1, h2⟩ := h.root v hv
    obtain ⟨k', _, h3⟩ := hf _ _ _ h1
    exact ⟨k', r, h3, h2⟩
  · simp only [hk]
    exact fun r s hr hs h1 h2 => h.uniq r s hr hs (hnone r hr h1) (hnone s hs h2)
  · simp only [hk]
    exact fun r hr h1 => h.size r hr (hnone r hr h1)
  · intro ho v k r n hu hn
    replace hu : Up (par g') v k r := hu
    by_cases hv : v ∈ d.g.neighbors.keys
    · obtain ⟨k0, r0, h1, _⟩ := h.root v hv
      obtain ⟨k', hle, h3⟩ := hf _ _ _ h1
      obtain ⟨rfl, rfl⟩ := hu.func h3
      exact Nat.le_trans (Nat.pow_le_pow_right (by omega) hle) (h.deep ho _ _ _ n h1 hn)
    · cases hu with
      | root h1 =>
        refine h.deep ho v 0 v n (.root ?_) hn
        have := (Dict.get?_eq_none_iff _ _).2 hv
        simp [par, this]
      | step h1 _ =>
        have := (hw.par_mem h1).1
        rw [hk] at this
        exact absurd this hv

/-- `find` returns the root and keeps the sets -/
theorem find_ok {d : DSet N} {R} (h : FInv d R) {i : N} (hi : i ∈ d.g.neighbors.keys) {f : Nat}
    (hf : d.g.neighbors.keys.length ≤ f) :
    ∃ r d' E k, d.find f i = .ok (r, d') ∧ FInv d' R ∧ d'.g.neighbors.keys = d.g.neighbors.keys ∧
      d'.sizes = d.sizes ∧ d'.optimize = d.optimize ∧ R i r ∧ r ∈ d.g.neighbors.keys ∧ par d'.g r = none ∧
      climb d.g f i [] = .ok (r, E) ∧ E.length = k ∧ Up (par d.g) i k r ∧
      ∀ x, par d.g x = none → par d'.g x = none := by
  obtain ⟨k, r, h1, h2⟩ := h.root i hi
  obtain ⟨E, h3, h4⟩ := h1.toL
  have hk := h1.lt (fun v s hvs => (h.fwf.par_mem hvs).2) hi
  have hr := h1.memV h.fwf hi
  have hc := climb_ok h.fwf h3 hi (f := f) (by omega) []
  simp only [List.nil_append] at hc
  unfold find
  rw [hc]
  simp only []
  cases ho : d.optimize
  · refine ⟨r, d, E, k, by simp, h, rfl, rfl, ho, h2, hr, h1.top, rfl, h4, h1, fun _ => id⟩
  · simp only [if_true]
    obtain ⟨g', e1, e2, e3, e4⟩ := compress_ok E h.fwf hr (fun e he => by
      obtain ⟨a, j, b, _, c⟩ := h3.mem e he
      exact ⟨a, j, b, c⟩) h3.nodup
    rw [e1]
    obtain ⟨k', _, hr'⟩ := e4 r 0 r (.root h1.top)
    refine ⟨r, { d with g := g' }, E, k, by simp [ho], h.flat e2 e3 e4, e3, rfl, ho, h2, hr, hr'.top, rfl, h4, h1, fun x hx => ?_⟩
    obtain ⟨k', _, hx'⟩ := e4 x 0 x (.root hx)
    exact hx'.top

/-- two classes become one -/
def merge (R : N → N → Prop) (i j : N) (u v : N) : Prop := R u v ∨ (R u i ∧ R j v) ∨ (R u j ∧ R i v)

theorem merge_equiv {R : N → N → Prop} (h : Equivalence R) (i j : N) : Equivalence (merge R i j) := by
  have s := @h.symm
  have t := @h.trans
  refine ⟨fun x => Or.inl (h.refl x), ?_, ?_⟩
  · rintro x y (a | ⟨a, b⟩ | ⟨a, b⟩)
    · exact Or.inl (s a)
    · exact Or.inr (Or.inr ⟨s b, s a⟩)
    · exact Or.inr (Or.inl ⟨s b, s a⟩)
  · rintro x y z (a | ⟨a, b⟩ | ⟨a, b⟩) (c | ⟨c, e⟩ | ⟨c, e⟩)
    · exact Or.inl (t a c)
    · exact Or.inr (Or.inl ⟨t a c, e⟩)
    · exact Or.inr (Or.inr ⟨t a c, e⟩)
    · exact Or.inr (Or.inl ⟨a, t b c⟩)
    · exact Or.inr (Or.inl ⟨a, e⟩)
    · exact Or.inl (t a e)
    · exact Or.inr (Or.inr ⟨a, t b c⟩)
    · exact Or.inl (t a e)
    · exact Or.inr (Or.inr ⟨a, e⟩)

theorem merge_symm_iff {R : N → N → Prop} (i j u v : N) : merge R i j u v ↔ merge R j i u v := by
  unfold merge; tauto

/-- depths and roots after linking the root `a` below the root `b` -/
theorem up_link {a b : N} (ha : p a = none) (hb : p b = none) (hab : a ≠ b) {x : N} {k : Nat} {y : N}
    (h : Up p x k y) : (y = a → Up (upd p a (some b)) x (k + 1) b) ∧ (y ≠ a → Up (upd p a (some b)) x k y) := by
  have hb' : upd p a (some b) b = none := by simp [upd, Ne.symm hab, hb]
  induction h with
  | @root y hy =>
    constructor
    · rintro rfl; exact .step (by simp [upd]) (.root hb')
    · intro h1; exact .root (by simp [upd, h1, hy])
  | @step x s k y h1 h2 ih =>
    by_cases hx : x = a
    · subst hx
      rw [ha] at h1; cases h1
    · have e : upd p a (some b) x = some s := by simp [upd, hx, h1]
      exact ⟨fun h3 => .step e (ih.1 h3), fun h3 => .step e (ih.2 h3)⟩

theorem filter_or_length (P Q R : N → Bool) (l : List N) (hR : ∀ v ∈ l, R v = (P v || Q v))
    (hd : ∀ v ∈ l, ¬ (P v = true ∧ Q v = true)) : (l.filter R).length = (l.filter P).length + (l.filter Q).length := by
  induction l with
  | nil => rfl
  | cons a l ih =>
    have h1 := hR a (by simp)
    have h2 := hd a (by simp)
    have := ih (fun v hv => hR v (by simp [hv])) (fun v hv => hd v (by simp [hv]))
    cases hp : P a <;> cases hq : Q a <;> simp_all <;> omega

/-- linking the root `a` below the root `b` -/
theorem link_ok {d : DSet N} {R} (h : FInv d R) {a b : N} (ha : a ∈ d.g.neighbors.keys) (hb : b ∈ d.g.neighbors.keys)
    (hpa : par d.g a = none) (hpb : par d.g b = none) (hab : a ≠ b)
    (hs : d.optimize = true → ∀ sa sb, d.sizes.get? a = some sa → d.sizes.get? b = some sb → sa ≤ sb) :
    ∃ d', d.link a b = .ok (true, d') ∧ FInv d' (merge R a b) ∧ d'.g.neighbors.keys = d.g.neighbors.keys ∧
      d'.optimize = d.optimize ∧ par d'.g = upd (par d.g) a (some b) := by
  classical
  have hnR : ¬ R a b := fun hR => hab (h.uniq a b ha hb hpa hpb hR)
  have hsa := h.size a ha hpa
  have hsb := h.size b hb hpb
  set sa := (d.g.neighbors.keys.filter fun v => decide (R a v)).length with hsad
  set sb := (d.g.neighbors.keys.filter fun v => decide (R b v)).length with hsbd
  obtain ⟨g', e1, e2, e3, e4⟩ := addEdge_ok h.fwf ha hb hpa []
  have hlink : ∀ x k y, Up (par d.g) x k y → (y = a → Up (par g') x (k + 1) b) ∧ (y ≠ a → Up (par g') x k y) := by
    intro x k y hx; rw [e4]; exact up_link hpa hpb hab hx
  have hnone : ∀ r, par g' r = none → r ≠ a ∧ par d.g r = none := by
    intro r hr
    rw [e4] at hr
    by_cases hra : r = a
    · simp [upd, hra] at hr
    · exact ⟨hra, by simpa [upd, hra] using hr⟩
  have hra : ∀ r ∈ d.g.neighbors.keys, par d.g r = none → r ≠ a → ¬ R r a := fun r hr h1 h2 h3 =>
    h2 (h.uniq r a hr ha h1 hpa h3)
  have hrb : ∀ r ∈ d.g.neighbors.keys, par d.g r = none → r ≠ b → ¬ R r b := fun r hr h1 h2 h3 =>
    h2 (h.uniq r b hr hb h1 hpb h3)
  refine ⟨{ d with g := g', sizes := d.sizes.set b (sb + sa) }, ?_, ⟨e2, merge_equiv h.eqv a b, ?_, ?_, ?_, ?_, ?_⟩,
    e3, rfl, e4⟩
  · unfold link; rw [e1]; simp only [hsa, hsb]
  · simp only [e3]
    rintro u v (h1 | ⟨h1, h2⟩ | ⟨h1, h2⟩)
    · exact h.inV u v h1
    · exact Or.inr ⟨(h.inV u a h1).elim (fun e => e ▸ ha) (·.1), (h.inV b v h2).elim (fun e => e ▸ hb) (·.2)⟩
    · exact Or.inr ⟨(h.inV u b h1).elim (fun e => e ▸ hb) (·.1), (h.inV a v h2).elim (fun e => e ▸ ha) (·.2)⟩
  · simp only [e3]
    intro v hv
    obtain ⟨k, r, h1, h2⟩ := h.root v hv
    by_cases hr : r = a
    · subst hr
      exact ⟨k + 1, b, (hlink _ _ _ h1).1 rfl, Or.inr (Or.inl ⟨h2, h.eqv.refl b⟩)⟩
    · exact ⟨k, r, (hlink _ _ _ h1).2 hr, Or.inl h2⟩
  · simp only [e3]
    intro r s hr hs h1 h2 h3
    obtain ⟨r1, r2⟩ := hnone r h1
    obtain ⟨s1, s2⟩ := hnone s h2
    rcases h3 with h3 | ⟨h3, _⟩ | ⟨_, h3⟩
    · exact h.uniq r s hr hs r2 s2 h3
    · exact absurd h3 (hra r hr r2 r1)
    · exact absurd (h.eqv.symm h3) (hra s hs s2 s1)
  · simp only [e3]
    intro r hr h1
    obtain ⟨r1, r2⟩ := hnone r h1
    by_cases hrb' : r = b
    · subst hrb'
      simp only [Dict.get?_set_self, Option.some.injEq]
      rw [hsad, hsbd]
      symm
      refine filter_or_length _ _ _ _ ?_ ?_
      · intro v _
        have : merge R a r r v ↔ (R r v ∨ R a v) := by
          unfold merge
          constructor
          · rintro (h3 | ⟨h3, _⟩ | ⟨_, h3⟩)
            · exact Or.inl h3
            · exact absurd h3 (hra r hr r2 r1)
            · exact Or.inr h3
          · rintro (h3 | h3)
            · exact Or.inl h3
            · exact Or.inr (Or.inr ⟨h.eqv.refl r, h3⟩)
        simp [this]
      · intro v _
        simp only [decide_eq_true_eq]
        rintro ⟨h3, h4⟩
        exact hnR (h.eqv.trans h4 (h.eqv.symm h3))
    · rw [Dict.get?_set_ne _ _ (Ne.symm hrb'), h.size r hr r2]
      congr 2
      refine List.filter_congr fun v _ => ?_
      have : merge R a b r v ↔ R r v := by
        unfold merge
        constructor
        · rintro (h3 | ⟨h3, _⟩ | ⟨h3, _⟩)
          · exact h3
          · exact absurd h3 (hra r hr r2 r1)
          · exact absurd h3 (hrb r hr r2 hrb')
        · exact Or.inl
      simp [this]
  · intro ho v k r n hu hn
    replace hu : Up (par g') v k r := hu
    replace hn : (d.sizes.set b (sb + sa)).get? r = some n := hn
    rw [Dict.get?_set] at hn
    have hle := hs ho sa sb hsa hsb
    by_cases hv : v ∈ d.g.neighbors.keys
    · obtain ⟨k0, y, h1, _⟩ := h.root v hv
      by_cases hy : y = a
      · subst hy
        obtain ⟨rfl, rfl⟩ := hu.func ((hlink _ _ _ h1).1 rfl)
        simp only [if_true, Option.some.injEq] at hn
        have := h.deep ho _ _ _ _ h1 hsa
        rw [Nat.pow_succ]; omega
      · obtain ⟨rfl, rfl⟩ := hu.func ((hlink _ _ _ h1).2 hy)
        split at hn
        · next hb' =>
          subst hb'
          have := h.deep ho _ _ _ _ h1 hsb
          simp only [Option.some.injEq] at hn
          omega
        · exact h.deep ho _ _ _ _ h1 hn
    · have hnn := (Dict.get?_eq_none_iff _ _).2 hv
      cases hu with
      | root _ =>
        rw [if_neg (by rintro rfl; exact hv hb)] at hn
        exact h.deep ho v 0 v n (.root (by simp [par, hnn])) hn
      | step h1 _ =>
        have := (e2.par_mem h1).1
        rw [e3] at this
        exact absurd this hv

theorem union_ok {d : DSet N} {R} (h : FInv d R) {i j : N} (hi : i ∈ d.g.neighbors.keys) (hj : j ∈ d.g.neighbors.keys)
    {f : Nat} (hf : d.g.neighbors.keys.length ≤ f) :
    ∃ b d', d.union f i j = .ok (b, d') ∧ (b = true ↔ ¬ R i j) ∧ d'.g.neighbors.keys = d.g.neighbors.keys ∧
      d'.optimize = d.optimize ∧ FInv d' (merge R i j) := by
  obtain ⟨r0, d0, _, _, a1, a2, a3, a4, a5, a6, a7, a8, _⟩ := find_ok h hi hf
  obtain ⟨r1, d1, _, _, b1, b2, b3, b4, b5, b6, b7, b8, _, _, _, b9⟩ := find_ok a2 (a3 ▸ hj) (a3 ▸ hf)
  have hr0 : r0 ∈ d1.g.neighbors.keys := by rw [b3, a3]; exact a7
  have hr1 : r1 ∈ d1.g.neighbors.keys := by rw [b3]; exact b7
  have hp1 : par d1.g r1 = none := b8
  have hp0 : par d1.g r0 = none := b9 r0 a8
  have hiff : r0 = r1 ↔ R i j := by
    constructor
    · rintro rfl; exact h.eqv.trans a6 (h.eqv.symm b6)
    · intro hR
      exact b2.uniq r0 r1 hr0 hr1 hp0 hp1 (h.eqv.trans (h.eqv.symm a6) (h.eqv.trans hR b6))
  have hmerge : ∀ u v, merge R r0 r1 u v ↔ merge R i j u v := by
    intro u v
    have s := @h.eqv.symm
    have t := @h.eqv.trans
    unfold merge
    constructor
    · rintro (x | ⟨x, y⟩ | ⟨x, y⟩)
      · exact Or.inl x
      · exact Or.inr (Or.inl ⟨t x (s a6), t b6 y⟩)
      · exact Or.inr (Or.inr ⟨t x (s b6), t a6 y⟩)
    · rintro (x | ⟨x, y⟩ | ⟨x, y⟩)
      · exact Or.inl x
      · exact Or.inr (Or.inl ⟨t x a6, t (s b6) y⟩)
      · exact Or.inr (Or.inr ⟨t x b6, t (s a6) y⟩)
  have hmeq : merge R r0 r1 = merge R i j := by funext u v; exact propext (hmerge u v)
  unfold union
  rw [a1]; simp only []
  rw [b1]; simp only []
  by_cases he : r0 = r1
  · rw [if_pos he]
    have hR := hiff.1 he
    refine ⟨false, d1, rfl, by simp [hR], by rw [b3, a3], by rw [b5, a5], ?_⟩
    have : merge R i j = R := by
      funext u v
      refine propext ⟨?_, Or.inl⟩
      rintro (x | ⟨x, y⟩ | ⟨x, y⟩)
      · exact x
      · exact h.eqv.trans x (h.eqv.trans hR y)
      · exact h.eqv.trans x (h.eqv.trans (h.eqv.symm hR) y)
    rw [this]; exact b2
  · rw [if_neg he]
    have hR : ¬ R i j := fun hR => he (hiff.2 hR)
    rw [b2.size r0 hr0 hp0, b2.size r1 hr1 hp1]
    simp only []
    split
    · next hc =>
      obtain ⟨d', l1, l2, l3, l4, _⟩ := link_ok b2 hr0 hr1 hp0 hp1 he (by
        intro ho sa sb hsa hsb
        rw [b2.size r0 hr0 hp0] at hsa
        rw [b2.size r1 hr1 hp1] at hsb
        cases hsa; cases hsb
        rcases hc with hc | hc
        · exact hc
        · rw [ho] at hc; cases hc)
      exact ⟨true, d', l1, by simp [hR], by rw [l3, b3, a3], by rw [l4, b5, a5], hmeq ▸ l2⟩
    · next hc =>
      obtain ⟨d', l1, l2, l3, l4, _⟩ := link_ok b2 hr1 hr0 hp1 hp0 (Ne.symm he) (by
        intro ho sa sb hsa hsb
        rw [b2.size r1 hr1 hp1] at hsa
        rw [b2.size r0 hr0 hp0] at hsb
        cases hsa; cases hsb
        rw [not_or] at hc
        omega)
      refine ⟨true, d', l1, by simp [hR], by rw [l3, b3, a3], by rw [l4, b5, a5], ?_⟩
      have : merge R r1 r0 = merge R i j := by
        rw [← hmeq]; funext u v; exact propext (merge_symm_iff _ _ _ _)
      exact this ▸ l2

/-! ## add -/

theorem addEdges_ok {a0 : N} (l : List N) {g : Graph N} (h : FWf g) (ha : a0 ∈ g.neighbors.keys)
    (hl : ∀ x ∈ l, x ∉ g.neighbors.keys) (hnd : l.Nodup) :
    ∃ g', (addEdges a0 l).run g = .ok ⟨⟩ g' ∧ FWf g' ∧ g'.neighbors.keys = g.neighbors.keys ++ l ∧
      ∀ x, par g' x = if x ∈ l then some a0 else par g x := by
  induction l generalizing g with
  | nil => exact ⟨g, rfl, h, by simp, by simp⟩
  | cons a l ih =>
    have hak := hl a (by simp)
    have hnd' := List.nodup_cons.1 hnd
    have hnn := (Dict.get?_eq_none_iff _ _).2 hak
    have hdup : ¬ g.dup a a0 := by
      rw [dup_iff_directed h.dir, ← mem_nbrs_iff h.wf h.dir, hnn]; simp
    have hne : a ≠ a0 := by rintro rfl; exact hak ha
    have hn1 : ∀ x, (g.addEdgeS a a0 []).neighbors.get? x = if x = a then some [a0] else g.neighbors.get? x := by
      intro x; rw [addEdgeS_nbrs h.dir, hnn]; simp [ha]
    have hk1 := addEdgeS_keys_new g h.dir a a0 [] hak ha
    have h1 : FWf (g.addEdgeS a a0 []) := by
      refine ⟨wf_addEdgeS h.wf hdup [], by simp [h.dir], ?_⟩
      intro x y hx
      rw [hn1] at hx
      split at hx
      · simp at hx; simp [← hx]
      · exact h.short x y hx
    obtain ⟨g', e1, e2, e3, e4⟩ := ih h1 (by rw [hk1]; simp [ha]) (by
      intro x hx
      rw [hk1]
      have : x ≠ a := by rintro rfl; exact hnd'.1 hx
      simp [hl x (by simp [hx]), this]) hnd'.2
    refine ⟨g', ?_, e2, by rw [e3, hk1]; simp, ?_⟩
    · rw [addEdges, gm_bind, addEdge_run h.wf, if_neg hdup]; exact e1
    · intro x
      rw [e4]
      by_cases hx : x ∈ l
      · simp [hx]
      · by_cases hxa : x = a
        · subst hxa; simp [par, hn1]
        · simp [hx, hxa, par, hn1]

/-- the relation after adding the new items `l` as one set -/
def addRel (R : N → N → Prop) (l : List N) (u v : N) : Prop := R u v ∨ (u ∈ l ∧ v ∈ l)

theorem add_ok {d : DSet N} {R} (h : FInv d R) (l : List N) (hl0 : l ≠ []) (hnd : l.Nodup)
    (hl : ∀ x ∈ l, x ∉ d.g.neighbors.keys) :
    ∃ d', d.add l = .ok d' ∧ FInv d' (addRel R l) ∧ d'.g.neighbors.keys = d.g.neighbors.keys ++ l ∧
      d'.optimize = d.optimize := by
  classical
  cases l with
  | nil => exact absurd rfl hl0
  | cons a0 l =>
    have ha0 := hl a0 (by simp)
    have hnd' := List.nodup_cons.1 hnd
    have hc : d.g.neighbors.contains a0 = false := by
      cases hx : d.g.neighbors.contains a0
      · rfl
      · exact absurd ((Dict.contains_iff _ _).1 hx) ha0
    set g1 := d.g.addNodeS a0 [] with hg1
    have hn1 : ∀ x, g1.neighbors.get? x = if a0 = x then some [] else d.g.neighbors.get? x := by
      intro x; simp only [hg1, addNodeS, Dict.get?_set]
    have hk1 : g1.neighbors.keys = d.g.neighbors.keys ++ [a0] := by
      simp only [hg1, addNodeS]; rw [Dict.keys_set_of_not_mem _ ha0]
    have hpar1 : par g1 = par d.g := by
      funext x
      unfold par
      rw [hn1]
      by_cases hx : a0 = x
      · subst hx; simp [(Dict.get?_eq_none_iff _ _).2 ha0]
      · simp [hx]
    have h1 : FWf g1 := by
      refine ⟨wf_addNodeS h.fwf.wf ha0 [], h.fwf.dir, ?_⟩
      intro x y hx
      rw [hn1] at hx
      split at hx
      · simp at hx; simp [hx]
      · exact h.fwf.short x y hx
    obtain ⟨g', e1, e2, e3, e4⟩ := addEdges_ok (a0 := a0) l h1 (by rw [hk1]; simp) (by
      intro x hx
      rw [hk1]
      have : x ≠ a0 := by rintro rfl; exact hnd'.1 hx
      simp [hl x (by simp [hx]), this]) hnd'.2
    rw [hpar1] at e4
    have hkeys : g'.neighbors.keys = d.g.neighbors.keys ++ a0 :: l := by rw [e3, hk1]; simp
    have hmem : ∀ x, x ∈ g'.neighbors.keys ↔ x ∈ d.g.neighbors.keys ∨ x ∈ a0 :: l := by
      intro x; rw [hkeys, List.mem_append]
    -- old items are not related to new ones
    have hnew : ∀ u v, R u v → u ∈ a0 :: l → u = v := by
      intro u v hR hu
      rcases h.inV u v hR with h1 | h1
      · exact h1
      · exact absurd h1.1 (hl u hu)
    have hpnew : ∀ x ∈ a0 :: l, par d.g x = none := by
      intro x hx
      have := (Dict.get?_eq_none_iff _ _).2 (hl x hx)
      simp [par, this]
    have hpold : ∀ x ∈ d.g.neighbors.keys, par g' x = par d.g x := by
      intro x hx
      rw [e4, if_neg]
      intro h2; exact hl x (by simp [h2]) hx
    have hp0 : par g' a0 = none := by rw [e4, if_neg hnd'.1]; exact hpnew a0 (by simp)
    have hupold : ∀ x k y, x ∈ d.g.neighbors.keys → Up (par d.g) x k y → Up (par g') x k y := by
      intro x k y hx hu
      induction hu with
      | root h2 => exact .root (by rw [hpold _ hx]; exact h2)
      | step h2 _ ih => exact .step (by rw [hpold _ hx]; exact h2) (ih (h.fwf.par_mem h2).2)
    have hupnew : ∀ x ∈ l, Up (par g') x 1 a0 := fun x hx => .step (by rw [e4, if_pos hx]) (.root hp0)
    have hroots : ∀ r, par g' r = none → par d.g r = none ∧ r ∉ l := by
      intro r hr
      rw [e4] at hr
      split at hr
      · cases hr
      · next h2 => exact ⟨hr, h2⟩
    have hlnew : ∀ x ∈ a0 :: l, ∀ v, addRel R (a0 :: l) x v ↔ v ∈ a0 :: l := by
      intro x hx v
      constructor
      · rintro (h2 | h2)
        · exact hnew x v h2 hx ▸ hx
        · exact h2.2
      · exact fun h2 => Or.inr ⟨hx, h2⟩
    refine ⟨{ d with g := g', sizes := d.sizes.set a0 (l.length + 1) }, ?_, ⟨e2, ?_, ?_, ?_, ?_, ?_, ?_⟩, hkeys, rfl⟩
    · rw [add]
      simp only [gm_bind, addNode_run, hc]
      simp only [Bool.false_eq_true, if_false, ← hg1, e1]
    · refine ⟨fun x => Or.inl (h.eqv.refl x), ?_, ?_⟩
      · rintro x y (h2 | h2)
        · exact Or.inl (h.eqv.symm h2)
        · exact Or.inr h2.symm
      · rintro x y z (h2 | h2) (h3 | h3)
        · exact Or.inl (h.eqv.trans h2 h3)
        · have := hnew y x (h.eqv.symm h2) h3.1
          exact Or.inr ⟨this ▸ h3.1, h3.2⟩
        · have := hnew y z h3 h2.2
          exact Or.inr ⟨h2.1, this ▸ h2.2⟩
        · exact Or.inr ⟨h2.1, h3.2⟩
    · rintro u v (h2 | h2)
      · rcases h.inV u v h2 with h3 | h3
        · exact Or.inl h3
        · exact Or.inr ⟨(hmem u).2 (Or.inl h3.1), (hmem v).2 (Or.inl h3.2)⟩
      · exact Or.inr ⟨(hmem u).2 (Or.inr h2.1), (hmem v).2 (Or.inr h2.2)⟩
    · intro v hv
      rcases (hmem v).1 hv with h2 | h2
      · obtain ⟨k, r, h3, h4⟩ := h.root v h2
        exact ⟨k, r, hupold _ _ _ h2 h3, Or.inl h4⟩
      · rcases List.mem_cons.1 h2 with rfl | h3
        · exact ⟨0, v, .root hp0, Or.inl (h.eqv.refl v)⟩
        · exact ⟨1, a0, hupnew v h3, Or.inr ⟨h2, by simp⟩⟩
    · intro r s hr hs h2 h3 h4
      obtain ⟨r1, r2⟩ := hroots r h2
      obtain ⟨s1, s2⟩ := hroots s h3
      rcases h4 with h4 | h4
      · rcases h.inV r s h4 with h5 | h5
        · exact h5
        · exact h.uniq r s h5.1 h5.2 r1 s1 h4
      · have e5 : r = a0 := (List.mem_cons.1 h4.1).resolve_right r2
        have e6 : s = a0 := (List.mem_cons.1 h4.2).resolve_right s2
        rw [e5, e6]
    · intro r hr h2
      obtain ⟨r1, r2⟩ := hroots r h2
      show (d.sizes.set a0 (l.length + 1)).get? r = some ((g'.neighbors.keys.filter _).length)
      rw [hkeys, List.filter_append]
      by_cases hra : r = a0
      · subst hra
        rw [Dict.get?_set_self]
        have f1 : (d.g.neighbors.keys.filter fun v => decide (addRel R (r :: l) r v)) = [] := by
          rw [List.filter_eq_nil_iff]
          intro v hv
          simp only [decide_eq_true_eq]
          intro h3
          exact hl v ((hlnew r (by simp) v).1 h3) hv
        have f2 : ((r :: l).filter fun v => decide (addRel R (r :: l) r v)) = r :: l := by
          rw [List.filter_eq_self]
          intro v hv
          simp only [decide_eq_true_eq]
          exact (hlnew r (by simp) v).2 hv
        rw [f1, f2]; simp
      · have hrV : r ∈ d.g.neighbors.keys := by
          rcases (hmem r).1 hr with h3 | h3
          · exact h3
          · rcases List.mem_cons.1 h3 with h3 | h3
            · exact absurd h3 hra
            · exact absurd h3 r2
        rw [Dict.get?_set_ne _ _ (Ne.symm hra), h.size r hrV r1]
        have hrl : r ∉ a0 :: l := fun h3 => hl r h3 hrV
        have f1 : (d.g.neighbors.keys.filter fun v => decide (addRel R (a0 :: l) r v)) =
            d.g.neighbors.keys.filter fun v => decide (R r v) := by
          refine List.filter_congr fun v _ => ?_
          have : addRel R (a0 :: l) r v ↔ R r v := ⟨fun h3 => h3.resolve_right fun h4 => hrl h4.1, Or.inl⟩
          simp [this]
        have f2 : ((a0 :: l).filter fun v => decide (addRel R (a0 :: l) r v)) = [] := by
          rw [List.filter_eq_nil_iff]
          intro v hv
          simp only [decide_eq_true_eq]
          rintro (h3 | h3)
          · have := hnew v r (h.eqv.symm h3) hv
            exact hrl (this ▸ hv)
          · exact hrl h3.1
        rw [f1, f2]; simp
    · intro ho v k r n hu hn
      replace hu : Up (par g') v k r := hu
      replace hn : (d.sizes.set a0 (l.length + 1)).get? r = some n := hn
      rw [Dict.get?_set] at hn
      by_cases hv : v ∈ d.g.neighbors.keys
      · obtain ⟨k0, y, h2, _⟩ := h.root v hv
        obtain ⟨rfl, rfl⟩ := hu.func (hupold _ _ _ hv h2)
        have hry := h2.memV h.fwf hv
        rw [if_neg (by rintro rfl; exact ha0 hry)] at hn
        exact h.deep ho _ _ _ _ h2 hn
      · by_cases hvl : v ∈ l
        · obtain ⟨rfl, rfl⟩ := hu.func (hupnew v hvl)
          simp only [if_true, Option.some.injEq] at hn
          have := List.length_pos_of_mem hvl
          omega
        · have hnn := (Dict.get?_eq_none_iff _ _).2 hv
          have hpv : par g' v = none := by rw [e4, if_neg hvl]; simp [par, hnn]
          obtain ⟨rfl, rfl⟩ := hu.func (.root hpv)
          split at hn
          · simp only [Option.some.injEq] at hn; omega
          · exact h.deep ho r 0 r n (.root (by simp [par, hnn])) hn

theorem finv_init (o : Bool) : FInv (init o : DSet N) Eq := by
  refine ⟨⟨wf_init true, rfl, ?_⟩, ⟨fun _ => rfl, Eq.symm, Eq.trans⟩, fun u v h => Or.inl h, ?_, ?_, ?_, ?_⟩
  · intro v l h; simp [init, Graph.init] at h
  · intro v hv; simp [init, Graph.init] at hv
  · intro r s hr; simp [init, Graph.init] at hr
  · intro r hr; simp [init, Graph.init] at hr
  · intro _ v k r n _ hn; simp [init] at hn

end DSet
end GiMPy
