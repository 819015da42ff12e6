import Verif.Spec.DisjointSet
import Verif.Lemmas.DisjointSet

/-! # C23-C25: disjoint sets -/

namespace GiMPy
open DSet
variable {N : Type} [DecidableEq N]
set_option linter.unusedSectionVars false

theorem eqvGen_le {r s : N → N → Prop} (hs : Equivalence s) (h : ∀ u v, r u v → s u v) {u v : N}
    (huv : Relation.EqvGen r u v) : s u v := by
  induction huv with
  | rel _ _ h1 => exact h _ _ h1
  | refl _ => exact hs.refl _
  | symm _ _ _ ih => exact hs.symm ih
  | trans _ _ _ _ _ ih1 ih2 => exact hs.trans ih1 ih2

theorem eqvGen_mono {r s : N → N → Prop} (h : ∀ u v, r u v → s u v) {u v : N} (huv : Relation.EqvGen r u v) :
    Relation.EqvGen s u v :=
  eqvGen_le ⟨.refl, .symm _ _, .trans _ _ _⟩ (fun a b hab => .rel a b (h a b hab)) huv

theorem sameSet_equiv (ops : List (DOp N)) : Equivalence (SameSet ops) :=
  ⟨.refl, .symm _ _, .trans _ _ _⟩

/-- the state after a valid history carries the "same set" relation of the history -/
theorem run_ok (o : Bool) {fuel : Nat} (ops : List (DOp N)) (hv : ValidOps ops) (hf : (items ops).length ≤ fuel) :
    ∃ d, DSet.run o fuel ops = .ok d ∧ FInv d (SameSet ops) ∧ d.g.neighbors.keys = items ops ∧ d.optimize = o := by
  induction ops with
  | nil =>
    refine ⟨_, rfl, ?_, rfl, rfl⟩
    have : SameSet ([] : List (DOp N)) = Eq := by
      funext u v
      refine propext ⟨fun h => ?_, fun h => h ▸ .refl _⟩
      exact eqvGen_le ⟨fun _ => rfl, Eq.symm, Eq.trans⟩ (by rintro u v (⟨l, h, _⟩ | h) <;> cases h) h
    rw [this]; exact finv_init o
  | cons op ops ih =>
    cases op with
    | add l =>
      obtain ⟨hv1, hv2, hv3, hv4⟩ := hv
      obtain ⟨d, h1, h2, h3, h4⟩ := ih hv1 (by simp only [items, List.length_append] at hf; omega)
      obtain ⟨d', e1, e2, e3, e4⟩ := add_ok h2 l hv2 hv3 (by rw [h3]; exact hv4)
      refine ⟨d', by simp only [DSet.run, h1, DSet.step, e1], ?_, by rw [e3, h3]; rfl, e4.trans h4⟩
      have : addRel (SameSet ops) l = SameSet (.add l :: ops) := by
        funext u v
        refine propext ⟨?_, fun h => ?_⟩
        · rintro (h | h)
          · refine eqvGen_mono ?_ h
            rintro a b (⟨l', h5, h6⟩ | h5)
            · exact Or.inl ⟨l', by simp [h5], h6⟩
            · exact Or.inr (by simp [h5])
          · exact .rel _ _ (Or.inl ⟨l, by simp, h⟩)
        · refine eqvGen_le e2.eqv ?_ h
          rintro a b (⟨l', h5, h6⟩ | h5)
          · rcases List.mem_cons.1 h5 with h5 | h5
            · cases h5; exact Or.inr h6
            · exact Or.inl (.rel _ _ (Or.inl ⟨l', h5, h6⟩))
          · rcases List.mem_cons.1 h5 with h5 | h5
            · cases h5
            · exact Or.inl (.rel _ _ (Or.inr h5))
      exact this ▸ e2
    | union i j =>
      obtain ⟨hv1, hi, hj⟩ := hv
      obtain ⟨d, h1, h2, h3, h4⟩ := ih hv1 hf
      obtain ⟨b, d', e1, _, e3, e4, e5⟩ := union_ok h2 (h3 ▸ hi) (h3 ▸ hj) (f := fuel) (h3 ▸ hf)
      refine ⟨d', by simp only [DSet.run, h1, DSet.step, e1]; rfl, ?_, e3.trans h3, e4.trans h4⟩
      have : merge (SameSet ops) i j = SameSet (.union i j :: ops) := by
        have hsub : ∀ a b, SameSet ops a b → SameSet (.union i j :: ops) a b := by
          intro a b h
          refine eqvGen_mono ?_ h
          rintro a b (⟨l', h5, h6⟩ | h5)
          · exact Or.inl ⟨l', by simp [h5], h6⟩
          · exact Or.inr (by simp [h5])
        have hij : SameSet (.union i j :: ops) i j := .rel _ _ (Or.inr (by simp))
        funext u v
        refine propext ⟨?_, fun h => ?_⟩
        · rintro (h | ⟨h, h'⟩ | ⟨h, h'⟩)
          · exact hsub _ _ h
          · exact (hsub _ _ h).trans _ _ _ (hij.trans _ _ _ (hsub _ _ h'))
          · exact (hsub _ _ h).trans _ _ _ ((hij.symm _ _).trans _ _ _ (hsub _ _ h'))
        · refine eqvGen_le e5.eqv ?_ h
          rintro a b (⟨l', h5, h6⟩ | h5)
          · rcases List.mem_cons.1 h5 with h5 | h5
            · cases h5
            · exact Or.inl (.rel _ _ (Or.inl ⟨l', h5, h6⟩))
          · rcases List.mem_cons.1 h5 with h5 | h5
            · cases h5; exact Or.inr (Or.inl ⟨.refl _, .refl _⟩)
            · exact Or.inl (.rel _ _ (Or.inr h5))
      exact this ▸ e5
    | find i =>
      obtain ⟨hv1, hi⟩ := hv
      obtain ⟨d, h1, h2, h3, h4⟩ := ih hv1 hf
      obtain ⟨r, d', _, _, e1, e2, e3, _, e4, _⟩ := find_ok h2 (h3 ▸ hi) (f := fuel) (h3 ▸ hf)
      refine ⟨d', by simp only [DSet.run, h1, DSet.step, e1]; rfl, ?_, e3.trans h3, e4.trans h4⟩
      have : SameSet ops = SameSet (.find i :: ops) := by
        unfold SameSet
        congr 1
        funext u v
        unfold Told
        simp
      exact this ▸ e2

/-- **C23.** After any valid history of add, union and find, with or without path compression, two finds in a row
return the same root iff the items are in the same set. -/
theorem C23_find_same (o : Bool) {fuel : Nat} (ops : List (DOp N)) (hv : ValidOps ops)
    (hf : (items ops).length ≤ fuel) {i j : N} (hi : i ∈ items ops) (hj : j ∈ items ops) :
    ∃ d d1 d2 ri rj, DSet.run o fuel ops = .ok d ∧ d.find fuel i = .ok (ri, d1) ∧ d1.find fuel j = .ok (rj, d2) ∧
      (ri = rj ↔ SameSet ops i j) ∧ SameSet ops i ri ∧ SameSet ops j rj := by
  obtain ⟨d, h1, h2, h3, h4⟩ := run_ok o ops hv hf
  obtain ⟨r0, d0, _, _, a1, a2, a3, _, _, a6, a7, a8, _⟩ := find_ok h2 (h3 ▸ hi) (f := fuel) (h3 ▸ hf)
  obtain ⟨r1, d1, _, _, b1, b2, b3, _, _, b6, b7, b8, _, _, _, b9⟩ := find_ok a2 (i := j) (by rw [a3, h3]; exact hj)
    (f := fuel) (by rw [a3, h3]; exact hf)
  have e := sameSet_equiv ops
  refine ⟨d, d0, d1, r0, r1, h1, a1, b1, ⟨?_, ?_⟩, a6, b6⟩
  · rintro rfl; exact e.trans a6 (e.symm b6)
  · intro hR
    exact b2.uniq r0 r1 (by rw [b3, a3]; exact a7) (by rw [b3]; exact b7) (b9 r0 a8) b8
      (e.trans (e.symm a6) (e.trans hR b6))

open Classical in
/-- **C24.** After any valid history: `union(i,j)` returns True iff `i` and `j` were in different sets, and the
recorded size of every root is the number of items in its set. -/
theorem C24_union_sizes (o : Bool) {fuel : Nat} (ops : List (DOp N)) (hv : ValidOps ops)
    (hf : (items ops).length ≤ fuel) :
    ∃ d, DSet.run o fuel ops = .ok d ∧
      (∀ i ∈ items ops, ∀ j ∈ items ops, ∃ b d', d.union fuel i j = .ok (b, d') ∧ (b = true ↔ ¬ SameSet ops i j)) ∧
      (∀ i ∈ items ops, ∃ r d', d.find fuel i = .ok (r, d') ∧
        d.sizes.get? r = some ((items ops).filter fun v => decide (SameSet ops i v)).length) := by
  obtain ⟨d, h1, h2, h3, h4⟩ := run_ok o ops hv hf
  refine ⟨d, h1, ?_, ?_⟩
  · intro i hi j hj
    obtain ⟨b, d', e1, e2, _⟩ := union_ok h2 (h3 ▸ hi) (h3 ▸ hj) (f := fuel) (h3 ▸ hf)
    exact ⟨b, d', e1, e2⟩
  · intro i hi
    obtain ⟨r, d', _, _, e1, _, _, _, _, e5, e6, _, _, _, e7, _⟩ := find_ok h2 (h3 ▸ hi) (f := fuel) (h3 ▸ hf)
    refine ⟨r, d', e1, ?_⟩
    rw [h2.size r e6 e7.top, h3]
    congr 2
    refine List.filter_congr fun v _ => ?_
    have e := sameSet_equiv ops
    have : SameSet ops r v ↔ SameSet ops i v := ⟨fun h => e.trans e5 h, fun h => e.trans (e.symm e5) h⟩
    simp [this]

open Classical in
/-- **C25.** With `optimize=True`, a `find(i)` after any valid history walks `k` links where `2^k` is at most the number
of items in the set of `i`. -/
theorem C25_log_depth {fuel : Nat} (ops : List (DOp N)) (hv : ValidOps ops) (hf : (items ops).length ≤ fuel) {i : N}
    (hi : i ∈ items ops) :
    ∃ d r links, DSet.run true fuel ops = .ok d ∧ climb d.g fuel i [] = .ok (r, links) ∧
      2 ^ links.length ≤ ((items ops).filter fun v => decide (SameSet ops i v)).length := by
  obtain ⟨d, h1, h2, h3, h4⟩ := run_ok true ops hv hf
  obtain ⟨r, d', E, k, _, _, _, _, _, e5, e6, _, e8, rfl, e7, _⟩ := find_ok h2 (h3 ▸ hi) (f := fuel) (h3 ▸ hf)
  refine ⟨d, r, E, h1, e8, ?_⟩
  have := h2.deep h4 i _ r _ e7 (h2.size r e6 e7.top)
  rw [h3] at this
  have e := sameSet_equiv ops
  have hc : ((items ops).filter fun v => decide (SameSet ops r v)) =
      (items ops).filter fun v => decide (SameSet ops i v) := by
    refine List.filter_congr fun v _ => ?_
    have : SameSet ops r v ↔ SameSet ops i v := ⟨fun h => e.trans e5 h, fun h => e.trans (e.symm e5) h⟩
    simp [this]
  rw [← hc]; exact this

/-- a history with several sets, unions of big with small and small with big, and compression -/
def exOps : List (DOp Nat) := [.find 1, .union 5 4, .union 1 7, .add [7], .union 0 4, .union 2 0, .add [4, 5],
  .add [0, 1], .add [2, 3]]

/-- roots found for a list of items, one `find` after another -/
def findAll (d : DSet Nat) (fuel : Nat) : List Nat → List Nat
  | [] => []
  | i :: l => match d.find fuel i with
    | .ok (r, d) => r :: findAll d fuel l
    | .error _ => []

/-- non-vacuity of C23-C25 -/
example : ValidOps exOps ∧ (items exOps).length ≤ 9 := by
  refine ⟨?_, by decide⟩
  simp only [exOps, ValidOps, items]
  decide
example : ((DSet.run true 9 exOps).toOption.map fun d => (findAll d 9 [0, 1, 2, 3, 4, 5, 7], d.sizes.get? 0)) =
      some ([0, 0, 0, 0, 0, 0, 0], some 7) ∧
    ((DSet.run false 9 (exOps.drop 4)).toOption.map fun d => findAll d 9 [0, 1, 2, 3, 4, 5]) =
      some [4, 4, 4, 4, 4, 4] := by decide +kernel

end GiMPy
