import Verif.Props.Simplex

/-! # C65, C66: the rules for the entering arc -/

namespace GiMPy
open MinCost MaxFlow Simplex
variable {N : Type} [DecidableEq N] {g t : Graph N} {cap cost f : N × N → Int}
set_option linter.unusedSectionVars false

/-- the reduced cost of the arc for the potentials `p` -/
def reducedCost (cost : N × N → Int) (p : N → Int) (e : N × N) : Int := cost e - p e.1 + p e.2

/-- the arc may enter: it lies outside the tree `T`, and more flow on it would be cheaper if it is empty, less flow if it is
full -/
def Eligible (T : List (N × N)) (cap cost f : N × N → Int) (p : N → Int) (e : N × N) : Prop :=
  e ∉ T ∧ ((f e = 0 ∧ reducedCost cost p e < 0) ∨ (f e ≠ 0 ∧ f e = cap e ∧ reducedCost cost p e > 0))

theorem viol_some {p : N → Int} {e : N × N} {x : Int} (h : viol cap cost f p e = some x) : x = reducedCost cost p e ∧
    ((f e = 0 ∧ reducedCost cost p e < 0) ∨ (f e ≠ 0 ∧ f e = cap e ∧ reducedCost cost p e > 0)) := by
  unfold viol redc at h
  unfold reducedCost
  split at h
  · next h0 =>
    split at h
    · next h1 => cases h; exact ⟨rfl, .inl ⟨h0, h1⟩⟩
    · cases h
  · next h0 =>
    split at h
    · next h1 =>
      split at h
      · next h2 => cases h; exact ⟨rfl, .inr ⟨h0, h1, h2⟩⟩
      · cases h
    · cases h

theorem viol_none {p : N → Int} {e : N × N} (h : viol cap cost f p e = none) :
    ¬ ((f e = 0 ∧ reducedCost cost p e < 0) ∨ (f e ≠ 0 ∧ f e = cap e ∧ reducedCost cost p e > 0)) := by
  unfold viol redc at h
  unfold reducedCost
  split at h
  · next h0 =>
    split at h
    · cases h
    · next h1 => rintro (⟨_, h2⟩ | ⟨h2, _⟩); exacts [h1 h2, h2 h0]
  · next h0 =>
    split at h
    · next h1 =>
      split at h
      · cases h
      · next h2 => rintro (⟨h3, _⟩ | ⟨_, _, h3⟩); exacts [h0 h3, h2 h3]
    · next h1 => rintro (⟨h3, _⟩ | ⟨_, h3, _⟩); exacts [h0 h3, h1 h3]

/-- splitting the list of violations splits the list of arcs -/
theorem violL_split {p : N → Int} {l : List (N × N)} {a b : List ((N × N) × Int)} {x : (N × N) × Int}
    (h : violL t cap cost f p l = a ++ x :: b) : ∃ l₁ l₂, l = l₁ ++ x.1 :: l₂ ∧ Eligible t.getEdgeList cap cost f p x.1 ∧
      x.2 = reducedCost cost p x.1 ∧
      (∀ d ∈ l₁, Eligible t.getEdgeList cap cost f p d → (d, reducedCost cost p d) ∈ a) ∧
      ∀ d ∈ l₂, Eligible t.getEdgeList cap cost f p d → (d, reducedCost cost p d) ∈ b := by
  have hall : ∀ (l : List (N × N)) (d : N × N), d ∈ l → Eligible t.getEdgeList cap cost f p d →
      (d, reducedCost cost p d) ∈ violL t cap cost f p l := by
    intro l
    induction l with
    | nil => intro d hd; cases hd
    | cons e l ih =>
      intro d hd hel
      unfold violL
      rcases List.mem_cons.1 hd with rfl | hd
      · rw [if_neg hel.1]
        cases hv : viol cap cost f p d with
        | none => exact absurd hel.2 (viol_none hv)
        | some y => rw [(viol_some hv).1]; simp
      · split
        · exact ih d hd hel
        · split
          · exact List.mem_cons_of_mem _ (ih d hd hel)
          · exact ih d hd hel
  induction l generalizing a with
  | nil => unfold violL at h; simp at h
  | cons e l ih =>
    unfold violL at h
    split at h
    · next he =>
      obtain ⟨l₁, l₂, h1, h2, h3, h4, h5⟩ := ih h
      refine ⟨e :: l₁, l₂, by rw [h1]; rfl, h2, h3, ?_, h5⟩
      intro d hd hel
      rcases List.mem_cons.1 hd with rfl | hd
      · exact absurd he hel.1
      · exact h4 d hd hel
    · next he =>
      split at h
      · next y hy =>
        cases a with
        | nil =>
          obtain ⟨h1, h2⟩ := List.cons_eq_cons.1 h
          subst h1
          refine ⟨[], l, rfl, ⟨he, (viol_some hy).2⟩, (viol_some hy).1, by simp, ?_⟩
          intro d hd hel
          rw [← h2]
          exact hall l d hd hel
        | cons z a =>
          obtain ⟨h1, h2⟩ := List.cons_eq_cons.1 h
          obtain ⟨l₁, l₂, h1', h2', h3, h4, h5⟩ := ih h2
          refine ⟨e :: l₁, l₂, by rw [h1']; rfl, h2', h3, ?_, h5⟩
          intro d hd hel
          rcases List.mem_cons.1 hd with rfl | hd
          · rw [← h1, (viol_some hy).1]; simp
          · exact List.mem_cons_of_mem _ (h4 d hd hel)
      · next hy =>
        obtain ⟨l₁, l₂, h1, h2, h3, h4, h5⟩ := ih h
        refine ⟨e :: l₁, l₂, by rw [h1]; rfl, h2, h3, ?_, h5⟩
        intro d hd hel
        rcases List.mem_cons.1 hd with rfl | hd
        · exact absurd hel.2 (viol_none hy)
        · exact h4 d hd hel

/-- the first pair of greatest absolute value -/
theorem greatest_spec : ∀ (l : List ((N × N) × Int)) (b : (N × N) × Int), ∃ l₁ x l₂, b :: l = l₁ ++ x :: l₂ ∧
    greatest l b = x.1 ∧ (∀ y ∈ l₁, y.2.natAbs < x.2.natAbs) ∧ ∀ y ∈ l₂, y.2.natAbs ≤ x.2.natAbs
  | [], b => ⟨[], b, [], rfl, rfl, by simp, by simp⟩
  | y :: l, b => by
    unfold greatest
    split
    · next hlt =>
      obtain ⟨l₁, x, l₂, h1, h2, h3, h4⟩ := greatest_spec l y
      refine ⟨b :: l₁, x, l₂, by rw [h1]; rfl, h2, ?_, h4⟩
      intro z hz
      rcases List.mem_cons.1 hz with rfl | hz
      · have : y.2.natAbs ≤ x.2.natAbs := by
          have : y ∈ l₁ ++ x :: l₂ := by rw [← h1]; simp
          rcases List.mem_append.1 this with h | h
          · exact Nat.le_of_lt (h3 y h)
          · rcases List.mem_cons.1 h with rfl | h
            · exact Nat.le_refl _
            · exact h4 y h
        omega
      · exact h3 z hz
    · next hge =>
      obtain ⟨l₁, x, l₂, h1, h2, h3, h4⟩ := greatest_spec l b
      cases l₁ with
      | nil =>
        obtain ⟨h5, h6⟩ := List.cons_eq_cons.1 h1
        subst h5
        refine ⟨[], b, y :: l, rfl, h2, by simp, ?_⟩
        intro z hz
        rcases List.mem_cons.1 hz with rfl | hz
        · omega
        · exact h4 z (by rw [← h6]; exact hz)
      | cons c l₁ =>
        obtain ⟨h5, h6⟩ := List.cons_eq_cons.1 h1
        subst h5
        refine ⟨b :: y :: l₁, x, l₂, by rw [h6]; rfl, h2, ?_, h4⟩
        intro z hz
        rcases List.mem_cons.1 hz with rfl | hz
        · exact h3 z (by simp)
        · rcases List.mem_cons.1 hz with rfl | hz
          · have := h3 b (by simp)
            omega
          · exact h3 z (by simp [hz])

theorem violL_nil_iff {p : N → Int} : violL t cap cost f p g.getEdgeList = [] ↔
    ∀ e ∈ g.getEdgeList, ¬ Eligible t.getEdgeList cap cost f p e := by
  constructor
  · intro h e he hel
    exact viol_none (violL_nil h e he hel.1) hel.2
  · intro h
    cases hv : violL t cap cost f p g.getEdgeList with
    | nil => rfl
    | cons x l =>
      have hx : (x.1, x.2) ∈ violL t cap cost f p g.getEdgeList := by rw [hv]; simp
      obtain ⟨h1, h2, h3⟩ := mem_violL hx
      exact absurd ⟨h2, (viol_some h3).2⟩ (h x.1 h1)

/-- **C65.** On a digraph with integer costs and capacities whose nodes have potentials `p`,
`simplex_select_entering_arc(t, 'dantzig')` returns, if any arc is eligible, the first arc in the order of insertion among
the eligible ones of greatest absolute reduced cost; otherwise it raises UnboundLocalError.  `simplex_optimal` says True iff
no arc is eligible. -/
theorem C65_dantzig (hn : Netw g cap cost) {pi : N → Option Int} {p : N → Int} (hp : ∀ v ∈ g.getNodeList, pi v = some (p v)) :
    ((∃ e ∈ g.getEdgeList, Eligible t.getEdgeList cap cost f p e) → ∃ e l₁ l₂, g.getEdgeList = l₁ ++ e :: l₂ ∧
      entering g t f pi .dantzig = .ok e ∧ Eligible t.getEdgeList cap cost f p e ∧
      (∀ d ∈ l₁, Eligible t.getEdgeList cap cost f p d → |reducedCost cost p d| < |reducedCost cost p e|) ∧
      (∀ d ∈ l₂, Eligible t.getEdgeList cap cost f p d → |reducedCost cost p d| ≤ |reducedCost cost p e|)) ∧
    ((∀ e ∈ g.getEdgeList, ¬ Eligible t.getEdgeList cap cost f p e) → entering g t f pi .dantzig = .error .unboundLocal) ∧
    (optimal g t f pi g.getEdgeList = .ok true ↔ ∀ e ∈ g.getEdgeList, ¬ Eligible t.getEdgeList cap cost f p e) := by
  replace hp : ∀ e ∈ g.getEdgeList, pi e.1 = some (p e.1) ∧ pi e.2 = some (p e.2) :=
    fun e he => ⟨hp _ (hn.ends he).1, hp _ (hn.ends he).2⟩
  have hv := violating_ok (t := t) (f := f) hn hp g.getEdgeList fun e he => he
  refine ⟨?_, ?_, ?_⟩
  · rintro ⟨e, he, hel⟩
    cases hl : violL t cap cost f p g.getEdgeList with
    | nil => exact absurd hel (violL_nil_iff.1 hl e he)
    | cons x l =>
      obtain ⟨a, y, b, h1, h2, h3, h4⟩ := greatest_spec l x
      have h5 : entering g t f pi .dantzig = .ok (greatest (x :: l) x) := by
        unfold entering
        simp only []
        rw [hv, hl]
      have h6 : greatest (x :: l) x = greatest l x := by
        rw [greatest, if_neg (Nat.lt_irrefl _)]
      rw [h1] at hl
      obtain ⟨l₁, l₂, k1, k2, k3, k4, k5⟩ := violL_split hl
      refine ⟨y.1, l₁, l₂, k1, by rw [h5, h6, h2], k2, ?_, ?_⟩
      · intro d hd hde
        have := h3 _ (k4 d hd hde)
        simp only [k3] at this
        rw [Int.abs_eq_natAbs, Int.abs_eq_natAbs]
        exact Int.ofNat_lt.2 this
      · intro d hd hde
        have := h4 _ (k5 d hd hde)
        simp only [k3] at this
        rw [Int.abs_eq_natAbs, Int.abs_eq_natAbs]
        exact Int.ofNat_le.2 this
  · intro h
    unfold entering
    simp only []
    rw [hv, violL_nil_iff.2 h]
  · rw [optimal_ok hn hp _ fun e he => he, ← violL_nil_iff (g := g)]
    cases violL t cap cost f p g.getEdgeList <;> simp

/-- **C66, what holds.** The rule 'first_eligible' returns the *last* eligible arc in the order of insertion (the loop has no
`break`); if there is none it raises UnboundLocalError. -/
theorem C66_first_eligible_partial (hn : Netw g cap cost) {pi : N → Option Int} {p : N → Int}
    (hp : ∀ v ∈ g.getNodeList, pi v = some (p v)) :
    ((∃ e ∈ g.getEdgeList, Eligible t.getEdgeList cap cost f p e) → ∃ e l₁ l₂, g.getEdgeList = l₁ ++ e :: l₂ ∧
      entering g t f pi .firstEligible = .ok e ∧ Eligible t.getEdgeList cap cost f p e ∧
      ∀ d ∈ l₂, ¬ Eligible t.getEdgeList cap cost f p d) ∧
    ((∀ e ∈ g.getEdgeList, ¬ Eligible t.getEdgeList cap cost f p e) →
      entering g t f pi .firstEligible = .error .unboundLocal) := by
  replace hp : ∀ e ∈ g.getEdgeList, pi e.1 = some (p e.1) ∧ pi e.2 = some (p e.2) :=
    fun e he => ⟨hp _ (hn.ends he).1, hp _ (hn.ends he).2⟩
  have hv := violating_ok (t := t) (f := f) hn hp g.getEdgeList fun e he => he
  refine ⟨?_, ?_⟩
  · rintro ⟨e, he, hel⟩
    cases hl : violL t cap cost f p g.getEdgeList with
    | nil => exact absurd hel (violL_nil_iff.1 hl e he)
    | cons x l =>
      have hne : x :: l ≠ [] := by simp
      have hs : violL t cap cost f p g.getEdgeList = (x :: l).dropLast ++ (x :: l).getLast hne :: [] := by
        rw [List.dropLast_append_getLast, hl]
      obtain ⟨l₁, l₂, k1, k2, _, _, k5⟩ := violL_split hs
      refine ⟨((x :: l).getLast hne).1, l₁, l₂, k1, ?_, k2, fun d hd hde => by cases k5 d hd hde⟩
      unfold entering
      simp only []
      rw [hv, hl]
      simp only []
      rw [List.getLast?_eq_some_getLast hne]
  · intro h
    unfold entering
    simp only []
    rw [hv, violL_nil_iff.2 h]
    rfl

/-- a triangle with two cheap arcs outside the tree -/
def ruleNet : Graph Nat := costNet 4 (fun _ => 0) [(0, 1, 0, 1), (0, 2, 0, 1), (0, 3, 0, 1), (1, 2, -1, 1), (1, 3, -3, 1), (2, 3, -2, 1)]

/-- the star at node 0 -/
def ruleTree : Graph Nat := costNet 4 (fun _ => 0) [(0, 1, 0, 1), (0, 2, 0, 1), (0, 3, 0, 1)]

theorem ruleNet_netw : Netw ruleNet (netCap ruleNet) (netCost ruleNet) := by
  have h : ∀ e ∈ ruleNet.getEdgeList, ruleNet.capOf e.1 e.2 = .ok (netCap ruleNet e) ∧ 0 ≤ netCap ruleNet e ∧
      ruleNet.getEdgeCost e.1 e.2 = .ok (netCost ruleNet e) ∧ (e.2, e.1) ∉ ruleNet.getEdgeList := by decide +kernel
  refine ⟨costNet_built _ _ _, by decide +kernel, fun u v he => (h _ he).2.2.2,
    fun u v he => (h _ he).1, fun u v he => (h _ he).2.2.1⟩

theorem ruleTree_tree : IsTreeOf ruleNet ruleTree := by
  have hV : ruleNet.getNodeList = [0, 1, 2, 3] := by decide +kernel
  have hT : ruleTree.getEdgeList = [(0, 1), (0, 2), (0, 3)] := by decide +kernel
  have h0 : ∀ v ∈ ruleNet.getNodeList, EConn ruleTree.getEdgeList 0 v := by
    rw [hV, hT]
    intro v hv
    simp only [List.mem_cons, List.not_mem_nil, or_false] at hv
    rcases hv with rfl | rfl | rfl | rfl
    · exact .refl
    all_goals exact .single (.inl (by simp))
  refine ⟨costNet_built _ _ _, by decide +kernel, by decide +kernel, by decide +kernel, ?_, by decide +kernel⟩
  intro u hu v hv
  exact (EConn.symm (h0 u hu)).trans (h0 v hv)

/-- non-vacuity of C65: with all potentials 0 and no flow three arcs are eligible -/
example : entering ruleNet ruleTree (fun _ => 0) (fun _ => some 0) .dantzig = .ok (1, 3) := by decide +kernel

/-- **C66 is false**: the arc returned by 'first_eligible' need not be the first eligible one. -/
theorem C66_false : ∃ (g t : Graph Nat) (cap cost f : Nat × Nat → Int) (pi : Nat → Option Int) (p : Nat → Int) (e d : Nat × Nat)
    (l₁ l₂ : List (Nat × Nat)), Netw g cap cost ∧ IsTreeOf g t ∧ TreeSolution g.getEdgeList cap t.getEdgeList f ∧
      (∀ v ∈ g.getNodeList, pi v = some (p v)) ∧ g.getEdgeList = l₁ ++ e :: l₂ ∧ d ∈ l₁ ∧
      Eligible t.getEdgeList cap cost f p d ∧ entering g t f pi .firstEligible = .ok e := by
  refine ⟨ruleNet, ruleTree, netCap ruleNet, netCost ruleNet, fun _ => 0, fun _ => some 0, fun _ => 0, (2, 3), (1, 2),
    [(0, 1), (0, 2), (0, 3), (1, 2), (1, 3)], [], ruleNet_netw, ruleTree_tree, fun _ _ _ => .inl rfl, fun _ _ => rfl,
    by decide +kernel, by decide, ?_, by decide +kernel⟩
  unfold Eligible
  decide +kernel

end GiMPy
