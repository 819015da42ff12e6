import Verif.Props.BranchBound
import Mathlib.Data.Rat.Floor

/-! # On which variable examples/BB.py branches -/

namespace GiMPy
namespace BB

/-- `d` is the distance from `q` to the nearest integer -/
def IsDist (q d : ℚ) : Prop := (∃ z : ℤ, d = |q - z|) ∧ ∀ z : ℤ, d ≤ |q - z|

theorem IsDist.unique {q d e : ℚ} (h : IsDist q d) (h' : IsDist q e) : d = e := by
  obtain ⟨⟨z, hz⟩, h1⟩ := h
  obtain ⟨⟨w, hw⟩, h2⟩ := h'
  apply le_antisymm
  · rw [hw]; exact h1 w
  · rw [hz]; exact h2 z

theorem rat_ceil (q : ℚ) : q.ceil = ⌈q⌉ := by
  rw [Rat.ceil_eq_neg_floor_neg]
  rfl

theorem frac_dist (q : ℚ) : IsDist q (frac q) := by
  have e1 : q.floor = ⌊q⌋ := rfl
  have e2 : q.ceil = ⌈q⌉ := rat_ceil q
  have f1 : (⌊q⌋ : ℚ) ≤ q := Int.floor_le q
  have f2 : q ≤ (⌈q⌉ : ℚ) := Int.le_ceil q
  unfold frac
  rw [e1, e2]
  constructor
  · rcases le_total (q - ⌊q⌋) (⌈q⌉ - q) with h | h
    · exact ⟨⌊q⌋, by rw [min_eq_left h, abs_of_nonneg (by linarith)]⟩
    · exact ⟨⌈q⌉, by rw [min_eq_right h, abs_of_nonpos (by linarith)]; ring⟩
  · intro z
    rcases le_total (z : ℚ) q with h | h
    · have : (z : ℚ) ≤ ⌊q⌋ := by exact_mod_cast Int.le_floor.2 h
      rw [abs_of_nonneg (by linarith)]
      exact (min_le_left _ _).trans (by linarith)
    · have : (⌈q⌉ : ℚ) ≤ z := by exact_mod_cast Int.ceil_le.2 h
      rw [abs_of_nonpos (by linarith)]
      exact (min_le_right _ _).trans (by linarith)

theorem isDist_zero {q : ℚ} : IsDist q 0 ↔ ∃ z : ℤ, q = z := by
  constructor
  · rintro ⟨⟨z, hz⟩, _⟩
    exact ⟨z, by have := abs_eq_zero.1 hz.symm; linarith⟩
  · rintro ⟨z, rfl⟩
    exact ⟨⟨z, by simp⟩, fun w => abs_nonneg _⟩

theorem frac_nonneg (q : ℚ) : 0 ≤ frac q := by
  obtain ⟨z, hz⟩ := (frac_dist q).1
  rw [hz]; exact abs_nonneg _

theorem frac_pos_iff (q : ℚ) : 0 < frac q ↔ ∀ z : ℤ, q ≠ z := by
  constructor
  · intro h z hz
    have := (frac_dist q).unique (isDist_zero.2 ⟨z, hz⟩)
    rw [this] at h; exact lt_irrefl _ h
  · intro h
    refine lt_of_le_of_ne (frac_nonneg q) fun he => ?_
    have h1 := frac_dist q
    rw [← he] at h1
    obtain ⟨z, hz⟩ := isDist_zero.1 h1
    exact h z hz

/-- the loop keeps the first of the best -/
theorem mostFrac_first (x : String → ℚ) (l : List String) (m : ℚ) (b : Option String) :
    (mostFrac x l m b = b ∧ ∀ i ∈ l, frac (x i) ≤ m) ∨
      ∃ l1 v l2, l = l1 ++ v :: l2 ∧ mostFrac x l m b = some v ∧ m < frac (x v) ∧ (∀ i ∈ l1, frac (x i) < frac (x v)) ∧
        ∀ i ∈ l2, frac (x i) ≤ frac (x v) := by
  induction l generalizing m b with
  | nil => exact .inl ⟨rfl, by simp⟩
  | cons i l ih =>
    simp only [mostFrac]
    by_cases h : frac (x i) > m
    · rw [if_pos h]
      rcases ih (frac (x i)) (some i) with ⟨h1, h2⟩ | ⟨l1, v, l2, rfl, h2, h3, h4, h5⟩
      · exact .inr ⟨[], i, l, rfl, h1, h, by simp, h2⟩
      · refine .inr ⟨i :: l1, v, l2, rfl, h2, lt_trans h h3, ?_, h5⟩
        intro j hj
        rcases List.mem_cons.1 hj with rfl | hj
        · exact h3
        · exact h4 j hj
    · rw [if_neg h]
      rcases ih m b with ⟨h1, h2⟩ | ⟨l1, v, l2, rfl, h2, h3, h4, h5⟩
      · refine .inl ⟨h1, ?_⟩
        intro j hj
        rcases List.mem_cons.1 hj with rfl | hj
        · exact not_lt.1 h
        · exact h2 j hj
      · refine .inr ⟨i :: l1, v, l2, rfl, h2, h3, ?_, h5⟩
        intro j hj
        rcases List.mem_cons.1 hj with rfl | hj
        · exact lt_of_le_of_lt (not_lt.1 h) h3
        · exact h4 j hj

/-- The choice that the configuration asks for: with FIXED the first variable whose value is not an integer, with MOST_FRAC the
first of those whose value is farthest from the integers. -/
def Chosen (b : Branching) (vars : List String) (x : String → ℚ) (v : String) : Prop :=
  (∀ z : ℤ, x v ≠ z) ∧ ∃ l1 l2, vars = l1 ++ v :: l2 ∧ match b with
    | .fixed => ∀ i ∈ l1, ∃ z : ℤ, x i = z
    | .mostFrac => ∀ i d e, IsDist (x i) d → IsDist (x v) e → (i ∈ l1 → d < e) ∧ (i ∈ l2 → d ≤ e)

theorem branchVar_chosen {D : Data} {C : Cfg} {x : String → ℚ} (hx : ∃ i ∈ D.vars, ∀ z : ℤ, x i ≠ z) :
    ∃ v, branchVar D C x = some v ∧ Chosen C.branching D.vars x v := by
  obtain ⟨i, hi, hz⟩ := hx
  have hp := (frac_pos_iff _).2 hz
  unfold branchVar Chosen
  cases C.branching with
  | fixed =>
    simp only []
    cases hf : D.vars.find? fun i => decide (frac (x i) > 0) with
    | none =>
      rw [List.find?_eq_none] at hf
      exact absurd hp (by simpa using hf i hi)
    | some v =>
      obtain ⟨h1, l1, l2, h2, h3⟩ := List.find?_eq_some_iff_append.1 hf
      refine ⟨v, rfl, (frac_pos_iff _).1 (by simpa using h1), l1, l2, h2, ?_⟩
      intro j hj
      have h4 : ¬ 0 < frac (x j) := by simpa using h3 j hj
      rw [frac_pos_iff] at h4
      push Not at h4
      exact h4
  | mostFrac =>
    simp only []
    rcases mostFrac_first x D.vars (-1) none with ⟨_, h2⟩ | ⟨l1, v, l2, h1, h2, h3, h4, h5⟩
    · have := h2 i hi; linarith
    · have hv : 0 < frac (x v) := by
        rw [h1] at hi
        rcases List.mem_append.1 hi with hi | hi
        · exact lt_trans hp (h4 i hi)
        · rcases List.mem_cons.1 hi with rfl | hi
          · exact hp
          · exact lt_of_lt_of_le hp (h5 i hi)
      refine ⟨v, h2, (frac_pos_iff _).1 hv, l1, l2, h1, ?_⟩
      intro j d e hd he
      rw [hd.unique (frac_dist _), he.unique (frac_dist _)]
      exact ⟨h4 j, h5 j⟩

theorem chain_over {D : Data} {C : Cfg} {t : Tree Nm} : ∀ (f : Nat) (n : Nm) (l : List Con), chain D C t f n = .ok l →
    ∀ c ∈ l, ∀ p ∈ c.terms, p.2 ∈ D.vars := by
  intro f
  induction f with
  | zero => intro n l h; simp [chain] at h
  | succ f ih =>
    intro n l h
    simp only [chain] at h
    by_cases hn : n = .num 0
    · rw [if_pos hn] at h
      cases h; simp
    · rw [if_neg hn] at h
      split at h
      · cases h
      · rename_i c hc
        split at h
        · cases h
        · rename_i p _
          split at h
          · cases h
          · rename_i l' hl
            cases h
            intro c' hc'
            rcases List.mem_cons.1 hc' with rfl | hc'
            · unfold nodeCon at hc
              split at hc
              · unfold fixCon at hc
                split at hc
                · cases hc; simpa
                · cases hc
              all_goals cases hc
            · exact ih _ _ hl c' hc'
        · cases h

theorem branchCons_over {D : Data} {C : Cfg} {t : Tree Nm} {f : Nat} {it : Item} {l : List Con}
    (h : branchCons D C t f it = .ok l) : ∀ c ∈ l, ∀ p ∈ c.terms, p.2 ∈ D.vars := by
  cases it with
  | root => simp only [branchCons] at h; cases h; simp
  | node i p v s r =>
    simp only [branchCons] at h
    split at h
    · cases h
    · rename_i c hc
      split at h
      · cases h
      · rename_i l' hl
        cases h
        intro c' hc'
        rcases List.mem_cons.1 hc' with rfl | hc'
        · unfold fixCon at hc
          split at hc
          · cases hc; simpa
          · cases hc
        · exact chain_over _ _ _ hl c' hc'

theorem problem_over {D : Data} {cs : List Con} (h : ∀ c ∈ cs, ∀ p ∈ c.terms, p.2 ∈ D.vars) :
    Over D.vars ⟨objective D, rows D ++ cs⟩ := by
  constructor
  · intro p hp
    obtain ⟨i, hi, rfl⟩ := List.mem_map.1 hp
    exact hi
  · intro c hc p hp
    rcases List.mem_append.1 hc with hc | hc
    · obtain ⟨j, _, rfl⟩ := List.mem_map.1 hc
      obtain ⟨i, hi, rfl⟩ := List.mem_map.1 hp
      exact hi
    · exact h c hc p hp

section
variable {Q : Type} {B : BQ Q} {D : Data} {solve : Prob → Option (String → ℚ)}

/-- C123.  When a turn of the loop makes new subproblems, then it makes two: the variable `v` that the rule asks for, chosen at the
solution of the linear program of the node, is at most `z` in the first and at least `z + 1` in the second, where its value is strictly
between `z` and `z + 1`.  The priority of both is -depth - 1 with DEPTH_FIRST, the value of the linear program with BEST_FIRST, and
one less than the lower bound when BEST_FIRST enumerates completely. -/
theorem C123_branching (hs : ExactSolver D.vars solve) {C : Cfg} {fuel : Nat} {it : Item} {st st' : State Q}
    (h : step B D solve C fuel it st = .ok st') (hn : st'.nodeCount ≠ st.nodeCount) :
    ∃ (cs : List Con) (x : String → ℚ) (v : String) (z : ℤ) (pr : ℚ) (depth : Int), depthOf st.t it = .ok depth ∧
      branchCons D C st.t fuel it = .ok cs ∧
      solve ⟨objective D, rows D ++ cs⟩ = some x ∧ Chosen C.branching D.vars x v ∧ z < x v ∧ x v < z + 1 ∧
      st'.nodeCount = st.nodeCount + 2 ∧
      st'.q = B.push (B.push st.q (.node (st.nodeCount + 1) it.idx v .le z) pr) (.node (st.nodeCount + 2) it.idx v .ge (z + 1)) pr ∧
      (C.strategy = .depthFirst → pr = -depth - 1) ∧
      (C.strategy = .bestFirst → C.complete = false → pr = value D x) ∧
      (C.strategy = .bestFirst → C.complete = true → pr = st'.lb - 1) := by
  unfold step at h
  cases hd : depthOf st.t it with
  | error e => rw [hd] at h; cases h
  | ok depth =>
  rw [hd] at h
  simp only [] at h
  cases hc : branchCons D C st.t fuel it with
  | error e => rw [hc] at h; cases h
  | ok cs =>
  rw [hc] at h
  simp only [] at h
  have hov := hs _ (problem_over (branchCons_over hc))
  cases hr : solve ⟨objective D, rows D ++ cs⟩ with
  | none =>
    rw [hr] at h
    split at h
    · cases h
    · split at h
      · cases h
      · split at h
        · simp_all
        · cases h; exact absurd rfl hn
  | some x =>
    rw [hr] at h hov
    split at h
    · cases h
    · rename_i color _
      split at h
      · cases h
      · split at h
        · rename_i hst hx
          cases hx
          have hint : integral D x = false := by
            simp only [statusOf] at hst
            by_contra hne
            rw [Bool.not_eq_false] at hne
            rw [if_pos hne] at hst
            cases hst
          have hex : ∃ i ∈ D.vars, ∀ z : ℤ, x i ≠ z := by
            obtain ⟨w, hw, _, _, _, h0, h1⟩ := branchVar_ok C hov.1.1 hint
            refine ⟨w, hw, fun z hz => ?_⟩
            rw [hz] at h0 h1
            have h0 : 0 < z := by exact_mod_cast h0
            have h1 : z < 1 := by exact_mod_cast h1
            omega
          obtain ⟨v, hv, hch⟩ := branchVar_chosen (C := C) hex
          unfold branch at h
          rw [hv] at h
          simp only [] at h
          split at h
          · cases h
          · cases h
            have hlt : ((⌊x v⌋ : ℤ) : ℚ) < x v := lt_of_le_of_ne (Int.floor_le _) (Ne.symm (hch.1 _))
            have hce : (x v).ceil = ⌊x v⌋ + 1 := by
              rw [rat_ceil, Int.ceil_eq_iff]
              push_cast
              exact ⟨by linarith, (Int.lt_floor_add_one _).le⟩
            refine ⟨cs, x, v, ⌊x v⌋, priority C depth (relaxOf D C (some x) (incumbent D (some x) st.lb st.opt).1), depth, rfl, rfl, hr, hch, hlt, Int.lt_floor_add_one _, rfl, ?_, ?_, ?_, ?_⟩
            · show B.push _ _ _ = _
              rw [hce]
              rfl
            · intro h1; simp only [priority, h1]
            · intro h1 h2; simp only [priority, h1, relaxOf, h2, Bool.false_eq_true, if_false, lin_objective]
            · intro h1 h2; simp only [priority, h1, relaxOf, h2, if_true]
        · cases h; exact absurd rfl hn

theorem step_same {C : Cfg} {fuel : Nat} {it : Item} {st st' : State Q} (h : step B D solve C fuel it st = .ok st')
    (hn : st'.nodeCount = st.nodeCount) : st'.q = st.q := by
  unfold step at h
  split at h
  · cases h
  · split at h
    · cases h
    · simp only [] at h
      split at h
      · cases h
      · split at h
        · cases h
        · split at h
          · unfold branch at h
            split at h
            · cases h
            · split at h
              · cases h
              · cases h
                simp at hn
          · cases h; rfl
end

/-- a turn to which C123 applies -/
example (C : Cfg) : ∃ (solve : Prob → Option (String → ℚ)) (it : Item) (st st' : State (List (Item × ℚ))), ExactSolver D1.vars solve ∧
    step listBQ D1 solve C 4 it st = .ok st' ∧ st'.nodeCount ≠ st.nodeCount := by
  obtain ⟨solve, st, c, p, v, s, r, q, hs, hr, hp⟩ := D1_taken C
  by_contra hc
  have key : ∀ st it st', step listBQ D1 solve C 4 it st = .ok st' → st'.nodeCount = st.nodeCount := by
    intro st it st' h
    by_contra hn
    exact hc ⟨solve, it, st, st', hs, h, hn⟩
  have inv : ∀ e ∈ st.q, e.1 = Item.root := by
    clear hp
    induction hr with
    | start => intro e he; simp [start, listBQ] at he; rw [he]
    | @next st0 st1 h1 h2 h3 ih =>
      unfold turn at h3
      split at h3
      · cases h3
      · rename_i it q hpop
        have hq := step_same h3 (key _ _ _ h3)
        obtain ⟨x, p, q', g1, g2, _⟩ := listBQ_lawful.pop st0.q (by intro h; have h : st0.q = [] := h; rw [h] at hpop; cases hpop)
        rw [hpop] at g1
        cases g1
        intro e he
        rw [hq] at he
        exact ih e (g2.mem_iff.2 (List.mem_cons_of_mem _ he))
  obtain ⟨x, p', q', g1, g2, _⟩ := listBQ_lawful.pop st.q (by intro h; have h : st.q = [] := h; rw [h] at hp; cases hp)
  rw [hp] at g1
  cases g1
  have := inv _ (g2.mem_iff.2 (List.mem_cons_self ..))
  cases this

/-- with the values 1, 1/3, 1/2, 1/2 FIXED takes b and MOST_FRAC takes c -/
example : branchVar ⟨["a", "b", "c", "d"], 0, fun _ => 0, fun _ _ => 0, fun _ => 0⟩ ⟨.fixed, .depthFirst, false, false⟩
    (fun v => if v = "a" then 1 else if v = "b" then 1 / 3 else 1 / 2) = some "b" := by decide +kernel

example : branchVar ⟨["a", "b", "c", "d"], 0, fun _ => 0, fun _ _ => 0, fun _ => 0⟩ ⟨.mostFrac, .depthFirst, false, false⟩
    (fun v => if v = "a" then 1 else if v = "b" then 1 / 3 else 1 / 2) = some "c" := by decide +kernel

end BB
end GiMPy
