import Verif.Spec.BranchBound
import Mathlib.Tactic.Linarith
import Mathlib.Tactic.Ring
import Mathlib.Tactic.FieldSimp
import Mathlib.Algebra.Order.Field.Basic

/-! # Every linear program with variables between 0 and 1 has an answer

So there are solvers that meet `ExactSolver`.  The proof eliminates the variables one after the other (Fourier and Motzkin). -/

namespace GiMPy
namespace LP
variable {V : Type} [DecidableEq V]

/-- the value of a linear expression -/
def ev (l : List (ℚ × V)) (x : V → ℚ) : ℚ := (l.map fun p => p.1 * x p.2).sum

/-- the coefficient of a variable -/
def coef (v : V) (l : List (ℚ × V)) : ℚ := ((l.filter fun p => p.2 = v).map Prod.fst).sum

/-- the terms without a variable -/
def rest (v : V) (l : List (ℚ × V)) : List (ℚ × V) := l.filter fun p => ¬ p.2 = v

/-- the terms multiplied by a number -/
def scale (a : ℚ) (l : List (ℚ × V)) : List (ℚ × V) := l.map fun p => (a * p.1, p.2)

omit [DecidableEq V] in
theorem ev_append (l l' : List (ℚ × V)) (x : V → ℚ) : ev (l ++ l') x = ev l x + ev l' x := by simp [ev]

omit [DecidableEq V] in
theorem ev_scale (a : ℚ) (l : List (ℚ × V)) (x : V → ℚ) : ev (scale a l) x = a * ev l x := by
  induction l with
  | nil => simp [ev, scale]
  | cons p l ih =>
    simp only [ev, scale, List.map_cons, List.sum_cons] at ih ⊢
    rw [ih]; ring

theorem ev_split (v : V) (l : List (ℚ × V)) (x : V → ℚ) : ev l x = coef v l * x v + ev (rest v l) x := by
  induction l with
  | nil => simp [ev, coef, rest]
  | cons p l ih =>
    have e : ev (p :: l) x = p.1 * x p.2 + ev l x := by simp [ev]
    rw [e, ih]
    by_cases h : p.2 = v
    · have e1 : coef v (p :: l) = p.1 + coef v l := by simp [coef, h]
      have e2 : rest v (p :: l) = rest v l := by simp [rest, h]
      rw [e1, e2, h]; ring
    · have e1 : coef v (p :: l) = coef v l := by simp [coef, h]
      have e2 : rest v (p :: l) = p :: rest v l := by simp [rest, h]
      rw [e1, e2]
      simp only [ev, List.map_cons, List.sum_cons]
      ring

omit [DecidableEq V] in
theorem ev_congr {l : List (ℚ × V)} {x y : V → ℚ} (h : ∀ p ∈ l, x p.2 = y p.2) : ev l x = ev l y := by
  unfold ev
  congr 1
  exact List.map_congr_left fun p hp => by rw [h p hp]

/-- a system of constraints `≤` -/
abbrev Sys (V : Type) := List (List (ℚ × V) × ℚ)

/-- all constraints hold -/
def Holds (S : Sys V) (x : V → ℚ) : Prop := ∀ c ∈ S, ev c.1 x ≤ c.2

theorem between (L U : List ℚ) (h : ∀ l ∈ L, ∀ u ∈ U, l ≤ u) : ∃ t, (∀ l ∈ L, l ≤ t) ∧ ∀ u ∈ U, t ≤ u := by
  induction L with
  | nil =>
    clear h
    induction U with
    | nil => exact ⟨0, by simp, by simp⟩
    | cons u U ih =>
      obtain ⟨t, _, h2⟩ := ih
      refine ⟨min u t, by simp, ?_⟩
      intro w hw
      rcases List.mem_cons.1 hw with rfl | hw
      · exact min_le_left _ _
      · exact (min_le_right _ _).trans (h2 w hw)
  | cons l L ih =>
    obtain ⟨t, h1, h2⟩ := ih fun l' hl' => h l' (by simp [hl'])
    refine ⟨max l t, ?_, ?_⟩
    · intro w hw
      rcases List.mem_cons.1 hw with rfl | hw
      · exact le_max_left _ _
      · exact (h1 w hw).trans (le_max_right _ _)
    · intro u hu
      exact max_le (h l (by simp) u hu) (h2 u hu)

/-- elimination of a variable -/
def elim (v : V) (S : Sys V) : Sys V :=
  ((S.filter fun c => coef v c.1 = 0).map fun c => (rest v c.1, c.2)) ++
  ((S.filter fun c => 0 < coef v c.1).flatMap fun p => (S.filter fun c => coef v c.1 < 0).map fun q =>
    (scale (coef v p.1) (rest v q.1) ++ scale (- coef v q.1) (rest v p.1), coef v p.1 * q.2 + (- coef v q.1) * p.2))

/-- point update -/
def upd (x : V → ℚ) (v : V) (t : ℚ) : V → ℚ := fun w => if w = v then t else x w

theorem ev_upd (v : V) (l : List (ℚ × V)) (x : V → ℚ) (t : ℚ) : ev l (upd x v t) = coef v l * t + ev (rest v l) x := by
  rw [ev_split v l]
  congr 1
  · simp [upd]
  · apply ev_congr
    intro p hp
    have : ¬ p.2 = v := by simpa using (List.mem_filter.1 hp).2
    simp [upd, this]

theorem elim_iff (v : V) (S : Sys V) (x : V → ℚ) : (∃ t, Holds S (upd x v t)) ↔ Holds (elim v S) x := by
  constructor
  · rintro ⟨t, h⟩ c hc
    rcases List.mem_append.1 hc with hc | hc
    · obtain ⟨d, hd, rfl⟩ := List.mem_map.1 hc
      obtain ⟨hd, h0⟩ := List.mem_filter.1 hd
      have h1 := h d hd
      rw [ev_upd] at h1
      have h0 : coef v d.1 = 0 := by simpa using h0
      rw [h0] at h1
      simpa using h1
    · obtain ⟨p, hp, hc⟩ := List.mem_flatMap.1 hc
      obtain ⟨q, hq, rfl⟩ := List.mem_map.1 hc
      obtain ⟨hp, hp0⟩ := List.mem_filter.1 hp
      obtain ⟨hq, hq0⟩ := List.mem_filter.1 hq
      have hp0 : 0 < coef v p.1 := by simpa using hp0
      have hq0 : coef v q.1 < 0 := by simpa using hq0
      have h1 := h p hp
      have h2 := h q hq
      rw [ev_upd] at h1 h2
      simp only [ev_append, ev_scale]
      nlinarith
  · intro h
    obtain ⟨t, h1, h2⟩ := between
      ((S.filter fun c => coef v c.1 < 0).map fun q => (q.2 - ev (rest v q.1) x) / coef v q.1)
      ((S.filter fun c => 0 < coef v c.1).map fun p => (p.2 - ev (rest v p.1) x) / coef v p.1) (by
        intro l hl u hu
        obtain ⟨q, hq, rfl⟩ := List.mem_map.1 hl
        obtain ⟨p, hp, rfl⟩ := List.mem_map.1 hu
        have := h (scale (coef v p.1) (rest v q.1) ++ scale (- coef v q.1) (rest v p.1), coef v p.1 * q.2 + (- coef v q.1) * p.2)
          (List.mem_append.2 (.inr (List.mem_flatMap.2 ⟨p, hp, List.mem_map.2 ⟨q, hq, rfl⟩⟩)))
        have hp0 : 0 < coef v p.1 := by simpa using (List.mem_filter.1 hp).2
        have hq0 : coef v q.1 < 0 := by simpa using (List.mem_filter.1 hq).2
        simp only [ev_append, ev_scale] at this
        rw [div_le_iff_of_neg hq0, div_mul_eq_mul_div, div_le_iff₀ hp0]
        linarith)
    refine ⟨t, ?_⟩
    intro c hc
    rw [ev_upd]
    rcases lt_trichotomy (coef v c.1) 0 with h0 | h0 | h0
    · have := h1 _ (List.mem_map.2 ⟨c, List.mem_filter.2 ⟨hc, by simpa using h0⟩, rfl⟩)
      rw [div_le_iff_of_neg h0] at this
      linarith
    · have := h (rest v c.1, c.2) (List.mem_append.2 (.inl (List.mem_map.2 ⟨c, List.mem_filter.2 ⟨hc, by simpa using h0⟩, rfl⟩)))
      rw [h0]
      simpa using this
    · have := h2 _ (List.mem_map.2 ⟨c, List.mem_filter.2 ⟨hc, by simpa using h0⟩, rfl⟩)
      rw [le_div_iff₀ h0] at this
      linarith

/-- the variables of a system lie in a set -/
def In (S : Sys V) (P : V → Prop) : Prop := ∀ c ∈ S, ∀ p ∈ c.1, P p.2

theorem elim_in {v : V} {S : Sys V} {P : V → Prop} (h : In S P) : In (elim v S) fun w => P w ∧ w ≠ v := by
  have hr : ∀ c ∈ S, ∀ p ∈ rest v c.1, P p.2 ∧ p.2 ≠ v := by
    intro c hc p hp
    obtain ⟨h1, h2⟩ := List.mem_filter.1 hp
    exact ⟨h c hc p h1, by simpa using h2⟩
  intro c hc
  rcases List.mem_append.1 hc with hc | hc
  · obtain ⟨d, hd, rfl⟩ := List.mem_map.1 hc
    exact hr d (List.mem_filter.1 hd).1
  · obtain ⟨p, hp, hc⟩ := List.mem_flatMap.1 hc
    obtain ⟨q, hq, rfl⟩ := List.mem_map.1 hc
    intro r hr'
    rcases List.mem_append.1 hr' with hr' | hr'
    · obtain ⟨s, hs, rfl⟩ := List.mem_map.1 hr'
      exact hr q (List.mem_filter.1 hq).1 s hs
    · obtain ⟨s, hs, rfl⟩ := List.mem_map.1 hr'
      exact hr p (List.mem_filter.1 hp).1 s hs

theorem elims (vs : List V) : ∀ (S : Sys V) (P : V → Prop), In S P → ∃ S' : Sys V, In S' (fun w => P w ∧ w ∉ vs) ∧
    ∀ x, (∃ y, (∀ w, w ∉ vs → y w = x w) ∧ Holds S y) ↔ Holds S' x := by
  induction vs with
  | nil =>
    intro S P h
    refine ⟨S, fun c hc p hp => ⟨h c hc p hp, by simp⟩, ?_⟩
    intro x
    constructor
    · rintro ⟨y, h1, h2⟩
      have : y = x := by funext w; exact h1 w (by simp)
      rw [← this]; exact h2
    · intro h'; exact ⟨x, fun _ _ => rfl, h'⟩
  | cons v vs ih =>
    intro S P h
    obtain ⟨S', h1, h2⟩ := ih (elim v S) _ (elim_in h)
    refine ⟨S', ?_, ?_⟩
    · intro c hc p hp
      obtain ⟨⟨a, b⟩, d⟩ := h1 c hc p hp
      exact ⟨a, by simp [b, d]⟩
    · intro x
      rw [← h2]
      constructor
      · rintro ⟨y, a, b⟩
        refine ⟨fun w => if w = v ∧ v ∉ vs then x v else y w, ?_, ?_⟩
        · intro w hw
          by_cases hwv : w = v
          · subst hwv; simp [hw]
          · simp [hwv, a w (by simp [hwv, hw])]
        · rw [← elim_iff]
          refine ⟨y v, ?_⟩
          have : upd (fun w => if w = v ∧ v ∉ vs then x v else y w) v (y v) = y := by
            funext w
            by_cases hwv : w = v
            · subst hwv; simp [upd]
            · simp [upd, hwv]
          rw [this]; exact b
      · rintro ⟨y, a, b⟩
        rw [← elim_iff] at b
        obtain ⟨t, b⟩ := b
        refine ⟨_, ?_, b⟩
        intro w hw
        simp only [List.mem_cons, not_or] at hw
        simp only [upd, if_neg hw.1]
        exact a w hw.2

theorem max_one (S : List (ℚ × ℚ)) {z0 M : ℚ} (h0 : ∀ c ∈ S, c.1 * z0 ≤ c.2) (hM : ∀ z, (∀ c ∈ S, c.1 * z ≤ c.2) → z ≤ M) :
    ∃ z, (∀ c ∈ S, c.1 * z ≤ c.2) ∧ ∀ y, (∀ c ∈ S, c.1 * y ≤ c.2) → y ≤ z := by
  have hle : ∀ (U : List ℚ), U ≠ [] → ∃ m ∈ U, ∀ u ∈ U, m ≤ u := by
    intro U
    induction U with
    | nil => intro h; exact absurd rfl h
    | cons u U ih =>
      intro _
      by_cases hU : U = []
      · exact ⟨u, by simp, by simp [hU]⟩
      · obtain ⟨m, h1, h2⟩ := ih hU
        rcases le_total u m with h | h
        · refine ⟨u, by simp, ?_⟩
          intro w hw
          rcases List.mem_cons.1 hw with rfl | hw
          · exact le_refl _
          · exact h.trans (h2 w hw)
        · refine ⟨m, by simp [h1], ?_⟩
          intro w hw
          rcases List.mem_cons.1 hw with rfl | hw
          · exact h
          · exact h2 w hw
  have hup : ∀ z, (∀ c ∈ S, c.1 * z ≤ c.2) → ∀ u ∈ (S.filter fun c => 0 < c.1).map (fun c => c.2 / c.1), z ≤ u := by
    intro z hz u hu
    obtain ⟨c, hc, rfl⟩ := List.mem_map.1 hu
    obtain ⟨h1, h2⟩ := List.mem_filter.1 hc
    have h2 : 0 < c.1 := by simpa using h2
    rw [le_div_iff₀ h2]
    have := hz c h1
    linarith
  have hgo : ∀ z, z0 ≤ z → (∀ u ∈ (S.filter fun c => 0 < c.1).map (fun c => c.2 / c.1), z ≤ u) → ∀ c ∈ S, c.1 * z ≤ c.2 := by
    intro z hz hu c hc
    by_cases h : 0 < c.1
    · have := hu _ (List.mem_map.2 ⟨c, List.mem_filter.2 ⟨hc, by simpa using h⟩, rfl⟩)
      rw [le_div_iff₀ h] at this
      linarith
    · have h1 := h0 c hc
      have h2 : c.1 * z ≤ c.1 * z0 := mul_le_mul_of_nonpos_left hz (not_lt.1 h)
      linarith
  by_cases hU : (S.filter fun c => 0 < c.1).map (fun c => c.2 / c.1) = []
  · have h1 := hM z0 h0
    have := hM (M + 1) (hgo (M + 1) (by linarith) (by rw [hU]; simp))
    linarith
  · obtain ⟨m, h1, h2⟩ := hle _ hU
    exact ⟨m, hgo m (hup z0 h0 m h1) h2, fun y hy => hup y hy m h1⟩

open BB

/-- the terms with `some` -/
def emb (l : List (ℚ × String)) : List (ℚ × Option String) := l.map fun p => (p.1, some p.2)

theorem ev_emb (l : List (ℚ × String)) (y : Option String → ℚ) : ev (emb l) y = ev l fun v => y (some v) := by
  simp [ev, emb, List.map_map, Function.comp_def]

theorem ev_neg (l : List (ℚ × String)) (x : String → ℚ) : ev (scale (-1) l) x = - ev l x := by rw [ev_scale]; ring

/-- a constraint as constraints with `≤` -/
def leCons (c : Con) : Sys (Option String) :=
  match c.rel with
  | .le => [(emb c.terms, c.rhs)]
  | .ge => [(emb (scale (-1) c.terms), -c.rhs)]
  | .eq => [(emb c.terms, c.rhs), (emb (scale (-1) c.terms), -c.rhs)]

theorem leCons_iff (c : Con) (y : Option String → ℚ) : Holds (leCons c) y ↔ c.Holds fun v => y (some v) := by
  have e : (c.terms.map fun p => p.1 * y (some p.2)).sum = ev c.terms fun v => y (some v) := rfl
  unfold Holds leCons Con.Holds
  cases c.rel
  · simp [ev_emb, e]
  · simp [ev_emb, ev_neg, e]
  · simp only [List.mem_cons, List.not_mem_nil, or_false, forall_eq_or_imp, forall_eq, ev_emb, ev_neg, neg_le_neg_iff, e]
    exact ⟨fun h => le_antisymm h.1 h.2, fun h => ⟨h.le, h.ge⟩⟩

/-- the system of a linear program; the new variable `none` is at most the objective -/
def sysOf (vars : List String) (P : Prob) : Sys (Option String) :=
  (((1, none) :: emb (scale (-1) P.obj)), 0) ::
    (vars.flatMap (fun v => [([(-1, some v)], 0), ([(1, some v)], 1)]) ++ P.cons.flatMap leCons)

theorem sysOf_iff (vars : List String) (P : Prob) (y : Option String → ℚ) :
    Holds (sysOf vars P) y ↔ y none ≤ ev P.obj (fun v => y (some v)) ∧ Feasible vars P.cons fun v => y (some v) := by
  unfold sysOf
  constructor
  · intro h
    refine ⟨?_, ?_, ?_⟩
    · have := h _ (List.mem_cons_self)
      have e : ev ((1, none) :: emb (scale (-1) P.obj)) y = y none + ev (emb (scale (-1) P.obj)) y := by simp [ev]
      simp only [e, ev_emb, ev_neg] at this
      linarith
    · intro v hv
      have h1 := h ([(-1, some v)], 0) (by
        refine List.mem_cons_of_mem _ (List.mem_append.2 (.inl (List.mem_flatMap.2 ⟨v, hv, by simp⟩))))
      have h2 := h ([(1, some v)], 1) (by
        refine List.mem_cons_of_mem _ (List.mem_append.2 (.inl (List.mem_flatMap.2 ⟨v, hv, by simp⟩))))
      simp [ev] at h1 h2
      exact ⟨h1, h2⟩
    · intro c hc
      rw [← leCons_iff]
      intro d hd
      exact h d (List.mem_cons_of_mem _ (List.mem_append.2 (.inr (List.mem_flatMap.2 ⟨c, hc, hd⟩))))
  · rintro ⟨h1, h2, h3⟩ c hc
    rcases List.mem_cons.1 hc with rfl | hc
    · have e : ev ((1, none) :: emb (scale (-1) P.obj)) y = y none + ev (emb (scale (-1) P.obj)) y := by simp [ev]
      simp only [e, ev_emb, ev_neg]
      linarith
    · rcases List.mem_append.1 hc with hc | hc
      · obtain ⟨v, hv, hc⟩ := List.mem_flatMap.1 hc
        have := h2 v hv
        simp only [List.mem_cons, List.not_mem_nil, or_false] at hc
        rcases hc with rfl | rfl <;> simp [ev, this.1, this.2]
      · obtain ⟨d, hd, hc⟩ := List.mem_flatMap.1 hc
        exact (leCons_iff d y).2 (h3 d hd) c hc

theorem sysOf_in {vars : List String} {P : Prob} (h : Over vars P) :
    In (sysOf vars P) fun w => w = none ∨ ∃ v ∈ vars, w = some v := by
  have he : ∀ (a : ℚ) (l : List (ℚ × String)), (∀ p ∈ l, p.2 ∈ vars) → ∀ p ∈ emb (scale a l), ∃ v ∈ vars, p.2 = some v := by
    intro a l hl p hp
    simp only [emb, scale, List.map_map, List.mem_map] at hp
    obtain ⟨q, hq, rfl⟩ := hp
    exact ⟨q.2, hl q hq, rfl⟩
  have he' : ∀ (l : List (ℚ × String)), (∀ p ∈ l, p.2 ∈ vars) → ∀ p ∈ emb l, ∃ v ∈ vars, p.2 = some v := by
    intro l hl p hp
    simp only [emb, List.mem_map] at hp
    obtain ⟨q, hq, rfl⟩ := hp
    exact ⟨q.2, hl q hq, rfl⟩
  intro c hc
  rcases List.mem_cons.1 hc with rfl | hc
  · intro p hp
    rcases List.mem_cons.1 hp with rfl | hp
    · exact .inl rfl
    · exact .inr (he _ _ h.1 p hp)
  · rcases List.mem_append.1 hc with hc | hc
    · obtain ⟨v, hv, hc⟩ := List.mem_flatMap.1 hc
      simp only [List.mem_cons, List.not_mem_nil, or_false] at hc
      rcases hc with rfl | rfl <;> (intro p hp; simp at hp; rw [hp]; exact .inr ⟨v, hv, rfl⟩)
    · obtain ⟨d, hd, hc⟩ := List.mem_flatMap.1 hc
      have ho := h.2 d hd
      intro p hp
      right
      unfold leCons at hc
      cases hr : d.rel <;> rw [hr] at hc <;> simp only [List.mem_cons, List.not_mem_nil, or_false] at hc
      · rw [hc] at hp; exact he' _ ho p hp
      · rw [hc] at hp; exact he _ _ ho p hp
      · rcases hc with hc | hc <;> rw [hc] at hp
        · exact he' _ ho p hp
        · exact he _ _ ho p hp

theorem ev_le {vars : List String} {l : List (ℚ × String)} (hl : ∀ p ∈ l, p.2 ∈ vars) {x : String → ℚ}
    (hx : ∀ v ∈ vars, 0 ≤ x v ∧ x v ≤ 1) : ev l x ≤ (l.map fun p => |p.1|).sum := by
  induction l with
  | nil => simp [ev]
  | cons p l ih =>
    have h1 := ih fun q hq => hl q (by simp [hq])
    have h2 := hx p.2 (hl p (by simp))
    have h3 : p.1 * x p.2 ≤ |p.1| := by
      have a : p.1 * x p.2 ≤ |p.1| * x p.2 := mul_le_mul_of_nonneg_right (le_abs_self _) h2.1
      have b : |p.1| * x p.2 ≤ |p.1| * 1 := mul_le_mul_of_nonneg_left h2.2 (abs_nonneg _)
      linarith
    simp only [ev, List.map_cons, List.sum_cons] at h1 ⊢
    linarith

/-- A linear program that can be satisfied has an optimal solution. -/
theorem optimum {vars : List String} {P : Prob} (h : Over vars P) {x0 : String → ℚ} (h0 : Feasible vars P.cons x0) :
    ∃ x, Feasible vars P.cons x ∧ ∀ y, Feasible vars P.cons y → ev P.obj y ≤ ev P.obj x := by
  obtain ⟨S, hS, hiff⟩ := elims (vars.map some) (sysOf vars P) _ (sysOf_in h)
  have hnone : ∀ c ∈ S, ∀ p ∈ c.1, p.2 = none := by
    intro c hc p hp
    obtain ⟨h1 | ⟨v, hv, h1⟩, h2⟩ := hS c hc p hp
    · exact h1
    · exact absurd (List.mem_map.2 ⟨v, hv, h1.symm⟩) h2
  have hev : ∀ c ∈ S, ∀ y : Option String → ℚ, ev c.1 y = coef none c.1 * y none := by
    intro c hc y
    rw [ev_split none]
    have : rest none c.1 = [] := by
      unfold rest
      rw [List.filter_eq_nil_iff]
      intro p hp
      simp [hnone c hc p hp]
    rw [this]
    simp [ev]
  have hset : ∀ z : ℚ, (∃ x, Feasible vars P.cons x ∧ z ≤ ev P.obj x) ↔ ∀ c ∈ S.map (fun c => (coef none c.1, c.2)), c.1 * z ≤ c.2 := by
    intro z
    have e1 : (∀ c ∈ S.map (fun c => (coef none c.1, c.2)), c.1 * z ≤ c.2) ↔ ∀ y : Option String → ℚ, y none = z → Holds S y := by
      constructor
      · intro h' y hy c hc
        rw [hev c hc y, hy]
        exact h' _ (List.mem_map.2 ⟨c, hc, rfl⟩)
      · intro h' c hc
        obtain ⟨d, hd, rfl⟩ := List.mem_map.1 hc
        have := h' (fun _ => z) rfl d hd
        rw [hev d hd] at this
        exact this
    rw [e1]
    constructor
    · rintro ⟨x, hx, hz⟩ y hy
      rw [← hiff]
      refine ⟨fun w => match w with | none => z | some v => if some v ∈ vars.map some then x v else y (some v), ?_, ?_⟩
      · rintro (_ | v) hw
        · exact hy.symm
        · simp only [if_neg hw]
      · rw [sysOf_iff]
        have hc : ∀ v ∈ vars, (if some v ∈ vars.map some then x v else y (some v)) = x v := by
          intro v hv
          rw [if_pos (List.mem_map.2 ⟨v, hv, rfl⟩)]
        refine ⟨?_, ?_, ?_⟩
        · rw [ev_congr (y := x) fun p hp => hc p.2 (h.1 p hp)]
          exact hz
        · intro v hv
          simp only [hc v hv]
          exact hx.1 v hv
        · intro c hcc
          have hh := hx.2 c hcc
          have e : ev c.terms (fun v => if some v ∈ vars.map some then x v else y (some v)) = ev c.terms x :=
            ev_congr fun p hp => hc p.2 (h.2 c hcc p hp)
          unfold ev at e
          unfold Con.Holds at hh ⊢
          rw [e]
          exact hh
    · intro h'
      have := h' (fun _ => z) rfl
      rw [← hiff] at this
      obtain ⟨y, hy1, hy2⟩ := this
      rw [sysOf_iff] at hy2
      refine ⟨_, hy2.2, ?_⟩
      have := hy1 none (by simp)
      rw [← this]
      exact hy2.1
  obtain ⟨z, hz1, hz2⟩ := max_one (S.map fun c => (coef none c.1, c.2)) (z0 := ev P.obj x0) (M := (P.obj.map fun p => |p.1|).sum)
    ((hset _).1 ⟨x0, h0, le_refl _⟩) (by
      intro z hz
      obtain ⟨x, hx, hle⟩ := (hset z).2 hz
      exact hle.trans (ev_le h.1 hx.1))
  obtain ⟨x, hx, hle⟩ := (hset z).2 hz1
  exact ⟨x, hx, fun y hy => (hz2 _ ((hset _).1 ⟨y, hy, le_refl _⟩)).trans hle⟩

/-- There is a solver that answers every linear program correctly. -/
theorem exists_exactSolver (vars : List String) : ∃ solve : Prob → Option (String → ℚ), ExactSolver vars solve := by
  have : ∀ P, ∃ r : Option (String → ℚ), Over vars P → Exact vars P r := by
    intro P
    by_cases ho : Over vars P
    · by_cases hf : ∃ x, Feasible vars P.cons x
      · obtain ⟨x0, h0⟩ := hf
        obtain ⟨x, h1, h2⟩ := optimum ho h0
        exact ⟨some x, fun _ => ⟨h1, h2⟩⟩
      · exact ⟨none, fun _ x hx => hf ⟨x, hx⟩⟩
    · exact ⟨none, fun h => absurd h ho⟩
  choose f hf using this
  exact ⟨f, fun P hP => hf P hP⟩

end LP
end GiMPy
