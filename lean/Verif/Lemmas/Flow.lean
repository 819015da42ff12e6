import Verif.Spec.Flow
import Verif.Model.Search
import Mathlib.Algebra.Order.BigOperators.Group.List
import Mathlib.Algebra.Order.Group.Int
import Mathlib.Algebra.BigOperators.Ring.List
import Mathlib.Tactic.Ring
import Mathlib.Tactic.Linarith

/-! # Facts about network flows -/

namespace GiMPy
variable {N : Type} [DecidableEq N]
set_option linter.unusedSectionVars false

/-- changing a function at one element changes a sum by the difference there -/
theorem sum_upd {A : Type} [DecidableEq A] (h : A → Int → Int) (f : A → Int) {E : List A} (hE : E.Nodup) {a : A}
    (ha : a ∈ E) (x : Int) :
    (E.map fun e => h e (upd f a x e)).sum = (E.map fun e => h e (f e)).sum + (h a x - h a (f a)) := by
  induction E with
  | nil => cases ha
  | cons b E ih =>
    rw [List.nodup_cons] at hE
    simp only [List.map_cons, List.sum_cons]
    rcases List.mem_cons.1 ha with rfl | ha
    · have : (E.map fun e => h e (upd f a x e)) = E.map fun e => h e (f e) := by
        refine List.map_congr_left fun e he => ?_
        have : e ≠ a := by rintro rfl; exact hE.1 he
        simp [upd, this]
      rw [this]
      simp [upd]; ring
    · have hb : b ≠ a := by rintro rfl; exact hE.1 ha
      rw [ih hE.2 ha]
      simp only [upd, if_neg hb]; ring

theorem net_upd {E : List (N × N)} (hE : E.Nodup) (f : N × N → Int) {a : N × N} (ha : a ∈ E) (x : Int) (v : N) :
    net E (upd f a x) v = net E f v + ((if a.2 = v then x - f a else 0) - (if a.1 = v then x - f a else 0)) := by
  unfold net
  have h1 := sum_upd (fun e y => if e.2 = v then y else 0) f hE ha x
  have h2 := sum_upd (fun e y => if e.1 = v then y else 0) f hE ha x
  rw [h1, h2]
  split <;> split <;> ring

theorem sum_map_sub' {A : Type} (E : List A) (p q : A → Int) :
    (E.map fun e => p e - q e).sum = (E.map p).sum - (E.map q).sum := by
  induction E with
  | nil => simp
  | cons a E ih => simp only [List.map_cons, List.sum_cons, ih]; ring

/-- summing node balances with weights -/
theorem potential_sum {E : List (N × N)} (f : N × N → Int) {V : List N} (hV : V.Nodup)
    (hEV : ∀ e ∈ E, e.1 ∈ V ∧ e.2 ∈ V) (π : N → Int) :
    (V.map fun v => π v * net E f v).sum = (E.map fun e => f e * (π e.2 - π e.1)).sum := by
  have key : ∀ (u : N) (x : Int) (V : List N), V.Nodup → (V.map fun v => π v * (if u = v then x else 0)).sum =
      if u ∈ V then π u * x else 0 := by
    intro u x V hV
    induction V with
    | nil => simp
    | cons a V ih =>
      rw [List.nodup_cons] at hV
      simp only [List.map_cons, List.sum_cons]
      rw [ih hV.2]
      by_cases h : u = a
      · subst h; simp [hV.1]
      · simp [h]
  unfold net
  induction E with
  | nil => simp
  | cons e E ih =>
    have := ih fun e he => hEV e (by simp [he])
    simp only [List.map_cons, List.sum_cons]
    rw [← this]
    have h1 := key e.2 (f e) V hV
    have h2 := key e.1 (f e) V hV
    rw [if_pos (hEV e (by simp)).2] at h1
    rw [if_pos (hEV e (by simp)).1] at h2
    have h3 : f e * (π e.2 - π e.1) = (V.map fun v => π v * (if e.2 = v then f e else 0)).sum -
        (V.map fun v => π v * (if e.1 = v then f e else 0)).sum := by rw [h1, h2]; ring
    rw [h3, ← sum_map_sub', ← List.sum_map_add]
    congr 1
    refine List.map_congr_left fun v _ => ?_
    ring

/-- the flow into the sink side of a cut -/
theorem net_eq_cut {E : List (N × N)} {V : List N} (hV : V.Nodup) (hEV : ∀ e ∈ E, e.1 ∈ V ∧ e.2 ∈ V) {s t : N}
    (ht : t ∈ V) {f : N × N → Int} (hf : ∀ v, v ≠ s → v ≠ t → net E f v = 0) (S : N → Prop) [DecidablePred S]
    (hs : S s) (hst : ¬ S t) :
    net E f t = (E.map fun e => f e * ((if S e.2 then 0 else 1) - (if S e.1 then 0 else 1))).sum := by
  rw [← potential_sum f hV hEV fun v => if S v then 0 else 1]
  have : (V.map fun v => (if S v then 0 else 1) * net E f v) = V.map fun v => if t = v then net E f t else 0 := by
    refine List.map_congr_left fun v _ => ?_
    by_cases h1 : t = v
    · subst h1; simp [hst]
    · by_cases h2 : S v
      · simp [h2, h1]
      · rw [hf v (by rintro rfl; exact h2 hs) (Ne.symm h1)]; simp [h1]
  rw [this]
  clear this hEV
  induction V with
  | nil => cases ht
  | cons a V ih =>
    rw [List.nodup_cons] at hV
    simp only [List.map_cons, List.sum_cons]
    rcases List.mem_cons.1 ht with hta | ht
    · subst hta
      have : (V.map fun v => if t = v then net E f t else 0) = V.map fun _ => 0 :=
        List.map_congr_left fun v hv => if_neg (by rintro rfl; exact hV.1 hv)
      rw [this]; simp
    · have hta : t ≠ a := by intro h; rw [h] at ht; exact hV.1 ht
      rw [if_neg hta]
      rw [← ih hV.2 ht]; ring

/-- a flow that saturates a cut is maximum -/
theorem maxFlow_of_cut {E : List (N × N)} {V : List N} (hV : V.Nodup) (hEV : ∀ e ∈ E, e.1 ∈ V ∧ e.2 ∈ V)
    {cap : N × N → Int} {s t : N} (ht : t ∈ V) {f : N × N → Int} (hf : IsFlow E cap s t f) (S : N → Prop)
    (hs : S s) (hst : ¬ S t) (hout : ∀ e ∈ E, S e.1 → ¬ S e.2 → f e = cap e) (hin : ∀ e ∈ E, ¬ S e.1 → S e.2 → f e = 0) :
    IsMaxFlow E cap s t f := by
  classical
  refine ⟨hf, fun f' hf' => ?_⟩
  rw [net_eq_cut hV hEV ht hf.conserved S hs hst, net_eq_cut hV hEV ht hf'.conserved S hs hst]
  refine List.sum_le_sum fun e he => ?_
  have h1 := hf'.within e he
  by_cases ha : S e.1 <;> by_cases hb : S e.2
  · simp [ha, hb]
  · rw [hout e he ha hb]; simp [ha, hb]; exact h1.2
  · rw [hin e he ha hb]; simp [ha, hb]; exact h1.1
  · simp [ha, hb]

/-- the value of a flow is at most the sum of all capacities -/
theorem net_le_total {E : List (N × N)} {cap f : N × N → Int} (hf : Within E cap f) (t : N) :
    net E f t ≤ (E.map cap).sum := by
  unfold net
  have h1 : (E.map fun e => if e.2 = t then f e else 0).sum ≤ (E.map cap).sum := by
    refine List.sum_le_sum fun e he => ?_
    have := hf e he
    split <;> omega
  have h2 : 0 ≤ (E.map fun e => if e.1 = t then f e else 0).sum := by
    refine List.sum_nonneg fun x hx => ?_
    obtain ⟨e, he, rfl⟩ := List.mem_map.1 hx
    have := hf e he
    split <;> omega
  omega

/-! ## Cuts -/

theorem cutCap_eq (E : List (N × N)) (cap : N × N → Int) (S : N → Bool) :
    cutCap E cap S = (E.map fun e => if S e.1 = true ∧ S e.2 = false then cap e else 0).sum := by
  unfold cutCap
  induction E with
  | nil => rfl
  | cons e E ih =>
    rw [List.map_cons, List.sum_cons, ← ih]
    by_cases h : S e.1 = true ∧ S e.2 = false
    · rw [if_pos h, List.filter_cons_of_pos (by simp [h]), List.map_cons, List.sum_cons]
    · rw [if_neg h, List.filter_cons_of_neg (by simpa using h)]; simp

/-- no flow has a greater value than the capacity of a cut -/
theorem flow_le_cut {E : List (N × N)} {V : List N} (hV : V.Nodup) (hEV : ∀ e ∈ E, e.1 ∈ V ∧ e.2 ∈ V)
    {cap : N × N → Int} {s t : N} (ht : t ∈ V) {f : N × N → Int} (hf : IsFlow E cap s t f) {S : N → Bool}
    (hs : S s = true) (hst : S t = false) : net E f t ≤ cutCap E cap S := by
  rw [net_eq_cut hV hEV ht hf.conserved (fun v => S v = true) hs (by simp [hst]), cutCap_eq]
  refine List.sum_le_sum fun e he => ?_
  have h1 := hf.within e he
  cases ha : S e.1 <;> cases hb : S e.2 <;> simp <;> omega

/-- the value of a flow that saturates a cut -/
theorem flow_eq_cut {E : List (N × N)} {V : List N} (hV : V.Nodup) (hEV : ∀ e ∈ E, e.1 ∈ V ∧ e.2 ∈ V)
    {cap : N × N → Int} {s t : N} (ht : t ∈ V) {f : N × N → Int} (hf : IsFlow E cap s t f) {S : N → Bool}
    (hs : S s = true) (hst : S t = false) (hout : ∀ e ∈ E, S e.1 = true → S e.2 = false → f e = cap e)
    (hin : ∀ e ∈ E, S e.1 = false → S e.2 = true → f e = 0) : net E f t = cutCap E cap S := by
  rw [net_eq_cut hV hEV ht hf.conserved (fun v => S v = true) hs (by simp [hst]), cutCap_eq]
  congr 1
  refine List.map_congr_left fun e he => ?_
  have h1 := hout e he
  have h2 := hin e he
  cases ha : S e.1 <;> cases hb : S e.2 <;> simp_all

end GiMPy
