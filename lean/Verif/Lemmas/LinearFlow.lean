import Verif.Spec.LinearFlow
import Verif.Props.MinCost
import Mathlib.Tactic.LinearCombination

/-! # Lemmas on flows with fractional values -/

namespace GiMPy
namespace LinFlow
open MaxFlow MinCost
variable {N : Type} [DecidableEq N] {K : Type} [Field K] [LinearOrder K] [IsStrictOrderedRing K]
  {g : Graph N} {cap f cost : N × N → Int}
set_option linter.unusedSectionVars false

theorem sum_sub {A : Type} (E : List A) (p q : A → K) : (E.map fun e => p e - q e).sum = (E.map p).sum - (E.map q).sum := by
  induction E with
  | nil => simp
  | cons a E ih => simp only [List.map_cons, List.sum_cons, ih]; ring

theorem netK_cast (E : List (N × N)) (f : N × N → Int) (v : N) : netK E (fun e => (f e : K)) v = (net E f v : K) := by
  unfold netK net
  induction E with
  | nil => simp
  | cons e E ih =>
    simp only [List.map_cons, List.sum_cons]
    push_cast at ih ⊢
    linear_combination ih

/-- summing node balances with weights -/
theorem potential_sum {E : List (N × N)} (x : N × N → K) {V : List N} (hV : V.Nodup)
    (hEV : ∀ e ∈ E, e.1 ∈ V ∧ e.2 ∈ V) (π : N → K) :
    (V.map fun v => π v * netK E x v).sum = (E.map fun e => x e * (π e.2 - π e.1)).sum := by
  have key : ∀ (u : N) (y : K) (V : List N), V.Nodup → (V.map fun v => π v * (if u = v then y else 0)).sum =
      if u ∈ V then π u * y else 0 := by
    intro u y V hV
    induction V with
    | nil => simp
    | cons a V ih =>
      rw [List.nodup_cons] at hV
      simp only [List.map_cons, List.sum_cons]
      rw [ih hV.2]
      by_cases h : u = a
      · subst h; simp [hV.1]
      · simp [h]
  unfold netK
  induction E with
  | nil => simp
  | cons e E ih =>
    have := ih fun e he => hEV e (by simp [he])
    simp only [List.map_cons, List.sum_cons]
    rw [← this]
    have h1 := key e.2 (x e) V hV
    have h2 := key e.1 (x e) V hV
    rw [if_pos (hEV e (by simp)).2] at h1
    rw [if_pos (hEV e (by simp)).1] at h2
    have h3 : x e * (π e.2 - π e.1) = (V.map fun v => π v * (if e.2 = v then x e else 0)).sum -
        (V.map fun v => π v * (if e.1 = v then x e else 0)).sum := by rw [h1, h2]; ring
    rw [h3, ← sum_sub, ← List.sum_map_add]
    congr 1
    refine List.map_congr_left fun v _ => ?_
    ring

/-! ## A negative closed walk contains a negative cycle -/

theorem pathCost_split (w : N → N → Int) (x : N) (q : List N) :
    ∀ p : List N, pathCost w (p ++ x :: q) = pathCost w (p ++ [x]) + pathCost w (x :: q)
  | [] => by simp [pathCost]
  | [a] => by simp [pathCost]
  | a :: b :: p => by
    have := pathCost_split w x q (b :: p)
    simp only [List.cons_append, pathCost] at this ⊢
    omega

theorem repeated : ∀ l : List N, ¬ l.Nodup → ∃ a x b d, l = a ++ x :: b ++ x :: d
  | [], h => absurd List.nodup_nil h
  | y :: l, h => by
    by_cases hy : y ∈ l
    · obtain ⟨b, d, rfl⟩ := List.append_of_mem hy
      exact ⟨[], y, b, d, by simp⟩
    · obtain ⟨a, x, b, d, rfl⟩ := repeated l fun hl => h (List.nodup_cons.2 ⟨hy, hl⟩)
      exact ⟨y :: a, x, b, d, by simp⟩

theorem neg_cycle {R : N → N → Prop} {w : N → N → Int} : ∀ (n : Nat) (v : N) (l : List N), l.length ≤ n →
    (v :: l ++ [v]).IsChain R → pathCost w (v :: l ++ [v]) < 0 →
    ∃ v l, (v :: l).Nodup ∧ (v :: l ++ [v]).IsChain R ∧ pathCost w (v :: l ++ [v]) < 0 := by
  intro n
  induction n with
  | zero =>
    intro v l hl h1 h2
    obtain rfl : l = [] := List.length_eq_zero_iff.1 (by omega)
    exact ⟨v, [], by simp, h1, h2⟩
  | succ n ih =>
    intro v l hl h1 h2
    by_cases hn : (v :: l).Nodup
    · exact ⟨v, l, hn, h1, h2⟩
    · obtain ⟨a, x, b, d, e⟩ := repeated _ hn
      rcases a with _ | ⟨v', a⟩
      · obtain ⟨rfl, rfl⟩ : v = x ∧ l = b ++ x :: d := by simpa using e
        have e1 : v :: (b ++ v :: d) ++ [v] = (v :: b) ++ v :: (d ++ [v]) := by simp
        rw [e1, List.isChain_split] at h1
        rw [e1, pathCost_split] at h2
        simp only [List.length_append, List.length_cons] at hl
        by_cases h3 : pathCost w (v :: b ++ [v]) < 0
        · exact ih v b (by omega) h1.1 h3
        · exact ih v d (by omega) h1.2 (by show pathCost w (v :: (d ++ [v])) < 0; omega)
      · obtain ⟨rfl, rfl⟩ : v = v' ∧ l = a ++ x :: b ++ x :: d := by simpa using e
        have e1 : v :: (a ++ x :: b ++ x :: d) ++ [v] = (v :: a) ++ x :: (b ++ x :: (d ++ [v])) := by simp
        have e2 : x :: (b ++ x :: (d ++ [v])) = (x :: b) ++ x :: (d ++ [v]) := by simp
        rw [e1, List.isChain_split, e2, List.isChain_split (l₁ := x :: b)] at h1
        rw [e1, pathCost_split, e2, pathCost_split w x _ (x :: b)] at h2
        simp only [List.length_append, List.length_cons] at hl
        by_cases h3 : pathCost w (x :: b ++ [x]) < 0
        · exact ih x b (by omega) h1.2.1 h3
        · have e3 : v :: (a ++ x :: d) ++ [v] = (v :: a) ++ x :: (d ++ [v]) := by simp
          refine ih v (a ++ x :: d) (by simp; omega) ?_ ?_
          · rw [e3, List.isChain_split]; exact ⟨h1.1, h1.2.2⟩
          · rw [e3, pathCost_split]; omega

theorem walk_list {R : N → N → Prop} {w : N → N → Int} {u v : N} {x : Int} (h : WalkCost R w u x v) :
    (u = v ∧ x = 0) ∨ ∃ l, (u :: l ++ [v]).IsChain R ∧ pathCost w (u :: l ++ [v]) = x := by
  induction h with
  | nil => exact .inl ⟨rfl, rfl⟩
  | @snoc x a b h hr ih =>
    refine .inr ?_
    rcases ih with ⟨rfl, rfl⟩ | ⟨l, h1, h2⟩
    · exact ⟨[], by simpa using hr, by simp [pathCost]⟩
    · refine ⟨l ++ [a], ?_, ?_⟩
      · have : u :: (l ++ [a]) ++ [b] = (u :: l) ++ a :: [b] := by simp
        rw [this, List.isChain_split]
        exact ⟨h1, by simpa using hr⟩
      · have : u :: (l ++ [a]) ++ [b] = (u :: l) ++ a :: [b] := by simp
        rw [this, pathCost_split, h2]; simp [pathCost]

/-! ## Potentials of a flow of least cost -/

theorem potentials (hg : Built g) (hd : g.directed = true)
    (hs : ∀ u v, (u, v) ∈ g.getEdgeList → (v, u) ∉ g.getEdgeList)
    (hcap : ∀ u v, (u, v) ∈ g.getEdgeList → g.capOf u v = .ok (cap (u, v)))
    (hcost : ∀ u v, (u, v) ∈ g.getEdgeList → g.getEdgeCost u v = .ok (cost (u, v))) {b : N → Int}
    (hf : IsMinCost g.getNodeList g.getEdgeList cap cost b f) :
    ∃ π : N → Int, ∀ u v, Use g cap f u v → π v ≤ π u + rcost g cost u v := by
  obtain ⟨r, h1, h2, h3, h4, h5, h6⟩ := residual_facts (cap := cap) (cost := cost) hg hd hs hcap hcost f
  have hw : ∀ u v, r.checkEdge u v = true → r.getEdgeCost u v = .ok (rcost g cost u v) := by
    intro u v huv; exact h6 u v (by simpa [Step] using huv)
  have hno : ∀ v x, WalkCost (Step r false) (rcost g cost) v x v → 0 ≤ x := by
    intro v x hx
    by_contra hneg
    rcases walk_list hx with ⟨_, rfl⟩ | ⟨l, c1, c2⟩
    · omega
    · obtain ⟨v, l, hnd, hch, hlt⟩ := neg_cycle (w := rcost g cost) l.length v l (Nat.le_refl _) c1 (by omega)
      obtain ⟨f1, a1, a2, a3, a4⟩ := augmentCycle_ok (cost := cost) hg.wf.edup hs (d := 1) (by omega) hf.feasible.within hnd
        (hch.imp fun a b h => ⟨((h4 a b).1 h).1, by have := ((h4 a b).1 h).2; omega⟩)
      have := hf.least f1 ⟨a2, fun v hv => by rw [a3]; exact hf.feasible.meets v hv⟩
      have e : cycleCost (rcost g cost) (v :: l) = pathCost (rcost g cost) (v :: l ++ [v]) := rfl
      omega
  obtain ⟨valid, st, g1, g2, g3, g4, g5, g6⟩ := fw_facts h2 h3 hw
  obtain ⟨π, hπ⟩ := potential_exists (fun v => (r.getNodeList.map fun u => min 0 ((st.dist (u, v)).getD 0)).sum)
    (R := Step r false) (w := rcost g cost) (by
      have hb : valid = true := by
        rw [g4]; intro i _ x hx; exact hno i x (g2 _ _ _ hx)
      intro u v x hx
      have hle : ∀ l : List N, (l.map fun u => min 0 ((st.dist (u, v)).getD 0)).sum ≤ 0 := by
        intro l; induction l with
        | nil => simp
        | cons a l ih => simp only [List.map_cons, List.sum_cons]; omega
      rcases FW.Via.of_walk (K := fun _ => True) (fun _ _ _ => trivial) hx with ⟨_, rfl⟩ | hv
      · exact hle _
      · obtain ⟨y, hy, hdy⟩ := g5 _ _ _ hv
        have hu : u ∈ r.getNodeList := by
          have : ∀ {x z}, FW.Via (Step r false) (rcost g cost) (fun _ => True) u x z → u ∈ r.getNodeList := by
            intro x z h
            induction h with
            | arc h => exact (Search.step_node h2.wf h).1
            | snoc _ _ _ ih => exact ih
          exact this hv
        have key : ∀ l : List N, u ∈ l → (l.map fun u => min 0 ((st.dist (u, v)).getD 0)).sum ≤ y := by
          intro l; induction l with
          | nil => intro h; cases h
          | cons a l ih =>
            intro h
            simp only [List.map_cons, List.sum_cons]
            rcases List.mem_cons.1 h with rfl | h
            · have := hle l; rw [hdy, Option.getD_some]; omega
            · have := ih h; omega
        exact Int.le_trans (key _ hu) (hy hb))
  exact ⟨π, fun u v h => hπ u v ((h4 u v).2 h)⟩

/-- a feasible flow with potentials is optimal for the linear program -/
theorem lp_of_potential {V : List N} (hV : V.Nodup) (hEV : ∀ e ∈ g.getEdgeList, e.1 ∈ V ∧ e.2 ∈ V)
    (hs : Simple g.getEdgeList) {b : N → Int} (hf : IsFeasible V g.getEdgeList cap b f) (π : N → Int)
    (hπ : ∀ u v, Use g cap f u v → π v ≤ π u + rcost g cost u v) : LPOptimal K V g.getEdgeList cap cost b f := by
  have hfe : LPFeasible V g.getEdgeList cap b fun e => (f e : K) := by
    refine ⟨fun e he => ?_, fun v hv => ?_⟩
    · have := hf.within e he
      exact ⟨by exact_mod_cast this.1, by exact_mod_cast this.2⟩
    · rw [netK_cast, ← hf.meets v hv]; simp
  refine ⟨hfe, fun x hx => ?_⟩
  have e1 := potential_sum (fun e => (f e : K)) hV hEV fun v => (π v : K)
  have e2 := potential_sum x hV hEV fun v => (π v : K)
  have e3 : (V.map fun v => (π v : K) * netK g.getEdgeList (fun e => (f e : K)) v) = V.map fun v => (π v : K) * netK g.getEdgeList x v :=
    List.map_congr_left fun v hv => by
      have h1 := hfe.meets v hv
      have h2 := hx.meets v hv
      rw [neg_eq_iff_eq_neg] at h1 h2
      rw [h1, h2]
  rw [e3, e2] at e1
  have e4 : (g.getEdgeList.map fun e => (f e : K) * (cost e : K) - (f e : K) * ((π e.2 : K) - (π e.1 : K))).sum ≤
      (g.getEdgeList.map fun e => x e * (cost e : K) - x e * ((π e.2 : K) - (π e.1 : K))).sum := by
    refine List.sum_le_sum fun e he => ?_
    have hw := hf.within e he
    have hw' := hx.within e he
    have hsw : (e.2, e.1) ∉ g.getEdgeList := hs e.1 e.2 he
    have key : 0 ≤ (x e - (f e : K)) * ((cost e : K) + (π e.1 : K) - (π e.2 : K)) := by
      rcases lt_trichotomy (f e : K) (x e) with h | h | h
      · have hlt : f e < cap e := by
          have : (f e : K) < (cap e : K) := lt_of_lt_of_le h hw'.2
          exact_mod_cast this
        have : Use g cap f e.1 e.2 := ⟨.inl he, by unfold pot; rw [if_pos he]; show 0 < cap e - f e; omega⟩
        have := hπ _ _ this
        unfold rcost at this
        rw [if_pos he] at this
        replace this : π e.2 ≤ π e.1 + cost e := this
        have h' : (π e.2 : K) ≤ (π e.1 : K) + (cost e : K) := by exact_mod_cast this
        exact mul_nonneg (by linarith) (by linarith)
      · rw [h]; simp
      · have hlt : 0 < f e := by
          have : (0 : K) < (f e : K) := lt_of_le_of_lt hw'.1 h
          exact_mod_cast this
        have : Use g cap f e.2 e.1 := ⟨.inr he, by unfold pot; rw [if_neg hsw]; show 0 < f e; omega⟩
        have := hπ _ _ this
        unfold rcost at this
        rw [if_neg hsw] at this
        replace this : π e.1 ≤ π e.2 + - cost e := this
        have h' : (π e.1 : K) ≤ (π e.2 : K) + - (cost e : K) := by exact_mod_cast this
        exact mul_nonneg_of_nonpos_of_nonpos (by linarith) (by linarith)
    have : x e * (cost e : K) - x e * ((π e.2 : K) - (π e.1 : K)) - ((f e : K) * (cost e : K) - (f e : K) * ((π e.2 : K) - (π e.1 : K))) =
      (x e - (f e : K)) * ((cost e : K) + (π e.1 : K) - (π e.2 : K)) := by ring
    linarith
  rw [sum_sub, sum_sub] at e4
  linarith

/-! ## Cuts -/

/-- what enters a set of nodes at most fills the arcs into it -/
theorem net_le_cutK {E : List (N × N)} {V : List N} (hV : V.Nodup) (hEV : ∀ e ∈ E, e.1 ∈ V ∧ e.2 ∈ V) {x : N × N → K}
    (hx : ∀ e ∈ E, 0 ≤ x e ∧ x e ≤ (cap e : K)) (S : N → Bool) :
    (V.map fun v => if S v then 0 else netK E x v).sum ≤ (cutCap E cap S : K) := by
  have e1 := potential_sum x hV hEV fun v => if S v then 0 else 1
  have e2 : (V.map fun v => if S v then 0 else netK E x v) = V.map fun v => (if S v then 0 else 1) * netK E x v :=
    List.map_congr_left fun v _ => by by_cases h : S v <;> simp [h]
  rw [e2, e1]
  have : ∀ E : List (N × N), (∀ e ∈ E, 0 ≤ x e ∧ x e ≤ (cap e : K)) →
      (E.map fun e => x e * ((if S e.2 then (0 : K) else 1) - (if S e.1 then 0 else 1))).sum ≤ (cutCap E cap S : K) := by
    intro E hx
    induction E with
    | nil => simp [cutCap]
    | cons e E ih =>
      have h1 := ih fun e he => hx e (by simp [he])
      have h2 := hx e (by simp)
      unfold cutCap at h1 ⊢
      rw [List.map_cons, List.sum_cons]
      by_cases ha : S e.1 = true <;> by_cases hb : S e.2 = true
      · rw [List.filter_cons_of_neg (by simp [ha, hb])]; simp only [ha, hb, if_true]; linarith
      · rw [List.filter_cons_of_pos (by simp [ha, hb])]
        simp only [ha, hb, if_true, Bool.false_eq_true, if_false, List.map_cons, List.sum_cons]; push_cast; linarith [h2.2]
      · rw [List.filter_cons_of_neg (by simp [ha, hb])]
        simp only [ha, hb, if_true, Bool.false_eq_true, if_false]; linarith [h2.1]
      · rw [List.filter_cons_of_neg (by simp [ha, hb])]; simp only [ha, hb, Bool.false_eq_true, if_false]; linarith
  exact this E hx

end LinFlow
end GiMPy
