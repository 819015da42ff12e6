import Verif.Spec.BranchBound
import Verif.Lemmas.Tree
import Mathlib.Data.List.Perm.Subperm
import Mathlib.Tactic.Linarith

/-! # Lemmas about the branch and bound program -/

namespace GiMPy
namespace BB
open Tree MinCost

/-! ## Fractional values -/

theorem floor_int {x : ℚ} (h0 : 0 < x) (h1 : x < 1) : x.floor = 0 := by
  have a : (0 : Int) ≤ x.floor := Rat.le_floor_iff.2 (by simpa using h0.le)
  have b : x.floor < 1 := Rat.floor_lt_iff.2 (by simpa using h1)
  omega

theorem ceil_int {x : ℚ} (h0 : 0 < x) (h1 : x < 1) : x.ceil = 1 := by
  have a : x.ceil ≤ 1 := Rat.ceil_le_iff.2 (by simpa using h1.le)
  have b : 0 < x.ceil := Rat.lt_ceil_iff.2 (by simpa using h0)
  omega

theorem frac_zero : frac 0 = 0 := by decide +kernel
theorem frac_one : frac 1 = 0 := by decide +kernel

theorem frac_pos {x : ℚ} (h0 : 0 ≤ x) (h1 : x ≤ 1) : 0 < frac x ↔ ¬ (x = 0 ∨ x = 1) := by
  constructor
  · rintro h (rfl | rfl)
    · rw [frac_zero] at h; exact lt_irrefl _ h
    · rw [frac_one] at h; exact lt_irrefl _ h
  · intro h
    rw [not_or] at h
    have h0 : 0 < x := lt_of_le_of_ne h0 (Ne.symm h.1)
    have h1 : x < 1 := lt_of_le_of_ne h1 h.2
    unfold frac
    rw [floor_int h0 h1, ceil_int h0 h1, lt_min_iff]
    push_cast
    constructor <;> linarith

theorem mostFrac_spec (x : String → ℚ) (l : List String) (m : ℚ) (b : Option String) :
    (mostFrac x l m b = b ∧ ∀ i ∈ l, frac (x i) ≤ m) ∨
      ∃ v ∈ l, mostFrac x l m b = some v ∧ m < frac (x v) ∧ ∀ i ∈ l, frac (x i) ≤ frac (x v) := by
  induction l generalizing m b with
  | nil => exact .inl ⟨rfl, by simp⟩
  | cons i l ih =>
    simp only [mostFrac]
    by_cases h : frac (x i) > m
    · rw [if_pos h]
      rcases ih (frac (x i)) (some i) with ⟨h1, h2⟩ | ⟨v, h1, h2, h3, h4⟩
      · refine .inr ⟨i, by simp, h1, h, ?_⟩
        intro j hj
        rcases List.mem_cons.1 hj with rfl | hj
        · exact le_refl _
        · exact h2 j hj
      · refine .inr ⟨v, by simp [h1], h2, lt_trans h h3, ?_⟩
        intro j hj
        rcases List.mem_cons.1 hj with rfl | hj
        · exact h3.le
        · exact h4 j hj
    · rw [if_neg h]
      rcases ih m b with ⟨h1, h2⟩ | ⟨v, h1, h2, h3, h4⟩
      · refine .inl ⟨h1, ?_⟩
        intro j hj
        rcases List.mem_cons.1 hj with rfl | hj
        · exact not_lt.1 h
        · exact h2 j hj
      · refine .inr ⟨v, by simp [h1], h2, h3, ?_⟩
        intro j hj
        rcases List.mem_cons.1 hj with rfl | hj
        · exact (not_lt.1 h).trans h3.le
        · exact h4 j hj

theorem integral_iff (D : Data) (x : String → ℚ) : integral D x = true ↔ ∀ v ∈ D.vars, x v = 0 ∨ x v = 1 := by
  simp [integral]

theorem branchVar_ok {D : Data} (C : Cfg) {x : String → ℚ} (hb : ∀ v ∈ D.vars, 0 ≤ x v ∧ x v ≤ 1)
    (hi : integral D x = false) :
    ∃ v ∈ D.vars, branchVar D C x = some v ∧ (x v).floor = 0 ∧ (x v).ceil = 1 ∧ 0 < x v ∧ x v < 1 := by
  have hex : ∃ v ∈ D.vars, 0 < frac (x v) := by
    by_contra hc
    push Not at hc
    have : integral D x = true := by
      rw [integral_iff]
      intro v hv
      by_contra hn
      exact absurd ((frac_pos (hb v hv).1 (hb v hv).2).2 hn) (not_lt.2 (hc v hv))
    rw [hi] at this
    cases this
  have key : ∃ v ∈ D.vars, branchVar D C x = some v ∧ 0 < frac (x v) := by
    unfold branchVar
    cases C.branching with
    | fixed =>
      simp only []
      cases hf : D.vars.find? fun i => decide (frac (x i) > 0) with
      | none =>
        rw [List.find?_eq_none] at hf
        obtain ⟨v, hv, hp⟩ := hex
        exact absurd hp (by simpa using hf v hv)
      | some v => exact ⟨v, List.mem_of_find?_eq_some hf, rfl, by simpa using List.find?_some hf⟩
    | mostFrac =>
      simp only []
      obtain ⟨v, hv, hp⟩ := hex
      rcases mostFrac_spec x D.vars (-1) none with ⟨_, h2⟩ | ⟨w, h1, h2, _, h4⟩
      · have := h2 v hv; linarith
      · exact ⟨w, h1, h2, lt_of_lt_of_le hp (h4 v hv)⟩
  obtain ⟨v, hv, h1, h2⟩ := key
  rw [frac_pos (hb v hv).1 (hb v hv).2, not_or] at h2
  have h0 : 0 < x v := lt_of_le_of_ne (hb v hv).1 (Ne.symm h2.1)
  have h1' : x v < 1 := lt_of_le_of_ne (hb v hv).2 h2.2
  exact ⟨v, hv, h1, floor_int h0 h1', ceil_int h0 h1', h0, h1'⟩

/-! ## The linear programs -/

/-- the sense of a fixing -/
def sn (b : Bool) : Sense := if b then .ge else .le
/-- the right-hand side of a fixing -/
abbrev rh (b : Bool) : Int := rhsInt b

theorem sn_str (b : Bool) : (sn b).str = senseStr b := by cases b <;> rfl

theorem sn_inj {b c : Bool} (h : sn b = sn c) : b = c := by
  cases b <;> cases c <;> first | rfl | (simp [sn] at h)

/-- the constraint of a fixing -/
def conOf (C : Cfg) (p : String × Bool) : Con :=
  ⟨[(1, p.1)], if C.wrapEq then .eq else match sn p.2 with | .le => .le | .ge => .ge, rh p.2⟩

theorem fixCon_ok {D : Data} (C : Cfg) {v : String} (hv : v ∈ D.vars) (b : Bool) :
    fixCon D C v (sn b) (rh b) = .ok (conOf C (v, b)) := by
  unfold fixCon; rw [if_pos hv]; rfl

theorem conOf_holds (C : Cfg) (p : String × Bool) (x : String → ℚ) (h : 0 ≤ x p.1 ∧ x p.1 ≤ 1) :
    (conOf C p).Holds x ↔ x p.1 = if p.2 then 1 else 0 := by
  obtain ⟨v, b⟩ := p
  simp only at h
  cases hw : C.wrapEq <;> cases b <;>
    simp only [conOf, Con.Holds, hw, sn, rh, rhsInt, List.map_cons, List.map_nil, List.sum_cons, List.sum_nil, one_mul, add_zero,
      if_true, Bool.false_eq_true, if_false, Int.cast_zero, Int.cast_one]
  · exact ⟨fun h' => le_antisymm h' h.1, fun h' => h'.le⟩
  · exact ⟨fun h' => le_antisymm h.2 h', fun h' => h'.ge⟩

theorem rows_holds (D : Data) (x : String → ℚ) : (∀ c ∈ rows D, c.Holds x) ↔ RowsHold D x := by
  simp only [rows, RowsHold, List.mem_map, List.mem_range]
  constructor
  · intro h j hj
    have := h _ ⟨j, hj, rfl⟩
    simpa [Con.Holds, List.map_map, Function.comp_def] using this
  · rintro h c ⟨j, hj, rfl⟩
    have := h j hj
    simpa [Con.Holds, List.map_map, Function.comp_def] using this

theorem feasible_iff {D : Data} (C : Cfg) {F : Fixing} (hF : ∀ p ∈ F, p.1 ∈ D.vars) (x : String → ℚ) :
    Feasible D.vars (rows D ++ F.map (conOf C)) x ↔ Relax D F x := by
  unfold Feasible Relax
  rw [← rows_holds]
  constructor
  · rintro ⟨h1, h2⟩
    refine ⟨h1, fun c hc => h2 c (by simp [hc]), ?_⟩
    intro p hp
    exact (conOf_holds C p x (h1 p.1 (hF p hp))).1 (h2 _ (by
      rw [List.mem_append]; exact .inr (List.mem_map.2 ⟨p, hp, rfl⟩)))
  · rintro ⟨h1, h2, h3⟩
    refine ⟨h1, ?_⟩
    intro c hc
    rcases List.mem_append.1 hc with hc | hc
    · exact h2 c hc
    · obtain ⟨p, hp, rfl⟩ := List.mem_map.1 hc
      exact (conOf_holds C p x (h1 p.1 (hF p hp))).2 (h3 p hp)

theorem lin_objective (D : Data) (x : String → ℚ) : lin (objective D) x = value D x := by
  simp [lin, objective, value, List.map_map, Function.comp_def]

theorem over_prob {D : Data} (C : Cfg) {F : Fixing} (hF : ∀ p ∈ F, p.1 ∈ D.vars) :
    Over D.vars ⟨objective D, rows D ++ F.map (conOf C)⟩ := by
  constructor
  · intro p hp
    obtain ⟨i, hi, rfl⟩ := List.mem_map.1 hp
    exact hi
  · intro c hc
    rcases List.mem_append.1 hc with hc | hc
    · obtain ⟨j, _, rfl⟩ := List.mem_map.1 hc
      intro p hp
      obtain ⟨i, hi, rfl⟩ := List.mem_map.1 hp
      exact hi
    · obtain ⟨p, hp, rfl⟩ := List.mem_map.1 hc
      intro q hq
      simp only [conOf, List.mem_singleton] at hq
      rw [hq]; exact hF p hp

/-- what the solver tells about a node -/
def LpRes (D : Data) (F : Fixing) : Option (String → ℚ) → Prop
  | none => ∀ x, ¬ Relax D F x
  | some x => Relax D F x ∧ ∀ y, Relax D F y → value D y ≤ value D x

theorem lpRes {D : Data} {solve : Prob → Option (String → ℚ)} (hs : ExactSolver D.vars solve) (C : Cfg) {F : Fixing}
    (hF : ∀ p ∈ F, p.1 ∈ D.vars) : LpRes D F (solve ⟨objective D, rows D ++ F.map (conOf C)⟩) := by
  have h := hs _ (over_prob C hF)
  cases hr : solve ⟨objective D, rows D ++ F.map (conOf C)⟩ with
  | none =>
    rw [hr] at h
    intro x hx
    exact h x ((feasible_iff C hF x).2 hx)
  | some x =>
    rw [hr] at h
    refine ⟨(feasible_iff C hF x).1 h.1, ?_⟩
    intro y hy
    have := h.2 y ((feasible_iff C hF y).2 hy)
    rw [← lin_objective, ← lin_objective]
    exact this

theorem sol_relax {D : Data} {x : String → ℚ} (h : Sol D x) {F : Fixing} (hs : Sat F x) : Relax D F x := by
  refine ⟨?_, h.2, hs⟩
  intro v hv
  rcases h.1 v hv with e | e <;> rw [e] <;> constructor <;> norm_num

theorem vars_all {F : Fixing} {vars : List String} (hn : (F.map Prod.fst).Nodup) (hF : ∀ p ∈ F, p.1 ∈ vars)
    (hl : vars.length ≤ F.length) : ∀ v ∈ vars, v ∈ F.map Prod.fst := by
  have hsub : F.map Prod.fst ⊆ vars := by
    intro v hv
    obtain ⟨p, hp, rfl⟩ := List.mem_map.1 hv
    exact hF p hp
  have := (hn.subperm hsub).perm_of_length_le (by simpa using hl)
  intro v hv
  exact this.mem_iff.2 hv

theorem length_le {F : Fixing} {vars : List String} (hn : (F.map Prod.fst).Nodup) (hF : ∀ p ∈ F, p.1 ∈ vars) :
    F.length ≤ vars.length := by
  have hsub : F.map Prod.fst ⊆ vars := by
    intro v hv
    obtain ⟨p, hp, rfl⟩ := List.mem_map.1 hv
    exact hF p hp
  simpa using (hn.subperm hsub).length_le

theorem sat_integral {D : Data} {F : Fixing} (hn : (F.map Prod.fst).Nodup) (hF : ∀ p ∈ F, p.1 ∈ D.vars)
    (hl : D.vars.length ≤ F.length) {x : String → ℚ} (hx : Sat F x) : integral D x = true := by
  rw [integral_iff]
  intro v hv
  obtain ⟨p, hp, rfl⟩ := List.mem_map.1 (vars_all hn hF hl v hv)
  have := hx p hp
  cases hb : p.2
  · rw [hb] at this; exact .inl (by simpa using this)
  · rw [hb] at this; exact .inr (by simpa using this)

/-! ## The search tree -/

theorem attr_ok {a : AGraph Nm} {n : Nm} {s : String} {x : Val Nm} (h : a.getNodeAttr n s = .ok x) : n ∈ a.V := by
  unfold AGraph.getNodeAttr at h
  by_cases hn : n ∈ a.V
  · exact hn
  · rw [if_neg hn] at h; cases h

theorem Path.mem {a : AGraph Nm} {k : Nat} {F : Fixing} (h : Path a.getNodeAttr k F) : Nm.num k ∈ a.V := by
  cases h with
  | root h => exact attr_ok h
  | child _ h => exact attr_ok h

theorem Path.mono {at1 at2 : Nm → String → Except PyErr (Val Nm)} {n : Nm} (ho : ∀ m, m ≠ n → at2 m = at1 m)
    (hn : ∀ s x, at1 n s ≠ .ok x) {k : Nat} {F : Fixing} (h : Path at1 k F) : Path at2 k F := by
  induction h with
  | root h h' =>
    have : Nm.num 0 ≠ n := by rintro rfl; exact hn _ _ h
    exact .root (by rw [ho _ this]; exact h) (by rw [ho _ this]; exact h')
  | @child k p v b F h0 h1 h2 h3 h4 h5 _ ih =>
    have : Nm.num k ≠ n := by rintro rfl; exact hn _ _ h1
    exact .child h0 (by rw [ho _ this]; exact h1) (by rw [ho _ this]; exact h2) (by rw [ho _ this]; exact h3)
      (by rw [ho _ this]; exact h4) (by rw [ho _ this]; exact h5) ih

theorem Path.level {attr : Nm → String → Except PyErr (Val Nm)} {k : Nat} {F : Fixing} (h : Path attr k F) :
    attr (.num k) "level" = .ok (.int F.length) := by
  cases h with
  | root h => exact h
  | child _ _ _ _ _ h _ => rw [h]; rfl

theorem chain_ok {D : Data} (C : Cfg) {t : Tree Nm} {k : Nat} {F : Fixing} (h : Path t.g.getNodeAttr k F)
    (hF : ∀ p ∈ F, p.1 ∈ D.vars) : ∀ fuel, F.length < fuel → chain D C t fuel (.num k) = .ok (F.map (conOf C)) := by
  induction h with
  | root _ _ =>
    intro fuel hf
    obtain ⟨f, rfl⟩ : ∃ f, fuel = f + 1 := ⟨fuel - 1, by simp at hf; omega⟩
    simp [chain]
  | @child k p v b F h0 h1 h2 h3 h4 h5 _ ih =>
    intro fuel hf
    obtain ⟨f, rfl⟩ : ∃ f, fuel = f + 1 := ⟨fuel - 1, by simp at hf; omega⟩
    have hc : nodeCon D C t (.num k) = .ok (conOf C (v, b)) := by
      unfold nodeCon
      rw [h1, h2, h3]
      simp only []
      rw [← fixCon_ok C (hF (v, b) (by simp)) b]
      cases b <;> simp [senseStr, sn]
    have hne : Nm.num k ≠ .num 0 := by simpa using h0
    simp only [chain, if_neg hne, hc, h4]
    rw [ih (fun p hp => hF p (by simp [hp])) f (by simp at hf; omega)]
    rfl

/-- an entry of the queue stands for a list of fixed variables -/
def ItemOk (attr : Nm → String → Except PyErr (Val Nm)) (it : Item) (F : Fixing) : Prop :=
  match it with
  | .root => F = []
  | .node c p v s r => c ≠ 0 ∧ ∃ b G, F = (v, b) :: G ∧ s = sn b ∧ r = rh b ∧ Path attr p G

theorem ItemOk.mono {at1 at2 : Nm → String → Except PyErr (Val Nm)} {n : Nm} (ho : ∀ m, m ≠ n → at2 m = at1 m)
    (hn : ∀ s x, at1 n s ≠ .ok x) {it : Item} {F : Fixing} (h : ItemOk at1 it F) : ItemOk at2 it F := by
  cases it with
  | root => exact h
  | node c p v s r =>
    obtain ⟨h0, b, G, h1, h2, h3, h4⟩ := h
    exact ⟨h0, b, G, h1, h2, h3, h4.mono ho hn⟩

theorem depthOf_ok {t : Tree Nm} {it : Item} {F : Fixing} (h : ItemOk t.g.getNodeAttr it F) :
    depthOf t it = .ok F.length := by
  cases it with
  | root => rw [show F = [] from h]; rfl
  | node c p v s r =>
    obtain ⟨_, b, G, rfl, _, _, h4⟩ := h
    simp only [depthOf, h4.level]
    simp

theorem branchCons_ok {D : Data} (C : Cfg) {t : Tree Nm} {it : Item} {F : Fixing} (h : ItemOk t.g.getNodeAttr it F)
    (hF : ∀ p ∈ F, p.1 ∈ D.vars) {fuel : Nat} (hf : F.length ≤ fuel) :
    branchCons D C t fuel it = .ok (F.map (conOf C)) := by
  cases it with
  | root => rw [show F = [] from h]; rfl
  | node c p v s r =>
    obtain ⟨_, b, G, rfl, rfl, rfl, h4⟩ := h
    simp only [branchCons, fixCon_ok C (hF (v, b) (by simp)) b]
    rw [chain_ok C h4 (fun p hp => hF p (by simp [hp])) fuel (by simp at hf; omega)]
    rfl

/-- the attributes of a new node that come from the branching -/
def RestAttrs (attr : Nm → String → Except PyErr (Val Nm)) : Item → Prop
  | .root => attr (.num 0) "parent" = .ok .none
  | .node c p v s r => attr (.num c) "parent" = .ok (.name (.num p)) ∧ attr (.num c) "branch_var" = .ok (.str v) ∧
      attr (.num c) "sense" = .ok (.str s.str) ∧ attr (.num c) "rhs" = .ok (.int r)

/-- the attributes that a new node gets -/
structure NewAttrs (attr : Nm → String → Except PyErr (Val Nm)) (it : Item) (F : Fixing) (status color : String) : Prop where
  status : attr (.num it.idx) "status" = .ok (.str status)
  color : attr (.num it.idx) "color" = .ok (.str color)
  level : attr (.num it.idx) "level" = .ok (.int F.length)
  rest : RestAttrs attr it

/-- the edges that a new node gets -/
def newEdges : Item → List (Nm × Nm)
  | .root => []
  | .node c p _ _ _ => [(.num p, .num c)]

theorem addToTree_ok {t : Tree Nm} {a : AGraph Nm} (h : Rep t.g a) (hd : a.directed = true) {it : Item} {F : Fixing}
    (hi : ItemOk a.getNodeAttr it F) {iter : Nat} (hiter : it = .root ↔ iter = 0) (hf : Nm.num it.idx ∉ a.V) (st : Status)
    (color : String) : ∃ t' a', (addToTree iter st color it).run t = .ok () t' ∧ Rep t'.g a' ∧ a'.directed = true ∧
      a'.V = a.V ++ [.num it.idx] ∧ a'.E = a.E ++ newEdges it ∧ (∀ m, m ≠ .num it.idx → a'.getNodeAttr m = a.getNodeAttr m) ∧
      NewAttrs a'.getNodeAttr it F st.str color := by
  cases it with
  | root =>
    rw [show F = [] from hi]
    have h0 : iter = 0 := hiter.1 rfl
    have hf : Nm.num 0 ∉ a.V := hf
    obtain ⟨g', h1, h2⟩ := addRoot_ok h hd hf [("status", .str st.str), ("color", .str color)]
    refine ⟨⟨g', some (.num 0)⟩, _, ?_, h2, hd, rfl, (List.append_nil _).symm, ?_, ?_⟩
    · unfold addToTree; rw [if_pos h0]; exact h1
    · intro m hm
      have hm : m ≠ .num 0 := hm
      funext s
      simp [AGraph.getNodeAttr, rootG, AGraph.upd, hm]
    · constructor <;> simp [RestAttrs, AGraph.getNodeAttr, rootG, AGraph.upd, Item.idx, AGraph.kw]
  | node c p v s r =>
    obtain ⟨h0, b, G, rfl, rfl, rfl, h4⟩ := hi
    have hit : iter ≠ 0 := fun e => by cases hiter.2 e
    have hp : Nm.num p ∈ a.V := h4.mem
    have hk : a.na (.num p) "level" = some (.int G.length) := by
      have := h4.level
      simp only [AGraph.getNodeAttr, if_pos hp, Except.ok.injEq] at this
      cases hx : a.na (.num p) "level" with
      | none => rw [hx] at this; cases this
      | some x => rw [hx] at this; rw [← this]; rfl
    have hf : Nm.num c ∉ a.V := hf
    obtain ⟨g1, h1, h2⟩ := addChild_ok h hd hp hk hf [("branch_var", .str v), ("sense", .str (sn b).str), ("rhs", .int (rh b)),
        ("status", .str st.str), ("color", .str color)]
    obtain ⟨a1, ha1⟩ : ∃ a1, a1 = childG a (Nm.num c) (.num p) G.length [("branch_var", .str v), ("sense", .str (sn b).str),
        ("rhs", .int (rh b)), ("status", .str st.str), ("color", .str color)] := ⟨_, rfl⟩
    rw [← ha1] at h2
    have hE : (Nm.num p, Nm.num c) ∈ a1.E := by rw [ha1]; simp [childG]
    have hk1 : a1.key? (.num p) (.num c) = some (.num p, .num c) := by unfold AGraph.key?; rw [if_pos hE]
    have hst : (a1.step (.setEdgeAttr (.num p) (.num c) "label" (.str (v ++ (sn b).str ++ toString (rh b))))).1 = none := by
      simp only [AGraph.step, hk1]
    have hd1 : a1.directed = true := by rw [ha1]; exact hd
    obtain ⟨g2, h3, h5⟩ := lift_ok (t := { t with g := g1 }) h2 hd1 _ hst
    obtain ⟨a2, ha2⟩ : ∃ a2, a2 = (a1.step (.setEdgeAttr (.num p) (.num c) "label" (.str (v ++ (sn b).str ++ toString (rh b))))).2 := ⟨_, rfl⟩
    rw [← ha2] at h5
    have hV2 : a2.V = a.V ++ [.num c] := by rw [ha2]; simp only [AGraph.step, hk1]; rw [ha1]; rfl
    have hna2 : a2.na = a1.na := by rw [ha2]; simp only [AGraph.step, hk1]
    have hE2 : a2.E = a.E ++ [(.num p, .num c)] := by rw [ha2]; simp only [AGraph.step, hk1]; rw [ha1]; rfl
    have hd2 : a2.directed = true := by rw [ha2]; simp only [AGraph.step, hk1]; exact hd1
    refine ⟨⟨g2, t.root⟩, a2, ?_, h5, hd2, hV2, hE2, ?_, ?_⟩
    · unfold addToTree
      rw [if_neg hit]
      simp only []
      rw [tm_bind, h1]
      exact h3
    · intro m hm
      have hm : m ≠ .num c := hm
      funext x
      simp [AGraph.getNodeAttr, hV2, hna2, ha1, childG, AGraph.upd, hm]
    · constructor <;> simp [RestAttrs, AGraph.getNodeAttr, hV2, hna2, ha1, childG, AGraph.upd, Item.idx, AGraph.kw]

theorem NewAttrs.path {attr : Nm → String → Except PyErr (Val Nm)} {it : Item} {F : Fixing} {s c : String}
    (h : NewAttrs attr it F s c) (hi : ItemOk attr it F) : Path attr it.idx F := by
  cases it with
  | root =>
    rw [show F = [] from hi]
    have := h.level
    rw [show F = [] from hi] at this
    exact .root this h.rest
  | node c p v s r =>
    obtain ⟨h0, b, G, rfl, rfl, rfl, h4⟩ := hi
    obtain ⟨h1, h2, h3, h5⟩ := h.rest
    rw [sn_str] at h3
    exact .child h0 h2 h3 h5 h1 h.level h4

end BB
end GiMPy
