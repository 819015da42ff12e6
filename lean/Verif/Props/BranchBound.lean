import Verif.Lemmas.BranchBound3
import Verif.Lemmas.LinearProgram

/-! # The branch and bound program (examples/BB.py) -/

namespace GiMPy
namespace BB
open Tree MinCost

section
variable {Q : Type} {B : BQ Q} {items : Q → List (Item × ℚ)} {newQ : Q} {D : Data} {solve : Prob → Option (String → ℚ)}

/-- C97.  The program stops after at most 2^(n+1) - 1 linear programs, without an exception.  If the instance has a solution with
an objective above -9999, then `opt` is an optimal solution and `LB` its value; otherwise nothing has changed: `LB` is -9999
and `opt` is 0. -/
theorem C97_optimal (hB : LawfulBQ B items) (hq : items newQ = []) (hs : ExactSolver D.vars solve) (C : Cfg) {fuel : Nat}
    (hf : 2 ^ (D.vars.length + 1) ≤ fuel) :
    ∃ st, run B newQ D solve C fuel = .ok st ∧ st.lpCount ≤ 2 ^ (D.vars.length + 1) - 1 ∧
      ((∃ x, Sol D x ∧ -9999 < value D x) →
        Sol D st.opt ∧ st.lb = value D st.opt ∧ ∀ x, Sol D x → value D x ≤ value D st.opt) ∧
      ((∀ x, Sol D x → value D x ≤ -9999) → st.lb = -9999 ∧ ∀ v, st.opt v = 0) := by
  obtain ⟨st, a, F, h1, h⟩ := run_ok hB hq hs C hf
  have hI : (-INFINITY : ℚ) = -9999 := rfl
  have hcov : ∀ x, Sol D x → value D x ≤ st.lb := by
    intro x hx
    rcases h.cover x hx with h2 | ⟨e, he, _⟩
    · exact h2
    · simp at he
  have hinc := h.inc
  rw [hI] at hinc
  refine ⟨st, h1, ?_, ?_, ?_⟩
  · have := h.pot
    rw [h.count.2]
    simpa using this
  · rintro ⟨x, hx, hlt⟩
    rcases hinc with ⟨h2, _⟩ | ⟨h2, h3, _⟩
    · have := hcov x hx
      rw [h2] at this
      exact absurd this (not_le.2 hlt)
    · exact ⟨h2, h3, fun y hy => by rw [← h3]; exact hcov y hy⟩
  · intro hall
    rcases hinc with h2 | ⟨h2, h3, h4⟩
    · exact h2
    · have := hall _ h2
      rw [← h3] at this
      exact absurd this (not_le.2 h4)

/-- C97 for the generated instances (BB.py 78-92): no right-hand side is negative, so 0 is a solution. -/
theorem C97_generated (hB : LawfulBQ B items) (hq : items newQ = []) (hs : ExactSolver D.vars solve) (C : Cfg) {fuel : Nat}
    (hf : 2 ^ (D.vars.length + 1) ≤ fuel) (hr : ∀ j < D.numCons, 0 ≤ D.rhs j) :
    ∃ st, run B newQ D solve C fuel = .ok st ∧ Sol D st.opt ∧ st.lb = value D st.opt ∧
      ∀ x, Sol D x → value D x ≤ value D st.opt := by
  obtain ⟨st, h1, _, h2, _⟩ := C97_optimal hB hq hs C hf
  refine ⟨st, h1, h2 ⟨fun _ => 0, ⟨fun _ _ => .inl rfl, ?_⟩, ?_⟩⟩
  · intro j hj
    simpa using hr j hj
  · simp [value]

/-- C98.  At the end every linear program belongs to a node of the tree: these are the root 0 and further numbers, as many as
`node_count`, `iter_count` and `lp_count` say.  The attributes of a node tell the variables fixed on the way to it.  Every node is
infeasible, has a solution or is pruned by the final bound, and then has no children, or it has two children in which a
fractional variable is fixed to 0 and to 1.  The edges are the pairs of parent and child. -/
theorem C98_search_tree (hB : LawfulBQ B items) (hq : items newQ = []) (hs : ExactSolver D.vars solve) (C : Cfg) {fuel : Nat}
    (hf : 2 ^ (D.vars.length + 1) ≤ fuel) :
    ∃ st, run B newQ D solve C fuel = .ok st ∧
      (∃ l : List Nat, st.t.g.getNodeList = [.key "C", .key "I", .key "S", .key "P"] ++ l.map .num ∧ l.Nodup ∧ 0 ∈ l ∧
        l.length = st.nodeCount ∧ st.lpCount = st.nodeCount ∧ st.iterCount = st.nodeCount ∧
        ∀ k ∈ l, ∃ G, Path st.t.g.getNodeAttr k G ∧ (G.map Prod.fst).Nodup ∧ (∀ p ∈ G, p.1 ∈ D.vars) ∧
          NodeOk D C st.t.g.getNodeAttr (fun c v b => st.t.g.getNodeAttr (.num c) "parent" = .ok (.name (.num k)) ∧
            st.t.g.getNodeAttr (.num c) "branch_var" = .ok (.str v) ∧
            st.t.g.getNodeAttr (.num c) "sense" = .ok (.str (senseStr b)) ∧
            st.t.g.getNodeAttr (.num c) "rhs" = .ok (.int (rhsInt b))) st.lb k G) ∧
      ∀ p y, (Nm.num p, y) ∈ st.t.g.getEdgeList ↔
        ∃ c, y = .num c ∧ st.t.g.getNodeAttr (.num c) "parent" = .ok (.name (.num p)) := by
  obtain ⟨st, a, F, h1, h⟩ := run_ok hB hq hs C hf
  have hat : st.t.g.getNodeAttr = a.getNodeAttr := by funext n s; exact getNodeAttr_rep h.rep n s
  have hc := h.count
  simp only [List.length_nil, add_zero] at hc
  have hone := h.one
  refine ⟨st, h1, ?_, ?_⟩
  · obtain ⟨l, h2, h3, h4, _⟩ := h.vis
    have hmem : ∀ k, k ∈ l ↔ Nm.num k ∈ a.V := by intro k; rw [h2]; simp
    refine ⟨l, h.rep.V.trans h2, h4, ?_, by rw [h3, hc.1], by rw [hc.2, hc.1], hc.1, ?_⟩
    · rw [hmem]; exact h.zero (by omega)
    · intro k hk
      obtain ⟨G, h5, h6, h7⟩ := h.node k ((hmem k).1 hk)
      rw [hat]
      refine ⟨G, h5, h6.1, h6.2, h7.mono rfl ?_ (le_refl _)⟩
      funext c v b
      simp [Kid]
  · intro p y
    rw [hat, ← h.edge]
    show (Nm.num p, y) ∈ st.t.g.edgeAttr.keys ↔ _
    rw [h.rep.E]

/-- C99.  The colour of a node that has been branched stays yellow (BB.py 381 sets an attribute that is called like the colour
instead of the attribute `color`). -/
theorem C99_stays_yellow_partial (hB : LawfulBQ B items) (hq : items newQ = []) (hs : ExactSolver D.vars solve) (C : Cfg)
    {fuel : Nat} (hf : 2 ^ (D.vars.length + 1) ≤ fuel) :
    ∃ st, run B newQ D solve C fuel = .ok st ∧ ∀ k y, (Nm.num k, y) ∈ st.t.g.getEdgeList →
      st.t.g.getNodeAttr (.num k) "color" = .ok (.str "yellow") ∧ st.t.g.getNodeAttr (.num k) "yellow" = .ok (.str "green") := by
  obtain ⟨st, a, F, h1, h⟩ := run_ok hB hq hs C hf
  have hat : st.t.g.getNodeAttr = a.getNodeAttr := by funext n s; exact getNodeAttr_rep h.rep n s
  refine ⟨st, h1, ?_⟩
  intro k y hy
  have hy : (Nm.num k, y) ∈ a.E := by rw [← h.rep.E]; exact hy
  obtain ⟨c, rfl, hc⟩ := (h.edge k y).1 hy
  have hk : Nm.num k ∈ a.V := by
    have := (h.rep.wf.endp _ _ (by rw [h.rep.E]; exact hy)).1
    rwa [h.rep.V] at this
  obtain ⟨G', hG', _, _⟩ := h.node c (attr_ok hc)
  have hkid : ∃ v b, Kid a.getNodeAttr [] c k v b := by
    cases hG' with
    | root _ hr => rw [hr] at hc; cases hc
    | child a0 a1 a2 a3 a4 a5 a6 =>
      rw [a4] at hc
      simp only [Except.ok.injEq, Val.name.injEq, Nm.num.injEq] at hc
      subst hc
      exact ⟨_, _, .inl ⟨a4, a1, a2, a3⟩⟩
  obtain ⟨v, b, hkid⟩ := hkid
  obtain ⟨G, _, _, hn⟩ := h.node k hk
  rw [hat]
  cases hn with
  | infeasible _ _ _ hno => exact absurd hkid (hno c v b)
  | sol _ _ _ hno => exact absurd hkid (hno c v b)
  | pruned _ _ _ _ _ hno => exact absurd hkid (hno c v b)
  | candidate _ _ _ _ h2 h3 => exact ⟨h2, h3⟩

theorem reach_inv (hB : LawfulBQ B items) (hq : items newQ = []) (hs : ExactSolver D.vars solve) (C : Cfg) {fuel : Nat}
    (hf : D.vars.length ≤ fuel) {st : State Q} (h : Reach B newQ D solve C fuel st) : ∃ a F, Inv D C st a (items st.q) F := by
  induction h with
  | start => exact ⟨a0, _, start_inv hB hq D C⟩
  | @next st st' _ hne ht ih =>
    obtain ⟨a, F, h⟩ := ih
    obtain ⟨x, p, q', h1, h2, _⟩ := hB.pop st.q (fun h' => by rw [(hB.isEmpty_iff _).2 h'] at hne; cases hne)
    have h3 : Inv D C { st with q := q' } a ((x, p) :: items q') F := (h.perm h2).queue q'
    obtain ⟨st2, a', F', h4, _, h5⟩ := step_ok hB hs C hf (e := (x, p)) h3
    unfold turn at ht
    rw [h1] at ht
    have h4' : step B D solve C fuel x { st with q := q' } = .ok st2 := h4
    simp only [h4', Except.ok.injEq] at ht
    rw [← ht]
    exact ⟨a', F', h5⟩

theorem Path.unique {attr : Nm → String → Except PyErr (Val Nm)} {k : Nat} {F G : Fixing} (h : Path attr k F)
    (h' : Path attr k G) : F = G := by
  induction h generalizing G with
  | root _ _ =>
    cases h' with
    | root => rfl
    | child h0 => exact absurd rfl h0
  | @child k p v b F h0 h1 h2 h3 h4 _ _ ih =>
    cases h' with
    | root => exact absurd rfl h0
    | @child _ p' v' b' F' _ k1 k2 _ k4 _ k6 =>
      have e1 := h1.symm.trans k1
      have e2 := h2.symm.trans k2
      have e4 := h4.symm.trans k4
      simp only [Except.ok.injEq, Val.str.injEq, Val.name.injEq, Nm.num.injEq] at e1 e2 e4
      rw [← e4] at k6
      have hb : b = b' := by cases b <;> cases b' <;> first | rfl | (simp [senseStr] at e2)
      rw [ih k6, e1, hb]

theorem IsBound.unique {G : Fixing} {r s : ℚ} (h : IsBound D G r) (h' : IsBound D G s) : r = s := by
  obtain ⟨⟨x, h1, h2⟩, h3⟩ := h
  obtain ⟨⟨y, k1, k2⟩, k3⟩ := h'
  have := h3 y k1
  have := k3 x h1
  linarith

/-- what is taken from the queue has the least priority -/
theorem pop_min (hB : LawfulBQ B items) (hq : items newQ = []) (hs : ExactSolver D.vars solve) (C : Cfg) {fuel : Nat}
    (hf : D.vars.length ≤ fuel) {st : State Q} (h : Reach B newQ D solve C fuel st) {c p : Nat} {v : String} {s : Sense} {r : Int}
    {q : Q} (hp : B.pop st.q = some (.node c p v s r, q)) {e : Item × ℚ} (he : e ∈ items st.q) {c' p' : Nat} {v' : String}
    {s' : Sense} {r' : Int} (hee : e.1 = .node c' p' v' s' r') :
    ∃ G G' pr pr', Path st.t.g.getNodeAttr p G ∧ Path st.t.g.getNodeAttr p' G' ∧ PrioOk D C ((v, decide (s = .ge)) :: G) pr ∧
      PrioOk D C ((v', decide (s' = .ge)) :: G') pr' ∧ pr ≤ pr' := by
  obtain ⟨a, F, hi⟩ := reach_inv hB hq hs C hf h
  have hat : st.t.g.getNodeAttr = a.getNodeAttr := by funext n s; exact getNodeAttr_rep hi.rep n s
  have key : ∀ x ∈ items st.q, ∀ c p v s r, x.1 = Item.node c p v s r →
      ∃ G, Path st.t.g.getNodeAttr p G ∧ PrioOk D C ((v, decide (s = .ge)) :: G) x.2 := by
    intro x hx c p v s r hxe
    have h1 := (hi.item x hx).1
    have h2 := hi.prio x hx (by rw [hxe]; simp)
    rw [hxe] at h1
    obtain ⟨_, b, G, g1, g2, g3, g4⟩ := h1
    refine ⟨G, by rw [hat]; exact g4, ?_⟩
    rw [hxe, g1] at h2
    have : decide (s = .ge) = b := by rw [g2]; cases b <;> decide
    rw [this]
    exact h2
  obtain ⟨x, pr, q', h1, h2, h3⟩ := hB.pop st.q (fun h' => by rw [h'] at he; simp at he)
  rw [hp] at h1
  simp only [Option.some.injEq, Prod.mk.injEq] at h1
  obtain ⟨G, g1, g2⟩ := key (x, pr) (h2.mem_iff.2 (by simp)) c p v s r h1.1.symm
  obtain ⟨G', g3, g4⟩ := key e he c' p' v' s' r' hee
  exact ⟨G, G', pr, e.2, g1, g3, g2, g4, h3 e he⟩

/-- C100.  With DEPTH_FIRST the node that is taken from the queue is a deepest one. -/
theorem C100_depth_first (hB : LawfulBQ B items) (hq : items newQ = []) (hs : ExactSolver D.vars solve) (C : Cfg) {fuel : Nat}
    (hf : D.vars.length ≤ fuel) (hC : C.strategy = .depthFirst) {st : State Q} (h : Reach B newQ D solve C fuel st)
    {c p : Nat} {v : String} {s : Sense} {r : Int} {q : Q} (hp : B.pop st.q = some (.node c p v s r, q)) :
    ∀ e ∈ items st.q, ∀ c' p' v' s' r', e.1 = .node c' p' v' s' r' →
      ∃ d d' : Int, st.t.g.getNodeAttr (.num p) "level" = .ok (.int d) ∧ st.t.g.getNodeAttr (.num p') "level" = .ok (.int d') ∧
        d' ≤ d := by
  intro e he c' p' v' s' r' hee
  obtain ⟨G, G', pr, pr', h1, h2, h3, h4, h5⟩ := pop_min hB hq hs C hf h hp he hee
  refine ⟨G.length, G'.length, h1.level, h2.level, ?_⟩
  rw [h3.1 hC, h4.1 hC] at h5
  simp only [List.length_cons, neg_le_neg_iff, Nat.cast_le] at h5
  omega

/-- C101.  With BEST_FIRST (and bounding) the node that is taken from the queue is one whose parent has the least, that is the
worst, bound. -/
theorem C101_least_bound_partial (hB : LawfulBQ B items) (hq : items newQ = []) (hs : ExactSolver D.vars solve) (C : Cfg)
    {fuel : Nat} (hf : D.vars.length ≤ fuel) (hC : C.strategy = .bestFirst) (hc : C.complete = false) {st : State Q}
    (h : Reach B newQ D solve C fuel st) {c p : Nat} {v : String} {s : Sense} {r : Int} {q : Q}
    (hp : B.pop st.q = some (.node c p v s r, q)) :
    ∀ e ∈ items st.q, ∀ c' p' v' s' r', e.1 = .node c' p' v' s' r' →
      ∃ G G' b b', Path st.t.g.getNodeAttr p G ∧ Path st.t.g.getNodeAttr p' G' ∧ IsBound D G b ∧ IsBound D G' b' ∧ b ≤ b' := by
  intro e he c' p' v' s' r' hee
  obtain ⟨G, G', pr, pr', h1, h2, h3, h4, h5⟩ := pop_min hB hq hs C hf h hp he hee
  exact ⟨G, G', pr, pr', h1, h2, h3.2 hC hc, h4.2 hC hc, h5⟩

end

/-! ## Instances -/

/-- maximise x with 2x ≤ 1 -/
def D1 : Data := ⟨["x"], 1, fun _ => 1, fun _ _ => 2, fun _ => 1⟩

theorem D1_sol (x : String → ℚ) : Sol D1 x ↔ x "x" = 0 := by
  simp only [Sol, RowsHold, D1, List.mem_singleton, forall_eq, List.map_cons, List.map_nil, List.sum_cons, List.sum_nil, add_zero,
    Nat.lt_one_iff]
  constructor
  · rintro ⟨h | h, h2⟩
    · exact h
    · rw [h] at h2; norm_num at h2
  · intro h
    rw [h]
    exact ⟨.inl rfl, by norm_num⟩

theorem D1_value (x : String → ℚ) : value D1 x = x "x" := by simp [value, D1]

theorem D1_half : Relax D1 [] (fun _ => 1 / 2) := by
  refine ⟨?_, ?_, ?_⟩
  · intro v _; norm_num
  · intro j _; simp [D1]
  · intro p hp; simp at hp

/-- C99 is false: in this instance the root is branched and does not become green, whatever the solver and the strategies are. -/
theorem C99_not_green {Q : Type} {B : BQ Q} {items : Q → List (Item × ℚ)} (hB : LawfulBQ B items) {newQ : Q}
    (hq : items newQ = []) {solve : Prob → Option (String → ℚ)} (hs : ExactSolver D1.vars solve) (C : Cfg) {fuel : Nat}
    (hf : 4 ≤ fuel) : ∃ st c, run B newQ D1 solve C fuel = .ok st ∧ (Nm.num 0, Nm.num c) ∈ st.t.g.getEdgeList ∧
      st.t.g.getNodeAttr (.num 0) "color" ≠ .ok (.str "green") := by
  have hf' : 2 ^ (D1.vars.length + 1) ≤ fuel := hf
  obtain ⟨st, h1, _, h2, _⟩ := C97_optimal hB hq hs C hf'
  obtain ⟨st2, k1, ⟨l, _, _, k4, _, _, _, k5⟩, k6⟩ := C98_search_tree hB hq hs C hf'
  obtain ⟨st3, l1, l2⟩ := C99_stays_yellow_partial hB hq hs C hf'
  rw [h1] at k1 l1
  cases k1
  cases l1
  have hlb : st.lb = 0 := by
    obtain ⟨h3, h4, _⟩ := h2 ⟨fun _ => 0, (D1_sol _).2 rfl, by rw [D1_value]; norm_num⟩
    rw [h4, D1_value]
    exact (D1_sol _).1 h3
  obtain ⟨G, g1, _, _, g2⟩ := k5 0 k4
  have hG : G = [] := by
    cases g1 with
    | root => rfl
    | child h0 => exact absurd rfl h0
  subst hG
  have hedge : ∃ c, (Nm.num 0, Nm.num c) ∈ st.t.g.getEdgeList := by
    cases g2 with
    | infeasible _ _ h3 _ => exact absurd D1_half (h3 _)
    | sol _ _ h3 _ =>
      obtain ⟨x, x1, _, _, x4⟩ := h3
      have := x4 _ D1_half
      rw [D1_value, D1_value, (D1_sol x).1 x1] at this
      norm_num at this
    | pruned _ _ _ _ h5 _ =>
      have := h5 _ D1_half
      rw [hlb, D1_value] at this
      norm_num at this
    | candidate v i j _ _ _ _ _ _ _ h7 =>
      exact ⟨i, (k6 0 (.num i)).2 ⟨i, rfl, ((h7 i v false).2 ⟨rfl, .inl ⟨rfl, rfl⟩⟩).1⟩⟩
  obtain ⟨c, hc⟩ := hedge
  refine ⟨st, c, h1, hc, ?_⟩
  rw [(l2 0 _ hc).1]
  simp

/-- an instance to which C97, C98 and C99 apply, with a solver and a queue that meet the laws -/
example (C : Cfg) : ∃ (solve : Prob → Option (String → ℚ)) (st : State (List (Item × ℚ))), ExactSolver D1.vars solve ∧
    run listBQ [] D1 solve C 4 = .ok st ∧ st.lb = 0 ∧ st.lpCount ≤ 3 := by
  obtain ⟨solve, hs⟩ := LP.exists_exactSolver D1.vars
  obtain ⟨st, h1, h2, h3, _⟩ := C97_optimal listBQ_lawful rfl hs C (fuel := 4) (by decide)
  obtain ⟨h4, h5, _⟩ := h3 ⟨fun _ => 0, (D1_sol _).2 rfl, by rw [D1_value]; norm_num⟩
  refine ⟨solve, st, hs, h1, ?_, h2⟩
  rw [h5, D1_value]
  exact (D1_sol _).1 h4

example : ∀ j < D1.numCons, 0 ≤ D1.rhs j := by intro j _; simp [D1]

/-- maximise -10000 x with x ≥ 1 -/
def D2 : Data := ⟨["x"], 1, fun _ => -10000, fun _ _ => -1, fun _ => -1⟩

/-- C102 is false: this instance has the only solution x = 1, and the program prints x = 0 with the value -9999. -/
theorem C102_sentinel {Q : Type} {B : BQ Q} {items : Q → List (Item × ℚ)} (hB : LawfulBQ B items) {newQ : Q}
    (hq : items newQ = []) {solve : Prob → Option (String → ℚ)} (hs : ExactSolver D2.vars solve) (C : Cfg) {fuel : Nat}
    (hf : 4 ≤ fuel) : ∃ st, run B newQ D2 solve C fuel = .ok st ∧ Sol D2 (fun _ => 1) ∧ (∀ x, Sol D2 x → x "x" = 1) ∧
      st.opt "x" = 0 ∧ ¬ Sol D2 st.opt ∧ st.lb = -9999 ∧ value D2 (fun _ => 1) = -10000 := by
  have hf' : 2 ^ (D2.vars.length + 1) ≤ fuel := hf
  have hsol : ∀ x, Sol D2 x ↔ x "x" = 1 := by
    intro x
    simp only [Sol, RowsHold, D2, List.mem_singleton, forall_eq, List.map_cons, List.map_nil, List.sum_cons, List.sum_nil, add_zero,
      Nat.lt_one_iff]
    constructor
    · rintro ⟨h | h, h2⟩
      · rw [h] at h2; norm_num at h2
      · exact h
    · intro h
      rw [h]
      exact ⟨.inr rfl, by norm_num⟩
  have hval : ∀ x, value D2 x = -10000 * x "x" := by intro x; simp [value, D2]
  obtain ⟨st, h1, _, _, h2⟩ := C97_optimal hB hq hs C hf'
  obtain ⟨h3, h4⟩ := h2 (by intro x hx; rw [hval, (hsol x).1 hx]; norm_num)
  refine ⟨st, h1, (hsol _).2 rfl, fun x hx => (hsol x).1 hx, h4 _, ?_, h3, by rw [hval]; norm_num⟩
  rw [hsol, h4]
  norm_num

/-- C102, what is true: if there is a solution with an objective above -9999, what is printed is a solution, and its value is
printed. -/
theorem C102_printed_partial {Q : Type} {B : BQ Q} {items : Q → List (Item × ℚ)} (hB : LawfulBQ B items) {newQ : Q}
    (hq : items newQ = []) {D : Data} {solve : Prob → Option (String → ℚ)} (hs : ExactSolver D.vars solve) (C : Cfg) {fuel : Nat}
    (hf : 2 ^ (D.vars.length + 1) ≤ fuel) (hx : ∃ x, Sol D x ∧ -9999 < value D x) :
    ∃ st, run B newQ D solve C fuel = .ok st ∧ Sol D st.opt ∧ st.lb = value D st.opt := by
  obtain ⟨st, h1, _, h2, _⟩ := C97_optimal hB hq hs C hf
  obtain ⟨h3, h4, _⟩ := h2 hx
  exact ⟨st, h1, h3, h4⟩

example : ∃ x, Sol D1 x ∧ -9999 < value D1 x := ⟨fun _ => 0, (D1_sol _).2 rfl, by rw [D1_value]; norm_num⟩

/-- maximise 4a + 3b + 2c with 2a + 2b + 2c ≤ 3 -/
def D3 : Data := ⟨["a", "b", "c"], 1, fun v => if v = "a" then 4 else if v = "b" then 3 else 2, fun _ _ => 2, fun _ => 3⟩

/-- a point -/
def pt (a b c : ℚ) : String → ℚ := fun v => if v = "a" then a else if v = "b" then b else c

/-- the answers to the first three problems: nothing fixed, b = 0, b = 1 -/
def solve3 (P : Prob) : Option (String → ℚ) :=
  if P.cons.any (fun c => c.terms == [(1, "b")] && c.rhs == 0) then some (pt 1 0 (1 / 2))
  else if P.cons.any (fun c => c.terms == [(1, "b")] && c.rhs == 1) then some (pt (1 / 2) 1 0)
  else some (pt 1 (1 / 2) 0)

/-- bounding, BEST_FIRST and FIXED, as in the repository -/
def C3 : Cfg := ⟨.fixed, .bestFirst, false, false⟩

/-- the queue after the first turns -/
def queueAfter (k : Nat) : Option (List (Item × ℚ)) :=
  ((List.range k).foldl (fun (r : Except PyErr (State (List (Item × ℚ)))) _ =>
    match r with | .error e => .error e | .ok st => turn listBQ D3 solve3 C3 5 st) (.ok (start listBQ []))).toOption.map (·.q)

theorem D3_relax (F : Fixing) (x : String → ℚ) : Relax D3 F x ↔ (0 ≤ x "a" ∧ x "a" ≤ 1) ∧ (0 ≤ x "b" ∧ x "b" ≤ 1) ∧
    (0 ≤ x "c" ∧ x "c" ≤ 1) ∧ 2 * x "a" + (2 * x "b" + 2 * x "c") ≤ 3 ∧ Sat F x := by
  simp [Relax, RowsHold, D3, and_assoc]

theorem D3_value (x : String → ℚ) : value D3 x = 4 * x "a" + (3 * x "b" + 2 * x "c") := by simp [value, D3]

/-- The bounds in C101_not_best are right, and the answers of the solver in these two turns are correct. -/
theorem C101_bounds : IsBound D3 [] (11 / 2) ∧ IsBound D3 [("b", false)] 5 ∧
    Exact D3.vars ⟨objective D3, rows D3⟩ (solve3 ⟨objective D3, rows D3⟩) ∧
    Exact D3.vars ⟨objective D3, rows D3 ++ [⟨[(1, "b")], .le, 0⟩]⟩ (solve3 ⟨objective D3, rows D3 ++ [⟨[(1, "b")], .le, 0⟩]⟩) := by
  have b0 : IsBound D3 [] (11 / 2) := by
    refine ⟨⟨pt 1 (1 / 2) 0, ?_, ?_⟩, ?_⟩
    · rw [D3_relax]; simp [pt, Sat]; norm_num
    · rw [D3_value]; simp [pt]; norm_num
    · intro y hy
      rw [D3_relax] at hy
      rw [D3_value]
      linarith [hy.1.2, hy.2.2.1.1, hy.2.2.2.1]
  have b1 : IsBound D3 [("b", false)] 5 := by
    refine ⟨⟨pt 1 0 (1 / 2), ?_, ?_⟩, ?_⟩
    · rw [D3_relax]; simp [pt, Sat]; norm_num
    · rw [D3_value]; simp [pt]; norm_num
    · intro y hy
      rw [D3_relax] at hy
      rw [D3_value]
      have hb : y "b" = 0 := by simpa using hy.2.2.2.2 ("b", false) (by simp)
      rw [hb] at hy ⊢
      linarith [hy.1.2, hy.2.2.1.1, hy.2.2.2.1]
  have f0 : ∀ x, Feasible D3.vars (rows D3) x ↔ Relax D3 [] x := by
    intro x
    have := feasible_iff (D := D3) C3 (F := []) (by simp) x
    simpa using this
  have f1 : ∀ x, Feasible D3.vars (rows D3 ++ [⟨[(1, "b")], .le, 0⟩]) x ↔ Relax D3 [("b", false)] x := by
    intro x
    have := feasible_iff (D := D3) C3 (F := [("b", false)]) (by simp [D3]) x
    simpa [conOf, C3, sn, rhsInt] using this
  have s0 : solve3 ⟨objective D3, rows D3⟩ = some (pt 1 (1 / 2) 0) := by
    unfold solve3
    rw [if_neg (by decide +kernel), if_neg (by decide +kernel)]
  have s1 : solve3 ⟨objective D3, rows D3 ++ [⟨[(1, "b")], .le, 0⟩]⟩ = some (pt 1 0 (1 / 2)) := by
    unfold solve3
    rw [if_pos (by decide +kernel)]
  refine ⟨b0, b1, ?_, ?_⟩
  · rw [s0]
    refine ⟨(f0 _).2 ?_, ?_⟩
    · rw [D3_relax]; simp [pt, Sat]; norm_num
    · intro y hy
      have h1 : lin (objective D3) y ≤ lin (objective D3) (pt 1 (1 / 2) 0) := by
        rw [lin_objective, lin_objective]
        refine (b0.2 y ((f0 y).1 hy)).trans (le_of_eq ?_)
        rw [D3_value]; simp [pt]; norm_num
      exact h1
  · rw [s1]
    refine ⟨(f1 _).2 ?_, ?_⟩
    · rw [D3_relax]; simp [pt, Sat]; norm_num
    · intro y hy
      have h1 : lin (objective D3) y ≤ lin (objective D3) (pt 1 0 (1 / 2)) := by
        rw [lin_objective, lin_objective]
        refine (b1.2 y ((f1 y).1 hy)).trans (le_of_eq ?_)
        rw [D3_value]; simp [pt]; norm_num
      exact h1

/-- a state to which C100 and C101 apply -/
theorem D1_taken (C : Cfg) : ∃ (solve : Prob → Option (String → ℚ)) (st : State (List (Item × ℚ))) (c p : Nat) (v : String) (s : Sense) (r : Int)
    (q : List (Item × ℚ)), ExactSolver D1.vars solve ∧ Reach listBQ [] D1 solve C 4 st ∧
      listBQ.pop st.q = some (.node c p v s r, q) := by
  obtain ⟨solve, hs⟩ := LP.exists_exactSolver D1.vars
  have h0 := start_inv listBQ_lawful (newQ := []) rfl D1 C
  obtain ⟨x, p, q', h1, h2, _⟩ := listBQ_lawful.pop (start listBQ []).q (by simp [start, listBQ])
  have h3 : Inv D1 C { start listBQ [] with q := q' } a0 ((x, p) :: id q') (fun _ => []) := (h0.perm h2).queue q'
  obtain ⟨st, a, F, h4, h5, h6⟩ := step_ok listBQ_lawful hs C (fuel := 4) (by decide) (e := (x, p)) h3
  have hr : Reach listBQ [] D1 solve C 4 st := .next .start (by simp [start, listBQ]) (by unfold turn; rw [h1]; exact h4)
  have hit : st.iterCount = 1 := h5
  have hlb : st.lb ≤ 0 := by
    rcases h6.inc with ⟨h, _⟩ | ⟨h, h', _⟩
    · rw [h]; norm_num [INFINITY]
    · rw [h', D1_value, (D1_sol _).1 h]
  have hz := h6.zero (by omega)
  obtain ⟨G, g1, _, g2⟩ := h6.node 0 hz
  have hG : G = [] := by
    cases g1 with
    | root => rfl
    | child h0 => exact absurd rfl h0
  subst hG
  have hne : st.q ≠ [] := by
    cases g2 with
    | infeasible _ _ h3 _ => exact absurd D1_half (h3 _)
    | sol _ _ h3 _ =>
      obtain ⟨x, x1, _, _, x4⟩ := h3
      have := x4 _ D1_half
      rw [D1_value, D1_value, (D1_sol x).1 x1] at this
      norm_num at this
    | pruned _ _ _ _ h5 _ =>
      have := (h5 _ D1_half).trans hlb
      rw [D1_value] at this
      norm_num at this
    | candidate v i j _ _ _ _ _ _ hij h7 =>
      intro hq
      have hvis : ∀ k, Nm.num k ∈ a.V → k = 0 := by
        obtain ⟨l, l1, l2, _, _⟩ := h6.vis
        intro k hk
        rw [hit] at l2
        obtain ⟨m, rfl⟩ := List.length_eq_one_iff.1 l2
        rw [l1] at hk hz
        simp at hk hz
        rw [hk, hz]
      have k0 : ∀ c v b, Kid a.getNodeAttr (id st.q) c 0 v b → False := by
        intro c v b hk
        rcases hk with ⟨hk, _⟩ | ⟨pr, hk⟩
        · have := hvis c (attr_ok hk)
          subst this
          cases g1 with
          | root _ hp => rw [hp] at hk; cases hk
        · rw [hq] at hk; simp at hk
      exact k0 i v false ((h7 i v false).2 ⟨rfl, .inl ⟨rfl, rfl⟩⟩)
  obtain ⟨y, pr, q2, y1, y2, _⟩ := listBQ_lawful.pop st.q hne
  have hy : (y, pr) ∈ id st.q := y2.mem_iff.2 (by simp)
  have := h6.rootq (y, pr) hy
  cases y with
  | root =>
    have := this.1 rfl
    omega
  | node c p v s r => exact ⟨solve, st, c, p, v, s, r, q2, hs, hr, y1⟩

/-- C101 is false: after two turns the node 3 is in the queue, whose parent has the bound 11/2, and the node 4 is taken, whose parent
has the bound 5. -/
theorem C101_not_best : queueAfter 2 = some [(.node 3 0 "b" .ge 1, 11 / 2), (.node 4 2 "c" .le 0, 5), (.node 5 2 "c" .ge 1, 5)] ∧
    (listBQ.pop [(.node 3 0 "b" .ge 1, 11 / 2), (.node 4 2 "c" .le 0, 5), (.node 5 2 "c" .ge 1, 5)]).map Prod.fst =
      some (.node 4 2 "c" .le 0) := by decide +kernel

end BB
end GiMPy
