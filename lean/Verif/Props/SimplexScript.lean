import Verif.Props.SimplexTest
import Verif.Lemmas.Misc

/-! # C112: the comparison of network simplex with an LP solver, the script of simplex_test.py -/

namespace GiMPy
open MinCost MaxFlow Simplex STest
variable {N : Type} [DecidableEq N] {Q : Type} {g t : Graph N} {O : QOps N Q} {items : Q → List N}
variable {cap cost f : N × N → Int} {b : N → Int} {src snk root : N}
set_option linter.unusedSectionVars false

/-! ## specification: linear programs and solvers -/

/-- the constraints of a linear program -/
structure STest.Program.Feasible (p : Program N) (x : N × N → ℚ) : Prop where
  bounds : ∀ c ∈ p.cols, 0 ≤ x c.1 ∧ x c.1 ≤ (c.2.1 : ℚ)
  rows : ∀ r ∈ p.rows, (r.1.map x).sum - (r.2.1.map x).sum = (r.2.2 : ℚ)

/-- the objective -/
def STest.Program.value (p : Program N) (x : N × N → ℚ) : ℚ := (p.cols.map fun c => (c.2.2 : ℚ) * x c.1).sum

/-- an optimal solution -/
structure STest.Program.Optimal (p : Program N) (x : N × N → ℚ) : Prop where
  feasible : p.Feasible x
  least : ∀ y, p.Feasible y → p.value x ≤ p.value y

/-- a solver that returns the optimal value when there is one; otherwise it may return anything -/
def SolverLaw (solver : Program N → Option ℚ) : Prop := ∀ p x, p.Optimal x → solver p = some (p.value x)

/-! ## the linear program of the script -/

theorem columns_ok (hcap : ∀ u v, (u, v) ∈ g.getEdgeList → g.getEdgeAttr u v "capacity" = .ok (.int (cap (u, v))))
    (hcost : ∀ u v, (u, v) ∈ g.getEdgeList → g.getEdgeCost u v = .ok (cost (u, v))) : ∀ l : List (N × N),
    (∀ e ∈ l, e ∈ g.getEdgeList) → columns g l = .ok (l.map fun e => (e, cap e, cost e)) := by
  intro l
  induction l with
  | nil => exact fun _ => rfl
  | cons e l ih =>
    intro hl
    unfold columns
    rw [hcap e.1 e.2 (hl e (by simp)), hcost e.1 e.2 (hl e (by simp)), ih fun e he => hl e (by simp [he])]
    rfl

theorem sum_filter_ite (E : List (N × N)) (p : N × N → Prop) [DecidablePred p] (x : N × N → ℚ) :
    ((E.filter fun e => p e).map x).sum = (E.map fun e => if p e then x e else 0).sum := by
  induction E with
  | nil => rfl
  | cons e E ih =>
    by_cases h : p e
    · rw [List.filter_cons_of_pos (by simpa using h), List.map_cons, List.sum_cons, List.map_cons, List.sum_cons, if_pos h, ih]
    · rw [List.filter_cons_of_neg (by simpa using h), List.map_cons, List.sum_cons, if_neg h, ih, zero_add]

theorem row_out (hg : g.Wf) (hd : g.directed = true) {i : N} {l : List N} (hl : g.neighbors.get? i = some l) :
    (l.map fun j => (i, j)).Perm (g.getEdgeList.filter fun e => e.1 = i) := by
  have hp : l.Perm ((g.getEdgeList.filter fun e => e.1 = i).map Prod.snd) := by
    rw [List.perm_iff_count]
    intro v
    rw [Misc.count_fst]
    have := hg.out i v
    simp only [Graph.outc, hl, hd, Option.getD_some, if_true, Nat.add_zero] at this
    rw [this, Misc.ind_count hg]; rfl
  have h2 := hp.map fun j => (i, j)
  rw [List.map_map] at h2
  refine h2.trans ?_
  rw [show List.map ((fun j => (i, j)) ∘ Prod.snd) (g.getEdgeList.filter fun e => e.1 = i) = g.getEdgeList.filter fun e => e.1 = i from ?_]
  conv => rhs; rw [← List.map_id (g.getEdgeList.filter fun e => e.1 = i)]
  refine List.map_congr_left fun e he => ?_
  have := (List.mem_filter.1 he).2
  simp only [decide_eq_true_eq] at this
  subst this; rfl

theorem row_in (hg : g.Wf) (hd : g.directed = true) {i : N} {l : List N} (hl : g.inNeighbors.get? i = some l) :
    (l.map fun j => (j, i)).Perm (g.getEdgeList.filter fun e => e.2 = i) := by
  have hp : l.Perm ((g.getEdgeList.filter fun e => e.2 = i).map Prod.fst) := by
    rw [List.perm_iff_count]
    intro v
    rw [Misc.count_snd]
    have := hg.inn hd i v
    simp only [Graph.innc, hl, Option.getD_some] at this
    rw [this, Misc.ind_count hg]; rfl
  have h2 := hp.map fun j => (j, i)
  rw [List.map_map] at h2
  refine h2.trans ?_
  rw [show List.map ((fun j => (j, i)) ∘ Prod.fst) (g.getEdgeList.filter fun e => e.2 = i) = g.getEdgeList.filter fun e => e.2 = i from ?_]
  conv => rhs; rw [← List.map_id (g.getEdgeList.filter fun e => e.2 = i)]
  refine List.map_congr_left fun e he => ?_
  have := (List.mem_filter.1 he).2
  simp only [decide_eq_true_eq] at this
  subst this; rfl

theorem rowsOf_ok (hg : g.Wf) (hd : g.directed = true) (hb : ∀ v ∈ g.getNodeList, g.getNodeAttr v "demand" = .ok (.int (b v))) :
    ∀ l : List N, (∀ v ∈ l, v ∈ g.getNodeList) → ∃ rows, rowsOf g l = .ok rows ∧
      ∀ x : N × N → ℚ, (∀ r ∈ rows, (r.1.map x).sum - (r.2.1.map x).sum = (r.2.2 : ℚ)) ↔
        ∀ v ∈ l, - netK g.getEdgeList x v = (b v : ℚ) := by
  intro l
  induction l with
  | nil => exact fun _ => ⟨[], rfl, by simp⟩
  | cons i l ih =>
    intro hl
    obtain ⟨rows, h1, h2⟩ := ih fun v hv => hl v (by simp [hv])
    have hi := hl i (by simp)
    obtain ⟨out, ho⟩ : ∃ out, g.neighbors.get? i = some out := by
      cases h : g.neighbors.get? i with
      | none => exact absurd hi ((Dict.get?_eq_none_iff _ _).1 h)
      | some x => exact ⟨x, rfl⟩
    obtain ⟨inn, hn⟩ : ∃ inn, g.inNeighbors.get? i = some inn := by
      cases h : g.inNeighbors.get? i with
      | none =>
        have := (Dict.get?_eq_none_iff _ _).1 h
        rw [hg.inEq hd] at this
        exact absurd hi this
      | some x => exact ⟨x, rfl⟩
    have p1 := row_out hg hd ho
    have p2 := row_in hg hd hn
    have hmem : ∀ e ∈ (out.map fun j => (i, j)) ++ (inn.map fun j => (j, i)), e ∈ g.getEdgeList := by
      intro e he
      rcases List.mem_append.1 he with he | he
      · exact (List.mem_filter.1 (p1.mem_iff.1 he)).1
      · exact (List.mem_filter.1 (p2.mem_iff.1 he)).1
    refine ⟨(out.map fun j => (i, j), inn.map fun j => (j, i), b i) :: rows, ?_, fun x => ?_⟩
    · unfold rowsOf MinCost.demandOf Graph.getNeighbors Graph.getInNeighbors
      rw [hb i hi]
      simp only []
      rw [ho]
      simp only []
      rw [if_pos hd, hn]
      simp only []
      rw [if_pos hmem, h1]
    · simp only [List.mem_cons, forall_eq_or_imp]
      rw [h2 x]
      have q : ((out.map fun j => (i, j)).map x).sum - ((inn.map fun j => (j, i)).map x).sum = - netK g.getEdgeList x i := by
        rw [(p1.map x).sum_eq, (p2.map x).sum_eq, sum_filter_ite, sum_filter_ite]
        unfold netK
        ring
      rw [q]

/-- the linear program that the script hands to the solver is the one of C107 -/
theorem C112_program (hg : Built g) (hd : g.directed = true)
    (hcap : ∀ u v, (u, v) ∈ g.getEdgeList → g.getEdgeAttr u v "capacity" = .ok (.int (cap (u, v))))
    (hcost : ∀ u v, (u, v) ∈ g.getEdgeList → g.getEdgeCost u v = .ok (cost (u, v)))
    (hb : ∀ v ∈ g.getNodeList, g.getNodeAttr v "demand" = .ok (.int (b v))) : ∃ p, program g = .ok p ∧
      (∀ x, p.Feasible x ↔ LPFeasible g.getNodeList g.getEdgeList cap b x) ∧
      ∀ x, p.value x = (g.getEdgeList.map fun e => x e * (cost e : ℚ)).sum := by
  obtain ⟨rows, h1, h2⟩ := rowsOf_ok hg.wf hd hb g.getNodeList fun v hv => hv
  refine ⟨⟨_, rows⟩, by unfold program; rw [columns_ok hcap hcost _ fun e he => he, h1], fun x => ⟨fun h => ⟨?_, ?_⟩, fun h => ⟨?_, ?_⟩⟩,
    fun x => ?_⟩
  · exact fun e he => h.bounds (e, cap e, cost e) (List.mem_map_of_mem he)
  · exact (h2 x).1 h.rows
  · intro c hc
    obtain ⟨e, he, rfl⟩ := List.mem_map.1 hc
    exact h.within e he
  · exact (h2 x).2 h.meets
  · unfold Program.value
    rw [List.map_map]
    refine congrArg _ (List.map_congr_left fun e _ => ?_)
    simp only [Function.comp]
    ring

theorem objValue_ok (hcost : ∀ u v, (u, v) ∈ g.getEdgeList → g.getEdgeCost u v = .ok (cost (u, v))) (f : N × N → Int) :
    ∀ l : List (N × N), (∀ e ∈ l, e ∈ g.getEdgeList) → objValue g f l = .ok (totalCost l cost f) := by
  intro l
  induction l with
  | nil => exact fun _ => rfl
  | cons e l ih =>
    intro hl
    unfold objValue
    rw [hcost e.1 e.2 (hl e (by simp)), flowOf_ok (hl e (by simp)), ih fun e he => hl e (by simp [he])]
    simp only [totalCost, List.map_cons, List.sum_cons]
    rw [mul_comm]

/-- what the method of `mGraph` does on problems whose arcs are connected with the root and the first node, with the state of the graph afterwards -/
theorem networkSimplexM_ok (P : FlowProblem g cap cost b src snk) (hq : LawfulBag O items) {newQ : Q} (hnew : items newQ = [])
    (hJ : Joined g root)
    {pv : Pivot} (hpv : pv ≠ .other) (pi : N → Option Int) {fuel : Nat} (hf : Enough g cap b fuel) (pivots : Nat) :
    (networkSimplexM g O newQ src snk root pv pi fuel pivots = .error .diverge ∧
      ∃ f, IsFeasible g.getNodeList g.getEdgeList cap b f) ∨
    ∃ res f g' pi', networkSimplexM g O newQ src snk root pv pi fuel pivots = .ok (res, f, g', pi') ∧
      (res = true → IsMinCost g.getNodeList g.getEdgeList cap cost b f) ∧
      (res = false → ¬ ∃ f', IsFeasible g.getNodeList g.getEdgeList cap b f') ∧
      Built g' ∧ g'.directed = true ∧ g'.getNodeList = g.getNodeList ∧ g'.getEdgeList = g.getEdgeList ∧
      (∀ v x, g'.getNodeAttr v x = g.getNodeAttr v x) ∧ (∀ u v x, g'.getEdgeAttr u v x = g.getEdgeAttr u v x) := by
  have hs := C111_same P hq hnew hJ hpv pi hf pivots
  rcases C113_joined P hq hnew hJ hpv pi hf pivots with ⟨h1, h2⟩ | ⟨res, f, g', h1, h2, h3, h4, h5, h6, h7⟩
  · rw [h1] at hs
    refine .inl ⟨?_, h2⟩
    cases hr : networkSimplexM g O newQ src snk root pv pi fuel pivots with
    | error e => rw [hr] at hs; injection hs with hs; rw [hs]
    | ok r => rw [hr] at hs; cases hs
  · rw [h1] at hs
    cases hr : networkSimplexM g O newQ src snk root pv pi fuel pivots with
    | error e => rw [hr] at hs; cases hs
    | ok r =>
      obtain ⟨res', f', g'', pi'⟩ := r
      rw [hr] at hs
      simp only [Except.map, Except.ok.injEq, Prod.mk.injEq] at hs
      obtain ⟨rfl, rfl, rfl⟩ := hs
      have hf' := hf
      unfold Enough at hf'
      obtain ⟨r0, f0, g0, k1, _, _, k4, k5, _⟩ := C37_find_feasible_flow P.built P.dir hq hnew P.caps P.nonneg
        (fun u v _ => P.anti u v) P.demand P.balanced P.supply P.names.1 P.names.2.1 P.names.2.2 (fuel := fuel) (by
          generalize ((g.getEdgeList.map cap).sum + (g.getNodeList.map fun v => ((b v).natAbs : Int)).sum).toNat = K at hf' ⊢
          have hKm : K + 1 ≤ (g.getEdgeList.length + 1) * (K + 1) := Nat.le_mul_of_pos_left _ (by omega)
          omega)
      have hg0 : g'' = g0 := by
        unfold networkSimplexM at hr
        rw [k1] at hr
        cases r0 with
        | false => simp only [Except.ok.injEq, Prod.mk.injEq] at hr; exact hr.2.2.1.symm
        | true =>
          simp only [] at hr
          cases hs1 : setupM g0 root f0 ⟨fun _ => none, fun _ => none, fun _ => none⟩ pi fuel with
          | error e => rw [hs1] at hr; cases hr
          | ok st =>
            rw [hs1] at hr
            simp only [] at hr
            cases hs2 : mainLoopM g0 root pv fuel pivots st with
            | error e => rw [hs2] at hr; cases hr
            | ok st => rw [hs2] at hr; simp only [Except.ok.injEq, Prod.mk.injEq] at hr; exact hr.2.2.1.symm
      subst hg0
      exact .inr ⟨res', f', g'', pi', rfl, h2, h3, k4, k5, h4, h5, h6, h7⟩

theorem flowProblem_congr {g' : Graph N} (P : FlowProblem g cap cost b src snk) (hg : Built g') (hd : g'.directed = true)
    (hV : g'.getNodeList = g.getNodeList) (hE : g'.getEdgeList = g.getEdgeList) (hna : ∀ v x, g'.getNodeAttr v x = g.getNodeAttr v x)
    (hea : ∀ u v x, g'.getEdgeAttr u v x = g.getEdgeAttr u v x) : FlowProblem g' cap cost b src snk where
  built := hg
  dir := hd
  caps := fun u v h => by
    rw [capOf_congr P.built.wf P.dir hg.wf hd (by rw [← hE]; exact h) h (hea u v _)]
    exact P.caps u v (by rw [← hE]; exact h)
  nonneg := by rw [hE]; exact P.nonneg
  costs := fun u v h => by
    unfold Graph.getEdgeCost
    rw [hea]
    exact P.costs u v (by rw [← hE]; exact h)
  anti := by rw [hE]; exact P.anti
  demand := fun v hv => by rw [hna]; exact P.demand v (by rw [← hV]; exact hv)
  balanced := by rw [hV]; exact P.balanced
  supply := by rw [hV]; exact P.supply
  names := by rw [hV]; exact P.names

/-! ## the script -/

section
variable {R : Type} {E : Env R Q} {items : Q → List STest.Nm} {g : Graph STest.Nm} {d s : List (Nat × Nat)}

/-- one problem, from what `generate_graph` returns on -/
theorem seed_step (hP : Sane E.P) (hq : LawfulBag E.O items) (hnew : items E.newQ = []) (hsol : SolverLaw E.solver) {i : Nat}
    (hgen : generate E.P E.rnd (E.start i) E.fuel = .ok (g, d, s)) (hg : IsProblem E.P g d s)
    (hd : ∀ x ∈ d, STest.Nm.num x.1 ∈ g.getNodeList) (hs : ∀ x ∈ s, STest.Nm.num x.1 ∈ g.getNodeList)
    (hroot : STest.Nm.num 0 ∈ g.getNodeList) (hconn : ∀ u ∈ g.getNodeList, ∀ v ∈ g.getNodeList, EConn g.getEdgeList u v)
    (hf : Enough g (attrCap g) (attrDem g) E.fuel) (st : MState) :
    ((∃ pv ∈ [Pivot.firstEligible, Pivot.dantzig], ∃ g' pi,
      networkSimplexM g' E.O E.newQ .s .t (.num 0) pv pi E.fuel E.pivots = .error .diverge ∧
      FlowProblem g' (attrCap g) (attrCost g) (attrDem g) STest.Nm.s STest.Nm.t) ∧ seedStep E i st = .error .diverge) ∨
    (seedStep E i st = .ok st ∧ ¬ ∃ f, IsFeasible g.getNodeList g.getEdgeList (attrCap g) (attrDem g) f) ∨
    ∃ f, IsMinCost g.getNodeList g.getEdgeList (attrCap g) (attrCost g) (attrDem g) f ∧
      seedStep E i st = .ok ⟨some true, some (totalCost g.getEdgeList (attrCost g) f),
        st.lines ++ [(i, totalCost g.getEdgeList (attrCost g) f, totalCost g.getEdgeList (attrCost g) f,
          totalCost g.getEdgeList (attrCost g) f)]⟩ := by
  have F := C110_in_scope_partial hP hg hd hs
  unfold seedStep
  rw [hgen]
  simp only []
  rcases networkSimplexM_ok F hq hnew (.of_conn F.built.wf hconn hroot) (pv := .firstEligible) (by decide) (fun _ => none) hf E.pivots with
    ⟨h1, _⟩ | ⟨res, f, g1, pi1, h1, h2, h3, h4, h5, h6, h7, h8, h9⟩
  · refine .inl ⟨⟨_, by simp, _, _, h1, F⟩, ?_⟩
    rw [h1]
  rw [h1]
  cases res with
  | false => exact .inr (.inl ⟨rfl, h3 rfl⟩)
  | true =>
    have hm := h2 rfl
    have F1 := flowProblem_congr F h4 h5 h6 h7 h8 h9
    have hcap1 : ∀ u v, (u, v) ∈ g1.getEdgeList → g1.getEdgeAttr u v "capacity" = .ok (.int (attrCap g (u, v))) := by
      intro u v huv
      obtain ⟨c, hc, _⟩ := hg.caps u v (by rw [← h7]; exact huv)
      unfold attrCap
      rw [h9, hc]
    simp only []
    rw [objValue_ok F1.costs f _ fun e he => he]
    simp only []
    obtain ⟨p, p1, p2, p3⟩ := C112_program F1.built F1.dir hcap1 F1.costs F1.demand
    rw [p1]
    simp only []
    obtain ⟨π, hπ⟩ := LinFlow.potentials F.built F.dir F.anti F.caps F.costs hm
    have hlp := LinFlow.lp_of_potential (K := ℚ) (V := g.getNodeList) F.built.wf.nodup (fun e he => F.built.wf.endp e.1 e.2 he) F.anti hm.feasible π hπ
    have hopt : p.Optimal fun e => (f e : ℚ) := by
      refine ⟨(p2 _).2 ?_, fun y hy => ?_⟩
      · rw [h6, h7]; exact hlp.feasible
      · rw [p3, p3, h7]
        have := (p2 y).1 hy
        rw [h6, h7] at this
        exact hlp.least y this
    rw [hsol p _ hopt, p3]
    simp only []
    have hcast : (g1.getEdgeList.map fun e => (f e : ℚ) * (attrCost g e : ℚ)).sum = ((totalCost g.getEdgeList (attrCost g) f : Int) : ℚ) := by
      rw [h7]
      unfold totalCost
      generalize g.getEdgeList = l
      induction l with
      | nil => rfl
      | cons e l ih => simp only [List.map_cons, List.sum_cons, ih]; push_cast; rfl
    rw [hcast]
    have hnum : (((totalCost g.getEdgeList (attrCost g) f : Int) : ℚ).num.tdiv
        (((totalCost g.getEdgeList (attrCost g) f : Int) : ℚ).den : Int)) = totalCost g.getEdgeList (attrCost g) f := by
      rw [Rat.num_intCast, Rat.den_intCast]; simp
    rw [hnum]
    have hf1 : Enough g1 (attrCap g) (attrDem g) E.fuel := by unfold Enough; rw [h6, h7]; exact hf
    rcases networkSimplexM_ok F1 hq hnew (.of_conn F1.built.wf (by rw [h6, h7]; exact hconn) (by rw [h6]; exact hroot)) (pv := .dantzig) (by decide) pi1
      hf1 E.pivots with ⟨k1, _⟩ | ⟨res, f2, g2, pi2, k1, k2, k3, k4, k5, k6, k7, k8, k9⟩
    · refine .inl ⟨⟨_, by simp, _, _, k1, F1⟩, ?_⟩
      rw [k1]
    rw [k1]
    cases res with
    | false => exact absurd ⟨f, by rw [h6, h7]; exact hm.feasible⟩ (k3 rfl)
    | true =>
      have hm2 := k2 rfl
      rw [h6, h7] at hm2
      have F2 := flowProblem_congr F1 k4 k5 k6 k7 k8 k9
      simp only [if_true]
      rw [objValue_ok F2.costs f2 _ fun e he => he, k7, h7]
      have heq : totalCost g.getEdgeList (attrCost g) f2 = totalCost g.getEdgeList (attrCost g) f :=
        le_antisymm (hm2.least f hm.feasible) (hm.least f2 hm2.feasible)
      rw [heq]
      refine .inr (.inr ⟨f, hm, ?_⟩)
      simp [Except.map]

/-- a seed for which the problem is connected, with node 0 and all the nodes chosen for supply and demand, and for which the
bound on the loops other than the main loop of network simplex suffices -/
structure GoodSeed (E : Env R Q) (i : Nat) (g : Graph STest.Nm) : Prop where
  gen : ∃ d s, generate E.P E.rnd (E.start i) E.fuel = .ok (g, d, s) ∧ (∀ x ∈ d, STest.Nm.num x.1 ∈ g.getNodeList) ∧
    ∀ x ∈ s, STest.Nm.num x.1 ∈ g.getNodeList
  root : STest.Nm.num 0 ∈ g.getNodeList
  conn : ∀ u ∈ g.getNodeList, ∀ v ∈ g.getNodeList, EConn g.getEdgeList u v
  fuel : Enough g (attrCap g) (attrDem g) E.fuel

/-- the three numbers of a line are the least cost of a flow -/
def LineOK (g : Graph STest.Nm) (l : Nat × Int × Int × Int) : Prop :=
  ∃ f, IsMinCost g.getNodeList g.getEdgeList (attrCap g) (attrCost g) (attrDem g) f ∧
    l.2.1 = totalCost g.getEdgeList (attrCost g) f ∧ l.2.2.1 = totalCost g.getEdgeList (attrCost g) f ∧
    l.2.2.2 = totalCost g.getEdgeList (attrCost g) f

/-- the problem has a solution -/
def Solvable (g : Graph STest.Nm) : Prop := ∃ f, IsFeasible g.getNodeList g.getEdgeList (attrCap g) (attrDem g) f

open Classical in
theorem seedLoop_ok (hr : Lawful E.rnd) (hP : Sane E.P) (hq : LawfulBag E.O items) (hnew : items E.newQ = [])
    (hsol : SolverLaw E.solver) (G : Nat → Graph STest.Nm) : ∀ (seeds : List Nat) (st : MState), (∀ i ∈ seeds, GoodSeed E i (G i)) →
    seedLoop E seeds st = .error .diverge ∨ ∃ fl dz lines, seedLoop E seeds st = .ok ⟨fl, dz, st.lines ++ lines⟩ ∧
      lines.map Prod.fst = seeds.filter (fun i => decide (Solvable (G i))) ∧ (∀ l ∈ lines, LineOK (G l.1) l) ∧
      fl = if lines = [] then st.flag else some true := by
  intro seeds
  induction seeds with
  | nil => exact fun st _ => .inr ⟨st.flag, st.dz, [], by simp [seedLoop]⟩
  | cons i seeds ih =>
    intro st hs
    have hi := hs i (by simp)
    obtain ⟨d, s, h1, h2, h3⟩ := hi.gen
    have hg : IsProblem E.P (G i) d s := by
      rcases C110_generate hr hP (E.start i) E.fuel with h | ⟨g, d', s', h, h'⟩
      · rw [h] at h1; cases h1
      · rw [h] at h1
        simp only [Except.ok.injEq, Prod.mk.injEq] at h1
        obtain ⟨rfl, rfl, rfl⟩ := h1
        exact h'
    unfold seedLoop
    rcases seed_step hP hq hnew hsol h1 hg h2 h3 hi.root hi.conn hi.fuel st with ⟨_, h⟩ | ⟨h, h4⟩ | ⟨f, h4, h⟩
    · rw [h]; exact .inl rfl
    · rw [h]
      simp only []
      rcases ih st fun j hj => hs j (by simp [hj]) with h5 | ⟨fl, dz, lines, h5, h6, h7, h8⟩
      · exact .inl h5
      · refine .inr ⟨fl, dz, lines, h5, ?_, h7, h8⟩
        rw [List.filter_cons_of_neg (by rw [decide_eq_true_eq]; exact h4), h6]
    · rw [h]
      simp only []
      rcases ih _ fun j hj => hs j (by simp [hj]) with h5 | ⟨fl, dz, lines, h5, h6, h7, h8⟩
      · exact .inl h5
      · refine .inr ⟨fl, dz, (i, totalCost (G i).getEdgeList (attrCost (G i)) f, totalCost (G i).getEdgeList (attrCost (G i)) f,
          totalCost (G i).getEdgeList (attrCost (G i)) f) :: lines, ?_, ?_, ?_, ?_⟩
        · rw [h5]; simp only [List.append_assoc, List.singleton_append]
        · rw [List.filter_cons_of_pos (by rw [decide_eq_true_eq]; exact ⟨f, h4.feasible⟩), List.map_cons, h6]
        · intro l hl
          rcases List.mem_cons.1 hl with rfl | hl
          · exact ⟨f, h4, rfl, rfl, rfl⟩
          · exact h7 l hl
        · rw [h8]; simp

open Classical in
/-- **C112 (partial).** If all the problems are connected, contain node 0 and the nodes chosen for supply and demand, and the
solver returns the optimal value of every linear program that has one, then, unless some run of network simplex goes on for
ever: the script writes a line for exactly the problems that have a solution; the three numbers of a line agree, they are the
least cost of a flow; and the message is printed, unless no problem has a solution (then NameError).  Missing: problems
that are not connected or not balanced (C112_message_false, C109). -/
theorem C112_script_partial (hr : Lawful E.rnd) (hP : Sane E.P) (hq : LawfulBag E.O items) (hnew : items E.newQ = [])
    (hsol : SolverLaw E.solver) (G : Nat → Graph STest.Nm) (seeds : List Nat) (hs : ∀ i ∈ seeds, GoodSeed E i (G i)) :
    main E seeds = .error .diverge ∨ ((∀ i ∈ seeds, ¬ Solvable (G i)) ∧ main E seeds = .error .unboundLocal) ∨
    ∃ lines, main E seeds = .ok (true, lines) ∧ lines ≠ [] ∧
      lines.map Prod.fst = seeds.filter (fun i => decide (Solvable (G i))) ∧ ∀ l ∈ lines, LineOK (G l.1) l := by
  unfold main
  rcases seedLoop_ok hr hP hq hnew hsol G seeds ⟨none, none, []⟩ hs with h | ⟨fl, dz, lines, h1, h2, h3, h4⟩
  · rw [h]; exact .inl rfl
  · rw [h1]
    simp only [List.nil_append]
    by_cases hl : lines = []
    · rw [if_pos hl] at h4
      subst h4
      refine .inr (.inl ⟨?_, rfl⟩)
      rw [hl, List.map_nil] at h2
      have := List.filter_eq_nil_iff.1 h2.symm
      simpa using this
    · rw [if_neg hl] at h4
      subst h4
      exact .inr (.inr ⟨lines, rfl, hl, h2, h3⟩)

theorem seedStep_flag {i : Nat} {st st' : MState} (h : seedStep E i st = .ok st') : st' = st ∨
    ∃ el pulp dz, st' = ⟨some (decide (dz = pulp)), some dz, st.lines ++ [(i, el, pulp, dz)]⟩ := by
  unfold seedStep at h
  repeat' split at h
  all_goals first
    | (injection h with h; exact .inl h.symm)
    | (injection h with h; exact .inr ⟨_, _, _, h.symm⟩)
    | cases h

theorem seedLoop_flag : ∀ (seeds : List Nat) (st st' : MState), seedLoop E seeds st = .ok st' →
    ∃ lines, st'.lines = st.lines ++ lines ∧ (lines.map Prod.fst).Sublist seeds ∧
      st'.flag = match lines.getLast? with | none => st.flag | some l => some (decide (l.2.2.2 = l.2.2.1)) := by
  intro seeds
  induction seeds with
  | nil => intro st st' h; simp only [seedLoop, Except.ok.injEq] at h; subst h; exact ⟨[], by simp⟩
  | cons i seeds ih =>
    intro st st' h
    unfold seedLoop at h
    cases hs : seedStep E i st with
    | error e => rw [hs] at h; cases h
    | ok st1 =>
      rw [hs] at h
      obtain ⟨lines, h1, h2, h3⟩ := ih _ _ h
      rcases seedStep_flag hs with rfl | ⟨el, pulp, dz, rfl⟩
      · exact ⟨lines, h1, h2.cons _, h3⟩
      · refine ⟨(i, el, pulp, dz) :: lines, ?_, ?_, ?_⟩
        · rw [h1]; simp
        · rw [List.map_cons]; exact h2.cons_cons _
        · rw [h3]
          cases lines with
          | nil => rfl
          | cons l lines =>
            rw [List.getLast?_cons_cons]
            cases hl : (l :: lines).getLast? with
            | none => simp at hl
            | some x => rfl

/-- **C112.** Whatever the problems, the random numbers and the solver: the message only says that the value of the last line
found with 'dantzig' is the value of the solver; the earlier lines and the values found with 'first_eligible' do not count. -/
theorem C112_message {seeds : List Nat} {b : Bool} {lines : List (Nat × Int × Int × Int)} (h : main E seeds = .ok (b, lines)) :
    (lines.map Prod.fst).Sublist seeds ∧ ∃ l, lines.getLast? = some l ∧ (b = true ↔ l.2.2.2 = l.2.2.1) := by
  unfold main at h
  cases hs : seedLoop E seeds ⟨none, none, []⟩ with
  | error e => rw [hs] at h; cases h
  | ok st =>
    obtain ⟨lines', h1, h2, h3⟩ := seedLoop_flag _ _ _ hs
    rw [hs] at h
    simp only [] at h
    cases hl : lines'.getLast? with
    | none => rw [hl] at h3; rw [h3] at h; cases h
    | some l =>
      rw [hl] at h3
      rw [h3] at h
      simp only [Except.ok.injEq, Prod.mk.injEq] at h
      obtain ⟨rfl, rfl⟩ := h
      rw [h1]
      exact ⟨by simpa using h2, l, by simpa using hl, by simp⟩

end

/-! ## a wrong message -/

/-- the linear program that one seed hands to the solver -/
def lpOf {R : Type} (E : Env R Q) (i : Nat) : Except PyErr (Program STest.Nm) :=
  match generate E.P E.rnd (E.start i) E.fuel with
  | .error e => .error e
  | .ok (g, _, _) =>
    match networkSimplexM g E.O E.newQ .s .t (.num 0) .firstEligible (fun _ => none) E.fuel E.pivots with
    | .error e => .error e
    | .ok (_, _, g, _) => program g

theorem seedStep_solver {R : Type} {E : Env R Q} {i : Nat} {lp : Program STest.Nm} (h : lpOf E i = .ok lp)
    {solver : Program STest.Nm → Option ℚ} (hs : solver lp = E.solver lp) (st : MState) :
    seedStep { E with solver := solver } i st = seedStep E i st := by
  unfold lpOf at h
  unfold seedStep
  simp only []
  cases h1 : generate E.P E.rnd (E.start i) E.fuel with
  | error e => rfl
  | ok r =>
    rw [h1] at h
    simp only [] at h ⊢
    cases h2 : networkSimplexM r.1 E.O E.newQ .s .t (.num 0) .firstEligible (fun _ => none) E.fuel E.pivots with
    | error e => rfl
    | ok r =>
      obtain ⟨res, f, g, pi⟩ := r
      rw [h2] at h
      simp only [] at h ⊢
      cases res with
      | false => rfl
      | true =>
        simp only []
        cases h3 : objValue g f g.getEdgeList with
        | error e => rfl
        | ok x =>
          simp only []
          rw [h]
          simp only []
          rw [hs]

/-- a solver that is right when there is an optimal solution, and returns 0 otherwise -/
noncomputable def idealSolver (p : Program N) : Option ℚ := by
  classical exact if h : ∃ x, p.Optimal x then some (p.value h.choose) else some 0

theorem idealSolver_lawful : SolverLaw (idealSolver (N := N)) := by
  intro p x hx
  unfold idealSolver
  have h : ∃ x, p.Optimal x := ⟨x, hx⟩
  rw [dif_pos h]
  exact congrArg _ (le_antisymm (h.choose_spec.least _ hx.feasible) (hx.least _ h.choose_spec.feasible))

/-- the script with two seeds: 0 is `badSeed`, the others are `goodSeed` -/
def scriptEnv (solver : Program STest.Nm → Option ℚ) : Env (List Nat) (List STest.Nm) :=
  ⟨params, coinRand, fun i => if i = 0 then badSeed else goodSeed, queueOps, [], solver, 1100, 20⟩

/-- the linear program of `badSeed` -/
def badLP : Program STest.Nm := ⟨[((.num 0, .num 1), 10, 30)], [([(.num 0, .num 1)], [], 10), ([], [(.num 0, .num 1)], -15)]⟩

/-- the linear program of `goodSeed` -/
def goodLP : Program STest.Nm :=
  ⟨[((.num 0, .num 3), 10, 30), ((.num 4, .num 0), 10, 30), ((.num 4, .num 1), 10, 50), ((.num 4, .num 2), 10, 40),
    ((.num 5, .num 2), 10, 30), ((.num 5, .num 3), 10, 30)],
   [([(.num 0, .num 3)], [(.num 4, .num 0)], 0), ([], [(.num 0, .num 3), (.num 5, .num 3)], -10),
    ([(.num 4, .num 0), (.num 4, .num 1), (.num 4, .num 2)], [], 20), ([], [(.num 4, .num 1)], -10),
    ([], [(.num 4, .num 2), (.num 5, .num 2)], -10), ([(.num 5, .num 2), (.num 5, .num 3)], [], 10)]⟩

theorem badLP_infeasible : ¬ ∃ x, badLP.Feasible x := by
  rintro ⟨x, h⟩
  have h1 := h.rows ([(.num 0, .num 1)], [], 10) (by simp [badLP])
  have h2 := h.rows ([], [(.num 0, .num 1)], -15) (by simp [badLP])
  norm_num at h1 h2
  linarith

/-- the cheapest flow of `goodSeed` -/
def goodFlow (e : STest.Nm × STest.Nm) : ℚ :=
  if e = (.num 4, .num 1) ∨ e = (.num 4, .num 2) ∨ e = (.num 5, .num 3) then 10 else 0

theorem goodLP_optimal : goodLP.Optimal goodFlow := by
  refine ⟨⟨?_, ?_⟩, ?_⟩
  · decide +kernel
  · decide +kernel
  · intro y h
    have r1 := h.rows ([(.num 0, .num 3)], [(.num 4, .num 0)], 0) (by simp [goodLP])
    have r2 := h.rows ([], [(.num 0, .num 3), (.num 5, .num 3)], -10) (by simp [goodLP])
    have r3 := h.rows ([], [(.num 4, .num 1)], -10) (by simp [goodLP])
    have r4 := h.rows ([], [(.num 4, .num 2), (.num 5, .num 2)], -10) (by simp [goodLP])
    have r5 := h.rows ([(.num 5, .num 2), (.num 5, .num 3)], [], 10) (by simp [goodLP])
    have b1 := h.bounds ((.num 0, .num 3), 10, 30) (by simp [goodLP])
    have b2 := h.bounds ((.num 5, .num 2), 10, 30) (by simp [goodLP])
    have hv : goodLP.value goodFlow = 1200 := by decide +kernel
    rw [hv]
    simp only [Program.value, goodLP, List.map_cons, List.map_nil, List.sum_cons, List.sum_nil]
    simp only [List.map_cons, List.map_nil, List.sum_cons, List.sum_nil] at r1 r2 r3 r4 r5
    push_cast at r1 r2 r3 r4 r5 b1 b2 ⊢
    linarith [b1.1, b2.1]

theorem lpOf_eval {i : Nat} {lp : Program STest.Nm}
    (h : (match lpOf (scriptEnv fun _ => some 0) i with | .ok p => some p | .error _ => none) = some lp) (q : ℚ) :
    lpOf (scriptEnv fun _ => some q) i = .ok lp := by
  change lpOf (scriptEnv fun _ => some 0) i = .ok lp
  cases h' : lpOf (scriptEnv fun _ => some 0) i with
  | error e => rw [h'] at h; cases h
  | ok p => rw [h'] at h; injection h with h; rw [h]

theorem seed_eval {i : Nat} {q : ℚ} {st st' : MState}
    (h : (match seedStep (scriptEnv fun _ => some q) i st with | .ok s => some s | .error _ => none) = some st') :
    seedStep (scriptEnv fun _ => some q) i st = .ok st' := by
  cases h' : seedStep (scriptEnv fun _ => some q) i st with
  | error e => rw [h'] at h; cases h
  | ok p => rw [h'] at h; injection h with h; rw [h]

/-- **C112 is false in general.** With a solver that is right whenever there is an optimal solution, the message "All problems
solved accurately." is printed after two problems, of which the first has no solution: there network simplex claims a flow
of cost 300 and the solver returns 0. -/
theorem C112_message_false : SolverLaw (idealSolver (N := STest.Nm)) ∧ Lawful coinRand ∧
    main (scriptEnv idealSolver) [0, 1] = .ok (true, [(0, 300, 0, 300), (1, 1200, 1200, 1200)]) ∧
    lpOf (scriptEnv idealSolver) 0 = .ok badLP ∧ ¬ ∃ x, badLP.Feasible x := by
  have l0 := lpOf_eval (i := 0) (lp := badLP) (by decide +kernel)
  have l1 := lpOf_eval (i := 1) (lp := goodLP) (by decide +kernel)
  have s0 : idealSolver badLP = some 0 := by
    unfold idealSolver
    rw [dif_neg fun ⟨x, hx⟩ => badLP_infeasible ⟨x, hx.feasible⟩]
  have s1 : idealSolver goodLP = some 1200 := by
    rw [idealSolver_lawful _ _ goodLP_optimal]
    exact congrArg _ (by decide +kernel)
  have e0 : seedStep (scriptEnv idealSolver) 0 ⟨none, none, []⟩ = .ok ⟨some false, some 300, [(0, 300, 0, 300)]⟩ :=
    (seedStep_solver (l0 0) (solver := idealSolver) s0 _).trans (seed_eval (by decide +kernel))
  have e1 : seedStep (scriptEnv idealSolver) 1 ⟨some false, some 300, [(0, 300, 0, 300)]⟩ =
      .ok ⟨some true, some 1200, [(0, 300, 0, 300), (1, 1200, 1200, 1200)]⟩ :=
    (seedStep_solver (l1 1200) (solver := idealSolver) s1 _).trans (seed_eval (by decide +kernel))
  refine ⟨idealSolver_lawful, coinRand_lawful, ?_, l0 0, badLP_infeasible⟩
  unfold main
  rw [seedLoop, e0]
  simp only []
  rw [seedLoop, e1]
  simp only []
  rw [seedLoop]

/-- non-vacuity of C112: the second seed is good -/
example : GoodSeed (scriptEnv idealSolver) 1 (genGraph goodSeed) := by
  have hg : ∃ d s, generate params coinRand goodSeed 1100 = .ok (genGraph goodSeed, d, s) ∧
      (∀ x ∈ d, STest.Nm.num x.1 ∈ (genGraph goodSeed).getNodeList) ∧ ∀ x ∈ s, STest.Nm.num x.1 ∈ (genGraph goodSeed).getNodeList := by
    have key : (match generate params coinRand goodSeed 1100 with
        | .ok (_, d, s) => decide ((∀ x ∈ d, STest.Nm.num x.1 ∈ (genGraph goodSeed).getNodeList) ∧
            ∀ x ∈ s, STest.Nm.num x.1 ∈ (genGraph goodSeed).getNodeList)
        | .error _ => false) = true := by decide +kernel
    have hgen : ∀ g d s, generate params coinRand goodSeed 1100 = .ok (g, d, s) → genGraph goodSeed = g := by
      intro g d s h; unfold genGraph; rw [h]
    cases h : generate params coinRand goodSeed 1100 with
    | error e => rw [h] at key; cases key
    | ok r =>
      obtain ⟨g, d, s⟩ := r
      rw [h] at key
      exact ⟨d, s, by rw [hgen g d s h], of_decide_eq_true key⟩
  have hV : (genGraph goodSeed).getNodeList = [.num 0, .num 3, .num 4, .num 1, .num 2, .num 5] := by decide +kernel
  have hE : (genGraph goodSeed).getEdgeList = [(.num 0, .num 3), (.num 4, .num 0), (.num 4, .num 1), (.num 4, .num 2),
    (.num 5, .num 2), (.num 5, .num 3)] := by decide +kernel
  refine ⟨hg, by rw [hV]; decide, ?_, by unfold Enough; decide +kernel⟩
  have h0 : ∀ v ∈ (genGraph goodSeed).getNodeList, EConn (genGraph goodSeed).getEdgeList (.num 0) v := by
    rw [hV, hE]
    have c3 : EConn [(STest.Nm.num 0, STest.Nm.num 3), (.num 4, .num 0), (.num 4, .num 1), (.num 4, .num 2),
      (.num 5, .num 2), (.num 5, .num 3)] (.num 0) (.num 3) := .single (.inl (by decide))
    have c4 : EConn [(STest.Nm.num 0, STest.Nm.num 3), (.num 4, .num 0), (.num 4, .num 1), (.num 4, .num 2),
      (.num 5, .num 2), (.num 5, .num 3)] (.num 0) (.num 4) := .single (.inr (by decide))
    intro v hv
    simp only [List.mem_cons, List.not_mem_nil, or_false] at hv
    rcases hv with rfl | rfl | rfl | rfl | rfl | rfl
    · exact .refl
    · exact c3
    · exact c4
    · exact c4.tail (.inl (by decide))
    · exact c4.tail (.inl (by decide))
    · exact c3.tail (.inr (by decide))
  exact fun u hu v hv => (EConn.symm (h0 u hu)).trans (h0 v hv)

end GiMPy
