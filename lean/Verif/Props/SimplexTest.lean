import Verif.Lemmas.SimplexTest
import Verif.Props.SimplexApart
import Verif.Props.LinearFlow
import Verif.Props.SimplexNames

/-! # C110-C112: the comparison of network simplex with an LP solver in simplex_test.py -/

namespace GiMPy
open MinCost MaxFlow Simplex STest
variable {N : Type} [DecidableEq N] {Q : Type} {g t : Graph N} {O : QOps N Q} {items : Q → List N}
variable {cap cost f : N × N → Int} {b : N → Int} {src snk root : N} {W : List N}
set_option linter.unusedSectionVars false

/-! ## C111: the method `network_simplex` of `mGraph` -/

theorem pivotOnM_eq (hn : Netw g cap cost) (ht : TGr g t) (hb : AtBound g t cap f) {ix : Idx N} {e : N × N}
    (he : e ∈ g.getEdgeList) (het : e ∉ t.getEdgeList) {fuel : Nat} {t2 : Graph N} {f2 : N × N → Int}
    (h : pivotOn g t f ix e fuel = .ok (t2, f2)) (hs : ∃ s, stamps g f2 t2.getEdgeList = .ok s) :
    pivotOnM g t f ix e fuel = .ok (t2, f2) := by
  have hV := hn.ends he
  obtain ⟨t', h6, h7, h8⟩ := ht.add hV.1 hV.2 he het
  have hb' : AtBound g t' cap f := fun x hx hxt => hb x hx fun hm => hxt (by rw [h8]; simp [hm])
  obtain ⟨s, hs⟩ := hs
  unfold pivotOn at h
  unfold pivotOnM
  cases h1 : identify t ix e.1 e.2 fuel with
  | error x => rw [h1] at h; cases h
  | ok cycle =>
    rw [h1] at h
    simp only [flowOf_ok he, hn.caps e.1 e.2 he] at h ⊢
    rw [h6] at h ⊢
    simp only [] at h ⊢
    cases h2 : leaving g t' f (if f (e.1, e.2) = cap (e.1, e.2) then cycle.reverse else cycle) (cap (e.1, e.2)) with
    | error x => rw [h2] at h; cases h
    | ok pd =>
      obtain ⟨p, d⟩ := pd
      rw [h2] at h
      simp only [] at h ⊢
      rw [markArcs_ok hn hb' _ fun x hx => hx]
      simp only []
      cases h3 : pushCycle g t' d (if f (e.1, e.2) = cap (e.1, e.2) then cycle.reverse else cycle) f with
      | error x => rw [h3] at h; cases h
      | ok f3 =>
        rw [h3] at h
        simp only [] at h ⊢
        cases h4 : t'.call (.delEdge p.1 p.2) with
        | error x => rw [h4] at h; cases h
        | ok t3 =>
          rw [h4] at h
          simp only [Except.ok.injEq, Prod.mk.injEq] at h ⊢
          obtain ⟨rfl, rfl⟩ := h
          rw [hs]

theorem pivotStepM_eq (hn : Netw g cap cost) (hroot : root ∈ W) {st : Simplex.SState N} (h : Simplex.Inv g W cap cost root st)
    {pv : Pivot} (hpv : pv ≠ .other) {fuel : Nat} (hf : 2 * g.getNodeList.length ≤ fuel) {p : N → Int}
    (hp : PotOK g st.t cost st.pi p) (hne : violL st.t cap cost st.f p g.getEdgeList ≠ []) :
    pivotStepM g root pv st fuel = pivotStep g root pv st fuel := by
  obtain ⟨e, x, h1, h2, h3, h4⟩ := entering_ok hn hp.val hpv hne
  obtain ⟨seq, hix⟩ := h.index
  obtain ⟨t', f', h5, h6⟩ := pivotOn_ok hn h.tree hix hp h.within h.bound h2 h3 h4 hf
  obtain ⟨s, y, h11, h12⟩ := redraw_tree hn hroot h6.tree f' st.ix hf
  unfold pivotStepM pivotStep
  rw [h1]
  simp only []
  rw [h5, pivotOnM_eq hn h.tree.tg h.bound h2 h3 h5 ⟨s, h11⟩]
  simp only []
  rw [h11]
  simp only []
  rw [markArcs_ok hn h6.bound _ fun e he => he]
  simp only []
  rw [h12]

theorem mainLoopM_eq (hn : Netw g cap cost) (hroot : root ∈ W) {pv : Pivot} (hpv : pv ≠ .other) {inner : Nat}
    (hf : 2 * g.getNodeList.length ≤ inner) : ∀ (k : Nat) (st : Simplex.SState N), Simplex.Inv g W cap cost root st →
    mainLoopM g root pv inner k st = mainLoop g root pv inner k st := by
  intro k
  induction k with
  | zero => exact fun _ _ => rfl
  | succ k ih =>
    intro st h
    obtain ⟨p, hp⟩ := h.pots
    unfold mainLoopM mainLoop
    rw [optimal_ok hn hp.val _ fun e he => he]
    by_cases hv : violL st.t cap cost st.f p g.getEdgeList = []
    · rw [hv]; rfl
    · have hb : (violL st.t cap cost st.f p g.getEdgeList).isEmpty = false := by simpa using hv
      rw [hb]
      simp only []
      obtain ⟨st', e, h1, h2, _⟩ := pivotStep_ok hn hroot h hpv hf hp hv
      rw [pivotStepM_eq hn hroot h hpv hf hp hv, h1]
      exact ih st' h2

theorem setupM_eq {ix : Idx N} {pi : N → Option Int} {fuel : Nat} {st : Simplex.SState N} (h : setup g root f ix pi fuel = .ok st) :
    setupM g root f ix pi fuel = .ok st := by
  unfold setup at h
  unfold setupM
  cases h1 : findTree g f ix fuel with
  | error x => rw [h1] at h; cases h
  | ok r =>
    obtain ⟨t, f1, ix1⟩ := r
    rw [h1] at h
    simp only [] at h ⊢
    cases h2 : stamps g f1 t.getEdgeList with
    | error x => rw [h2] at h; cases h
    | ok s =>
      rw [h2] at h
      simp only [] at h ⊢
      cases h3 : markArcs g t f1 g.getEdgeList with
      | error x => rw [h3] at h; cases h
      | ok u =>
        rw [h3] at h
        simp only [] at h ⊢
        cases h4 : redraw t ix1 s root fuel with
        | error x => rw [h4] at h; cases h
        | ok y => rw [h4] at h; exact h

/-- **C111, connected networks.** On the problems in the scope of `min_cost_flow` whose arcs are connected with the root and the
first node, the method of `mGraph` returns what the method of `Graph` returns. -/
theorem C111_same (P : FlowProblem g cap cost b src snk) (hq : LawfulBag O items) {newQ : Q} (hnew : items newQ = [])
    (hJ : Joined g root) {pv : Pivot} (hpv : pv ≠ .other) (pi : N → Option Int) {fuel : Nat} (hf : Enough g cap b fuel)
    (pivots : Nat) :
    (networkSimplexM g O newQ src snk root pv pi fuel pivots).map (fun r => (r.1, r.2.1, r.2.2.1)) =
      networkSimplex g O newQ src snk root pv pi fuel pivots := by
  have hf' := hf
  unfold Enough at hf'
  generalize hK : ((g.getEdgeList.map cap).sum + (g.getNodeList.map fun v => ((b v).natAbs : Int)).sum).toNat = K at hf'
  have hKm : K + 1 ≤ (g.getEdgeList.length + 1) * (K + 1) := Nat.le_mul_of_pos_left _ (by omega)
  obtain ⟨r0, f0, g0, h1, h2, h3, h4, h5⟩ := feasibleFlow_frame P hq hnew hf
  cases r0 with
  | false => unfold networkSimplexM networkSimplex; rw [h1]; rfl
  | true =>
    obtain ⟨hn, hw⟩ := h3 rfl
    obtain ⟨W, hW, hroot, hhead, hconn⟩ := hJ.core P.built.wf
    have hB : ∀ e ∈ g.getEdgeList, cap e ≤ (K : Int) := by
      intro e he
      have q1 := le_sum P.nonneg he
      have q2 : 0 ≤ (g.getNodeList.map fun v => ((b v).natAbs : Int)).sum :=
        List.sum_nonneg (by intro x hx; obtain ⟨y, hy, rfl⟩ := List.mem_map.1 hx; omega)
      omega
    obtain ⟨st, k1, k2, k3⟩ := setup_ok hn (root := root) (hW.congr h4 h5) hroot (by rw [h4]; exact hhead) (by rw [h5]; exact hconn)
      (by rw [h5]; exact hw) (B := K) (by rw [h5]; exact hB) ⟨fun _ => none, fun _ => none, fun _ => none⟩ pi
      (fuel := fuel) (by rw [h4]; omega) (by rw [h5]; omega)
    unfold networkSimplexM networkSimplex
    rw [h1]
    simp only []
    rw [setupM_eq k1, k1]
    simp only []
    rw [mainLoopM_eq hn hroot hpv (by rw [h4]; omega) pivots st k2]
    cases mainLoop g0 root pv fuel pivots st <;> rfl

/-- an arc outside the tree at a node without a potential makes the main loop raise TypeError -/
theorem mainLoopM_raises (hn : Netw g cap cost) {st : Simplex.SState N} (h : ∃ e ∈ g.getEdgeList, e ∉ st.t.getEdgeList ∧ (st.pi e.1 = none ∨ st.pi e.2 = none))
    {pv : Pivot} (hpv : pv ≠ .other) (inner k : Nat) : mainLoopM g root pv inner (k + 1) st = .error .typeError := by
  unfold mainLoopM
  rcases optimal_raises (f := st.f) hn _ (fun _ h => h) h with h1 | h1
  · rw [h1]
  · rw [h1]
    simp only []
    unfold pivotStepM entering
    cases pv with
    | other => exact absurd rfl hpv
    | dantzig => simp only []; rw [violating_raises hn _ (fun _ h => h) h]
    | firstEligible => simp only []; rw [violating_raises hn _ (fun _ h => h) h]

/-- **C111, networks that are not connected.** If some arcs `C` that are not connected to the root contain a cycle (an arc whose
ends are connected by the others), there is a feasible flow, and no potentials are left from earlier calls, then the method of
`mGraph` raises TypeError. -/
theorem C111_cycle_apart (P : FlowProblem g cap cost b src snk) (hq : LawfulBag O items) {newQ : Q} (hnew : items newQ = [])
    (hroot : root ∈ g.getNodeList) {C : List (N × N)} (hC : ∀ e ∈ C, e ∈ g.getEdgeList ∧ ¬ EConn g.getEdgeList root e.1)
    (hcyc : ∃ e ∈ C, EConn (C.filter fun x => decide (x ≠ e)) e.1 e.2)
    (hfe : ∃ f, IsFeasible g.getNodeList g.getEdgeList cap b f) {pv : Pivot} (hpv : pv ≠ .other) {fuel : Nat}
    (hf : Enough g cap b fuel) (pivots : Nat) :
    networkSimplexM g O newQ src snk root pv (fun _ => none) fuel (pivots + 1) = .error .typeError := by
  have hf' := hf
  unfold Enough at hf'
  generalize hK : ((g.getEdgeList.map cap).sum + (g.getNodeList.map fun v => ((b v).natAbs : Int)).sum).toNat = K at hf'
  have hKm : K + 1 ≤ (g.getEdgeList.length + 1) * (K + 1) := Nat.le_mul_of_pos_left _ (by omega)
  obtain ⟨r0, f0, g0, h1, h2, h3, h4, h5⟩ := feasibleFlow_frame P hq hnew hf
  obtain rfl := h2.2 hfe
  obtain ⟨hn, hw⟩ := h3 rfl
  have hB : ∀ e ∈ g0.getEdgeList, cap e ≤ (K : Int) := by
    rw [h5]
    intro e he
    have q1 := le_sum P.nonneg he
    have q2 : 0 ≤ (g.getNodeList.map fun v => ((b v).natAbs : Int)).sum :=
      List.sum_nonneg (by intro x hx; obtain ⟨y, hy, rfl⟩ := List.mem_map.1 hx; omega)
    omega
  have hr : root ∈ g0.getNodeList := by rw [h4]; exact hroot
  have hpos := List.length_pos_of_mem hroot
  obtain ⟨t, f', ix', k1, k2, k3, _, k4, k5, _⟩ := findTree_forest hn (List.ne_nil_of_mem hr) (f := f0)
    (by rw [h5]; exact hw) hB ⟨fun _ => none, fun _ => none, fun _ => none⟩ (fuel := fuel) (by rw [h4]; omega)
    (by rw [h5]; omega)
  obtain ⟨s, s1, s2⟩ := stamps_ok (f := f') hn.caps hn.costs t.getEdgeList k2.sub
  have hmono : ∀ v, EConn t.getEdgeList root v → EConn g.getEdgeList root v := by
    intro v hv
    induction hv with
    | refl => exact .refl
    | tail _ hs ih => exact ih.tail (hs.imp (fun h => h5 ▸ k2.sub _ h) (fun h => h5 ▸ k2.sub _ h))
  obtain ⟨e, he, het⟩ : ∃ e ∈ C, e ∉ t.getEdgeList := by
    by_contra hall
    push Not at hall
    obtain ⟨e, he, hc⟩ := hcyc
    exact (k3.mono hall) e he hc
  obtain ⟨ix2, pi2, w1, w2⟩ := refresh_reach hn hr (st := ⟨t, f', ix', fun _ => none⟩) k2 (fuel := fuel) (by rw [h4]; omega)
  unfold networkSimplexM
  rw [h1]
  simp only []
  unfold setupM
  rw [k1]
  simp only []
  rw [s1]
  simp only []
  rw [markArcs_ok hn k4 _ fun e he => he]
  simp only []
  rw [w1]
  simp only []
  rw [mainLoopM_raises hn ⟨e, by rw [h5]; exact (hC e he).1, het, ?_⟩ hpv]
  exact .inl (w2 _ fun h => (hC e he).2 (hmono _ h))

/-- a root that is not in the network makes the method of `mGraph` raise AttributeError -/
theorem C111_no_root (P : FlowProblem g cap cost b src snk) (hq : LawfulBag O items) {newQ : Q} (hnew : items newQ = [])
    (hroot : root ∉ g.getNodeList) (hfe : ∃ f, IsFeasible g.getNodeList g.getEdgeList cap b f) (pv : Pivot) (pi : N → Option Int)
    {fuel : Nat} (hf : Enough g cap b fuel) (pivots : Nat) :
    networkSimplexM g O newQ src snk root pv pi fuel pivots = .error .attributeError := by
  have hf' := hf
  unfold Enough at hf'
  generalize hK : ((g.getEdgeList.map cap).sum + (g.getNodeList.map fun v => ((b v).natAbs : Int)).sum).toNat = K at hf'
  have hKm : K + 1 ≤ (g.getEdgeList.length + 1) * (K + 1) := Nat.le_mul_of_pos_left _ (by omega)
  obtain ⟨r0, f0, g0, h1, h2, h3, h4, h5⟩ := feasibleFlow_frame P hq hnew hf
  obtain rfl := h2.2 hfe
  obtain ⟨hn, hw⟩ := h3 rfl
  have hB : ∀ e ∈ g0.getEdgeList, cap e ≤ (K : Int) := by
    rw [h5]
    intro e he
    have q1 := le_sum P.nonneg he
    have q2 : 0 ≤ (g.getNodeList.map fun v => ((b v).natAbs : Int)).sum :=
      List.sum_nonneg (by intro x hx; obtain ⟨y, hy, rfl⟩ := List.mem_map.1 hx; omega)
    omega
  obtain ⟨v, hv, _⟩ := P.supply
  have hr : v ∈ g0.getNodeList := by rw [h4]; exact hv
  have hpos := List.length_pos_of_mem hv
  obtain ⟨t, f', ix', k1, k2, k3, _, k4, k5, _⟩ := findTree_forest hn (List.ne_nil_of_mem hr) (f := f0)
    (by rw [h5]; exact hw) hB ⟨fun _ => none, fun _ => none, fun _ => none⟩ (fuel := fuel) (by rw [h4]; omega)
    (by rw [h5]; omega)
  obtain ⟨s, s1, s2⟩ := stamps_ok (f := f') hn.caps hn.costs t.getEdgeList k2.sub
  unfold networkSimplexM
  rw [h1]
  simp only []
  unfold setupM
  rw [k1]
  simp only []
  rw [s1]
  simp only []
  rw [markArcs_ok hn k4 _ fun e he => he]
  simp only []
  unfold refresh search
  obtain ⟨k, rfl⟩ : ∃ k, fuel = k + 1 := ⟨fuel - 1, by omega⟩
  have hno : t.hasNode root = false := hasNode_not k2.built (by rw [k2.nodes, h4]; exact hroot)
  simp only [searchLoop, hno, Bool.false_eq_true, not_false_eq_true, if_true]

/-- non-vacuity of C111: the triangle (3, 4), (4, 5), (3, 5) of the network of C109 is a cycle apart from the root 0; node 7 is
not in the network; both runs end with the exceptions stated, and the network of C38 gives the same flow as `network_simplex` -/
example : (∀ e ∈ [(3, 4), (4, 5), (3, 5)], e ∈ twoNet.getEdgeList ∧ ¬ EConn twoNet.getEdgeList 0 e.1) ∧
    (∃ e ∈ [(3, 4), (4, 5), (3, 5)], EConn ([(3, 4), (4, 5), (3, 5)].filter fun x => decide (x ≠ e)) e.1 e.2) ∧
    7 ∉ twoNet.getNodeList ∧
    (match networkSimplexM twoNet stackOps [] 8 9 0 .dantzig (fun _ => none) 200 5 with | .error e => some e | .ok _ => none)
      = some .typeError ∧
    (match networkSimplexM twoNet stackOps [] 8 9 7 .dantzig (fun _ => none) 200 5 with | .error e => some e | .ok _ => none)
      = some .attributeError ∧
    (match networkSimplexM exNet queueOps [] 8 9 0 .dantzig (fun _ => none) 200 20 with
      | .ok (r, f, _) => some (r, exNet.getEdgeList.map f) | .error _ => none) = some (true, [1, 0, 1, 2, 1]) := by
  have hE : twoNet.getEdgeList = [(0, 1), (0, 2), (2, 1), (3, 4), (4, 5), (3, 5)] := by decide +kernel
  refine ⟨?_, ⟨(3, 5), by decide, ?_⟩, by decide +kernel, by decide +kernel, by decide +kernel, by decide +kernel⟩
  · have key : ∀ v, EConn [(0, 1), (0, 2), (2, 1), (3, 4), (4, 5), (3, 5)] 0 v → v < 3 := by
      intro v hv
      induction hv with
      | refl => decide
      | @tail c d _ hs ih =>
        rcases hs with hs | hs <;>
        · simp only [List.mem_cons, List.not_mem_nil, or_false, Prod.mk.injEq] at hs
          omega
    rw [hE]
    intro e he
    simp only [List.mem_cons, List.not_mem_nil, or_false] at he
    rcases he with rfl | rfl | rfl
    · exact ⟨by decide, fun h => absurd (key _ h) (by decide)⟩
    · exact ⟨by decide, fun h => absurd (key _ h) (by decide)⟩
    · exact ⟨by decide, fun h => absurd (key _ h) (by decide)⟩
  · exact (Relation.ReflTransGen.refl.tail (b := 3) (c := 4) (.inl (by decide))).tail (.inl (by decide))

/-! ## C110: the problems that are generated -/

section
variable {R : Type} {rnd : Rand R} {P : Params} {d s : List (Nat × Nat)} {g : Graph STest.Nm}

/-- the problems that `generate_graph` should make, with the dictionaries `demand_node` and `supply_node` -/
structure IsProblem (P : Params) (g : Graph STest.Nm) (d s : List (Nat × Nat)) : Prop where
  built : Built g
  dir : g.directed = true
  nodes : ∀ v ∈ g.getNodeList, ∃ i < P.numNodes, v = .num i
  incident : ∀ v ∈ g.getNodeList, ∃ e ∈ g.getEdgeList, v = e.1 ∨ v = e.2
  simple : ∀ u v, (u, v) ∈ g.getEdgeList → u ≠ v ∧ (v, u) ∉ g.getEdgeList
  caps : ∀ u v, (u, v) ∈ g.getEdgeList → ∃ c : Nat, g.getEdgeAttr u v "capacity" = .ok (.int c) ∧ P.capLo ≤ c ∧ c ≤ P.capHi
  costs : ∀ u v, (u, v) ∈ g.getEdgeList → ∃ w : Nat, g.getEdgeAttr u v "cost" = .ok (.int w) ∧ P.costLo ≤ w ∧ w ≤ P.costHi
  dkeys : (d.map Prod.fst).Nodup ∧ d.length = P.demandNodes ∧ ∀ x ∈ d, x.1 < P.numNodes ∧ P.demLo ≤ x.2
  skeys : (s.map Prod.fst).Nodup ∧ s.length = P.supplyNodes ∧ ∀ x ∈ s, x.1 < P.numNodes ∧ P.demLo ≤ x.2
  disjoint : ∀ x ∈ d, ∀ y ∈ s, x.1 ≠ y.1
  totals : (d.map Prod.snd).sum = (s.map Prod.snd).sum
  demand : ∀ x ∈ d, .num x.1 ∈ g.getNodeList → g.getNodeAttr (.num x.1) "demand" = .ok (.int (- (x.2 : Int)))
  supply : ∀ x ∈ s, .num x.1 ∈ g.getNodeList → g.getNodeAttr (.num x.1) "demand" = .ok (.int x.2)
  others : ∀ n, .num n ∈ g.getNodeList → n ∉ d.map Prod.fst → n ∉ s.map Prod.fst →
    g.getNodeAttr (.num n) "demand" = .ok (.int 0)

theorem valAt_mem {d : List (Nat × Nat)} (hd : (d.map Prod.fst).Nodup) {x : Nat × Nat} (hx : x ∈ d) :
    valAt d (.num x.1) = x.2 := by
  induction d with
  | nil => cases hx
  | cons y d ih =>
    rw [List.map_cons, List.nodup_cons] at hd
    rw [valAt_cons]
    rcases List.mem_cons.1 hx with rfl | hx
    · rw [if_pos rfl, valAt_absent hd.1]; simp
    · have : y.1 ≠ x.1 := fun h => hd.1 (h ▸ List.mem_map_of_mem hx)
      rw [if_neg (by simpa using this), ih hd.2 hx]; simp

theorem generate_ok (hr : Lawful rnd) (hP : Sane P) (r : R) (fuel : Nat) : generate P rnd r fuel = .error .diverge ∨
    ∃ g d s, generate P rnd r fuel = .ok (g, d, s) ∧ IsProblem P g d s ∧
      ∀ v ∈ g.getNodeList, g.getNodeAttr v "demand" = .ok (.int (demandVal d s v)) := by
  obtain ⟨g1, a1, r1, h1, h2⟩ := arcLoop_ok hr hP (pairs P.numNodes) (fun x hx => mem_pairs.1 hx) _ _ r genInv_init
  unfold generate
  rw [h1]
  simp only []
  rcases pick_ok hr hP [] P.demandNodes fuel [] r1 ⟨by simp, by simp, by simp⟩ (by simp) with h3 | ⟨dn, r2, h3, h4, h5⟩
  · rw [h3]; exact .inl rfl
  rw [h3]
  simp only []
  rcases pick_ok hr hP dn P.supplyNodes fuel [] r2 ⟨by simp, by simp, by simp⟩ (by simp) with h6 | ⟨sn, r3, h6, h7, h8⟩
  · rw [h6]; exact .inl rfl
  rw [h6]
  simp only []
  obtain ⟨k1, k2⟩ := amounts_ok hr hP dn r3
  obtain ⟨k3, k4⟩ := amounts_ok hr hP sn (amounts P rnd dn r3).2
  generalize hd0 : (amounts P rnd dn r3).1 = d0 at *
  generalize hs0 : (amounts P rnd sn (amounts P rnd dn r3).2).1 = s0 at *
  have hlen1 : d0.length = P.demandNodes := by rw [← h5, ← k1, List.length_map]
  have hlen2 : s0.length = P.supplyNodes := by rw [← h8, ← k3, List.length_map]
  have hne1 : d0 ≠ [] := by rintro rfl; have := hP.dn; simp at hlen1; omega
  have hne2 : s0 ≠ [] := by rintro rfl; have := hP.sn; simp at hlen2; omega
  obtain ⟨b1, b2, b3, b4, b5⟩ := balance_ok hne1 hne2 (fun x hx => (k2 x hx).1) (fun x hx => (k4 x hx).1)
  generalize hd : (balance d0 s0).1 = d at *
  generalize hs : (balance d0 s0).2 = s at *
  have hV1 : g1.getNodeList = a1.V := h2.rep.V
  obtain ⟨g2, a2, e1, e2, e3, e4⟩ := setDemands_ok d s g1.getNodeList [] g1 a1 h2 (by rw [hV1]; exact fun _ h => h) (by simp)
  rw [e1]
  have hV : g2.getNodeList = a2.V := e2.rep.V
  have hE : g2.getEdgeList = a2.E := e2.rep.E
  have hdk : d.map Prod.fst = dn := b1.trans k1
  have hsk : s.map Prod.fst = sn := b2.trans k3
  have hdis : ∀ n ∈ s.map Prod.fst, n ∉ d.map Prod.fst := by rw [hdk, hsk]; exact h7.disj
  have hdn : (d.map Prod.fst).Nodup := by rw [hdk]; exact h4.nodup
  have hsn : (s.map Prod.fst).Nodup := by rw [hsk]; exact h7.nodup
  have hdem : ∀ v ∈ g2.getNodeList, g2.getNodeAttr v "demand" = .ok (.int (demandVal d s v)) := by
    intro v hv
    rw [hV] at hv
    rw [getNodeAttr_rep e2.rep, AGraph.getNodeAttr, if_pos hv, e4 v (.inr (by rw [hV1, ← e3]; exact hv))]
    rfl
  refine .inr ⟨g2, d, s, rfl, ⟨e2.built, by rw [e2.rep.dir, e2.dir], ?_, ?_, ?_, ?_, ?_, ⟨hdn, ?_, ?_⟩, ⟨hsn, ?_, ?_⟩, ?_, b5, ?_, ?_, ?_⟩,
    hdem⟩
  · intro v hv
    rw [hV] at hv
    obtain ⟨⟨x, y⟩, he, hve⟩ := e2.inc v hv
    obtain ⟨i, j, rfl, rfl, _, q1, q2, _⟩ := e2.arc x y he
    rcases hve with rfl | rfl
    · exact ⟨i, q1, rfl⟩
    · exact ⟨j, q2, rfl⟩
  · rw [hV, hE]; exact e2.inc
  · rw [hE]
    intro u v huv
    obtain ⟨i, j, rfl, rfl, q1, _, _, q2, _⟩ := e2.arc u v huv
    exact ⟨by simpa using q1, q2⟩
  · rw [hE]
    intro u v huv
    obtain ⟨i, j, _, _, _, _, _, _, c, w, q1, q2, q3, q4, q5, q6⟩ := e2.arc u v huv
    exact ⟨c, by rw [getEdgeAttr_rep e2.rep e2.dir, if_pos huv, q5], q1, q2⟩
  · rw [hE]
    intro u v huv
    obtain ⟨i, j, _, _, _, _, _, _, c, w, q1, q2, q3, q4, q5, q6⟩ := e2.arc u v huv
    exact ⟨w, by rw [getEdgeAttr_rep e2.rep e2.dir, if_pos huv, q6], q3, q4⟩
  · rw [← h5, ← hdk, List.length_map]
  · exact fun x hx => ⟨h4.lt _ (hdk ▸ List.mem_map_of_mem hx), b3 x hx⟩
  · rw [← h8, ← hsk, List.length_map]
  · exact fun x hx => ⟨h7.lt _ (hsk ▸ List.mem_map_of_mem hx), b4 x hx⟩
  · exact fun x hx y hy hxy => hdis y.1 (List.mem_map_of_mem hy) (hxy ▸ List.mem_map_of_mem hx)
  · intro x hx hv
    rw [hdem _ hv, demandVal_eq hdn hsn hdis, valAt_mem hdn hx, valAt_absent fun h => hdis _ h (List.mem_map_of_mem hx)]
    simp
  · intro x hx hv
    rw [hdem _ hv, demandVal_eq hdn hsn hdis, valAt_mem hsn hx, valAt_absent (hdis _ (List.mem_map_of_mem hx))]
    simp
  · intro n hv h1 h2
    rw [hdem _ hv, demandVal_eq hdn hsn hdis, valAt_absent h1, valAt_absent h2]
    simp

/-- **C110.** Unless one of the loops that draw the nodes goes on for ever, `generate_graph` returns a digraph without self loops,
antiparallel arcs or nodes without arcs, with capacities and costs in their ranges; the right number of demand and of supply
nodes, none in both, with amounts of at least the lower end of the range and equal totals; and the attribute `demand` says so. -/
theorem C110_generate (hr : Lawful rnd) (hP : Sane P) (r : R) (fuel : Nat) : generate P rnd r fuel = .error .diverge ∨
    ∃ g d s, generate P rnd r fuel = .ok (g, d, s) ∧ IsProblem P g d s := by
  rcases generate_ok hr hP r fuel with h | ⟨g, d, s, h, h1, _⟩
  · exact .inl h
  · exact .inr ⟨g, d, s, h, h1⟩

/-- the attribute `capacity` -/
def attrCap (g : Graph N) (e : N × N) : Int := match g.getEdgeAttr e.1 e.2 "capacity" with | .ok (.int c) => c | _ => 0

/-- the attribute `cost` -/
def attrCost (g : Graph N) (e : N × N) : Int := match g.getEdgeAttr e.1 e.2 "cost" with | .ok (.int c) => c | _ => 0

/-- the attribute `demand` -/
def attrDem (g : Graph N) (v : N) : Int := match g.getNodeAttr v "demand" with | .ok (.int c) => c | _ => 0

theorem isProblem_dem (h : IsProblem P g d s) {v : STest.Nm} (hv : v ∈ g.getNodeList) :
    g.getNodeAttr v "demand" = .ok (.int (valAt s v - valAt d v)) := by
  obtain ⟨n, _, rfl⟩ := h.nodes v hv
  by_cases h1 : n ∈ d.map Prod.fst
  · obtain ⟨x, hx, rfl⟩ := List.mem_map.1 h1
    rw [h.demand x hx hv, valAt_mem h.dkeys.1 hx, valAt_absent]
    · simp
    · intro h2
      obtain ⟨y, hy, hxy⟩ := List.mem_map.1 h2
      exact h.disjoint x hx y hy hxy.symm
  · rw [valAt_absent h1]
    by_cases h2 : n ∈ s.map Prod.fst
    · obtain ⟨x, hx, rfl⟩ := List.mem_map.1 h2
      rw [h.supply x hx hv, valAt_mem h.skeys.1 hx]; simp
    · rw [h.others n hv h1 h2, valAt_absent h2]; simp

theorem capOf_attr {g : Graph N} (hg : Built g) (hd : g.directed = true) {u v : N} (he : (u, v) ∈ g.getEdgeList) {c : Int}
    (h : g.getEdgeAttr u v "capacity" = .ok (.int c)) : g.capOf u v = .ok c := by
  obtain ⟨a, ha⟩ : ∃ a, Rep g a := ⟨_, rep_of_wf hg.wf⟩
  have hE : g.getEdgeList = a.E := ha.E
  rw [hE] at he
  rw [getEdgeAttr_rep ha (by rw [← ha.dir, hd]), if_pos he] at h
  rw [capOf_rep ha he]
  cases hx : a.ea (u, v) "capacity" with
  | none => rw [hx] at h; cases h
  | some x => rw [hx] at h; injection h with h; subst h; rfl

/-- **C110.** The supplies minus the demands that the attributes state: the amounts of those chosen nodes that are in the graph. -/
theorem C110_sum (h : IsProblem P g d s) : (g.getNodeList.map (attrDem g)).sum =
    ((s.filter fun x => decide (STest.Nm.num x.1 ∈ g.getNodeList)).map fun x => (x.2 : Int)).sum -
    ((d.filter fun x => decide (STest.Nm.num x.1 ∈ g.getNodeList)).map fun x => (x.2 : Int)).sum := by
  rw [← sum_valAt (V := g.getNodeList) h.built.wf.nodup, ← sum_valAt (V := g.getNodeList) h.built.wf.nodup, ← GiMPy.sum_map_sub']
  congr 1
  refine List.map_congr_left fun v hv => ?_
  unfold attrDem
  rw [isProblem_dem h hv]

/-- **C110 (partial).** If each of the chosen nodes is in the graph, the problem is in the scope of network simplex (balanced
demands, a supply, no antiparallel arcs, capacities that are not negative, costs).  Missing: the other case, in which the demands
need not be balanced (C110_not_balanced). -/
theorem C110_in_scope_partial (hP : Sane P) (h : IsProblem P g d s) (hd : ∀ x ∈ d, STest.Nm.num x.1 ∈ g.getNodeList)
    (hs : ∀ x ∈ s, STest.Nm.num x.1 ∈ g.getNodeList) :
    FlowProblem g (attrCap g) (attrCost g) (attrDem g) STest.Nm.s STest.Nm.t where
  built := h.built
  dir := h.dir
  caps := fun u v huv => by
    obtain ⟨c, hc, _⟩ := h.caps u v huv
    unfold attrCap
    rw [hc]
    exact capOf_attr h.built h.dir huv hc
  nonneg := fun e he => by
    obtain ⟨c, hc, _⟩ := h.caps e.1 e.2 he
    unfold attrCap
    rw [hc]
    exact Int.natCast_nonneg c
  costs := fun u v huv => by
    obtain ⟨c, hc, _⟩ := h.costs u v huv
    unfold attrCost Graph.getEdgeCost
    rw [hc]
  anti := fun u v huv => (h.simple u v huv).2
  demand := fun v hv => by
    unfold attrDem
    rw [isProblem_dem h hv]
  balanced := by
    rw [C110_sum h, List.filter_eq_self.2 (by simpa using hs), List.filter_eq_self.2 (by simpa using hd)]
    have := h.totals
    have h1 : ∀ l : List (Nat × Nat), (l.map fun x => (x.2 : Int)).sum = ((l.map Prod.snd).sum : Nat) := by
      intro l
      induction l with
      | nil => rfl
      | cons x l ih => simp only [List.map_cons, List.sum_cons, ih]; push_cast; rfl
    rw [h1, h1, this]; simp
  supply := by
    obtain ⟨_, h2, h3⟩ := h.skeys
    cases hs' : s with
    | nil => rw [hs'] at h2; have := hP.sn; simp at h2; omega
    | cons x l =>
      have hx : x ∈ s := by rw [hs']; simp
      refine ⟨.num x.1, hs x hx, ?_⟩
      unfold attrDem
      rw [h.supply x hx (hs x hx)]
      have := (h3 x hx).2
      have := hP.pos
      simp only []
      omega
  names := by
    refine ⟨fun hh => ?_, fun hh => ?_, by decide⟩
    · obtain ⟨i, _, hi⟩ := h.nodes _ hh; cases hi
    · obtain ⟨i, _, hi⟩ := h.nodes _ hh; cases hi

end

/-! ### random numbers from a list, and two seeds -/

/-- the next entry of a list decides: 1 for an arc, and the distance from the lower end of the range -/
def coinRand : Rand (List Nat) :=
  ⟨fun l => (decide (l.headD 0 = 1), l.tail), fun a b l => (a + l.headD 0 % (b - a + 1), l.tail)⟩

theorem coinRand_lawful : Lawful coinRand := by
  intro a b r h
  have : r.headD 0 % (b - a + 1) < b - a + 1 := Nat.mod_lt _ (by omega)
  simp only [coinRand]
  omega

theorem params_sane : Sane params := ⟨by decide, by decide, by decide, by decide, by decide, by decide, by decide⟩

/-- the only arc is (0, 1); nodes 1, 2, 3 with demand 15 each, nodes 5 and 0 with supply 35 and 10 -/
def badSeed : List Nat :=
  [1, 0, 0, 0, 0, 0, 0, 0, 0, 0, 0, 0, 0, 0, 0, 0, 0, 0, 0, 0, 0, 0, 0, 0, 0, 0, 0, 0, 0, 0, 0, 1, 2, 3, 5, 0, 5, 5, 5, 0, 0]

/-- arcs (0, 3), (4, 0), (4, 1), (4, 2), (5, 2), (5, 3); nodes 1, 2, 3 with demand 10 each, nodes 4 and 5 with supply 20 and 10 -/
def goodSeed : List Nat :=
  [0, 0, 1, 0, 0, 0, 0, 0, 0, 0, 0, 0, 0, 0, 0, 0, 0, 0, 0, 0, 0, 1, 0, 0, 1, 0, 20, 1, 0, 10, 0, 0, 0, 0, 1, 0, 0, 1, 0, 0, 0,
    1, 2, 3, 4, 5, 0, 0, 0, 0, 0]

/-- the graph for a list of numbers -/
def genGraph (r : List Nat) : Graph STest.Nm := match generate params coinRand r 1100 with | .ok (g, _) => g | .error _ => Graph.init true

/-- **C110 is false without its hypothesis.** The chosen nodes need not be in the graph, then the demands are not balanced. -/
theorem C110_not_balanced : Lawful coinRand ∧ ∃ g d s, generate params coinRand badSeed 1100 = .ok (g, d, s) ∧
    (g.getNodeList.map (attrDem g)).sum ≠ 0 := by
  refine ⟨coinRand_lawful, ?_⟩
  rcases C110_generate coinRand_lawful params_sane badSeed 1100 with h | ⟨g, d, s, h, _⟩
  · exact absurd h (by
      have : (match generate params coinRand badSeed 1100 with | .ok _ => true | .error _ => false) = true := by decide +kernel
      intro h'
      rw [h'] at this
      cases this)
  · refine ⟨g, d, s, h, ?_⟩
    have hg : genGraph badSeed = g := by unfold genGraph; rw [h]
    rw [← hg]
    decide +kernel

/-- non-vacuity of C110: a problem in scope -/
example : ∃ g d s, generate params coinRand goodSeed 1100 = .ok (g, d, s) ∧ (∀ x ∈ d, STest.Nm.num x.1 ∈ g.getNodeList) ∧
    (∀ x ∈ s, STest.Nm.num x.1 ∈ g.getNodeList) ∧ g.getEdgeList.length = 6 := by
  have key : (match generate params coinRand goodSeed 1100 with
      | .ok (g, d, s) => decide ((∀ x ∈ d, STest.Nm.num x.1 ∈ g.getNodeList) ∧ (∀ x ∈ s, STest.Nm.num x.1 ∈ g.getNodeList) ∧
          g.getEdgeList.length = 6)
      | .error _ => false) = true := by decide +kernel
  rcases h : generate params coinRand goodSeed 1100 with e | ⟨g, d, s⟩
  · rw [h] at key; cases key
  · rw [h] at key
    exact ⟨g, d, s, rfl, of_decide_eq_true key⟩

end GiMPy
