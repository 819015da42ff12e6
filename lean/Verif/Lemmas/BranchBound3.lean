import Verif.Lemmas.BranchBound2
import Mathlib.Tactic.Ring

/-! # One turn of the loop, and the whole program -/

namespace GiMPy
namespace BB
open Tree MinCost

theorem value_congr {D : Data} {x y : String → ℚ} (h : ∀ v ∈ D.vars, x v = y v) : value D x = value D y := by
  unfold value
  congr 1
  apply List.map_congr_left
  intro v hv
  rw [h v hv]

theorem sol_congr {D : Data} {x y : String → ℚ} (h : ∀ v ∈ D.vars, x v = y v) (hx : Sol D x) : Sol D y := by
  refine ⟨fun v hv => by rw [← h v hv]; exact hx.1 v hv, ?_⟩
  intro j hj
  have := hx.2 j hj
  rwa [List.map_congr_left (g := fun i => D.mat i j * y i) (fun v hv => by rw [h v hv])] at this

theorem incumbent_ok {D : Data} {G : Fixing} {res : Option (String → ℚ)} (hr : LpRes D G res) {lb : ℚ} {opt : String → ℚ}
    (hi : (lb = -INFINITY ∧ ∀ v, opt v = 0) ∨ (Sol D opt ∧ lb = value D opt ∧ -INFINITY < lb)) {lb' : ℚ} {opt' : String → ℚ}
    (h : incumbent D res lb opt = (lb', opt')) :
    ((lb' = -INFINITY ∧ ∀ v, opt' v = 0) ∨ (Sol D opt' ∧ lb' = value D opt' ∧ -INFINITY < lb')) ∧ lb ≤ lb' ∧
      ∀ x, res = some x → integral D x = true → value D x ≤ lb' := by
  cases res with
  | none =>
    simp only [incumbent, Prod.mk.injEq] at h
    rw [← h.1, ← h.2]
    exact ⟨hi, le_refl _, by simp⟩
  | some x =>
    simp only [incumbent] at h
    by_cases hc : integral D x = true ∧ lin (objective D) x > lb
    · rw [if_pos hc] at h
      simp only [Prod.mk.injEq] at h
      rw [← h.1, ← h.2]
      rw [lin_objective] at hc ⊢
      have hc2 : lb < value D x := hc.2
      have hcong : ∀ v ∈ D.vars, x v = (fun i => if i ∈ D.vars then x i else opt i) v := by
        intro v hv; simp [hv]
      refine ⟨.inr ⟨sol_congr hcong ⟨(integral_iff D x).1 hc.1, hr.1.2.1⟩, value_congr hcong, ?_⟩, hc2.le, ?_⟩
      · rcases hi with ⟨h1, _⟩ | ⟨_, _, h1⟩
        · rw [← h1]; exact hc2
        · exact h1.trans hc2
      · rintro y hy _
        cases hy
        exact le_refl _
    · rw [if_neg hc] at h
      simp only [Prod.mk.injEq] at h
      rw [← h.1, ← h.2]
      refine ⟨hi, le_refl _, ?_⟩
      rintro y hy hiy
      cases hy
      rw [lin_objective] at hc
      exact not_lt.1 fun h' => hc ⟨hiy, h'⟩

theorem green_ok {t : Tree Nm} {a : AGraph Nm} (h : Rep t.g a) (hd : a.directed = true) {n : Nm} (hn : n ∈ a.V) (c : String) :
    ∃ t' a', (lift (Graph.setNodeAttr n c (.str "green"))).run t = .ok () t' ∧ Rep t'.g a' ∧ a'.directed = true ∧ a'.V = a.V ∧
      a'.E = a.E ∧ (∀ m, m ≠ n → a'.getNodeAttr m = a.getNodeAttr m) ∧ (∀ s, s ≠ c → a'.getNodeAttr n s = a.getNodeAttr n s) ∧
      a'.getNodeAttr n c = .ok (.str "green") := by
  have hst : a.step (.setNodeAttr n c (.str "green")) =
      (none, { a with na := AGraph.upd a.na n (AGraph.upd (a.na n) c (some (.str "green"))) }) := by
    simp only [AGraph.step, if_pos hn]
  obtain ⟨g', h1, h2⟩ := lift_ok h hd _ (by rw [hst])
  rw [hst] at h2
  refine ⟨{ t with g := g' }, _, h1, h2, hd, rfl, rfl, ?_, ?_, ?_⟩
  · intro m hm
    funext s
    simp [AGraph.getNodeAttr, AGraph.upd, hm]
  · intro s hs
    simp [AGraph.getNodeAttr, AGraph.upd, hs]
  · simp [AGraph.getNodeAttr, AGraph.upd, hn]

theorem wt_pos {D : Data} {F : Fixing} (h : Good D F) : 1 ≤ wt D F := by
  have h1 := length_le h.1 h.2
  unfold wt
  have : 2 ^ 1 ≤ 2 ^ (D.vars.length + 1 - F.length) := Nat.pow_le_pow_right (by norm_num) (by omega)
  omega

theorem wt_cons {D : Data} {F : Fixing} (h : F.length < D.vars.length) (p q : String × Bool) :
    wt D (p :: F) + wt D (q :: F) + 1 ≤ wt D F := by
  unfold wt
  simp only [List.length_cons]
  have e1 : D.vars.length + 1 - F.length = (D.vars.length + 1 - (F.length + 1)) + 1 := by omega
  rw [e1, pow_succ]
  have : 1 ≤ 2 ^ (D.vars.length + 1 - (F.length + 1)) := Nat.one_le_two_pow
  omega

/-- the answers that lead to the four statuses -/
inductive Outcome (D : Data) (C : Cfg) (G : Fixing) (lb : ℚ) : Option (String → ℚ) → Status → Prop
  | infeasible : (∀ x, ¬ Relax D G x) → Outcome D C G lb none .infeasible
  | sol (x) : Relax D G x → (∀ y, Relax D G y → value D y ≤ value D x) → integral D x = true → Outcome D C G lb (some x) .sol
  | pruned (x) : Relax D G x → (∀ y, Relax D G y → value D y ≤ value D x) → C.complete = false → value D x ≤ lb →
      Outcome D C G lb (some x) .pruned
  | candidate (x) : Relax D G x → (∀ y, Relax D G y → value D y ≤ value D x) → integral D x = false →
      G.length < D.vars.length → Outcome D C G lb (some x) .candidate

theorem outcome {D : Data} (C : Cfg) {G : Fixing} (hG : Good D G) {res : Option (String → ℚ)} (hr : LpRes D G res) (lb : ℚ) :
    Outcome D C G lb res (statusOf D C res lb G.length) := by
  cases res with
  | none => exact .infeasible hr
  | some x =>
    obtain ⟨h1, h2⟩ := hr
    simp only [statusOf]
    cases hi : integral D x with
    | true => rw [if_pos rfl]; exact .sol x h1 h2 hi
    | false =>
      rw [if_neg (by simp)]
      have hlt : G.length < D.vars.length := by
        by_contra hc
        have := sat_integral hG.1 hG.2 (not_lt.1 hc) h1.2.2
        rw [hi] at this
        cases this
      by_cases hp : C.complete = false ∧ relaxOf D C (some x) lb ≤ lb
      · rw [if_pos hp]
        have h3 := hp.2
        simp only [relaxOf, hp.1, Bool.false_eq_true, if_false, lin_objective] at h3
        exact .pruned x h1 h2 hp.1 h3
      · rw [if_neg hp, if_neg (by simpa using hlt)]
        exact .candidate x h1 h2 hi hlt

theorem step_ok {Q : Type} {B : BQ Q} {items : Q → List (Item × ℚ)} (hB : LawfulBQ B items) {D : Data}
    {solve : Prob → Option (String → ℚ)} (hs : ExactSolver D.vars solve) (C : Cfg) {fuel : Nat} (hf : D.vars.length ≤ fuel)
    {st : State Q} {a : AGraph Nm} {e : Item × ℚ} {F : Item → Fixing} (h : Inv D C st a (e :: items st.q) F) :
    ∃ st' a' F', step B D solve C fuel e.1 st = .ok st' ∧ st'.iterCount = st.iterCount + 1 ∧ Inv D C st' a' (items st'.q) F' := by
  obtain ⟨hi, hG⟩ := h.item e (by simp)
  have hat : st.t.g.getNodeAttr = a.getNodeAttr := by funext n s; exact getNodeAttr_rep h.rep n s
  have hi' : ItemOk st.t.g.getNodeAttr e.1 (F e.1) := by rw [hat]; exact hi
  have hfr := h.fresh e (by simp)
  have hroot := h.rootq e (by simp)
  unfold step
  rw [depthOf_ok hi', branchCons_ok C hi' hG.2 ((length_le hG.1 hG.2).trans hf)]
  simp only []
  have hr := lpRes hs C hG.2
  generalize solve ⟨objective D, rows D ++ (F e.1).map (conOf C)⟩ = res at hr ⊢
  obtain ⟨lb', opt', hinc⟩ : ∃ lb' opt', incumbent D res st.lb st.opt = (lb', opt') := ⟨_, _, rfl⟩
  rw [hinc]
  simp only []
  obtain ⟨i1, i2, i3⟩ := incumbent_ok hr h.inc hinc
  have ho := outcome C hG hr lb'
  generalize statusOf D C res lb' (F e.1).length = status at ho ⊢
  cases ho with
  | infeasible h1 =>
    simp only [Status.color]
    obtain ⟨t', a', g1, g2, g3, g4, g5, g6, g7⟩ := addToTree_ok h.rep h.dir hi hroot hfr.1 .infeasible "orange"
    rw [g1]
    refine ⟨_, a', F, rfl, rfl, ?_⟩
    refine h.visit (M := []) g2 g3 g4 g5 g6 g7 (fun _ _ => rfl) (by simp) (by simp) (by simp) rfl rfl rfl (by simpa using wt_pos hG)
      i1 i2 ?_ ?_
    · intro x hx hsx
      exact absurd (sol_relax hx hsx) (h1 x)
    · exact .infeasible g7.status g7.color h1 (by simp)
  | sol x h1 h2 h3 =>
    simp only [Status.color]
    obtain ⟨t', a', g1, g2, g3, g4, g5, g6, g7⟩ := addToTree_ok h.rep h.dir hi hroot hfr.1 .sol "lightblue"
    rw [g1]
    refine ⟨_, a', F, rfl, rfl, ?_⟩
    have hle := i3 x rfl h3
    refine h.visit (M := []) g2 g3 g4 g5 g6 g7 (fun _ _ => rfl) (by simp) (by simp) (by simp) rfl rfl rfl (by simpa using wt_pos hG)
      i1 i2 ?_ ?_
    · intro y hy hsy
      exact .inl ((h2 y (sol_relax hy hsy)).trans hle)
    · exact .sol g7.status g7.color ⟨x, ⟨(integral_iff D x).1 h3, h1.2.1⟩, h1.2.2, hle, h2⟩ (by simp)
  | pruned x h1 h2 h3 h4 =>
    simp only [Status.color]
    obtain ⟨t', a', g1, g2, g3, g4, g5, g6, g7⟩ := addToTree_ok h.rep h.dir hi hroot hfr.1 .pruned "red"
    rw [g1]
    refine ⟨_, a', F, rfl, rfl, ?_⟩
    refine h.visit (M := []) g2 g3 g4 g5 g6 g7 (fun _ _ => rfl) (by simp) (by simp) (by simp) rfl rfl rfl (by simpa using wt_pos hG)
      i1 i2 ?_ ?_
    · intro y hy hsy
      exact .inl ((h2 y (sol_relax hy hsy)).trans h4)
    · exact .pruned g7.status g7.color h3 ⟨x, h1⟩ (fun y hy => (h2 y hy).trans h4) (by simp)
  | candidate x h1 h2 h3 h4 =>
    simp only [Status.color]
    obtain ⟨t', a', g1, g2, g3, g4, g5, g6, g7⟩ := addToTree_ok h.rep h.dir hi hroot hfr.1 .candidate "yellow"
    rw [g1]
    simp only []
    obtain ⟨v, v1, v2, v3, v4, v5, v6⟩ := branchVar_ok C h1.1 h3
    obtain ⟨t2, a2, k1, k2, k3, k4, k5, k6, k7, k8⟩ := green_ok (n := Nm.num e.1.idx) g2 g3 (by rw [g4]; simp) "yellow"
    unfold branch
    rw [v2]
    simp only []
    rw [k1, v3, v4]
    simp only []
    have hvF : v ∉ (F e.1).map Prod.fst := by
      intro hm
      obtain ⟨p, hp, rfl⟩ := List.mem_map.1 hm
      have := h1.2.2 p hp
      cases hb : p.2
      · rw [hb] at this; simp at this; rw [this] at v5; exact lt_irrefl _ v5
      · rw [hb] at this; simp at this; rw [this] at v6; exact lt_irrefl _ v6
    generalize hpr : priority C (F e.1).length (relaxOf D C (some x) lb') = pr
    obtain ⟨it1, e1⟩ : ∃ it1, it1 = Item.node (st.nodeCount + 1) e.1.idx v .le 0 := ⟨_, rfl⟩
    obtain ⟨it2, e2⟩ : ∃ it2, it2 = Item.node (st.nodeCount + 2) e.1.idx v .ge 1 := ⟨_, rfl⟩
    rw [← e1, ← e2]
    have hne : it1 ≠ it2 := by rw [e1, e2]; simp
    have hLlt : ∀ y ∈ items st.q, y.1.idx ≤ st.nodeCount := fun y hy => (h.fresh y (by simp [hy])).2
    have hL1 : ∀ y ∈ items st.q, y.1 ≠ it1 := by
      intro y hy he
      have := hLlt y hy
      rw [he, e1] at this
      simp only [Item.idx] at this
      omega
    have hL2 : ∀ y ∈ items st.q, y.1 ≠ it2 := by
      intro y hy he
      have := hLlt y hy
      rw [he, e2] at this
      simp only [Item.idx] at this
      omega
    have p1 := hB.push st.q it1 pr hL1
    have p2 := hB.push (B.push st.q it1 pr) it2 pr (by
      intro y hy
      rcases List.mem_cons.1 (p1.mem_iff.1 hy) with rfl | hy
      · exact hne
      · exact hL2 y hy)
    have p3 : (items (B.push (B.push st.q it1 pr) it2 pr)).Perm ([(it2, pr), (it1, pr)] ++ items st.q) :=
      p2.trans (p1.cons _)
    refine ⟨_, a2, fun it => if it = it1 then (v, false) :: F e.1 else if it = it2 then (v, true) :: F e.1 else F it, rfl, rfl, ?_⟩
    refine Inv.perm ?_ p3.symm
    have hg7 : NewAttrs a2.getNodeAttr e.1 (F e.1) (Status.str .candidate) "yellow" := by
      constructor
      · rw [k7 _ (by decide)]; exact g7.status
      · rw [k7 _ (by decide)]; exact g7.color
      · rw [k7 _ (by decide)]; exact g7.level
      · have hr := g7.rest
        rcases he : e.1 with _ | ⟨c, p, w, s, r⟩
        · rw [he] at hr k7
          exact (k7 "parent" (by decide)).trans hr
        · rw [he] at hr k7
          obtain ⟨r1, r2, r3, r4⟩ := hr
          exact ⟨(k7 _ (by decide)).trans r1, (k7 _ (by decide)).trans r2, (k7 _ (by decide)).trans r3, (k7 _ (by decide)).trans r4⟩
    refine h.visit (M := [(it2, pr), (it1, pr)]) k2 k3 (k4.trans g4) (k5.trans g5) ?_ hg7 ?_ ?_ ?_ ?_ rfl rfl rfl ?_ i1 i2 ?_ ?_
    · intro m hm; rw [k6 m hm, g6 m hm]
    · intro y hy
      simp only [if_neg (hL1 y hy), if_neg (hL2 y hy)]
    · intro y hy
      simp only [List.mem_cons, List.not_mem_nil, or_false] at hy
      rcases hy with rfl | rfl
      · exact ⟨st.nodeCount + 2, v, true, by rw [e2]; rfl, by simp [hne.symm], v1, hvF, by omega, le_refl _⟩
      · exact ⟨st.nodeCount + 1, v, false, by rw [e1]; rfl, by simp, v1, hvF, by omega, by simp⟩
    · have hP : ∀ b, PrioOk D C ((v, b) :: F e.1) pr := by
        intro b
        rw [← hpr]
        constructor
        · intro hst
          simp only [priority, hst, List.length_cons]
          push_cast
          ring
        · intro hst hco
          simp only [priority, hst, relaxOf, hco, Bool.false_eq_true, if_false, lin_objective]
          exact ⟨⟨x, h1, rfl⟩, h2⟩
      intro y hy
      simp only [List.mem_cons, List.not_mem_nil, or_false] at hy
      rcases hy with rfl | rfl
      · simpa [hne.symm] using hP true
      · simpa using hP false
    · rw [e1, e2]; simp [Item.idx]
    · simp only [List.map_cons, List.map_nil, List.sum_cons, List.sum_nil, if_pos, if_neg hne.symm]
      have := wt_cons h4 (v, true) (v, false)
      omega
    · intro y hy hsy
      right
      rcases hy.1 v v1 with hv | hv
      · refine ⟨(it1, pr), by simp, ?_⟩
        simp only [if_pos]
        intro p hp
        rcases List.mem_cons.1 hp with rfl | hp
        · simpa using hv
        · exact hsy p hp
      · refine ⟨(it2, pr), by simp, ?_⟩
        simp only [if_pos, if_neg hne.symm]
        intro p hp
        rcases List.mem_cons.1 hp with rfl | hp
        · simpa using hv
        · exact hsy p hp
    · refine .candidate v (st.nodeCount + 1) (st.nodeCount + 2) hg7.status hg7.color k8 v1 hvF ⟨x, h1, v5, v6, h2⟩ (by omega) ?_
      intro c w b
      simp only [List.mem_cons, Prod.mk.injEq, List.not_mem_nil, or_false, e1, e2, Item.node.injEq, true_and]
      constructor
      · rintro ⟨pr', ⟨⟨rfl, rfl, hb, _⟩, _⟩ | ⟨⟨rfl, rfl, hb, _⟩, _⟩⟩
        · exact ⟨rfl, .inr ⟨rfl, by cases b <;> simp [sn] at hb ⊢⟩⟩
        · exact ⟨rfl, .inl ⟨rfl, by cases b <;> simp [sn] at hb ⊢⟩⟩
      · rintro ⟨rfl, ⟨rfl, rfl⟩ | ⟨rfl, rfl⟩⟩
        · exact ⟨pr, .inr ⟨⟨rfl, rfl, rfl, rfl⟩, rfl⟩⟩
        · exact ⟨pr, .inl ⟨⟨rfl, rfl, rfl, rfl⟩, rfl⟩⟩

/-- the number of turns that may still come -/
def pot (D : Data) (L : List (Item × ℚ)) (F : Item → Fixing) : Nat := (L.map fun e => wt D (F e.1)).sum

theorem loop_ok {Q : Type} {B : BQ Q} {items : Q → List (Item × ℚ)} (hB : LawfulBQ B items) {D : Data}
    {solve : Prob → Option (String → ℚ)} (hs : ExactSolver D.vars solve) (C : Cfg) {inner : Nat} (hf : D.vars.length ≤ inner) :
    ∀ (k : Nat) (st : State Q) (a : AGraph Nm) (F : Item → Fixing), Inv D C st a (items st.q) F →
      2 ^ (D.vars.length + 1) ≤ st.iterCount + k →
      ∃ st' a' F', loop B D solve C inner k st = .ok st' ∧ Inv D C st' a' [] F' := by
  intro k
  induction k with
  | zero =>
    intro st a F h hk
    have := h.pot
    have h2 : 1 ≤ 2 ^ (D.vars.length + 1) := Nat.one_le_two_pow
    omega
  | succ k ih =>
    intro st a F h hk
    simp only [loop]
    by_cases he : items st.q = []
    · rw [if_pos ((hB.isEmpty_iff _).2 he)]
      rw [he] at h
      exact ⟨st, a, F, rfl, h⟩
    · rw [if_neg (fun h' => he ((hB.isEmpty_iff _).1 h'))]
      obtain ⟨x, p, q', h1, h2, _⟩ := hB.pop st.q he
      rw [h1]
      simp only []
      have h3 : Inv D C { st with q := q' } a ((x, p) :: items q') F := (h.perm h2).queue q'
      obtain ⟨st', a', F', h4, hit, h5⟩ := step_ok hB hs C hf (e := (x, p)) h3
      rw [h4]
      simp only []
      refine ih st' a' F' h5 ?_
      have hit : st'.iterCount = st.iterCount + 1 := hit
      omega

/-- the tree with the key -/
def a0 : AGraph Nm := ((AGraph.empty true).run keyOps).2

theorem a0_V : a0.V = [.key "C", .key "I", .key "S", .key "P"] := by decide

theorem a0_E : a0.E = [(.key "C", .key "I"), (.key "I", .key "S"), (.key "S", .key "P")] := by decide

theorem start_inv {Q : Type} {B : BQ Q} {items : Q → List (Item × ℚ)} (hB : LawfulBQ B items) {newQ : Q} (hq : items newQ = [])
    (D : Data) (C : Cfg) : Inv D C (start B newQ) a0 (items (start B newQ).q) fun _ => [] := by
  have hp : (items (start B newQ).q).Perm [(.root, INFINITY)] := by
    have := hB.push newQ .root INFINITY (by rw [hq]; simp)
    rw [hq] at this
    exact this
  refine Inv.perm ?_ hp.symm
  have hnum : ∀ k, Nm.num k ∉ a0.V := by intro k; rw [a0_V]; simp
  constructor
  · exact (rep_run (rep_init true) keyOps (by intro op h; simp [keyOps] at h; rcases h with h | h | h | h | h | h | h <;> rw [h] <;> trivial)).2
  · decide
  · intro e he
    rw [List.mem_singleton] at he
    rw [he]
    exact ⟨rfl, by simp [Good], by simp⟩
  · intro e he
    rw [List.mem_singleton] at he
    rw [he]
    simp [start]
  · intro e he
    exact ⟨hnum _, by rw [List.mem_singleton] at he; rw [he]; simp [Item.idx]⟩
  · simp
  · exact ⟨[], by rw [a0_V]; rfl, rfl, by simp, by simp⟩
  · intro h; exact absurd rfl h
  · exact le_refl _
  · intro e he hne
    rw [List.mem_singleton] at he
    rw [he] at hne
    exact absurd rfl hne
  · simp [start]
  · simp [start, wt]
  · exact .inl ⟨rfl, fun _ => rfl⟩
  · intro x _
    exact .inr ⟨(.root, INFINITY), by simp, by intro p hp; simp at hp⟩
  · intro k hk
    exact absurd hk (hnum k)
  · intro p y
    constructor
    · intro h
      rw [a0_E] at h
      simp at h
    · rintro ⟨c, _, hc⟩
      exact absurd (attr_ok hc) (hnum c)

theorem run_ok {Q : Type} {B : BQ Q} {items : Q → List (Item × ℚ)} (hB : LawfulBQ B items) {newQ : Q} (hq : items newQ = [])
    {D : Data} {solve : Prob → Option (String → ℚ)} (hs : ExactSolver D.vars solve) (C : Cfg) {fuel : Nat}
    (hf : 2 ^ (D.vars.length + 1) ≤ fuel) :
    ∃ st a F, run B newQ D solve C fuel = .ok st ∧ Inv D C st a [] F := by
  refine loop_ok hB hs C ?_ fuel _ a0 _ (start_inv hB hq D C) ?_
  · have : D.vars.length + 1 < 2 ^ (D.vars.length + 1) := Nat.lt_two_pow_self
    omega
  · exact hf.trans (Nat.le_add_left _ _)

end BB
end GiMPy
