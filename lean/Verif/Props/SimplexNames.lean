import Verif.Model.SimplexNames
import Verif.Props.Simplex

/-! # C104: network simplex and the kind of the node names -/

namespace GiMPy
open MinCost MaxFlow Simplex
variable {N : Type} [DecidableEq N] {Q : Type} {g t : Graph N} {O : QOps N Q} {items : Q → List N}
variable {cap cost f : N × N → Int} {b : N → Int} {src snk root : N}

namespace Simplex

/-! ## Names that are integers -/

theorem threadsC_id (first : N) : ∀ (l : List N) (th : N → Option N), threadsC .ok first l th = .ok (threads first l th)
  | [], _ => rfl
  | [_], _ => rfl
  | a :: b :: l, th => by
    have := threadsC_id first (b :: l) (upd th a (some b))
    simpa [threadsC, threads] using this

theorem searchC_id (t : Graph N) (ix : Idx N) (src : N) (fuel : Nat) : searchC .ok t ix src fuel = search t ix src fuel := by
  unfold searchC search
  cases searchLoop t fuel ⟨[src], ⟨[(src, none)]⟩, ⟨[(src, 0)]⟩, []⟩ with
  | error e => rfl
  | ok st => simp only [threadsC_id]; rfl

theorem cycleOuterC_total (c : N → N) (t : Graph N) (inner : Nat) : ∀ (k : Nat) (st : CState N),
    cycleOuterC (fun v => .ok (c v)) t inner k st = cycleOuter t inner k st := by
  intro k
  induction k with
  | zero => intro st; rfl
  | succ k ih =>
    intro st
    unfold cycleOuterC cycleOuter
    cases cycleLoop t inner inner st with
    | error e => rfl
    | ok r =>
      cases r with
      | inr c => rfl
      | inl st =>
        simp only []
        cases t.getNodeList.find? fun n => decide (n ∉ st.marked) with
        | none => rfl
        | some n => exact ih _

theorem findCycleC_total (c : N → N) (t : Graph N) (fuel : Nat) :
    findCycleC (fun v => .ok (c v)) t fuel = findCycle t fuel := by
  unfold findCycleC findCycle
  cases t.getNodeList with
  | nil => rfl
  | cons n l => exact cycleOuterC_total c t fuel fuel _

theorem breakCyclesC_total (c : N → N) (g : Graph N) (inner : Nat) : ∀ (k : Nat) (f : N × N → Int),
    breakCyclesC (fun v => .ok (c v)) g inner k f = breakCycles g inner k f := by
  intro k
  induction k with
  | zero => intro f; rfl
  | succ k ih =>
    intro f
    unfold breakCyclesC breakCycles
    cases solutionGraph g f with
    | error e => rfl
    | ok t =>
      simp only [findCycleC_total]
      cases findCycle t inner with
      | error e => rfl
      | ok r =>
        cases r with
        | none => rfl
        | some cy =>
          simp only []
          cases amount g f cy with
          | error e => rfl
          | ok d =>
            simp only []
            cases MinCost.augmentCycle g d cy f with
            | error e => rfl
            | ok f => exact ih f

/-- equal names are the same object -/
structure SameObj (T : Tags N) (root : N) (τ : N → Nat) : Prop where
  node : ∀ v, T.node v = τ v
  arc : ∀ e, T.arc e = (τ e.1, τ e.2)
  root : T.root = τ root

theorem reachTag_same {T : Tags N} {τ : N → Nat} (h : SameObj T root τ) {tg : N × N → Nat × Nat}
    (htg : ∀ e, tg e = (τ e.1, τ e.2)) (t : Graph N) (ix : Idx N) (r : N) (v : N) : reachTag T t tg ix r (τ r) v = τ v := by
  unfold reachTag
  by_cases hv : v = r
  · rw [if_pos hv, hv]
  · rw [if_neg hv]
    cases ix.pred v with
    | none => exact h.node v
    | some p =>
      simp only [htg]
      split <;> rfl

theorem connectLoopC_same {T : Tags N} {τ : N → Nat} (h : SameObj T root τ) (g : Graph N) (inner : Nat) :
    ∀ (k : Nat) (t : Graph N) (tg : N × N → Nat × Nat) (ix : Idx N), (∀ e, tg e = (τ e.1, τ e.2)) →
      ∃ tg', (∀ e, tg' e = (τ e.1, τ e.2)) ∧ connectLoopC .ok T g inner k t tg ix = match connectLoop g inner k t ix with
        | .error e => .error e
        | .ok (t, ix) => .ok (t, tg', ix) := by
  intro k
  induction k with
  | zero => intro t tg ix htg; exact ⟨tg, htg, rfl⟩
  | succ k ih =>
    intro t tg ix htg
    unfold connectLoopC connectLoop
    cases hl : t.getNodeList with
    | nil => exact ⟨tg, htg, rfl⟩
    | cons cur l =>
      simp only [searchC_id]
      cases hs : search t ix cur inner with
      | error e => exact ⟨tg, htg, rfl⟩
      | ok r =>
        obtain ⟨st, ix'⟩ := r
        simp only []
        cases ha : arcOut g st.pred.keys (cur :: l) with
        | none => exact ⟨tg, htg, rfl⟩
        | some e =>
          simp only []
          cases hc : t.call (.addEdge e.1 e.2 []) with
          | error x => exact ⟨tg, htg, rfl⟩
          | ok t' =>
            simp only []
            apply ih
            intro e'
            by_cases he : e' = e
            · subst he
              rw [upd, if_pos rfl]
              have hx : ∀ v, (if v ∈ st.pred.keys then reachTag T t tg ix' cur (T.node cur) v else T.node v) = τ v := by
                intro v
                rw [h.node cur, reachTag_same h htg, h.node v]
                split <;> rfl
              rw [hx, hx]
            · rw [upd, if_neg he]; exact htg e'

theorem findTreeC_same {T : Tags N} {τ : N → Nat} (h : SameObj T root τ) (g : Graph N) (f : N × N → Int) (ix : Idx N)
    (fuel : Nat) : ∃ tg, (∀ e, tg e = (τ e.1, τ e.2)) ∧ findTreeC .ok T g f ix fuel = match findTree g f ix fuel with
      | .error e => .error e
      | .ok (t, f, ix) => .ok (t, tg, f, ix) := by
  unfold findTreeC findTree
  rw [breakCyclesC_total fun v => v]
  cases breakCycles g fuel fuel f with
  | error e => exact ⟨T.arc, h.arc, rfl⟩
  | ok r =>
    obtain ⟨t, f⟩ := r
    obtain ⟨tg, h1, h2⟩ := connectLoopC_same h g fuel fuel t T.arc ix h.arc
    refine ⟨tg, h1, ?_⟩
    simp only [h2]
    cases connectLoop g fuel fuel t ix with
    | error e => rfl
    | ok r =>
      simp only []
      cases Kruskal.costs g g.getEdgeList <;> rfl

theorem meetC_same {τ : N → Nat} {tag : N → Nat} (htag : ∀ v, tag v = τ v) (t : Graph N) (ix : Idx N) :
    ∀ (k : Nat) (i j : N) (li lj : List N), meet t ix k i j li lj ≠ .error .attributeError →
      meetC t ix tag k (some (i, τ i)) (some (j, τ j)) li lj = match meet t ix k i j li lj with
        | .error e => .error e
        | .ok (a, li, lj) => .ok (some a, li, lj) := by
  intro k
  induction k with
  | zero => intro i j li lj _; rfl
  | succ k ih =>
    intro i j li lj h
    unfold meetC meet
    unfold meet at h
    by_cases hij : i = j
    · subst hij; simp
    · have hne : ¬ (some (i, τ i) = some (j, τ j)) := by simp [hij]
      rw [if_neg hij] at h
      rw [if_neg hij, if_neg hne]
      simp only []
      by_cases hn : ¬ t.hasNode i ∨ ¬ t.hasNode j
      · rw [if_pos hn] at h; exact absurd rfl h
      rw [if_neg hn] at h
      rw [if_neg hn, if_neg hn]
      cases hdi : ix.depth i with
      | none => rfl
      | some di =>
        cases hdj : ix.depth j with
        | none => rfl
        | some dj =>
          rw [hdi, hdj] at h
          simp only [] at h ⊢
          by_cases h1 : di > dj
          · rw [if_pos h1] at h
            rw [if_pos h1, if_pos h1]
            cases hp : ix.pred i with
            | none => rw [hp] at h; exact absurd rfl h
            | some p =>
              rw [hp] at h
              simp only [climb, hp, Option.map_some, htag] at h ⊢
              exact ih _ _ _ _ h
          rw [if_neg h1] at h
          rw [if_neg h1, if_neg h1]
          by_cases h2 : di < dj
          · rw [if_pos h2] at h
            rw [if_pos h2, if_pos h2]
            cases hp : ix.pred j with
            | none => rw [hp] at h; exact absurd rfl h
            | some p =>
              rw [hp] at h
              simp only [climb, hp, Option.map_some, htag] at h ⊢
              exact ih _ _ _ _ h
          rw [if_neg h2] at h
          rw [if_neg h2, if_neg h2]
          cases hp : ix.pred i with
          | none => rw [hp] at h; exact absurd rfl h
          | some p =>
            cases hq : ix.pred j with
            | none => rw [hp, hq] at h; exact absurd rfl h
            | some q =>
              rw [hp, hq] at h
              simp only [climb, hp, hq, Option.map_some, htag] at h ⊢
              exact ih _ _ _ _ h

theorem pivotOnC_same {T : Tags N} {τ : N → Nat} (h : SameObj T root τ) {tg : N × N → Nat × Nat}
    (htg : ∀ e, tg e = (τ e.1, τ e.2)) (g t : Graph N) (f : N × N → Int) (ix : Idx N) (k : N × N) (fuel : Nat)
    (hok : pivotOn g t f ix k fuel ≠ .error .attributeError) :
    ∃ tg', (∀ e, tg' e = (τ e.1, τ e.2)) ∧ pivotOnC T g t tg f ix root k fuel = match pivotOn g t f ix k fuel with
      | .error e => .error e
      | .ok (t, f) => .ok (t, tg', f) := by
  refine ⟨upd tg k (T.arc k), fun e => ?_, ?_⟩
  · by_cases he : e = k
    · subst he; rw [upd, if_pos rfl]; exact h.arc e
    · rw [upd, if_neg he]; exact htg e
  unfold pivotOn identify at hok
  unfold pivotOnC identifyC pivotOn identify
  have hm : meet t ix fuel k.1 k.2 [] [] ≠ .error .attributeError := by
    intro hm; rw [hm] at hok; exact hok rfl
  rw [h.arc, h.root, meetC_same (fun v => reachTag_same h htg t ix root v) t ix fuel k.1 k.2 [] [] hm]
  cases meet t ix fuel k.1 k.2 [] [] with
  | error e => rfl
  | ok r =>
    obtain ⟨a, li, lj⟩ := r
    simp only []
    cases g.flowOf f k.1 k.2 with
    | error e => rfl
    | ok fl =>
      simp only []
      cases g.capOf k.1 k.2 with
      | error e => rfl
      | ok c =>
        simp only []
        cases t.call (.addEdge k.1 k.2 []) with
        | error e => rfl
        | ok t =>
          simp only []
          cases leaving g t f (if fl = c then (lj.reverse ++ a :: li).reverse else lj.reverse ++ a :: li) c with
          | error e => rfl
          | ok r =>
            obtain ⟨p, d⟩ := r
            simp only []
            cases pushCycle g t d (if fl = c then (lj.reverse ++ a :: li).reverse else lj.reverse ++ a :: li) f with
            | error e => rfl
            | ok f =>
              simp only []
              cases t.call (.delEdge p.1 p.2) <;> rfl

/-- the state without the tags -/
def SStateC.drop (st : SStateC N) : SState N := ⟨st.t, st.f, st.ix, st.pi⟩

theorem refreshC_same (g : Graph N) (st : SStateC N) (fuel : Nat) :
    refreshC .ok g root st fuel = match refresh g root st.drop fuel with
      | .error e => .error e
      | .ok x => .ok ⟨x.t, st.tg, x.f, x.ix, x.pi⟩ := by
  unfold refreshC refresh
  rw [searchC_id]
  simp only [SStateC.drop]
  cases search st.t st.ix root fuel with
  | error e => rfl
  | ok r =>
    simp only []
    cases potentials g st.t r.2 root st.pi fuel <;> rfl

theorem pivotStepC_same {T : Tags N} {τ : N → Nat} (h : SameObj T root τ) (g : Graph N) (p : Pivot) (st : SStateC N)
    (htg : ∀ e, st.tg e = (τ e.1, τ e.2)) (fuel : Nat) (hok : pivotStep g root p st.drop fuel ≠ .error .attributeError) :
    ∃ tg', (∀ e, tg' e = (τ e.1, τ e.2)) ∧ pivotStepC .ok T g root p st fuel = match pivotStep g root p st.drop fuel with
      | .error e => .error e
      | .ok x => .ok ⟨x.t, tg', x.f, x.ix, x.pi⟩ := by
  unfold pivotStep at hok
  unfold pivotStepC pivotStep
  simp only [SStateC.drop] at hok ⊢
  cases he : entering g st.t st.f st.pi p with
  | error e => exact ⟨st.tg, htg, rfl⟩
  | ok k =>
    rw [he] at hok
    simp only [] at hok ⊢
    have hp : pivotOn g st.t st.f st.ix k fuel ≠ .error .attributeError := by
      intro hp; rw [hp] at hok; exact hok rfl
    obtain ⟨tg', h1, h2⟩ := pivotOnC_same h htg g st.t st.f st.ix k fuel hp
    refine ⟨tg', h1, ?_⟩
    rw [h2]
    cases pivotOn g st.t st.f st.ix k fuel with
    | error e => rfl
    | ok r =>
      obtain ⟨t, f⟩ := r
      simp only []
      cases stamps g f t.getEdgeList with
      | error e => rfl
      | ok s =>
        simp only []
        cases markArcs g t f g.getEdgeList with
        | error e => rfl
        | ok _ =>
          simp only []
          cases redraw t st.ix s root fuel with
          | error e => rfl
          | ok _ =>
            simp only [refreshC_same]
            rfl

theorem mainLoopC_same {T : Tags N} {τ : N → Nat} (h : SameObj T root τ) (g : Graph N) (p : Pivot) (inner : Nat) :
    ∀ (k : Nat) (st : SStateC N), (∀ e, st.tg e = (τ e.1, τ e.2)) →
      mainLoop g root p inner k st.drop ≠ .error .attributeError →
      ∃ tg', mainLoopC .ok T g root p inner k st = match mainLoop g root p inner k st.drop with
        | .error e => .error e
        | .ok x => .ok ⟨x.t, tg', x.f, x.ix, x.pi⟩ := by
  intro k
  induction k with
  | zero => intro st _ _; exact ⟨st.tg, rfl⟩
  | succ k ih =>
    intro st htg hok
    unfold mainLoop at hok
    unfold mainLoopC mainLoop
    have e1 : st.drop.t = st.t := rfl
    have e2 : st.drop.f = st.f := rfl
    have e3 : st.drop.pi = st.pi := rfl
    rw [e1, e2, e3] at hok ⊢
    cases ho : optimal g st.t st.f st.pi g.getEdgeList with
    | error e => exact ⟨st.tg, rfl⟩
    | ok b =>
      rw [ho] at hok
      cases b with
      | true => exact ⟨st.tg, rfl⟩
      | false =>
        simp only [] at hok ⊢
        have hp : pivotStep g root p st.drop inner ≠ .error .attributeError := by
          intro hp; rw [hp] at hok; exact hok rfl
        obtain ⟨tg', h1, h2⟩ := pivotStepC_same h g p st htg inner hp
        rw [h2]
        cases hx : pivotStep g root p st.drop inner with
        | error e => exact ⟨st.tg, rfl⟩
        | ok x =>
          rw [hx] at hok
          exact ih ⟨x.t, tg', x.f, x.ix, x.pi⟩ h1 hok

theorem setupC_same {T : Tags N} {τ : N → Nat} (h : SameObj T root τ) (g : Graph N) (f : N × N → Int) (ix : Idx N)
    (pi : N → Option Int) (fuel : Nat) :
    ∃ tg, (∀ e, tg e = (τ e.1, τ e.2)) ∧ setupC .ok T g root f ix pi fuel = match setup g root f ix pi fuel with
      | .error e => .error e
      | .ok x => .ok ⟨x.t, tg, x.f, x.ix, x.pi⟩ := by
  obtain ⟨tg, h1, h2⟩ := findTreeC_same h g f ix fuel
  refine ⟨tg, h1, ?_⟩
  unfold setupC setup
  rw [h2]
  cases findTree g f ix fuel with
  | error e => rfl
  | ok r =>
    obtain ⟨t, f, ix⟩ := r
    simp only []
    cases stamps g f t.getEdgeList with
    | error e => rfl
    | ok s =>
      simp only []
      cases markArcs g t f g.getEdgeList with
      | error e => rfl
      | ok _ =>
        simp only []
        cases redraw t ix s root fuel with
        | error e => rfl
        | ok _ =>
          simp only [refreshC_same]
          rfl

theorem networkSimplexC_same {T : Tags N} {τ : N → Nat} (h : SameObj T root τ) (g : Graph N) (O : QOps N Q) (newQ : Q)
    (s t : N) (p : Pivot) (pi : N → Option Int) (fuel pivots : Nat)
    (hok : networkSimplex g O newQ s t root p pi fuel pivots ≠ .error .attributeError) :
    networkSimplexC .ok T g O newQ s t root p pi fuel pivots = networkSimplex g O newQ s t root p pi fuel pivots := by
  unfold networkSimplex at hok
  unfold networkSimplexC networkSimplex
  cases hff : feasibleFlow g O newQ s t fuel with
  | error e => rfl
  | ok r =>
    obtain ⟨b, f, g⟩ := r
    rw [hff] at hok
    cases b with
    | false => rfl
    | true =>
      simp only [] at hok ⊢
      obtain ⟨tg, h1, h2⟩ := setupC_same h g f ⟨fun _ => none, fun _ => none, fun _ => none⟩ pi fuel
      rw [h2]
      cases hs : setup g root f ⟨fun _ => none, fun _ => none, fun _ => none⟩ pi fuel with
      | error e => rfl
      | ok x =>
        rw [hs] at hok
        simp only [] at hok ⊢
        have hm : mainLoop g root p fuel pivots x ≠ .error .attributeError := by
          intro hm; rw [hm] at hok; exact hok rfl
        obtain ⟨tg', h3⟩ := mainLoopC_same h g p fuel pivots ⟨x.t, tg, x.f, x.ix, x.pi⟩ h1 hm
        rw [h3]
        cases hm : mainLoop g root p fuel pivots x with
        | error e => simp only [SStateC.drop, hm]
        | ok y => simp only [SStateC.drop, hm]

/-! ## Other names -/

theorem threadsC_mem {conv : N → Except PyErr N} {first : N} : ∀ {l : List N} {th th' : N → Option N},
    threadsC conv first l th = .ok th' → ∀ a ∈ l, ∃ w v, conv w = .ok v ∧ th' a = some v := by
  have keep : ∀ {l : List N} {th th' : N → Option N}, threadsC conv first l th = .ok th' →
      ∀ a, (∃ w v, conv w = .ok v ∧ th a = some v) → ∃ w v, conv w = .ok v ∧ th' a = some v := by
    intro l
    induction l with
    | nil => intro th th' h a ha; cases h; exact ha
    | cons b l ih =>
      intro th th' h a ha
      cases l with
      | nil =>
        unfold threadsC at h
        cases hc : conv first with
        | error e => rw [hc] at h; cases h
        | ok v =>
          rw [hc] at h
          cases h
          by_cases hab : a = b
          · subst hab; exact ⟨first, v, hc, by simp [upd]⟩
          · rw [Search.upd_ne _ _ hab]; exact ha
      | cons c l =>
        unfold threadsC at h
        cases hc : conv c with
        | error e => rw [hc] at h; cases h
        | ok v =>
          rw [hc] at h
          refine ih h a ?_
          by_cases hab : a = b
          · subst hab; exact ⟨c, v, hc, by simp [upd]⟩
          · rw [Search.upd_ne _ _ hab]; exact ha
  intro l
  induction l with
  | nil => intro th th' _ a ha; cases ha
  | cons b l ih =>
    intro th th' h a ha
    cases l with
    | nil =>
      obtain rfl := List.mem_singleton.1 ha
      unfold threadsC at h
      cases hc : conv first with
      | error e => rw [hc] at h; cases h
      | ok v => rw [hc] at h; cases h; exact ⟨first, v, hc, by simp [upd]⟩
    | cons c l =>
      unfold threadsC at h
      cases hc : conv c with
      | error e => rw [hc] at h; cases h
      | ok v =>
        rw [hc] at h
        rcases List.mem_cons.1 ha with rfl | ha
        · exact keep h a ⟨c, v, hc, by simp [upd]⟩
        · exact ih h a ha

theorem visit_seq {cur : N} : ∀ {l : List N} {st st' : Simplex.XState N}, visit cur l st = .ok st' → st'.seq = st.seq := by
  intro l
  induction l with
  | nil => intro st st' h; cases h; rfl
  | cons n l ih =>
    intro st st' h
    unfold visit at h
    by_cases hc : st.pred.contains n = true
    · rw [if_pos hc] at h; exact ih h
    · rw [if_neg hc] at h
      cases hd : st.depth.get? cur with
      | none => rw [hd] at h; cases h
      | some d => rw [hd] at h; exact (ih h).trans rfl

theorem searchLoop_seq {t : Graph N} : ∀ {k : Nat} {st st' : Simplex.XState N}, searchLoop t k st = .ok st' →
    ∀ v, v ∈ st.seq ∨ st.q.head? = some v → v ∈ st'.seq := by
  intro k
  induction k with
  | zero => intro st st' h; cases h
  | succ k ih =>
    intro st st' h v hv
    unfold searchLoop at h
    cases hq : st.q with
    | nil =>
      rw [hq] at h hv
      cases h
      simpa using hv
    | cons cur q =>
      rw [hq] at h hv
      simp only [] at h
      by_cases hn : ¬ t.hasNode cur
      · rw [if_pos hn] at h; cases h
      rw [if_neg hn] at h
      cases ha : around t cur with
      | error e => rw [ha] at h; cases h
      | ok l =>
        rw [ha] at h
        simp only [] at h
        cases hvis : visit cur l { st with q := q, seq := st.seq ++ [cur] } with
        | error e => rw [hvis] at h; cases h
        | ok st1 =>
          rw [hvis] at h
          refine ih h v (.inl ?_)
          rw [visit_seq hvis]
          rcases hv with hv | hv
          · exact List.mem_append_left _ hv
          · simp only [List.head?_cons, Option.some.injEq] at hv
            subst hv; simp

/-- after the search the thread index of the root is an integer -/
theorem searchC_root {conv : N → Except PyErr N} {t : Graph N} {ix : Idx N} {src : N} {fuel : Nat} {st : Simplex.XState N}
    {ix' : Idx N} (h : searchC conv t ix src fuel = .ok (st, ix')) : ∃ w v, conv w = .ok v ∧ ix'.thread src = some v := by
  unfold searchC at h
  cases hs : searchLoop t fuel ⟨[src], ⟨[(src, none)]⟩, ⟨[(src, 0)]⟩, []⟩ with
  | error e => rw [hs] at h; cases h
  | ok st1 =>
    rw [hs] at h
    simp only [] at h
    cases hth : threadsC conv src st1.seq ix.thread with
    | error e => rw [hth] at h; cases h
    | ok th =>
      rw [hth] at h
      simp only [Except.ok.injEq, Prod.mk.injEq] at h
      obtain ⟨rfl, rfl⟩ := h
      exact threadsC_mem hth src (searchLoop_seq hs src (.inr rfl))

/-- with a thread index that is no node the potentials cannot be computed -/
theorem potentials_stuck {g t : Graph N} {ix : Idx N} {root v : N} (hth : ix.thread root = some v)
    (hv : g.hasNode v = false) (pi : N → Option Int) (fuel : Nat) :
    potentials g t ix root pi (fuel + 1) = .error .attributeError := by
  unfold potentials
  by_cases h : ¬ g.hasNode root ∨ ¬ t.hasNode root
  · rw [if_pos h]
  rw [if_neg h, hth, potLoop]
  have hne : v ≠ root := by
    rintro rfl
    exact h (.inl (by rw [hv]; simp))
  rw [if_neg hne]
  by_cases h2 : ¬ t.hasNode v
  · rw [if_pos h2]
  rw [if_neg h2]
  cases ix.pred v with
  | none => rfl
  | some i =>
    simp only []
    rw [if_pos (.inr (by rw [hv]; simp))]

theorem threadsC_total (c : N → N) (first : N) : ∀ (l : List N) (th : N → Option N),
    ∃ th', threadsC (fun v => .ok (c v)) first l th = .ok th' := by
  intro l
  induction l with
  | nil => intro th; exact ⟨_, rfl⟩
  | cons a l ih =>
    intro th
    cases l with
    | nil => exact ⟨_, rfl⟩
    | cons b l => exact ih _

theorem connectLoopC_total (c : N → N) (T : Tags N) (g : Graph N) (inner : Nat) : ∀ (k : Nat) {t t' : Graph N} {ix ix' : Idx N},
    connectLoop g inner k t ix = .ok (t', ix') → ∀ tg ix₂, ∃ tg' ix₂',
      connectLoopC (fun v => .ok (c v)) T g inner k t tg ix₂ = .ok (t', tg', ix₂') := by
  intro k
  induction k with
  | zero => intro t t' ix ix' h; cases h
  | succ k ih =>
    intro t t' ix ix' h tg ix₂
    unfold connectLoop at h
    unfold connectLoopC
    cases hl : t.getNodeList with
    | nil => rw [hl] at h; cases h
    | cons cur l =>
      rw [hl] at h
      simp only [] at h ⊢
      unfold search at h
      unfold searchC
      cases hs : searchLoop t inner ⟨[cur], ⟨[(cur, none)]⟩, ⟨[(cur, 0)]⟩, []⟩ with
      | error e => rw [hs] at h; cases h
      | ok st =>
        rw [hs] at h
        obtain ⟨th, h1⟩ := threadsC_total c cur st.seq ix₂.thread
        simp only [h1] at h ⊢
        cases ha : arcOut g st.pred.keys (cur :: l) with
        | none =>
          rw [ha] at h
          simp only [Except.ok.injEq, Prod.mk.injEq] at h
          obtain ⟨rfl, _⟩ := h
          exact ⟨_, _, rfl⟩
        | some e =>
          rw [ha] at h
          simp only [] at h ⊢
          cases hc : t.call (.addEdge e.1 e.2 []) with
          | error x => rw [hc] at h; cases h
          | ok t1 =>
            rw [hc] at h
            exact ih h _ _

end Simplex

/-! ## C104 -/

/-- **C104, what holds.** Let all names be integers, and equal names be the same object, as CPython guarantees for -5..256.
Then `network_simplex` does what the model with equality says (so C38, C60-C63, C65 and C66 are about the code).  Missing:
names that are not integers, and equal names that are different objects. -/
theorem C104_integer_names_partial (P : FlowProblem g cap cost b src snk) (hq : LawfulBag O items) {newQ : Q}
    (hnew : items newQ = []) (hconn : ∀ u ∈ g.getNodeList, ∀ v ∈ g.getNodeList, EConn g.getEdgeList u v)
    (hroot : root ∈ g.getNodeList) {pv : Pivot} (hpv : pv ≠ .other) (pi : N → Option Int) {fuel : Nat} (hf : Enough g cap b fuel)
    (pivots : Nat) {T : Tags N} {τ : N → Nat} (hT : SameObj T root τ) :
    networkSimplexC .ok T g O newQ src snk root pv pi fuel pivots = networkSimplex g O newQ src snk root pv pi fuel pivots := by
  apply networkSimplexC_same hT
  rcases C38_network_simplex P hq hnew hconn hroot hpv pi hf pivots with ⟨h, _⟩ | ⟨r, f, g', h, _⟩ <;> rw [h] <;> simp

theorem hasNode_not {v : N} (hg : Built g) (h : v ∉ g.getNodeList) : g.hasNode v = false := by
  cases hh : g.hasNode v with
  | false => rfl
  | true =>
    unfold Graph.hasNode at hh
    rw [Dict.contains_iff, hg.wf.nodesEq] at hh
    exact absurd hh h

/-- what `find_feasible_flow` leaves -/
theorem feasibleFlow_frame (P : FlowProblem g cap cost b src snk) (hq : LawfulBag O items) {newQ : Q}
    (hnew : items newQ = []) {fuel : Nat} (hf : Enough g cap b fuel) :
    ∃ r f g', feasibleFlow g O newQ src snk fuel = .ok (r, f, g') ∧
      (r = true ↔ ∃ f, IsFeasible g.getNodeList g.getEdgeList cap b f) ∧ (r = true → Netw g' cap cost ∧
        Within g.getEdgeList cap f) ∧ g'.getNodeList = g.getNodeList ∧ g'.getEdgeList = g.getEdgeList := by
  have hf' := hf
  unfold Enough at hf'
  obtain ⟨r0, f0, g0, h1, h2, h3, h4, h5, h6, h7, h8, h9⟩ := C37_find_feasible_flow P.built P.dir hq hnew P.caps P.nonneg
    (fun u v _ => P.anti u v) P.demand P.balanced P.supply P.names.1 P.names.2.1 P.names.2.2 (fuel := fuel) (by
      generalize ((g.getEdgeList.map cap).sum + (g.getNodeList.map fun v => ((b v).natAbs : Int)).sum).toNat = K at hf' ⊢
      have hKm : K + 1 ≤ (g.getEdgeList.length + 1) * (K + 1) := Nat.le_mul_of_pos_left _ (by omega)
      omega)
  refine ⟨r0, f0, g0, h1, h2, fun hr => ⟨?_, (h3 hr).within⟩, h6, h7⟩
  refine ⟨h4, h5, by rw [h7]; exact P.anti, ?_, ?_⟩
  · intro u v he
    rw [h7] at he
    rw [capOf_congr P.built.wf P.dir h4.wf h5 he (by rw [h7]; exact he) (h9 u v _), P.caps u v he]
  · intro u v he
    rw [h7] at he
    have := P.costs u v he
    unfold Graph.getEdgeCost at this ⊢
    rw [h9]; exact this

/-- **C104, the negation for names that are not integers.** Whatever the network, the root and the rule: if `int` turns no name
into a name of a node - for instance when all names are strings - then `network_simplex` never returns True. -/
theorem C104_other_names (P : FlowProblem g cap cost b src snk) (hq : LawfulBag O items) {newQ : Q}
    (hnew : items newQ = []) {conv : N → Except PyErr N} (hconv : ∀ v w, conv v = .ok w → w ∉ g.getNodeList) (T : Tags N)
    (root : N) (pv : Pivot) (pi : N → Option Int) {fuel : Nat} (hf : Enough g cap b fuel) (pivots : Nat) (f : N × N → Int)
    (g' : Graph N) : networkSimplexC conv T g O newQ src snk root pv pi fuel pivots ≠ .ok (true, f, g') := by
  obtain ⟨r, f0, g0, h1, h2, h3, h4, h5⟩ := feasibleFlow_frame P hq hnew hf
  unfold networkSimplexC
  rw [h1]
  cases r with
  | false => simp
  | true =>
    simp only []
    have hfu : ∃ k, fuel = k + 1 := by
      obtain ⟨v, hv, _⟩ := P.supply
      have := List.length_pos_of_mem hv
      unfold Enough at hf
      exact ⟨fuel - 1, by omega⟩
    obtain ⟨k, rfl⟩ := hfu
    have hset : ∀ st, setupC conv T g0 root f0 ⟨fun _ => none, fun _ => none, fun _ => none⟩ pi (k + 1) ≠ .ok st := by
      intro st
      unfold setupC
      cases findTreeC conv T g0 f0 ⟨fun _ => none, fun _ => none, fun _ => none⟩ (k + 1) with
      | error e => simp
      | ok r =>
        obtain ⟨t, tg, f, ix⟩ := r
        simp only []
        cases stamps g0 f t.getEdgeList with
        | error e => simp
        | ok s =>
          simp only []
          cases markArcs g0 t f g0.getEdgeList with
          | error e => simp
          | ok _ =>
            simp only []
            cases redraw t ix s root (k + 1) with
            | error e => simp
            | ok _ =>
              simp only [refreshC]
              cases hs : searchC conv t ix root (k + 1) with
              | error e => simp
              | ok r =>
                obtain ⟨xs, ix'⟩ := r
                obtain ⟨w, v, hw, hv⟩ := searchC_root hs
                simp only []
                rw [potentials_stuck hv]
                · simp
                · have := hconv w v hw
                  rw [← h4] at this
                  exact hasNode_not (h3 rfl).1.built this
    cases hs : setupC conv T g0 root f0 ⟨fun _ => none, fun _ => none, fun _ => none⟩ pi (k + 1) with
    | error e => simp
    | ok st => exact absurd hs (hset st)

/-- **C104, names without a number.** If moreover `int` raises ValueError for every name of a node - strings that are no
numerals - and there is a feasible flow, then `network_simplex` raises ValueError. -/
theorem C104_no_numeral (P : FlowProblem g cap cost b src snk) (hq : LawfulBag O items) {newQ : Q} (hnew : items newQ = [])
    {conv : N → Except PyErr N} (hconv : ∀ v ∈ g.getNodeList, conv v = .error .valueError) (T : Tags N) (root : N) (pv : Pivot)
    (pi : N → Option Int) {fuel : Nat} (hf : Enough g cap b fuel) (pivots : Nat)
    (hex : ∃ f, IsFeasible g.getNodeList g.getEdgeList cap b f) :
    networkSimplexC conv T g O newQ src snk root pv pi fuel pivots = .error .valueError := by
  obtain ⟨r, f0, g0, h1, h2, h3, h4, h5⟩ := feasibleFlow_frame P hq hnew hf
  obtain rfl := h2.2 hex
  obtain ⟨hn, hw⟩ := h3 rfl
  obtain ⟨v, hv, _⟩ := P.supply
  have hfu : ∃ k, fuel = k + 1 := by
    have := List.length_pos_of_mem hv
    unfold Enough at hf
    exact ⟨fuel - 1, by omega⟩
  obtain ⟨k, rfl⟩ := hfu
  obtain ⟨S, hS⟩ := solutionGraph_ok hn
  obtain ⟨h6, h7, _⟩ := hS f0
  have hb : breakCyclesC conv g0 (k + 1) (k + 1) f0 = .error .valueError := by
    rw [breakCyclesC, h6]
    simp only [findCycleC]
    cases hl : (S (g0.getEdgeList.filter (inside cap f0))).getNodeList with
    | nil =>
      rw [h7.nodes, h4] at hl
      rw [hl] at hv; cases hv
    | cons n l =>
      have hm : n ∈ g.getNodeList := by rw [← h4, ← h7.nodes, hl]; simp
      simp only [hconv n hm]
  unfold networkSimplexC
  rw [h1]
  simp only [setupC, findTreeC, hb]

/-- **C104, numerals.** If `int` turns every name into a number that is not the name of a node - strings like '1' - and there is
a feasible flow, then `network_simplex` raises AttributeError, for a connected network and a root that is a node. -/
theorem C104_numeral (P : FlowProblem g cap cost b src snk) (hq : LawfulBag O items) {newQ : Q} (hnew : items newQ = [])
    (hconn : ∀ u ∈ g.getNodeList, ∀ v ∈ g.getNodeList, EConn g.getEdgeList u v) (hroot : root ∈ g.getNodeList)
    {c : N → N} (hc : ∀ v, c v ∉ g.getNodeList) (T : Tags N) (pv : Pivot) (pi : N → Option Int) {fuel : Nat}
    (hf : Enough g cap b fuel) (pivots : Nat) (hex : ∃ f, IsFeasible g.getNodeList g.getEdgeList cap b f) :
    networkSimplexC (fun v => .ok (c v)) T g O newQ src snk root pv pi fuel pivots = .error .attributeError := by
  obtain ⟨r, f0, g0, h1, h2, h3, h4, h5⟩ := feasibleFlow_frame P hq hnew hf
  obtain rfl := h2.2 hex
  obtain ⟨hn, hw⟩ := h3 rfl
  have hpos := List.length_pos_of_mem hroot
  have hr : root ∈ g0.getNodeList := by rw [h4]; exact hroot
  unfold Enough at hf
  generalize hK : ((g.getEdgeList.map cap).sum + (g.getNodeList.map fun v => ((b v).natAbs : Int)).sum).toNat = K at hf
  have hB : ∀ e ∈ g0.getEdgeList, cap e ≤ (K : Int) := by
    intro e he
    rw [h5] at he
    have q1 := le_sum P.nonneg he
    have q2 : 0 ≤ (g.getNodeList.map fun v => ((b v).natAbs : Int)).sum :=
      List.sum_nonneg (by intro x hx; obtain ⟨y, hy, rfl⟩ := List.mem_map.1 hx; omega)
    omega
  have hlen : g0.getNodeList.length = g.getNodeList.length := by rw [h4]
  obtain ⟨t1, f1, h6, h7, h8, h9, h10, h11⟩ := breakCycles_ok hn (List.ne_nil_of_mem hr) (inner := fuel) (by omega) hB fuel f0
    (by rw [h5]; exact hw) (by rw [h5]; omega)
  obtain ⟨t2, ix2, h12, h13, h14⟩ := connectLoop_ok hn (List.ne_nil_of_mem hr) hn.core
    (fun _ h => List.mem_of_mem_head? h) (by rw [h4, h5]; exact hconn) (inner := fuel)
    (by omega) fuel t1 ⟨fun _ => none, fun _ => none, fun _ => none⟩ h7 h8 (by
      have : g0.getEdgeList.length + 1 ≤ (g0.getEdgeList.length + 1) * (K + 1) := Nat.le_mul_of_pos_right _ (by omega)
      rw [h5] at this ⊢
      omega)
  obtain ⟨tg, ix3, h15⟩ := connectLoopC_total c T g0 fuel fuel h12 T.arc ⟨fun _ => none, fun _ => none, fun _ => none⟩
  obtain ⟨s, x, h16, h17⟩ := redraw_tree hn hr h13 f1 ix3 (fuel := fuel) (by omega)
  have hbd : AtBound g0 t2 cap f1 := by
    intro e he hne
    have hno : e ∉ t1.getEdgeList := fun h => hne (h14 e h)
    rw [h9, List.mem_filter] at hno
    have hi : ¬ (inside cap f1 e = true) := fun h => hno ⟨he, h⟩
    have hwe := h10 e he
    simp only [inside, decide_eq_true_eq] at hi
    omega
  have hcosts : ∃ l, Kruskal.costs g0 g0.getEdgeList = .ok l := by
    obtain ⟨t, f', ix', h, _⟩ := findTree_ok hn (List.ne_nil_of_mem hr) hn.core (fun _ h => List.mem_of_mem_head? h)
      (by rw [h4, h5]; exact hconn)
      (by rw [h5]; exact hw : Within g0.getEdgeList cap f0) hB ⟨fun _ => none, fun _ => none, fun _ => none⟩ (fuel := fuel) (by omega)
      (by rw [h5]; omega)
    unfold findTree at h
    rw [h6] at h
    simp only [] at h
    rw [h12] at h
    simp only [] at h
    cases hk : Kruskal.costs g0 g0.getEdgeList with
    | error e => rw [hk] at h; cases h
    | ok l => exact ⟨l, rfl⟩
  obtain ⟨l, hl⟩ := hcosts
  obtain ⟨k, rfl⟩ : ∃ k, fuel = k + 1 := ⟨fuel - 1, by omega⟩
  have hsearch : ∃ xs ix', searchC (fun v => .ok (c v)) t2 ix3 root (k + 1) = .ok (xs, ix') := by
    obtain ⟨xs, ix, h, _⟩ := search_ok h13.tg.built.wf h13.tg.dir (src := root) (by rw [h13.tg.nodes]; exact hr) ix3
      (fuel := k + 1) (by rw [h13.tg.nodes]; omega)
    unfold search at h
    unfold searchC
    cases hs : searchLoop t2 (k + 1) ⟨[root], ⟨[(root, none)]⟩, ⟨[(root, 0)]⟩, []⟩ with
    | error e => rw [hs] at h; cases h
    | ok st =>
      obtain ⟨th, hth⟩ := threadsC_total c root st.seq ix3.thread
      simp only [hth]
      exact ⟨_, _, rfl⟩
  obtain ⟨xs, ix4, h18⟩ := hsearch
  obtain ⟨w, v, hwv, hv⟩ := searchC_root h18
  have hcv : c w = v := Except.ok.inj hwv
  unfold networkSimplexC
  rw [h1]
  simp only [setupC, findTreeC, breakCyclesC_total, h6, h15, hl, h16, markArcs_ok hn hbd _ fun e he => he, h17, refreshC, h18]
  rw [potentials_stuck hv]
  exact hasNode_not hn.built (by rw [h4, ← hcv]; exact hc w)

/-! ## Names of which some have no number -/

/-- `int` raises nothing but ValueError -/
def OnlyValue (conv : N → Except PyErr N) : Prop := ∀ v, (∃ w, conv v = .ok w) ∨ conv v = .error .valueError

theorem cycleOuterC_or {conv : N → Except PyErr N} (hv : OnlyValue conv) (t : Graph N) (inner : Nat) : ∀ (k : Nat)
    (st : CState N), cycleOuterC conv t inner k st = cycleOuter t inner k st ∨
      cycleOuterC conv t inner k st = .error .valueError := by
  intro k
  induction k with
  | zero => exact fun st => .inl rfl
  | succ k ih =>
    intro st
    unfold cycleOuterC cycleOuter
    cases cycleLoop t inner inner st with
    | error e => exact .inl rfl
    | ok x =>
      cases x with
      | inr c => exact .inl rfl
      | inl st =>
        simp only []
        cases t.getNodeList.find? fun n => decide (n ∉ st.marked) with
        | none => exact .inl rfl
        | some n =>
          simp only []
          rcases hv n with ⟨w, hw⟩ | hw
          · rw [hw]; exact ih _
          · rw [hw]; exact .inr rfl

theorem findCycleC_or {conv : N → Except PyErr N} (hv : OnlyValue conv) (t : Graph N) (fuel : Nat) :
    findCycleC conv t fuel = findCycle t fuel ∨ findCycleC conv t fuel = .error .valueError := by
  unfold findCycleC findCycle
  cases t.getNodeList with
  | nil => exact .inl rfl
  | cons n l =>
    simp only []
    rcases hv n with ⟨w, hw⟩ | hw
    · rw [hw]; exact cycleOuterC_or hv t fuel fuel _
    · rw [hw]; exact .inr rfl

theorem breakCyclesC_or {conv : N → Except PyErr N} (hv : OnlyValue conv) (g : Graph N) (inner : Nat) : ∀ (k : Nat)
    (f : N × N → Int), breakCyclesC conv g inner k f = breakCycles g inner k f ∨
      breakCyclesC conv g inner k f = .error .valueError := by
  intro k
  induction k with
  | zero => exact fun f => .inl rfl
  | succ k ih =>
    intro f
    unfold breakCyclesC breakCycles
    cases solutionGraph g f with
    | error e => exact .inl rfl
    | ok t =>
      simp only []
      rcases findCycleC_or hv t inner with h | h
      · rw [h]
        cases findCycle t inner with
        | error e => exact .inl rfl
        | ok c =>
          cases c with
          | none => exact .inl rfl
          | some c =>
            simp only []
            cases amount g f c with
            | error e => exact .inl rfl
            | ok d =>
              simp only []
              cases MinCost.augmentCycle g d c f with
              | error e => exact .inl rfl
              | ok f => exact ih f
      · rw [h]; exact .inr rfl

theorem threadsC_or {conv : N → Except PyErr N} (hv : OnlyValue conv) (first : N) : ∀ (l : List N) (th : N → Option N),
    (∃ th', threadsC conv first l th = .ok th') ∨ threadsC conv first l th = .error .valueError := by
  intro l
  induction l with
  | nil => exact fun th => .inl ⟨th, rfl⟩
  | cons a l ih =>
    intro th
    cases l with
    | nil =>
      unfold threadsC
      rcases hv first with ⟨w, hw⟩ | hw
      · rw [hw]; exact .inl ⟨_, rfl⟩
      · rw [hw]; exact .inr rfl
    | cons b l =>
      unfold threadsC
      rcases hv b with ⟨w, hw⟩ | hw
      · rw [hw]; exact ih _
      · rw [hw]; exact .inr rfl

theorem threadsC_bad {conv : N → Except PyErr N} (hv : OnlyValue conv) {first v : N} (hbad : conv v = .error .valueError) :
    ∀ (l : List N) (a : N) (th : N → Option N), v ∈ l ∨ v = first → threadsC conv first (a :: l) th = .error .valueError := by
  intro l
  induction l with
  | nil =>
    rintro a th (h | rfl)
    · cases h
    · rw [threadsC, hbad]
  | cons b l ih =>
    intro a th h
    rw [threadsC]
    rcases hv b with ⟨w, hw⟩ | hw
    · rw [hw]
      refine ih b _ (h.imp_left fun h => ?_)
      rcases List.mem_cons.1 h with rfl | h
      · rw [hw] at hbad; cases hbad
      · exact h
    · rw [hw]

theorem connectLoopC_bad {conv : N → Except PyErr N} (hv : OnlyValue conv) (hn : Netw g cap cost)
    (hconn : ∀ u ∈ g.getNodeList, ∀ v ∈ g.getNodeList, EConn g.getEdgeList u v) {v : N} (hvV : v ∈ g.getNodeList)
    (hbad : conv v = .error .valueError) (T : Tags N) {inner : Nat} (hin : g.getNodeList.length < inner) : ∀ (k : Nat)
    (t : Graph N) (tg : N × N → Nat × Nat) (ix : Idx N), TGr g t → Forest t.getEdgeList →
    g.getEdgeList.length < k + t.getEdgeList.length → connectLoopC conv T g inner k t tg ix = .error .valueError := by
  intro k
  induction k with
  | zero =>
    intro t tg ix ht _ hk
    have := (ht.built.wf.edup.subperm ht.sub).length_le
    simp only [Graph.getEdgeList] at *
    omega
  | succ k ih =>
    intro t tg ix ht hF hk
    unfold connectLoopC
    obtain ⟨cur, rest, hl⟩ := List.exists_cons_of_ne_nil (show t.getNodeList ≠ [] by rw [ht.nodes]; exact List.ne_nil_of_mem hvV)
    have hcur : cur ∈ t.getNodeList := by rw [hl]; simp
    obtain ⟨st, ix', h1, h2, h3, h4⟩ := search_reach ht.built.wf ht.dir hcur ix (fuel := inner) (by rw [ht.nodes]; exact hin)
    have hgood := h4 st.pred.keys fun v => Iff.rfl
    simp only [hl]
    unfold search at h1
    unfold searchC
    cases hs : searchLoop t inner ⟨[cur], ⟨[(cur, none)]⟩, ⟨[(cur, 0)]⟩, []⟩ with
    | error e => rw [hs] at h1; cases h1
    | ok st' =>
      rw [hs] at h1
      simp only [Except.ok.injEq, Prod.mk.injEq] at h1
      obtain ⟨rfl, _⟩ := h1
      simp only []
      rcases threadsC_or hv cur st'.seq ix.thread with ⟨th, hth⟩ | hth
      · rw [hth]
        simp only []
        rw [← hl]
        have hnot : ¬ EConn t.getEdgeList cur v := by
          intro hc
          have hm := (hgood.mem v).2 ((h2 v).2 hc)
          have hh := hgood.head
          rcases hq : st'.seq with _ | ⟨a, l⟩
          · rw [hq] at hh; cases hh
          · rw [hq] at hm hh hth
            have hac : a = cur := by simpa using hh
            rw [threadsC_bad hv hbad l a ix.thread (by
              rcases List.mem_cons.1 hm with h | h
              · exact .inr (h.trans hac)
              · exact .inl h)] at hth
            cases hth
        cases ho : arcOut g st'.pred.keys t.getNodeList with
        | none =>
          refine absurd ?_ hnot
          have := hconn cur (by rw [← ht.nodes]; exact hcur) v hvV
          clear hnot hvV hbad
          induction this with
          | refl => exact .refl
          | @tail b c h5 h6 ih' =>
            by_contra hc
            have hcV : c ∈ t.getNodeList := by
              rw [ht.nodes]
              rcases h6 with h6 | h6
              · exact (hn.ends h6).2
              · exact (hn.ends h6).1
            exact arcOut_none _ ho c hcV (fun h => hc ((h2 c).1 h)) b ((h2 b).2 ih') h6.symm
        | some e =>
          simp only []
          obtain ⟨h5, n, hnV, hns, m, hms, h6⟩ := arcOut_some _ ho
          have hno : ¬ EConn t.getEdgeList e.1 e.2 := by
            have hm := (h2 m).1 hms
            rcases h6 with rfl | rfl
            · exact fun h => hns ((h2 n).2 (hm.trans h.symm))
            · exact fun h => hns ((h2 n).2 (hm.trans h))
          have het : e ∉ t.getEdgeList := fun h => hno (.single (.inl h))
          have hV := hn.ends h5
          obtain ⟨t', h7, h8, h9⟩ := ht.add hV.1 hV.2 h5 het
          rw [h7]
          simp only []
          exact ih t' _ _ h8 (by rw [h9]; exact hF.add hno) (by rw [h9]; simp; omega)
      · rw [hth]

/-- **C104, names of which one has no number.** If `int` raises ValueError for the name of at least one node (and no other
exception), the network is connected and there is a feasible flow, then `network_simplex` raises ValueError. -/
theorem C104_some_without_number (P : FlowProblem g cap cost b src snk) (hq : LawfulBag O items) {newQ : Q} (hnew : items newQ = [])
    (hconn : ∀ u ∈ g.getNodeList, ∀ v ∈ g.getNodeList, EConn g.getEdgeList u v) {conv : N → Except PyErr N}
    (hconv : OnlyValue conv) (hbad : ∃ v ∈ g.getNodeList, conv v = .error .valueError) (T : Tags N) (root : N) (pv : Pivot)
    (pi : N → Option Int) {fuel : Nat} (hf : Enough g cap b fuel) (pivots : Nat)
    (hex : ∃ f, IsFeasible g.getNodeList g.getEdgeList cap b f) :
    networkSimplexC conv T g O newQ src snk root pv pi fuel pivots = .error .valueError := by
  obtain ⟨r, f0, g0, h1, h2, h3, h4, h5⟩ := feasibleFlow_frame P hq hnew hf
  obtain rfl := h2.2 hex
  obtain ⟨hn, hw⟩ := h3 rfl
  obtain ⟨v, hv, hbad⟩ := hbad
  have hr : v ∈ g0.getNodeList := by rw [h4]; exact hv
  unfold Enough at hf
  generalize hK : ((g.getEdgeList.map cap).sum + (g.getNodeList.map fun v => ((b v).natAbs : Int)).sum).toNat = K at hf
  have hB : ∀ e ∈ g0.getEdgeList, cap e ≤ (K : Int) := by
    intro e he
    rw [h5] at he
    have q1 := le_sum P.nonneg he
    have q2 : 0 ≤ (g.getNodeList.map fun v => ((b v).natAbs : Int)).sum :=
      List.sum_nonneg (by intro x hx; obtain ⟨y, hy, rfl⟩ := List.mem_map.1 hx; omega)
    omega
  have hlen : g0.getNodeList.length = g.getNodeList.length := by rw [h4]
  obtain ⟨t1, f1, h6, h7, h8, _⟩ := breakCycles_ok hn (List.ne_nil_of_mem hr) (inner := fuel) (by omega) hB fuel f0
    (by rw [h5]; exact hw) (by rw [h5]; omega)
  have hset : findTreeC conv T g0 f0 ⟨fun _ => none, fun _ => none, fun _ => none⟩ fuel = .error .valueError := by
    unfold findTreeC
    rcases breakCyclesC_or hconv g0 fuel fuel f0 with h | h
    · rw [h, h6]
      simp only []
      rw [connectLoopC_bad hconv hn (by rw [h4, h5]; exact hconn) hr hbad T (by omega) fuel t1 T.arc _ h7 h8 (by
        have : g0.getEdgeList.length + 1 ≤ (g0.getEdgeList.length + 1) * (K + 1) := Nat.le_mul_of_pos_right _ (by omega)
        rw [h5] at this ⊢
        omega)]
    · rw [h]
  unfold networkSimplexC
  rw [h1]
  simp only [setupC, hset]

/-- non-vacuity of `C104_some_without_number`: on the network of C36 only one name has no number -/
example : OnlyValue (fun v : Nat => if v = 2 then .error .valueError else .ok v) ∧ 2 ∈ exNet.getNodeList ∧ 3 ∈ exNet.getNodeList := by
  refine ⟨fun v => ?_, by decide +kernel, by decide +kernel⟩
  by_cases h : v = 2
  · exact .inr (by simp [h])
  · exact .inl ⟨v, by simp [h]⟩

/-- the tags when every call of `add_edge` gets objects of its own, as it is for integers above 256 that are computed; `E` is
the list of arcs in the order of the calls, `own` says that the argument `root` is an object of its own (it is the first key
of `self.neighbors` when it is not given) -/
def ownTags (E : List (Nat × Nat)) (own : Bool) : Tags Nat :=
  let arc := fun e => (2 * E.idxOf e, 2 * E.idxOf e + 1)
  let node := fun v => match E.find? fun e => e.1 = v ∨ e.2 = v with
    | some e => if e.1 = v then (arc e).1 else (arc e).2
    | none => 2 * E.length
  ⟨node, arc, if own then 2 * E.length + 1 else 0⟩

/-- the exception of a call -/
def errOf {α : Type} : Except PyErr α → Option PyErr
  | .ok _ => none
  | .error e => some e

/-- a network on which a pivot goes wrong when equal names are different objects -/
def objNet : Graph Nat := costNet 4 (fun i => if i = 0 then 2 else if i = 3 then -2 else 0)
  [(0, 1, 1, 2), (0, 2, 4, 1), (1, 2, 3, 3), (1, 3, 5, 3), (2, 3, 1, 2)]

/-- **C104, the negation for equal names that are different objects.** Names are integers; with a root of its own
`network_simplex` raises KeyError, because the loop of `simplex_identify_cycle` goes past the root; with the default root it
raises the Exception of `simplex_mark_st_arcs`, because an arc off the cycle was taken out of the tree.  With identical
objects both calls return True. -/
theorem C104_identity :
    FlowProblem exNet (netCap exNet) (netCost exNet) (fun i => if i = 0 then 2 else if i = 3 then -2 else 0) 8 9 ∧
    errOf (networkSimplexC .ok (ownTags exNet.getEdgeList true) exNet queueOps [] 8 9 2 .dantzig (fun _ => none) 200 20) =
      some .keyError ∧
    errOf (networkSimplex exNet queueOps [] 8 9 2 .dantzig (fun _ => none) 200 20) = none ∧
    FlowProblem objNet (netCap objNet) (netCost objNet) (fun i => if i = 0 then 2 else if i = 3 then -2 else 0) 8 9 ∧
    errOf (networkSimplexC .ok (ownTags objNet.getEdgeList false) objNet queueOps [] 8 9 0 .dantzig (fun _ => none) 200 20) =
      some .exception ∧
    errOf (networkSimplex objNet queueOps [] 8 9 0 .dantzig (fun _ => none) 200 20) = none :=
  ⟨inScope_ok (by decide +kernel) (by decide +kernel), by decide +kernel, by decide +kernel,
    inScope_ok (by decide +kernel) (by decide +kernel), by decide +kernel, by decide +kernel⟩

/-- non-vacuity of the other parts of C104: on the network of C36 names for which `int` raises, and names that it turns into
other names; identical objects -/
example : SameObj (N := Nat) ⟨fun v => v, fun e => (e.1, e.2), 0⟩ 0 (fun v => v) ∧
    (∀ v, v + 100 ∉ exNet.getNodeList) ∧
    errOf (networkSimplexC (fun _ => .error .valueError) (ownTags exNet.getEdgeList true) exNet queueOps [] 8 9 0 .dantzig
      (fun _ => none) 200 20) = some .valueError ∧
    errOf (networkSimplexC (fun v => if v = 2 then .error .valueError else .ok v) (ownTags exNet.getEdgeList true) exNet queueOps
      [] 8 9 0 .dantzig (fun _ => none) 200 20) = some .valueError ∧
    errOf (networkSimplexC (fun v => .ok (v + 100)) (ownTags exNet.getEdgeList true) exNet queueOps [] 8 9 0 .dantzig
      (fun _ => none) 200 20) = some .attributeError ∧
    resultOf (networkSimplexC .ok ⟨fun v => v, fun e => (e.1, e.2), 0⟩ exNet queueOps [] 8 9 0 .dantzig (fun _ => none) 200 20) =
      some (true, [1, 0, 1, 2, 1], [0, 2, 3, 1]) := by
  refine ⟨⟨fun _ => rfl, fun _ => rfl, rfl⟩, ?_, by decide +kernel, by decide +kernel, by decide +kernel, by decide +kernel⟩
  intro v hv
  have : ∀ w ∈ exNet.getNodeList, w < 100 := by decide +kernel
  have := this _ hv
  omega

end GiMPy
