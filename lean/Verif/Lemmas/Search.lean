import Verif.Spec.Queue
import Verif.Spec.Walk
import Verif.Lemmas.Graph

/-! # Invariants of the search loop shared by all algorithms -/

namespace GiMPy
namespace Search
variable {N : Type} [DecidableEq N] {Q : Type}
set_option linter.unusedSectionVars false

@[simp] theorem upd_same {A B : Type} [DecidableEq A] (f : A → B) (a b) : upd f a b a = b := by simp [upd]
theorem upd_ne {A B : Type} [DecidableEq A] (f : A → B) {a x} (b) (h : x ≠ a) : upd f a b x = f x := by simp [upd, h]

/-! ## the graph side -/

theorem checkEdge_iff {g : Graph N} (u v : N) : g.checkEdge u v = true ↔ g.dup u v := by
  unfold Graph.checkEdge Graph.dup
  cases g.directed <;> simp [Dict.contains_iff]

theorem step_node {g : Graph N} (h : g.Wf) {rev u v} (hs : Step g rev u v) :
    u ∈ g.getNodeList ∧ v ∈ g.getNodeList := by
  have key : ∀ a b, g.checkEdge a b = true → a ∈ g.getNodeList ∧ b ∈ g.getNodeList := by
    intro a b hab
    rcases (checkEdge_iff a b).1 hab with h1 | ⟨_, h1⟩
    · exact h.endp a b h1
    · exact (h.endp b a h1).symm
  unfold Step at hs
  cases rev
  · exact key _ _ hs
  · exact (key _ _ hs).symm

theorem nbrs_ok {g : Graph N} (h : g.Wf) (rev : Bool) {u : N} (hu : u ∈ g.getNodeList) :
    ∃ l, nbrs g rev u = .ok l ∧ ∀ v, v ∈ l ↔ Step g rev u v := by
  have ind_iff : ∀ a b, 0 < g.ind a b ↔ (a, b) ∈ g.edgeAttr.keys := by
    intro a b; unfold Graph.ind; split <;> simp [*]
  by_cases hc : g.directed = true ∧ rev = true
  · obtain ⟨hd, rfl⟩ := hc
    obtain ⟨l, hl⟩ := (Dict.mem_keys' _ _).1 ((h.inEq hd).symm ▸ hu : u ∈ g.inNeighbors.keys)
    refine ⟨l, by simp [nbrs, Graph.getInNeighbors, hl, hd], ?_⟩
    intro v
    have := h.inn hd u v
    simp only [Graph.innc, hl, Option.getD_some] at this
    rw [← List.count_pos_iff, this, ind_iff]
    simp [Step, Graph.checkEdge, hd, Dict.contains_iff]
  · obtain ⟨l, hl⟩ := (Dict.mem_keys' _ _).1 hu
    refine ⟨l, ?_, ?_⟩
    · unfold nbrs
      rw [if_neg (by simpa using hc)]
      simp [Graph.getNeighbors, hl]
    · intro v
      have := h.out u v
      simp only [Graph.outc, hl, Option.getD_some] at this
      rw [← List.count_pos_iff, this]
      by_cases hd : g.directed = true
      · have hr : rev = false := by simpa [hd] using hc
        simp only [hd, if_true, Nat.add_zero, ind_iff]
        simp [Step, Graph.checkEdge, hd, Dict.contains_iff, hr]
      · have hd' : g.directed = false := by simpa using hd
        rw [if_neg hd]
        have e : Step g rev u v ↔ (u, v) ∈ g.edgeAttr.keys ∨ (v, u) ∈ g.edgeAttr.keys := by
          unfold Step
          cases rev <;> simp [Graph.checkEdge, hd', Dict.contains_iff, or_comm]
        rw [e, ← ind_iff, ← ind_iff]; omega

theorem touch_ok {g : Graph N} {rev : Bool} {u v : N} (hs : Step g rev u v) : touch g rev u v = .ok () := by
  unfold touch; rw [if_pos (by exact hs)]

theorem touchAll_ok {g : Graph N} {rev : Bool} {u : N} (l : List N) (hs : ∀ v ∈ l, Step g rev u v) :
    touchAll g rev u l = .ok () := by
  induction l with
  | nil => rfl
  | cons v l ih =>
    rw [touchAll, touch_ok (hs v (by simp))]
    exact ih fun w hw => hs w (by simp [hw])

theorem resetEdges_ok {g : Graph N} (h : g.Wf) (rev : Bool) (l : List N) (hl : ∀ u ∈ l, u ∈ g.getNodeList) :
    resetEdges g rev l = .ok () := by
  induction l with
  | nil => rfl
  | cons u l ih =>
    obtain ⟨m, hm, hmem⟩ := nbrs_ok h rev (hl u (by simp))
    rw [resetEdges, hm]
    simp only []
    rw [touchAll_ok m fun v hv => (hmem v).1 hv]
    exact ih fun w hw => hl w (by simp [hw])

/-- out-degree -/
def deg (g : Graph N) (rev : Bool) (u : N) : Nat :=
  match nbrs g rev u with | .ok l => l.length | .error _ => 0

/-- work left in the nodes that are not finished -/
def rest (g : Graph N) (rev : Bool) (color : N → Color) : Nat :=
  ((g.getNodeList.filter fun u => color u ≠ .green).map fun u => deg g rev u + 1).sum

theorem rest_upd (g : Graph N) (rev : Bool) (color color' : N → Color) (c : N)
    (hc : c ∈ g.getNodeList) (hcol : color c ≠ .green)
    (h' : ∀ x, color' x = .green ↔ x = c ∨ color x = .green) :
    rest g rev color' + (deg g rev c + 1) ≤ rest g rev color := by
  unfold rest
  generalize g.getNodeList = L at hc
  have mono : ∀ L : List N, ((L.filter fun u => color' u ≠ .green).map fun u => deg g rev u + 1).sum ≤
      ((L.filter fun u => color u ≠ .green).map fun u => deg g rev u + 1).sum := by
    intro L
    induction L with
    | nil => simp
    | cons a L ih =>
      simp only [List.filter_cons]
      by_cases h1 : color' a = .green
      · rw [if_neg (by simp [h1])]
        split
        · simp only [List.map_cons, List.sum_cons]; omega
        · exact ih
      · have h2 : color a ≠ .green := fun hh => h1 ((h' a).2 (Or.inr hh))
        rw [if_pos (by simp [h1]), if_pos (by simp [h2])]
        simp only [List.map_cons, List.sum_cons]; omega
  induction L with
  | nil => simp at hc
  | cons a L ih =>
    simp only [List.filter_cons]
    by_cases hac : a = c
    · subst hac
      rw [if_neg (by simp [(h' a).2 (Or.inl rfl)]), if_pos (by simp [hcol])]
      have := mono L
      simp only [List.map_cons, List.sum_cons]; omega
    · have hcL : c ∈ L := by
        rcases List.mem_cons.1 hc with h | h
        · exact absurd h.symm hac
        · exact h
      have := ih hcL
      by_cases h1 : color a = .green
      · rw [if_neg (by simp [(h' a).2 (Or.inr h1)]), if_neg (by simp [h1])]; exact this
      · have h2 : color' a ≠ .green := fun hh => ((h' a).1 hh).elim hac h1
        rw [if_pos (by simp [h2]), if_pos (by simp [h1])]
        simp only [List.map_cons, List.sum_cons]; omega

/-- Enough fuel for `search`: one more than the number of loop iterations possible. -/
def fuelBound (g : Graph N) (rev : Bool) : Nat :=
  ((g.getNodeList.map fun u => deg g rev u + 1).sum) + 2

/-! ## chains of predecessor links -/

/-- `k` predecessor links lead from `v` to `src`, through nodes satisfying `P` -/
inductive PC (pred : Dict N N) (src : N) (P : N → Prop) : Nat → N → Prop
  | src : PC pred src P 0 src
  | step {k p v} : PC pred src P k p → P p → pred.get? v = some p → PC pred src P (k + 1) v

theorem PC.mono {pred : Dict N N} {src : N} {P P' : N → Prop} (hP : ∀ x, P x → P' x) {k v}
    (h : PC pred src P k v) : PC pred src P' k v := by
  induction h with
  | src => exact .src
  | step _ hp hv ih => exact .step ih (hP _ hp) hv

/-- overwriting the link of a node outside `P` keeps the chains of nodes in `P` -/
theorem PC.set_in {pred : Dict N N} {src : N} {P : N → Prop} {n c : N} (hn : ¬ P n) {k v}
    (h : PC pred src P k v) (hv : P v) : PC (pred.set n c) src P k v := by
  induction h with
  | src => exact .src
  | step _ hp hl ih =>
    refine .step (ih hp) hp ?_
    rw [Dict.get?_set_ne _ _ (by rintro rfl; exact hn hv)]; exact hl

/-- and keeps the chain of every node other than the overwritten one -/
theorem PC.set_ne {pred : Dict N N} {src : N} {P : N → Prop} {n c : N} (hn : ¬ P n) {k v}
    (h : PC pred src P k v) (hv : v ≠ n) : PC (pred.set n c) src P k v := by
  cases h with
  | src => exact .src
  | step h hp hl =>
    refine .step (h.set_in hn hp) hp ?_
    rw [Dict.get?_set_ne _ _ (Ne.symm hv)]; exact hl

/-- The reconstruction loop follows a chain to the source. -/
theorem reconstruct_ok {R : N → N → Prop} {pred : Dict N N} {src : N} {P : N → Prop} {k : Nat} {v : N}
    (h : PC pred src P k v) (hlink : ∀ a b, pred.get? b = some a → R a b) {t : N} (path : List N)
    (hp : IsPath R v t path) {fuel : Nat} (hf : k < fuel) :
    ∃ l, reconstruct pred src fuel v path = .ok l ∧ IsPath R src t l ∧ path <:+ l ∧ l.length ≤ path.length + k := by
  induction h generalizing path fuel with
  | src =>
    obtain ⟨f, rfl⟩ : ∃ f, fuel = f + 1 := ⟨fuel - 1, by omega⟩
    exact ⟨path, by simp [reconstruct], hp, List.suffix_refl _, by omega⟩
  | @step k p v h hP hl ih =>
    obtain ⟨f, rfl⟩ : ∃ f, fuel = f + 1 := ⟨fuel - 1, by omega⟩
    rw [reconstruct]
    by_cases hv : v = src
    · subst hv
      exact ⟨path, by simp, hp, List.suffix_refl _, by omega⟩
    · rw [if_neg hv, hl]
      simp only []
      have hp' : IsPath R p t (p :: path) := by
        obtain ⟨h1, h2, h3⟩ := hp
        cases path with
        | nil => simp at h1
        | cons x xs =>
          simp only [List.head?_cons, Option.some.injEq] at h1
          subst h1
          refine ⟨rfl, ?_, ?_⟩
          · rw [List.getLast?_cons_cons]; exact h2
          · exact List.isChain_cons_cons.2 ⟨hlink _ _ hl, h3⟩
      obtain ⟨l, hl1, hl2, hl3, hl4⟩ := ih (p :: path) hp' (fuel := f) (by omega)
      exact ⟨l, hl1, hl2, (List.suffix_cons _ _).trans hl3, by simp at hl4; omega⟩

/-! ## the shared invariant -/

section
variable (g : Graph N) (items : Q → List N) (rev : Bool) (src : N) (NS : Prop)

/-- discovered: the source, or has a predecessor -/
def D (st : SState N Q) (v : N) : Prop := v = src ∨ v ∈ st.pred.keys

/-- invariant of the `while` loop after `t` visits -/
structure Base (st : SState N Q) (t : Nat) : Prop where
  node : ∀ v, D src st v → v ∈ g.getNodeList
  reach : ∀ v, D src st v → Reach g rev src v
  pnd : st.pred.keys.Nodup
  disc : ∀ v, D src st v → st.color v = .green ∨ v ∈ items st.q
  item : ∀ v, v ∈ items st.q → D src st v
  closed : ∀ u, st.color u = .green → D src st u ∧ ∀ v, Step g rev u v → D src st v
  link : ∀ v p, st.pred.get? v = some p → Step g rev p v ∧ st.color p = .green
  chain : NS → ∀ v, D src st v → ∃ k ≤ t, PC st.pred src (fun x => st.color x = .green) k v

/-- invariant of the `for` loop while node `c` is processed; `done` are the neighbours seen so far -/
structure Mid (st : SState N Q) (t : Nat) (c : N) (done : List N) (len0 : Nat) (color0 : N → Color) : Prop where
  node : ∀ v, D src st v → v ∈ g.getNodeList
  reach : ∀ v, D src st v → Reach g rev src v
  pnd : st.pred.keys.Nodup
  disc : ∀ v, D src st v → st.color v = .green ∨ v ∈ items st.q
  item : ∀ v, v ∈ items st.q → D src st v
  closed : ∀ u, st.color u = .green → D src st u ∧ ∀ v, Step g rev u v → D src st v
  link : ∀ v p, st.pred.get? v = some p → Step g rev p v ∧ (st.color p = .green ∨ p = c)
  curNG : st.color c ≠ .green
  curItem : c ∈ items st.q
  doneD : ∀ n ∈ done, D src st n
  len : (items st.q).length ≤ len0 + done.length
  greens : ∀ x, st.color x = .green ↔ color0 x = .green
  chainC : NS → ∃ k ≤ t, PC st.pred src (fun x => st.color x = .green ∨ x = c) k c
  chain : NS → ∀ v, D src st v → ∃ k ≤ t + 1, PC st.pred src (fun x => st.color x = .green ∨ x = c) k v

/-- one `process_edge` call either leaves everything (the neighbour being known already) or links it to `c` -/
def PERel (st : SState N Q) (c n : N) (st' : SState N Q) : Prop :=
  (st'.q = st.q ∧ st'.pred = st.pred ∧ st'.color = st.color ∧ D src st n) ∨
  (st'.pred = st.pred.set n c ∧ (∀ y, y ∈ items st'.q ↔ y = n ∨ y ∈ items st.q) ∧
    (items st'.q).length ≤ (items st.q).length + 1 ∧ (∃ col, col ≠ .green ∧ st'.color = upd st.color n col) ∧
    (NS → n ≠ c))

end

variable {g : Graph N} {O : QOps N Q} {items : Q → List N} {rev : Bool} {src : N} {NS : Prop}

theorem mid_skipGreen {st : SState N Q} {t c done len0 color0} (h : Mid g items rev src NS st t c done len0 color0)
    {n : N} (hn : st.color n = .green) : Mid g items rev src NS st t c (n :: done) len0 color0 :=
  { h with
    doneD := by
      intro m hm
      rcases List.mem_cons.1 hm with rfl | hm
      · exact (h.closed m hn).1
      · exact h.doneD m hm
    len := by have := h.len; simp only [List.length_cons]; omega }

theorem mid_step {st st' : SState N Q} {t c done len0 color0} (h : Mid g items rev src NS st t c done len0 color0)
    (hw : g.Wf) {n : N} (hn : st.color n ≠ .green) (hs : Step g rev c n) (hr : PERel items src NS st c n st') :
    Mid g items rev src NS st' t c (n :: done) len0 color0 := by
  rcases hr with ⟨e1, e2, e3, hD⟩ | ⟨e1, e2, e3, ⟨col, hcol, e4⟩, hNS⟩
  · refine ⟨?_, ?_, ?_, ?_, ?_, ?_, ?_, ?_, ?_, ?_, ?_, ?_, ?_, ?_⟩
    all_goals simp only [D, e1, e2, e3]
    · exact h.node
    · exact h.reach
    · exact h.pnd
    · exact h.disc
    · exact h.item
    · exact h.closed
    · exact h.link
    · exact h.curNG
    · exact h.curItem
    · intro m hm
      rcases List.mem_cons.1 hm with rfl | hm
      · exact hD
      · exact h.doneD m hm
    · have := h.len; simp only [List.length_cons]; omega
    · exact h.greens
    · exact h.chainC
    · exact h.chain
  · have hD' : ∀ v, D src st' v ↔ v = n ∨ D src st v := by
      intro v; unfold D; rw [e1, Dict.mem_keys_set]
      constructor
      · rintro (h | h | h) <;> simp [h]
      · rintro (h | h | h) <;> simp [h]
    have hcolor : ∀ x, st'.color x = .green ↔ st.color x = .green := by
      intro x; rw [e4]
      by_cases hx : x = n
      · subst hx; simp [hcol, hn]
      · rw [upd_ne _ _ hx]
    refine ⟨?_, ?_, ?_, ?_, ?_, ?_, ?_, ?_, ?_, ?_, ?_, ?_, ?_, ?_⟩
    · intro v hv
      rcases (hD' v).1 hv with rfl | hv
      · exact (step_node hw hs).2
      · exact h.node v hv
    · intro v hv
      rcases (hD' v).1 hv with rfl | hv
      · exact (h.reach c (h.item c h.curItem)).tail hs
      · exact h.reach v hv
    · rw [e1]; exact Dict.nodup_keys_set h.pnd _ _
    · intro v hv
      rw [hcolor, e2]
      rcases (hD' v).1 hv with rfl | hv
      · exact Or.inr (Or.inl rfl)
      · exact (h.disc v hv).imp id Or.inr
    · intro v hv
      rw [hD']
      rcases (e2 v).1 hv with rfl | hv
      · exact Or.inl rfl
      · exact Or.inr (h.item v hv)
    · intro u hu
      rw [hcolor] at hu
      exact ⟨(hD' u).2 (Or.inr (h.closed u hu).1), fun v hv => (hD' v).2 (Or.inr ((h.closed u hu).2 v hv))⟩
    · intro v p hv
      rw [e1, Dict.get?_set] at hv
      rw [hcolor]
      split at hv
      · next hvn =>
        subst hvn; obtain rfl := Option.some.inj hv
        exact ⟨hs, Or.inr rfl⟩
      · exact h.link v p hv
    · rw [ne_eq, hcolor]; exact h.curNG
    · rw [e2]; exact Or.inr h.curItem
    · intro m hm
      rw [hD']
      rcases List.mem_cons.1 hm with rfl | hm
      · exact Or.inl rfl
      · exact Or.inr (h.doneD m hm)
    · have := h.len; simp only [List.length_cons]; omega
    · intro x; rw [hcolor]; exact h.greens x
    · intro ns
      obtain ⟨k, hk, hpc⟩ := h.chainC ns
      have hnP : ¬ (st.color n = .green ∨ n = c) := by
        rintro (h1 | h1)
        · exact hn h1
        · exact hNS ns h1
      refine ⟨k, hk, ?_⟩
      rw [e1]
      exact (hpc.set_in (n := n) (by exact hnP) (Or.inr rfl)).mono fun x hx => hx.imp (hcolor x).2 id
    · intro ns v hv
      have hnP : ¬ (st.color n = .green ∨ n = c) := by
        rintro (h1 | h1)
        · exact hn h1
        · exact hNS ns h1
      rw [e1]
      by_cases hvn : v = n
      · subst hvn
        obtain ⟨k, hk, hpc⟩ := h.chainC ns
        refine ⟨k + 1, by omega, ?_⟩
        refine .step ((hpc.set_in (n := v) (by exact hnP) (Or.inr rfl)).mono fun x hx => hx.imp (hcolor x).2 id) (Or.inr rfl) ?_
        simp
      · obtain ⟨k, hk, hpc⟩ := h.chain ns v (((hD' v).1 hv).resolve_left hvn)
        exact ⟨k, hk, (hpc.set_ne (n := n) (by exact hnP) hvn).mono fun x hx => hx.imp (hcolor x).2 id⟩

/-- entering a node: only its colour (to blue) and priority change -/
theorem enter_ok {st : SState N Q} {t} (h : Base g items rev src NS st t) {c : N} (hc : c ∈ items st.q) :
    enter g O rev src st c = .ok { st with
      prio := if O.isPQ then upd st.prio c (O.getPriority st.q c) else st.prio
      color := upd st.color c .blue } := by
  unfold enter
  have hcase : (if O.isPQ = true then { st with prio := upd st.prio c (O.getPriority st.q c) } else st) =
      { st with prio := if O.isPQ then upd st.prio c (O.getPriority st.q c) else st.prio } := by
    split <;> rfl
  simp only [hcase]
  by_cases hcs : c = src
  · rw [if_pos hcs]
  · rw [if_neg hcs]
    rcases h.item c hc with h1 | h1
    · exact absurd h1 hcs
    · obtain ⟨p, hp⟩ := (Dict.mem_keys' _ _).1 h1
      rw [hp]
      simp only []
      rw [touch_ok (h.link c p hp).1]

theorem mid_enter {st : SState N Q} {t} (h : Base g items rev src NS st t) {c : N} (hc : c ∈ items st.q)
    (hng : st.color c ≠ .green) (prio' : N → Option Int) :
    Mid g items rev src NS { st with prio := prio', color := upd st.color c .blue } t c []
      (items st.q).length st.color := by
  have hcol : ∀ x, upd st.color c .blue x = .green ↔ st.color x = .green := by
    intro x
    by_cases hx : x = c
    · subst hx; simp [hng]
    · rw [upd_ne _ _ hx]
  refine ⟨h.node, h.reach, h.pnd, ?_, h.item, ?_, ?_, ?_, hc, by simp, by simp, hcol, ?_, ?_⟩
  · intro v hv; exact (h.disc v hv).imp (hcol v).2 id
  · intro u hu; exact h.closed u ((hcol u).1 hu)
  · intro v p hv; exact ⟨(h.link v p hv).1, Or.inl ((hcol p).2 (h.link v p hv).2)⟩
  · simp
  · intro ns
    obtain ⟨k, hk, hpc⟩ := h.chain ns c (h.item c hc)
    exact ⟨k, hk, hpc.mono fun x hx => Or.inl ((hcol x).2 hx)⟩
  · intro ns v hv
    obtain ⟨k, hk, hpc⟩ := h.chain ns v hv
    exact ⟨k, by omega, hpc.mono fun x hx => Or.inl ((hcol x).2 hx)⟩

/-- leaving a node: it is removed from the queue and becomes green -/
theorem base_leave (hb : LawfulBag O items) {st : SState N Q} {t c done len0 color0}
    (h : Mid g items rev src NS st t c done len0 color0) (hdone : ∀ v, Step g rev c v → v ∈ done) :
    Base g items rev src NS { st with q := O.remove st.q c, color := upd st.color c .green } (t + 1) := by
  have hcol : ∀ x, upd st.color c .green x = .green ↔ st.color x = .green ∨ x = c := by
    intro x
    by_cases hx : x = c
    · subst hx; simp
    · rw [upd_ne _ _ hx]; simp [hx]
  refine ⟨h.node, h.reach, h.pnd, ?_, ?_, ?_, ?_, ?_⟩
  · intro v hv
    simp only [hcol]
    by_cases hvc : v = c
    · exact Or.inl (Or.inr hvc)
    · exact (h.disc v hv).imp Or.inl fun hh => (hb.mem_remove _ _ h.curItem v hvc).2 hh
  · intro v hv
    by_cases hvc : v = c
    · subst hvc; exact h.item v h.curItem
    · exact h.item v ((hb.mem_remove _ _ h.curItem v hvc).1 hv)
  · intro u hu
    rcases (hcol u).1 hu with hu | rfl
    · exact h.closed u hu
    · exact ⟨h.item u h.curItem, fun v hv => h.doneD v (hdone v hv)⟩
  · intro v p hv
    exact ⟨(h.link v p hv).1, (hcol p).2 (h.link v p hv).2⟩
  · intro ns v hv
    obtain ⟨k, hk, hpc⟩ := h.chain ns v hv
    exact ⟨k, hk, hpc.mono fun x hx => (hcol x).2 hx⟩

/-- dropping an already finished item -/
theorem base_drop (hb : LawfulBag O items) {st : SState N Q} {t} (h : Base g items rev src NS st t) {c : N}
    (hc : c ∈ items st.q) (hg : st.color c = .green) :
    Base g items rev src NS { st with q := O.remove st.q c } t := by
  refine ⟨h.node, h.reach, h.pnd, ?_, ?_, h.closed, h.link, h.chain⟩
  · intro v hv
    by_cases hvc : v = c
    · subst hvc; exact Or.inl hg
    · exact (h.disc v hv).imp id fun hh => (hb.mem_remove _ _ hc v hvc).2 hh
  · intro v hv
    by_cases hvc : v = c
    · subst hvc; exact h.item v hc
    · exact h.item v ((hb.mem_remove _ _ hc v hvc).1 hv)

/-- The `for` loop keeps `Mid` together with any property `K` that each `process_edge` call keeps. -/
theorem forNbrs_ok (hw : g.Wf) {algo : Algo} {comp : Option Int} {c : N} {t len0 color0}
    (K : List N → SState N Q → Prop)
    (hgreen : ∀ done n st, Mid g items rev src NS st t c done len0 color0 → K done st → st.color n = .green →
      Step g rev c n → K (n :: done) st)
    (hpe : ∀ done n st, Mid g items rev src NS st t c done len0 color0 → K done st → st.color n ≠ .green →
      Step g rev c n →
      ∃ st', processEdge g O algo comp st c n = .ok st' ∧ PERel items src NS st c n st' ∧ K (n :: done) st')
    (l : List N) (hl : ∀ n ∈ l, Step g rev c n) (done : List N) (st : SState N Q)
    (h : Mid g items rev src NS st t c done len0 color0) (hk : K done st) :
    ∃ st' done', forNbrs g O algo rev comp c l st = .ok st' ∧
      Mid g items rev src NS st' t c done' len0 color0 ∧ K done' st' ∧ (∀ n, n ∈ done' ↔ n ∈ l ∨ n ∈ done) ∧
      done'.length = l.length + done.length := by
  induction l generalizing done st with
  | nil => exact ⟨st, done, rfl, h, hk, by simp, by simp⟩
  | cons n l ih =>
    have hs := hl n (by simp)
    have hl' : ∀ m ∈ l, Step g rev c m := fun m hm => hl m (by simp [hm])
    have fin : ∀ (_ : SState N Q) (done' : List N), (∀ m, m ∈ done' ↔ m ∈ l ∨ m ∈ n :: done) →
        done'.length = l.length + (n :: done).length →
        (∀ m, m ∈ done' ↔ m ∈ n :: l ∨ m ∈ done) ∧ done'.length = (n :: l).length + done.length := by
      intro _ done' h1 h2
      refine ⟨fun m => ?_, ?_⟩
      · rw [h1]; simp only [List.mem_cons]; constructor
        · rintro (h | h | h) <;> simp [h]
        · rintro ((h | h) | h) <;> simp [h]
      · rw [h2]; simp; omega
    rw [forNbrs]
    by_cases hg : st.color n = .green
    · rw [if_pos hg]
      obtain ⟨st', done', h1, h2, h3, h4, h5⟩ := ih hl' (n :: done) st (mid_skipGreen h hg) (hgreen _ _ _ h hk hg hs)
      obtain ⟨h6, h7⟩ := fin st' done' h4 h5
      exact ⟨st', done', h1, h2, h3, h6, h7⟩
    · rw [if_neg hg, touch_ok hs]
      obtain ⟨st1, e1, e2, e3⟩ := hpe done n st h hk hg hs
      simp only [e1]
      obtain ⟨st', done', h1, h2, h3, h4, h5⟩ := ih hl' (n :: done) st1 (mid_step h hw hg hs e2) e3
      obtain ⟨h6, h7⟩ := fin st' done' h4 h5
      exact ⟨st', done', h1, h2, h3, h6, h7⟩

/-- potential function of the `while` loop -/
def work (g : Graph N) (items : Q → List N) (rev : Bool) (st : SState N Q) : Nat :=
  (items st.q).length + rest g rev st.color

/-- **Main loop rule.** `A t st` is the algorithm-specific invariant, `K` its version inside the `for` loop. -/
theorem loop_ok (hw : g.Wf) (hb : LawfulBag O items) {algo : Algo} {comp : Option Int} {dest : Option N} {M : Nat}
    (A : SState N Q → Prop) (K : N → List N → SState N Q → Prop)
    (hdrop : ∀ st t c, Base g items rev src NS st t → A st → O.peek st.q = some c → c ∈ items st.q →
      st.color c = .green → A { st with q := O.remove st.q c })
    (henter : ∀ st t c, Base g items rev src NS st t → A st → O.peek st.q = some c → c ∈ items st.q →
      st.color c ≠ .green → K c [] { st with
        prio := if O.isPQ then upd st.prio c (O.getPriority st.q c) else st.prio
        color := upd st.color c .blue })
    (hgreen : ∀ c t len0 color0 done n st, Mid g items rev src NS st t c done len0 color0 → K c done st →
      st.color n = .green → Step g rev c n → K c (n :: done) st)
    (hpe : ∀ c t len0 color0 done n st, Mid g items rev src NS st t c done len0 color0 → K c done st →
      st.color n ≠ .green → Step g rev c n →
      ∃ st', processEdge g O algo comp st c n = .ok st' ∧ PERel items src NS st c n st' ∧ K c (n :: done) st')
    (hleave : ∀ c t len0 color0 done st, Mid g items rev src NS st t c done len0 color0 → K c done st →
      (∀ v, v ∈ done ↔ Step g rev c v) → A { st with q := O.remove st.q c, color := upd st.color c .green })
    (fuel : Nat) (st : SState N Q) (t : Nat) (h : Base g items rev src NS st t) (ha : A st)
    (hM : t + work g items rev st ≤ M) (hf : work g items rev st < fuel) :
    ∃ b st', loop g O algo rev comp dest src fuel st = .ok (b, st') ∧
      (b = false → ∃ t' ≤ M, Base g items rev src NS st' t' ∧ A st' ∧ items st'.q = [] ∧
        ∀ d, dest = some d → st'.color d ≠ .green ∨ st.color d = .green) ∧
      (b = true → ∃ st0 t' c, dest = some c ∧ t' ≤ M ∧ Base g items rev src NS st0 t' ∧ A st0 ∧
        O.peek st0.q = some c ∧ c ∈ items st0.q ∧ st0.color c ≠ .green ∧
        st' = { st0 with
          prio := if O.isPQ then upd st0.prio c (O.getPriority st0.q c) else st0.prio
          color := upd st0.color c .blue }) := by
  induction fuel generalizing st t with
  | zero => omega
  | succ f ih =>
    rw [loop]
    by_cases he : O.isEmpty st.q = true
    · rw [if_pos he]
      refine ⟨false, st, rfl, fun _ => ⟨t, by omega, h, ha, (hb.isEmpty_iff _).1 he, fun d _ => ?_⟩, by simp⟩
      by_cases hd : st.color d = .green
      · exact Or.inr hd
      · exact Or.inl hd
    · rw [if_neg he]
      obtain ⟨c, hc, hpk⟩ := hb.peek_mem st.q (fun hh => he ((hb.isEmpty_iff _).2 hh))
      rw [hpk]
      simp only []
      by_cases hg : st.color c = .green
      · rw [if_pos hg]
        have hlen := hb.len_remove st.q c hc
        have hwk : work g items rev { st with q := O.remove st.q c } < work g items rev st := by
          unfold work; simp only; omega
        obtain ⟨b, st', h1, h2, h3⟩ := ih { st with q := O.remove st.q c } t (base_drop hb h hc hg)
          (hdrop st t c h ha hpk hc hg) (by omega) (by omega)
        exact ⟨b, st', h1, h2, h3⟩
      · rw [if_neg hg, enter_ok h hc]
        simp only []
        by_cases hd : dest = some c
        · rw [if_pos hd]
          exact ⟨true, _, rfl, by simp, fun _ => ⟨st, t, c, hd, by omega, h, ha, hpk, hc, hg, rfl⟩⟩
        · rw [if_neg hd]
          have hcn := h.node c (h.item c hc)
          obtain ⟨l, hl, hmem⟩ := nbrs_ok hw rev hcn
          have hmid := mid_enter (items := items) h hc hg
            (if O.isPQ then upd st.prio c (O.getPriority st.q c) else st.prio)
          obtain ⟨st2, done, e1, e2, e3, e4, e5⟩ := forNbrs_ok (O := O) (algo := algo) (comp := comp) hw (K c)
            (fun done n st => hgreen c t _ _ done n st) (fun done n st => hpe c t _ _ done n st)
            l (fun n hn => (hmem n).1 hn) [] _ hmid (henter st t c h ha hpk hc hg)
          have hdone : ∀ v, v ∈ done ↔ Step g rev c v := by intro v; rw [e4, hmem]; simp
          have hvisit : visit g O algo rev comp { st with
              prio := if O.isPQ then upd st.prio c (O.getPriority st.q c) else st.prio
              color := upd st.color c .blue } c =
              .ok { st2 with q := O.remove st2.q c, color := upd st2.color c .green } := by
            unfold visit; rw [hl]; simp only []; rw [e1]
          rw [hvisit]
          simp only []
          have hbase := base_leave hb e2 (fun v hv => (hdone v).2 hv)
          have hA := hleave c t _ _ done st2 e2 e3 hdone
          have hlen := hb.len_remove st2.q c e2.curItem
          have hlen2 := e2.len
          have hdeg : deg g rev c = l.length := by unfold deg; rw [hl]
          have hrest := rest_upd g rev st.color (upd st2.color c .green) c hcn hg (by
            intro x
            by_cases hx : x = c
            · subst hx; simp
            · rw [upd_ne _ _ hx, e2.greens]; simp [hx])
          have hwk : work g items rev { st2 with q := O.remove st2.q c, color := upd st2.color c .green } + 1 ≤
              work g items rev st := by
            unfold work; simp only
            simp only [List.length_nil, Nat.add_zero] at e5
            omega
          obtain ⟨b, st', h1, h2, h3⟩ := ih _ (t + 1) hbase hA (by omega) (by omega)
          refine ⟨b, st', h1, ?_, h3⟩
          intro hb'
          obtain ⟨t', a1, a2, a3, a4, a5⟩ := h2 hb'
          refine ⟨t', a1, a2, a3, a4, ?_⟩
          intro d hdd
          rcases a5 d hdd with h6 | h6
          · exact Or.inl h6
          · have hdc : d ≠ c := by rintro rfl; exact hd hdd
            have h6 : upd st2.color c .green d = .green := h6
            rw [upd_ne _ _ hdc, e2.greens] at h6
            exact Or.inr h6

/-- The obligations of an algorithm-specific invariant: `A` for the `while` loop, `K` inside the `for` loop. -/
structure Inv (g : Graph N) (O : QOps N Q) (items : Q → List N) (rev : Bool) (src : N) (NS : Prop) (algo : Algo)
    (comp : Option Int) (A : SState N Q → Prop) (K : N → List N → SState N Q → Prop) : Prop where
  drop : ∀ st t c, Base g items rev src NS st t → A st → O.peek st.q = some c → c ∈ items st.q →
      st.color c = .green → A { st with q := O.remove st.q c }
  enter : ∀ st t c, Base g items rev src NS st t → A st → O.peek st.q = some c → c ∈ items st.q →
      st.color c ≠ .green → K c [] { st with
        prio := if O.isPQ then upd st.prio c (O.getPriority st.q c) else st.prio
        color := upd st.color c .blue }
  green : ∀ c t len0 color0 done n st, Mid g items rev src NS st t c done len0 color0 → K c done st →
      st.color n = .green → Step g rev c n → K c (n :: done) st
  pe : ∀ c t len0 color0 done n st, Mid g items rev src NS st t c done len0 color0 → K c done st →
      st.color n ≠ .green → Step g rev c n →
      ∃ st', processEdge g O algo comp st c n = .ok st' ∧ PERel items src NS st c n st' ∧ K c (n :: done) st'
  leave : ∀ c t len0 color0 done st, Mid g items rev src NS st t c done len0 color0 → K c done st →
      (∀ v, v ∈ done ↔ Step g rev c v) → A { st with q := O.remove st.q c, color := upd st.color c .green }

theorem start_fields (algo : Algo) (comp : Option Int) (col : SState N Q) :
    (start O algo comp src col).pred = .empty ∧ (∀ x, (start O algo comp src col).color x = .black) ∧
    ((start O algo comp src col).q = O.pushP col.q src 0 ∨ (start O algo comp src col).q = O.push col.q src) := by
  refine ⟨?_, ?_, ?_⟩
  · cases algo <;> rfl
  · intro x
    cases algo <;> simp [start, processSource, upd]
  · cases algo <;> simp [start, processSource] <;> cases O.isPQ <;> simp

theorem base_start (hb : LawfulBag O items) (hsrc : src ∈ g.getNodeList) (algo : Algo) (comp : Option Int)
    (col : SState N Q) (hq : items col.q = []) :
    Base g items rev src NS (start O algo comp src col) 0 ∧
      (∀ y, y ∈ items (start O algo comp src col).q ↔ y = src) ∧
      work g items rev (start O algo comp src col) < fuelBound g rev := by
  obtain ⟨h1, h2, h3⟩ := start_fields (O := O) (src := src) algo comp col
  have hit : (∀ y, y ∈ items (start O algo comp src col).q ↔ y = src) ∧
      (items (start O algo comp src col).q).length ≤ 1 := by
    rcases h3 with h3 | h3 <;> rw [h3]
    · have := hb.len_pushP col.q src 0
      refine ⟨fun y => ?_, by rw [hq] at this; simpa using this⟩
      rw [hb.mem_pushP, hq]; simp
    · have := hb.len_push col.q src
      refine ⟨fun y => ?_, by rw [hq] at this; simpa using this⟩
      rw [hb.mem_push, hq]; simp
  have hD : ∀ v, D src (start O algo comp src col) v ↔ v = src := by
    intro v; unfold D; rw [h1]; simp [Dict.empty, Dict.keys]
  refine ⟨⟨?_, ?_, ?_, ?_, ?_, ?_, ?_, ?_⟩, hit.1, ?_⟩
  · intro v hv; rw [(hD v).1 hv]; exact hsrc
  · intro v hv; rw [(hD v).1 hv]
  · rw [h1]; simp [Dict.empty, Dict.keys]
  · intro v hv; exact Or.inr ((hit.1 v).2 ((hD v).1 hv))
  · intro v hv; exact (hD v).2 ((hit.1 v).1 hv)
  · intro u hu; rw [h2] at hu; cases hu
  · intro v p hv; rw [h1] at hv; cases hv
  · intro _ v hv
    rw [(hD v).1 hv]
    exact ⟨0, le_refl _, .src⟩
  · have : rest g rev (start O algo comp src col).color = (g.getNodeList.map fun u => deg g rev u + 1).sum := by
      unfold rest; simp [h2]
    unfold work fuelBound
    have := hit.2
    omega

/-- when the queue is empty, discovered means reachable -/
theorem D_iff_reach {st : SState N Q} {t} (h : Base g items rev src NS st t) (he : items st.q = []) (v : N) :
    D src st v ↔ Reach g rev src v := by
  refine ⟨h.reach v, fun hr => ?_⟩
  induction hr with
  | refl => exact Or.inl rfl
  | tail _ hs ih =>
    rcases h.disc _ ih with h1 | h1
    · exact (h.closed _ h1).2 _ hs
    · rw [he] at h1; cases h1

/-- `search` without destination. -/
theorem search_none_ok (hw : g.Wf) (hb : LawfulBag O items) {algo : Algo} {comp : Option Int} {A K}
    (I : Inv g O items rev src NS algo comp A K) (hsrc : src ∈ g.getNodeList) (col : SState N Q)
    (hq : items col.q = []) (hA : A (start O algo comp src col)) {fuel : Nat} (hf : fuelBound g rev ≤ fuel) :
    ∃ st t, search g O algo rev comp none src col fuel = .ok (.pred st.pred, st) ∧
      Base g items rev src NS st t ∧ A st ∧ items st.q = [] := by
  obtain ⟨h1, _, h3⟩ := base_start (g := g) (rev := rev) (NS := NS) hb hsrc algo comp col hq
  obtain ⟨b, st, e1, e2, e3⟩ := loop_ok (dest := none) (M := fuelBound g rev) hw hb A K I.drop I.enter I.green I.pe
    I.leave fuel _ 0 h1 hA (by omega) (by omega)
  have hn : g.hasNode src = true := by unfold Graph.hasNode; rw [Dict.contains_iff, hw.nodesEq]; exact hsrc
  cases b with
  | true => obtain ⟨_, _, _, h, _⟩ := e3 rfl; cases h
  | false =>
    obtain ⟨t, _, h4, h5, h6, _⟩ := e2 rfl
    refine ⟨st, t, ?_, h4, h5, h6⟩
    unfold search
    rw [if_neg (by simp [hn]), resetEdges_ok hw rev _ (fun _ h => h)]
    simp only [reduceCtorEq, if_false, e1, Bool.false_eq_true]

/-- `search` with a destination other than the source. -/
theorem search_some_ok (hw : g.Wf) (hb : LawfulBag O items) {algo : Algo} {comp : Option Int} {A K}
    (I : Inv g O items rev src NS algo comp A K) (hsrc : src ∈ g.getNodeList) (ns : NS) (col : SState N Q)
    (hq : items col.q = []) (hA : A (start O algo comp src col)) {fuel : Nat} (hf : fuelBound g rev ≤ fuel)
    {dst : N} (hd : dst ≠ src) :
    (∃ st t, search g O algo rev comp (some dst) src col fuel = .ok (.none, st) ∧
      Base g items rev src NS st t ∧ A st ∧ items st.q = [] ∧ ¬ Reach g rev src dst) ∨
    (∃ st0 st t k l, search g O algo rev comp (some dst) src col fuel = .ok (.path l, st) ∧
      Base g items rev src NS st0 t ∧ A st0 ∧ O.peek st0.q = some dst ∧ dst ∈ items st0.q ∧
      st0.color dst ≠ .green ∧ st = { st0 with
          prio := if O.isPQ then upd st0.prio dst (O.getPriority st0.q dst) else st0.prio
          color := upd st0.color dst .blue } ∧
      Reach g rev src dst ∧ PC st0.pred src (fun x => st0.color x = .green) k dst ∧
      reconstruct st0.pred src fuel dst [dst] = .ok l ∧ IsPath (Step g rev) src dst l ∧ l.length ≤ 1 + k) := by
  obtain ⟨h1, h2, h3⟩ := base_start (g := g) (rev := rev) (NS := NS) hb hsrc algo comp col hq
  obtain ⟨b, st, e1, e2, e3⟩ := loop_ok (dest := some dst) (M := fuelBound g rev - 1) hw hb A K I.drop I.enter I.green
    I.pe I.leave fuel _ 0 h1 hA (by omega) (by omega)
  have hn : g.hasNode src = true := by unfold Graph.hasNode; rw [Dict.contains_iff, hw.nodesEq]; exact hsrc
  have hds : ¬ (some dst = some src) := by simpa using hd
  have hfb : 2 ≤ fuelBound g rev := by unfold fuelBound; omega
  cases b with
  | false =>
    obtain ⟨t, _, h4, h5, h6, h7⟩ := e2 rfl
    refine Or.inl ⟨st, t, ?_, h4, h5, h6, ?_⟩
    · unfold search
      rw [if_neg (by simp [hn]), resetEdges_ok hw rev _ (fun _ h => h)]
      simp only [hds, if_false, e1, Bool.false_eq_true]
    · intro hr
      have hD := (D_iff_reach h4 h6 dst).2 hr
      rcases h7 dst rfl with h8 | h8
      · rcases h4.disc dst hD with h9 | h9
        · exact h8 h9
        · rw [h6] at h9; cases h9
      · rw [(start_fields (O := O) (src := src) algo comp col).2.1] at h8; cases h8
  | true =>
    obtain ⟨st0, t, c, h4, h5, h6, h7, h8, h9, h10, h11⟩ := e3 rfl
    obtain rfl := Option.some.inj h4
    obtain ⟨k, hk, hpc⟩ := h6.chain ns dst (h6.item dst h9)
    obtain ⟨l, r1, r2, _, r3⟩ := reconstruct_ok (R := Step g rev) hpc (fun a b hab => (h6.link b a hab).1)
      (t := dst) [dst] ⟨rfl, rfl, by simp⟩ (fuel := fuel) (by omega)
    refine Or.inr ⟨st0, st, t, k, l, ?_, h6, h7, h8, h9, h10, h11, h6.reach dst (h6.item dst h9), hpc, r1, r2,
      by simpa using r3⟩
    have hp : st.pred = st0.pred := by rw [h11]
    unfold search
    rw [if_neg (by simp [hn]), resetEdges_ok hw rev _ (fun _ h => h)]
    simp only [hds, if_false, e1, if_true, hp, r1]

theorem search_self (hw : g.Wf) (hsrc : src ∈ g.getNodeList) (algo : Algo) (comp : Option Int) (col : SState N Q)
    {fuel : Nat} (hf : 0 < fuel) :
    search g O algo rev comp (some src) src col fuel = .ok (.path [src], start O algo comp src col) := by
  have hn : g.hasNode src = true := by unfold Graph.hasNode; rw [Dict.contains_iff, hw.nodesEq]; exact hsrc
  obtain ⟨f, rfl⟩ : ∃ f, fuel = f + 1 := ⟨fuel - 1, by omega⟩
  unfold search
  rw [if_neg (by simp [hn]), resetEdges_ok hw rev _ (fun _ h => h)]
  simp [reconstruct]

end Search
end GiMPy
