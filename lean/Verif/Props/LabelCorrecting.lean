import Verif.Lemmas.LabelCorrecting
import Verif.Lemmas.Components
import Mathlib.Algebra.Order.BigOperators.Group.List
import Mathlib.Tactic.NormNum

/-! # C39: `fifo_label_correcting` -/

namespace GiMPy
namespace LC
variable {N : Type} [DecidableEq N]
variable {R : N → N → Prop} {w : N → N → Int} {V : List N} {s : N}
set_option linter.unusedSectionVars false

/-- a result `(False, c)` with a negative cycle -/
def FoundCycle (R : N → N → Prop) (w : N → N → Int) (r : Except PyErr (LState N ⊕ List N)) : Prop :=
  ∃ c, r = .ok (.inr c) ∧ IsCycle R c ∧ cycleCost w c < 0

theorem relax_ok {g : Graph N} (hg : g.getNodeList = V) {st : LState N} (h : Inv R w V s st)
    {fuel : Nat} (hf : V.length + 1 < fuel) {i j : N} {d : Int}
    (hi : st.dist i = some d) (hR : R i j) (hV : j ∈ V) (hw : g.getEdgeCost i j = .ok (w i j)) :
    FoundCycle R w (relax g py2 fuel i st j) ∨ ∃ st', relax g py2 fuel i st j = .ok (.inl st') ∧ Inv R w V s st' ∧
      ((st' = st ∧ ∃ b, st.dist j = some b ∧ b ≤ d + w i j) ∨
        (j ≠ i ∧ st'.dist = upd st.dist j (some (d + w i j)) ∧ st'.q = enqueue st.q j ∧
          (∀ dj, st.dist j = some dj → d + w i j < dj) ∧ st'.pred = st.pred.set j (some i))) := by
  obtain ⟨p, hp⟩ := h.anc i ((h.lab i).1 ⟨d, hi⟩)
  have key : (∀ dj, st.dist j = some dj → d + w i j < dj) →
      FoundCycle R w (update g fuel st i j (d + w i j)) ∨ ∃ st', update g fuel st i j (d + w i j) = .ok (.inl st') ∧
        Inv R w V s st' ∧ ((st' = st ∧ ∃ b, st.dist j = some b ∧ b ≤ d + w i j) ∨
        (j ≠ i ∧ st'.dist = upd st.dist j (some (d + w i j)) ∧ st'.q = enqueue st.q j ∧
          (∀ dj, st.dist j = some dj → d + w i j < dj) ∧ st'.pred = st.pred.set j (some i))) := by
    intro hlt
    by_cases hj : j ∈ p
    · left
      have hk := hp.keys j hj
      obtain ⟨dj, hdj⟩ := (h.lab j).2 hk
      obtain ⟨c, h1, h2, h3⟩ := h.cycle hi hR hdj (hlt dj hdj) hp hj hf g hg
      refine ⟨c, ?_, h2, h3⟩
      unfold update
      rw [if_pos ((Dict.contains_iff _ _).2 hk), h1]
    · right
      have h' := h.update hi hR hV hlt hp hj
      refine ⟨_, ?_, h', .inr ⟨fun e => hj (e ▸ hp.head), rfl, rfl, hlt, rfl⟩⟩
      · unfold update
        split
        · unfold checkCycle
          have hx : ∀ x ∈ j :: p, x ∈ V ∧ x ∉ ([] : List N) := by
            intro x hx
            refine ⟨?_, by simp⟩
            rcases List.mem_cons.1 hx with rfl | hx
            · exact hV
            · exact h.keysV x (hp.keys x hx)
          have hlen : (j :: p).length < fuel := by
            have : p.length ≤ V.length := (hp.nodup.subperm fun x hx => h.keysV x (hp.keys x hx)).length_le
            simp
            omega
          rw [hg, meets_anc (p := j :: p) (.step (by simp) (hp.set hj)) hx hlen]
        · rfl
  have hL : (longer py2 (st.dist j) (d + w i j) = .ok true ∧ ∀ dj, st.dist j = some dj → d + w i j < dj) ∨
      (longer py2 (st.dist j) (d + w i j) = .ok false ∧ ∃ b, st.dist j = some b ∧ b ≤ d + w i j) := by
    cases hdj : st.dist j with
    | none => exact .inl ⟨rfl, by simp⟩
    | some dj =>
      by_cases hlt : d + w i j < dj
      · exact .inl ⟨by simp [longer, hlt], by rintro _ ⟨⟩; exact hlt⟩
      · exact .inr ⟨by simp only [longer]; rw [decide_eq_false (by omega)], dj, rfl, by omega⟩
  unfold relax
  rw [hw]
  simp only [hi]
  rcases hL with ⟨hL, hlt⟩ | ⟨hL, hb⟩
  · rw [hL]
    exact key hlt
  · rw [hL]
    exact .inr ⟨st, rfl, h, .inl ⟨rfl, hb⟩⟩

/-- all arcs satisfied except those from `i` to nodes of `rem` and those from nodes in the queue -/
def Cl (R : N → N → Prop) (w : N → N → Int) (st : LState N) (P : N → N → Prop) : Prop :=
  ∀ u a, st.dist u = some a → u ∉ st.q → ∀ v, R u v → P u v ∨ ∃ b, st.dist v = some b ∧ b ≤ a + w u v

/-- The loop works in passes: `A` is what is left in the queue of pass `k`, `B` what has been put there for the next one.
`lu` gives the pass of the last update of each label. -/
structure Passes (s : N) (k : Nat) (A B : List N) (lu : N → Nat) (st : LState N) : Prop where
  q : st.q = A ++ B
  src : lu s = 0
  link : ∀ v u, st.pred.get? v = some (some u) → lu v ≤ lu u + 1
  top : ∀ v, lu v ≤ k
  curr : ∀ v ∈ A, k ≤ lu v + 1
  next : ∀ v ∈ B, k ≤ lu v

/-- a label corrected in pass `m` has a chain of at least `m` predecessors -/
theorem Passes.depth {k : Nat} {A B : List N} {lu : N → Nat} {st : LState N} (h : Passes s k A B lu st)
    (hr : ∀ v, st.pred.get? v = some none → v = s) {v : N} {p : List N} (hp : Anc st.pred v p) : lu v < p.length := by
  induction hp with
  | root hv => rw [hr _ hv, h.src]; simp
  | step hv _ ih => have := h.link _ _ hv; simp only [List.length_cons]; omega

/-- one update in pass `k` -/
theorem Passes.update {k : Nat} {A B : List N} {lu : N → Nat} {st st' : LState N} (h : Passes s k A B lu st) {i j : N}
    (hi : k ≤ lu i + 1) (hjs : j ≠ s) (hji : j ≠ i) (hq : st'.q = enqueue st.q j)
    (hp : st'.pred = st.pred.set j (some i)) : ∃ B', Passes s k A B' (upd lu j k) st' := by
  have hlu : ∀ v, lu v ≤ upd lu j k v := by
    intro v
    unfold upd
    split
    · exact h.top v
    · exact Nat.le_refl _
  have hl : ∀ v u, st'.pred.get? v = some (some u) → upd lu j k v ≤ upd lu j k u + 1 := by
    intro v u hvu
    rw [hp, Dict.get?_set] at hvu
    by_cases hv : j = v
    · subst hv
      rw [if_pos rfl] at hvu
      obtain rfl := Option.some.inj (Option.some.inj hvu)
      simp only [upd, if_true, if_neg (Ne.symm hji)]; exact hi
    · rw [if_neg hv] at hvu
      have h1 := h.link v u hvu
      have h2 := hlu u
      have h3 : upd lu j k v = lu v := if_neg (Ne.symm hv)
      omega
  have ht : ∀ v, upd lu j k v ≤ k := by
    intro v
    unfold upd
    split
    · exact Nat.le_refl _
    · exact h.top v
  have hs : upd lu j k s = 0 := by simp only [upd, if_neg (Ne.symm hjs)]; exact h.src
  have hA : ∀ v ∈ A, k ≤ upd lu j k v + 1 := fun v hv => by have := h.curr v hv; have := hlu v; omega
  have hB : ∀ v ∈ B, k ≤ upd lu j k v := fun v hv => (h.next v hv).trans (hlu v)
  unfold enqueue at hq
  by_cases hm : j ∈ st.q
  · rw [if_pos hm] at hq
    exact ⟨B, hq.trans h.q, hs, hl, ht, hA, hB⟩
  · rw [if_neg hm, h.q, List.append_assoc] at hq
    refine ⟨B ++ [j], hq, hs, hl, ht, hA, ?_⟩
    intro v hv
    rcases List.mem_append.1 hv with hv | hv
    · exact hB v hv
    · rw [List.mem_singleton.1 hv]; simp [upd]

theorem scan_ok {g : Graph N} (hg : g.getNodeList = V) {fuel : Nat}
    (hf : V.length + 1 < fuel) {i : N} {d : Int} (l : List N) : ∀ {st : LState N}, Inv R w V s st →
    st.dist i = some d → (∀ j ∈ l, R i j ∧ j ∈ V ∧ g.getEdgeCost i j = .ok (w i j)) →
    Cl R w st (fun u v => u = i ∧ v ∈ l) → ∀ {k A B lu}, Passes s k A B lu st → k ≤ lu i + 1 →
    FoundCycle R w (scan g py2 fuel i l st) ∨ ∃ st', scan g py2 fuel i l st = .ok (.inl st') ∧ Inv R w V s st' ∧
      Cl R w st' (fun _ _ => False) ∧ ∃ B' lu', Passes s k A B' lu' st' := by
  induction l with
  | nil =>
    intro st h _ _ hc k A B lu hP _
    exact .inr ⟨st, rfl, h, fun u a hu hq v hv => (hc u a hu hq v hv).imp_left (by simp), B, lu, hP⟩
  | cons j l ih =>
    intro st h hi hl hc k A B lu hP hk
    obtain ⟨hR, hV, hw⟩ := hl j (by simp)
    rcases relax_ok hg h hf hi hR hV hw with ⟨c, h1, h2⟩ | ⟨st', h1, h', h2⟩
    · left
      refine ⟨c, ?_, h2⟩
      rw [scan, h1]
    · rw [scan, h1]
      simp only
      have hi' : st'.dist i = some d := by
        rcases h2 with ⟨rfl, _⟩ | ⟨hji, hd, _⟩
        · exact hi
        · rw [hd]; simp [upd, Ne.symm hji, hi]
      have hc' : Cl R w st' (fun u v => u = i ∧ v ∈ l) := by
        intro u a hu hq v hv
        rcases h2 with ⟨rfl, b, hb, hle⟩ | ⟨hji, hd, hq', hlt, _⟩
        · rcases hc u a hu hq v hv with ⟨rfl, hvl⟩ | h3
          · rcases List.mem_cons.1 hvl with rfl | hvl
            · right
              rw [hi] at hu
              cases hu
              exact ⟨b, hb, hle⟩
            · exact .inl ⟨rfl, hvl⟩
          · exact .inr h3
        · have huj : u ≠ j := by
            rintro rfl
            apply hq
            rw [hq']
            unfold enqueue
            split
            · assumption
            · simp
          have huq : u ∉ st.q := by
            intro hh
            apply hq
            rw [hq']
            unfold enqueue
            split
            · assumption
            · simp [hh]
          rw [hd] at hu
          simp only [upd, if_neg huj] at hu
          rcases hc u a hu huq v hv with ⟨rfl, hvl⟩ | ⟨b, hb, hle⟩
          · rcases List.mem_cons.1 hvl with rfl | hvl
            · right
              rw [hi] at hu
              cases hu
              exact ⟨d + w u v, by rw [hd]; simp [upd], le_rfl⟩
            · exact .inl ⟨rfl, hvl⟩
          · right
            by_cases hvj : v = j
            · subst hvj
              exact ⟨d + w i v, by rw [hd]; simp [upd], by have := hlt b hb; omega⟩
            · exact ⟨b, by rw [hd]; simp [upd, hvj, hb], hle⟩
      have hP' : ∃ B' lu', Passes s k A B' lu' st' ∧ k ≤ lu' i + 1 := by
        rcases h2 with ⟨rfl, _⟩ | ⟨hji, _, hq, _, hp⟩
        · exact ⟨B, lu, hP, hk⟩
        · have hjs : j ≠ s := by
            rintro rfl
            have := (h'.root j).2 rfl
            rw [hp, Dict.get?_set_self] at this
            simp at this
          obtain ⟨B', hB'⟩ := hP.update hk hjs hji hq hp
          exact ⟨B', _, hB', by simp only [upd, if_neg (Ne.symm hji)]; exact hk⟩
      obtain ⟨B', lu', hP', hk'⟩ := hP'
      exact ih h' hi' (fun k hk => hl k (by simp [hk])) hc' hP' hk'

theorem loop_ok {g : Graph N} (hg : g.getNodeList = V)
    (hR : ∀ u ∈ V, ∃ l, Search.nbrs g false u = .ok l ∧ ∀ v, v ∈ l ↔ R u v) (hRV : ∀ u v, R u v → v ∈ V)
    (hw : ∀ u v, R u v → g.getEdgeCost u v = .ok (w u v)) {fuel : Nat}
    (hf : V.length + 1 < fuel) : ∀ (f : Nat) {st : LState N}, Inv R w V s st → Cl R w st (fun _ _ => False) →
    ∀ {k A B lu}, Passes s k A B lu st → k ≤ V.length → (V.length - k) * V.length + A.length < f →
    FoundCycle R w (loop g py2 fuel f st) ∨ ∃ st', loop g py2 fuel f st = .ok (.inl st') ∧ Inv R w V s st' ∧
      Cl R w st' (fun _ _ => False) ∧ st'.q = [] := by
  intro f
  induction f with
  | zero => intro st _ _ k A B lu _ _ hf; omega
  | succ f ih =>
    intro st h hc k A B lu hP hk hfu
    rw [loop]
    split
    · next hq => exact .inr ⟨st, rfl, h, hc, hq⟩
    · next i q hq =>
      have hlen : st.q.length ≤ V.length := (h.qn.subperm fun x hx => h.keysV x (h.qk x hx)).length_le
      -- start a new pass if the present one is over
      obtain ⟨k', A', B', hP', hk', hfu'⟩ : ∃ k' A' B', Passes s k' (i :: A') B' lu st ∧ k' ≤ V.length ∧
          (V.length - k') * V.length + A'.length < f := by
        cases A with
        | cons a A =>
          have h1 := hP.q
          rw [hq, List.cons_append] at h1
          obtain ⟨rfl, _⟩ := List.cons.inj h1
          exact ⟨k, A, B, hP, hk, by simp only [List.length_cons] at hfu; omega⟩
        | nil =>
          have h1 : st.q = B := by simpa using hP.q
          rw [h1] at hq
          subst hq
          obtain ⟨p, hp⟩ := h.anc i (h.qk i (by rw [h1]; simp))
          have h2 := hP.depth (fun v => (h.root v).1) hp
          have h3 : p.length ≤ V.length := (hp.nodup.subperm fun x hx => h.keysV x (hp.keys x hx)).length_le
          have h4 := hP.next i (by simp)
          refine ⟨k + 1, q, [], ⟨by simpa using h1, hP.src, hP.link, fun v => by have := hP.top v; omega,
            fun v hv => by have := hP.next v hv; omega, by simp⟩, by omega, ?_⟩
          rw [h1] at hlen
          simp only [List.length_cons, List.length_nil] at hlen hfu
          obtain ⟨m, hm⟩ : ∃ m, V.length - k = m + 1 := ⟨V.length - k - 1, by omega⟩
          rw [show V.length - (k + 1) = m by omega]
          rw [hm, Nat.add_mul] at hfu
          omega
      have hqA : q = A' ++ B' := by
        have h1 := hP'.q
        rw [hq, List.cons_append] at h1
        exact (List.cons.inj h1).2
      have hik := h.qk i (by rw [hq]; simp)
      obtain ⟨d, hd⟩ := (h.lab i).2 hik
      obtain ⟨l, hl, hml⟩ := hR i (h.keysV i hik)
      rw [hl]
      simp only
      have hqn := h.qn
      rw [hq, List.nodup_cons] at hqn
      have h0 : Inv R w V s ⟨st.dist, st.pred, q⟩ :=
        ⟨h.keysV, h.nod, h.lab, h.src, h.root, h.arc, h.anc, hqn.2, fun v hv => h.qk v (by rw [hq]; simp [hv])⟩
      have hc0 : Cl R w ⟨st.dist, st.pred, q⟩ (fun u v => u = i ∧ v ∈ l) := by
        intro u a hu hq' v hv
        by_cases hui : u = i
        · subst hui; exact .inl ⟨rfl, (hml v).2 hv⟩
        · exact .inr ((hc u a hu (by rw [hq]; simp [hui]; exact hq') v hv).resolve_left (by simp))
      have hP0 : Passes s k' A' B' lu ⟨st.dist, st.pred, q⟩ :=
        ⟨hqA, hP'.src, hP'.link, hP'.top, fun v hv => hP'.curr v (by simp [hv]), hP'.next⟩
      rcases scan_ok hg hf l h0 hd (fun j hj => ⟨(hml j).1 hj, hRV _ _ ((hml j).1 hj), hw _ _ ((hml j).1 hj)⟩) hc0 hP0
        (hP'.curr i (by simp)) with ⟨c, h1, h2⟩ | ⟨st', h1, h2, h3, B'', lu', h4⟩
      · left
        refine ⟨c, ?_, h2⟩
        rw [h1]
      · rw [h1]
        exact ih h2 h3 h4 hk' hfu'

theorem Anc.pre {pred : Dict N (Option N)} {s v p} (hr : ∀ v, pred.get? v = some none → v = s) (h : Anc pred v p) :
    ∃ l, Pre pred s v l := by
  induction h with
  | root h => rw [hr _ h]; exact ⟨[], .nil⟩
  | step h _ ih => obtain ⟨l, hl⟩ := ih; exact ⟨_, .cons h hl⟩

theorem Pre.chain {pred : Dict N (Option N)} {y x l} (h : Pre pred y x l) :
    (y :: l.reverse).IsChain (fun u v => pred.get? v = some (some u)) ∧ (y :: l.reverse).getLast? = some x := by
  induction h with
  | nil => simp
  | @cons x u l hx _ ih =>
    rw [List.reverse_cons, ← List.cons_append]
    refine ⟨?_, List.getLast?_concat⟩
    rw [List.isChain_append]
    refine ⟨ih.1, by simp, ?_⟩
    intro a ha b hb
    rw [ih.2] at ha
    simp only [List.head?_cons, Option.mem_def, Option.some.injEq] at ha hb
    subst ha; subst hb
    exact hx

theorem walk_of_chain {u v : N} {l : List N} (h : l.IsChain R) (hh : l.head? = some u) (hl : l.getLast? = some v) :
    WalkCost R w u (pathCost w l) v := by
  induction l using List.reverseRecOn generalizing v with
  | nil => cases hh
  | append_singleton l z ih =>
    rw [List.getLast?_concat] at hl
    cases hl
    rcases List.eq_nil_or_concat l with rfl | ⟨l', y, rfl⟩
    · simp at hh
      subst hh
      exact .nil
    · rw [List.concat_eq_append] at *
      rw [pathCost_snoc z List.getLast?_concat]
      rw [List.isChain_append] at h
      refine (ih h.1 ?_ List.getLast?_concat).snoc (h.2.2 y (by simp) z (by simp))
      simpa using hh

/-- the labels and predecessors when the queue is empty -/
theorem final {st : LState N} (h : Inv R w V s st) (hc : Cl R w st (fun _ _ => False)) (hq : st.q = []) (v : N) :
    (∀ x, WalkCost R w s x v → ∃ d, st.dist v = some d ∧ d ≤ x) ∧
    ∀ d, st.dist v = some d → ∃ l, IsPath R s v l ∧ pathCost w l = d ∧ WalkCost R w s d v ∧
      l.IsChain fun a b => st.pred.get? b = some (some a) := by
  have h1 : ∀ v x, WalkCost R w s x v → ∃ d, st.dist v = some d ∧ d ≤ x := by
    intro v x hw
    induction hw with
    | nil => exact ⟨0, h.src, le_rfl⟩
    | @snoc x v u _ hr ih =>
      obtain ⟨d, hd, hle⟩ := ih
      rcases hc v d hd (by rw [hq]; simp) u hr with h2 | ⟨b, hb, hb'⟩
      · exact h2.elim
      · exact ⟨b, hb, by omega⟩
  refine ⟨h1 v, ?_⟩
  intro d hd
  obtain ⟨p, hp⟩ := h.anc v ((h.lab v).1 ⟨d, hd⟩)
  obtain ⟨l, hl⟩ := hp.pre fun v => (h.root v).1
  obtain ⟨b, hb, hle, hch, hlast⟩ := h.chain_cost hl hd
  rw [h.src] at hb
  cases hb
  have hwk := walk_of_chain (w := w) (u := s) hch rfl hlast
  obtain ⟨d', hd', hle'⟩ := h1 v _ hwk
  rw [hd] at hd'
  cases hd'
  have heq : pathCost w (s :: l.reverse) = d := by omega
  exact ⟨s :: l.reverse, ⟨by simp, hlast, hch⟩, heq, heq ▸ hwk, hl.chain.1⟩

/-- a bound for the number of turns of the while loop, from the number of nodes -/
def turns (n : Nat) : Nat := n * n + 2

/-- under Python 3 each part does the same as under Python 2, or raises TypeError -/
theorem relax_py3 (g : Graph N) (fuel : Nat) (i j : N) (st : LState N) :
    relax g py3 fuel i st j = relax g py2 fuel i st j ∨ relax g py3 fuel i st j = .error .typeError := by
  unfold relax
  cases g.getEdgeCost i j with
  | error e => exact .inl rfl
  | ok c =>
    cases st.dist i with
    | none => exact .inl rfl
    | some d =>
      cases st.dist j with
      | none => exact .inr rfl
      | some dj => exact .inl rfl

theorem scan_py3 (g : Graph N) (fuel : Nat) (i : N) (l : List N) : ∀ st : LState N,
    scan g py3 fuel i l st = scan g py2 fuel i l st ∨ scan g py3 fuel i l st = .error .typeError := by
  induction l with
  | nil => intro st; exact .inl rfl
  | cons j l ih =>
    intro st
    rw [scan, scan]
    rcases relax_py3 g fuel i j st with h | h
    · rw [h]
      rcases relax g py2 fuel i st j with e | st' | c
      · exact .inl rfl
      · exact ih st'
      · exact .inl rfl
    · rw [h]; exact .inr rfl

theorem loop_py3 (g : Graph N) (fuel : Nat) (f : Nat) : ∀ st : LState N,
    loop g py3 fuel f st = loop g py2 fuel f st ∨ loop g py3 fuel f st = .error .typeError := by
  induction f with
  | zero => intro st; exact .inl rfl
  | succ f ih =>
    intro st
    rw [loop, loop]
    cases st.q with
    | nil => exact .inl rfl
    | cons i q =>
      simp only
      cases Search.nbrs g false i with
      | error e => exact .inl rfl
      | ok l =>
        simp only
        rcases scan_py3 g fuel i l ⟨st.dist, st.pred, q⟩ with h | h
        · rw [h]
          rcases scan g py2 fuel i l ⟨st.dist, st.pred, q⟩ with e | st' | c
          · exact .inl rfl
          · exact ih st'
          · exact .inl rfl
        · rw [h]; exact .inr rfl

end LC

open LC
variable {N : Type} [DecidableEq N]

/-- what `fifo_label_correcting` should return: `(True, pred)`, where the labels are the least costs of walks, 'inf' for
nodes that are not reachable, and the links of `pred` give a path of that cost; or `(False, c)` with a cycle `c` of negative
cost -/
def FifoOk (g : Graph N) (w : N → N → Int) (s : N) : LState N ⊕ List N → Prop
  | .inl st => ∀ v, match st.dist v with
    | none => ¬ Reach g false s v
    | some d => IsLeastCost (Step g false) w s v d ∧ ∃ l, IsPath (Step g false) s v l ∧ pathCost w l = d ∧
        l.IsChain fun a b => st.pred.get? b = some (some a)
  | .inr c => IsCycle (Step g false) c ∧ cycleCost w c < 0

/-- the while loop, with a number of turns that does not depend on the costs -/
theorem LC.loop_start {g : Graph N} (hg : Built g) {w : N → N → Int}
    (hw : ∀ u v, g.checkEdge u v = true → g.getEdgeCost u v = .ok (w u v)) {s : N} (hs : s ∈ g.getNodeList) {fuel f : Nat}
    (hfu : g.getNodeList.length + 1 < fuel) (hf : g.getNodeList.length * (g.getNodeList.length - 1) + 1 < f) :
    ∃ r, loop g py2 fuel f (start s) = .ok r ∧ FifoOk g w s r := by
  have hwf := hg.wf
  have hlen : 1 ≤ g.getNodeList.length := List.length_pos_of_mem hs
  have hres := loop_ok (R := Step g false) (w := w) (s := s) (fuel := fuel) (g := g) rfl
    (fun u hu => Search.nbrs_ok hwf false hu)
    (fun u v h => (Search.step_node hwf h).2) (fun u v h => hw u v h) hfu f (st := start s)
    (inv_start hs) (by
      intro u a hu hq v _
      by_cases hus : u = s
      · subst hus; simp [start] at hq
      · simp [start, hus] at hu) (k := 1) (A := [s]) (B := []) (lu := fun _ => 0)
    ⟨rfl, rfl, fun _ _ _ => by omega, fun _ => by omega, fun _ _ => by omega, by simp⟩ hlen (by
      rw [Nat.mul_comm, List.length_singleton]
      exact hf)
  rcases hres with ⟨c, h1, h2, h3⟩ | ⟨st, h1, h2, h3, h4⟩
  · exact ⟨_, h1, h2, h3⟩
  · refine ⟨_, h1, fun v => ?_⟩
    have hfin := final h2 h3 h4 v
    split
    · next hd =>
      intro hr
      have : ∃ x, WalkCost (Step g false) w s x v := by
        clear hfin hd
        induction hr with
        | refl => exact ⟨0, .nil⟩
        | tail _ hab ih => obtain ⟨x, hx⟩ := ih; exact ⟨_, hx.snoc hab⟩
      obtain ⟨x, hx⟩ := this
      obtain ⟨d, hd', _⟩ := hfin.1 x hx
      rw [hd] at hd'
      cases hd'
    · next d hd =>
      obtain ⟨l, hl, hc, hwk, hch⟩ := hfin.2 d hd
      refine ⟨⟨hwk, fun x hx => ?_⟩, l, hl, hc, hch⟩
      obtain ⟨d', hd', hle⟩ := hfin.1 x hx
      rw [hd] at hd'
      cases hd'
      exact hle

/-- **C39 (partial).** With integer costs and a source in the graph, `fifo_label_correcting` returns what it should if
'inf' is greater than every number, as it was in Python 2; at most n² turns of the while loop are needed for n nodes, whatever
the costs.
Missing from the full claim: under Python 3 the comparison raises, see `C39_false`; `C39_python3_partial` says what is left. -/
theorem C39_fifo_partial {g : Graph N} (hg : Built g) {w : N → N → Int}
    (hw : ∀ u v, g.checkEdge u v = true → g.getEdgeCost u v = .ok (w u v)) {s : N} (hs : s ∈ g.getNodeList) {fuel : Nat}
    (hf : turns g.getNodeList.length ≤ fuel) :
    ∃ r, fifo g py2 s fuel = .ok r ∧ FifoOk g w s r := by
  have hhas : g.hasNode s = true := by unfold Graph.hasNode; rw [Dict.contains_iff, hg.wf.nodesEq]; exact hs
  have hn2 : g.getNodeList.length ≤ g.getNodeList.length * g.getNodeList.length := Nat.le_mul_self _
  unfold turns at hf
  unfold fifo
  rw [if_pos hhas]
  have hlen : 1 ≤ g.getNodeList.length := List.length_pos_of_mem hs
  exact loop_start hg hw hs (by omega) (by rw [Nat.mul_sub]; omega)

/-- **C39 (partial), Python 3.** `fifo_label_correcting` raises TypeError or returns what it should. -/
theorem C39_python3_partial {g : Graph N} (hg : Built g) {w : N → N → Int}
    (hw : ∀ u v, g.checkEdge u v = true → g.getEdgeCost u v = .ok (w u v)) {s : N} (hs : s ∈ g.getNodeList) {fuel : Nat}
    (hf : turns g.getNodeList.length ≤ fuel) :
    fifo g py3 s fuel = .error .typeError ∨ ∃ r, fifo g py3 s fuel = .ok r ∧ FifoOk g w s r := by
  obtain ⟨r, h1, h2⟩ := C39_fifo_partial hg hw hs hf
  unfold fifo at h1 ⊢
  split at h1
  · next hh =>
    rw [if_pos hh]
    rcases loop_py3 g fuel fuel (start s) with h | h
    · rw [h]; exact .inr ⟨r, h1, h2⟩
    · exact .inl h
  · cases h1

/-- **C115.** `fifo_label_correcting` takes at most n(n-1)+1 nodes out of its queue, n being the number of nodes, whatever the
costs and whether or not there is a negative cycle; the loops that follow the predecessors need at most n+2 turns each.  So it
returns what it should, or raises TypeError at a comparison with 'inf' under Python 3. -/
theorem C115_label_correcting_turns {g : Graph N} (hg : Built g) {w : N → N → Int}
    (hw : ∀ u v, g.checkEdge u v = true → g.getEdgeCost u v = .ok (w u v)) {s : N} (hs : s ∈ g.getNodeList) :
    (∃ r, loop g py2 (g.getNodeList.length + 2) (g.getNodeList.length * (g.getNodeList.length - 1) + 2) (start s) = .ok r ∧
      FifoOk g w s r) ∧
    loop g py3 (g.getNodeList.length + 2) (g.getNodeList.length * (g.getNodeList.length - 1) + 2) (start s) ≠
      .error .diverge := by
  have h := loop_start hg hw hs (fuel := g.getNodeList.length + 2)
    (f := g.getNodeList.length * (g.getNodeList.length - 1) + 2) (by omega) (by omega)
  refine ⟨h, ?_⟩
  obtain ⟨r, h1, _⟩ := h
  rcases loop_py3 g (g.getNodeList.length + 2) (g.getNodeList.length * (g.getNodeList.length - 1) + 2) (start s) with h2 | h2
  · rw [h2, h1]; simp
  · rw [h2]; simp

/-- **C39 is false under Python 3**: on every graph with integer costs where an arc leaves the source to another node, and
there is no self loop of negative cost at the source, the call raises TypeError. -/
theorem C39_false {g : Graph N} (hg : Built g) {w : N → N → Int}
    (hw : ∀ u v, g.checkEdge u v = true → g.getEdgeCost u v = .ok (w u v)) {s v : N} (hv : g.checkEdge s v = true)
    (hne : v ≠ s) (hloop : g.checkEdge s s = true → 0 ≤ w s s) (fuel : Nat) : fifo g py3 s (fuel + 1) = .error .typeError := by
  have hwf := hg.wf
  have hs := (Search.step_node (rev := false) hwf (show Step g false s v from hv)).1
  have hhas : g.hasNode s = true := by unfold Graph.hasNode; rw [Dict.contains_iff, hwf.nodesEq]; exact hs
  obtain ⟨l, hl, hml⟩ := Search.nbrs_ok hwf false hs
  have hscan : ∀ m : List N, (∀ x ∈ m, g.checkEdge s x = true) → v ∈ m →
      scan g py3 (fuel + 1) s m ⟨(start s).dist, (start s).pred, []⟩ = .error .typeError := by
    intro m
    induction m with
    | nil => intro _ h; cases h
    | cons j m ih =>
      intro hm hvm
      have hj := hm j (by simp)
      rw [scan]
      by_cases hjs : j = s
      · subst hjs
        have : relax g py3 (fuel + 1) j ⟨(start j).dist, (start j).pred, []⟩ j =
            .ok (.inl ⟨(start j).dist, (start j).pred, []⟩) := by
          unfold relax
          rw [hw _ _ hj]
          have h0 := hloop hj
          have hd : (start j).dist j = some 0 := by simp [start]
          simp only [hd, longer]
          rw [decide_eq_false (by omega)]
        rw [this]
        exact ih (fun x hx => hm x (by simp [hx])) ((List.mem_cons.1 hvm).resolve_left hne)
      · have : relax g py3 (fuel + 1) s ⟨(start s).dist, (start s).pred, []⟩ j = .error .typeError := by
          unfold relax
          rw [hw _ _ hj]
          have hd : (start s).dist s = some 0 := by simp [start]
          have hd' : (start s).dist j = none := by simp [start, hjs]
          simp only [hd, hd', longer, py3]
        rw [this]
  unfold fifo
  rw [if_pos hhas, loop]
  have hq : (start s).q = [s] := rfl
  rw [hq]
  simp only [hl]
  rw [hscan l (fun x hx => (hml x).1 hx) ((hml v).2 hv)]

/-- a digraph with a shorter path over two arcs -/
def exLC : Graph Nat := runOps (.init true) [.addEdge 1 2 [("cost", .int 5)], .addEdge 1 3 [("cost", .int 4)],
  .addEdge 3 2 [("cost", .int (-2))], .addEdge 2 4 [("cost", .int 1)], .addNode 9 []]

/-- the same with a negative cycle -/
def exLC' : Graph Nat := runOps exLC [.addEdge 4 3 [("cost", .int 0)]]

/-- labels and cycle of a result -/
def lcOut (V : List Nat) : Except PyErr (LState Nat ⊕ List Nat) → Option (List (Option Int) ⊕ List Nat)
  | .ok (.inl st) => some (.inl (V.map st.dist))
  | .ok (.inr c) => some (.inr c)
  | .error _ => none

/-- non-vacuity of C39: shortest paths, a negative cycle, and the exception of Python 3 -/
example : Built exLC ∧ (∀ e ∈ exLC.getEdgeList, ∃ c, exLC.getEdgeCost e.1 e.2 = .ok c ∧ c.natAbs ≤ 5) ∧
    lcOut [1, 2, 3, 4, 9] (fifo exLC py2 1 20) = some (.inl [some 0, some 2, some 4, some 3, none]) ∧
    lcOut [] (fifo exLC' py2 1 40) = some (.inr [2, 4, 3]) ∧
    lcOut [] (fifo exLC py3 1 20) = none ∧ exLC.checkEdge 1 2 = true ∧ exLC.checkEdge 1 1 = false := by
  refine ⟨⟨true, _, by intro op _; cases op <;> simp [Op.InScope], rfl⟩, ?_, by decide +kernel, by decide +kernel,
    by decide +kernel, by decide +kernel, by decide +kernel⟩
  intro e he
  have h : ∀ e ∈ exLC.getEdgeList, (match exLC.getEdgeCost e.1 e.2 with
    | .ok c => decide (c.natAbs ≤ 5)
    | .error _ => false) = true := by decide +kernel
  have := h e he
  split at this
  · next c hc => exact ⟨c, hc, by simpa using this⟩
  · cases this

/-- a chain of costs for which the labels of late nodes are corrected again and again, with large costs, and a negative cycle
at its end in the second graph -/
def exLate (back : Int) : Graph Nat := runOps (.init true) [.addEdge 1 4 [("cost", .int 9000000)],
  .addEdge 1 3 [("cost", .int 5000000)], .addEdge 1 2 [("cost", .int 1)], .addEdge 2 3 [("cost", .int 1000000)],
  .addEdge 3 4 [("cost", .int (-3000000))], .addEdge 4 2 [("cost", .int back)]]

/-- non-vacuity of C115: 4 nodes, so 14 turns are enough; 6 turns are not enough here -/
example : Built (exLate 5000000) ∧ (exLate 5000000).getNodeList.length = 4 ∧
    lcOut [1, 2, 3, 4] (loop (exLate 5000000) py2 6 14 (start 1)) =
      some (.inl [some 0, some 1, some 1000001, some (-1999999)]) ∧
    lcOut [] (loop (exLate 1000000) py2 6 14 (start 1)) = some (.inr [3, 4, 2]) ∧
    lcOut [] (loop (exLate 5000000) py2 6 6 (start 1)) = none :=
  ⟨⟨true, _, by intro op _; cases op <;> simp [Op.InScope], rfl⟩, by decide +kernel, by decide +kernel, by decide +kernel,
    by decide +kernel⟩

end GiMPy
