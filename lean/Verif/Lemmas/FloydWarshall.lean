import Verif.Model.FloydWarshall
import Verif.Spec.Walk
import Verif.Lemmas.SearchPQ
import Mathlib.Tactic.Ring
import Mathlib.Tactic.Linarith

/-! # Correctness of Floyd-Warshall -/

namespace GiMPy
namespace FW
variable {N : Type} [DecidableEq N] {R : N → N → Prop} {w : N → N → Int}
set_option linter.unusedSectionVars false

theorem walk_trans {u v : N} {x : Int} (h : WalkCost R w u x v) {z : N} {y : Int} (h' : WalkCost R w v y z) :
    WalkCost R w u (x + y) z := by
  induction h' with
  | nil => simpa using h
  | snoc _ hr ih => rw [← Int.add_assoc]; exact ih.snoc hr

theorem walk_arc {u v : N} (h : R u v) : WalkCost R w u (w u v) v := by
  have := (WalkCost.nil : WalkCost R w u 0 u).snoc h
  rwa [Int.zero_add] at this

/-- a walk with at least one arc, all inner nodes in `K`, of the given cost -/
inductive Via (R : N → N → Prop) (w : N → N → Int) (K : N → Prop) (i : N) : Int → N → Prop
  | arc {j} : R i j → Via R w K i (w i j) j
  | snoc {x v j} : Via R w K i x v → K v → R v j → Via R w K i (x + w v j) j

theorem Via.walk {K : N → Prop} {i j : N} {x : Int} (h : Via R w K i x j) : WalkCost R w i x j := by
  induction h with
  | arc h => exact walk_arc h
  | snoc _ _ hr ih => exact ih.snoc hr

theorem Via.of_walk {K : N → Prop} (hK : ∀ u v, R u v → K u) {i j : N} {x : Int} (h : WalkCost R w i x j) :
    (i = j ∧ x = 0) ∨ Via R w K i x j := by
  induction h with
  | nil => exact .inl ⟨rfl, rfl⟩
  | @snoc x v j _ hr ih =>
    rcases ih with ⟨rfl, rfl⟩ | ih
    · rw [Int.zero_add]; exact .inr (.arc hr)
    · exact .inr (ih.snoc (hK _ _ hr) hr)

theorem Via.mono {K K' : N → Prop} (hK : ∀ v, K v → K' v) {i j : N} {x : Int} (h : Via R w K i x j) : Via R w K' i x j := by
  induction h with
  | arc h => exact .arc h
  | snoc _ hv hr ih => exact ih.snoc (hK _ hv) hr

theorem Via.src {K K' : N → Prop} (hK : ∀ u v, R u v → K' u) {i j : N} {x : Int} (h : Via R w K i x j) :
    Via R w K' i x j := by
  induction h with
  | arc h => exact .arc h
  | snoc _ _ hr ih => exact ih.snoc (hK _ _ hr) hr

/-- splitting a walk at one extra inner node `k`; `s` is the cost of the closed walks at `k` in between -/
theorem Via.split {K : N → Prop} {k : N} {P : Int → Prop} (h0 : P 0)
    (hadd : ∀ s z, P s → Via R w K k z k → P (s + z)) {i j : N} {x : Int} (h : Via R w (fun v => K v ∨ v = k) i x j) :
    Via R w K i x j ∨ ∃ y s z, Via R w K i y k ∧ P s ∧ Via R w K k z j ∧ x = y + s + z := by
  induction h with
  | arc h => exact .inl (.arc h)
  | @snoc x v j _ hv hr ih =>
    rcases hv with hv | hv
    · rcases ih with ih | ⟨y, s, z, h1, h2, h3, h4⟩
      · exact .inl (ih.snoc hv hr)
      · exact .inr ⟨y, s, z + w v j, h1, h2, h3.snoc hv hr, by rw [h4]; ring⟩
    · subst hv
      rcases ih with ih | ⟨y, s, z, h1, h2, h3, h4⟩
      · exact .inr ⟨x, 0, w v j, ih, h0, .arc hr, by ring⟩
      · exact .inr ⟨y, s + z, w v j, h1, hadd _ _ h2 h3, .arc hr, by rw [h4]; ring⟩

/-- distances have only gone down -/
def Le (d d' : N × N → Option Int) : Prop := ∀ p x, d p = some x → ∃ y, y ≤ x ∧ d' p = some y

theorem Le.refl (d : N × N → Option Int) : Le d d := fun _ x h => ⟨x, Int.le_refl _, h⟩

theorem Le.trans {d d' d'' : N × N → Option Int} (h : Le d d') (h' : Le d' d'') : Le d d'' := by
  intro p x hx
  obtain ⟨y, h1, h2⟩ := h p x hx
  obtain ⟨z, h3, h4⟩ := h' p y h2
  exact ⟨z, by omega, h4⟩

/-- the possible effects of one step of the loops -/
theorem relax_cases (k i : N) (st : FState N) (j : N) :
    (relax k i st j = st ∧ ∀ a b, st.dist (i, k) = some a → st.dist (k, j) = some b →
        ∃ c, c ≤ a + b ∧ st.dist (i, j) = some c) ∨
    ∃ a b, st.dist (i, k) = some a ∧ st.dist (k, j) = some b ∧ relax k i st j = assign st k i j (a + b) ∧
      ∀ c, st.dist (i, j) = some c → a + b < c := by
  unfold relax
  rcases h1 : st.dist (i, k) with _ | a
  · left; simp
  rcases h2 : st.dist (k, j) with _ | b
  · left; simp
  rcases h3 : st.dist (i, j) with _ | c
  · right; exact ⟨a, b, rfl, rfl, rfl, by simp⟩
  · by_cases h : c > a + b
    · right; refine ⟨a, b, rfl, rfl, by simp [h], ?_⟩; rintro _ ⟨⟩; exact h
    · left; refine ⟨by simp [h], ?_⟩; rintro a b ⟨⟩ ⟨⟩; exact ⟨c, by omega, rfl⟩

theorem relax_le (k i : N) (st : FState N) (j : N) : Le st.dist (relax k i st j).dist := by
  rcases relax_cases k i st j with ⟨h, _⟩ | ⟨a, b, _, _, h, hc⟩
  · rw [h]; exact .refl _
  · rw [h]
    intro p x hx
    by_cases hp : p = (i, j)
    · subst hp; exact ⟨a + b, by have := hc x hx; omega, by simp [assign, upd]⟩
    · exact ⟨x, Int.le_refl _, by simp [assign, upd, hp, hx]⟩

theorem foldl_le {A : Type} {f : FState N → A → FState N} (hf : ∀ st a, Le st.dist (f st a).dist) (l : List A)
    (st : FState N) : Le st.dist (l.foldl f st).dist := by
  induction l generalizing st with
  | nil => exact .refl _
  | cons a l ih => exact (hf st a).trans (ih _)

theorem foldl_at {A : Type} {f : FState N → A → FState N} (hf : ∀ st a, Le st.dist (f st a).dist) {l : List A} {a : A}
    (ha : a ∈ l) (st : FState N) : ∃ st', Le st.dist st'.dist ∧ Le (f st' a).dist (l.foldl f st).dist := by
  induction l generalizing st with
  | nil => cases ha
  | cons b l ih =>
    rcases List.mem_cons.1 ha with rfl | ha
    · exact ⟨st, .refl _, foldl_le hf l _⟩
    · obtain ⟨st', h1, h2⟩ := ih ha (f st b)
      exact ⟨st', (hf st b).trans h1, h2⟩

theorem row_le (nl : List N) (k : N) (st : FState N) (i : N) : Le st.dist (row nl k st i).dist :=
  foldl_le (relax_le k i) nl st

theorem phase_le (nl : List N) (st : FState N) (k : N) : Le st.dist (phase nl st k).dist :=
  foldl_le (row_le nl k) nl st

/-- after the phase of `k` every pair has been compared with the way over `k` -/
theorem phase_relaxed {nl : List N} {st : FState N} {k i j : N} (hi : i ∈ nl) (hj : j ∈ nl) {a b : Int}
    (ha : st.dist (i, k) = some a) (hb : st.dist (k, j) = some b) :
    ∃ c, c ≤ a + b ∧ (phase nl st k).dist (i, j) = some c := by
  obtain ⟨s1, h1, h2⟩ := foldl_at (row_le nl k) hi st
  obtain ⟨s2, h3, h4⟩ := foldl_at (relax_le k i) hj s1
  obtain ⟨a', ha1, ha2⟩ := (h1.trans h3) _ _ ha
  obtain ⟨b', hb1, hb2⟩ := (h1.trans h3) _ _ hb
  have : ∃ c, c ≤ a' + b' ∧ (relax k i s2 j).dist (i, j) = some c := by
    rcases relax_cases k i s2 j with ⟨h, h'⟩ | ⟨x, y, hx, hy, h, _⟩
    · rw [h]; exact h' _ _ ha2 hb2
    · rw [h]
      have e1 : x = a' := by rw [hx] at ha2; exact Option.some.inj ha2
      have e2 : y = b' := by rw [hy] at hb2; exact Option.some.inj hb2
      exact ⟨a' + b', Int.le_refl _, by simp [assign, upd, e1, e2]⟩
  obtain ⟨c, hc1, hc2⟩ := this
  obtain ⟨c', hc3, hc4⟩ := (h4.trans h2) _ _ hc2
  exact ⟨c', by omega, hc4⟩

/-- what holds of the two dictionaries at all times -/
structure Sound (R : N → N → Prop) (w : N → N → Int) (d0 : N × N → Option Int) (st : FState N) : Prop where
  walk : ∀ i j x, st.dist (i, j) = some x → WalkCost R w i x j
  next : ∀ i j k, st.next (i, j) = some k → ∃ y, WalkCost R w i y k ∧ R k j ∧ st.dist (i, j) = some (y + w k j)
  has : (∀ v, R v v → 0 ≤ w v v) → ∀ i j x, st.dist (i, j) = some x → i ≠ j ∨ x < 0 → ∃ k, st.next (i, j) = some k
  low : Le d0 st.dist
  first : ∀ i j, st.next (i, j) = next0 d0 (i, j) ∨ ∀ c, d0 (i, j) = some c → ∃ x, st.dist (i, j) = some x ∧ x < c

theorem Sound.relax {d0 : N × N → Option Int} {st : FState N} (h : Sound R w d0 st) (k i j : N) :
    Sound R w d0 (relax k i st j) := by
  rcases relax_cases k i st j with ⟨h', _⟩ | ⟨a, b, ha, hb, h', hc⟩
  · rw [h']; exact h
  rw [h']
  constructor
  · intro u v x hx
    by_cases hp : (u, v) = (i, j)
    · obtain ⟨rfl, rfl⟩ := Prod.mk.inj hp
      simp only [assign, upd, if_pos, Option.some.injEq] at hx
      subst hx
      exact walk_trans (h.walk _ _ _ ha) (h.walk _ _ _ hb)
    · simp only [assign, upd, if_neg hp] at hx
      exact h.walk _ _ _ hx
  · intro u v m hm
    by_cases hp : (u, v) = (i, j)
    · obtain ⟨rfl, rfl⟩ := Prod.mk.inj hp
      simp only [assign, upd, if_pos] at hm
      obtain ⟨y, h1, h2, h3⟩ := h.next _ _ _ hm
      refine ⟨a + y, walk_trans (h.walk _ _ _ ha) h1, h2, ?_⟩
      rw [hb] at h3
      simp only [assign, upd, if_pos, Option.some.injEq] at h3 ⊢
      omega
    · simp only [assign, upd, if_neg hp] at hm ⊢
      exact h.next _ _ _ hm
  · intro hnn u v x hx hne
    by_cases hp : (u, v) = (i, j)
    · obtain ⟨rfl, rfl⟩ := Prod.mk.inj hp
      simp only [assign, upd, if_pos]
      refine h.has hnn _ _ b hb ?_
      by_cases hk : k = v
      · subst hk
        have := hc a ha
        right; omega
      · exact .inl hk
    · simp only [assign, upd, if_neg hp] at hx ⊢
      exact h.has hnn _ _ _ hx hne
  · rw [← h']; exact h.low.trans (relax_le _ _ _ _)
  · intro u v
    by_cases hp : (u, v) = (i, j)
    · obtain ⟨rfl, rfl⟩ := Prod.mk.inj hp
      right
      intro c hcc
      obtain ⟨x, h1, h2⟩ := h.low _ _ hcc
      have := hc x h2
      exact ⟨a + b, by simp [assign, upd], by omega⟩
    · simp only [assign, upd, if_neg hp]
      exact h.first u v

theorem Sound.foldl {d0 : N × N → Option Int} {A : Type} {f : FState N → A → FState N}
    (hf : ∀ st a, Sound R w d0 st → Sound R w d0 (f st a)) (l : List A) {st : FState N} (h : Sound R w d0 st) :
    Sound R w d0 (l.foldl f st) := by
  induction l generalizing st with
  | nil => exact h
  | cons a l ih => exact ih (hf st a h)

theorem Sound.run {d0 : N × N → Option Int} (nl l : List N) {st : FState N} (h : Sound R w d0 st) :
    Sound R w d0 (l.foldl (phase nl) st) :=
  Sound.foldl (fun _ k h => Sound.foldl (fun _ i h => Sound.foldl (fun _ j h => h.relax k i j) nl h) nl h) l h

/-- every walk through `K` has been considered; when `c` holds the distance is at most its cost -/
def Covers (R : N → N → Prop) (w : N → N → Int) (c : Prop) (K : N → Prop) (st : FState N) : Prop :=
  ∀ i j x, Via R w K i x j → ∃ y, (c → y ≤ x) ∧ st.dist (i, j) = some y

theorem Covers.phase {c : Prop} {nl : List N} (hR : ∀ u v, R u v → u ∈ nl ∧ v ∈ nl) {K : N → Prop} {st : FState N} {k : N}
    (h : Covers R w c K st) (hk : c → ∀ x, st.dist (k, k) = some x → 0 ≤ x) :
    Covers R w c (fun v => K v ∨ v = k) (phase nl st k) := by
  intro i j x hx
  have hin : ∀ {K i x j}, Via R w K i x j → i ∈ nl ∧ j ∈ nl := by
    intro K i x j h
    induction h with
    | arc h => exact hR _ _ h
    | snoc _ _ hr ih => exact ⟨ih.1, (hR _ _ hr).2⟩
  rcases hx.split (P := fun s => c → 0 ≤ s) (fun _ => Int.le_refl _) (by
      intro s z hs hz hc
      obtain ⟨y, h1, h2⟩ := h _ _ _ hz
      have := hk hc _ h2
      have := h1 hc
      have := hs hc
      omega) with h1 | ⟨y, s, z, h1, h2, h3, h4⟩
  · obtain ⟨y, hy, hd⟩ := h _ _ _ h1
    obtain ⟨y', h2, h3⟩ := phase_le nl st k _ _ hd
    exact ⟨y', fun hc => by have := hy hc; omega, h3⟩
  · obtain ⟨a, ha, hda⟩ := h _ _ _ h1
    obtain ⟨b, hb, hdb⟩ := h _ _ _ h3
    obtain ⟨e, he, hde⟩ := phase_relaxed (hin h1).1 (hin h3).2 hda hdb
    refine ⟨e, fun hc => ?_, hde⟩
    have := ha hc
    have := hb hc
    have := h2 hc
    omega

theorem Covers.run {c : Prop} {nl : List N} (hR : ∀ u v, R u v → u ∈ nl ∧ v ∈ nl) {l : List N} {K : N → Prop}
    {st : FState N} (h : Covers R w c K st)
    (hk : c → ∀ v ∈ l, ∀ x, (l.foldl (FW.phase nl) st).dist (v, v) = some x → 0 ≤ x) :
    Covers R w c (fun v => K v ∨ v ∈ l) (l.foldl (FW.phase nl) st) := by
  induction l generalizing K st with
  | nil => simpa using h
  | cons k l ih =>
    have h' := ih (Covers.phase hR (k := k) h fun hc x hx => by
      obtain ⟨y, h1, h2⟩ := foldl_le (phase_le nl) (k :: l) st _ _ hx
      have := hk hc k (by simp) _ h2
      omega) fun hc v hv => hk hc v (by simp [hv])
    intro i j x hx
    exact h' i j x (hx.mono fun v hv => by
      rcases hv with hv | hv
      · exact .inl (.inl hv)
      · rcases List.mem_cons.1 hv with rfl | hv
        · exact .inl (.inr rfl)
        · exact .inr hv)

/-- the distances of the arcs -/
theorem arcs_ok {g : Graph N} (l : List (N × N)) (d : N × N → Option Int)
    (hw : ∀ e ∈ l, g.getEdgeCost e.1 e.2 = .ok (w e.1 e.2)) :
    arcs g l d = .ok fun e => if e ∈ l then some (w e.1 e.2) else d e := by
  induction l generalizing d with
  | nil => simp [arcs]
  | cons e l ih =>
    unfold arcs
    rw [hw e (by simp)]
    simp only []
    rw [ih _ fun e he => hw e (by simp [he])]
    congr 1
    funext p
    by_cases h : p ∈ l
    · simp [h]
    · by_cases h' : p = e
      · subst h'; simp [h, upd]
      · simp [h, h', upd]

theorem check_iff (d : N × N → Option Int) (l : List N) (h : ∀ i ∈ l, ∃ x, d (i, i) = some x) :
    ∃ b, check d l = .ok b ∧ (b = true ↔ ∀ i ∈ l, ∀ x, d (i, i) = some x → 0 ≤ x) := by
  induction l with
  | nil => exact ⟨true, rfl, by simp⟩
  | cons i l ih =>
    obtain ⟨x, hx⟩ := h i (by simp)
    unfold check
    rw [hx]
    simp only []
    by_cases hlt : x < 0
    · refine ⟨false, by simp [hlt], ?_⟩
      constructor
      · intro hf; cases hf
      · intro hf; have := hf i (by simp) x hx; omega
    · rw [if_neg hlt]
      obtain ⟨b, h1, h2⟩ := ih fun i hi => h i (by simp [hi])
      refine ⟨b, h1, h2.trans ?_⟩
      constructor
      · intro hf j hj
        rcases List.mem_cons.1 hj with rfl | hj
        · intro y hy; rw [hx] at hy; cases hy; omega
        · exact hf j hj
      · intro hf j hj; exact hf j (by simp [hj])

/-- the initial dictionaries -/
theorem sound_init {E : List (N × N)} (d : N × N → Option Int)
    (hd : d = fun e => if e ∈ E then some (w e.1 e.2) else dist0 e) :
    Sound (fun u v => (u, v) ∈ E) w d ⟨d, next0 d⟩ where
  walk i j x hx := by
    subst hd
    simp only [dist0] at hx
    by_cases h : (i, j) ∈ E
    · rw [if_pos h] at hx; cases hx; exact walk_arc h
    · rw [if_neg h] at hx
      by_cases hij : i = j
      · rw [if_pos hij] at hx; cases hx; subst hij; exact .nil
      · rw [if_neg hij] at hx; cases hx
  next i j k hk := by
    simp only [next0] at hk
    by_cases hij : i = j ∨ d (i, j) = none
    · rw [if_pos hij] at hk; cases hk
    · rw [if_neg hij] at hk; cases hk
      rw [not_or] at hij
      refine ⟨0, .nil, ?_⟩
      subst hd
      by_cases h : (i, j) ∈ E
      · exact ⟨h, by simp [h]⟩
      · exact absurd (by simp [h, dist0, hij.1]) hij.2
  has hneg i j x hx hne := by
    replace hx : d (i, j) = some x := hx
    by_cases hij : i = j
    · rcases hne with hne | hne
      · exact absurd hij hne
      · subst hij hd
        exfalso
        by_cases h : (i, i) ∈ E
        · simp [h] at hx; have := hneg _ h; omega
        · simp [h, dist0] at hx; omega
    · exact ⟨i, by simp [next0, hij, hx]⟩
  low := .refl _
  first i j := .inl rfl

/-- all the facts about the result of `floyd_warshall` that the property theorems use -/
theorem floydWarshall_ok {g : Graph N} (hE : ∀ u v, (u, v) ∈ g.getEdgeList → u ∈ g.getNodeList ∧ v ∈ g.getNodeList)
    (hw : ∀ e ∈ g.getEdgeList, g.getEdgeCost e.1 e.2 = .ok (w e.1 e.2)) :
    ∃ b st, floydWarshall g = .ok (b, st) ∧
      (∀ i j x, st.dist (i, j) = some x → WalkCost (fun u v => (u, v) ∈ g.getEdgeList) w i x j) ∧
      (∀ i, ∃ x, st.dist (i, i) = some x ∧ ((i, i) ∉ g.getEdgeList → x ≤ 0)) ∧
      (b = true ↔ ∀ i ∈ g.getNodeList, ∀ x, st.dist (i, i) = some x → 0 ≤ x) ∧
      (Covers (fun u v => (u, v) ∈ g.getEdgeList) w (b = true) (fun _ => True) st) ∧
      Sound (fun u v => (u, v) ∈ g.getEdgeList) w
        (fun e => if e ∈ g.getEdgeList then some (w e.1 e.2) else dist0 e) st := by
  unfold floydWarshall
  rw [arcs_ok g.getEdgeList dist0 hw]
  simp only []
  generalize hd : (fun e => if e ∈ g.getEdgeList then some (w e.1 e.2) else dist0 e) = d
  have hs : Sound (fun u v => (u, v) ∈ g.getEdgeList) w d
      (g.getNodeList.foldl (phase g.getNodeList) ⟨d, next0 d⟩) := Sound.run _ _ (sound_init d hd.symm)
  have hcov : ∀ c, Covers (fun u v => (u, v) ∈ g.getEdgeList) w c (fun _ => False) ⟨d, next0 d⟩ := by
    intro c i j x hx
    cases hx with
    | arc h => exact ⟨w i j, fun _ => Int.le_refl _, by subst hd; simp [h]⟩
    | snoc _ h _ => exact h.elim
  generalize hst : g.getNodeList.foldl (phase g.getNodeList) ⟨d, next0 d⟩ = st at hs
  have hdiag : ∀ i, ∃ x, st.dist (i, i) = some x ∧ ((i, i) ∉ g.getEdgeList → x ≤ 0) := by
    intro i
    by_cases h : (i, i) ∈ g.getEdgeList
    · obtain ⟨y, _, h2⟩ := hs.low (i, i) (w i i) (by subst hd; simp [h])
      exact ⟨y, h2, fun h' => absurd h h'⟩
    · obtain ⟨y, h1, h2⟩ := hs.low (i, i) 0 (by subst hd; simp [h, dist0])
      exact ⟨y, h2, fun _ => h1⟩
  obtain ⟨b, hb1, hb2⟩ := check_iff st.dist g.getNodeList fun i _ => by
    obtain ⟨x, hx, _⟩ := hdiag i; exact ⟨x, hx⟩
  rw [hb1]
  refine ⟨b, st, rfl, hs.walk, hdiag, hb2, ?_, hs⟩
  have := Covers.run (c := b = true) hE (l := g.getNodeList) (hcov _) (by rw [hst]; exact fun hb => hb2.1 hb)
  rw [hst] at this
  intro i j x hx
  exact this i j x (hx.src fun u v h => .inr (hE _ _ h).1)

end FW
end GiMPy
