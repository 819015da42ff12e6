import Verif.Lemmas.SpanTree

/-! # Forests: edge lists in which every edge is a bridge -/

namespace GiMPy
variable {N : Type} [DecidableEq N]
set_option linter.unusedSectionVars false

/-- the edges other than `e` -/
abbrev without (T : List (N × N)) (e : N × N) : List (N × N) := T.filter (· ≠ e)

/-- no edge can be bypassed -/
def Forest (T : List (N × N)) : Prop := ∀ e ∈ T, ¬ EConn (without T e) e.1 e.2

theorem Forest.mono {T S : List (N × N)} (h : Forest T) (hs : ∀ e ∈ S, e ∈ T) : Forest S := by
  intro e he hc
  refine h e (hs e he) (hc.mono ?_)
  intro x hx
  simp only [List.mem_filter] at hx ⊢
  exact ⟨hs x hx.1, hx.2⟩

theorem econn_node {T : List (N × N)} {a b : N} (h : EConn T a b) (hab : a ≠ b) :
    (∃ c, EAdj T a c) ∧ ∃ c, EAdj T c b := by
  constructor
  · rcases Relation.ReflTransGen.cases_head h with h | ⟨c, h, _⟩
    · exact absurd h hab
    · exact ⟨c, h⟩
  · rcases Relation.ReflTransGen.cases_tail h with h | ⟨c, _, h⟩
    · exact absurd h.symm hab
    · exact ⟨c, h⟩

/-- connections after adding an edge -/
theorem econn_add {T : List (N × N)} {x y a b : N} (h : EConn (T ++ [(x, y)]) a b) :
    EConn T a b ∨ (EConn T a x ∧ EConn T y b) ∨ (EConn T a y ∧ EConn T x b) := by
  induction h with
  | refl => exact .inl .refl
  | @tail b c _ hs ih =>
    have hs' : EAdj T b c ∨ (b = x ∧ c = y) ∨ (b = y ∧ c = x) := by
      rcases hs with hs | hs
      · rcases List.mem_append.1 hs with hs | hs
        · exact .inl (.inl hs)
        · simp at hs; exact .inr (.inl hs)
      · rcases List.mem_append.1 hs with hs | hs
        · exact .inl (.inr hs)
        · simp at hs; exact .inr (.inr ⟨hs.2, hs.1⟩)
    rcases hs' with hs | ⟨rfl, rfl⟩ | ⟨rfl, rfl⟩
    · rcases ih with h | ⟨h1, h2⟩ | ⟨h1, h2⟩
      · exact .inl (h.tail hs)
      · exact .inr (.inl ⟨h1, h2.tail hs⟩)
      · exact .inr (.inr ⟨h1, h2.tail hs⟩)
    · rcases ih with h | ⟨h1, h2⟩ | ⟨h1, h2⟩
      · exact .inr (.inl ⟨h, .refl⟩)
      · exact .inr (.inl ⟨h1, .refl⟩)
      · exact .inl h1
    · rcases ih with h | ⟨h1, h2⟩ | ⟨h1, h2⟩
      · exact .inr (.inr ⟨h, .refl⟩)
      · exact .inl h1
      · exact .inr (.inr ⟨h1, .refl⟩)

theorem without_append_self {T : List (N × N)} {e : N × N} (h : e ∉ T) : without (T ++ [e]) e = T := by
  unfold without
  rw [List.filter_append]
  simp only [ne_eq, decide_not, List.filter_cons, decide_true, Bool.not_true, Bool.false_eq_true, ite_false, List.filter_nil,
    List.append_nil]
  rw [List.filter_eq_self]
  intro a ha
  have : a ≠ e := by rintro rfl; exact h ha
  simpa using this

theorem without_append_ne {T : List (N × N)} {e e' : N × N} (h : e' ≠ e) :
    without (T ++ [e']) e = without T e ++ [e'] := by
  unfold without
  rw [List.filter_append]
  simp [h]

/-- joining two components of a forest -/
theorem Forest.add {T : List (N × N)} (h : Forest T) {x y : N} (hxy : ¬ EConn T x y) : Forest (T ++ [(x, y)]) := by
  have hnot : (x, y) ∉ T := fun hm => hxy (.single (.inl hm))
  intro e he hc
  by_cases hee : (x, y) = e
  · subst hee
    rw [without_append_self hnot] at hc
    exact hxy hc
  · have heT : e ∈ T := by
      rcases List.mem_append.1 he with he | he
      · exact he
      · exact absurd (by simpa using he : e = (x, y)).symm hee
    rw [without_append_ne hee] at hc
    have hsub : ∀ {a b}, EConn (without T e) a b → EConn T a b := fun h => h.mono fun a ha => (List.mem_filter.1 ha).1
    have hedge : EConn T e.1 e.2 := .single (.inl heT)
    rcases econn_add hc with h1 | ⟨h1, h2⟩ | ⟨h1, h2⟩
    · exact h e heT h1
    · exact hxy ((hsub h1).symm.trans (hedge.trans (hsub h2).symm))
    · exact hxy ((hsub h2).trans (hedge.symm.trans (hsub h1)))

/-- exchanging an edge of a path for the edge that closes the path -/
theorem forest_exchange {T : List (N × N)} (h : Forest T) {e : N × N} (he : e ∈ T) {k l u v : N}
    (hkl : (k, l) ∉ T) (huv : e = (u, v) ∨ e = (v, u)) {x y : N} (hxy : (x = k ∧ y = l) ∨ (x = l ∧ y = k))
    (hu : EConn (without T e) x u) (hv : EConn (without T e) v y) :
    Forest (without (T ++ [(k, l)]) e) ∧ ∀ a b, EConn T a b → EConn (without (T ++ [(k, l)]) e) a b := by
  have hne : (k, l) ≠ e := by rintro rfl; exact hkl he
  rw [without_append_ne hne]
  have huv' : ¬ EConn (without T e) u v := by
    intro hc
    rcases huv with rfl | rfl
    · exact h _ he hc
    · exact h _ he hc.symm
  constructor
  · refine Forest.add (h.mono fun a ha => (List.mem_filter.1 ha).1) ?_
    intro hc
    rcases hxy with ⟨rfl, rfl⟩ | ⟨rfl, rfl⟩
    · exact huv' (hu.symm.trans (hc.trans hv.symm))
    · exact huv' (hu.symm.trans (hc.symm.trans hv.symm))
  · have hsub : ∀ {a b}, EConn (without T e) a b → EConn (without T e ++ [(k, l)]) a b :=
      fun h => h.mono fun a ha => by simp only [List.mem_append]; exact .inl ha
    have hst : EConn (without T e ++ [(k, l)]) x y := by
      rcases hxy with ⟨rfl, rfl⟩ | ⟨rfl, rfl⟩
      · exact .single (.inl (by simp))
      · exact .single (.inr (by simp))
    have huv2 : EConn (without T e ++ [(k, l)]) u v := (hsub hu).symm.trans (hst.trans (hsub hv).symm)
    intro a b hab
    have step : ∀ p q, (p, q) ∈ T → EConn (without T e ++ [(k, l)]) p q := by
      intro p q hpq
      by_cases hpe : (p, q) = e
      · rcases huv with h' | h'
        · rw [h'] at hpe; cases hpe; exact huv2
        · rw [h'] at hpe; cases hpe; exact huv2.symm
      · exact .single (.inl (by simp only [List.mem_append, List.mem_filter]; exact .inl ⟨hpq, by simpa using hpe⟩))
    induction hab with
    | refl => exact .refl
    | tail _ hs ih =>
      rcases hs with hs | hs
      · exact ih.trans (step _ _ hs)
      · exact ih.trans (step _ _ hs).symm

/-- an edge list that grows one new end at a time; the nodes met so far -/
inductive Grow : List (N × N) → List N → Prop
  | nil : Grow [] []
  | root {A M n} : Grow A M → n ∉ M → Grow A (n :: M)
  | arc {A M n p e} : Grow A M → n ∉ M → p ∈ M → (e = (p, n) ∨ e = (n, p)) → Grow (A ++ [e]) (n :: M)

theorem Grow.mem {A : List (N × N)} {M : List N} (h : Grow A M) : ∀ e ∈ A, e.1 ∈ M ∧ e.2 ∈ M := by
  induction h with
  | nil => simp
  | root _ _ ih => intro e he; have := ih e he; simp [this]
  | @arc A M n p e _ _ hp he ih =>
    intro e' he'
    rcases List.mem_append.1 he' with h | h
    · have := ih e' h; simp [this]
    · simp only [List.mem_singleton] at h; subst h
      rcases he with rfl | rfl <;> simp [hp]

theorem Grow.nodup {A : List (N × N)} {M : List N} (h : Grow A M) : M.Nodup := by
  induction h with
  | nil => simp
  | root _ h ih => exact List.nodup_cons.2 ⟨h, ih⟩
  | arc _ h _ _ ih => exact List.nodup_cons.2 ⟨h, ih⟩

theorem Grow.forest {A : List (N × N)} {M : List N} (h : Grow A M) : Forest A := by
  induction h with
  | nil => intro e he; cases he
  | root _ _ ih => exact ih
  | @arc A M n p e hg hn hp he ih =>
    have hiso : ∀ c, ¬ EAdj A n c := by
      rintro c (h | h)
      · exact hn (hg.mem _ h).1
      · exact hn (hg.mem _ h).2
    have hnp : n ≠ p := by rintro rfl; exact hn hp
    rcases he with rfl | rfl
    · refine ih.add fun hc => ?_
      obtain ⟨c, hc⟩ := (econn_node hc (Ne.symm hnp)).2
      exact hiso c hc.symm
    · refine ih.add fun hc => ?_
      obtain ⟨c, hc⟩ := (econn_node hc hnp).1
      exact hiso c hc

end GiMPy
