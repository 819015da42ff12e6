import Verif.Lemmas.Forest
import Verif.Lemmas.Kruskal

/-! # Spanning trees: connected and without cycles, or connected with one edge fewer than there are nodes -/

namespace GiMPy
variable {N : Type} [DecidableEq N] {T : List (N × N)} {V : List N}
set_option linter.unusedSectionVars false

theorem reps_nil (hV : V.Nodup) : IsReps (EAdj ([] : List (N × N))) V V := by
  refine ⟨hV, fun _ h => h, fun v hv => ⟨v, hv, .refl⟩, fun r _ s _ h => ?_⟩
  induction h with
  | refl => rfl
  | tail _ h _ => rcases h with h | h <;> cases h

/-- every arc lowers the number of components by at most one -/
theorem reps_ge (hV : V.Nodup) (T : List (N × N)) (hT : ∀ e ∈ T, e.1 ∈ V ∧ e.2 ∈ V) :
    ∃ R, IsReps (EAdj T) V R ∧ V.length ≤ T.length + R.length := by
  induction T using List.reverseRecOn with
  | nil => exact ⟨V, reps_nil hV, by simp⟩
  | append_singleton T e ih =>
    obtain ⟨R, h1, h2⟩ := ih fun e he => hT e (by simp [he])
    obtain ⟨i, j⟩ := e
    have hij := hT (i, j) (by simp)
    by_cases hc : EConn T i j
    · refine ⟨R, ⟨h1.nodup, h1.sub, fun v hv => ?_, fun r hr s hs h => h1.distinct r hr s hs ?_⟩, by simp; omega⟩
      · obtain ⟨r, hr, h⟩ := h1.cover v hv
        exact ⟨r, hr, EConn.mono (by intro e he; simp [he]) h⟩
      · have h : DSet.merge (EConn T) i j r s := by rw [Kruskal.merge_econn]; exact h
        rcases h with h | ⟨h, h'⟩ | ⟨h, h'⟩
        · exact h
        · exact h.trans (hc.trans h')
        · exact h.trans (hc.symm.trans h')
    · obtain ⟨R', h3, h4⟩ := Kruskal.reps_merge h1 hij.1 hij.2 hc
      exact ⟨R', h3, by simp; omega⟩

/-- every arc of a forest lowers the number of components by one -/
theorem reps_forest (hV : V.Nodup) (T : List (N × N)) (hT : ∀ e ∈ T, e.1 ∈ V ∧ e.2 ∈ V) (hn : T.Nodup) (hF : Forest T) :
    ∃ R, IsReps (EAdj T) V R ∧ V.length = T.length + R.length := by
  induction T using List.reverseRecOn with
  | nil => exact ⟨V, reps_nil hV, by simp⟩
  | append_singleton T e ih =>
    have hn' := List.nodup_append.1 hn
    have hnot : e ∉ T := fun h => hn'.2.2 e h e (by simp) rfl
    obtain ⟨R, h1, h2⟩ := ih (fun e he => hT e (by simp [he])) hn'.1 (hF.mono fun e he => by simp [he])
    obtain ⟨i, j⟩ := e
    have hij := hT (i, j) (by simp)
    have hc : ¬ EConn T i j := by
      have := hF (i, j) (by simp)
      rw [without_append_self hnot] at this
      exact this
    obtain ⟨R', h3, h4⟩ := Kruskal.reps_merge h1 hij.1 hij.2 hc
    exact ⟨R', h3, by simp; omega⟩

theorem reps_conn {R : List N} (h : IsReps (EAdj T) V R) (hc : ∀ u ∈ V, ∀ v ∈ V, EConn T u v) : R.length ≤ 1 := by
  rcases R with _ | ⟨a, _ | ⟨b, R⟩⟩
  · simp
  · simp
  · exfalso
    have hab := h.distinct a (by simp) b (by simp) (hc a (h.sub a (by simp)) b (h.sub b (by simp)))
    have := h.nodup
    rw [hab] at this
    simp at this

/-- a connected forest has one arc fewer than there are nodes -/
theorem forest_size (hV : V.Nodup) (hne : V ≠ []) (hT : ∀ e ∈ T, e.1 ∈ V ∧ e.2 ∈ V) (hn : T.Nodup) (hF : Forest T)
    (hc : ∀ u ∈ V, ∀ v ∈ V, EConn T u v) : T.length + 1 = V.length := by
  obtain ⟨R, h1, h2⟩ := reps_forest hV T hT hn hF
  have h3 := reps_conn h1 hc
  obtain ⟨v, hv⟩ := List.exists_mem_of_ne_nil V hne
  obtain ⟨r, hr, _⟩ := h1.cover v hv
  have := List.length_pos_of_mem hr
  omega

/-- conversely a spanning tree has no cycle -/
theorem IsSpanTree.forest {adj : N → N → Prop} (hV : V.Nodup) (h : IsSpanTree adj V T) : Forest T := by
  intro e he hc
  have hlen : (without T e).length < T.length := by
    unfold without
    exact List.length_filter_lt_length_iff_exists.2 ⟨e, he, by simp⟩
  obtain ⟨R, h1, h2⟩ := reps_ge hV (without T e) fun x hx => (h.edges x (List.mem_filter.1 hx).1).2
  have hstep : ∀ u v, EConn T u v → EConn (without T e) u v := by
    intro u v huv
    induction huv with
    | refl => exact .refl
    | @tail b c _ hbc ih =>
      refine ih.trans ?_
      by_cases h1 : (b, c) = e
      · subst h1; exact hc
      · by_cases h2 : (c, b) = e
        · subst h2; exact hc.symm
        · exact .single (hbc.imp (fun h => List.mem_filter.2 ⟨h, by simpa only [ne_eq, decide_not, Bool.not_eq_true', decide_eq_false_iff_not] using h1⟩)
            (fun h => List.mem_filter.2 ⟨h, by simpa only [ne_eq, decide_not, Bool.not_eq_true', decide_eq_false_iff_not] using h2⟩))
  have h3 := reps_conn h1 fun u hu v hv => hstep u v (h.conn u hu v hv)
  have := h.size
  omega

end GiMPy
