import Verif.Model.Components
import Verif.Lemmas.SearchPQ
import Verif.Lemmas.Refine
import Verif.Spec.Built

/-! # Component labelling; facts about undirected graphs -/

namespace GiMPy
variable {N : Type} [DecidableEq N] {Q : Type}
set_option linter.unusedSectionVars false

theorem Built.wf {g : Graph N} (h : Built g) : g.Wf := by
  obtain ⟨d, ops, hs, rfl⟩ := h
  exact wf_reachable d ops hs

namespace Search

theorem step_symm {g : Graph N} (hd : g.directed = false) {rev : Bool} {u v : N} (h : Step g rev u v) :
    Step g rev v u := by
  unfold Step Graph.checkEdge at *
  cases rev <;> simp_all [or_comm]

theorem reach_symm {g : Graph N} (hd : g.directed = false) {rev : Bool} {u v : N} (h : Reach g rev u v) :
    Reach g rev v u := by
  induction h with
  | refl => exact .refl
  | tail _ h2 ih => exact .head (step_symm hd h2) ih

theorem getEdgeAttr_symm {g : Graph N} (hw : g.Wf) (hd : g.directed = false) (u v : N) (a : String) :
    g.getEdgeAttr u v a = g.getEdgeAttr v u a := by
  by_cases huv : u = v
  · rw [huv]
  · unfold Graph.getEdgeAttr
    have : g.edgeAttr.get? (u, v) = none ∨ g.edgeAttr.get? (v, u) = none := by
      by_contra hc
      rw [not_or] at hc
      have h1 : (u, v) ∈ g.edgeAttr.keys := by
        by_contra h; exact hc.1 ((Dict.get?_eq_none_iff _ _).2 h)
      have h2 : (v, u) ∈ g.edgeAttr.keys := by
        by_contra h; exact hc.2 ((Dict.get?_eq_none_iff _ _).2 h)
      exact huv (hw.simple hd u v h1 h2)
    rcases this with h | h
    · simp only [h, Option.bind_none, hd, Bool.false_eq_true, if_false]
    · simp only [h, Option.bind_none, hd, Bool.false_eq_true, if_false]

theorem cost_symm {g : Graph N} (hw : g.Wf) (hd : g.directed = false) {w : N → N → Int}
    (hc : HasCosts g false w) {u v : N} (h : Step g false u v) : w u v = w v u := by
  have h1 := hc u v h
  have h2 := hc v u (step_symm hd h)
  unfold Graph.getEdgeCost at h1 h2
  rw [getEdgeAttr_symm hw hd] at h1
  rw [h1] at h2
  exact Except.ok.inj h2

theorem reach_node {g : Graph N} (hw : g.Wf) {rev : Bool} {u v : N} (h : Reach g rev u v)
    (hu : u ∈ g.getNodeList) : v ∈ g.getNodeList := by
  cases h with
  | refl => exact hu
  | tail _ h2 => exact (step_node hw h2).2

/-- state of the labelling after `k` searches; `done` are the nodes looked at so far -/
structure LInv (g : Graph N) (done : List N) (k : Int) (st : SState N Q) : Prop where
  kpos : 0 ≤ k
  range : ∀ v j, v ∈ g.getNodeList → st.comp v = some j → 0 ≤ j ∧ j < k
  used : ∀ j, 0 ≤ j → j < k → ∃ v ∈ g.getNodeList, st.comp v = some j
  same : ∀ u v j, u ∈ g.getNodeList → v ∈ g.getNodeList → st.comp u = some j →
    (st.comp v = some j ↔ Reach g false u v)
  doneS : ∀ v ∈ done, st.comp v ≠ none

theorem linv_step {g : Graph N} (hw : g.Wf) (hd : g.directed = false) {O : QOps N Q} {items : Q → List N}
    (hb : LawfulBag O items) (hO : O.isPQ = false) {newQ : Q} (hq : items newQ = []) {fuel : Nat}
    (hf : fuelBound g false ≤ fuel) {done : List N} {k : Int} {st : SState N Q} (h : LInv g done k st) {n : N}
    (hn : n ∈ g.getNodeList) (hc : st.comp n = none) :
    ∃ r st', search g O .dfs false (some k) none n { st with q := newQ } fuel = .ok (r, st') ∧
      LInv g (n :: done) (k + 1) st' := by
  obtain ⟨st', t, h1, h2, h3, h4⟩ := search_none_ok (g := g) (rev := false) hw hb
    (inv_plain (src := n) hb hO (algo := .dfs) trivial (some k) st.comp) hn { st with q := newQ } hq
    (abag_start (algo := .dfs) trivial (some k) { st with q := newQ }) hf
  refine ⟨_, st', h1, ?_⟩
  have hcomp : ∀ v, (Reach g false n v ∧ st'.comp v = some k) ∨ (¬ Reach g false n v ∧ st'.comp v = st.comp v) := by
    intro v
    have e := h3.comp v
    have e2 := D_iff_reach h2 h4 v
    by_cases hr : Reach g false n v
    · left
      refine ⟨hr, ?_⟩
      rw [e, if_pos]
      rcases e2.2 hr with h | h
      · exact Or.inl h
      · exact Or.inr ⟨rfl, h⟩
    · right
      refine ⟨hr, ?_⟩
      rw [e, if_neg]
      rintro (h | h)
      · exact hr (e2.1 (Or.inl h))
      · exact hr (e2.1 (Or.inr h.2))
  -- old labels stay: a labelled node is not reachable from `n`
  have hold : ∀ v j, v ∈ g.getNodeList → st.comp v = some j → ¬ Reach g false n v := by
    intro v j hv hj hr
    have := (h.same v n j hv hn hj).2 (reach_symm hd hr)
    rw [hc] at this; cases this
  refine ⟨by have := h.kpos; omega, ?_, ?_, ?_, ?_⟩
  · intro v j hv hj
    have := h.kpos
    rcases hcomp v with ⟨_, h5⟩ | ⟨_, h5⟩
    · rw [h5] at hj
      obtain rfl := Option.some.inj hj
      omega
    · rw [h5] at hj
      have := h.range v j hv hj
      omega
  · intro j hj0 hj
    by_cases hjk : j = k
    · subst hjk
      rcases hcomp n with ⟨_, h5⟩ | ⟨h5, _⟩
      · exact ⟨n, hn, h5⟩
      · exact absurd .refl h5
    · obtain ⟨v, hv, hvj⟩ := h.used j hj0 (by omega)
      rcases hcomp v with ⟨h5, _⟩ | ⟨_, h5⟩
      · exact absurd h5 (hold v j hv hvj)
      · exact ⟨v, hv, by rw [h5]; exact hvj⟩
  · intro u v j hu hv hj
    rcases hcomp u with ⟨hru, h5⟩ | ⟨hru, h5⟩
    · rw [h5] at hj
      obtain rfl := Option.some.inj hj
      rcases hcomp v with ⟨hrv, h6⟩ | ⟨hrv, h6⟩
      · rw [h6]
        exact ⟨fun _ => (reach_symm hd hru).trans hrv, fun _ => rfl⟩
      · rw [h6]
        constructor
        · intro h7; have := (h.range v k hv h7).2; omega
        · intro h7; exact absurd (hru.trans h7) hrv
    · rw [h5] at hj
      rcases hcomp v with ⟨hrv, h6⟩ | ⟨hrv, h6⟩
      · rw [h6]
        constructor
        · intro h7
          obtain rfl := Option.some.inj h7
          have := (h.range u k hu hj).2; omega
        · intro h7; exact absurd (hrv.trans (reach_symm hd h7)) hru
      · rw [h6]; exact h.same u v j hu hv hj
  · intro v hv
    rcases hcomp v with ⟨_, h5⟩ | ⟨h6, h5⟩
    · rw [h5]; simp
    · rw [h5]
      rcases List.mem_cons.1 hv with rfl | hv
      · exact absurd .refl h6
      · exact h.doneS v hv

theorem labelLoop_ok {g : Graph N} (hw : g.Wf) (hd : g.directed = false) {O : QOps N Q} {items : Q → List N}
    (hb : LawfulBag O items) (hO : O.isPQ = false) {newQ : Q} (hq : items newQ = []) {fuel : Nat}
    (hf : fuelBound g false ≤ fuel) (l : List N) (hl : ∀ n ∈ l, n ∈ g.getNodeList) {done : List N} {k : Int}
    {st : SState N Q} (h : LInv g done k st) :
    ∃ k' st', labelLoop g O newQ fuel l k st = ⟨none, k', st'⟩ ∧ LInv g (l.reverse ++ done) k' st' := by
  induction l generalizing done k st with
  | nil => exact ⟨k, st, rfl, h⟩
  | cons n l ih =>
    have hl' : ∀ m ∈ l, m ∈ g.getNodeList := fun m hm => hl m (by simp [hm])
    rw [labelLoop]
    by_cases hc : st.comp n = none
    · rw [if_pos hc]
      obtain ⟨r, st1, h1, h2⟩ := linv_step hw hd hb hO hq hf h (hl n (by simp)) hc
      rw [h1]
      obtain ⟨k', st', h3, h4⟩ := ih hl' h2
      exact ⟨k', st', h3, by simpa using h4⟩
    · rw [if_neg hc]
      have h2 : LInv g (n :: done) k st := { h with
        doneS := by
          intro v hv
          rcases List.mem_cons.1 hv with rfl | hv
          · exact hc
          · exact h.doneS v hv }
      obtain ⟨k', st', h3, h4⟩ := ih hl' h2
      exact ⟨k', st', h3, by simpa using h4⟩

theorem leadsTo_of_pc {pred : Dict N N} {src : N} {P : N → Prop} {k : Nat} {v : N} (h : PC pred src P k v) :
    LeadsTo pred src v := by
  induction h with
  | src => exact .here
  | step _ _ hl ih => exact .step hl ih

theorem econn_of_pc {pred : Dict N N} {src : N} {P : N → Prop} {k : Nat} {v : N} (h : PC pred src P k v)
    {T : List (N × N)} (hT : ∀ v p, pred.get? v = some p → (p, v) ∈ T) : EConn T src v := by
  induction h with
  | src => exact .refl
  | step _ _ hl ih => exact ih.tail (Or.inl (hT _ _ hl))

end Search
end GiMPy
