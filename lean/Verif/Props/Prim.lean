import Verif.Lemmas.Prim
import Verif.Props.Search

/-! # C20, C21: `minimum_spanning_tree_prim` -/

namespace GiMPy
open Prim Search
variable {N : Type} [DecidableEq N] {Q : Type} {g : Graph N} {O : QOps N Q} {items : Q → List N}

theorem Prim.run_ok (hg : Built g) (hd : g.directed = false) (hp : LawfulPQ O items) {w : N → N → Int}
    (hw : ∀ u v, g.checkEdge u v = true → g.getEdgeCost u v = .ok (w u v)) (hnl : ∀ v, g.checkEdge v v = false)
    {src : N} (hsrc : src ∈ g.getNodeList) {q : Q} (hq : items q = []) {color : N → Color}
    (hcol : ∀ v, color v ≠ .green) {fuel : Nat} (hf : g.getNodeList.length < fuel) {V : List N}
    (hV : ∀ v, v ∈ V ↔ Reach g false src v) :
    ∃ st, mstPrim g O src q color fuel = .ok st ∧ items st.q = [] ∧
      PInv g w O items src V (fun x => st.color x = .green) (fun _ _ => True) st := by
  have hnl' : NoLoop g false := by intro v h; simp only [Step, Bool.false_eq_true, if_false, hnl v] at h
  have hitem : ∀ x, x ∈ items (O.push q src) ↔ x = src := by intro x; rw [hp.mem_push, hq]; simp
  have h0 : PInv g w O items src V (fun x => color x = .green) (fun _ _ => True)
      { q := O.push q src, pred := .empty, color := color } := by
    have hD : ∀ v, Dd src ({ q := O.push q src, pred := .empty, color := color } : PState N Q) v ↔ v = src := by
      intro v; simp [Dd, Dict.empty, Dict.keys]
    refine ⟨by simp [Dict.empty, Dict.keys], ?_, ?_, ?_, ?_, ?_, ?_, by simp [Dict.empty, Dict.keys],
      Or.inr fun x hx => (hitem x).1 hx, ?_, ?_, ?_⟩
    · intro x hx; exact ⟨(hD x).2 ((hitem x).1 hx), hcol x⟩
    · intro v hv; exact Or.inr ((hitem v).2 ((hD v).1 hv))
    · intro v hv; rw [(hD v).1 hv]
    · intro v hv; exact absurd hv (hcol v)
    · intro u v hu; exact absurd hu (hcol u)
    · intro v p hv; cases hv
    · intro x p _ hv; cases hv
    · intro v hv; rw [(hD v).1 hv]; exact ⟨0, .src⟩
    · refine ⟨[], by simp, ?_, fun T hT => ⟨T, hT, Int.le_refl _, List.nil_subperm⟩⟩
      intro p v; simp [hcol]
  unfold mstPrim
  rw [if_pos (show g.hasNode src = true by unfold Graph.hasNode; rw [Dict.contains_iff, hg.wf.nodesEq]; exact hsrc)]
  refine loop_ok hg.wf hp hw hnl' (fun u v h => step_symm hd h) (fun u v h => cost_symm hg.wf hd hw h) hV hsrc fuel _ h0 ?_
  exact Nat.lt_of_le_of_lt (List.length_filter_le _ _) hf

/-- **C20.** On an undirected graph without self loops whose nodes are not coloured green,
`minimum_spanning_tree_prim(source)` with an empty priority queue returns, and its predecessor links form a minimum
spanning tree of the connected component of the source. -/
theorem C20_mst_prim (hg : Built g) (hd : g.directed = false) (hp : LawfulPQ O items) {w : N → N → Int}
    (hw : ∀ u v, g.checkEdge u v = true → g.getEdgeCost u v = .ok (w u v)) (hnl : ∀ v, g.checkEdge v v = false)
    {src : N} (hsrc : src ∈ g.getNodeList) {q : Q} (hq : items q = []) {color : N → Color}
    (hcol : ∀ v, color v ≠ .green) {fuel : Nat} (hf : g.getNodeList.length < fuel) :
    ∃ st V, mstPrim g O src q color fuel = .ok st ∧
      V.Nodup ∧ (∀ v, v ∈ V ↔ Reach g false src v) ∧
      IsMinSpanTree (fun u v => g.checkEdge u v = true) w V (st.pred.entries.map fun e => (e.2, e.1)) := by
  classical
  let V₀ := g.getNodeList.filter fun v => decide (Reach g false src v)
  have hV₀ : ∀ v, v ∈ V₀ ↔ Reach g false src v := by
    intro v
    simp only [V₀, List.mem_filter, decide_eq_true_eq, and_iff_right_iff_imp]
    exact fun h => reach_node hg.wf h hsrc
  obtain ⟨st, h1, h4, h2⟩ := Prim.run_ok hg hd hp hw hnl hsrc hq hcol hf hV₀
  have hgreen : ∀ v, Dd src st v → st.color v = .green := fun v hv => (h2.disc v hv).resolve_right (by rw [h4]; simp)
  have hDr : ∀ v, Dd src st v ↔ Reach g false src v := by
    intro v
    refine ⟨h2.reach v, fun h => ?_⟩
    induction h with
    | refl => exact Or.inl rfl
    | tail _ hs ih => exact (h2.closed _ _ (hgreen _ ih) hs trivial).1
  have hV₀n : V₀.Nodup := hg.wf.nodup.filter _
  refine ⟨st, V₀, h1, hV₀n, hV₀, ?_⟩
  set T := st.pred.entries.map fun e => (e.2, e.1) with hT
  have hmemT : ∀ p v, (p, v) ∈ T ↔ st.pred.get? v = some p := by
    intro p v
    rw [Dict.entries_eq_of_get? _ h2.pnd]
    simp [hT]
  have hnd : T.Nodup := by
    have : st.pred.entries.Nodup := List.Nodup.of_map _ h2.pnd
    refine this.map ?_
    rintro ⟨a, b⟩ ⟨c, d⟩ h
    simp only [Prod.mk.injEq] at h
    simp [h.1, h.2]
  have hperm : (src :: st.pred.keys).Perm V₀ := by
    refine (List.perm_ext_iff_of_nodup (List.nodup_cons.2 ⟨h2.nosrc, h2.pnd⟩) hV₀n).2 ?_
    intro v; rw [hV₀, ← hDr, List.mem_cons]; rfl
  have htree : IsSpanTree (fun u v => g.checkEdge u v = true) V₀ T := by
    refine ⟨?_, ?_, ?_⟩
    · rintro ⟨p, v⟩ he
      have hl := h2.link v p ((hmemT p v).1 he)
      have hs : Step g false p v := hl.1
      refine ⟨hs, (hV₀ p).2 ((hDr p).1 (h2.sD p hl.2)), (hV₀ v).2 ((hDr v).1 (Or.inr ?_))⟩
      exact Dict.mem_keys_of_get? ((hmemT p v).1 he)
    · have hall : ∀ v ∈ V₀, EConn T src v := by
        intro v hv
        obtain ⟨k, hk⟩ := h2.chain v ((hDr v).2 ((hV₀ v).1 hv))
        exact econn_of_pc hk fun v p h => (hmemT p v).2 h
      intro u hu v hv
      exact (hall u hu).symm.trans (hall v hv)
    · have := hperm.length_eq
      rw [← this]
      simp [hT, Dict.keys]
  refine min_of_greedy htree ?_
  obtain ⟨F, f1, f2, f3⟩ := h2.greedy
  have hFT : F.Perm T := by
    refine (List.perm_ext_iff_of_nodup f1 hnd).2 ?_
    rintro ⟨p, v⟩
    rw [f2, hmemT]
    constructor
    · exact fun h => h.2.2
    · intro h
      have hk := Dict.mem_keys_of_get? h
      exact ⟨by rintro rfl; exact h2.nosrc hk, hgreen v (Or.inr hk), h⟩
  intro T' hT'
  obtain ⟨T'', t1, t2, t3⟩ := f3 T' hT'
  exact ⟨T'', t1, t2, hFT.subperm_right.1 t3⟩

/-- a readable form of the result -/
def mstOf (r : Except PyErr (PState Nat (PQ Nat))) : Option (List (Nat × Nat)) :=
  match r with
  | .ok st => some st.pred.entries
  | .error _ => none

/-- non-vacuity of C20 -/
example : mstOf (mstPrim exU pqOps' 0 ⟨.empty, by decide⟩ (fun _ => .black) 7) = some [(1, 2), (2, 0), (3, 2)] ∧
    exU.directed = false ∧ exU.getNodeList.length < 7 := by decide +kernel

/-- **C21 is false of the code.**  Whatever the graph, a second call on the colours left by a first call returns the
empty dictionary for every source in the component of the first one. -/
theorem C21_false_second_call_empty (hg : Built g) (hd : g.directed = false) (hp : LawfulPQ O items) {w : N → N → Int}
    (hw : ∀ u v, g.checkEdge u v = true → g.getEdgeCost u v = .ok (w u v)) (hnl : ∀ v, g.checkEdge v v = false)
    {src : N} (hsrc : src ∈ g.getNodeList) {q : Q} (hq : items q = []) {color : N → Color}
    (hcol : ∀ v, color v ≠ .green) {fuel : Nat} (hf : g.getNodeList.length < fuel) {src' : N}
    (hr : Reach g false src src') {q' : Q} (hq' : items q' = []) {fuel' : Nat} (hf' : 2 ≤ fuel') :
    ∃ st st', mstPrim g O src q color fuel = .ok st ∧ mstPrim g O src' q' st.color fuel' = .ok st' ∧
      st'.pred = .empty := by
  classical
  obtain ⟨st, h1, h4, h2⟩ := Prim.run_ok hg hd hp hw hnl hsrc hq hcol hf
    (V := g.getNodeList.filter fun v => decide (Reach g false src v)) (by
      intro v
      simp only [List.mem_filter, decide_eq_true_eq, and_iff_right_iff_imp]
      exact fun h => reach_node hg.wf h hsrc)
  have hgreen : ∀ v, Dd src st v → st.color v = .green := fun v hv => (h2.disc v hv).resolve_right (by rw [h4]; simp)
  have hDr : ∀ v, Reach g false src v → st.color v = .green := by
    intro v h
    refine hgreen v ?_
    induction h with
    | refl => exact Or.inl rfl
    | tail _ hs ih => exact (h2.closed _ _ (hgreen _ ih) hs trivial).1
  have hn' := reach_node hg.wf hr hsrc
  obtain ⟨l, hl, hmem⟩ := nbrs_ok hg.wf false hn'
  have hl' : g.getNeighbors src' = .ok l := by simpa [nbrs] using hl
  have hitem : ∀ x, x ∈ items (O.push q' src') ↔ x = src' := by intro x; rw [hp.mem_push, hq']; simp
  obtain ⟨c, hc, hpk⟩ := hp.peek_mem (O.push q' src') (List.ne_nil_of_mem ((hitem src').2 rfl))
  obtain rfl := (hitem c).1 hc
  have hskip : ∀ (l : List N) (s : PState N Q), (∀ n ∈ l, s.color n = .green) → forN g O c l s = .ok s := by
    intro l s
    induction l with
    | nil => intro _; rfl
    | cons n l ih =>
      intro h
      rw [forN, if_pos (h n (by simp))]
      exact ih fun m hm => h m (by simp [hm])
  have hemp : items (O.remove (O.push q' c) c) = [] := by
    rw [List.eq_nil_iff_forall_not_mem]
    intro x hx
    have := (mem_remove_iff hp hc x).1 hx
    exact this.1 ((hitem x).1 this.2)
  obtain ⟨f, rfl⟩ : ∃ f, fuel' = f + 2 := ⟨fuel' - 2, by omega⟩
  refine ⟨st, { q := O.remove (O.push q' c) c, pred := .empty, color := upd (upd st.color c .blue) c .green }, h1, ?_, rfl⟩
  · unfold mstPrim
    rw [if_pos (show g.hasNode c = true by unfold Graph.hasNode; rw [Dict.contains_iff, hg.wf.nodesEq]; exact hn'), Prim.loop, if_neg (by
      rw [hp.isEmpty_iff]; exact List.ne_nil_of_mem hc)]
    simp only [hpk]
    unfold body
    simp only [treeEdge, if_true, hl']
    rw [hskip]
    · simp only []
      rw [Prim.loop, if_pos ((hp.isEmpty_iff _).2 hemp)]
    · intro n hn
      have hs := (hmem n).1 hn
      have hnc : n ≠ c := by
        rintro rfl
        simp only [Step, Bool.false_eq_true, if_false, hnl n] at hs
      show upd st.color c .blue n = .green
      rw [upd_ne _ _ hnc]
      exact hDr n (hr.tail hs)

/-- a concrete instance of C21's failure: the second call loses the tree -/
theorem C21_false_concrete : ∃ (g : Graph Nat) (st : PState Nat (PQ Nat)), Built g ∧
    mstPrim g pqOps' 0 ⟨.empty, by decide⟩ (fun _ => .black) 5 = .ok st ∧ st.pred.entries = [(1, 0)] ∧
    mstOf (mstPrim g pqOps' 0 ⟨.empty, by decide⟩ st.color 5) = some [] := by
  refine ⟨runOps (Graph.init false) [Op.addEdge 0 1 [("cost", .int 1)]], _,
    ⟨false, _, by intro op h; obtain rfl := List.mem_singleton.1 h; simp [Op.InScope], rfl⟩, rfl, by decide, by decide⟩

/-- agreement of two runs up to the colours that are not green -/
def Prim.Same (a b : PState N Q) : Prop := a.q = b.q ∧ a.pred = b.pred ∧ ∀ v, a.color v = .green ↔ b.color v = .green

/-- agreement of results -/
def Prim.SameR : Except PyErr (PState N Q) → Except PyErr (PState N Q) → Prop
  | .ok a, .ok b => Same a b
  | .error a, .error b => a = b
  | _, _ => False

theorem Prim.same_upd {a b : N → Color} (h : ∀ v, a v = .green ↔ b v = .green) (n : N) (c : Color) (v : N) :
    upd a n c v = .green ↔ upd b n c v = .green := by
  unfold upd; split
  · rfl
  · exact h v

theorem Prim.forN_same (c : N) (l : List N) : ∀ {a b : PState N Q}, Same a b → SameR (forN g O c l a) (forN g O c l b) := by
  induction l with
  | nil => intro a b h; exact h
  | cons n l ih =>
    intro a b h
    rw [forN, forN]
    by_cases hg : a.color n = .green
    · rw [if_pos hg, if_pos ((h.2.2 n).1 hg)]; exact ih h
    · rw [if_neg hg, if_neg (fun h' => hg ((h.2.2 n).2 h'))]
      have : SameR (edge g O a c n) (edge g O b c n) := by
        unfold edge
        cases touch g false c n with
        | error e => rfl
        | ok _ =>
          simp only []
          cases g.getEdgeCost c n with
          | error e => rfl
          | ok est =>
            simp only []
            have : improves O a n est = improves O b n est := by unfold improves; rw [h.1, h.2.1]
            rw [this]
            cases improves O b n est with
            | error e => rfl
            | ok t =>
              cases t
              · exact h
              · refine ⟨?_, ?_, same_upd h.2.2 _ _⟩
                · show O.pushP a.q n est = O.pushP b.q n est; rw [h.1]
                · show a.pred.set n c = b.pred.set n c; rw [h.2.1]
      revert this
      cases edge g O a c n <;> cases edge g O b c n <;> intro this
      · exact this
      · exact this.elim
      · exact this.elim
      · exact ih this

theorem Prim.loop_same (src : N) (f : Nat) : ∀ {a b : PState N Q}, Same a b → SameR (loop g O src f a) (loop g O src f b) := by
  induction f with
  | zero => intro a b _; rfl
  | succ f ih =>
    intro a b h
    rw [loop, loop, h.1]
    split
    · exact h
    · cases O.peek b.q with
      | none => rfl
      | some c =>
        simp only []
        have : SameR (body g O src { a with q := O.remove b.q c } c) (body g O src { b with q := O.remove b.q c } c) := by
          unfold body
          have : treeEdge g src { a with q := O.remove b.q c } c = treeEdge g src { b with q := O.remove b.q c } c := by
            unfold treeEdge; rw [h.2.1]
          rw [this]
          cases treeEdge g src { b with q := O.remove b.q c } c with
          | error e => rfl
          | ok _ =>
            simp only []
            cases g.getNeighbors c with
            | error e => rfl
            | ok l =>
              simp only []
              have := forN_same (g := g) (O := O) c l (a := { a with q := O.remove b.q c, color := upd a.color c .blue })
                (b := { b with q := O.remove b.q c, color := upd b.color c .blue })
                ⟨rfl, h.2.1, same_upd h.2.2 _ _⟩
              revert this
              generalize forN g O c l { a with q := O.remove b.q c, color := upd a.color c .blue } = x
              generalize forN g O c l { b with q := O.remove b.q c, color := upd b.color c .blue } = y
              cases x <;> cases y <;> intro this
              · exact this
              · exact this.elim
              · exact this.elim
              · exact ⟨this.1, this.2.1, same_upd this.2.2 _ _⟩
        revert this
        generalize body g O src { a with q := O.remove b.q c } c = x
        generalize body g O src { b with q := O.remove b.q c } c = y
        cases x <;> cases y <;> intro this
        · exact this
        · exact this.elim
        · exact this.elim
        · exact ih this

/-- **C21, what does hold.** Two calls with the same queue contents return the same dictionary (or the same error) when
the same nodes are green beforehand; no other trace of earlier calls matters.  Missing from the full claim: independence
of the green nodes, which is false (`C21_false_second_call_empty`). -/
theorem C21_mst_prim_history_partial (src : N) (q : Q) {col₁ col₂ : N → Color}
    (h : ∀ v, col₁ v = .green ↔ col₂ v = .green) (fuel : Nat) :
    (∃ e, mstPrim g O src q col₁ fuel = .error e ∧ mstPrim g O src q col₂ fuel = .error e) ∨
    ∃ a b, mstPrim g O src q col₁ fuel = .ok a ∧ mstPrim g O src q col₂ fuel = .ok b ∧ a.pred = b.pred := by
  have key : SameR (mstPrim g O src q col₁ fuel) (mstPrim g O src q col₂ fuel) := by
    unfold mstPrim
    split
    · exact loop_same src fuel ⟨rfl, rfl, h⟩
    · rfl
  revert key
  generalize mstPrim g O src q col₁ fuel = x
  generalize mstPrim g O src q col₂ fuel = y
  cases x with
  | error e => cases y with
    | error e' => intro h; exact Or.inl ⟨e, rfl, by rw [show e = e' from h]⟩
    | ok b => intro h; exact h.elim
  | ok a => cases y with
    | error e' => intro h; exact h.elim
    | ok b => intro h; exact Or.inr ⟨a, b, rfl, rfl, h.2.1⟩

/-- non-vacuity of the partial theorem: red and blue nodes do not matter -/
example : mstOf (mstPrim exU pqOps' 0 ⟨.empty, by decide⟩ (fun v => if v = 1 then .red else .blue) 7) =
    some [(1, 2), (2, 0), (3, 2)] := by decide +kernel

end GiMPy
