import Verif.Model.MstPic
import Verif.Lemmas.Prim
import Verif.Lemmas.SearchPic

/-! # Lemmas on the colours and labels that the spanning tree methods leave -/

namespace GiMPy
open Search
variable {N : Type} [DecidableEq N] {Q : Type} {g : Graph N} {O : QOps N Q} {src : N}

/-! ## Kruskal -/

theorem Kruskal.loopP_map (n fuel : Nat) (l : List (N × N)) (d : DSet N) (F : List (N × N)) (p : N × N → String) :
    (Kruskal.loopP g n fuel l d F p).map Prod.fst = Kruskal.loop n fuel l d F := by
  induction l generalizing d F p with
  | nil => rfl
  | cons e l ih =>
    unfold Kruskal.loopP Kruskal.loop
    by_cases h : F.length + 1 = n
    · rw [if_pos h, if_pos h]; rfl
    · rw [if_neg h, if_neg h]
      cases d.union fuel e.1 e.2 with
      | error x => rfl
      | ok s =>
        obtain ⟨b, d'⟩ := s
        cases b <;> exact ih _ _ _

theorem Kruskal.kruskalP_map (p : N × N → String) (fuel : Nat) :
    (Kruskal.kruskalP g p fuel).map Prod.fst = Kruskal.kruskal g fuel := by
  unfold Kruskal.kruskalP Kruskal.kruskal
  cases Kruskal.costs g g.getEdgeList with
  | error e => rfl
  | ok cs =>
    simp only []
    cases Kruskal.addAll (DSet.init false) g.getNodeList with
    | error e => rfl
    | ok d => exact loopP_map ..

theorem edgeKey_self {e : N × N} (h : e ∈ g.edgeAttr.keys) : g.edgeKey e.1 e.2 = e := by
  unfold Graph.edgeKey
  rw [if_pos ((Dict.contains_iff _ _).2 h)]

/-- what the loop does to the colours: it looks at the first `k` edges -/
theorem Kruskal.loopP_eff (n fuel : Nat) (l : List (N × N)) (hl : ∀ e ∈ l, e ∈ g.edgeAttr.keys) (hnd : l.Nodup) (d : DSet N)
    (F : List (N × N)) (p : N × N → String) {F' : List (N × N)} {p' : N × N → String}
    (he : Kruskal.loopP g n fuel l d F p = .ok (F', p')) :
    ∃ k A, F' = F ++ A ∧ (∀ e ∈ A, e ∈ l.take k) ∧ (∀ e ∈ A, p' e = "green") ∧
      (∀ e ∈ l.take k, e ∉ A → p' e = "black") ∧ (∀ e, e ∉ l.take k → p' e = p e) ∧
      (k = l.length ∨ F'.length + 1 = n) := by
  induction l generalizing d F p with
  | nil => cases he; exact ⟨0, [], by simp, by simp, by simp, by simp, by simp, by simp⟩
  | cons e l ih =>
    unfold Kruskal.loopP at he
    by_cases h : F.length + 1 = n
    · rw [if_pos h] at he
      cases he
      exact ⟨0, [], by simp, by simp, by simp, by simp, by simp, .inr h⟩
    · rw [if_neg h] at he
      rw [List.nodup_cons] at hnd
      rw [edgeKey_self (hl e (by simp))] at he
      have hl' : ∀ e ∈ l, e ∈ g.edgeAttr.keys := fun x hx => hl x (by simp [hx])
      cases hu : d.union fuel e.1 e.2 with
      | error x => rw [hu] at he; cases he
      | ok s =>
        obtain ⟨b, d'⟩ := s
        rw [hu] at he
        have hout : ∀ k, e ∉ l.take k := fun k hk => hnd.1 (List.mem_of_mem_take hk)
        cases b with
        | true =>
          simp only [] at he
          obtain ⟨k, A, a1, a2, a3, a4, a5, a6⟩ := ih hl' hnd.2 d' (F ++ [e]) _ he
          refine ⟨k + 1, e :: A, by rw [a1]; simp, ?_, ?_, ?_, ?_, ?_⟩
          · intro x hx
            rcases List.mem_cons.1 hx with rfl | hx
            · simp
            · simp [a2 x hx]
          · intro x hx
            rcases List.mem_cons.1 hx with rfl | hx
            · rw [a5 _ (hout k)]; simp [upd]
            · exact a3 x hx
          · intro x hx hxA
            rw [List.take_succ_cons, List.mem_cons] at hx
            rw [List.mem_cons, not_or] at hxA
            exact a4 x (hx.resolve_left hxA.1) hxA.2
          · intro x hx
            rw [List.take_succ_cons, List.mem_cons, not_or] at hx
            rw [a5 x hx.2]; simp [upd, hx.1]
          · exact a6.imp (fun h => by simp [h]) id
        | false =>
          simp only [] at he
          obtain ⟨k, A, a1, a2, a3, a4, a5, a6⟩ := ih hl' hnd.2 d' F _ he
          have heA : e ∉ A := fun h => hout k (a2 e h)
          refine ⟨k + 1, A, a1, ?_, a3, ?_, ?_, ?_⟩
          · intro x hx
            simp [a2 x hx]
          · intro x hx hxA
            rw [List.take_succ_cons, List.mem_cons] at hx
            rcases hx with rfl | hx
            · rw [a5 _ (hout k)]; simp [upd]
            · exact a4 x hx hxA
          · intro x hx
            rw [List.take_succ_cons, List.mem_cons, not_or] at hx
            rw [a5 x hx.2]; simp [upd, hx.1]
          · exact a6.imp (fun h => by simp [h]) id

/-! ## Prim -/
namespace Prim

theorem edgeP_map (st : PState N Q) (p : MPic N) (c n : N) : (edgeP g O st p c n).map Prod.fst = edge g O st c n := by
  unfold edgeP edge
  cases touch g false c n with
  | error e => rfl
  | ok _ =>
    simp only []
    cases g.getEdgeCost c n with
    | error e => rfl
    | ok est =>
      simp only []
      cases improves O st n est with
      | error e => rfl
      | ok b => cases b <;> rfl

theorem forNP_map (c : N) (l : List N) (st : PState N Q) (p : MPic N) :
    (forNP g O c l st p).map Prod.fst = forN g O c l st := by
  induction l generalizing st p with
  | nil => rfl
  | cons n l ih =>
    unfold forNP forN
    by_cases h : st.color n = .green
    · rw [if_pos h, if_pos h]; exact ih _ _
    · rw [if_neg h, if_neg h, ← edgeP_map st p]
      cases edgeP g O st p c n with
      | error e => rfl
      | ok s => exact ih _ _

theorem bodyP_map (st : PState N Q) (p : MPic N) (c : N) : (bodyP g O src st p c).map Prod.fst = body g O src st c := by
  unfold bodyP body
  cases treeEdge g src st c with
  | error e => rfl
  | ok _ =>
    simp only []
    cases g.getNeighbors c with
    | error e => rfl
    | ok l =>
      simp only []
      rw [← forNP_map c l { st with color := upd st.color c .blue } (treeEdgeP g src st p c)]
      cases forNP g O c l { st with color := upd st.color c .blue } (treeEdgeP g src st p c) with
      | error e => rfl
      | ok s => rfl

theorem loopP_map (f : Nat) (st : PState N Q) (p : MPic N) : (loopP g O src f st p).map Prod.fst = loop g O src f st := by
  induction f generalizing st p with
  | zero => rfl
  | succ f ih =>
    unfold loopP loop
    by_cases h : O.isEmpty st.q
    · rw [if_pos h, if_pos h]; rfl
    · rw [if_neg h, if_neg h]
      cases O.peek st.q with
      | none => rfl
      | some c =>
        simp only []
        rw [← bodyP_map { st with q := O.remove st.q c } p]
        cases bodyP g O src { st with q := O.remove st.q c } p c with
        | error e => rfl
        | ok s => exact ih _ _

theorem mstPrimP_map (q : Q) (color : N → Color) (p : MPic N) (fuel : Nat) :
    (mstPrimP g O src q color p fuel).map Prod.fst = mstPrim g O src q color fuel := by
  unfold mstPrimP mstPrim
  by_cases h : g.hasNode src
  · rw [if_pos h, if_pos h]; exact loopP_map _ _ _
  · rw [if_neg h, if_neg h]; rfl

theorem edgeKey_or (u v : N) : g.edgeKey u v = (u, v) ∨ g.edgeKey u v = (v, u) := by
  unfold Graph.edgeKey; split <;> simp

theorem edgeKey_inj {c n u v : N} (h : g.edgeKey c n = g.edgeKey u v) : (c = u ∧ n = v) ∨ (c = v ∧ n = u) := by
  rcases edgeKey_or (g := g) c n with h1 | h1 <;> rcases edgeKey_or (g := g) u v with h2 | h2 <;>
    rw [h1, h2, Prod.mk.injEq] at h <;> tauto

/-- Invariant of both loops: `S` are the nodes taken out of the queue, `X u v` says that the edge has been looked at from
`u`; `old` is the picture before the call -/
structure PicI (g : Graph N) (w : N → N → Int) (src : N) (color : N → Color) (old : MPic N) (S : N → Prop)
    (X : N → N → Prop) (st : PState N Q) (p : MPic N) : Prop where
  link : ∀ v u, st.pred.get? v = some u → S u ∧ X u v
  step : ∀ u v, X u v → Step g false u v
  tree : ∀ v u, v ≠ src → S v → st.pred.get? v = some u → p.edge (g.edgeKey u v) = "green"
  black : ∀ a b, X a b → (∃ v u, S v ∧ st.pred.get? v = some u ∧ g.edgeKey u v = g.edgeKey a b) ∨
    p.edge (g.edgeKey a b) = "black"
  other : ∀ e, (∀ a b, X a b → e ≠ g.edgeKey a b) → p.edge e = old.edge e
  cost : ∀ v u, st.pred.get? v = some u → p.label v = .int (w u v)
  label : ∀ v, st.pred.get? v = none → p.label v = old.label v
  unseen : ∀ v, st.pred.get? v = none → ¬ S v → st.color v = color v

variable {w : N → N → Int} {color : N → Color} {old : MPic N}

theorem forNP_inv (hw : ∀ u v, Step g false u v → g.getEdgeCost u v = .ok (w u v)) {c : N} {S : N → Prop} (hc : S c)
    (X : N → N → Prop) (l : List N) (hl : ∀ n ∈ l, Step g false c n) (hnl : ∀ n ∈ l, n ≠ c)
    (hsee : ∀ n ∈ l, S n → X n c) (hsym : ∀ n ∈ l, g.edgeKey n c = g.edgeKey c n) (done : List N)
    (st : PState N Q) (p : MPic N) (hS : ∀ v, S v ↔ st.color v = .green ∨ v = c)
    (h : PicI g w src color old S (fun u v => X u v ∨ (u = c ∧ v ∈ done)) st p) {st' : PState N Q} {p' : MPic N}
    (he : forNP g O c l st p = .ok (st', p')) :
    (∀ v, S v ↔ st'.color v = .green ∨ v = c) ∧
    PicI g w src color old S (fun u v => X u v ∨ (u = c ∧ (v ∈ l ∨ v ∈ done))) st' p' := by
  induction l generalizing done st p with
  | nil => cases he; exact ⟨hS, by simpa using h⟩
  | cons n l ih =>
    have hX : (fun u v => X u v ∨ (u = c ∧ (v ∈ n :: l ∨ v ∈ done))) = fun u v => X u v ∨ (u = c ∧ (v ∈ l ∨ v ∈ n :: done)) := by
      funext u v; simp only [List.mem_cons, eq_iff_iff]; tauto
    rw [hX]
    have ih' := ih (fun x hx => hl x (by simp [hx])) (fun x hx => hnl x (by simp [hx])) (fun x hx => hsee x (by simp [hx]))
      (fun x hx => hsym x (by simp [hx])) (n :: done)
    have hnc := hnl n (by simp)
    have hstep := hl n (by simp)
    have hstepX : ∀ u v, X u v ∨ (u = c ∧ v ∈ n :: done) → Step g false u v := by
      rintro u v (hx | ⟨rfl, hx⟩)
      · exact h.step u v (.inl hx)
      · rcases List.mem_cons.1 hx with rfl | hx
        · exact hstep
        · exact h.step _ v (.inr ⟨rfl, hx⟩)
    have hXm : ∀ u v, X u v ∨ (u = c ∧ v ∈ done) → X u v ∨ (u = c ∧ v ∈ n :: done) := by
      rintro u v (hx | hx)
      · exact .inl hx
      · exact .inr ⟨hx.1, by simp [hx.2]⟩
    unfold forNP at he
    by_cases hg : st.color n = .green
    · rw [if_pos hg] at he
      have hSn := (hS n).2 (.inl hg)
      refine ih' st p hS ?_ he
      refine ⟨fun v u hu => ⟨(h.link v u hu).1, hXm _ _ (h.link v u hu).2⟩, hstepX, h.tree, ?_, ?_, h.cost, h.label, h.unseen⟩
      · rintro a b (hx | ⟨rfl, hx⟩)
        · exact h.black a b (.inl hx)
        · rcases List.mem_cons.1 hx with rfl | hx
          · have := h.black b a (.inl (hsee b (by simp) hSn))
            rwa [hsym b (by simp)] at this
          · exact h.black _ b (.inr ⟨rfl, hx⟩)
      · intro e hne
        exact h.other e fun a b hx => hne a b (hXm a b hx)
    · rw [if_neg hg] at he
      have hSn : ¬ S n := by rw [hS]; rintro (h1 | h1); exacts [hg h1, hnc h1]
      unfold edgeP at he
      rw [touch_ok hstep, hw _ _ hstep] at he
      simp only [] at he
      have hkey : ∀ v u, S v → st.pred.get? v = some u → g.edgeKey u v ≠ g.edgeKey c n := by
        intro v u hv hu e
        rcases edgeKey_inj e with ⟨_, rfl⟩ | ⟨rfl, rfl⟩
        · exact hSn hv
        · exact hSn (h.link _ _ hu).1
      -- the colours after the edge has been looked at
      have hpic : ∀ lab : N → Val N, ∀ e, (MPic.paint g c n "black" ⟨(p.paint g c n "yellow").edge, lab⟩).edge e =
          if e = g.edgeKey c n then "black" else p.edge e := by
        intro lab e; simp only [MPic.paint, upd]; split <;> rfl
      cases him : improves O st n (w c n) with
      | error e => rw [him] at he; cases he
      | ok b =>
        rw [him] at he
        simp only [] at he
        cases b with
        | false =>
          simp only [Bool.false_eq_true, if_false] at he
          refine ih' st (MPic.paint g c n "black" ⟨(p.paint g c n "yellow").edge, p.label⟩) hS ?_ he
          refine ⟨fun v u hu => ⟨(h.link v u hu).1, hXm _ _ (h.link v u hu).2⟩, hstepX, ?_, ?_, ?_, h.cost, h.label, h.unseen⟩
          · intro v u hvs hv hu
            rw [hpic, if_neg (hkey v u hv hu)]; exact h.tree v u hvs hv hu
          · intro a b hx
            rw [hpic]
            by_cases hk : g.edgeKey a b = g.edgeKey c n
            · rw [if_pos hk]; exact .inr rfl
            · rw [if_neg hk]
              refine h.black a b ?_
              rcases hx with hx | ⟨rfl, hx⟩
              · exact .inl hx
              · rcases List.mem_cons.1 hx with rfl | hx
                · exact absurd rfl hk
                · exact .inr ⟨rfl, hx⟩
          · intro e hne
            rw [hpic, if_neg (hne c n (.inr ⟨rfl, by simp⟩))]
            exact h.other e fun a b hx => hne a b (hXm a b hx)
        | true =>
          simp only [if_true] at he
          have hget : ∀ v, v ≠ n → (relax O st c n (w c n)).pred.get? v = st.pred.get? v := by
            intro v hv; simp only [relax]; exact Dict.get?_set_ne _ _ (Ne.symm hv)
          have hgetn : (relax O st c n (w c n)).pred.get? n = some c := by simp [relax]
          have hgS : ∀ v, S v → (relax O st c n (w c n)).pred.get? v = st.pred.get? v :=
            fun v hv => hget v (by rintro rfl; exact hSn hv)
          refine ih' (relax O st c n (w c n)) (MPic.paint g c n "black" ⟨(p.paint g c n "yellow").edge, upd p.label n (.int (w c n))⟩) ?_ ?_ he
          · intro v
            by_cases hvn : v = n
            · subst hvn
              simp [relax, upd, hSn, hnc]
            · simp only [relax, upd, if_neg hvn]; exact hS v
          · refine ⟨?_, hstepX, ?_, ?_, ?_, ?_, ?_, ?_⟩
            · intro v u hu
              by_cases hvn : v = n
              · subst hvn
                rw [hgetn] at hu; cases hu
                exact ⟨hc, .inr ⟨rfl, by simp⟩⟩
              · rw [hget v hvn] at hu
                exact ⟨(h.link v u hu).1, hXm _ _ (h.link v u hu).2⟩
            · intro v u hvs hv hu
              rw [hgS v hv] at hu
              rw [hpic, if_neg (hkey v u hv hu)]; exact h.tree v u hvs hv hu
            · intro a b hx
              rw [hpic]
              by_cases hk : g.edgeKey a b = g.edgeKey c n
              · rw [if_pos hk]; exact .inr rfl
              · rw [if_neg hk]
                have := h.black a b (by
                  rcases hx with hx | ⟨rfl, hx⟩
                  · exact .inl hx
                  · rcases List.mem_cons.1 hx with rfl | hx
                    · exact absurd rfl hk
                    · exact .inr ⟨rfl, hx⟩)
                refine this.imp ?_ id
                rintro ⟨v, u, a1, a2, a3⟩
                exact ⟨v, u, a1, by rw [hgS v a1]; exact a2, a3⟩
            · intro e hne
              rw [hpic, if_neg (hne c n (.inr ⟨rfl, by simp⟩))]
              exact h.other e fun a b hx => hne a b (hXm a b hx)
            · intro v u hu
              by_cases hvn : v = n
              · subst hvn
                rw [hgetn] at hu; cases hu
                simp [MPic.paint, upd]
              · rw [hget v hvn] at hu
                simp only [MPic.paint, upd, if_neg hvn]; exact h.cost v u hu
            · intro v hu
              by_cases hvn : v = n
              · subst hvn; rw [hgetn] at hu; cases hu
              · rw [hget v hvn] at hu
                simp only [MPic.paint, upd, if_neg hvn]; exact h.label v hu
            · intro v hu hv
              by_cases hvn : v = n
              · subst hvn; rw [hgetn] at hu; cases hu
              · rw [hget v hvn] at hu
                simp only [relax, upd, if_neg hvn]; exact h.unseen v hu hv

theorem loopP_inv (hwf : g.Wf) (hd : g.directed = false) (hw : ∀ u v, Step g false u v → g.getEdgeCost u v = .ok (w u v))
    (hnl : NoLoop g false) (f : Nat) (st : PState N Q) (p : MPic N)
    (h : PicI g w src color old (fun v => st.color v = .green) (fun u v => st.color u = .green ∧ Step g false u v) st p)
    {st' : PState N Q} {p' : MPic N} (he : loopP g O src f st p = .ok (st', p')) :
    PicI g w src color old (fun v => st'.color v = .green) (fun u v => st'.color u = .green ∧ Step g false u v) st' p' := by
  induction f generalizing st p with
  | zero => cases he
  | succ f ih =>
    unfold loopP at he
    by_cases hem : O.isEmpty st.q
    · rw [if_pos hem] at he; cases he; exact h
    · rw [if_neg hem] at he
      cases hpk : O.peek st.q with
      | none => rw [hpk] at he; cases he
      | some c =>
        rw [hpk] at he
        simp only [] at he
        cases hb : bodyP g O src { st with q := O.remove st.q c } p c with
        | error e => rw [hb] at he; cases he
        | ok s =>
          obtain ⟨s1, p1⟩ := s
          rw [hb] at he
          simp only [] at he
          refine ih s1 p1 ?_ he
          unfold bodyP at hb
          cases ht : treeEdge g src { st with q := O.remove st.q c } c with
          | error e => rw [ht] at hb; cases hb
          | ok _ =>
            rw [ht] at hb
            simp only [] at hb
            cases hn : g.getNeighbors c with
            | error e => rw [hn] at hb; cases hb
            | ok l =>
              rw [hn] at hb
              simp only [] at hb
              have hcn : c ∈ g.getNodeList := by
                unfold Graph.getNeighbors at hn
                cases hk : g.neighbors.get? c with
                | none => rw [hk] at hn; cases hn
                | some x => exact Dict.mem_keys_of_get? hk
              obtain ⟨l', hl1, hl2⟩ := nbrs_ok hwf false hcn
              have hll : l = l' := by
                have : g.getNeighbors c = .ok l' := by simpa [nbrs] using hl1
                rw [hn] at this; cases this; rfl
              subst hll
              cases hf : forNP g O c l { { st with q := O.remove st.q c } with color := upd st.color c .blue }
                  (treeEdgeP g src { st with q := O.remove st.q c } p c) with
              | error e => rw [hf] at hb; cases hb
              | ok s =>
                obtain ⟨s2, p2⟩ := s
                rw [hf] at hb
                simp only [Except.ok.injEq, Prod.mk.injEq] at hb
                obtain ⟨rfl, rfl⟩ := hb
                have hsymS : ∀ u v, Step g false u v → Step g false v u := fun u v h => step_symm hd h
                have hkey : ∀ u v, Step g false u v → g.edgeKey v u = g.edgeKey u v := by
                  intro u v hs
                  have hs' : g.checkEdge u v = true := by simpa [Step] using hs
                  unfold Graph.checkEdge at hs'
                  rw [hd] at hs'
                  unfold Graph.edgeKey
                  by_cases h1 : g.edgeAttr.contains (u, v) = true
                  · rw [if_pos h1]
                    by_cases h2 : g.edgeAttr.contains (v, u) = true
                    · rw [if_pos h2, hwf.simple hd _ _ ((Dict.contains_iff _ _).1 h2) ((Dict.contains_iff _ _).1 h1)]
                    · rw [if_neg h2]
                  · rw [if_neg h1]
                    have h2 : g.edgeAttr.contains (v, u) = true := by simpa [h1] using hs'
                    rw [if_pos h2]
                have hpe : ∀ e, (treeEdgeP g src { st with q := O.remove st.q c } p c).edge e =
                    if c ≠ src ∧ ∃ u, st.pred.get? c = some u ∧ e = g.edgeKey u c then "green" else p.edge e := by
                  intro e
                  unfold treeEdgeP
                  by_cases hcs : c = src
                  · rw [if_pos hcs, if_neg (fun h => h.1 hcs)]
                  · rw [if_neg hcs]
                    simp only []
                    cases hq : st.pred.get? c with
                    | none => rw [if_neg]; rintro ⟨_, u, hu, _⟩; cases hu
                    | some u =>
                      simp only [MPic.paint, upd]
                      by_cases hk : e = g.edgeKey u c
                      · rw [if_pos hk, if_pos ⟨hcs, u, rfl, hk⟩]
                      · rw [if_neg hk, if_neg]
                        rintro ⟨_, u', hu', hk'⟩; cases hu'; exact hk hk'
                have hpl : (treeEdgeP g src { st with q := O.remove st.q c } p c).label = p.label := by
                  unfold treeEdgeP
                  by_cases hcs : c = src
                  · rw [if_pos hcs]
                  · rw [if_neg hcs]; simp only []; cases st.pred.get? c <;> rfl
                have key := forNP_inv (g := g) (O := O) (src := src) (w := w) (color := color) (old := old) hw
                  (c := c) (S := fun v => st.color v = .green ∨ v = c) (.inr rfl)
                  (fun u v => st.color u = .green ∧ Step g false u v) l (fun n hn => (hl2 n).1 hn)
                  (by intro n hn e; rw [e] at hn; exact hnl _ ((hl2 _).1 hn))
                  (by
                    rintro n hn (h1 | h1)
                    · exact ⟨h1, hsymS _ _ ((hl2 n).1 hn)⟩
                    · rw [h1] at hn; exact absurd ((hl2 _).1 hn) (hnl _))
                  (fun n hn => hkey _ _ ((hl2 n).1 hn)) [] _ _
                  (by
                    intro v
                    by_cases hv : v = c
                    · simp [hv]
                    · simp [upd, hv]) ?_ hf
                · obtain ⟨k1, k2⟩ := key
                  have hgr : ∀ v, (upd s2.color c .green) v = .green ↔ st.color v = .green ∨ v = c := by
                    intro v
                    rw [k1]
                    by_cases hv : v = c
                    · simp [upd, hv]
                    · simp [upd, hv]
                  have hXX : ∀ u v, (upd s2.color c .green) u = .green ∧ Step g false u v ↔
                      (st.color u = .green ∧ Step g false u v) ∨ (u = c ∧ (v ∈ l ∨ v ∈ ([] : List N))) := by
                    intro u v
                    rw [hgr]
                    constructor
                    · rintro ⟨h1 | rfl, h2⟩
                      · exact .inl ⟨h1, h2⟩
                      · exact .inr ⟨rfl, .inl ((hl2 v).2 h2)⟩
                    · rintro (h1 | ⟨rfl, h1⟩)
                      · exact ⟨.inl h1.1, h1.2⟩
                      · exact ⟨.inr rfl, (hl2 v).1 (by simpa using h1)⟩
                  refine ⟨?_, ?_, ?_, ?_, ?_, k2.cost, k2.label, ?_⟩
                  · intro v u hu
                    exact ⟨(hgr u).2 (k2.link v u hu).1, (hXX u v).2 (k2.link v u hu).2⟩
                  · intro u v hx; exact hx.2
                  · intro v u hvs hv hu; exact k2.tree v u hvs ((hgr v).1 hv) hu
                  · intro a b hx
                    refine (k2.black a b ((hXX a b).1 hx)).imp ?_ id
                    rintro ⟨v, u, a1, a2⟩
                    exact ⟨v, u, (hgr v).2 a1, a2⟩
                  · intro e hne; exact k2.other e fun a b hx => hne a b ((hXX a b).2 hx)
                  · intro v hu hv
                    have hv' := mt (hgr v).2 hv
                    have hvc : v ≠ c := fun h => hv' (.inr h)
                    simp only [upd, if_neg hvc]
                    exact k2.unseen v hu hv'
                · refine ⟨?_, ?_, ?_, ?_, ?_, ?_, ?_, ?_⟩
                  · intro v u hu
                    exact ⟨.inl (h.link v u hu).1, .inl (h.link v u hu).2⟩
                  · rintro u v (hx | ⟨_, hx⟩)
                    · exact hx.2
                    · cases hx
                  · intro v u hvs hv hu
                    simp only [] at hu
                    rw [hpe]
                    by_cases hk : c ≠ src ∧ ∃ u', st.pred.get? c = some u' ∧ g.edgeKey u v = g.edgeKey u' c
                    · rw [if_pos hk]
                    · rw [if_neg hk]
                      rcases hv with hv | rfl
                      · exact h.tree v u hvs hv hu
                      · exact absurd ⟨hvs, u, hu, rfl⟩ hk
                  · rintro a b (hx | ⟨_, hx⟩)
                    · rw [hpe]
                      by_cases hk : c ≠ src ∧ ∃ u', st.pred.get? c = some u' ∧ g.edgeKey a b = g.edgeKey u' c
                      · obtain ⟨_, u', hu', hk'⟩ := hk
                        exact .inl ⟨c, u', .inr rfl, hu', hk'.symm⟩
                      · rw [if_neg hk]
                        refine (h.black a b hx).imp ?_ id
                        rintro ⟨v, u, a1, a2⟩
                        exact ⟨v, u, .inl a1, a2⟩
                    · cases hx
                  · intro e hne
                    rw [hpe, if_neg]
                    · exact h.other e fun a b hx => hne a b (.inl hx)
                    · rintro ⟨_, u, hu, hk⟩
                      exact hne u c (.inl (h.link c u hu).2) hk
                  · intro v u hu; rw [hpl]; exact h.cost v u hu
                  · intro v hu; rw [hpl]; exact h.label v hu
                  · intro v hu hv
                    rw [not_or] at hv
                    simp only [upd, if_neg hv.2]
                    exact h.unseen v hu hv.1

end Prim
end GiMPy
