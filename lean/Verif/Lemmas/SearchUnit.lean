import Verif.Lemmas.SearchPQ

/-! # Breadth first search over a priority queue (graph.py 1216-1226) -/

namespace GiMPy
namespace Search
variable {N : Type} [DecidableEq N] {Q : Type}
variable {g : Graph N} {O : QOps N Q} {items : Q → List N} {rev : Bool} {src : N}
set_option linter.unusedSectionVars false

/-- invariant of the `while` loop: priorities in the queue are the distances, finished nodes are no farther than waiting
ones -/
structure AUnit (g : Graph N) (rev : Bool) (O : QOps N Q) (items : Q → List N) (src : N) (comp : Option Int)
    (c0 : N → Option Int) (st : SState N Q) : Prop extends ABag src comp c0 st where
  ng : ∀ x ∈ items st.q, st.color x ≠ .green
  pri : ∀ x ∈ items st.q, O.getPriority st.q x = st.dist x
  walk : ∀ v d, st.dist v = some d → ∃ k : Nat, d = k ∧ WalkLen (Step g rev) src k v
  src0 : st.dist src = some 0
  order : ∀ u, st.color u = .green → ∀ x ∈ items st.q, dv st u ≤ dv st x
  tri : ∀ u v, st.color u = .green → Step g rev u v → dv st v ≤ dv st u + 1
  links : ∀ v p, st.pred.get? v = some p → dv st v = dv st p + 1

/-- the same inside the `for` loop -/
structure KUnit (g : Graph N) (rev : Bool) (O : QOps N Q) (items : Q → List N) (src : N) (comp : Option Int)
    (c0 : N → Option Int) (c : N) (done : List N) (st : SState N Q) : Prop
    extends AUnit g rev O items src comp c0 st where
  min : ∀ x ∈ items st.q, dv st c ≤ dv st x
  doneLe : ∀ n ∈ done, dv st n ≤ dv st c + 1

theorem processEdge_unit {algo : Algo} (ha : algo = .bfs ∨ algo = .unweightedSPT) (hO : O.isPQ = true) (comp : Option Int)
    (st : SState N Q) (c n : N) {d : Int} (hd : st.dist c = some d) :
    processEdge g O algo comp st c n =
      if (match O.getPriority st.q n with | some p => decide (d + 1 ≥ p) | none => false) then .ok st
      else .ok (finishEdge comp { st with q := O.pushP st.q n (d + 1), dist := upd st.dist n (some (d + 1)) } c n) := by
  rcases ha with rfl | rfl <;> simp only [processEdge, hd, hO, if_true, reduceCtorEq, if_false] <;> rfl

theorem inv_unit (hp : LawfulPQ O items) {algo : Algo} (ha : algo = .bfs ∨ algo = .unweightedSPT) (comp : Option Int)
    (c0 : N → Option Int) :
    Inv g O items rev src True algo comp (AUnit g rev O items src comp c0) (KUnit g rev O items src comp c0) where
  drop st t c hB hA hpk hc hg := absurd hg (hA.ng c hc)
  enter st t c hB hA hpk hc hg := by
    have hgr : ∀ x, upd st.color c .blue x = .green ↔ st.color x = .green := by
      intro x
      by_cases hx : x = c
      · subst hx; simp [hg]
      · rw [upd_ne _ _ hx]
    refine ⟨⟨⟨hA.dist, hA.comp⟩, fun x hx h => hA.ng x hx ((hgr x).1 h), hA.pri, hA.walk, hA.src0,
      fun u hu => hA.order u ((hgr u).1 hu), fun u v hu => hA.tri u v ((hgr u).1 hu), hA.links⟩, ?_, by simp⟩
    intro x hx
    have h1 := peek_le hp hpk hc x hx
    unfold qv at h1
    rw [hA.pri c hc, hA.pri x hx] at h1
    exact h1
  green c t len0 color0 done n st hM hA hg hs := by
    refine ⟨hA.toAUnit, hA.min, ?_⟩
    intro m hm
    rcases List.mem_cons.1 hm with rfl | hm
    · have := hA.order m hg c hM.curItem
      omega
    · exact hA.doneLe m hm
  pe c t len0 color0 done n st hM hA hg hs := by
    have hcng := hM.curNG
    obtain ⟨d, hd⟩ := Option.isSome_iff_exists.1 ((hA.dist c).2 (hM.item c hM.curItem))
    have hdc : dv st c = d := by simp [dv, hd]
    rw [processEdge_unit ha hp.isPQ comp st c n hd]
    have hk : ∀ p, O.getPriority st.q n = some p → n ∈ items st.q ∧ dv st n = p := by
      intro p h
      have hn := (hp.prio_isSome st.q n).1 (by simp [h])
      exact ⟨hn, by simp [dv, ← hA.pri n hn, h]⟩
    by_cases hc : (match O.getPriority st.q n with | some p => decide (d + 1 ≥ p) | none => false) = true
    · rw [if_pos hc]
      cases hpn : O.getPriority st.q n with
      | none => rw [hpn] at hc; simp at hc
      | some p =>
        rw [hpn] at hc
        simp only [decide_eq_true_eq] at hc
        obtain ⟨h1, h2⟩ := hk p hpn
        refine ⟨st, rfl, .inl ⟨rfl, rfl, rfl, hM.item n h1⟩, hA.toAUnit, hA.min, ?_⟩
        intro m hm
        rcases List.mem_cons.1 hm with rfl | hm
        · omega
        · exact hA.doneLe m hm
    · rw [if_neg hc]
      have hlt : n ∈ items st.q → d + 1 < dv st n := by
        intro hn
        obtain ⟨p, hpn⟩ := Option.isSome_iff_exists.1 ((hp.prio_isSome st.q n).2 hn)
        rw [hpn] at hc
        simp only [decide_eq_true_eq] at hc
        rw [(hk p hpn).2]
        omega
      have hnc : n ≠ c := by
        rintro rfl
        have := hlt hM.curItem
        omega
      obtain ⟨kd, hkd, hwd⟩ := hA.walk c d hd
      have hns : n ≠ src := by
        rintro rfl
        have h1 := hlt ((hM.disc n (.inl rfl)).resolve_left hg)
        have h2 : dv st n = 0 := by simp [dv, hA.src0]
        omega
      have hDn : D src st n → n ∈ items st.q := fun h => (hM.disc n h).resolve_left hg
      refine ⟨_, rfl, .inr ⟨rfl, fun y => hp.mem_pushP _ _ _ _, hp.len_pushP _ _ _, ⟨.red, by simp, rfl⟩, fun _ => hnc⟩, ?_⟩
      have hbag := abag_take hA.toABag (O.pushP st.q n (d + 1)) c n (d + 1)
      generalize hst' : finishEdge comp { st with q := O.pushP st.q n (d + 1), dist := upd st.dist n (some (d + 1)) } c n = st'
        at hbag ⊢
      have hq : st'.q = O.pushP st.q n (d + 1) := by rw [← hst']; rfl
      have hdist : st'.dist = upd st.dist n (some (d + 1)) := by rw [← hst']; rfl
      have hpred : st'.pred = st.pred.set n c := by rw [← hst']; rfl
      have hcol : st'.color = upd st.color n .red := by rw [← hst']; rfl
      have hgr : ∀ x, st'.color x = .green ↔ st.color x = .green := by
        intro x
        rw [hcol]
        by_cases hx : x = n
        · subst hx; simp [hg]
        · rw [upd_ne _ _ hx]
      have hit : ∀ y, y ∈ items st'.q ↔ y = n ∨ y ∈ items st.q := by intro y; rw [hq]; exact hp.mem_pushP _ _ _ _
      have hdv : ∀ x, x ≠ n → dv st' x = dv st x := by intro x hx; unfold dv; rw [hdist, upd_ne _ _ hx]
      have hdvn : dv st' n = d + 1 := by unfold dv; rw [hdist]; simp
      have hdvc : dv st' c = d := by rw [hdv c (Ne.symm hnc), hdc]
      refine ⟨⟨hbag, ?_, ?_, ?_, ?_, ?_, ?_, ?_⟩, ?_, ?_⟩
      · intro x hx h
        rcases (hit x).1 hx with rfl | hx
        · exact hg ((hgr x).1 h)
        · exact hA.ng x hx ((hgr x).1 h)
      · intro x hx
        rw [hq, hp.prio_push, hdist]
        by_cases hxn : x = n
        · subst hxn; simp
        · rw [if_neg hxn, upd_ne _ _ hxn]
          exact hA.pri x (((hit x).1 hx).resolve_left hxn)
      · intro v e he
        rw [hdist] at he
        by_cases hvn : v = n
        · subst hvn
          rw [upd_same] at he
          cases he
          exact ⟨kd + 1, by omega, .snoc hwd hs⟩
        · rw [upd_ne _ _ hvn] at he
          exact hA.walk v e he
      · rw [hdist, upd_ne _ _ (Ne.symm hns)]; exact hA.src0
      · intro u hu x hx
        have hu' := (hgr u).1 hu
        have hun : u ≠ n := by rintro rfl; exact hg hu'
        rw [hdv u hun]
        have h1 := hA.order u hu' c hM.curItem
        by_cases hxn : x = n
        · subst hxn; omega
        · rw [hdv x hxn]; exact hA.order u hu' x (((hit x).1 hx).resolve_left hxn)
      · intro u v hu huv
        have hu' := (hgr u).1 hu
        have hun : u ≠ n := by rintro rfl; exact hg hu'
        rw [hdv u hun]
        have h1 := hA.tri u v hu' huv
        by_cases hvn : v = n
        · subst hvn
          have := hlt (hDn ((hM.closed u hu').2 v huv))
          omega
        · rw [hdv v hvn]; exact h1
      · intro v p hv
        rw [hpred, Dict.get?_set] at hv
        split at hv
        · next hvn =>
          subst hvn
          obtain rfl := Option.some.inj hv
          rw [hdvn, hdvc]
        · next hvn =>
          have hpn : p ≠ n := by
            rintro rfl
            rcases (hM.link v p hv).2 with h | h
            · exact hg h
            · exact hnc h
          rw [hdv v (Ne.symm hvn), hdv p hpn]; exact hA.links v p hv
      · intro x hx
        rw [hdvc]
        by_cases hxn : x = n
        · subst hxn; omega
        · rw [hdv x hxn, ← hdc]; exact hA.min x (((hit x).1 hx).resolve_left hxn)
      · intro m hm
        rw [hdvc]
        by_cases hmn : m = n
        · subst hmn; omega
        · rw [hdv m hmn, ← hdc]
          exact hA.doneLe m ((List.mem_cons.1 hm).resolve_left hmn)
  leave c t len0 color0 done st hM hA hdone := by
    have hgr : ∀ x, upd st.color c .green x = .green ↔ st.color x = .green ∨ x = c := by
      intro x
      by_cases hx : x = c
      · subst hx; simp
      · rw [upd_ne _ _ hx]; simp [hx]
    have hit := mem_remove_iff hp hM.curItem
    refine ⟨⟨hA.dist, hA.comp⟩, ?_, ?_, hA.walk, hA.src0, ?_, ?_, hA.links⟩
    · intro x hx h
      have hx := (hit x).1 hx
      exact ((hgr x).1 h).elim (hA.ng x hx.2) hx.1
    · intro x hx
      have hx := (hit x).1 hx
      show O.getPriority (O.remove st.q c) x = _
      rw [hp.prio_remove st.q c hM.curItem, if_neg hx.1]
      exact hA.pri x hx.2
    · intro u hu x hx
      have hx := (hit x).1 hx
      rcases (hgr u).1 hu with h | rfl
      · exact hA.order u h x hx.2
      · exact hA.min x hx.2
    · intro u v hu hs
      rcases (hgr u).1 hu with h | rfl
      · exact hA.tri u v h hs
      · exact hA.doneLe v ((hdone v).2 hs)

theorem aunit_start (hp : LawfulPQ O items) {algo : Algo} (ha : algo = .bfs ∨ algo = .unweightedSPT)
    (hsrc : src ∈ g.getNodeList) (comp : Option Int) (col : SState N Q) (hq : items col.q = []) :
    AUnit g rev O items src comp col.comp (start O algo comp src col) := by
  have hpl : Algo.plain algo := by rcases ha with rfl | rfl <;> trivial
  obtain ⟨_, h2, _⟩ := base_start (g := g) (rev := rev) (NS := True) hp.toLawfulBag hsrc algo comp col hq
  obtain ⟨h1, hc, _⟩ := start_fields (O := O) (src := src) algo comp col
  have hd : ∀ v, (start O algo comp src col).dist v = if v = src then some 0 else none := by
    intro v
    rcases ha with rfl | rfl <;> rfl
  have hqq : (start O algo comp src col).q = O.pushP col.q src 0 := by
    rcases ha with rfl | rfl <;> simp [start, processSource, hp.isPQ]
  refine ⟨abag_start hpl comp col, ?_, ?_, ?_, ?_, ?_, ?_, ?_⟩
  · intro x _; rw [hc]; simp
  · intro x hx
    rw [hd, hqq, hp.prio_push]
    rw [if_pos ((h2 x).1 hx), if_pos ((h2 x).1 hx)]
  · intro v d hv
    rw [hd] at hv
    split at hv
    · next h => subst h; cases hv; exact ⟨0, rfl, .nil⟩
    · cases hv
  · rw [hd, if_pos rfl]
  · intro u hu; rw [hc] at hu; cases hu
  · intro u v hu; rw [hc] at hu; cases hu
  · intro v p hv; rw [h1] at hv; cases hv

theorem unit_bound {NS} {comp c0} {st : SState N Q} {t} (hB : Base g items rev src NS st t)
    (hA : AUnit g rev O items src comp c0 st) {x : Nat} {v : N} (hwk : WalkLen (Step g rev) src x v) :
    (D src st v ∧ dv st v ≤ x) ∨ ∃ y ∈ items st.q, dv st y ≤ x := by
  induction hwk with
  | nil => exact .inl ⟨.inl rfl, by simp [dv, hA.src0]⟩
  | @snoc x v u _ hs ih =>
    rcases ih with ⟨h1, h2⟩ | ⟨y, hy, h2⟩
    · rcases hB.disc v h1 with h3 | h3
      · have := hA.tri v u h3 hs
        exact .inl ⟨(hB.closed v h3).2 u hs, by push_cast; omega⟩
      · exact .inr ⟨v, h3, by push_cast; omega⟩
    · exact .inr ⟨y, hy, by push_cast; omega⟩

theorem unit_chain_len {comp c0} {st : SState N Q} (hA : AUnit g rev O items src comp c0 st) {P : N → Prop} {k : Nat} {v : N}
    (h : PC st.pred src P k v) : dv st v = k := by
  induction h with
  | src => simp [dv, hA.src0]
  | step _ _ hl ih => rw [hA.links _ _ hl, ih]; push_cast; rfl

end Search
end GiMPy
