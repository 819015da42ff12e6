import Verif.Model.Prim
import Verif.Lemmas.Components

/-! # Invariant of `minimum_spanning_tree_prim` -/

namespace GiMPy
namespace Prim
open Search
variable {N : Type} [DecidableEq N] {Q : Type}
variable {g : Graph N} {O : QOps N Q} {items : Q → List N} {src : N} {w : N → N → Int} {V : List N}
set_option linter.unusedSectionVars false

/-- discovered -/
def Dd (src : N) (st : PState N Q) (v : N) : Prop := v = src ∨ v ∈ st.pred.keys

/-- Invariant; `S` is the set of popped nodes and `E u v` says that the edge has been looked at from `u`. -/
structure PInv (g : Graph N) (w : N → N → Int) (O : QOps N Q) (items : Q → List N) (src : N) (V : List N)
    (S : N → Prop) (E : N → N → Prop) (st : PState N Q) : Prop where
  pnd : st.pred.keys.Nodup
  item : ∀ x ∈ items st.q, Dd src st x ∧ ¬ S x
  disc : ∀ v, Dd src st v → S v ∨ v ∈ items st.q
  reach : ∀ v, Dd src st v → Reach g false src v
  sD : ∀ v, S v → Dd src st v
  closed : ∀ u v, S u → Step g false u v → E u v →
    Dd src st v ∧ (S v ∨ ∃ p, O.getPriority st.q v = some p ∧ p ≤ w u v)
  link : ∀ v p, st.pred.get? v = some p → Step g false p v ∧ S p
  nosrc : src ∉ st.pred.keys
  srcS : S src ∨ ∀ x ∈ items st.q, x = src
  pk : ∀ x p, ¬ S x → st.pred.get? x = some p → O.getPriority st.q x = some (w p x)
  chain : ∀ v, Dd src st v → ∃ k, PC st.pred src S k v
  greedy : Greedy (Step g false) w V src st.pred S

/-- popping a node -/
theorem pinv_pop (hp : LawfulPQ O items) (hsym : ∀ u v, Step g false u v → Step g false v u)
    (hwsym : ∀ u v, Step g false u v → w u v = w v u) (hV : ∀ v, v ∈ V ↔ Reach g false src v)
    {S : N → Prop} {st : PState N Q} {c : N} (h : PInv g w O items src V S (fun _ _ => True) st)
    (hpk : O.peek st.q = some c) (hc : c ∈ items st.q) (col : N → Color) :
    PInv g w O items src V (fun x => S x ∨ x = c) (fun u _ => u ≠ c)
      { st with q := O.remove st.q c, color := col } := by
  have hit := mem_remove_iff hp hc
  have hcS := (h.item c hc).2
  refine ⟨h.pnd, ?_, ?_, h.reach, ?_, ?_, ?_, h.nosrc, ?_, ?_, ?_, ?_⟩
  · intro x hx
    have := (hit x).1 hx
    exact ⟨(h.item x this.2).1, not_or.2 ⟨(h.item x this.2).2, this.1⟩⟩
  · intro v hv
    by_cases hvc : v = c
    · exact Or.inl (Or.inr hvc)
    · exact (h.disc v hv).imp Or.inl fun h => (hit v).2 ⟨hvc, h⟩
  · rintro v (hv | rfl)
    · exact h.sD v hv
    · exact (h.item _ hc).1
  · rintro u v hu hs hne
    obtain ⟨h1, h2⟩ := h.closed u v (hu.resolve_right hne) hs trivial
    refine ⟨h1, ?_⟩
    by_cases hvc : v = c
    · exact Or.inl (Or.inr hvc)
    · rcases h2 with h2 | ⟨p, h2, h3⟩
      · exact Or.inl (Or.inl h2)
      · exact Or.inr ⟨p, by show O.getPriority (O.remove st.q c) v = _; rw [hp.prio_remove _ _ hc, if_neg hvc]; exact h2, h3⟩
  · intro v p hv
    exact ⟨(h.link v p hv).1, Or.inl (h.link v p hv).2⟩
  · rcases h.srcS with h1 | h1
    · exact Or.inl (Or.inl h1)
    · exact Or.inl (Or.inr (h1 c hc).symm)
  · intro x p hx hxp
    rw [not_or] at hx
    show O.getPriority (O.remove st.q c) x = _
    rw [hp.prio_remove _ _ hc, if_neg hx.2]
    exact h.pk x p hx.1 hxp
  · intro v hv
    obtain ⟨k, hk⟩ := h.chain v hv
    exact ⟨k, hk.mono fun _ => Or.inl⟩
  · show Greedy (Step g false) w V src st.pred fun x => S x ∨ x = c
    by_cases hcs : c = src
    · refine h.greedy.congr ?_
      intro p v hv
      have : v ≠ c := by rintro rfl; exact hv hcs
      simp only [this, or_false]
    · obtain ⟨p, hpc⟩ := (Dict.mem_keys' _ _).1 ((h.item c hc).1.resolve_left hcs)
      have hlink := h.link c p hpc
      obtain ⟨F, h1, h2, h3⟩ := h.greedy
      have hpV : p ∈ V := (hV p).2 (h.reach p (h.sD p hlink.2))
      have hcV : c ∈ V := (hV c).2 (h.reach c (h.item c hc).1)
      refine ⟨(p, c) :: F, ?_, ?_, ?_⟩
      · refine List.nodup_cons.2 ⟨?_, h1⟩
        intro h; exact hcS ((h2 p c).1 h).2.1
      · intro q v
        rw [List.mem_cons, h2]
        by_cases hvc : v = c
        · subst hvc
          simp only [Prod.mk.injEq, and_true, hcs, ne_eq, not_false_eq_true, true_and, or_true, hpc,
            Option.some.injEq, hcS, false_and, or_false]
          exact eq_comm
        · simp only [Prod.mk.injEq, hvc, and_false, false_or, or_false]
      · intro T hT
        obtain ⟨T1, t1, t2, t3⟩ := h3 T hT
        obtain ⟨T2, s1, s2, s3⟩ := exchange hsym hwsym t1 t3 S
          (by
            rintro ⟨a, b⟩ hab
            have hab := (h2 a b).1 hab
            have := h.link b a hab.2.2
            simp only [this.2, hab.2.1])
          hpV hcV hlink.2 hcS hlink.1
          (by
            intro x y _ _ hx hy hxy
            obtain ⟨_, h5⟩ := h.closed x y hx hxy trivial
            obtain ⟨py, h6, h7⟩ := h5.resolve_left hy
            exact Int.le_trans (hp.peek_min _ _ _ _ _ hpk (h.pk c p hcS hpc) h6) h7)
        exact ⟨T2, s1, Int.le_trans s2 t2, s3⟩

theorem PInv.weaken {S S' : N → Prop} {E E' : N → N → Prop} {st : PState N Q} (h : PInv g w O items src V S E st)
    (hS : ∀ x, S' x ↔ S x)
    (hE : ∀ u v, S u → Step g false u v → E' u v → E u v ∨ S v) (col : N → Color) :
    PInv g w O items src V S' E' { st with color := col } := by
  obtain rfl : S' = S := funext fun x => propext (hS x)
  exact { h with
    closed := fun u v hu hs he => by
      rcases hE u v hu hs he with h1 | h1
      · exact h.closed u v hu hs h1
      · exact ⟨h.sD v h1, Or.inl h1⟩ }

/-- relaxing an edge -/
theorem pinv_relax (hp : LawfulPQ O items) {S : N → Prop} {E : N → N → Prop} {st : PState N Q} {c n : N}
    (h : PInv g w O items src V S E st) (hc : S c) (hsrc : S src) (hn : ¬ S n) (hs : Step g false c n)
    (hlt : ∀ p, O.getPriority st.q n = some p → n ∈ st.pred.keys → w c n < p) :
    PInv g w O items src V S (fun u v => E u v ∨ (u = c ∧ v = n)) (relax O st c n (w c n)) := by
  have hns : n ≠ src := by rintro rfl; exact hn hsrc
  have hD : ∀ v, Dd src (relax O st c n (w c n)) v ↔ v = n ∨ Dd src st v := by
    intro v; unfold Dd relax; simp only [Dict.mem_keys_set]; tauto
  have hit : ∀ y, y ∈ items (relax O st c n (w c n)).q ↔ y = n ∨ y ∈ items st.q := fun y => hp.mem_pushP _ _ _ _
  have hpr : ∀ y, O.getPriority (relax O st c n (w c n)).q y = if y = n then some (w c n) else O.getPriority st.q y :=
    fun y => hp.prio_push _ _ _ _
  have hpred : (relax O st c n (w c n)).pred = st.pred.set n c := rfl
  refine ⟨?_, ?_, ?_, ?_, ?_, ?_, ?_, ?_, Or.inl hsrc, ?_, ?_, ?_⟩
  · rw [hpred]; exact Dict.nodup_keys_set h.pnd _ _
  · intro x hx
    rw [hD]
    rcases (hit x).1 hx with rfl | hx
    · exact ⟨Or.inl rfl, hn⟩
    · exact ⟨Or.inr (h.item x hx).1, (h.item x hx).2⟩
  · intro v hv
    rw [hit]
    rcases (hD v).1 hv with rfl | hv
    · exact Or.inr (Or.inl rfl)
    · exact (h.disc v hv).imp id Or.inr
  · intro v hv
    rcases (hD v).1 hv with rfl | hv
    · exact (h.reach c (h.sD c hc)).tail hs
    · exact h.reach v hv
  · intro v hv; exact (hD v).2 (Or.inr (h.sD v hv))
  · intro u v hu huv he
    rw [hD, hpr]
    by_cases hvn : v = n
    · subst hvn
      refine ⟨Or.inl rfl, Or.inr ⟨_, if_pos rfl, ?_⟩⟩
      rcases he with he | ⟨rfl, _⟩
      · obtain ⟨h1, h2⟩ := h.closed u v hu huv he
        obtain ⟨p, h3, h4⟩ := h2.resolve_left hn
        have := hlt p h3 (h1.resolve_left hns)
        omega
      · exact Int.le_refl _
    · rw [if_neg hvn]
      have := h.closed u v hu huv (he.resolve_right fun h => hvn h.2)
      exact ⟨Or.inr this.1, this.2⟩
  · intro v p hv
    rw [hpred, Dict.get?_set] at hv
    split at hv
    · next hvn => subst hvn; obtain rfl := Option.some.inj hv; exact ⟨hs, hc⟩
    · exact h.link v p hv
  · rw [hpred, Dict.mem_keys_set]
    rintro (h1 | h1)
    · exact hns h1.symm
    · exact h.nosrc h1
  · intro x p hx hxp
    rw [hpred, Dict.get?_set] at hxp
    rw [hpr]
    split at hxp
    · next hxn => subst hxn; obtain rfl := Option.some.inj hxp; simp
    · next hxn => rw [if_neg (Ne.symm hxn)]; exact h.pk x p hx hxp
  · intro v hv
    rw [hpred]
    by_cases hvn : v = n
    · subst hvn
      obtain ⟨k, hk⟩ := h.chain c (h.sD c hc)
      exact ⟨k + 1, .step (hk.set_in hn hc) hc (Dict.get?_set_self _ _ _)⟩
    · obtain ⟨k, hk⟩ := h.chain v (((hD v).1 hv).resolve_left hvn)
      exact ⟨k, hk.set_ne hn hvn⟩
  · refine h.greedy.congr ?_
    intro p v _
    rw [hpred, Dict.get?_set]
    by_cases hvn : n = v
    · subst hvn; simp [hn]
    · simp [hvn]

/-- the `for` loop -/
theorem forN_ok (hp : LawfulPQ O items) (hw : HasCosts g false w) (hnl : NoLoop g false) {c : N} {S : N → Prop}
    (hc : S c) (hsrc : S src) :
    ∀ (l done : List N) (st : PState N Q), (∀ n ∈ l, Step g false c n) →
      (∀ x, S x ↔ st.color x = .green ∨ x = c) →
      PInv g w O items src V S (fun u v => u ≠ c ∨ v ∈ done) st →
      ∃ st', forN g O c l st = .ok st' ∧ (∀ x, S x ↔ st'.color x = .green ∨ x = c) ∧
        PInv g w O items src V S (fun u v => u ≠ c ∨ v ∈ l ∨ v ∈ done) st'
  | [], done, st, _, hcol, h => ⟨st, rfl, hcol, h.weaken (fun _ => Iff.rfl) (fun u v _ _ h => Or.inl (by simpa using h)) _⟩
  | n :: l, done, st, hl, hcol, h => by
    have hs := hl n (by simp)
    have hfin : ∀ st', PInv g w O items src V S (fun u v => u ≠ c ∨ v ∈ l ∨ v ∈ n :: done) st' →
        PInv g w O items src V S (fun u v => u ≠ c ∨ v ∈ n :: l ∨ v ∈ done) st' := fun st' h =>
      h.weaken (fun _ => Iff.rfl) (fun u v _ _ h => Or.inl (by
        simp only [List.mem_cons] at h ⊢; tauto)) _
    rw [forN]
    by_cases hg : st.color n = .green
    · rw [if_pos hg]
      have h' : PInv g w O items src V S (fun u v => u ≠ c ∨ v ∈ n :: done) st :=
        h.weaken (fun _ => Iff.rfl) (fun u v _ _ h => by
          simp only [List.mem_cons] at h
          rcases h with h | rfl | h
          · exact Or.inl (Or.inl h)
          · exact Or.inr ((hcol _).2 (Or.inl hg))
          · exact Or.inl (Or.inr h)) _
      obtain ⟨st', a, b, d⟩ := forN_ok hp hw hnl hc hsrc l (n :: done) st (fun m hm => hl m (by simp [hm])) hcol h'
      exact ⟨st', a, b, hfin st' d⟩
    · rw [if_neg hg]
      have hnc : n ≠ c := by rintro rfl; exact hnl _ hs
      have hnS : ¬ S n := by rw [hcol]; simp [hg, hnc]
      have htouch : touch g false c n = .ok () := by
        have : g.checkEdge c n = true := by simpa [Step] using hs
        simp [touch, this]
      have key : ∃ st', edge g O st c n = .ok st' ∧ (∀ x, S x ↔ st'.color x = .green ∨ x = c) ∧
          PInv g w O items src V S (fun u v => u ≠ c ∨ v ∈ n :: done) st' := by
        unfold edge
        rw [htouch]
        simp only [hw c n hs]
        have hrel : (∀ p, O.getPriority st.q n = some p → n ∈ st.pred.keys → w c n < p) →
            (∀ x, S x ↔ (relax O st c n (w c n)).color x = .green ∨ x = c) ∧
            PInv g w O items src V S (fun u v => u ≠ c ∨ v ∈ n :: done) (relax O st c n (w c n)) := by
          intro hlt
          refine ⟨?_, (pinv_relax hp h hc hsrc hnS hs hlt).weaken (fun _ => Iff.rfl) (fun u v _ _ h => Or.inl ?_) _⟩
          · intro x
            rw [hcol]
            show _ ↔ upd st.color n .black x = .green ∨ _
            by_cases hx : x = n
            · subst hx; simp [hg]
            · rw [upd_ne _ _ hx]
          · simp only [List.mem_cons] at h
            by_cases huc : u = c
            · subst huc; simp only [ne_eq, not_true_eq_false, false_or, true_and] at h ⊢; exact h.symm
            · exact Or.inl (Or.inl huc)
        by_cases hk : n ∈ st.pred.keys
        · have hni := (h.disc n (Or.inr hk)).resolve_left hnS
          obtain ⟨p, hpn⟩ := Option.isSome_iff_exists.1 ((hp.prio_isSome st.q n).2 hni)
          have him : improves O st n (w c n) = .ok (decide (w c n < p)) := by
            unfold improves
            rw [if_pos ((Dict.contains_iff _ _).2 hk), hpn]
          rw [him]
          simp only [decide_eq_true_eq]
          by_cases hlt : w c n < p
          · rw [if_pos hlt]
            exact ⟨_, rfl, hrel fun p' h1 _ => by rw [hpn] at h1; obtain rfl := Option.some.inj h1; exact hlt⟩
          · rw [if_neg hlt]
            refine ⟨_, rfl, hcol, ?_⟩
            exact { h with
              closed := fun u v hu huv he => by
                simp only [List.mem_cons] at he
                rcases he with he | rfl | he
                · exact h.closed u v hu huv (Or.inl he)
                · by_cases huc : u = c
                  · subst huc
                    exact ⟨Or.inr hk, Or.inr ⟨p, hpn, by omega⟩⟩
                  · exact h.closed u v hu huv (Or.inl huc)
                · exact h.closed u v hu huv (Or.inr he) }
        · have him : improves O st n (w c n) = .ok true := by
            unfold improves
            rw [if_neg (by rw [Dict.contains_iff]; exact hk)]
          rw [him]
          exact ⟨_, rfl, hrel fun _ _ h => absurd h hk⟩
      obtain ⟨st1, e1, e2, e3⟩ := key
      rw [e1]
      obtain ⟨st', a, b, d⟩ := forN_ok hp hw hnl hc hsrc l (n :: done) st1 (fun m hm => hl m (by simp [hm])) e2 e3
      exact ⟨st', a, b, hfin st' d⟩

/-- number of nodes not green -/
def white (g : Graph N) (color : N → Color) : Nat := (g.getNodeList.filter fun v => decide (color v ≠ .green)).length

theorem body_ok (hwf : g.Wf) (hp : LawfulPQ O items) (hw : HasCosts g false w) (hnl : NoLoop g false)
    (hsym : ∀ u v, Step g false u v → Step g false v u)
    (hwsym : ∀ u v, Step g false u v → w u v = w v u) (hV : ∀ v, v ∈ V ↔ Reach g false src v)
    (hsn : src ∈ g.getNodeList) {st : PState N Q} {c : N}
    (h : PInv g w O items src V (fun x => st.color x = .green) (fun _ _ => True) st)
    (hpk : O.peek st.q = some c) (hc : c ∈ items st.q) :
    ∃ st', body g O src { st with q := O.remove st.q c } c = .ok st' ∧
      PInv g w O items src V (fun x => st'.color x = .green) (fun _ _ => True) st' ∧
      white g st'.color < white g st.color := by
  have hcD := (h.item c hc).1
  have hcg := (h.item c hc).2
  have hcn := reach_node hwf (h.reach c hcD) hsn
  obtain ⟨l, hl, hmem⟩ := nbrs_ok hwf false hcn
  have hl' : g.getNeighbors c = .ok l := by simpa [nbrs] using hl
  have h0 := (pinv_pop hp hsym hwsym hV h hpk hc (upd st.color c .blue)).weaken (E' := fun u v => u ≠ c ∨ v ∈ [])
    (fun _ => Iff.rfl) (fun u v _ _ h => Or.inl (by simpa using h)) (upd st.color c .blue)
  have hsrcS : st.color src = .green ∨ src = c := by
    rcases h.srcS with h1 | h1
    · exact Or.inl h1
    · exact Or.inr (h1 c hc).symm
  obtain ⟨st1, e1, e2, e3⟩ := forN_ok (src := src) (V := V) hp hw hnl (c := c)
    (S := fun x => st.color x = .green ∨ x = c) (Or.inr rfl) hsrcS l []
    { st with q := O.remove st.q c, color := upd st.color c .blue } (fun n hn => (hmem n).1 hn)
    (by
      intro x
      by_cases hx : x = c
      · simp [hx]
      · simp only [hx, or_false]; rw [upd_ne _ _ hx]) h0
  have hgr : ∀ x, upd st1.color c .green x = .green ↔ st.color x = .green ∨ x = c := by
    intro x
    rw [e2]
    by_cases hx : x = c
    · subst hx; simp
    · rw [upd_ne _ _ hx]; simp [hx]
  refine ⟨{ st1 with color := upd st1.color c .green }, ?_, ?_, ?_⟩
  · have ht : treeEdge g src { st with q := O.remove st.q c } c = .ok () := by
      unfold treeEdge
      by_cases hcs : c = src
      · rw [if_pos hcs]
      · rw [if_neg hcs]
        obtain ⟨p, hpc⟩ := (Dict.mem_keys' _ _).1 (hcD.resolve_left hcs)
        have hs := (h.link c p hpc).1
        have : g.checkEdge p c = true := by simpa [Step] using hs
        simp only [hpc, touch, this, Bool.false_eq_true, if_false, if_true]
    unfold body
    rw [ht]
    simp only [hl', e1]
  · refine e3.weaken hgr (fun u v hu hs _ => ?_) _
    by_cases huc : u = c
    · subst huc; exact Or.inl (Or.inr (Or.inl ((hmem v).2 hs)))
    · exact Or.inl (Or.inl huc)
  · unfold white
    rw [← List.countP_eq_length_filter, ← List.countP_eq_length_filter]
    have hsub : (g.getNodeList.filter fun v => decide (upd st1.color c .green v ≠ .green)) =
        ((g.getNodeList.filter fun v => decide (st.color v ≠ .green)).filter fun v => decide (v ≠ c)) := by
      rw [List.filter_filter]
      refine List.filter_congr fun v _ => ?_
      have := hgr v
      by_cases h1 : st.color v = .green <;> by_cases h2 : v = c <;> simp_all
    rw [List.countP_eq_length_filter, List.countP_eq_length_filter]
    show (g.getNodeList.filter fun v => decide (upd st1.color c .green v ≠ .green)).length < _
    rw [hsub]
    refine List.length_filter_lt_length_iff_exists.2 ⟨c, ?_, by simp⟩
    exact List.mem_filter.2 ⟨hcn, by simpa using hcg⟩

theorem loop_ok (hwf : g.Wf) (hp : LawfulPQ O items) (hw : HasCosts g false w) (hnl : NoLoop g false)
    (hsym : ∀ u v, Step g false u v → Step g false v u)
    (hwsym : ∀ u v, Step g false u v → w u v = w v u) (hV : ∀ v, v ∈ V ↔ Reach g false src v)
    (hsn : src ∈ g.getNodeList) (fuel : Nat) : ∀ (st : PState N Q),
    PInv g w O items src V (fun x => st.color x = .green) (fun _ _ => True) st → white g st.color < fuel →
    ∃ st', loop g O src fuel st = .ok st' ∧ items st'.q = [] ∧
      PInv g w O items src V (fun x => st'.color x = .green) (fun _ _ => True) st' := by
  induction fuel with
  | zero => intro st _ h; omega
  | succ f ih =>
    intro st h hf
    rw [loop]
    by_cases he : O.isEmpty st.q = true
    · rw [if_pos he]
      exact ⟨st, rfl, (hp.isEmpty_iff _).1 he, h⟩
    · rw [if_neg he]
      obtain ⟨c, hc, hpk⟩ := hp.peek_mem st.q (fun h => he ((hp.isEmpty_iff _).2 h))
      obtain ⟨st1, e1, e2, e3⟩ := body_ok hwf hp hw hnl hsym hwsym hV hsn h hpk hc
      rw [hpk]
      simp only [e1]
      exact ih st1 e2 (by omega)

end Prim
end GiMPy
