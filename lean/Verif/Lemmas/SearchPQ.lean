import Verif.Lemmas.SearchBag
import Verif.Lemmas.SpanTree

/-! # Dijkstra and Prim search over a priority queue -/

namespace GiMPy
namespace Search
variable {N : Type} [DecidableEq N] {Q : Type}
variable {g : Graph N} {O : QOps N Q} {items : Q → List N} {rev : Bool} {src : N}
set_option linter.unusedSectionVars false

/-- the integer cost function `w` is the one stored in the graph -/
def HasCosts (g : Graph N) (rev : Bool) (w : N → N → Int) : Prop :=
  ∀ u v, Step g rev u v → g.getEdgeCost u v = .ok (w u v)

/-- priority in the queue -/
def qv (O : QOps N Q) (st : SState N Q) (v : N) : Int := (O.getPriority st.q v).getD 0

/-- one relaxation: the new state -/
def relaxed (O : QOps N Q) (st : SState N Q) (c n : N) (e : Int) : SState N Q :=
  { st with pred := st.pred.set n c, q := O.pushP st.q n e, color := upd st.color n .black }

/-- What `processEdgePQ` does to a non-green neighbour: skip it when its priority is no larger, else relax. -/
theorem processEdgePQ_cases (hp : LawfulPQ O items) {st : SState N Q} {c n : N} {e : Int}
    (hn : n ∈ st.pred.keys → n ∈ items st.q) :
    (processEdgePQ O st c n e = .ok st ∧ n ∈ st.pred.keys ∧ qv O st n ≤ e) ∨
    (processEdgePQ O st c n e = .ok (relaxed O st c n e) ∧ (n ∈ st.pred.keys → e < qv O st n)) := by
  unfold processEdgePQ
  by_cases hk : st.pred.contains n = true
  · rw [if_pos hk]
    rw [Dict.contains_iff] at hk
    obtain ⟨p, hpn⟩ := Option.isSome_iff_exists.1 ((hp.prio_isSome st.q n).2 (hn hk))
    simp only [hpn]
    by_cases hlt : e < p
    · rw [if_pos hlt]
      exact Or.inr ⟨rfl, fun _ => by simpa [qv, hpn] using hlt⟩
    · rw [if_neg hlt]
      exact Or.inl ⟨rfl, hk, by simp only [qv, hpn, Option.getD_some]; omega⟩
  · rw [if_neg hk]
    rw [Dict.contains_iff] at hk
    exact Or.inr ⟨rfl, fun h => absurd h hk⟩

theorem relaxed_q (hp : LawfulPQ O items) (st : SState N Q) (c n : N) (e : Int) (v : N) :
    qv O (relaxed O st c n e) v = if v = n then e else qv O st v := by
  unfold qv relaxed
  simp only [hp.prio_push]
  split <;> rfl

theorem relaxed_green (st : SState N Q) (c n : N) (e : Int) (hn : st.color n ≠ .green) (v : N) :
    (relaxed O st c n e).color v = .green ↔ st.color v = .green := by
  show upd st.color n .black v = .green ↔ _
  by_cases h : v = n
  · subst h; simp [hn]
  · rw [upd_ne _ _ h]

theorem peRel_relaxed (hp : LawfulPQ O items) {NS : Prop} {st : SState N Q} {c n : N} {e : Int} (hnc : NS → n ≠ c) :
    PERel items src NS st c n (relaxed O st c n e) :=
  Or.inr ⟨rfl, fun _ => hp.mem_pushP _ _ _ _, hp.len_pushP _ _ _, ⟨.black, by simp, rfl⟩, hnc⟩

theorem D_relaxed (st : SState N Q) (c n : N) (e : Int) (v : N) :
    D src (relaxed O st c n e) v ↔ v = n ∨ D src st v := by
  unfold D relaxed; simp only [Dict.mem_keys_set]
  constructor
  · rintro (h | h | h) <;> simp [h]
  · rintro (h | h | h) <;> simp [h]

theorem not_mem_remove (hp : LawfulPQ O items) {q : Q} {c : N} (hc : c ∈ items q) : c ∉ items (O.remove q c) := by
  intro h
  have := (hp.prio_isSome _ _).2 h
  rw [hp.prio_remove q c hc] at this
  simp at this

theorem mem_remove_iff (hp : LawfulPQ O items) {q : Q} {c : N} (hc : c ∈ items q) (v : N) :
    v ∈ items (O.remove q c) ↔ v ≠ c ∧ v ∈ items q := by
  by_cases h : v = c
  · subst h; simp [not_mem_remove hp hc]
  · simp [h, hp.mem_remove q c hc v h]

theorem qv_remove (hp : LawfulPQ O items) {st : SState N Q} {c : N} (hc : c ∈ items st.q) {v : N} (h : v ≠ c)
    (f : N → Color) : qv O { st with q := O.remove st.q c, color := f } v = qv O st v := by
  unfold qv; simp only [hp.prio_remove st.q c hc, if_neg h]

theorem peek_le (hp : LawfulPQ O items) {st : SState N Q} {c : N} (hpk : O.peek st.q = some c)
    (hc : c ∈ items st.q) : ∀ x ∈ items st.q, qv O st c ≤ qv O st x := by
  intro x hx
  obtain ⟨px, h1⟩ := Option.isSome_iff_exists.1 ((hp.prio_isSome st.q x).2 hx)
  obtain ⟨pc, h2⟩ := Option.isSome_iff_exists.1 ((hp.prio_isSome st.q c).2 hc)
  have := hp.peek_min st.q c x pc px hpk h2 h1
  simpa [qv, h1, h2] using this

/-! ## Dijkstra -/

/-- current estimate: the final `priority` of finished nodes, the queue priority of the others -/
def ev (O : QOps N Q) (st : SState N Q) (v : N) : Int :=
  if st.color v = .green then (st.prio v).getD 0 else qv O st v

theorem ev_green {st : SState N Q} {v : N} (h : st.color v = .green) : ev O st v = (st.prio v).getD 0 := by
  simp [ev, h]
theorem ev_open {st : SState N Q} {v : N} (h : st.color v ≠ .green) : ev O st v = qv O st v := by simp [ev, h]

structure CDij (g : Graph N) (rev : Bool) (w : N → N → Int) (O : QOps N Q) (items : Q → List N) (src : N)
    (st : SState N Q) : Prop where
  ng : ∀ x ∈ items st.q, st.color x ≠ .green
  pr : ∀ v, st.color v = .green → (st.prio v).isSome
  walk : ∀ v, D src st v → WalkCost (Step g rev) w src (ev O st v) v
  src0 : ev O st src = 0
  nosrc : src ∉ st.pred.keys
  order : ∀ u, st.color u = .green → ∀ x ∈ items st.q, ev O st u ≤ ev O st x
  tri : ∀ u v, st.color u = .green → Step g rev u v → ev O st v ≤ ev O st u + w u v
  links : ∀ v p, st.pred.get? v = some p → ev O st v = ev O st p + w p v

structure ADij (g : Graph N) (rev : Bool) (w : N → N → Int) (O : QOps N Q) (items : Q → List N) (src : N)
    (st : SState N Q) : Prop extends CDij g rev w O items src st where
  srcG : st.color src = .green ∨ ∀ x ∈ items st.q, x = src

structure KDij (g : Graph N) (rev : Bool) (w : N → N → Int) (O : QOps N Q) (items : Q → List N) (src : N)
    (c : N) (done : List N) (st : SState N Q) : Prop extends CDij g rev w O items src st where
  srcG : st.color src = .green ∨ c = src
  min : ∀ x ∈ items st.q, ev O st c ≤ ev O st x
  prioC : st.prio c = O.getPriority st.q c
  doneLe : ∀ n ∈ done, ev O st n ≤ ev O st c + w c n

theorem inv_dijkstra (hp : LawfulPQ O items) {w : N → N → Int} (hw : HasCosts g rev w)
    (hpos : ∀ u v, Step g rev u v → 0 ≤ w u v) (hnl : NoLoop g rev) (comp : Option Int) :
    Inv g O items rev src True .dijkstra comp (ADij g rev w O items src) (KDij g rev w O items src) where
  drop st t c hB hA hpk hc hg := absurd hg (hA.ng c hc)
  enter st t c hB hA hpk hc hg := by
    have hgr : ∀ x, upd st.color c .blue x = .green ↔ st.color x = .green := by
      intro x
      by_cases hx : x = c
      · subst hx; simp [hg]
      · rw [upd_ne _ _ hx]
    set st' : SState N Q := { st with
        prio := if O.isPQ then upd st.prio c (O.getPriority st.q c) else st.prio
        color := upd st.color c .blue } with hst'
    have hev : ∀ x, ev O st' x = ev O st x := by
      intro x
      by_cases hx : st.color x = .green
      · rw [ev_green (st := st') ((hgr x).2 hx), ev_green hx]
        show ((if O.isPQ then upd st.prio c (O.getPriority st.q c) else st.prio) x).getD 0 = _
        rw [if_pos hp.isPQ, upd_ne _ _ (by rintro rfl; exact hg hx)]
      · rw [ev_open (st := st') (fun h => hx ((hgr x).1 h)), ev_open hx]; rfl
    refine ⟨⟨?_, ?_, ?_, ?_, hA.nosrc, ?_, ?_, ?_⟩, ?_, ?_, ?_, by simp⟩
    · intro x hx h; exact hA.ng x hx ((hgr x).1 h)
    · intro v hv
      have h1 : st.color v = .green := (hgr v).1 hv
      show ((if O.isPQ then upd st.prio c (O.getPriority st.q c) else st.prio) v).isSome = true
      rw [if_pos hp.isPQ, upd_ne _ _ (by rintro rfl; exact hg h1)]
      exact hA.pr v h1
    · intro v hv; rw [hev]; exact hA.walk v hv
    · rw [hev]; exact hA.src0
    · intro u hu x hx; rw [hev, hev]; exact hA.order u ((hgr u).1 hu) x hx
    · intro u v hu hs; rw [hev, hev]; exact hA.tri u v ((hgr u).1 hu) hs
    · intro v p hv; rw [hev, hev]; exact hA.links v p hv
    · rcases hA.srcG with h | h
      · exact Or.inl ((hgr src).2 h)
      · exact Or.inr (h c hc)
    · intro x hx
      rw [hev, hev, ev_open hg, ev_open (hA.ng x hx)]
      exact peek_le hp hpk hc x hx
    · show (if O.isPQ then upd st.prio c (O.getPriority st.q c) else st.prio) c = _
      rw [if_pos hp.isPQ, upd_same]
  green c t len0 color0 done n st hM hA hg hs := by
    refine ⟨hA.toCDij, hA.srcG, hA.min, hA.prioC, ?_⟩
    intro m hm
    rcases List.mem_cons.1 hm with rfl | hm
    · have := hA.order m hg c hM.curItem
      have := hpos _ _ hs
      omega
    · exact hA.doneLe m hm
  pe c t len0 color0 done n st hM hA hg hs := by
    have hnc : n ≠ c := by rintro rfl; exact hnl _ hs
    have hcng := hM.curNG
    have hnsrc : n ≠ src := by
      rintro rfl
      rcases hA.srcG with h | h
      · exact hg h
      · exact hnc h.symm
    obtain ⟨pc, hpc⟩ := Option.isSome_iff_exists.1 ((hp.prio_isSome st.q c).2 hM.curItem)
    have hevc : ev O st c = pc := by rw [ev_open hcng]; simp [qv, hpc]
    have hpeq : processEdge g O .dijkstra comp st c n = processEdgePQ O st c n (pc + w c n) := by
      simp only [processEdge, hpc, hw c n hs]
    have hnI : n ∈ st.pred.keys → n ∈ items st.q := fun h => (hM.disc n (Or.inr h)).resolve_left hg
    rw [hpeq]
    rcases processEdgePQ_cases hp (c := c) (e := pc + w c n) hnI with ⟨h1, h2, h3⟩ | ⟨h1, h2⟩
    · refine ⟨st, h1, Or.inl ⟨rfl, rfl, rfl, Or.inr h2⟩, hA.toCDij, hA.srcG, hA.min, hA.prioC, ?_⟩
      intro m hm
      rcases List.mem_cons.1 hm with rfl | hm
      · rw [ev_open hg, hevc]; exact h3
      · exact hA.doneLe m hm
    · refine ⟨_, h1, peRel_relaxed hp (fun _ => hnc), ?_⟩
      have hgr := relaxed_green (O := O) st c n (pc + w c n) hg
      have hq := relaxed_q hp st c n (pc + w c n)
      have hD := D_relaxed (O := O) (src := src) st c n (pc + w c n)
      have hit : ∀ y, y ∈ items (relaxed O st c n (pc + w c n)).q ↔ y = n ∨ y ∈ items st.q := fun y => hp.mem_pushP _ _ _ _
      have hpred : (relaxed O st c n (pc + w c n)).pred = st.pred.set n c := rfl
      have hprio : (relaxed O st c n (pc + w c n)).prio = st.prio := rfl
      have hgp : ∀ y, O.getPriority (relaxed O st c n (pc + w c n)).q y = if y = n then some (pc + w c n) else O.getPriority st.q y :=
        fun y => hp.prio_push _ _ _ _
      generalize hst' : relaxed O st c n (pc + w c n) = st' at *
      have hev : ∀ x, x ≠ n → ev O st' x = ev O st x := by
        intro x hx
        by_cases h : st.color x = .green
        · rw [ev_green ((hgr x).2 h), ev_green h, hprio]
        · rw [ev_open (fun hh => h ((hgr x).1 hh)), ev_open h, hq, if_neg hx]
      have hevn : ev O st' n = ev O st c + w c n := by
        rw [ev_open (fun hh => hg ((hgr n).1 hh)), hq, if_pos rfl, hevc]
      have hevc' : ev O st' c = ev O st c := hev c (Ne.symm hnc)
      have hpos' := hpos c n hs
      -- the estimate of a known node only goes down
      have hdec : D src st n → ev O st' n ≤ ev O st n := by
        intro h
        have h4 := h2 (h.resolve_left hnsrc)
        rw [hevn, ev_open hg, hevc]; omega
      refine ⟨⟨?_, ?_, ?_, ?_, ?_, ?_, ?_, ?_⟩, ?_, ?_, ?_, ?_⟩
      · intro x hx h
        rcases (hit x).1 hx with rfl | hx
        · exact hg ((hgr x).1 h)
        · exact hA.ng x hx ((hgr x).1 h)
      · intro v hv; rw [hprio]; exact hA.pr v ((hgr v).1 hv)
      · intro v hv
        by_cases hvn : v = n
        · subst hvn
          rw [hevn]
          exact .snoc (hA.walk c (hM.item c hM.curItem)) hs
        · rw [hev v hvn]; exact hA.walk v (((hD v).1 hv).resolve_left hvn)
      · rw [hev src (Ne.symm hnsrc)]; exact hA.src0
      · rw [hpred, Dict.mem_keys_set]
        rintro (h | h)
        · exact hnsrc h.symm
        · exact hA.nosrc h
      · intro u hu x hx
        have hu' := (hgr u).1 hu
        have hun : u ≠ n := by rintro rfl; exact hg hu'
        rw [hev u hun]
        by_cases hxn : x = n
        · subst hxn
          have := hA.order u hu' c hM.curItem
          omega
        · rw [hev x hxn]; exact hA.order u hu' x (((hit x).1 hx).resolve_left hxn)
      · intro u v hu huv
        have hu' := (hgr u).1 hu
        have hun : u ≠ n := by rintro rfl; exact hg hu'
        rw [hev u hun]
        have := hA.tri u v hu' huv
        by_cases hvn : v = n
        · subst hvn
          have := hdec ((hM.closed u hu').2 v huv)
          omega
        · rw [hev v hvn]; exact this
      · intro v p hv
        rw [hpred, Dict.get?_set] at hv
        split at hv
        · next hvn =>
          subst hvn
          obtain rfl := Option.some.inj hv
          rw [hevn, hevc']
        · next hvn =>
          have hpn : p ≠ n := by
            rintro rfl
            rcases (hM.link v p hv).2 with h | h
            · exact hg h
            · exact hnc h
          rw [hev v (Ne.symm hvn), hev p hpn]; exact hA.links v p hv
      · exact hA.srcG.imp (hgr src).2 id
      · intro x hx
        rw [hevc']
        by_cases hxn : x = n
        · subst hxn; omega
        · rw [hev x hxn]; exact hA.min x (((hit x).1 hx).resolve_left hxn)
      · rw [hprio, hgp, if_neg (Ne.symm hnc)]; exact hA.prioC
      · intro m hm
        rw [hevc']
        rcases List.mem_cons.1 hm with rfl | hm
        · omega
        · by_cases hmn : m = n
          · subst hmn; omega
          · rw [hev m hmn]; exact hA.doneLe m hm
  leave c t len0 color0 done st hM hA hdone := by
    have hcng := hM.curNG
    have hgr : ∀ x, upd st.color c .green x = .green ↔ st.color x = .green ∨ x = c := by
      intro x
      by_cases hx : x = c
      · subst hx; simp
      · rw [upd_ne _ _ hx]; simp [hx]
    have hit := mem_remove_iff hp hM.curItem
    set st' : SState N Q := { st with q := O.remove st.q c, color := upd st.color c .green } with hst'
    have hev : ∀ x, ev O st' x = ev O st x := by
      intro x
      by_cases hxc : x = c
      · subst hxc
        rw [ev_green (st := st') ((hgr x).2 (Or.inr rfl)), ev_open hcng]
        show (st.prio x).getD 0 = _
        rw [hA.prioC]; rfl
      · by_cases hx : st.color x = .green
        · rw [ev_green (st := st') ((hgr x).2 (Or.inl hx)), ev_green hx]
        · rw [ev_open (st := st') (fun h => ((hgr x).1 h).elim hx hxc), ev_open hx]
          exact qv_remove hp hM.curItem hxc _
    refine ⟨⟨?_, ?_, ?_, ?_, hA.nosrc, ?_, ?_, ?_⟩, ?_⟩
    · intro x hx h
      have hx := (hit x).1 hx
      exact ((hgr x).1 h).elim (hA.ng x hx.2) hx.1
    · intro v hv
      rcases (hgr v).1 hv with h | rfl
      · exact hA.pr v h
      · show (st.prio v).isSome = true
        rw [hA.prioC]; exact (hp.prio_isSome _ _).2 hM.curItem
    · intro v hv; rw [hev]; exact hA.walk v hv
    · rw [hev]; exact hA.src0
    · intro u hu x hx
      have hx := (hit x).1 hx
      rw [hev, hev]
      rcases (hgr u).1 hu with h | rfl
      · exact hA.order u h x hx.2
      · exact hA.min x hx.2
    · intro u v hu hs
      rw [hev, hev]
      rcases (hgr u).1 hu with h | rfl
      · exact hA.tri u v h hs
      · exact hA.doneLe v ((hdone v).2 hs)
    · intro v p hv; rw [hev, hev]; exact hA.links v p hv
    · left
      exact (hgr src).2 (hA.srcG.imp id Eq.symm)

theorem adij_start (hp : LawfulPQ O items) {w : N → N → Int} (hsrc : src ∈ g.getNodeList) (comp : Option Int)
    (col : SState N Q) (hq : items col.q = []) :
    ADij g rev w O items src (start O .dijkstra comp src col) := by
  obtain ⟨_, h2, _⟩ := base_start (g := g) (rev := rev) (NS := True) hp.toLawfulBag hsrc .dijkstra comp col hq
  obtain ⟨h1, hc, _⟩ := start_fields (O := O) (src := src) .dijkstra comp col
  have hev : ev O (start O .dijkstra comp src col) src = 0 := by
    rw [ev_open (by rw [hc]; simp)]
    show (O.getPriority (O.pushP col.q src 0) src).getD 0 = 0
    rw [hp.prio_push]; simp
  refine ⟨⟨?_, ?_, ?_, hev, ?_, ?_, ?_, ?_⟩, Or.inr fun x hx => (h2 x).1 hx⟩
  · intro x _; rw [hc]; simp
  · intro v hv; rw [hc] at hv; cases hv
  · intro v hv
    have : v = src := by
      rcases hv with h | h
      · exact h
      · rw [h1] at h; simp [Dict.empty, Dict.keys] at h
    subst this; rw [hev]; exact .nil
  · rw [h1]; simp [Dict.empty, Dict.keys]
  · intro u hu; rw [hc] at hu; cases hu
  · intro u v hu; rw [hc] at hu; cases hu
  · intro v p hv; rw [h1] at hv; cases hv

theorem dij_bound {w : N → N → Int} (hpos : ∀ u v, Step g rev u v → 0 ≤ w u v) {NS} {st : SState N Q} {t}
    (hB : Base g items rev src NS st t) (hA : CDij g rev w O items src st) {x : Int} {v : N}
    (hwk : WalkCost (Step g rev) w src x v) :
    (D src st v ∧ ev O st v ≤ x) ∨ ∃ y ∈ items st.q, ev O st y ≤ x := by
  induction hwk with
  | nil => exact Or.inl ⟨Or.inl rfl, by rw [hA.src0]; exact Int.le_refl _⟩
  | @snoc x v u _ hs ih =>
    have hp := hpos v u hs
    rcases ih with ⟨h1, h2⟩ | ⟨y, hy, h2⟩
    · rcases hB.disc v h1 with h3 | h3
      · have := hA.tri v u h3 hs
        exact Or.inl ⟨(hB.closed v h3).2 u hs, by omega⟩
      · exact Or.inr ⟨v, h3, by omega⟩
    · exact Or.inr ⟨y, hy, by omega⟩

/-- the reconstructed path costs what the estimate says -/
theorem reconstruct_cost {w : N → N → Int} {pred : Dict N N} {P : N → Prop} {k : Nat} {v : N} {f : N → Int}
    (h : PC pred src P k v) (h0 : f src = 0) (hns : src ∉ pred.keys)
    (hlink : ∀ v p, pred.get? v = some p → f v = f p + w p v) (path : List N) {fuel : Nat} {l : List N}
    (hl : reconstruct pred src fuel v (v :: path) = .ok l) : pathCost w l = f v + pathCost w (v :: path) := by
  induction h generalizing path fuel l with
  | src =>
    cases fuel with
    | zero => cases hl
    | succ n => simp [reconstruct] at hl; subst hl; rw [h0]; omega
  | @step k p v h _ hpv ih =>
    cases fuel with
    | zero => cases hl
    | succ n =>
      have hvs : v ≠ src := by rintro rfl; exact hns (Dict.mem_keys_of_get? hpv)
      rw [reconstruct, if_neg hvs, hpv] at hl
      have := ih (v :: path) hl
      rw [this, hlink v p hpv]
      show _ + (w p v + pathCost w (v :: path)) = _
      omega

/-! ## Prim -/

/-- tree edges fixed so far extend to a cheapest spanning tree; `S` is the set of finished nodes -/
def Greedy (adj : N → N → Prop) (w : N → N → Int) (V : List N) (src : N) (pred : Dict N N) (S : N → Prop) : Prop :=
  ∃ F : List (N × N), F.Nodup ∧ (∀ p v, (p, v) ∈ F ↔ v ≠ src ∧ S v ∧ pred.get? v = some p) ∧
    ∀ T, IsSpanTree adj V T → ∃ T', IsSpanTree adj V T' ∧ treeCost w T' ≤ treeCost w T ∧ List.Subperm F T'

structure CPrim (g : Graph N) (rev : Bool) (w : N → N → Int) (O : QOps N Q) (items : Q → List N) (src : N)
    (V : List N) (S : N → Prop) (st : SState N Q) : Prop where
  ng : ∀ x ∈ items st.q, st.color x ≠ .green
  nosrc : src ∉ st.pred.keys
  pk : ∀ x p, x ∈ items st.q → st.pred.get? x = some p → qv O st x = w p x
  tri : ∀ u v, st.color u = .green → Step g rev u v → st.color v ≠ .green → qv O st v ≤ w u v
  greedy : Greedy (Step g rev) w V src st.pred S

structure APrim (g : Graph N) (rev : Bool) (w : N → N → Int) (O : QOps N Q) (items : Q → List N) (src : N)
    (V : List N) (st : SState N Q) : Prop extends CPrim g rev w O items src V (fun x => st.color x = .green) st where
  srcG : st.color src = .green ∨ ∀ x ∈ items st.q, x = src

structure KPrim (g : Graph N) (rev : Bool) (w : N → N → Int) (O : QOps N Q) (items : Q → List N) (src : N)
    (V : List N) (c : N) (done : List N) (st : SState N Q) : Prop
    extends CPrim g rev w O items src V (fun x => st.color x = .green ∨ x = c) st where
  srcG : st.color src = .green ∨ c = src
  doneLe : ∀ n ∈ done, st.color n ≠ .green → n ≠ c → qv O st n ≤ w c n

theorem Greedy.congr {adj : N → N → Prop} {w : N → N → Int} {V : List N} {pred pred' : Dict N N} {S S' : N → Prop}
    (h : Greedy adj w V src pred S)
    (he : ∀ p v, v ≠ src → ((S v ∧ pred.get? v = some p) ↔ (S' v ∧ pred'.get? v = some p))) :
    Greedy adj w V src pred' S' := by
  obtain ⟨F, h1, h2, h3⟩ := h
  refine ⟨F, h1, ?_, h3⟩
  intro p v
  rw [h2]
  constructor
  · rintro ⟨a, b⟩; exact ⟨a, (he p v a).1 b⟩
  · rintro ⟨a, b⟩; exact ⟨a, (he p v a).2 b⟩

theorem inv_prim (hp : LawfulPQ O items) {w : N → N → Int} (hw : HasCosts g rev w)
    (hsym : ∀ u v, Step g rev u v → Step g rev v u) (hwsym : ∀ u v, Step g rev u v → w u v = w v u)
    (hnl : NoLoop g rev) (comp : Option Int) (V : List N) (hV : ∀ v, v ∈ V ↔ Reach g rev src v) :
    Inv g O items rev src True .prim comp (APrim g rev w O items src V) (KPrim g rev w O items src V) where
  drop st t c hB hA hpk hc hg := absurd hg (hA.ng c hc)
  enter st t c hB hA hpk hc hg := by
    have hgr : ∀ x, upd st.color c .blue x = .green ↔ st.color x = .green := by
      intro x
      by_cases hx : x = c
      · subst hx; simp [hg]
      · rw [upd_ne _ _ hx]
    refine ⟨⟨?_, hA.nosrc, hA.pk, ?_, ?_⟩, ?_, by simp⟩
    · intro x hx h; exact hA.ng x hx ((hgr x).1 h)
    · intro u v hu hs hv
      exact hA.tri u v ((hgr u).1 hu) hs fun h => hv ((hgr v).2 h)
    · show Greedy (Step g rev) w V src st.pred fun x => upd st.color c .blue x = .green ∨ x = c
      by_cases hcs : c = src
      · refine hA.greedy.congr ?_
        intro p v hv
        have : v ≠ c := by rintro rfl; exact hv hcs
        simp only [hgr, this, or_false]
      · -- the new tree edge is a cheapest edge leaving the finished nodes
        obtain ⟨p, hpc⟩ := (Dict.mem_keys' _ _).1 ((hB.item c hc).resolve_left hcs)
        have hlink := hB.link c p hpc
        obtain ⟨F, h1, h2, h3⟩ := hA.greedy
        have hpV : p ∈ V := (hV p).2 (hB.reach p (hB.closed p hlink.2).1)
        have hcV : c ∈ V := (hV c).2 (hB.reach c (hB.item c hc))
        refine ⟨(p, c) :: F, ?_, ?_, ?_⟩
        · refine List.nodup_cons.2 ⟨?_, h1⟩
          intro h; exact hg ((h2 p c).1 h).2.1
        · intro q v
          rw [List.mem_cons, h2]
          by_cases hvc : v = c
          · subst hvc
            simp only [Prod.mk.injEq, and_true, hcs, ne_eq, not_false_eq_true, true_and, or_true, hpc,
              Option.some.injEq, hg, false_and, or_false]
            exact eq_comm
          · simp only [Prod.mk.injEq, hvc, and_false, false_or, or_false, hgr]
        · intro T hT
          obtain ⟨T1, t1, t2, t3⟩ := h3 T hT
          obtain ⟨T2, s1, s2, s3⟩ := exchange hsym hwsym t1 t3 (fun x => st.color x = .green)
            (by
              rintro ⟨a, b⟩ hab
              have hab := (h2 a b).1 hab
              have := hB.link b a hab.2.2
              simp only [this.2, hab.2.1])
            hpV hcV hlink.2 hg hlink.1
            (by
              intro x y _ _ hx hy hxy
              have hDy := (hB.closed x hx).2 y hxy
              have hyI := (hB.disc y hDy).resolve_left hy
              have e1 := hA.tri x y hx hxy hy
              have e2 := peek_le hp hpk hc y hyI
              have e3 := hA.pk c p hc hpc
              omega)
          exact ⟨T2, s1, Int.le_trans s2 t2, s3⟩
    · rcases hA.srcG with h | h
      · exact Or.inl ((hgr src).2 h)
      · exact Or.inr (h c hc)
  green c t len0 color0 done n st hM hA hg hs := by
    refine ⟨hA.toCPrim, hA.srcG, ?_⟩
    intro m hm
    rcases List.mem_cons.1 hm with rfl | hm
    · intro h; exact absurd hg h
    · exact hA.doneLe m hm
  pe c t len0 color0 done n st hM hA hg hs := by
    have hnc : n ≠ c := by rintro rfl; exact hnl _ hs
    have hnsrc : n ≠ src := by
      rintro rfl
      rcases hA.srcG with h | h
      · exact hg h
      · exact hnc h.symm
    have hpeq : processEdge g O .prim comp st c n = processEdgePQ O st c n (w c n) := by
      simp only [processEdge, hw c n hs]
    have hnI : n ∈ st.pred.keys → n ∈ items st.q := fun h => (hM.disc n (Or.inr h)).resolve_left hg
    rw [hpeq]
    rcases processEdgePQ_cases hp (c := c) (e := w c n) hnI with ⟨h1, h2, h3⟩ | ⟨h1, h2⟩
    · refine ⟨st, h1, Or.inl ⟨rfl, rfl, rfl, Or.inr h2⟩, hA.toCPrim, hA.srcG, ?_⟩
      intro m hm
      rcases List.mem_cons.1 hm with rfl | hm
      · intro _ _; exact h3
      · exact hA.doneLe m hm
    · refine ⟨_, h1, peRel_relaxed hp (fun _ => hnc), ?_⟩
      have hgr := relaxed_green (O := O) st c n (w c n) hg
      have hq := relaxed_q hp st c n (w c n)
      have hit : ∀ y, y ∈ items (relaxed O st c n (w c n)).q ↔ y = n ∨ y ∈ items st.q := fun y => hp.mem_pushP _ _ _ _
      have hpred : (relaxed O st c n (w c n)).pred = st.pred.set n c := rfl
      generalize hst' : relaxed O st c n (w c n) = st' at *
      refine ⟨⟨?_, ?_, ?_, ?_, ?_⟩, hA.srcG.imp (hgr src).2 id, ?_⟩
      · intro x hx h
        rcases (hit x).1 hx with rfl | hx
        · exact hg ((hgr x).1 h)
        · exact hA.ng x hx ((hgr x).1 h)
      · rw [hpred, Dict.mem_keys_set]
        rintro (h | h)
        · exact hnsrc h.symm
        · exact hA.nosrc h
      · intro x p hx hxp
        rw [hpred, Dict.get?_set] at hxp
        rw [hq]
        split at hxp
        · next hxn =>
          subst hxn
          obtain rfl := Option.some.inj hxp
          simp
        · next hxn =>
          rw [if_neg (Ne.symm hxn)]
          exact hA.pk x p (((hit x).1 hx).resolve_left (Ne.symm hxn)) hxp
      · intro u v hu huv hv
        have hu' := (hgr u).1 hu
        have hv' : st.color v ≠ .green := fun h => hv ((hgr v).2 h)
        have := hA.tri u v hu' huv hv'
        rw [hq]
        split
        · next hvn =>
          subst hvn
          have hD := (hM.closed u hu').2 v huv
          have := h2 (hD.resolve_left hnsrc)
          omega
        · exact this
      · refine hA.greedy.congr ?_
        intro p v _
        rw [hpred, Dict.get?_set, hgr]
        by_cases hvn : n = v
        · subst hvn; simp [hg, hnc]
        · simp [hvn]
      · intro m hm h3 h4
        rw [hq]
        split
        · next hmn => subst hmn; exact Int.le_refl _
        · next hmn =>
          rcases List.mem_cons.1 hm with rfl | hm
          · exact absurd rfl hmn
          · exact hA.doneLe m hm (fun h => h3 ((hgr m).2 h)) h4
  leave c t len0 color0 done st hM hA hdone := by
    have hgr : ∀ x, upd st.color c .green x = .green ↔ st.color x = .green ∨ x = c := by
      intro x
      by_cases hx : x = c
      · subst hx; simp
      · rw [upd_ne _ _ hx]; simp [hx]
    have hit := mem_remove_iff hp hM.curItem
    refine ⟨⟨?_, hA.nosrc, ?_, ?_, ?_⟩, ?_⟩
    · intro x hx h
      have hx := (hit x).1 hx
      exact ((hgr x).1 h).elim (hA.ng x hx.2) hx.1
    · intro x p hx hxp
      have hx := (hit x).1 hx
      rw [qv_remove hp hM.curItem hx.1]
      exact hA.pk x p hx.2 hxp
    · intro u v hu huv hv
      have hv' : ¬ (st.color v = .green ∨ v = c) := fun h => hv ((hgr v).2 h)
      rw [not_or] at hv'
      rw [qv_remove hp hM.curItem hv'.2]
      rcases (hgr u).1 hu with h | rfl
      · exact hA.tri u v h huv hv'.1
      · exact hA.doneLe v ((hdone v).2 huv) hv'.1 hv'.2
    · refine hA.greedy.congr ?_
      intro p v _
      show _ ↔ upd st.color c .green v = .green ∧ _
      rw [hgr]
    · left
      exact (hgr src).2 (hA.srcG.imp id Eq.symm)

theorem aprim_start (hp : LawfulPQ O items) {w : N → N → Int} (hsrc : src ∈ g.getNodeList) (comp : Option Int)
    (col : SState N Q) (hq : items col.q = []) (V : List N) :
    APrim g rev w O items src V (start O .prim comp src col) := by
  obtain ⟨_, h2, _⟩ := base_start (g := g) (rev := rev) (NS := True) hp.toLawfulBag hsrc .prim comp col hq
  obtain ⟨h1, hc, _⟩ := start_fields (O := O) (src := src) .prim comp col
  refine ⟨⟨?_, ?_, ?_, ?_, ?_⟩, Or.inr fun x hx => (h2 x).1 hx⟩
  · intro x _; rw [hc]; simp
  · rw [h1]; simp [Dict.empty, Dict.keys]
  · intro x p _ h; rw [h1] at h; cases h
  · intro u v hu; rw [hc] at hu; cases hu
  · refine ⟨[], by simp, ?_, ?_⟩
    · intro p v; rw [h1]; simp [Dict.empty, Dict.get?, Dict.getL]
    · intro T hT; exact ⟨T, hT, Int.le_refl _, by simp⟩

end Search
end GiMPy
