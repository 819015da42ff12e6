import Verif.Lemmas.BranchBound
import Mathlib.Algebra.BigOperators.Group.List.Basic

/-! # The invariant of the branch and bound program -/

namespace GiMPy
namespace BB
open Tree MinCost

/-- `c` is a child of `p`, in the tree or still in the queue -/
def Kid (attr : Nm → String → Except PyErr (Val Nm)) (L : List (Item × ℚ)) (c p : Nat) (v : String) (b : Bool) : Prop :=
  (attr (.num c) "parent" = .ok (.name (.num p)) ∧ attr (.num c) "branch_var" = .ok (.str v) ∧
    attr (.num c) "sense" = .ok (.str (senseStr b)) ∧ attr (.num c) "rhs" = .ok (.int (rhsInt b))) ∨
  ∃ pr, (Item.node c p v (sn b) (rh b), pr) ∈ L

/-- the number of nodes that may be below a node -/
def wt (D : Data) (F : Fixing) : Nat := 2 ^ (D.vars.length + 1 - F.length) - 1

/-- a list of different variables of the instance -/
def Good (D : Data) (F : Fixing) : Prop := (F.map Prod.fst).Nodup ∧ ∀ p ∈ F, p.1 ∈ D.vars

/-- the priority of an entry: its depth, or the bound of its parent -/
def PrioOk (D : Data) (C : Cfg) (F : Fixing) (pr : ℚ) : Prop :=
  (C.strategy = .depthFirst → pr = -(F.length : ℚ)) ∧ (C.strategy = .bestFirst → C.complete = false → IsBound D F.tail pr)

/-- the invariant; `L` are the entries of the queue, `F` their fixed variables -/
structure Inv {Q : Type} (D : Data) (C : Cfg) (st : State Q) (a : AGraph Nm) (L : List (Item × ℚ)) (F : Item → Fixing) : Prop where
  rep : Rep st.t.g a
  dir : a.directed = true
  item : ∀ e ∈ L, ItemOk a.getNodeAttr e.1 (F e.1) ∧ Good D (F e.1)
  rootq : ∀ e ∈ L, e.1 = .root ↔ st.iterCount = 0
  fresh : ∀ e ∈ L, Nm.num e.1.idx ∉ a.V ∧ e.1.idx ≤ st.nodeCount
  nodup : (L.map fun e => e.1.idx).Nodup
  vis : ∃ l : List Nat, a.V = [.key "C", .key "I", .key "S", .key "P"] ++ l.map .num ∧ l.length = st.iterCount ∧ l.Nodup ∧
    ∀ k ∈ l, k ≤ st.nodeCount
  zero : st.iterCount ≠ 0 → Nm.num 0 ∈ a.V
  one : 1 ≤ st.nodeCount
  prio : ∀ e ∈ L, e.1 ≠ .root → PrioOk D C (F e.1) e.2
  count : st.iterCount + L.length = st.nodeCount ∧ st.lpCount = st.iterCount
  pot : st.iterCount + (L.map fun e => wt D (F e.1)).sum ≤ 2 ^ (D.vars.length + 1) - 1
  inc : (st.lb = -INFINITY ∧ ∀ v, st.opt v = 0) ∨ (Sol D st.opt ∧ st.lb = value D st.opt ∧ -INFINITY < st.lb)
  cover : ∀ x, Sol D x → value D x ≤ st.lb ∨ ∃ e ∈ L, Sat (F e.1) x
  node : ∀ k, Nm.num k ∈ a.V → ∃ G, Path a.getNodeAttr k G ∧ Good D G ∧
    NodeOk D C a.getNodeAttr (fun c v b => Kid a.getNodeAttr L c k v b) st.lb k G
  edge : ∀ p y, (Nm.num p, y) ∈ a.E ↔ ∃ c, y = .num c ∧ a.getNodeAttr (.num c) "parent" = .ok (.name (.num p))

theorem Inv.perm {Q : Type} {D : Data} {C : Cfg} {st : State Q} {a : AGraph Nm} {L L' : List (Item × ℚ)} {F : Item → Fixing}
    (h : Inv D C st a L F) (hp : L.Perm L') : Inv D C st a L' F where
  rep := h.rep
  dir := h.dir
  item e he := h.item e (hp.mem_iff.2 he)
  rootq e he := h.rootq e (hp.mem_iff.2 he)
  fresh e he := h.fresh e (hp.mem_iff.2 he)
  nodup := (hp.map _).nodup_iff.1 h.nodup
  vis := h.vis
  zero := h.zero
  one := h.one
  prio e he := h.prio e (hp.mem_iff.2 he)
  count := by rw [← hp.length_eq]; exact h.count
  pot := by rw [← (hp.map _).sum_eq]; exact h.pot
  inc := h.inc
  cover x hx := by
    rcases h.cover x hx with h1 | ⟨e, he, h1⟩
    · exact .inl h1
    · exact .inr ⟨e, hp.mem_iff.1 he, h1⟩
  node k hk := by
    obtain ⟨G, h1, h2, h3⟩ := h.node k hk
    refine ⟨G, h1, h2, ?_⟩
    have : (fun c v b => Kid a.getNodeAttr L' c k v b) = fun c v b => Kid a.getNodeAttr L c k v b := by
      funext c v b
      simp only [Kid, hp.mem_iff]
    rw [this]
    exact h3
  edge := h.edge

theorem Inv.queue {Q : Type} {D : Data} {C : Cfg} {st : State Q} {a : AGraph Nm} {L : List (Item × ℚ)} {F : Item → Fixing}
    (h : Inv D C st a L F) (q : Q) : Inv D C { st with q := q } a L F :=
  ⟨h.rep, h.dir, h.item, h.rootq, h.fresh, h.nodup, h.vis, h.zero, h.one, h.prio, h.count, h.pot, h.inc, h.cover, h.node, h.edge⟩

theorem attr_none {a : AGraph Nm} {n : Nm} (h : n ∉ a.V) (s : String) (x : Val Nm) : a.getNodeAttr n s ≠ .ok x :=
  fun h' => h (attr_ok h')

theorem NodeOk.mono {D : Data} {C : Cfg} {at1 at2 : Nm → String → Except PyErr (Val Nm)} {kid kid' : Nat → String → Bool → Prop}
    {lb lb' : ℚ} {k : Nat} {G : Fixing} (h : NodeOk D C at1 kid lb k G) (ha : at2 (.num k) = at1 (.num k)) (hk : kid' = kid)
    (hl : lb ≤ lb') : NodeOk D C at2 kid' lb' k G := by
  subst hk
  cases h with
  | infeasible h1 h2 h3 h4 => exact .infeasible (by rw [ha]; exact h1) (by rw [ha]; exact h2) h3 h4
  | sol h1 h2 h3 h4 =>
    obtain ⟨x, a, b, c, d⟩ := h3
    exact .sol (by rw [ha]; exact h1) (by rw [ha]; exact h2) ⟨x, a, b, c.trans hl, d⟩ h4
  | pruned h1 h2 h3 h4 h5 h6 =>
    exact .pruned (by rw [ha]; exact h1) (by rw [ha]; exact h2) h3 h4 (fun y hy => (h5 y hy).trans hl) h6
  | candidate v i j h1 h2 h0 h3 h4 h5 h6 h7 =>
    exact .candidate v i j (by rw [ha]; exact h1) (by rw [ha]; exact h2) (by rw [ha]; exact h0) h3 h4 h5 h6 h7

/-- The step of the invariant: the entry `e` is visited, and `M` are the entries that are pushed. -/
theorem Inv.visit {Q : Type} {D : Data} {C : Cfg} {st st' : State Q} {a a' : AGraph Nm} {e : Item × ℚ} {L M : List (Item × ℚ)}
    {F F' : Item → Fixing} {status color : String} (h : Inv D C st a (e :: L) F)
    (hrep : Rep st'.t.g a') (hdir : a'.directed = true) (hV : a'.V = a.V ++ [.num e.1.idx]) (hE : a'.E = a.E ++ newEdges e.1)
    (hold : ∀ m, m ≠ .num e.1.idx → a'.getNodeAttr m = a.getNodeAttr m)
    (hnew : NewAttrs a'.getNodeAttr e.1 (F e.1) status color)
    (hF : ∀ x ∈ L, F' x.1 = F x.1)
    (hM : ∀ x ∈ M, ∃ c v b, x.1 = .node c e.1.idx v (sn b) (rh b) ∧ F' x.1 = (v, b) :: F e.1 ∧ v ∈ D.vars ∧
      v ∉ (F e.1).map Prod.fst ∧ st.nodeCount < c ∧ c ≤ st'.nodeCount)
    (hMp : ∀ x ∈ M, PrioOk D C (F' x.1) x.2) (hMn : (M.map fun x => x.1.idx).Nodup)
    (hcnt : st'.nodeCount = st.nodeCount + M.length) (hit : st'.iterCount = st.iterCount + 1) (hlp : st'.lpCount = st.lpCount + 1)
    (hpot : (M.map fun x => wt D (F' x.1)).sum + 1 ≤ wt D (F e.1))
    (hinc : (st'.lb = -INFINITY ∧ ∀ v, st'.opt v = 0) ∨ (Sol D st'.opt ∧ st'.lb = value D st'.opt ∧ -INFINITY < st'.lb))
    (hlb : st.lb ≤ st'.lb)
    (hcov : ∀ x, Sol D x → Sat (F e.1) x → value D x ≤ st'.lb ∨ ∃ y ∈ M, Sat (F' y.1) x)
    (hnode : NodeOk D C a'.getNodeAttr (fun c v b => ∃ pr, (Item.node c e.1.idx v (sn b) (rh b), pr) ∈ M) st'.lb e.1.idx (F e.1)) :
    Inv D C st' a' (M ++ L) F' := by
  have hfe := h.fresh e (by simp)
  have hie := h.item e (by simp)
  have hnone : ∀ s x, a.getNodeAttr (.num e.1.idx) s ≠ .ok x := attr_none hfe.1
  have hidx : ∀ x ∈ L, x.1.idx ≠ e.1.idx := by
    intro x hx he
    have := h.nodup
    simp only [List.map_cons, List.nodup_cons, List.mem_map] at this
    exact this.1 ⟨x, hx, he⟩
  have hpath : Path a'.getNodeAttr e.1.idx (F e.1) := hnew.path (hie.1.mono hold hnone)
  -- nobody has `e` as parent yet
  have hnopar : ∀ c, a.getNodeAttr (.num c) "parent" ≠ .ok (.name (.num e.1.idx)) := by
    intro c hc
    obtain ⟨G, h1, _, _⟩ := h.node c (attr_ok hc)
    cases h1 with
    | root _ h1 => rw [h1] at hc; cases hc
    | child _ _ _ _ h5 _ h7 =>
      rw [h5] at hc
      simp only [Except.ok.injEq, Val.name.injEq, Nm.num.injEq] at hc
      rw [hc] at h7
      exact hfe.1 h7.mem
  have hnopar' : ∀ c, a'.getNodeAttr (.num c) "parent" ≠ .ok (.name (.num e.1.idx)) := by
    intro c hc
    by_cases hce : c = e.1.idx
    · subst hce
      have hr := hnew.rest
      rcases he : e.1 with _ | ⟨c, p, v, s, r⟩
      · rw [he] at hr hc
        have hr : a'.getNodeAttr (.num 0) "parent" = .ok .none := hr
        have hc : a'.getNodeAttr (.num 0) "parent" = _ := hc
        rw [hr] at hc; cases hc
      · rw [he] at hr hc
        have hr : a'.getNodeAttr (.num c) "parent" = .ok (.name (.num p)) ∧ _ := hr
        have hc : a'.getNodeAttr (.num c) "parent" = _ := hc
        rw [hr.1] at hc
        simp only [Except.ok.injEq, Val.name.injEq, Nm.num.injEq] at hc
        have hi := hie.1
        rw [he] at hi
        obtain ⟨_, b, G, _, _, _, h4⟩ := hi
        have := h4.mem
        rw [hc] at this
        apply hfe.1
        rw [he]
        exact this
    · rw [hold _ (by simpa using hce)] at hc
      exact hnopar c hc
  have hnoL : ∀ x ∈ L, ∀ c v s r, x.1 ≠ .node c e.1.idx v s r := by
    intro x hx c v s r hxe
    have hi := (h.item x (by simp [hx])).1
    rw [hxe] at hi
    obtain ⟨_, b, G, _, _, _, h4⟩ := hi
    exact hfe.1 h4.mem
  constructor
  · exact hrep
  · exact hdir
  · intro x hx
    rcases List.mem_append.1 hx with hx | hx
    · obtain ⟨c, v, b, h1, h2, h3, h4, h5, h6⟩ := hM x hx
      rw [h2, h1]
      refine ⟨⟨by omega, b, F e.1, rfl, rfl, rfl, hpath⟩, ?_, ?_⟩
      · simp only [List.map_cons, List.nodup_cons]
        exact ⟨h4, hie.2.1⟩
      · intro p hp
        rcases List.mem_cons.1 hp with rfl | hp
        · exact h3
        · exact hie.2.2 p hp
    · rw [hF x hx]
      have := h.item x (by simp [hx])
      exact ⟨this.1.mono hold hnone, this.2⟩
  · intro x hx
    rw [hit]
    constructor
    · intro hr
      rcases List.mem_append.1 hx with hx | hx
      · obtain ⟨c, v, b, h1, _⟩ := hM x hx
        rw [h1] at hr; cases hr
      · have h1 := hidx x hx
        have h0 := (h.rootq x (by simp [hx])).1 hr
        have h2 := (h.rootq e (by simp)).2 h0
        rw [hr, h2] at h1
        exact absurd rfl h1
    · intro h0; omega
  · intro x hx
    rw [hV, hcnt]
    simp only [List.mem_append, List.mem_singleton, Nm.num.injEq, not_or]
    rcases List.mem_append.1 hx with hx | hx
    · obtain ⟨c, v, b, h1, _, _, _, h5, h6⟩ := hM x hx
      rw [h1]
      refine ⟨⟨?_, ?_⟩, by rw [← hcnt]; exact h6⟩
      · intro hm
        obtain ⟨l, hl, _, _, hle⟩ := h.vis
        rw [hl] at hm
        have : c ∈ l := by simpa [Item.idx] using hm
        have := hle c this
        omega
      · show c ≠ e.1.idx
        have := hfe.2
        omega
    · have := h.fresh x (by simp [hx])
      exact ⟨⟨this.1, hidx x hx⟩, by omega⟩
  · rw [List.map_append, List.nodup_append]
    refine ⟨hMn, ?_, ?_⟩
    · have := h.nodup
      simp only [List.map_cons, List.nodup_cons] at this
      exact this.2
    · intro i hi j hj
      obtain ⟨x, hx, rfl⟩ := List.mem_map.1 hi
      obtain ⟨y, hy, rfl⟩ := List.mem_map.1 hj
      obtain ⟨c, v, b, h1, _, _, _, h5, h6⟩ := hM x hx
      have := (h.fresh y (by simp [hy])).2
      rw [h1]
      show c ≠ _
      omega
  · obtain ⟨l, h1, h2, h3, h4⟩ := h.vis
    refine ⟨l ++ [e.1.idx], ?_, ?_, ?_, ?_⟩
    · rw [hV, h1, List.map_append]; simp
    · rw [hit, List.length_append, h2]; rfl
    · rw [List.nodup_append]
      refine ⟨h3, by simp, ?_⟩
      intro x hx y hy hxy
      rw [List.mem_singleton] at hy
      rw [hxy, hy] at hx
      apply hfe.1
      rw [h1]
      simp [hx]
    · intro k hk
      rw [hcnt]
      rcases List.mem_append.1 hk with hk | hk
      · have := h4 k hk; omega
      · rw [List.mem_singleton] at hk
        rw [hk]
        have := hfe.2
        omega
  · intro _
    rw [hV]
    by_cases h0 : st.iterCount = 0
    · rw [(h.rootq e (by simp)).2 h0]
      simp [Item.idx]
    · exact List.mem_append.2 (.inl (h.zero h0))
  · have := h.one
    omega
  · intro x hx hne
    rcases List.mem_append.1 hx with hx | hx
    · exact hMp x hx
    · rw [hF x hx]
      exact h.prio x (by simp [hx]) hne
  · have := h.count
    simp only [List.length_cons] at this
    rw [hcnt, hit, hlp, List.length_append]
    omega
  · have := h.pot
    simp only [List.map_cons, List.sum_cons] at this
    have e1 : L.map (fun x => wt D (F' x.1)) = L.map fun x => wt D (F x.1) := by
      apply List.map_congr_left
      intro x hx
      rw [hF x hx]
    rw [hit, List.map_append, List.sum_append, e1]
    omega
  · exact hinc
  · intro x hx
    rcases h.cover x hx with h1 | ⟨y, hy, h1⟩
    · exact .inl (h1.trans hlb)
    · rcases List.mem_cons.1 hy with rfl | hy
      · rcases hcov x hx h1 with h2 | ⟨z, hz, h2⟩
        · exact .inl h2
        · exact .inr ⟨z, by simp [hz], h2⟩
      · exact .inr ⟨y, by simp [hy], by rw [hF y hy]; exact h1⟩
  · intro k hk
    by_cases hke : k = e.1.idx
    · subst hke
      refine ⟨F e.1, hpath, hie.2, hnode.mono rfl ?_ (le_refl _)⟩
      funext c v b
      apply propext
      constructor
      · rintro (⟨h1, _⟩ | ⟨pr, h1⟩)
        · exact absurd h1 (hnopar' c)
        · rcases List.mem_append.1 h1 with h1 | h1
          · exact ⟨pr, h1⟩
          · exact absurd rfl (hnoL _ h1 c v _ _)
      · rintro ⟨pr, h1⟩
        exact .inr ⟨pr, by simp [h1]⟩
    · have hk' : Nm.num k ∈ a.V := by
        rw [hV] at hk
        simpa [hke] using hk
      obtain ⟨G, h1, h2, h3⟩ := h.node k hk'
      refine ⟨G, h1.mono hold hnone, h2, h3.mono (hold _ (by simpa using hke)) ?_ hlb⟩
      funext c v b
      apply propext
      constructor
      · rintro (h4 | ⟨pr, h4⟩)
        · by_cases hce : c = e.1.idx
          · refine .inr ⟨e.2, ?_⟩
            have hr := hnew.rest
            rcases he : e.1 with _ | ⟨c', p, w, s, r⟩
            · rw [he] at hr hce
              have hr : a'.getNodeAttr (.num 0) "parent" = .ok .none := hr
              have hce : c = 0 := hce
              rw [hce, hr] at h4
              cases h4.1
            · rw [he] at hr hce
              have hce : c = c' := hce
              have hr : a'.getNodeAttr (.num c') "parent" = .ok (.name (.num p)) ∧ a'.getNodeAttr (.num c') "branch_var" = .ok (.str w) ∧
                a'.getNodeAttr (.num c') "sense" = .ok (.str s.str) ∧ a'.getNodeAttr (.num c') "rhs" = .ok (.int r) := hr
              rw [← hce] at hr
              rw [hr.1, hr.2.1, hr.2.2.1, hr.2.2.2] at h4
              simp only [Except.ok.injEq, Val.name.injEq, Nm.num.injEq, Val.str.injEq, Val.int.injEq] at h4
              obtain ⟨h5, h6, h7, h8⟩ := h4
              have hs : s = sn b := by
                cases s <;> cases b <;> first | rfl | (simp [Sense.str, senseStr] at h7)
              have : e = (Item.node c k v (sn b) (rh b), e.2) := by
                rw [show e = (e.1, e.2) from rfl, he, hce, h5, h6, hs, h8]
              rw [← this]
              simp
          · rw [hold _ (by simpa using hce)] at h4
            exact .inl h4
        · rcases List.mem_append.1 h4 with h4 | h4
          · obtain ⟨c', w, b', h5, _⟩ := hM _ h4
            simp only [Item.node.injEq] at h5
            exact absurd h5.2.1 hke
          · exact .inr ⟨pr, by simp [h4]⟩
      · rintro (h4 | ⟨pr, h4⟩)
        · by_cases hce : c = e.1.idx
          · rw [hce] at h4
            exact absurd h4.1 (hnone _ _)
          · refine .inl ?_
            rw [hold _ (by simpa using hce)]
            exact h4
        · rcases List.mem_cons.1 h4 with h4 | h4
          · refine .inl ?_
            have hr := hnew.rest
            rw [← h4] at hr
            obtain ⟨r1, r2, r3, r4⟩ := hr
            rw [sn_str] at r3
            exact ⟨r1, r2, r3, r4⟩
          · exact .inr ⟨pr, by simp [h4]⟩
  · intro p y
    rw [hE, List.mem_append, h.edge]
    constructor
    · rintro (⟨c, rfl, hc⟩ | hn)
      · refine ⟨c, rfl, ?_⟩
        rw [hold]
        · exact hc
        · intro hce; rw [hce] at hc; exact hnone _ _ hc
      · have hr := hnew.rest
        rcases he : e.1 with _ | ⟨c', p', w, s, r⟩
        · rw [he] at hn; simp [newEdges] at hn
        · rw [he] at hn hr
          simp only [newEdges, List.mem_singleton, Prod.mk.injEq, Nm.num.injEq] at hn
          rw [hn.1, hn.2]
          exact ⟨c', rfl, hr.1⟩
    · rintro ⟨c, rfl, hc⟩
      by_cases hce : c = e.1.idx
      · right
        have hr := hnew.rest
        rcases he : e.1 with _ | ⟨c', p', w, s, r⟩
        · rw [he] at hr hce
          have hr : a'.getNodeAttr (.num 0) "parent" = .ok .none := hr
          have hce : c = 0 := hce
          rw [hce, hr] at hc
          cases hc
        · rw [he] at hr hce
          have hce : c = c' := hce
          have hr : a'.getNodeAttr (.num c') "parent" = .ok (.name (.num p')) ∧ _ := hr
          rw [hce, hr.1] at hc
          simp only [Except.ok.injEq, Val.name.injEq, Nm.num.injEq] at hc
          simp [newEdges, hce, hc]
      · left
        refine ⟨c, rfl, ?_⟩
        rw [← hold _ (by simpa using hce)]
        exact hc

end BB
end GiMPy
