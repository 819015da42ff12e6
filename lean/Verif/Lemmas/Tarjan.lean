import Verif.Model.Tarjan
import Verif.Lemmas.Components

/-! # Invariant of Tarjan's algorithm -/

namespace GiMPy
namespace Tarjan
open Search
variable {N : Type} [DecidableEq N] {g : Graph N}
set_option linter.unusedSectionVars false

/-- the index as a number -/
def idx (st : TState N) (v : N) : Int := (st.index v).getD 0

/-- visited -/
def Vis (st : TState N) (v : N) : Prop := (st.index v).isSome

/-- Invariant between the steps of the algorithm; `G` are the nodes whose call is active. -/
structure TInv (g : Graph N) (G : List N) (st : TState N) (i c : Int) : Prop where
  cpos : 0 ≤ c
  num : st.num = c
  node : ∀ v, Vis st v → v ∈ g.getNodeList
  bound : ∀ v, Vis st v → idx st v < i
  qvis : ∀ v ∈ st.q, Vis st v
  sorted : st.q.Pairwise fun x y => idx st y < idx st x
  ccomp : ∀ v, Vis st v → v ∉ st.q → ∃ j, st.comp v = some j ∧ 0 ≤ j ∧ j < c
  cstep : ∀ u v, Vis st u → u ∉ st.q → Step g false u v → Vis st v ∧ v ∉ st.q
  same : ∀ u v, Vis st u → u ∉ st.q → Vis st v → v ∉ st.q →
    (st.comp u = st.comp v ↔ Reach g false u v ∧ Reach g false v u)
  used : ∀ j, 0 ≤ j → j < c → ∃ v, Vis st v ∧ v ∉ st.q ∧ st.comp v = some j
  gray : ∀ x ∈ G, x ∈ st.q
  down : ∀ x ∈ G, ∀ y ∈ st.q, idx st x ≤ idx st y → Reach g false x y
  up : ∀ y ∈ st.q, ∃ x ∈ G, idx st x ≤ idx st y ∧ Reach g false y x
  white : ∀ u v, Vis st u → u ∉ G → Step g false u v → Vis st v
  topo : ∀ u v j, Vis st u → u ∉ st.q → st.comp u = some j → Step g false u v → ∃ k, st.comp v = some k ∧ k ≤ j

/-- values of visited nodes are kept -/
structure Keep (st st' : TState N) : Prop where
  index : ∀ v, Vis st v → st'.index v = st.index v
  low : ∀ v, Vis st v → st'.low v = st.low v

theorem Keep.refl (st : TState N) : Keep st st := ⟨fun _ _ => rfl, fun _ _ => rfl⟩

theorem Keep.vis {st st' : TState N} (h : Keep st st') {v : N} (hv : Vis st v) : Vis st' v := by
  unfold Vis at *; rw [h.index v hv]; exact hv

theorem Keep.idx {st st' : TState N} (h : Keep st st') {v : N} (hv : Vis st v) : idx st' v = idx st v := by
  unfold Tarjan.idx; rw [h.index v hv]

theorem Keep.trans {a b c : TState N} (h : Keep a b) (h' : Keep b c) : Keep a c :=
  ⟨fun v hv => (h'.index v (h.vis hv)).trans (h.index v hv), fun v hv => (h'.low v (h.vis hv)).trans (h.low v hv)⟩

/-- effect of `strong_connect(node)` -/
structure TPost (g : Graph N) (node : N) (st : TState N) (i : Int) (st' : TState N) (i' : Int) (new : List N) (l : Int) :
    Prop where
  q : st'.q = new ++ st.q
  keep : Keep st st'
  ind : st'.index node = some i
  ii : i < i'
  low : st'.low node = some l
  le : l ≤ i
  wit : new = [] ∨ ∃ y ∈ st'.q, idx st' y = l ∧ Reach g false node y
  cross : ∀ x ∈ new, ∀ y ∈ st.q, Step g false x y → l ≤ idx st' y
  empty : new = [] → l = i

/-- state inside the loop over the neighbours of `node`; `done` have been handled -/
structure FInv (g : Graph N) (node : N) (G : List N) (st0 : TState N) (i0 : Int) (done : List N) (st : TState N) (i c : Int)
    (new : List N) (l : Int) : Prop where
  inv : TInv g (node :: G) st i c
  q : st.q = new ++ node :: st0.q
  keep : Keep st0 st
  ind : st.index node = some i0
  ii : i0 < i
  low : st.low node = some l
  le : l ≤ i0
  wit : ∃ y ∈ st.q, idx st y = l ∧ Reach g false node y
  cross : ∀ x ∈ new, ∀ y ∈ st0.q, Step g false x y → l ≤ idx st y
  doneL : ∀ m ∈ done, Vis st m ∧ (m ∈ st0.q → l ≤ idx st m)

theorem enter_ok {G : List N} {st : TState N} {i c : Int} {node : N} (h : TInv g G st i c) (hn : st.index node = none)
    (hnode : node ∈ g.getNodeList) (hr : ∀ x ∈ G, Reach g false x node) :
    FInv g node G st i [] (enter node st i) (i + 1) c [] i := by
  have hV : ∀ v, Vis (enter node st i) v ↔ v = node ∨ Vis st v := by
    intro v; unfold Vis enter upd; simp only []
    by_cases hv : v = node <;> simp [hv]
  have hnv : ¬ Vis st node := by unfold Vis; rw [hn]; simp
  have hne : ∀ v, Vis st v → v ≠ node := by rintro v hv rfl; exact hnv hv
  have hi : ∀ v, idx (enter node st i) v = if v = node then i else idx st v := by
    intro v; unfold idx enter upd; simp only []; split <;> simp
  have hi' : ∀ v, Vis st v → idx (enter node st i) v = idx st v := by
    intro v hv; rw [hi, if_neg (hne v hv)]
  have hin : idx (enter node st i) node = i := by rw [hi, if_pos rfl]
  have hk : Keep st (enter node st i) := by
    constructor <;> intro v hv <;> show upd _ _ _ v = _ <;> rw [upd_ne _ _ (hne v hv)]
  have hq : (enter node st i).q = node :: st.q := rfl
  refine ⟨?_, rfl, hk, by simp [enter], by omega, by simp [enter], Int.le_refl _, ⟨node, by simp [hq], hin, .refl⟩,
    by simp, by simp⟩
  refine ⟨h.cpos, h.num, ?_, ?_, ?_, ?_, ?_, ?_, ?_, ?_, ?_, ?_, ?_, ?_, ?_⟩
  · intro v hv
    rcases (hV v).1 hv with rfl | hv
    · exact hnode
    · exact h.node v hv
  · intro v hv
    rcases (hV v).1 hv with rfl | hv
    · rw [hin]; omega
    · rw [hi' v hv]; have := h.bound v hv; omega
  · intro v hv
    rw [hV]
    rcases List.mem_cons.1 hv with rfl | hv
    · exact Or.inl rfl
    · exact Or.inr (h.qvis v hv)
  · rw [hq, List.pairwise_cons]
    refine ⟨fun y hy => ?_, h.sorted.imp_of_mem fun {a b} ha hb hab => ?_⟩
    · rw [hin, hi' y (h.qvis y hy)]; exact h.bound y (h.qvis y hy)
    · rw [hi' a (h.qvis a ha), hi' b (h.qvis b hb)]; exact hab
  all_goals
    have hcl : ∀ v, Vis (enter node st i) v → v ∉ (enter node st i).q → Vis st v ∧ v ∉ st.q := by
      intro v hv hvq
      rw [hq, List.mem_cons, not_or] at hvq
      exact ⟨((hV v).1 hv).resolve_left hvq.1, hvq.2⟩
    have hcl' : ∀ v, Vis st v → v ∉ st.q → Vis (enter node st i) v ∧ v ∉ (enter node st i).q := by
      intro v hv hvq
      exact ⟨(hV v).2 (Or.inr hv), by rw [hq, List.mem_cons, not_or]; exact ⟨hne v hv, hvq⟩⟩
  · intro v hv hvq
    exact h.ccomp v (hcl v hv hvq).1 (hcl v hv hvq).2
  · intro u v hu huq hs
    have := h.cstep u v (hcl u hu huq).1 (hcl u hu huq).2 hs
    exact hcl' v this.1 this.2
  · intro u v hu huq hv hvq
    exact h.same u v (hcl u hu huq).1 (hcl u hu huq).2 (hcl v hv hvq).1 (hcl v hv hvq).2
  · intro j h0 hj
    obtain ⟨v, h1, h2, h3⟩ := h.used j h0 hj
    exact ⟨v, (hcl' v h1 h2).1, (hcl' v h1 h2).2, h3⟩
  · intro x hx
    rw [hq]
    rcases List.mem_cons.1 hx with rfl | hx
    · simp
    · exact List.mem_cons_of_mem _ (h.gray x hx)
  · intro x hx y hy hle
    rcases List.mem_cons.1 hx with rfl | hx
    · rcases List.mem_cons.1 hy with rfl | hy
      · exact .refl
      · rw [hin, hi' y (h.qvis y hy)] at hle
        have := h.bound y (h.qvis y hy)
        omega
    · rcases List.mem_cons.1 hy with h1 | hy
      · rw [h1]; exact hr x hx
      · rw [hi' x (h.qvis x (h.gray x hx)), hi' y (h.qvis y hy)] at hle
        exact h.down x hx y hy hle
  · intro y hy
    rcases List.mem_cons.1 hy with rfl | hy
    · exact ⟨y, by simp, Int.le_refl _, .refl⟩
    · obtain ⟨x, h1, h2, h3⟩ := h.up y hy
      refine ⟨x, by simp [h1], ?_, h3⟩
      rw [hi' x (h.qvis x (h.gray x h1)), hi' y (h.qvis y hy)]; exact h2
  · intro u v hu huG hs
    rw [List.mem_cons, not_or] at huG
    exact (hV v).2 (Or.inr (h.white u v (((hV u).1 hu).resolve_left huG.1) huG.2 hs))
  · intro u v j hu huq hj hs
    exact h.topo u v j (hcl u hu huq).1 (hcl u hu huq).2 hj hs

/-- changing only `lowlink` of visited nodes does not matter for the invariant -/
theorem TInv.setLow {G : List N} {st : TState N} {i c : Int} (h : TInv g G st i c) (low : N → Option Int) :
    TInv g G { st with low := low } i c :=
  ⟨h.cpos, h.num, h.node, h.bound, h.qvis, h.sorted, h.ccomp, h.cstep, h.same, h.used, h.gray, h.down, h.up, h.white, h.topo⟩

/-- lowering the value of `node` inside its loop, after handling `m` -/
theorem FInv.lower {node : N} {G : List N} {st0 : TState N} {i0 : Int} {done : List N} {st : TState N} {i c : Int}
    {new : List N} {l : Int} (h : FInv g node G st0 i0 done st i c new l) (hn0 : ¬ Vis st0 node)
    {m : N} {x : Int} (hm : Vis st m) (hmx : m ∈ st0.q → x ≤ idx st m)
    (hx : l ≤ x ∨ ∃ y ∈ st.q, idx st y = x ∧ Reach g false node y) :
    FInv g node G st0 i0 (m :: done) { st with low := upd st.low node (some (min l x)) } i c new (min l x) := by
  refine ⟨h.inv.setLow _, h.q, ⟨h.keep.index, ?_⟩, h.ind, h.ii, by simp, ?_, ?_, ?_, ?_⟩
  · intro v hv
    show upd st.low node _ v = _
    rw [upd_ne _ _ (by rintro rfl; exact hn0 hv)]
    exact h.keep.low v hv
  · have := h.le; omega
  · by_cases hlx : l ≤ x
    · rw [Int.min_eq_left hlx]; exact h.wit
    · rw [Int.min_eq_right (by omega)]; exact hx.resolve_left hlx
  · intro a ha y hy hs
    exact Int.le_trans (Int.min_le_left _ _) (h.cross a ha y hy hs)
  · intro a ha
    rcases List.mem_cons.1 ha with rfl | ha
    · exact ⟨hm, fun h => Int.le_trans (Int.min_le_right _ _) (hmx h)⟩
    · exact ⟨(h.doneL a ha).1, fun h' => Int.le_trans (Int.min_le_left _ _) ((h.doneL a ha).2 h')⟩

/-- handling a neighbour that is finished already -/
theorem FInv.skip {node : N} {G : List N} {st0 : TState N} {i0 : Int} {done : List N} {st : TState N} {i c : Int}
    {new : List N} {l : Int} (h : FInv g node G st0 i0 done st i c new l) {m : N} (hm : Vis st m) (hq : m ∉ st.q) :
    FInv g node G st0 i0 (m :: done) st i c new l :=
  { h with
    doneL := by
      intro a ha
      rcases List.mem_cons.1 ha with rfl | ha
      · exact ⟨hm, fun h' => absurd (by rw [h.q]; simp [h']) hq⟩
      · exact h.doneL a ha }

/-- a recursive call inside the loop, and the lowering after it -/
theorem FInv.call {node : N} {G : List N} {st0 : TState N} {i0 : Int} {done : List N} {st st' : TState N} {i i' c c' : Int}
    {new new' : List N} {l l' : Int} (h : FInv g node G st0 i0 done st i c new l) {m : N}
    (hp : TPost g m st i st' i' new' l') (hi : TInv g (node :: G) st' i' c') (h0 : ∀ v ∈ st0.q, Vis st0 v)
    (hn0 : ¬ Vis st0 node) (hm : ¬ Vis st m) (hs : Step g false node m) :
    FInv g node G st0 i0 (m :: done) { st' with low := upd st'.low node (some (min l l')) } i' c' (new' ++ new)
      (min l l') := by
  have hqv : ∀ v ∈ st.q, idx st' v = idx st v := fun v hv => hp.keep.idx (h.inv.qvis v hv)
  have h0q : ∀ v ∈ st0.q, v ∈ st.q := fun v hv => by rw [h.q]; simp [hv]
  have hnv : Vis st node := by unfold Vis; rw [h.ind]; rfl
  have hle := h.le
  have hle' := hp.le
  have hii := h.ii
  refine ⟨hi.setLow _, ?_, ⟨?_, ?_⟩, ?_, ?_, by simp, by omega, ?_, ?_, ?_⟩
  · show st'.q = _
    rw [hp.q, h.q, List.append_assoc]
  · exact (h.keep.trans hp.keep).index
  · intro v hv
    show upd st'.low node _ v = _
    rw [upd_ne _ _ (by rintro rfl; exact hn0 hv)]
    exact (h.keep.trans hp.keep).low v hv
  · show st'.index node = _
    rw [hp.keep.index node hnv]; exact h.ind
  · have := hp.ii; omega
  · have hold : ∃ y ∈ st'.q, idx st' y = l ∧ Reach g false node y := by
      obtain ⟨y, h1, h2, h3⟩ := h.wit
      exact ⟨y, by rw [hp.q]; simp [h1], by rw [hqv y h1]; exact h2, h3⟩
    by_cases hlx : l ≤ l'
    · rw [Int.min_eq_left hlx]; exact hold
    · rw [Int.min_eq_right (by omega)]
      rcases hp.wit with h1 | ⟨y, h1, h2, h3⟩
      · have := hp.empty h1; omega
      · exact ⟨y, h1, h2, .head hs h3⟩
  · intro x hx y hy hxy
    show min l l' ≤ idx st' y
    rcases List.mem_append.1 hx with hx | hx
    · have := hp.cross x hx y (h0q y hy) hxy; omega
    · have := h.cross x hx y hy hxy
      rw [hqv y (h0q y hy)]; omega
  · intro a ha
    show Vis st' a ∧ (_ → min l l' ≤ idx st' a)
    rcases List.mem_cons.1 ha with rfl | ha
    · refine ⟨by unfold Vis; rw [hp.ind]; rfl, fun h1 => absurd (h.keep.vis (h0 a h1)) hm⟩
    · have := h.doneL a ha
      refine ⟨hp.keep.vis this.1, fun h1 => ?_⟩
      rw [hp.keep.idx this.1]
      have := this.2 h1; omega

/-- number of unvisited nodes -/
def unv (g : Graph N) (st : TState N) : Nat := (g.getNodeList.filter fun v => decide (st.index v = none)).length

theorem unv_mono {st st' : TState N} (h : Keep st st') : unv g st' ≤ unv g st := by
  refine (List.monotone_filter_right _ ?_).length_le
  intro v hv
  simp only [decide_eq_true_eq] at hv ⊢
  by_contra hc
  have : Vis st v := Option.isSome_iff_ne_none.2 hc
  rw [h.index v this] at hv
  exact hc hv

theorem unv_enter {st : TState N} {node : N} (hn : st.index node = none) (hnode : node ∈ g.getNodeList) (i : Int) :
    unv g (enter node st i) < unv g st := by
  unfold unv
  have hsub : (g.getNodeList.filter fun v => decide ((enter node st i).index v = none)) =
      ((g.getNodeList.filter fun v => decide (st.index v = none)).filter fun v => decide (v ≠ node)) := by
    rw [List.filter_filter]
    refine List.filter_congr fun v _ => ?_
    show decide (upd st.index node (some i) v = none) = _
    by_cases hv : v = node
    · subst hv; simp
    · rw [upd_ne _ _ hv]; simp [hv]
  rw [hsub]
  exact List.length_filter_lt_length_iff_exists.2 ⟨node, List.mem_filter.2 ⟨hnode, by simpa using hn⟩, by simp⟩

/-- what the recursive call must do -/
def RecOk (g : Graph N) (rec : N → TState N → Int → Int → Res N) (f : Nat) : Prop :=
  ∀ (G : List N) (st : TState N) (i c : Int) (m : N), TInv g G st i c → st.index m = none → m ∈ g.getNodeList →
    (∀ x ∈ G, Reach g false x m) → unv g st ≤ f →
    ∃ st' i' c' new l, rec m st i c = .ok (st', i', c') ∧ TInv g G st' i' c' ∧ TPost g m st i st' i' new l

theorem scFor_ok (hwf : g.Wf) {rec : N → TState N → Int → Int → Res N} {f : Nat} (hrec : RecOk g rec f) {node : N}
    {G : List N} {st0 : TState N} {i0 : Int} (h0 : ∀ v ∈ st0.q, Vis st0 v) (hn0 : ¬ Vis st0 node)
    (hG : ∀ x ∈ G, Reach g false x node) :
    ∀ (L done : List N) (st : TState N) (i c : Int) (new : List N) (l : Int), (∀ m ∈ L, Step g false node m) →
      FInv g node G st0 i0 done st i c new l → unv g st ≤ f →
      ∃ st' i' c' new' l', scFor rec node L st i c = .ok (st', i', c') ∧
        FInv g node G st0 i0 (L.reverse ++ done) st' i' c' new' l' := by
  intro L
  induction L with
  | nil => intro done st i c new l _ h _; exact ⟨st, i, c, new, l, rfl, h⟩
  | cons m L ih =>
    intro done st i c new l hL h hf
    have hs := hL m (by simp)
    rw [List.reverse_cons, List.append_assoc, List.singleton_append, scFor]
    have hlow : ∀ (s : TState N) (a b : Int), s.low node = some a →
        Tarjan.lower s node (some b) = .ok { s with low := upd s.low node (some (min a b)) } := by
      intro s a b ha; unfold Tarjan.lower; rw [ha]; rfl
    by_cases hm : st.index m = none
    · rw [if_pos hm]
      have hmv : ¬ Vis st m := by unfold Vis; rw [hm]; simp
      have hnv : Vis st node := by unfold Vis; rw [h.ind]; rfl
      obtain ⟨st1, i1, c1, new1, l1, e1, e2, e3⟩ := hrec (node :: G) st i c m h.inv hm (step_node hwf hs).2
        (by
          intro x hx
          rcases List.mem_cons.1 hx with rfl | hx
          · exact .single hs
          · exact (hG x hx).tail hs) hf
      rw [e1]
      simp only []
      rw [e3.low, hlow st1 l l1 (by rw [e3.keep.low node hnv]; exact h.low)]
      exact ih _ _ _ _ _ _ (fun a ha => hL a (by simp [ha])) (h.call e3 e2 h0 hn0 hmv hs)
        (show unv g st1 ≤ f from Nat.le_trans (unv_mono e3.keep) hf)
    · rw [if_neg hm]
      have hmv : Vis st m := Option.isSome_iff_ne_none.2 hm
      by_cases hq : m ∈ st.q
      · rw [if_pos hq]
        obtain ⟨j, hj⟩ := Option.isSome_iff_exists.1 hmv
        have hjx : idx st m = j := by unfold idx; rw [hj]; rfl
        rw [hj, hlow st l j h.low]
        exact ih _ _ _ _ _ _ (fun a ha => hL a (by simp [ha]))
          (h.lower hn0 hmv (fun _ => by omega) (Or.inr ⟨m, hq, hjx, .single hs⟩)) hf
      · rw [if_neg hq]
        exact ih _ _ _ _ _ _ (fun a ha => hL a (by simp [ha])) (h.skip hmv hq) hf

theorem popTo_ok (node : N) (c : Int) (q : List N) : ∀ (new : List N) (comp : N → Option Int), node ∉ new →
    ∃ comp', popTo node c (new ++ node :: q) comp = .ok (q, comp') ∧
      ∀ v, comp' v = if v ∈ new ∨ v = node then some c else comp v := by
  intro new
  induction new with
  | nil =>
    intro comp _
    refine ⟨_, by rw [List.nil_append, popTo, if_pos rfl], ?_⟩
    intro v; unfold upd; simp
  | cons a new ih =>
    intro comp h
    rw [List.mem_cons, not_or] at h
    obtain ⟨comp', h1, h2⟩ := ih (upd comp a (some c)) h.2
    refine ⟨comp', by rw [List.cons_append, popTo, if_neg h.1]; exact h1, ?_⟩
    intro v
    rw [h2]
    unfold upd
    by_cases h3 : v ∈ new ∨ v = node
    · have : v ∈ a :: new ∨ v = node := h3.imp (List.mem_cons_of_mem _) id
      rw [if_pos h3, if_pos this]
    · rw [if_neg h3]
      by_cases h4 : v = a
      · simp [h4]
      · have : ¬ (v ∈ a :: new ∨ v = node) := by simp only [List.mem_cons, h4, false_or]; exact h3
        rw [if_neg h4, if_neg this]

/-- leaving a node -/
theorem finish_ok {node : N} {G : List N} {st0 : TState N} {i0 i c c0 : Int} {done : List N} {st : TState N}
    {new : List N} {l : Int} (h : FInv g node G st0 i0 done st i c new l) (hinv0 : TInv g G st0 i0 c0)
    (hdone : ∀ m, Step g false node m → m ∈ done) :
    ∃ st' i' c' new' l', finish node st i c = .ok (st', i', c') ∧ TInv g G st' i' c' ∧
      TPost g node st0 i0 st' i' new' l' := by
  have hI := h.inv
  have hidn : idx st node = i0 := by unfold idx; rw [h.ind]; rfl
  have hnv : Vis st node := by unfold Vis; rw [h.ind]; rfl
  have hnq : node ∈ st.q := by rw [h.q]; simp
  have h0q : ∀ v ∈ st0.q, v ∈ st.q := fun v hv => by rw [h.q]; simp [hv]
  have hsort := hI.sorted
  rw [h.q, List.pairwise_append, List.pairwise_cons] at hsort
  obtain ⟨-, ⟨hs1, hs2⟩, hs3⟩ := hsort
  have hlt0 : ∀ y ∈ st0.q, idx st y < i0 := fun y hy => hidn ▸ hs1 y hy
  have hgt : ∀ y ∈ new, i0 < idx st y := fun y hy => hidn ▸ hs3 y hy node (by simp)
  have hnn : node ∉ new := by intro hn; have := hgt node hn; omega
  have hn0 : node ∉ st0.q := by intro hn; have := hlt0 node hn; omega
  have hdis : ∀ y ∈ new, y ∉ st0.q := by intro y h1 h2; have := hgt y h1; have := hlt0 y h2; omega
  have hGq : ∀ x ∈ G, x ∈ st0.q := hinv0.gray
  have hup0 : ∀ y ∈ st0.q, ∃ x ∈ G, idx st x ≤ idx st y ∧ Reach g false y x := by
    intro y hy
    obtain ⟨x, h1, h2, h3⟩ := hinv0.up y hy
    refine ⟨x, h1, ?_, h3⟩
    rw [h.keep.idx (hinv0.qvis y hy), h.keep.idx (hinv0.qvis x (hGq x h1))]; exact h2
  have hnodeE : ∀ v, Step g false node v → Vis st v := fun v hv => (h.doneL v (hdone v hv)).1
  have hwhite : ∀ u v, Vis st u → u ∉ G → Step g false u v → Vis st v := by
    intro u v hu huG hs
    by_cases hun : u = node
    · subst hun; exact hnodeE v hs
    · exact hI.white u v hu (by rw [List.mem_cons, not_or]; exact ⟨hun, huG⟩) hs
  unfold finish
  by_cases hl : l = i0
  · rw [if_pos (by rw [h.low, h.ind, hl])]
    obtain ⟨comp', p1, p2⟩ := popTo_ok node c st0.q new st.comp hnn
    rw [h.q, p1]
    refine ⟨_, _, _, [], l, rfl, ?_, ?_⟩
    · -- everything popped is mutually reachable with `node`
      have hA : ∀ v, v ∈ new ∨ v = node → Reach g false node v ∧ Reach g false v node := by
        rintro v (hv | rfl)
        · have hvq : v ∈ st.q := by rw [h.q]; simp [hv]
          refine ⟨hI.down node (by simp) v hvq (by rw [hidn]; exact Int.le_of_lt (hgt v hv)), ?_⟩
          obtain ⟨x, h1, h2, h3⟩ := hI.up v hvq
          refine h3.trans (hI.down x h1 node hnq ?_)
          rcases List.mem_cons.1 h1 with rfl | h1
          · exact Int.le_refl _
          · rw [hidn]; exact Int.le_of_lt (hlt0 x (hGq x h1))
        · exact ⟨.refl, .refl⟩
      -- no edge from the popped nodes into the rest of the stack
      have hB : ∀ u v, u ∈ new ∨ u = node → Step g false u v → Vis st v ∧ v ∉ st0.q := by
        rintro u v (hu | rfl) hs
        · refine ⟨hwhite u v (hI.qvis u (by rw [h.q]; simp [hu])) (fun hG => hdis u hu (hGq u hG)) hs, fun hv => ?_⟩
          have := h.cross u hu v hv hs; have := hlt0 v hv; omega
        · have := h.doneL v (hdone v hs)
          refine ⟨this.1, fun hv => ?_⟩
          have := this.2 hv; have := hlt0 v hv; omega
      have hq : ∀ v, v ∉ st0.q ↔ (v ∉ st.q ∨ v ∈ new ∨ v = node) := by
        intro v
        rw [h.q, List.mem_append, List.mem_cons]
        constructor
        · tauto
        · rintro (h1 | h1 | rfl)
          · tauto
          · exact hdis v h1
          · exact hn0
      have hold : ∀ v, v ∉ st.q → comp' v = st.comp v := by
        intro v hv
        rw [p2, if_neg]
        rw [h.q, List.mem_append, List.mem_cons] at hv; tauto
      have hnew : ∀ v, v ∈ new ∨ v = node → comp' v = some c := by
        intro v hv; rw [p2, if_pos hv]
      have hclosed : ∀ u v, Vis st u → u ∉ st.q → Reach g false u v → Vis st v ∧ v ∉ st.q := by
        intro u v hu huq hr
        induction hr with
        | refl => exact ⟨hu, huq⟩
        | tail _ hs ih => exact hI.cstep _ _ ih.1 ih.2 hs
      have hnewq : ∀ v, v ∈ new ∨ v = node → v ∈ st.q := by
        rintro v (hv | rfl)
        · rw [h.q]; simp [hv]
        · exact hnq
      have hcp := hI.cpos
      refine ⟨by omega, rfl, hI.node, hI.bound, ?_, hs2, ?_, ?_, ?_, ?_, hGq, ?_, hup0, hwhite, ?_⟩
      · intro v hv; exact hI.qvis v (h0q v hv)
      · intro v hv hvq
        rcases (hq v).1 hvq with h1 | h1
        · obtain ⟨j, j1, j2, j3⟩ := hI.ccomp v hv h1
          exact ⟨j, by show comp' v = _; rw [hold v h1]; exact j1, j2, by omega⟩
        · exact ⟨c, hnew v h1, by omega, by omega⟩
      · intro u v hu huq hs
        rcases (hq u).1 huq with h1 | h1
        · have := hI.cstep u v hu h1 hs
          exact ⟨this.1, (hq v).2 (Or.inl this.2)⟩
        · exact hB u v h1 hs
      · intro u v hu huq hv hvq
        show comp' u = comp' v ↔ _
        rcases (hq u).1 huq with h1 | h1 <;> rcases (hq v).1 hvq with h2 | h2
        · rw [hold u h1, hold v h2]; exact hI.same u v hu h1 hv h2
        · rw [hold u h1, hnew v h2]
          constructor
          · intro he
            obtain ⟨j, j1, j2, j3⟩ := hI.ccomp u hu h1
            rw [j1] at he; have := Option.some.inj he; omega
          · intro hr
            exact absurd (hnewq v h2) (hclosed u v hu h1 hr.1).2
        · rw [hold v h2, hnew u h1]
          constructor
          · intro he
            obtain ⟨j, j1, j2, j3⟩ := hI.ccomp v hv h2
            rw [j1] at he; have := Option.some.inj he; omega
          · intro hr
            exact absurd (hnewq u h1) (hclosed v u hv h2 hr.2).2
        · rw [hnew u h1, hnew v h2]
          have := hA u h1; have h4 := hA v h2
          exact ⟨fun _ => ⟨this.2.trans h4.1, h4.2.trans this.1⟩, fun _ => rfl⟩
      · intro j j0 hj
        by_cases hjc : j = c
        · exact ⟨node, hnv, hn0, by rw [hjc]; exact hnew node (Or.inr rfl)⟩
        · obtain ⟨v, v1, v2, v3⟩ := hI.used j j0 (by omega)
          exact ⟨v, v1, (hq v).2 (Or.inl v2), by show comp' v = _; rw [hold v v2]; exact v3⟩
      · intro x hx y hy hle
        exact hI.down x (by simp [hx]) y (h0q y hy) hle
      · intro u v j hu huq hj hs
        show ∃ k, comp' v = some k ∧ k ≤ j
        replace hj : comp' u = some j := hj
        rcases (hq u).1 huq with h1 | h1
        · rw [hold u h1] at hj
          rw [hold v (hI.cstep u v hu h1 hs).2]
          exact hI.topo u v j hu h1 hj hs
        · rw [hnew u h1] at hj; cases hj
          obtain ⟨h2, h3⟩ := hB u v h1 hs
          rcases (hq v).1 h3 with h4 | h4
          · obtain ⟨k, k1, k2, k3⟩ := hI.ccomp v h2 h4
            exact ⟨k, by rw [hold v h4]; exact k1, by omega⟩
          · exact ⟨c, hnew v h4, Int.le_refl _⟩
    · exact ⟨rfl, ⟨h.keep.index, h.keep.low⟩, h.ind, h.ii, h.low, h.le, Or.inl rfl, by simp, fun _ => hl⟩
  · have hle := h.le
    rw [if_neg (by rw [h.low, h.ind]; intro he; exact hl (Option.some.inj he))]
    refine ⟨_, _, _, new ++ [node], l, rfl, ?_, ?_⟩
    · refine { hI with gray := fun x hx => hI.gray x (by simp [hx]), down := fun x hx => hI.down x (by simp [hx]),
                       up := ?_, white := hwhite }
      intro y hy
      obtain ⟨x, h1, h2, h3⟩ := hI.up y hy
      rcases List.mem_cons.1 h1 with rfl | h1
      · obtain ⟨y0, a1, a2, a3⟩ := h.wit
        have hy0 : y0 ∈ st0.q := by
          rw [h.q, List.mem_append, List.mem_cons] at a1
          rcases a1 with a1 | rfl | a1
          · have := hgt y0 a1; omega
          · omega
          · exact a1
        obtain ⟨x', b1, b2, b3⟩ := hup0 y0 hy0
        exact ⟨x', b1, by omega, (h3.trans a3).trans b3⟩
      · exact ⟨x, h1, h2, h3⟩
    · refine ⟨by rw [h.q]; simp, h.keep, h.ind, h.ii, h.low, h.le, Or.inr h.wit, ?_, by simp⟩
      intro x hx y hy hs
      rcases List.mem_append.1 hx with hx | hx
      · exact h.cross x hx y hy hs
      · obtain rfl := List.mem_singleton.1 hx
        exact (h.doneL y (hdone y hs)).2 hy

theorem strongConnect_ok (hwf : g.Wf) (f : Nat) : RecOk g (strongConnect g f) f := by
  induction f with
  | zero =>
    intro G st i c m h hm hmn hr hf
    exfalso
    have : 0 < unv g st := List.length_pos_of_mem (List.mem_filter.2 ⟨hmn, by simpa using hm⟩)
    omega
  | succ f ih =>
    intro G st i c m h hm hmn hr hf
    have hn : g.hasNode m = true := by unfold Graph.hasNode; rw [Dict.contains_iff, hwf.nodesEq]; exact hmn
    obtain ⟨L, hL, hmem⟩ := nbrs_ok hwf false hmn
    have hL' : g.getNeighbors m = .ok L := by simpa [nbrs] using hL
    have hmv : ¬ Vis st m := by unfold Vis; rw [hm]; simp
    have := unv_enter (g := g) hm hmn i
    obtain ⟨st1, i1, c1, new, l, e1, e2⟩ := scFor_ok hwf ih h.qvis hmv hr L [] _ _ _ _ _ (fun a ha => (hmem a).1 ha)
      (enter_ok h hm hmn hr) (by omega)
    obtain ⟨st2, i2, c2, new2, l2, e3, e4, e5⟩ := finish_ok e2 h (fun a ha => by
      rw [List.append_nil, List.mem_reverse]; exact (hmem a).2 ha)
    refine ⟨st2, i2, c2, new2, l2, ?_, e4, e5⟩
    rw [strongConnect, if_neg (by simp [hn]), hL']
    simp only [e1]
    exact e3

theorem tarjanLoop_ok (hwf : g.Wf) {f : Nat} : ∀ (L : List N) (st : TState N) (i c : Int), (∀ v ∈ L, v ∈ g.getNodeList) →
    TInv g [] st i c → unv g st ≤ f →
    ∃ st' i' c', tarjanLoop g f L st i c = .ok (st', i', c') ∧ TInv g [] st' i' c' ∧ Keep st st' ∧ ∀ v ∈ L, Vis st' v := by
  intro L
  induction L with
  | nil => intro st i c _ h _; exact ⟨st, i, c, rfl, h, .refl _, by simp⟩
  | cons n L ih =>
    intro st i c hL h hf
    rw [tarjanLoop]
    by_cases hn : st.index n = none
    · rw [if_pos hn]
      obtain ⟨st1, i1, c1, new, l, e1, e2, e3⟩ := strongConnect_ok hwf f [] st i c n h hn (hL n (by simp)) (by simp) hf
      rw [e1]
      obtain ⟨st2, i2, c2, d1, d2, d3, d4⟩ := ih st1 i1 c1 (fun v hv => hL v (by simp [hv])) e2
        (Nat.le_trans (unv_mono e3.keep) hf)
      refine ⟨st2, i2, c2, d1, d2, e3.keep.trans d3, ?_⟩
      intro v hv
      rcases List.mem_cons.1 hv with rfl | hv
      · exact d3.vis (by unfold Vis; rw [e3.ind]; rfl)
      · exact d4 v hv
    · rw [if_neg hn]
      obtain ⟨st2, i2, c2, d1, d2, d3, d4⟩ := ih st i c (fun v hv => hL v (by simp [hv])) h hf
      refine ⟨st2, i2, c2, d1, d2, d3, ?_⟩
      intro v hv
      rcases List.mem_cons.1 hv with rfl | hv
      · exact d3.vis (Option.isSome_iff_ne_none.2 hn)
      · exact d4 v hv

end Tarjan
end GiMPy
