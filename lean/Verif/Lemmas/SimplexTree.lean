import Verif.Model.Simplex
import Verif.Lemmas.MinCost
import Verif.Lemmas.Forest

/-! # Lemmas on network simplex: the tree object and its traversal -/

namespace GiMPy
namespace Simplex
open MinCost MaxFlow
variable {N : Type} [DecidableEq N] {Q : Type} {g t : Graph N}
set_option linter.unusedSectionVars false

/-! ## Editing the tree -/

/-- `t` is a digraph object on the nodes of `g` with some of its arcs -/
structure TGr (g t : Graph N) : Prop where
  built : Built t
  dir : t.directed = true
  nodes : t.getNodeList = g.getNodeList
  sub : ∀ e ∈ t.getEdgeList, e ∈ g.getEdgeList

theorem TGr.ends (h : TGr g t) {e : N × N} (he : e ∈ t.getEdgeList) : e.1 ∈ t.getNodeList ∧ e.2 ∈ t.getNodeList :=
  h.built.wf.endp e.1 e.2 he

theorem TGr.nodup (h : TGr g t) : t.getEdgeList.Nodup := h.built.wf.edup

theorem TGr.hasNode (h : TGr g t) {v : N} (hv : v ∈ g.getNodeList) : t.hasNode v = true := by
  unfold Graph.hasNode
  rw [Dict.contains_iff, h.built.wf.nodesEq]
  have := h.nodes
  unfold Graph.getNodeList at this hv
  rw [this]; exact hv

theorem TGr.add (h : TGr g t) {u v : N} (hu : u ∈ g.getNodeList) (hv : v ∈ g.getNodeList) (hg : (u, v) ∈ g.getEdgeList)
    (hn : (u, v) ∉ t.getEdgeList) :
    ∃ t', t.call (.addEdge u v []) = .ok t' ∧ TGr g t' ∧ t'.getEdgeList = t.getEdgeList ++ [(u, v)] := by
  have hr := rep_of_wf h.built.wf
  obtain ⟨t', a', h1, h2, h3, h4, _, h6, _⟩ := rep_addEdge hr h.dir hn []
  have hkeys : t.neighbors.keys = g.getNodeList := h.nodes
  have hV : t'.getNodeList = t.getNodeList := by
    show t'.neighbors.keys = t.neighbors.keys
    rw [h2.V, h6]
    unfold AGraph.ensure
    simp [hkeys, hu, hv]
  refine ⟨t', h1, ⟨h.built.call h.dir h1, by rw [h2.dir, h3], by rw [hV, h.nodes], ?_⟩, by rw [show t'.getEdgeList = t'.edgeAttr.keys from rfl, h2.E, h4]; rfl⟩
  intro e he
  rw [show t'.getEdgeList = t'.edgeAttr.keys from rfl, h2.E, h4] at he
  rcases List.mem_append.1 he with he | he
  · exact h.sub e he
  · rw [List.mem_singleton] at he; subst he; exact hg

theorem TGr.del (h : TGr g t) {e : N × N} (he : e ∈ t.getEdgeList) :
    ∃ t', t.call (.delEdge e.1 e.2) = .ok t' ∧ TGr g t' ∧ t'.getEdgeList = without t.getEdgeList e := by
  have hr := rep_of_wf h.built.wf
  have hk : AGraph.key? ⟨t.directed, t.neighbors.keys, t.edgeAttr.keys, fun n s => (t.nodes.get? n).bind (·.get? s),
      fun e s => (t.edgeAttr.get? e).bind (·.get? s)⟩ e.1 e.2 = some e := by
    unfold AGraph.key?
    rw [if_pos (show (e.1, e.2) ∈ t.edgeAttr.keys from he)]
  obtain ⟨t', h1, h2⟩ := rep_call hr h.dir (.delEdge e.1 e.2) (by simp only [AGraph.step]; rw [hk])
  simp only [AGraph.step] at h2
  rw [hk] at h2
  simp only at h2
  have hE : t'.getEdgeList = without t.getEdgeList e := h2.E
  refine ⟨t', h1, ⟨h.built.call h.dir h1, by rw [h2.dir]; exact h.dir, by rw [← h.nodes]; exact h2.V, ?_⟩, hE⟩
  intro x hx
  rw [hE, List.mem_filter] at hx
  exact h.sub x hx.1

theorem around_ok (hwf : t.Wf) (hd : t.directed = true) {cur : N} (hc : cur ∈ t.getNodeList) :
    ∃ l, around t cur = .ok l ∧ ∀ v, v ∈ l ↔ EAdj t.getEdgeList cur v := by
  obtain ⟨out, inn, h1, h2, h3, h4⟩ := nbrs_edges hwf hd hc
  refine ⟨inn ++ out, by unfold around; rw [h2, h1], fun v => ?_⟩
  rw [List.mem_append, h3, h4]
  unfold EAdj
  exact or_comm

/-- the list has no repetitions when there are no antiparallel arcs -/
theorem around_nodup (hwf : t.Wf) (hd : t.directed = true) (hs : Simple t.getEdgeList) {cur : N} (hc : cur ∈ t.getNodeList)
    {l : List N} (hl : around t cur = .ok l) : l.Nodup := by
  obtain ⟨out, inn, h1, h2, h3, h4⟩ := nbrs_edges hwf hd hc
  unfold around at hl
  rw [h2, h1] at hl
  cases hl
  have ho : out.Nodup := by
    rw [List.nodup_iff_count_le_one]
    intro v
    have := hwf.out cur v
    unfold Graph.outc at this
    unfold Graph.getNeighbors at h1
    cases hg : t.neighbors.get? cur with
    | none => rw [hg] at h1; cases h1
    | some x =>
      rw [hg] at h1 this; cases h1
      simp only [Option.getD_some, hd, if_true] at this
      rw [this]; unfold Graph.ind; split <;> omega
  have hi : inn.Nodup := by
    rw [List.nodup_iff_count_le_one]
    intro v
    have := hwf.inn hd cur v
    unfold Graph.innc at this
    unfold Graph.getInNeighbors at h2
    rw [if_pos hd] at h2
    cases hg : t.inNeighbors.get? cur with
    | none => rw [hg] at h2; cases h2
    | some x =>
      rw [hg] at h2 this; cases h2
      simp only [Option.getD_some] at this
      rw [this]; unfold Graph.ind; split <;> omega
  rw [List.nodup_append]
  refine ⟨hi, ho, ?_⟩
  rintro a ha b hb rfl
  exact hs _ _ ((h4 a).1 ha) ((h3 a).1 hb)

/-! ## simplex_search -/

/-- the traversal started from `src`; the neighbours of the nodes in `C` have been met -/
structure SInv (T : List (N × N)) (V : List N) (src : N) (C : List N) (st : XState N) : Prop where
  nodup : (st.seq ++ st.q).Nodup
  keys : ∀ v, v ∈ st.pred.keys ↔ v ∈ st.seq ++ st.q
  nodes : ∀ v ∈ st.pred.keys, v ∈ V
  root : st.pred.get? src = some none ∧ st.depth.get? src = some 0
  link : ∀ v ∈ st.pred.keys, v ≠ src → ∃ p d, st.pred.get? v = some (some p) ∧ EAdj T p v ∧ p ∈ st.seq ∧
    st.depth.get? p = some d ∧ st.depth.get? v = some (d + 1)
  order : ∀ l1 v l2, st.seq = l1 ++ v :: l2 → v ≠ src → ∃ p ∈ l1, st.pred.get? v = some (some p)
  start : (st.seq = [] ∧ st.q = [src]) ∨ st.seq.head? = some src
  closed : ∀ u ∈ C, ∀ v, EAdj T u v → v ∈ st.pred.keys

variable {T : List (N × N)} {V C : List N} {src : N}

theorem SInv.depth {st : XState N} (h : SInv T V src C st) {v : N} (hv : v ∈ st.pred.keys) : ∃ d, st.depth.get? v = some d := by
  by_cases hvs : v = src
  · subst hvs; exact ⟨0, h.root.2⟩
  · obtain ⟨p, d, _, _, _, _, h5⟩ := h.link v hv hvs
    exact ⟨d + 1, h5⟩

theorem visit_ok {cur : N} : ∀ (l : List N) (st : XState N), SInv T V src C st → cur ∈ st.seq →
    (∀ v ∈ l, EAdj T cur v ∧ v ∈ V) →
    ∃ st', visit cur l st = .ok st' ∧ SInv T V src C st' ∧ st'.seq = st.seq ∧ (∀ v ∈ l, v ∈ st'.pred.keys) ∧
      ∀ v ∈ st.pred.keys, v ∈ st'.pred.keys := by
  intro l
  induction l with
  | nil => intro st h hc _; exact ⟨st, rfl, h, rfl, by simp, fun v h => h⟩
  | cons n l ih =>
    intro st h hc hl
    unfold visit
    by_cases hn : n ∈ st.pred.keys
    · rw [if_pos ((Dict.contains_iff _ _).2 hn)]
      obtain ⟨st', h1, h2, h3, h4, h5⟩ := ih st h hc fun v hv => hl v (by simp [hv])
      refine ⟨st', h1, h2, h3, ?_, h5⟩
      intro v hv
      rcases List.mem_cons.1 hv with rfl | hv
      · exact h5 _ hn
      · exact h4 v hv
    · rw [if_neg (fun h' => hn ((Dict.contains_iff _ _).1 h'))]
      have hck : cur ∈ st.pred.keys := (h.keys cur).2 (by simp [hc])
      obtain ⟨d, hd⟩ := h.depth hck
      rw [hd]
      simp only []
      have hns : n ≠ src := by rintro rfl; exact hn (Dict.mem_keys_of_get? h.root.1)
      have hnc : n ≠ cur := by rintro rfl; exact hn hck
      have hnsq : n ∉ st.seq ++ st.q := fun h' => hn ((h.keys n).2 h')
      have key : SInv T V src C { st with pred := st.pred.set n (some cur), depth := st.depth.set n (d + 1), q := n :: st.q } := by
        constructor
        · show (st.seq ++ n :: st.q).Nodup
          rw [List.perm_middle.nodup_iff]
          exact List.nodup_cons.2 ⟨hnsq, h.nodup⟩
        · intro v
          rw [Dict.mem_keys_set]
          simp only [List.mem_append, List.mem_cons]
          have := h.keys v
          rw [List.mem_append] at this
          tauto
        · intro v hv
          rcases (Dict.mem_keys_set _ _ _ _).1 hv with rfl | hv
          · exact (hl v (by simp)).2
          · exact h.nodes v hv
        · exact ⟨by rw [Dict.get?_set_ne _ _ hns]; exact h.root.1, by rw [Dict.get?_set_ne _ _ hns]; exact h.root.2⟩
        · intro v hv hvs
          rcases (Dict.mem_keys_set _ _ _ _).1 hv with rfl | hv
          · exact ⟨cur, d, by simp, (hl v (by simp)).1, hc, by rw [Dict.get?_set_ne _ _ hnc]; exact hd, by simp⟩
          · obtain ⟨p, d', h1, h2, h3, h4, h5⟩ := h.link v hv hvs
            have hvn : n ≠ v := by rintro rfl; exact hn hv
            have hpn : n ≠ p := by rintro rfl; exact hnsq (by simp [h3])
            exact ⟨p, d', by rw [Dict.get?_set_ne _ _ hvn]; exact h1, h2, h3,
              by rw [Dict.get?_set_ne _ _ hpn]; exact h4, by rw [Dict.get?_set_ne _ _ hvn]; exact h5⟩
        · intro l1 v l2 he hvs
          obtain ⟨p, h1, h2⟩ := h.order l1 v l2 he hvs
          have hvn : n ≠ v := by
            rintro rfl; apply hnsq
            rw [show st.seq = l1 ++ n :: l2 from he]; simp
          exact ⟨p, h1, by rw [Dict.get?_set_ne _ _ hvn]; exact h2⟩
        · rcases h.start with h' | h'
          · rw [h'.1] at hc; cases hc
          · exact .inr h'
        · intro u hu v hv
          exact (Dict.mem_keys_set _ _ _ _).2 (.inr (h.closed u hu v hv))
      obtain ⟨st', h1, h2, h3, h4, h5⟩ := ih _ key hc fun v hv => hl v (by simp [hv])
      refine ⟨st', h1, h2, h3, ?_, ?_⟩
      · intro v hv
        rcases List.mem_cons.1 hv with rfl | hv
        · exact h5 _ ((Dict.mem_keys_set _ _ _ _).2 (.inl rfl))
        · exact h4 v hv
      · intro v hv; exact h5 _ ((Dict.mem_keys_set _ _ _ _).2 (.inr hv))

theorem searchLoop_ok (hwf : t.Wf) (hd : t.directed = true) : ∀ (k : Nat) (st : XState N),
    SInv t.getEdgeList t.getNodeList src st.seq st → t.getNodeList.length < k + st.seq.length →
    ∃ st', searchLoop t k st = .ok st' ∧ SInv t.getEdgeList t.getNodeList src st'.seq st' ∧ st'.q = [] := by
  intro k
  induction k with
  | zero =>
    intro st h hk
    exfalso
    have h1 : st.seq.length ≤ t.getNodeList.length := by
      refine (((List.nodup_append.1 h.nodup).1).subperm fun v hv => ?_).length_le
      exact h.nodes v ((h.keys v).2 (by simp [hv]))
    omega
  | succ k ih =>
    intro st h hk
    unfold searchLoop
    rcases hq : st.q with _ | ⟨cur, q⟩
    · exact ⟨st, rfl, h, hq⟩
    · simp only []
      have hck : cur ∈ st.pred.keys := (h.keys cur).2 (by simp [hq])
      have hcV := h.nodes cur hck
      have hhas : t.hasNode cur = true := by
        unfold Graph.hasNode; rw [Dict.contains_iff, hwf.nodesEq]; exact hcV
      rw [if_neg (by simp [hhas])]
      obtain ⟨l, hl, hl'⟩ := around_ok hwf hd hcV
      rw [hl]
      simp only []
      have key : SInv t.getEdgeList t.getNodeList src st.seq { st with q := q, seq := st.seq ++ [cur] } := by
        constructor
        · have := h.nodup
          rw [hq] at this
          simpa using this
        · intro v
          have := h.keys v
          rw [hq] at this
          simpa using this
        · exact h.nodes
        · exact h.root
        · intro v hv hvs
          obtain ⟨p, d, h1, h2, h3, h4⟩ := h.link v hv hvs
          exact ⟨p, d, h1, h2, List.mem_append_left _ h3, h4⟩
        · intro l1 v l2 he hvs
          rcases List.eq_nil_or_concat l2 with rfl | ⟨l2', x, rfl⟩
          · have he' : st.seq ++ [cur] = l1 ++ [v] := he
            obtain ⟨rfl, he'⟩ := List.append_inj' he' rfl
            obtain rfl : cur = v := by simpa using he'
            obtain ⟨p, d, h1, h2, h3, h4⟩ := h.link cur hck hvs
            exact ⟨p, h3, h1⟩
          · have he' : st.seq ++ [cur] = (l1 ++ v :: l2') ++ [x] := by simpa using he
            obtain ⟨he', _⟩ := List.append_inj' he' rfl
            exact h.order l1 v l2' he' hvs
        · right
          rcases h.start with ⟨h1, h2⟩ | h1
          · rw [hq] at h2; cases h2
            simp [h1]
          · simp [List.head?_append, h1]
        · exact h.closed
      obtain ⟨st', h1, h2, h3, h4, h5⟩ := visit_ok l _ key (by simp) fun v hv =>
        ⟨(hl' v).1 hv, by
          rcases (hl' v).1 hv with h' | h'
          · exact (hwf.endp _ _ h').2
          · exact (hwf.endp _ _ h').1⟩
      rw [h1]
      simp only []
      refine ih st' ?_ ?_
      · refine ⟨h2.nodup, h2.keys, h2.nodes, h2.root, h2.link, h2.order, h2.start, ?_⟩
        intro u hu v hv
        rw [h3, List.mem_append] at hu
        rcases hu with hu | hu
        · exact h2.closed u hu v hv
        · rw [List.mem_singleton] at hu; subst hu
          exact h4 v ((hl' v).2 hv)
      · rw [h3]; simp; omega

theorem sinv_start (hs : src ∈ V) : SInv T V src [] ⟨[src], ⟨[(src, none)]⟩, ⟨[(src, 0)]⟩, []⟩ := by
  constructor
  · simp
  · intro v; simp [Dict.keys]
  · intro v hv; simp [Dict.keys] at hv; subst hv; exact hs
  · simp [Dict.get?, Dict.getL]
  · intro v hv hvs; simp [Dict.keys] at hv; exact absurd hv hvs
  · intro l1 v l2 he; simp at he
  · exact .inl ⟨rfl, rfl⟩
  · simp

/-! ## The indexes -/

theorem threads_ne {first : N} : ∀ (l : List N) (th : N → Option N) (x : N), x ∉ l → threads first l th x = th x
  | [], _, _, _ => rfl
  | [a], th, x, h => by
    have : x ≠ a := by simpa using h
    simp [threads, Search.upd_ne _ _ this]
  | a :: b :: l, th, x, h => by
    rw [List.mem_cons, not_or] at h
    rw [threads, threads_ne (b :: l) _ x h.2, Search.upd_ne _ _ h.1]

theorem threads_mid {first : N} : ∀ (l1 l2 : List N) (a b : N) (th : N → Option N), (l1 ++ a :: b :: l2).Nodup →
    threads first (l1 ++ a :: b :: l2) th a = some b
  | [], l2, a, b, th, h => by
    have : a ∉ b :: l2 := (List.nodup_cons.1 h).1
    simp only [List.nil_append]
    rw [threads, threads_ne _ _ _ this]; simp
  | [c], l2, a, b, th, h => by
    simp only [List.singleton_append] at h ⊢
    rw [threads]
    exact threads_mid [] l2 a b _ (List.nodup_cons.1 h).2
  | c :: d :: l1, l2, a, b, th, h => by
    simp only [List.cons_append] at h ⊢
    rw [threads]
    exact threads_mid (d :: l1) l2 a b _ (List.nodup_cons.1 h).2

theorem threads_last {first : N} : ∀ (l1 : List N) (a : N) (th : N → Option N),
    threads first (l1 ++ [a]) th a = some first
  | [], a, th => by simp [threads]
  | [c], a, th => by simp [threads]
  | c :: d :: l1, a, th => by
    simp only [List.cons_append]
    rw [threads]
    exact threads_last (d :: l1) a _

/-- the indexes describe the tree `T` on `V` with root `src`; `seq` is the thread -/
structure Good (T : List (N × N)) (V : List N) (src : N) (seq : List N) (ix : Idx N) : Prop where
  nodup : seq.Nodup
  mem : ∀ v, v ∈ seq ↔ v ∈ V
  head : seq.head? = some src
  root : ix.pred src = none ∧ ix.depth src = some 0
  link : ∀ v ∈ V, v ≠ src → ∃ p d, ix.pred v = some p ∧ EAdj T p v ∧ p ∈ V ∧ ix.depth p = some d ∧ ix.depth v = some (d + 1)
  order : ∀ l1 v l2, seq = l1 ++ v :: l2 → v ≠ src → ∃ p ∈ l1, ix.pred v = some p
  mid : ∀ l1 a b l2, seq = l1 ++ a :: b :: l2 → ix.thread a = some b
  last : ∀ l1 a, seq = l1 ++ [a] → ix.thread a = some src

/-- `simplex_search` from a node: it never raises, and the keys of `pred` are the nodes connected to it -/
theorem search_reach (hwf : t.Wf) (hd : t.directed = true) (hs : src ∈ t.getNodeList) (ix : Idx N) {fuel : Nat}
    (hf : t.getNodeList.length < fuel) :
    ∃ st ix', search t ix src fuel = .ok (st, ix') ∧
      (∀ v, v ∈ st.pred.keys ↔ EConn t.getEdgeList src v) ∧
      (∀ v ∈ st.pred.keys, v ∈ t.getNodeList) ∧
      ∀ V : List N, (∀ v, v ∈ V ↔ v ∈ st.pred.keys) → Good t.getEdgeList V src st.seq ix' := by
  obtain ⟨st, h1, h2, h3⟩ := searchLoop_ok hwf hd fuel ⟨[src], ⟨[(src, none)]⟩, ⟨[(src, 0)]⟩, []⟩ (sinv_start (T := t.getEdgeList) hs) (by simpa using hf)
  refine ⟨st, _, by unfold search; rw [h1], ?_, h2.nodes, ?_⟩
  · intro v
    constructor
    · intro hv
      have hseq : ∀ n, ∀ l1 v l2, st.seq = l1 ++ v :: l2 → l1.length = n → EConn t.getEdgeList src v := by
        intro n
        induction n using Nat.strong_induction_on with
        | _ n ih =>
          intro l1 v l2 he hn
          by_cases hvs : v = src
          · subst hvs; exact .refl
          · obtain ⟨p, hp, hpv⟩ := h2.order l1 v l2 he hvs
            obtain ⟨a, b, rfl⟩ := List.append_of_mem hp
            have hpc := ih a.length (by simp at hn; omega) a p (b ++ v :: l2) (by rw [he]; simp) rfl
            obtain ⟨p', d, q1, q2, _⟩ := h2.link v ((h2.keys v).2 (by rw [he]; simp)) hvs
            rw [hpv] at q1; cases q1
            exact hpc.tail q2
      have := (h2.keys v).1 hv
      rw [h3, List.append_nil] at this
      obtain ⟨a, b, he⟩ := List.append_of_mem this
      exact hseq _ a v b he rfl
    · intro hv
      induction hv with
      | refl => exact Dict.mem_keys_of_get? h2.root.1
      | tail _ hs ih =>
        refine h2.closed _ ?_ _ hs
        have := (h2.keys _).1 ih
        rwa [h3, List.append_nil] at this
  · intro V hV
    have hkeys : ∀ v, v ∈ st.pred.keys ↔ v ∈ V := fun v => (hV v).symm
    have hnd : st.seq.Nodup := (List.nodup_append.1 h2.nodup).1
    have hp : ∀ v x, st.pred.get? v = some x → (match st.pred.get? v with | some p => p | none => ix.pred v) = x := by
      intro v x h; rw [h]
    have hdp : ∀ v ∈ st.pred.keys, (match st.pred.get? v with | some _ => st.depth.get? v | none => ix.depth v) =
        st.depth.get? v := by
      intro v hv
      obtain ⟨x, hx⟩ := (Dict.mem_keys' _ _).1 hv
      rw [hx]
    constructor
    · exact hnd
    · intro v; rw [← hkeys v, h2.keys, h3, List.append_nil]
    · rcases h2.start with h' | h'
      · rw [h3] at h'; exact absurd h'.2 (by simp)
      · exact h'
    · exact ⟨hp _ _ h2.root.1, (hdp src (Dict.mem_keys_of_get? h2.root.1)).trans h2.root.2⟩
    · intro v hv hvs
      obtain ⟨p, d, q1, q2, q3, q4, q5⟩ := h2.link v ((hkeys v).2 hv) hvs
      have hpk : p ∈ st.pred.keys := (h2.keys p).2 (by simp [q3])
      exact ⟨p, d, hp _ _ q1, q2, (hkeys p).1 hpk, (hdp p hpk).trans q4, (hdp v ((hkeys v).2 hv)).trans q5⟩
    · intro l1 v l2 he hvs
      obtain ⟨p, q1, q2⟩ := h2.order l1 v l2 he hvs
      exact ⟨p, q1, hp _ _ q2⟩
    · intro l1 a b l2 he
      show threads src st.seq ix.thread a = some b
      rw [he] at hnd ⊢; exact threads_mid _ _ _ _ _ hnd
    · intro l1 a he
      show threads src st.seq ix.thread a = some src
      rw [he]; exact threads_last _ _ _

/-- the same when everything is connected to the node -/
theorem search_ok (hwf : t.Wf) (hd : t.directed = true) (hs : src ∈ t.getNodeList) (ix : Idx N) {fuel : Nat}
    (hf : t.getNodeList.length < fuel) :
    ∃ st ix', search t ix src fuel = .ok (st, ix') ∧
      (∀ v, v ∈ st.pred.keys ↔ EConn t.getEdgeList src v) ∧
      ((∀ v ∈ t.getNodeList, EConn t.getEdgeList src v) →
        Good t.getEdgeList t.getNodeList src st.seq ix') := by
  obtain ⟨st, ix', h1, h2, h3, h4⟩ := search_reach hwf hd hs ix hf
  exact ⟨st, ix', h1, h2, fun hc => h4 _ fun v => ⟨fun hv => (h2 v).2 (hc v hv), h3 v⟩⟩

/-- in a forest every arc joins a node with its predecessor -/
theorem Good.arcs {seq : List N} {ix : Idx N} (h : Good T V src seq ix) (hF : Forest T) (hT : ∀ e ∈ T, e.1 ∈ V ∧ e.2 ∈ V)
    {e : N × N} (he : e ∈ T) : ix.pred e.2 = some e.1 ∨ ix.pred e.1 = some e.2 := by
  by_contra hno
  rw [not_or] at hno
  have hseq : ∀ n, ∀ l1 v l2, seq = l1 ++ v :: l2 → l1.length = n → EConn (without T e) src v := by
    intro n
    induction n using Nat.strong_induction_on with
    | _ n ih =>
      intro l1 v l2 hs hn
      by_cases hvs : v = src
      · subst hvs; exact .refl
      · obtain ⟨p, hp, hpv⟩ := h.order l1 v l2 hs hvs
        obtain ⟨a, b, rfl⟩ := List.append_of_mem hp
        have hpc := ih a.length (by simp at hn; omega) a p (b ++ v :: l2) (by rw [hs]; simp) rfl
        obtain ⟨p', d, q1, q2, _⟩ := h.link v ((h.mem v).1 (by rw [hs]; simp)) hvs
        rw [hpv] at q1; cases q1
        refine hpc.tail ?_
        refine q2.imp (fun hm => ?_) (fun hm => ?_)
        · refine List.mem_filter.2 ⟨hm, ?_⟩
          have : (p, v) ≠ e := by rintro rfl; exact hno.1 hpv
          simpa using this
        · refine List.mem_filter.2 ⟨hm, ?_⟩
          have : (v, p) ≠ e := by rintro rfl; exact hno.2 hpv
          simpa using this
  have hc : ∀ v ∈ V, EConn (without T e) src v := by
    intro v hv
    obtain ⟨a, b, hs⟩ := List.append_of_mem ((h.mem v).2 hv)
    exact hseq _ a v b hs rfl
  exact hF e he ((hc _ (hT e he).1).symm.trans (hc _ (hT e he).2))

end Simplex
end GiMPy
