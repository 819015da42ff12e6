import Verif.Lemmas.SimplexTree

/-! # Lemmas on network simplex: potentials, optimality, the entering arc -/

namespace GiMPy
namespace Simplex
open MinCost MaxFlow
variable {N : Type} [DecidableEq N] {Q : Type} {g t : Graph N} {cap cost f : N × N → Int} {W : List N}
set_option linter.unusedSectionVars false

/-- a digraph without antiparallel arcs or self loops, with capacities and costs -/
structure Netw (g : Graph N) (cap cost : N × N → Int) : Prop where
  built : Built g
  dir : g.directed = true
  simple : Simple g.getEdgeList
  caps : HasCaps g cap
  costs : ∀ u v, (u, v) ∈ g.getEdgeList → g.getEdgeCost u v = .ok (cost (u, v))

theorem Netw.ends (h : Netw g cap cost) {e : N × N} (he : e ∈ g.getEdgeList) : e.1 ∈ g.getNodeList ∧ e.2 ∈ g.getNodeList :=
  h.built.wf.endp e.1 e.2 he

theorem Netw.hasNode (h : Netw g cap cost) {v : N} (hv : v ∈ g.getNodeList) : g.hasNode v = true := by
  unfold Graph.hasNode; rw [Dict.contains_iff, h.built.wf.nodesEq]; exact hv

/-- the nodes `W` of `g` carry all arcs -/
structure Core (g : Graph N) (W : List N) : Prop where
  nodup : W.Nodup
  sub : ∀ v ∈ W, v ∈ g.getNodeList
  ends : ∀ e ∈ g.getEdgeList, e.1 ∈ W ∧ e.2 ∈ W

theorem Core.len (h : Core g W) : W.length ≤ g.getNodeList.length := (h.nodup.subperm h.sub).length_le

theorem Netw.core (h : Netw g cap cost) : Core g g.getNodeList := ⟨h.built.wf.nodup, fun _ h => h, fun _ he => h.ends he⟩

/-- `t` is a spanning tree of the nodes `W` of `g`, which carry all arcs; further nodes are isolated -/
structure STree (g : Graph N) (W : List N) (t : Graph N) : Prop extends Core g W where
  tg : TGr g t
  forest : Forest t.getEdgeList
  conn : ∀ u ∈ W, ∀ v ∈ W, EConn t.getEdgeList u v

theorem STree.conn_mem (h : STree g W t) {u v : N} (hu : u ∈ W) (hc : EConn t.getEdgeList u v) : v ∈ W := by
  induction hc with
  | refl => exact hu
  | tail _ hs _ =>
    rcases hs with hs | hs
    · exact (h.ends _ (h.tg.sub _ hs)).2
    · exact (h.ends _ (h.tg.sub _ hs)).1

/-! ## simplex_compute_potentials -/

theorem potAt_ok (hn : Netw g cap cost) {i j : N} (h : Adj g i j) {pi : N → Option Int} {p : Int} (hp : pi i = some p) :
    potAt g pi i j = .ok (upd pi j (some (p - rcost g cost i j))) := by
  unfold potAt
  by_cases h1 : (i, j) ∈ g.getEdgeList
  · have h2 : (j, i) ∉ g.getEdgeList := hn.simple i j h1
    have c1 : g.edgeAttr.contains (i, j) = true := (contains_edge g i j).2 h1
    have c2 : g.edgeAttr.contains (j, i) = false := by
      rw [Bool.eq_false_iff]; exact fun h' => h2 ((contains_edge g j i).1 h')
    simp only [c1, c2, hn.costs i j h1, hp, if_true, rcost, h1]
    simp only [Bool.false_eq_true, ite_false]
    congr 3
    ring
  · have h2 : (j, i) ∈ g.getEdgeList := h.resolve_left h1
    have c1 : g.edgeAttr.contains (j, i) = true := (contains_edge g j i).2 h2
    have c2 : g.edgeAttr.contains (i, j) = false := by
      rw [Bool.eq_false_iff]; exact fun h' => h1 ((contains_edge g i j).1 h')
    simp only [c1, c2, hn.costs j i h2, hp, if_true, rcost, h1]
    simp only [Bool.false_eq_true, ite_false]
    congr 3
    ring

/-- the potentials of the nodes in `l` are set and agree along the predecessor links -/
def PotOn (g : Graph N) (cost : N × N → Int) (ix : Idx N) (root : N) (l : List N) (pi : N → Option Int) : Prop :=
  pi root = some 0 ∧ ∀ v ∈ l, (∃ q, pi v = some q) ∧ (v ≠ root → ∀ i, ix.pred v = some i →
    ∃ p, pi i = some p ∧ pi v = some (p - rcost g cost i v))

theorem potLoop_reach (hn : Netw g cap cost) (ht : TGr g t) {ix : Idx N} {root : N} {seq V : List N}
    (hV : ∀ v ∈ V, v ∈ g.getNodeList) (hix : Good t.getEdgeList V root seq ix) : ∀ (l2 l1 : List N) (pi : N → Option Int) (k : Nat), l1 ≠ [] →
    seq = l1 ++ l2 → PotOn g cost ix root l1 pi → l2.length < k →
    ∃ pi', potLoop g t ix root k (some (l2.head?.getD root)) pi = .ok pi' ∧ PotOn g cost ix root seq pi' ∧
      ∀ v, v ∉ seq → pi' v = pi v := by
  intro l2
  induction l2 with
  | nil =>
    intro l1 pi k _ hs hp hk
    obtain ⟨k, rfl⟩ := Nat.exists_eq_succ_of_ne_zero (show k ≠ 0 by intro h; subst h; simp at hk)
    rw [List.append_nil] at hs
    exact ⟨pi, by simp [potLoop], by rw [hs]; exact hp, fun _ _ => rfl⟩
  | cons j l2 ih =>
    intro l1 pi k hl1 hs hp hk
    obtain ⟨k, rfl⟩ := Nat.exists_eq_succ_of_ne_zero (show k ≠ 0 by intro h; subst h; simp at hk)
    have hjl1 : j ∉ l1 := by
      have := hix.nodup
      rw [hs, List.nodup_append] at this
      intro hm; exact this.2.2 _ hm j (by simp) rfl
    have hroot : root ∈ l1 := by
      have := hix.head
      rw [hs] at this
      rcases l1 with _ | ⟨a, l1⟩
      · exact absurd rfl hl1
      · simp at this; simp [this]
    have hjr : j ≠ root := by rintro rfl; exact hjl1 hroot
    have hjV' : j ∈ V := (hix.mem j).1 (by rw [hs]; simp)
    have hjV : j ∈ g.getNodeList := hV j hjV'
    obtain ⟨i, hi, hij⟩ := hix.order l1 j l2 hs hjr
    obtain ⟨i', d, q1, q2, q3, _⟩ := hix.link j hjV' hjr
    rw [hij] at q1; cases q1
    replace q3 := hV i q3
    obtain ⟨⟨p, hpi⟩, _⟩ := hp.2 i hi
    have hadj : Adj g i j := q2.imp (ht.sub _) (ht.sub _)
    simp only [List.head?_cons, Option.getD_some]
    unfold potLoop
    rw [if_neg hjr, if_neg (by simp [ht.hasNode hjV]), hij]
    simp only []
    rw [if_neg (by simp [hn.hasNode hjV, hn.hasNode q3]), potAt_ok hn hadj hpi]
    simp only []
    have hth : ix.thread j = some (l2.head?.getD root) := by
      rcases l2 with _ | ⟨b, l2⟩
      · exact hix.last l1 j hs
      · exact hix.mid l1 j b l2 hs
    rw [hth]
    have hnext : PotOn g cost ix root (l1 ++ [j]) (upd pi j (some (p - rcost g cost i j))) := by
      refine ⟨?_, ?_⟩
      · rw [Search.upd_ne _ _ (Ne.symm hjr)]; exact hp.1
      · intro v hv
        rcases List.mem_append.1 hv with hv1 | hv
        · have hvj : v ≠ j := by rintro rfl; exact hjl1 hv1
          obtain ⟨⟨q, h1⟩, h2⟩ := hp.2 v hv1
          refine ⟨⟨q, by rw [Search.upd_ne _ _ hvj]; exact h1⟩, ?_⟩
          intro hvr x hx
          obtain ⟨p', h3, h4⟩ := h2 hvr x hx
          have hxj : x ≠ j := by
            rintro rfl
            obtain ⟨a, b, he⟩ := List.append_of_mem hv1
            obtain ⟨y, hy, hvy⟩ := hix.order a v (b ++ x :: l2) (by rw [hs, he]; simp) hvr
            rw [hx] at hvy; cases hvy
            exact hjl1 (by rw [he]; simp [hy])
          exact ⟨p', by rw [Search.upd_ne _ _ hxj]; exact h3, by rw [Search.upd_ne _ _ hvj]; exact h4⟩
        · rw [List.mem_singleton] at hv; subst hv
          refine ⟨⟨_, Search.upd_same _ _ _⟩, ?_⟩
          intro _ x hx
          rw [hij] at hx; cases hx
          have hiv : i ≠ v := by rintro rfl; exact hjl1 hi
          exact ⟨p, by rw [Search.upd_ne _ _ hiv]; exact hpi, Search.upd_same _ _ _⟩
    obtain ⟨pi', a1, a2, a3⟩ := ih (l1 ++ [j]) _ k (by simp) (by rw [hs]; simp) hnext (by simp at hk; omega)
    refine ⟨pi', a1, a2, fun v hv => ?_⟩
    rw [a3 v hv, Search.upd_ne]
    rintro rfl
    exact hv (by rw [hs]; simp)

/-- the potentials are set and every arc of the tree has reduced cost zero -/
structure PotOK (g t : Graph N) (cost : N × N → Int) (pi : N → Option Int) (p : N → Int) : Prop where
  val : ∀ e ∈ g.getEdgeList, pi e.1 = some (p e.1) ∧ pi e.2 = some (p e.2)
  zero : ∀ u v, EAdj t.getEdgeList u v → p v = p u - rcost g cost u v

theorem rcost_swap (hs : Simple g.getEdgeList) {u v : N} (h : Adj g u v) : rcost g cost v u = - rcost g cost u v := by
  unfold rcost
  rcases h with h | h
  · rw [if_pos h, if_neg (hs _ _ h)]
  · rw [if_pos h, if_neg (hs _ _ h), Int.neg_neg]

theorem potentials_ok (hn : Netw g cap cost) (ht : STree g W t) {ix : Idx N} {root : N} {seq : List N}
    (hix : Good t.getEdgeList W root seq ix) (pi : N → Option Int) {fuel : Nat}
    (hf : g.getNodeList.length < fuel) :
    ∃ pi' p, potentials g t ix root pi fuel = .ok pi' ∧ PotOK g t cost pi' p ∧ pi' root = some 0 ∧
      ∀ v ∈ W, ∃ q, pi' v = some q := by
  have hroot : root ∈ g.getNodeList := ht.sub _ ((hix.mem root).1 (List.mem_of_mem_head? hix.head))
  obtain ⟨l2, hseq⟩ : ∃ l2, seq = [root] ++ l2 := by
    have := hix.head
    rcases seq with _ | ⟨a, l⟩
    · cases this
    · simp at this; subst this; exact ⟨l, rfl⟩
  have hlen : l2.length < fuel := by
    have : seq.length ≤ g.getNodeList.length := (hix.nodup.subperm fun v hv => ht.sub _ ((hix.mem v).1 hv)).length_le
    rw [hseq] at this; simp at this; omega
  have hth : ix.thread root = some (l2.head?.getD root) := by
    rcases l2 with _ | ⟨b, l2⟩
    · exact hix.last [] root (by simpa using hseq)
    · exact hix.mid [] root b l2 (by simpa using hseq)
  obtain ⟨pi', h1, h2, _⟩ := potLoop_reach hn ht.tg ht.sub hix l2 [root] (upd pi root (some 0)) fuel (by simp) hseq
    ⟨Search.upd_same _ _ _, by
      intro v hv; rw [List.mem_singleton] at hv; subst hv
      exact ⟨⟨0, Search.upd_same _ _ _⟩, fun h => absurd rfl h⟩⟩ hlen
  refine ⟨pi', fun v => (pi' v).getD 0, ?_, ⟨?_, ?_⟩, h2.1, fun v hv => (h2.2 v ((hix.mem v).2 hv)).1⟩
  · unfold potentials
    rw [if_neg (by simp [hn.hasNode hroot, ht.tg.hasNode hroot]), hth]
    exact h1
  · have hval : ∀ v ∈ W, pi' v = some ((pi' v).getD 0) := by
      intro v hv
      obtain ⟨⟨q, hq⟩, _⟩ := h2.2 v ((hix.mem v).2 hv)
      rw [hq]; rfl
    exact fun e he => ⟨hval _ (ht.ends e he).1, hval _ (ht.ends e he).2⟩
  · have key : ∀ u v, v ∈ W → ix.pred v = some u → (pi' v).getD 0 = (pi' u).getD 0 - rcost g cost u v := by
      intro u v hv hp
      have hvr : v ≠ root := by rintro rfl; rw [hix.root.1] at hp; cases hp
      obtain ⟨q, h3, h4⟩ := (h2.2 v ((hix.mem v).2 hv)).2 hvr u hp
      rw [h3, h4]; rfl
    have hTV : ∀ e ∈ t.getEdgeList, e.1 ∈ W ∧ e.2 ∈ W := fun e he => ht.ends e (ht.tg.sub e he)
    have main : ∀ u v, (u, v) ∈ t.getEdgeList → (pi' v).getD 0 = (pi' u).getD 0 - rcost g cost u v := by
      intro u v h
      rcases hix.arcs ht.forest hTV h with h' | h'
      · exact key u v (hTV _ h).2 h'
      · have := key v u (hTV _ h).1 h'
        rw [rcost_swap hn.simple (.inl (ht.tg.sub _ h))] at this
        omega
    intro u v h
    rcases h with h | h
    · exact main u v h
    · have := main v u h
      have hsw := rcost_swap (cost := cost) hn.simple (u := v) (v := u) (.inl (ht.tg.sub _ h))
      show (pi' v).getD 0 = (pi' u).getD 0 - rcost g cost u v
      omega

/-! ## Optimality -/

/-- reduced cost -/
def redc (cost : N × N → Int) (p : N → Int) (e : N × N) : Int := cost e - p e.1 + p e.2

/-- every arc outside the tree is at a bound -/
def AtBound (g t : Graph N) (cap f : N × N → Int) : Prop :=
  ∀ e ∈ g.getEdgeList, e ∉ t.getEdgeList → f e = 0 ∨ f e = cap e

/-- the arc violates the optimality conditions -/
def viol (cap cost f : N × N → Int) (p : N → Int) (e : N × N) : Option Int :=
  if f e = 0 then (if redc cost p e < 0 then some (redc cost p e) else none)
  else if f e = cap e then (if redc cost p e > 0 then some (redc cost p e) else none)
  else none

theorem violation_ok (hn : Netw g cap cost) {pi : N → Option Int} {p : N → Int}
    (hp : ∀ e ∈ g.getEdgeList, pi e.1 = some (p e.1) ∧ pi e.2 = some (p e.2)) {e : N × N} (he : e ∈ g.getEdgeList) :
    violation g f pi e = .ok (viol cap cost f p e) := by
  obtain ⟨u, v⟩ := e
  have hv := hn.ends he
  have hr : reduced g pi (u, v) = .ok (redc cost p (u, v)) := by
    unfold reduced
    rw [hn.costs u v he, (hp _ he).1, (hp _ he).2]
    rfl
  unfold violation viol
  simp only []
  rw [flowOf_ok he, hn.caps u v he, hr]
  simp only []
  split
  · rfl
  · split <;> rfl

/-- the violating arcs outside the tree -/
def violL (t : Graph N) (cap cost f : N × N → Int) (p : N → Int) : List (N × N) → List ((N × N) × Int)
  | [] => []
  | e :: l => if e ∈ t.getEdgeList then violL t cap cost f p l else
    match viol cap cost f p e with
    | some x => (e, x) :: violL t cap cost f p l
    | none => violL t cap cost f p l

theorem mem_violL {p : N → Int} {l : List (N × N)} {e : N × N} {x : Int} (h : (e, x) ∈ violL t cap cost f p l) :
    e ∈ l ∧ e ∉ t.getEdgeList ∧ viol cap cost f p e = some x := by
  induction l with
  | nil => cases h
  | cons a l ih =>
    unfold violL at h
    split at h
    · exact ⟨by simp [(ih h).1], (ih h).2⟩
    · next ha =>
      split at h
      · next y hy =>
        rcases List.mem_cons.1 h with h | h
        · cases h; exact ⟨by simp, ha, hy⟩
        · exact ⟨by simp [(ih h).1], (ih h).2⟩
      · exact ⟨by simp [(ih h).1], (ih h).2⟩

theorem violating_ok (hn : Netw g cap cost) {pi : N → Option Int} {p : N → Int}
    (hp : ∀ e ∈ g.getEdgeList, pi e.1 = some (p e.1) ∧ pi e.2 = some (p e.2)) : ∀ l : List (N × N), (∀ e ∈ l, e ∈ g.getEdgeList) →
    violating g t f pi l = .ok (violL t cap cost f p l) := by
  intro l
  induction l with
  | nil => intro _; rfl
  | cons e l ih =>
    intro hl
    have ih := ih fun e he => hl e (by simp [he])
    unfold violating violL
    by_cases he : e ∈ t.getEdgeList
    · rw [if_pos ((contains_edge t e.1 e.2).2 he), if_pos he]; exact ih
    · rw [if_neg (fun h' => he ((contains_edge t e.1 e.2).1 h')), if_neg he, violation_ok hn hp (hl e (by simp)), ih]
      simp only []
      cases viol cap cost f p e <;> rfl

theorem optimal_ok (hn : Netw g cap cost) {pi : N → Option Int} {p : N → Int}
    (hp : ∀ e ∈ g.getEdgeList, pi e.1 = some (p e.1) ∧ pi e.2 = some (p e.2)) : ∀ l : List (N × N), (∀ e ∈ l, e ∈ g.getEdgeList) →
    optimal g t f pi l = .ok (violL t cap cost f p l).isEmpty := by
  intro l
  induction l with
  | nil => intro _; rfl
  | cons e l ih =>
    intro hl
    have ih := ih fun e he => hl e (by simp [he])
    unfold optimal violL
    by_cases he : e ∈ t.getEdgeList
    · rw [if_pos ((contains_edge t e.1 e.2).2 he), if_pos he]; exact ih
    · rw [if_neg (fun h' => he ((contains_edge t e.1 e.2).1 h')), if_neg he, violation_ok hn hp (hl e (by simp))]
      cases viol cap cost f p e with
      | none => exact ih
      | some x => rfl

theorem violL_nil {p : N → Int} {l : List (N × N)} (h : violL t cap cost f p l = []) :
    ∀ e ∈ l, e ∉ t.getEdgeList → viol cap cost f p e = none := by
  induction l with
  | nil => simp
  | cons a l ih =>
    unfold violL at h
    intro e he het
    split at h
    · next ha =>
      rcases List.mem_cons.1 he with rfl | he
      · exact absurd ha het
      · exact ih h e he het
    · split at h
      · cases h
      · next hv =>
        rcases List.mem_cons.1 he with rfl | he
        · exact hv
        · exact ih h e he het

/-- no violating arc: the flow has least cost among the flows with the same balances -/
theorem optimal_sound (hn : Netw g cap cost) (ht : TGr g t) {pi : N → Option Int} {p : N → Int} (hp : PotOK g t cost pi p)
    (hf : Within g.getEdgeList cap f) (hb : AtBound g t cap f) (h : violL t cap cost f p g.getEdgeList = [])
    {f' : N × N → Int} (hf' : Within g.getEdgeList cap f')
    (hnet : ∀ v ∈ g.getNodeList, net g.getEdgeList f v = net g.getEdgeList f' v) :
    totalCost g.getEdgeList cost f ≤ totalCost g.getEdgeList cost f' := by
  have hz := violL_nil h
  refine cost_le_of_potential hn.built.wf.nodup (fun e he => hn.ends he) hn.simple hf (fun v => - p v) ?_ hf' hnet
  rintro u v ⟨hadj, hpot⟩
  by_cases htree : EAdj t.getEdgeList u v
  · have := hp.zero u v htree
    show - p v ≤ - p u + _
    omega
  · show - p v ≤ - p u + _
    unfold pot at hpot
    unfold rcost
    by_cases huv : (u, v) ∈ g.getEdgeList
    · rw [if_pos huv] at hpot ⊢
      have hnt : (u, v) ∉ t.getEdgeList := fun h => htree (.inl h)
      have h1 := hz _ huv hnt
      have h2 := hb _ huv hnt
      unfold viol redc at h1
      have h0 : f (u, v) = 0 := by rcases h2 with h2 | h2 <;> omega
      rw [if_pos h0] at h1
      simp only at h1
      split at h1
      · cases h1
      · omega
    · rw [if_neg huv] at hpot ⊢
      have hvu := hadj.resolve_left huv
      have hnt : (v, u) ∉ t.getEdgeList := fun h => htree (.inr h)
      have h1 := hz _ hvu hnt
      have h2 := hb _ hvu hnt
      unfold viol redc at h1
      have h0 : f (v, u) ≠ 0 := by omega
      rw [if_neg h0, if_pos (h2.resolve_left h0)] at h1
      simp only at h1
      split at h1
      · cases h1
      · omega

theorem greatest_mem : ∀ (l : List ((N × N) × Int)) (b : (N × N) × Int), ∃ x ∈ b :: l, greatest l b = x.1
  | [], b => ⟨b, by simp, rfl⟩
  | x :: l, b => by
    unfold greatest
    split
    · obtain ⟨y, h1, h2⟩ := greatest_mem l x
      exact ⟨y, List.mem_cons_of_mem _ h1, h2⟩
    · obtain ⟨y, h1, h2⟩ := greatest_mem l b
      refine ⟨y, ?_, h2⟩
      rcases List.mem_cons.1 h1 with rfl | h1
      · simp
      · simp [h1]

theorem entering_ok (hn : Netw g cap cost) {pi : N → Option Int} {p : N → Int}
    (hp : ∀ e ∈ g.getEdgeList, pi e.1 = some (p e.1) ∧ pi e.2 = some (p e.2)) {pv : Pivot} (hpv : pv ≠ .other)
    (h : violL t cap cost f p g.getEdgeList ≠ []) :
    ∃ e x, entering g t f pi pv = .ok e ∧ e ∈ g.getEdgeList ∧ e ∉ t.getEdgeList ∧ viol cap cost f p e = some x := by
  obtain ⟨y, l, hy⟩ := List.exists_cons_of_ne_nil h
  have hmem : ∀ z ∈ y :: l, z.1 ∈ g.getEdgeList ∧ z.1 ∉ t.getEdgeList ∧ viol cap cost f p z.1 = some z.2 := by
    intro z hz
    rw [← hy] at hz
    exact mem_violL hz
  unfold entering
  cases pv with
  | other => exact absurd rfl hpv
  | dantzig =>
    simp only []
    rw [violating_ok hn hp _ fun e he => he, hy]
    obtain ⟨z, h1, h2⟩ := greatest_mem (y :: l) y
    have hz : z ∈ y :: l := by
      rcases List.mem_cons.1 h1 with rfl | h1
      · simp
      · exact h1
    exact ⟨_, z.2, rfl, by rw [h2]; exact (hmem z hz).1, by rw [h2]; exact (hmem z hz).2.1, by rw [h2]; exact (hmem z hz).2.2⟩
  | firstEligible =>
    simp only []
    rw [violating_ok hn hp _ fun e he => he, hy]
    simp only []
    rw [List.getLast?_eq_some_getLast (l := y :: l) (by simp)]
    have hz := List.getLast_mem (l := y :: l) (by simp)
    exact ⟨_, _, rfl, hmem _ hz⟩

theorem markArcs_ok (hn : Netw g cap cost) (hb : AtBound g t cap f) : ∀ l : List (N × N), (∀ e ∈ l, e ∈ g.getEdgeList) →
    markArcs g t f l = .ok () := by
  intro l
  induction l with
  | nil => intro _; rfl
  | cons e l ih =>
    intro hl
    have he := hl e (by simp)
    unfold markArcs
    rw [flowOf_ok he, hn.caps e.1 e.2 he]
    simp only []
    rw [if_pos]
    · exact ih fun e he => hl e (by simp [he])
    · by_cases ht : e ∈ t.getEdgeList
      · exact .inl ((contains_edge t e.1 e.2).2 ht)
      · exact .inr (hb e he ht)

/-- `simplex_search` and `simplex_compute_potentials` on a spanning tree -/
theorem refresh_ok (hn : Netw g cap cost) {root : N} (hroot : root ∈ W) {st : SState N} (ht : STree g W st.t)
    {fuel : Nat} (hf : g.getNodeList.length < fuel) :
    ∃ ix pi p seq, refresh g root st fuel = .ok { st with ix := ix, pi := pi } ∧
      Good st.t.getEdgeList W root seq ix ∧ PotOK g st.t cost pi p ∧ pi root = some 0 ∧ ∀ v ∈ W, ∃ q, pi v = some q := by
  have hnodes := ht.tg.nodes
  obtain ⟨xs, ix, h1, h2, h3, h4⟩ := search_reach ht.tg.built.wf ht.tg.dir (src := root)
    (by rw [hnodes]; exact ht.sub _ hroot) st.ix (fuel := fuel) (by rw [hnodes]; exact hf)
  have hix := h4 W fun v => ⟨fun hv => (h2 v).2 (ht.conn root hroot v hv), fun hv => ht.conn_mem hroot ((h2 v).1 hv)⟩
  obtain ⟨pi, p, h4, h5, h6⟩ := potentials_ok hn ht hix st.pi hf
  refine ⟨ix, pi, p, xs.seq, ?_, hix, h5, h6⟩
  unfold refresh
  rw [h1]
  simp only []
  rw [h4]

end Simplex
end GiMPy
