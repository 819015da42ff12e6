import Verif.Lemmas.SimplexPot

/-! # Lemmas on network simplex: one pivot -/

namespace GiMPy
namespace Simplex
open MinCost MaxFlow
variable {N : Type} [DecidableEq N] {Q : Type} {g t : Graph N} {cap cost f : N × N → Int}
variable {T : List (N × N)} {V W seq : List N} {root : N} {ix : Idx N}
set_option linter.unusedSectionVars false

/-! ## simplex_identify_cycle -/

/-- the depth -/
def dep (ix : Idx N) (v : N) : Nat := (ix.depth v).getD 0

theorem Good.root_mem (h : Good T V root seq ix) : root ∈ V := (h.mem root).1 (List.mem_of_mem_head? h.head)

theorem Good.depth (h : Good T V root seq ix) {v : N} (hv : v ∈ V) : ix.depth v = some (dep ix v) := by
  unfold dep
  by_cases hr : v = root
  · subst hr; rw [h.root.2]; rfl
  · obtain ⟨p, d, _, _, _, _, h5⟩ := h.link v hv hr
    rw [h5]; rfl

theorem Good.up (h : Good T V root seq ix) {v : N} (hv : v ∈ V) (hr : v ≠ root) :
    ∃ p, ix.pred v = some p ∧ EAdj T p v ∧ p ∈ V ∧ dep ix v = dep ix p + 1 := by
  obtain ⟨p, d, h1, h2, h3, h4, h5⟩ := h.link v hv hr
  exact ⟨p, h1, h2, h3, by unfold dep; rw [h4, h5]; rfl⟩

theorem Good.dep_root (h : Good T V root seq ix) : dep ix root = 0 := by unfold dep; rw [h.root.2]; rfl

theorem Good.dep_pos (h : Good T V root seq ix) {v : N} (hv : v ∈ V) : dep ix v = 0 ↔ v = root := by
  constructor
  · intro h0
    by_contra hr
    obtain ⟨p, _, _, _, h4⟩ := h.up hv hr
    omega
  · rintro rfl; exact h.dep_root

theorem Good.dep_le (h : Good T V root seq ix) : ∀ n, ∀ l1 v l2, seq = l1 ++ v :: l2 → l1.length = n → dep ix v ≤ n := by
  intro n
  induction n using Nat.strong_induction_on with
  | _ n ih =>
    intro l1 v l2 hs hn
    have hv : v ∈ V := (h.mem v).1 (by rw [hs]; simp)
    by_cases hr : v = root
    · subst hr; rw [h.dep_root]; omega
    · obtain ⟨p, hp, hpv⟩ := h.order l1 v l2 hs hr
      obtain ⟨q, h1, _, _, h4⟩ := h.up hv hr
      rw [hpv] at h1; cases h1
      obtain ⟨a, b, rfl⟩ := List.append_of_mem hp
      have := ih a.length (by simp at hn; omega) a p (b ++ v :: l2) (by rw [hs]; simp) rfl
      simp at hn; omega

theorem Good.dep_lt (h : Good T V root seq ix) {v : N} (hv : v ∈ V) : dep ix v < V.length := by
  obtain ⟨a, b, hs⟩ := List.append_of_mem ((h.mem v).2 hv)
  have h1 := h.dep_le _ a v b hs rfl
  have h2 : seq.length ≤ V.length := (h.nodup.subperm fun v hv => (h.mem v).1 hv).length_le
  rw [hs] at h2; simp at h2; omega

/-- the links from `start` up to `i` have been followed; `li` is the way without `i`, newest first -/
structure Side (T : List (N × N)) (ix : Idx N) (V : List N) (start i : N) (li : List N) : Prop where
  mem : i ∈ V
  chain : (i :: li).IsChain (EAdj T)
  last : (i :: li).getLast? = some start
  below : ∀ x ∈ li, dep ix i < dep ix x
  nodup : li.Nodup

theorem Side.up (h : Good T V root seq ix) {start i i' : N} {li : List N} (hs : Side T ix V start i li)
    (hp : ix.pred i = some i') : Side T ix V start i' (i :: li) ∧ dep ix i = dep ix i' + 1 := by
  have hr : i ≠ root := by rintro rfl; rw [h.root.1] at hp; cases hp
  obtain ⟨p, h1, h2, h3, h4⟩ := h.up hs.mem hr
  rw [hp] at h1; cases h1
  refine ⟨⟨h3, List.isChain_cons_cons.2 ⟨h2, hs.chain⟩, by rw [List.getLast?_cons_cons]; exact hs.last, ?_, ?_⟩, h4⟩
  · intro x hx
    rcases List.mem_cons.1 hx with rfl | hx
    · omega
    · have := hs.below x hx; omega
  · exact List.nodup_cons.2 ⟨fun hm => by have := hs.below i hm; omega, hs.nodup⟩

/-- both sides -/
structure MInv (T : List (N × N)) (ix : Idx N) (V : List N) (k l i j : N) (li lj : List N) : Prop where
  left : Side T ix V k i li
  right : Side T ix V l j lj
  disj : ∀ x ∈ li, x ∉ lj
  hi : dep ix j < dep ix i → lj = []
  lo : dep ix i < dep ix j → li = []

theorem meet_ok (ht : TGr g t) (hW : ∀ v ∈ W, v ∈ g.getNodeList) (h : Good T W root seq ix) {k l : N} : ∀ (n : Nat) (i j : N) (li lj : List N),
    MInv T ix W k l i j li lj → dep ix i + dep ix j < n →
    ∃ a li' lj', meet t ix n i j li lj = .ok (a, li', lj') ∧ MInv T ix W k l a a li' lj' := by
  intro n
  induction n with
  | zero => intro i j li lj _ hn; omega
  | succ n ih =>
    intro i j li lj hm hn
    unfold meet
    by_cases hij : i = j
    · subst hij
      rw [if_pos rfl]
      exact ⟨i, li, lj, rfl, hm⟩
    · rw [if_neg hij, if_neg (by simp [ht.hasNode (hW _ hm.left.mem), ht.hasNode (hW _ hm.right.mem)])]
      rw [h.depth hm.left.mem, h.depth hm.right.mem]
      simp only []
      by_cases h1 : dep ix i > dep ix j
      · rw [if_pos h1]
        have hr : i ≠ root := by rintro rfl; rw [h.dep_root] at h1; omega
        obtain ⟨p, hp, _⟩ := h.up hm.left.mem hr
        rw [hp]
        simp only []
        obtain ⟨s1, s2⟩ := hm.left.up h hp
        refine ih _ _ _ _ ⟨s1, hm.right, ?_, fun _ => hm.hi h1, fun h' => by omega⟩ (by omega)
        intro x _; rw [hm.hi h1]; simp
      · rw [if_neg h1]
        by_cases h2 : dep ix i < dep ix j
        · rw [if_pos h2]
          have hr : j ≠ root := by rintro rfl; rw [h.dep_root] at h2; omega
          obtain ⟨p, hp, _⟩ := h.up hm.right.mem hr
          rw [hp]
          simp only []
          obtain ⟨s1, s2⟩ := hm.right.up h hp
          refine ih _ _ _ _ ⟨hm.left, s1, ?_, fun h' => by omega, fun _ => hm.lo h2⟩ (by omega)
          intro x hx; rw [hm.lo h2] at hx; cases hx
        · rw [if_neg h2]
          have hri : i ≠ root := by
            rintro rfl
            have := (h.dep_pos hm.right.mem).1 (by rw [h.dep_root] at h2; omega)
            exact hij this.symm
          have hrj : j ≠ root := by
            rintro rfl
            have := (h.dep_pos hm.left.mem).1 (by rw [h.dep_root] at h1; omega)
            exact hij this
          obtain ⟨p, hp, _⟩ := h.up hm.left.mem hri
          obtain ⟨q, hq, _⟩ := h.up hm.right.mem hrj
          rw [hp, hq]
          simp only []
          obtain ⟨s1, s2⟩ := hm.left.up h hp
          obtain ⟨s3, s4⟩ := hm.right.up h hq
          refine ih _ _ _ _ ⟨s1, s3, ?_, fun h' => by omega, fun h' => by omega⟩ (by omega)
          intro x hx hx'
          rcases List.mem_cons.1 hx with rfl | hx
          · rcases List.mem_cons.1 hx' with rfl | hx'
            · exact hij rfl
            · have := hm.right.below x hx'; omega
          · rcases List.mem_cons.1 hx' with rfl | hx'
            · have := hm.left.below x hx; omega
            · exact hm.disj x hx hx'

/-- the tree path from `l` to `k` -/
theorem identify_ok (ht : TGr g t) (hW : ∀ v ∈ W, v ∈ g.getNodeList) (h : Good T W root seq ix) {k l : N} (hk : k ∈ W)
    (hl : l ∈ W) {fuel : Nat} (hf : 2 * W.length ≤ fuel) :
    ∃ P, identify t ix k l fuel = .ok P ∧ P.Nodup ∧ P.IsChain (EAdj T) ∧ P.head? = some l ∧ P.getLast? = some k := by
  have h1 := h.dep_lt hk
  have h2 := h.dep_lt hl
  obtain ⟨a, li, lj, hm, hi⟩ := meet_ok (k := k) (l := l) ht hW h fuel k l [] [] ⟨⟨hk, by simp, by simp, by simp, by simp⟩,
    ⟨hl, by simp, by simp, by simp, by simp⟩, by simp, fun _ => rfl, fun _ => rfl⟩ (by omega)
  refine ⟨lj.reverse ++ a :: li, by unfold identify; rw [hm], ?_, ?_, ?_, ?_⟩
  · rw [List.nodup_append]
    refine ⟨List.nodup_reverse.2 hi.right.nodup,
      List.nodup_cons.2 ⟨fun h' => by have := hi.left.below a h'; omega, hi.left.nodup⟩, ?_⟩
    rintro x hx y hy rfl
    rw [List.mem_reverse] at hx
    rcases List.mem_cons.1 hy with rfl | hy
    · have := hi.right.below x hx; omega
    · exact hi.disj x hy hx
  · have h3 : (lj.reverse ++ [a]).IsChain (EAdj T) := by
      have : (a :: lj).reverse.IsChain (EAdj T) := by
        rw [List.isChain_reverse]
        exact hi.right.chain.imp fun _ _ h => h.symm
      simpa using this
    rw [List.isChain_append] at h3 ⊢
    refine ⟨h3.1, hi.left.chain, ?_⟩
    intro x hx y hy
    simp only [List.head?_cons, Option.mem_def, Option.some.injEq] at hy
    subst hy
    exact h3.2.2 x hx a rfl
  · have := hi.right.last
    rcases List.eq_nil_or_concat lj with rfl | ⟨L, b, rfl⟩
    · simpa using this
    · rw [List.concat_eq_append, ← List.cons_append, List.getLast?_concat] at this
      simpa using this
  · rw [List.getLast?_append]
    have := hi.left.last
    simp [this]

/-! ## Consecutive pairs -/

theorem cnt_mem {e : N × N} {l : List N} (h : 0 < cnt e l) : e.1 ∈ l ∧ e.2 ∈ l.tail := by
  induction l with
  | nil => simp [cnt] at h
  | cons a l ih =>
    rcases l with _ | ⟨b, l⟩
    · simp [cnt] at h
    · simp only [cnt, one] at h
      by_cases he : e = (a, b)
      · rw [he]; simp
      · rw [if_neg he, Int.zero_add] at h
        have := ih h
        refine ⟨List.mem_cons_of_mem _ this.1, ?_⟩
        simp only [List.tail_cons] at this ⊢
        exact List.mem_cons_of_mem _ this.2

theorem cnt_nodup {u v : N} {l : List N} (hl : l.Nodup) (h : 0 < cnt (u, v) l) : cnt (u, v) l = 1 ∧ cnt (v, u) l = 0 := by
  constructor
  · have := cnt_le_one (e := (u, v)) (l := l) (hl.sublist (List.dropLast_sublist l)); omega
  · induction l with
    | nil => simp [cnt]
    | cons a l ih =>
      rcases l with _ | ⟨b, l⟩
      · simp [cnt]
      · rw [List.nodup_cons] at hl
        simp only [cnt, one] at h ⊢
        by_cases he : (u, v) = (a, b)
        · cases he
          have h1 : (v, u) ≠ (u, v) := by
            intro h'; cases h'; exact hl.1 (by simp)
          rw [if_neg h1]
          by_contra h2
          have := (cnt_mem (e := (v, u)) (l := v :: l) (by have := cnt_bounds (v, u) (v :: l); omega)).2
          exact hl.1 (by simp only [List.tail_cons] at this; simp [this])
        · rw [if_neg he, Int.zero_add] at h
          have h1 : (v, u) ≠ (a, b) := by
            intro h'; cases h'
            have := (cnt_mem h).2
            exact hl.1 (by simp only [List.tail_cons] at this; simp [this])
          rw [if_neg h1, ih hl.2 h]; rfl

theorem cnt_split {u v : N} {l : List N} (h : 0 < cnt (u, v) l) : ∃ l1 l2, l = l1 ++ u :: v :: l2 := by
  induction l with
  | nil => simp [cnt] at h
  | cons a l ih =>
    rcases l with _ | ⟨b, l⟩
    · simp [cnt] at h
    · simp only [cnt, one] at h
      by_cases he : (u, v) = (a, b)
      · cases he; exact ⟨[], l, rfl⟩
      · rw [if_neg he, Int.zero_add] at h
        obtain ⟨l1, l2, h1⟩ := ih h
        exact ⟨a :: l1, l2, by rw [h1]; rfl⟩

theorem cnt_of_split {u v : N} (l1 l2 : List N) : 0 < cnt (u, v) (l1 ++ u :: v :: l2) := by
  induction l1 with
  | nil => simp only [List.nil_append, cnt, one, if_true]; have := cnt_bounds (u, v) (v :: l2); omega
  | cons a l1 ih =>
    rcases l1 with _ | ⟨b, l1⟩
    · simp only [List.cons_append, List.nil_append, cnt] at ih ⊢
      have : 0 ≤ one ((u, v) = (a, u)) := by unfold one; split <;> omega
      omega
    · simp only [List.cons_append, cnt] at ih ⊢
      have : 0 ≤ one ((u, v) = (a, b)) := by unfold one; split <;> omega
      omega

/-- the closed list: consecutive pairs of the list and the closing pair -/
theorem cnt_closed (e : N × N) {v y : N} {l : List N} (hy : (v :: l).getLast? = some y) :
    cnt e (v :: l ++ [v]) = cnt e (v :: l) + one (e = (y, v)) := by
  obtain ⟨L, h⟩ := List.getLast?_eq_some_iff.1 hy
  rw [h, List.append_assoc]
  exact cnt_append e L y v

/-- augmentation along a closed walk -/
theorem augmentCycle_sent (hE : g.getEdgeList.Nodup) (hs : Simple g.getEdgeList) (d : Int) {v : N} {l : List N}
    (hadj : (v :: l ++ [v]).IsChain (Adj g)) (f : N × N → Int) :
    ∃ f', augmentCycle g d (v :: l) f = .ok f' ∧
      Sent g cost d v v (cycleCost (rcost g cost) (v :: l)) (fun e => cnt e (v :: l ++ [v])) f f' := by
  have hadj' := List.isChain_append.1 hadj
  obtain ⟨f1, h1, h2⟩ := augLoop_ok (cost := cost) hE hs d l v f hadj'.1
  obtain ⟨f2, h3, h4⟩ := sent_arc (f := f1) (cost := cost) hE hs
    (hadj'.2.2 _ (List.getLast?_eq_some_getLast (l := v :: l) (by simp)) v rfl) d
  have h5 := h2.trans h4
  have hsplit : v :: l = (v :: l).dropLast ++ [(v :: l).getLast (by simp)] := (List.dropLast_append_getLast _).symm
  have e0 : v :: l ++ [v] = (v :: l).dropLast ++ [(v :: l).getLast (by simp), v] := by
    conv_lhs => rw [hsplit]
    simp
  have e1 : (fun e => cnt e (v :: l ++ [v])) = fun e => cnt e (v :: l) + one (e = ((v :: l).getLast (by simp), v)) := by
    funext e
    rw [e0, cnt_append, ← hsplit]
  have e2 : cycleCost (rcost g cost) (v :: l) =
      pathCost (rcost g cost) (v :: l) + rcost g cost ((v :: l).getLast (by simp)) v := by
    have pc : ∀ (l : List N) (u v : N), pathCost (rcost g cost) (l ++ [u, v]) =
        pathCost (rcost g cost) (l ++ [u]) + rcost g cost u v := by
      intro l u v
      induction l with
      | nil => simp [pathCost]
      | cons a l ih =>
        rcases l with _ | ⟨b, l⟩
        · simp [pathCost]
        · show _ + pathCost _ ((b :: l) ++ [u, v]) = _ + pathCost _ ((b :: l) ++ [u]) + _
          rw [ih]; ring
    unfold cycleCost
    show pathCost _ (v :: l ++ [v]) = _
    rw [e0, pc, ← hsplit]
  refine ⟨f2, by unfold augmentCycle; simp only []; rw [h1]; exact h3, ?_⟩
  rw [e1, e2]
  exact h5

/-- the flow stays within the bounds when the walk uses each arc at most once on balance -/
theorem sent_within (hs : Simple g.getEdgeList) {d c : Int} (hd : 0 ≤ d) {u v : N} {k : N × N → Int} {f' : N × N → Int}
    (hsent : Sent g cost d u v c k f f') (hf : Within g.getEdgeList cap f)
    (hk : ∀ u v, Adj g u v → k (u, v) - k (v, u) = 0 ∨ (k (u, v) - k (v, u) = 1 ∧ d ≤ pot g cap f u v) ∨
      (k (u, v) - k (v, u) = -1 ∧ d ≤ pot g cap f v u)) : Within g.getEdgeList cap f' := by
  rintro ⟨a, b⟩ he
  have hw := hf _ he
  have hpt := hsent.pt _ he
  simp only at hpt
  have hba : (b, a) ∉ g.getEdgeList := hs _ _ he
  rcases hk a b (.inl he) with h | ⟨h, h'⟩ | ⟨h, h'⟩
  · rw [h] at hpt; omega
  · rw [h] at hpt; unfold pot at h'; rw [if_pos he] at h'; omega
  · rw [h] at hpt; unfold pot at h'; rw [if_neg hba] at h'; omega

/-! ## The leaving arc and the augmentation -/

/-- the arc that joins `u` and `v` -/
def arcOf (g : Graph N) (u v : N) : N × N := if (u, v) ∈ g.getEdgeList then (u, v) else (v, u)

theorem tree_dir (hs : Simple g.getEdgeList) (ht : TGr g t) {u v : N} (h : EAdj t.getEdgeList u v) :
    ((u, v) ∈ t.getEdgeList ↔ (u, v) ∈ g.getEdgeList) ∧ arcOf g u v ∈ t.getEdgeList := by
  have h1 : (u, v) ∈ t.getEdgeList ↔ (u, v) ∈ g.getEdgeList := by
    refine ⟨ht.sub _, fun hg => ?_⟩
    rcases h with h | h
    · exact h
    · exact absurd (ht.sub _ h) (hs _ _ hg)
  refine ⟨h1, ?_⟩
  unfold arcOf
  split
  · next hg => exact h1.2 hg
  · next hg => exact h.resolve_left fun h' => hg (h1.1 h')

theorem leaveStep_ok (hn : Netw g cap cost) (ht : TGr g t) {u v : N} (h : EAdj t.getEdgeList u v) (c : Option (N × N) × Int) :
    leaveStep g t f u v c = .ok (if c.2 ≥ pot g cap f u v then (some (arcOf g u v), pot g cap f u v) else c) := by
  have h1 := (tree_dir hn.simple ht h).1
  unfold leaveStep pot arcOf
  by_cases hu : (u, v) ∈ t.getEdgeList
  · have hug := h1.1 hu
    rw [if_pos ((contains_edge t u v).2 hu), flowOf_ok hug, hn.caps u v hug]
    simp only [hug, if_true]
  · have hug : (u, v) ∉ g.getEdgeList := fun h' => hu (h1.2 h')
    have hvu := ht.sub _ (h.resolve_left hu)
    rw [if_neg (fun h' => hu ((contains_edge t u v).1 h')), flowOf_ok hvu]
    simp only [hug, if_false]

theorem leaveLoop_ok (hn : Netw g cap cost) (ht : TGr g t) : ∀ (l : List N) (c : Option (N × N) × Int),
    l.IsChain (EAdj t.getEdgeList) → ∃ c', leaveLoop g t f l c = .ok c' ∧ c'.2 ≤ c.2 ∧
      l.IsChain (fun u v => c'.2 ≤ pot g cap f u v) ∧
      (c' = c ∨ ∃ l1 u v l2, l = l1 ++ u :: v :: l2 ∧ c' = (some (arcOf g u v), pot g cap f u v)) := by
  intro l
  induction l with
  | nil => intro c _; exact ⟨c, rfl, Int.le_refl _, by simp, .inl rfl⟩
  | cons a l ih =>
    intro c h
    rcases l with _ | ⟨b, l⟩
    · exact ⟨c, rfl, Int.le_refl _, by simp, .inl rfl⟩
    · rw [List.isChain_cons_cons] at h
      unfold leaveLoop
      rw [leaveStep_ok hn ht h.1]
      simp only []
      obtain ⟨c', h1, h2, h3, h4⟩ := ih (if c.2 ≥ pot g cap f a b then (some (arcOf g a b), pot g cap f a b) else c) h.2
      refine ⟨c', h1, ?_, ?_, ?_⟩
      · split at h2
        · next hx => simp only at h2; omega
        · exact h2
      · rw [List.isChain_cons_cons]
        refine ⟨?_, h3⟩
        split at h2
        · exact h2
        · omega
      · rcases h4 with h4 | ⟨l1, u, v, l2, h4, h5⟩
        · split at h4
          · exact .inr ⟨[], a, b, l, rfl, h4⟩
          · exact .inl h4
        · exact .inr ⟨a :: l1, u, v, l2, by rw [h4]; rfl, h5⟩

theorem leaving_ok (hn : Netw g cap cost) (ht : TGr g t) {v y : N} {l : List N} (hy : (v :: l).getLast? = some y)
    (h : (v :: l ++ [v]).IsChain (EAdj t.getEdgeList)) {c0 : Int} (hc0 : pot g cap f y v ≤ c0) :
    ∃ u w m, leaving g t f (v :: l) c0 = .ok (arcOf g u w, m) ∧ 0 < cnt (u, w) (v :: l ++ [v]) ∧ m = pot g cap f u w ∧
      (v :: l ++ [v]).IsChain (fun u w => m ≤ pot g cap f u w) := by
  have h' := List.isChain_append.1 h
  have hlast : (v :: l).getLast (by simp) = y := by
    rw [List.getLast?_eq_some_getLast (l := v :: l) (by simp)] at hy
    exact Option.some.inj hy
  have hyv : EAdj t.getEdgeList y v := h'.2.2 y hy v rfl
  obtain ⟨c, h1, h2, h3, h4⟩ := leaveLoop_ok (f := f) hn ht (v :: l) (none, c0) h'.1
  have hclose : ∀ m, (v :: l).IsChain (fun u w => m ≤ pot g cap f u w) → m ≤ pot g cap f y v →
      (v :: l ++ [v]).IsChain (fun u w => m ≤ pot g cap f u w) := by
    intro m hm hmy
    rw [List.isChain_append]
    refine ⟨hm, by simp, ?_⟩
    intro a ha b hb
    rw [hy] at ha
    simp only [Option.mem_def, Option.some.injEq] at ha hb
    subst ha
    cases hb
    exact hmy
  unfold leaving
  simp only []
  rw [h1]
  simp only []
  rw [hlast, leaveStep_ok hn ht hyv]
  by_cases hc : c.2 ≥ pot g cap f y v
  · rw [if_pos hc]
    refine ⟨y, v, _, rfl, ?_, rfl, ?_⟩
    · rw [cnt_closed _ hy]
      have := cnt_bounds (y, v) (v :: l)
      simp only [one, if_true]; omega
    · exact hclose _ (h3.imp fun _ _ h => by omega) (Int.le_refl _)
  · rw [if_neg hc]
    rcases h4 with rfl | ⟨l1, u, w, l2, h4, rfl⟩
    · exact absurd hc0 hc
    · refine ⟨u, w, _, rfl, ?_, rfl, ?_⟩
      · rw [cnt_closed _ hy, h4]
        have := cnt_of_split (u := u) (v := w) l1 l2
        have h0 : 0 ≤ one ((u, w) = (y, v)) := by unfold one; split <;> omega
        omega
      · exact hclose _ h3 (by omega)

theorem pushStep_eq (hs : Simple g.getEdgeList) (ht : TGr g t) {u v : N} (h : EAdj t.getEdgeList u v) (d : Int) (f : N × N → Int) :
    pushStep g t d u v f = pushArc g f u v d := by
  have h1 := (tree_dir hs ht h).1
  unfold pushStep pushArc
  by_cases hu : (u, v) ∈ t.getEdgeList
  · have hug := h1.1 hu
    rw [if_pos ((contains_edge t u v).2 hu), flowOf_ok hug, if_pos ((contains_edge g u v).2 hug)]
  · have hug : (u, v) ∉ g.getEdgeList := fun h' => hu (h1.2 h')
    have hvu := ht.sub _ (h.resolve_left hu)
    rw [if_neg (fun h' => hu ((contains_edge t u v).1 h')), flowOf_ok hvu,
      if_neg (fun h' => hug ((contains_edge g u v).1 h')), if_pos ((contains_edge g v u).2 hvu)]

theorem pushLoop_eq (hs : Simple g.getEdgeList) (ht : TGr g t) (d : Int) : ∀ (l : List N) (f : N × N → Int),
    l.IsChain (EAdj t.getEdgeList) → pushLoop g t d l f = augLoop g d l f := by
  intro l
  induction l with
  | nil => intro f _; rfl
  | cons a l ih =>
    intro f h
    rcases l with _ | ⟨b, l⟩
    · rfl
    · rw [List.isChain_cons_cons] at h
      unfold pushLoop augLoop
      rw [pushStep_eq hs ht h.1]
      cases pushArc g f a b d with
      | error e => rfl
      | ok f => exact ih f h.2

theorem pushCycle_eq (hs : Simple g.getEdgeList) (ht : TGr g t) (d : Int) {v : N} {l : List N} (f : N × N → Int)
    (h : (v :: l ++ [v]).IsChain (EAdj t.getEdgeList)) : pushCycle g t d (v :: l) f = augmentCycle g d (v :: l) f := by
  have h' := List.isChain_append.1 h
  have hyv := h'.2.2 _ (List.getLast?_eq_some_getLast (l := v :: l) (by simp)) v rfl
  unfold pushCycle augmentCycle
  simp only []
  rw [pushLoop_eq hs ht d _ f h'.1]
  cases augLoop g d (v :: l) f with
  | error e => rfl
  | ok f => exact pushStep_eq hs ht hyv d f

/-! ## One pivot -/

theorem eAdj_mono {T S : List (N × N)} (h : ∀ e ∈ T, e ∈ S) {u v : N} (huv : EAdj T u v) : EAdj S u v :=
  huv.imp (h _) (h _)

/-- a path that avoids one end of the arc does not use the arc -/
theorem chain_without {T : List (N × N)} {e : N × N} {z : N} (hz : z = e.1 ∨ z = e.2) {a b : N} {l : List N}
    (hc : (a :: l).IsChain (EAdj T)) (hl : (a :: l).getLast? = some b) (hn : ∀ x ∈ a :: l, x ≠ z) :
    EConn (without T e) a b := by
  refine chain_conn (R := EAdj (without T e)) ?_ hl
  refine (chain_restrict (fun x => x ≠ z) hc hn).imp ?_
  rintro x y ⟨h, hx, hy⟩
  have key : ∀ p q : N, p ≠ z → q ≠ z → (p, q) ∈ T → (p, q) ∈ without T e := by
    intro p q hp hq hm
    refine List.mem_filter.2 ⟨hm, ?_⟩
    have : (p, q) ≠ e := by
      rintro rfl
      rcases hz with rfl | rfl
      · exact hp rfl
      · exact hq rfl
    simpa using this
  exact h.imp (key _ _ hx hy) (key _ _ hy hx)

/-- what a pivot along the cycle `v :: l` does; `K` closes the cycle -/
structure Pivoted (g : Graph N) (W : List N) (cap cost : N × N → Int) (t t' : Graph N) (c : List N) (c0 : Int) (f : N × N → Int)
    (out : N × N) (d : Int) (f' : N × N → Int) : Prop where
  mem : out ∈ t'.getEdgeList
  forest : Forest (without t'.getEdgeList out)
  conn : ∀ u ∈ W, ∀ v ∈ W, EConn (without t'.getEdgeList out) u v
  within : Within g.getEdgeList cap f'
  bound : ∀ e ∈ g.getEdgeList, e ∉ without t'.getEdgeList out → f' e = 0 ∨ f' e = cap e
  nonneg : 0 ≤ d
  net : ∀ v, net g.getEdgeList f' v = net g.getEdgeList f v
  total : totalCost g.getEdgeList cost f' = totalCost g.getEdgeList cost f + d * cycleCost (rcost g cost) c
  same : d = 0 → ∀ e ∈ g.getEdgeList, f' e = f e
  back : out ∉ t.getEdgeList → d = c0

theorem pivot_core (hn : Netw g cap cost) (ht : STree g W t) {t' : Graph N} (ht' : TGr g t') {K : N × N}
    (hE' : t'.getEdgeList = t.getEdgeList ++ [K]) (hK : K ∈ g.getEdgeList) (hKT : K ∉ t.getEdgeList) {v y : N} {l : List N}
    (hnd : (v :: l).Nodup) (hch : (v :: l).IsChain (EAdj t.getEdgeList)) (hy : (v :: l).getLast? = some y)
    (hvy : (v = K.1 ∧ y = K.2) ∨ (v = K.2 ∧ y = K.1)) (hf : Within g.getEdgeList cap f) (hb : AtBound g t cap f)
    {c0 : Int} (hc0 : pot g cap f y v ≤ c0) :
    ∃ out d f', leaving g t' f (v :: l) c0 = .ok (out, d) ∧ pushCycle g t' d (v :: l) f = .ok f' ∧
      Pivoted g W cap cost t t' (v :: l) (pot g cap f y v) f out d f' ∧ d ≤ c0 := by
  obtain ⟨k1, k2⟩ := K
  simp only at hvy
  have hk12 : k1 ≠ k2 := by rintro rfl; exact hn.simple _ _ hK hK
  have hk21 : (k2, k1) ∉ g.getEdgeList := hn.simple _ _ hK
  have hvy' : v ≠ y := by rcases hvy with ⟨rfl, rfl⟩ | ⟨rfl, rfl⟩ <;> [exact hk12; exact hk12.symm]
  have hnoT : ¬ EAdj t.getEdgeList y v ∧ ¬ EAdj t.getEdgeList v y := by
    have : ¬ EAdj t.getEdgeList k1 k2 := by
      rintro (h | h)
      · exact hKT h
      · exact hk21 (ht.tg.sub _ h)
    rcases hvy with ⟨rfl, rfl⟩ | ⟨rfl, rfl⟩
    · exact ⟨fun h => this h.symm, this⟩
    · exact ⟨this, fun h => this h.symm⟩
  have hsub : ∀ e ∈ t.getEdgeList, e ∈ t'.getEdgeList := fun e he => by rw [hE']; simp [he]
  have hclosed : (v :: l ++ [v]).IsChain (EAdj t'.getEdgeList) := by
    rw [List.isChain_append]
    refine ⟨hch.imp fun _ _ h => eAdj_mono hsub h, by simp, ?_⟩
    intro a ha b hb'
    rw [hy] at ha
    simp only [Option.mem_def, Option.some.injEq] at ha hb'
    subst ha
    cases hb'
    rw [hE']
    rcases hvy with ⟨rfl, rfl⟩ | ⟨rfl, rfl⟩
    · exact .inr (by simp)
    · exact .inl (by simp)
  have hadj : (v :: l ++ [v]).IsChain (Adj g) := hclosed.imp fun _ _ h => h.imp (ht'.sub _) (ht'.sub _)
  obtain ⟨u, w, m, h1, h2, h3, h4⟩ := leaving_ok (f := f) hn ht' hy hclosed hc0
  obtain ⟨f', h5, h6⟩ := augmentCycle_sent (cost := cost) hn.built.wf.edup hn.simple m hadj f
  -- balance of the consecutive pairs
  have hcount : ∀ a b, 0 < cnt (a, b) (v :: l ++ [v]) →
      cnt (a, b) (v :: l ++ [v]) = 1 ∧ cnt (b, a) (v :: l ++ [v]) = 0 ∧
        ((a, b) = (y, v) ∨ (0 < cnt (a, b) (v :: l) ∧ EAdj t.getEdgeList a b)) := by
    intro a b h
    rw [cnt_closed _ hy] at h ⊢
    rw [cnt_closed _ hy]
    by_cases hab : (a, b) = (y, v)
    · cases hab
      have q1 : cnt (y, v) (v :: l) = 0 := by
        by_contra h0
        exact hnoT.1 (cnt_pos_chain (e := (y, v)) hch (by have := cnt_bounds (y, v) (v :: l); omega))
      have q2 : cnt (v, y) (v :: l) = 0 := by
        by_contra h0
        exact hnoT.2 (cnt_pos_chain (e := (v, y)) hch (by have := cnt_bounds (v, y) (v :: l); omega))
      have q3 : (v, y) ≠ (y, v) := by intro h'; cases h'; exact hvy' rfl
      rw [q1, q2]
      simp [one, q3]
    · have q0 : one ((a, b) = (y, v)) = 0 := by simp only [one, if_neg hab]
      rw [q0, Int.add_zero] at h ⊢
      obtain ⟨q1, q2⟩ := cnt_nodup hnd h
      have q3 := cnt_pos_chain hch h
      have q4 : (b, a) ≠ (y, v) := by intro h'; cases h'; exact hnoT.2 q3
      rw [q1, q2]
      refine ⟨rfl, by simp only [one, if_neg q4]; rfl, .inr ⟨by omega, q3⟩⟩
  have hm0 : 0 ≤ m := by
    rw [h3]
    have hA : Adj g u w := cnt_pos_chain hadj h2
    unfold pot
    split
    · next he => have := hf _ he; omega
    · next he => have := hf _ (hA.resolve_left he); omega
  have hpt := hcount u w h2
  refine ⟨arcOf g u w, m, f', h1, by rw [pushCycle_eq hn.simple ht' m f hclosed]; exact h5, ?_, ?_⟩
  rotate_left
  · have := (List.isChain_append.1 h4).2.2 y hy v rfl
    omega
  have hEuw : EAdj t'.getEdgeList u w := cnt_pos_chain hclosed h2
  have harc := (tree_dir hn.simple ht' hEuw).2
  have hadjuw : Adj g u w := cnt_pos_chain hadj h2
  -- the tree after the exchange
  have htree : Forest (without t'.getEdgeList (arcOf g u w)) ∧
      ∀ a b, EConn t.getEdgeList a b → EConn (without t'.getEdgeList (arcOf g u w)) a b := by
    rcases hpt.2.2 with hyv | ⟨hc, hT⟩
    · have hK' : arcOf g u w = (k1, k2) := by
        cases hyv
        unfold arcOf
        rcases hvy with ⟨rfl, rfl⟩ | ⟨rfl, rfl⟩
        · rw [if_neg hk21]
        · rw [if_pos hK]
      rw [hK', hE', without_append_self hKT]
      exact ⟨ht.forest, fun a b h => h⟩
    · have hout : arcOf g u w ∈ t.getEdgeList := (tree_dir hn.simple ht.tg hT).2
      have hor : arcOf g u w = (u, w) ∨ arcOf g u w = (w, u) := by unfold arcOf; split <;> simp
      obtain ⟨l1, l2, hl⟩ := cnt_split hc
      have hnd' := hnd
      rw [hl, List.nodup_append] at hnd'
      have hch' := hch
      rw [hl, List.isChain_append_cons_cons] at hch'
      have hwz : w = (arcOf g u w).1 ∨ w = (arcOf g u w).2 := by rcases hor with h | h <;> rw [h] <;> simp
      have huz : u = (arcOf g u w).1 ∨ u = (arcOf g u w).2 := by rcases hor with h | h <;> rw [h] <;> simp
      have c1 : EConn (without t.getEdgeList (arcOf g u w)) v u := by
        have hnw : ∀ x ∈ l1 ++ [u], x ≠ w := by
          rintro x hx rfl
          rcases List.mem_append.1 hx with hx | hx
          · exact hnd'.2.2 x hx x (by simp) rfl
          · rw [List.mem_singleton] at hx; subst hx
            exact (List.nodup_cons.1 hnd'.2.1).1 (by simp)
        rcases l1 with _ | ⟨a, l1⟩
        · simp only [List.nil_append, List.cons.injEq] at hl
          rw [hl.1]
        · simp only [List.cons_append, List.cons.injEq] at hl
          obtain ⟨rfl, hl⟩ := hl
          exact chain_without hwz (l := l1 ++ [u]) (by simpa using hch'.1)
            (by rw [← List.cons_append, List.getLast?_concat]) (by simpa using hnw)
      have c2 : EConn (without t.getEdgeList (arcOf g u w)) w y := by
        refine chain_without huz (l := l2) hch'.2.2 ?_ ?_
        · rw [hl, List.getLast?_append] at hy
          rw [List.getLast?_cons_cons] at hy
          rw [List.getLast?_eq_some_getLast (l := w :: l2) (by simp)] at hy ⊢
          simpa using hy
        · rintro x hx rfl
          exact (List.nodup_cons.1 hnd'.2.1).1 hx
      rw [hE']
      exact forest_exchange ht.forest hout hKT hor hvy c1 c2
  refine ⟨harc, htree.1, fun a ha b hb => htree.2 a b (ht.conn a ha b hb), ?_, ?_, hm0, ?_, h6.total,
    fun hd e he => by have := h6.pt e he; rw [hd] at this; simpa using this, fun hout => ?_⟩
  rotate_right
  · rcases hpt.2.2 with hyv | ⟨_, hT⟩
    · cases hyv; exact h3
    · exact (hout (tree_dir hn.simple ht.tg hT).2).elim
  · refine sent_within hn.simple hm0 h6 hf ?_
    intro a b _
    have b1 := cnt_bounds (a, b) (v :: l ++ [v])
    have b2 := cnt_bounds (b, a) (v :: l ++ [v])
    by_cases q : 0 < cnt (a, b) (v :: l ++ [v])
    · have := hcount a b q
      exact .inr (.inl ⟨by omega, cnt_pos_chain h4 q⟩)
    · by_cases q' : 0 < cnt (b, a) (v :: l ++ [v])
      · have := hcount b a q'
        exact .inr (.inr ⟨by omega, cnt_pos_chain h4 q'⟩)
      · exact .inl (by omega)
  · rintro ⟨a, b⟩ he hne
    have hp := h6.pt _ he
    simp only at hp
    have hba : (b, a) ∉ g.getEdgeList := hn.simple _ _ he
    by_cases hout : (a, b) = arcOf g u w
    · unfold arcOf at hout
      unfold pot at h3
      split at hout
      · next huw =>
        cases hout
        rw [if_pos huw] at h3
        rw [hpt.1, hpt.2.1] at hp
        right; omega
      · next huw =>
        cases hout
        rw [if_neg huw] at h3
        rw [hpt.1, hpt.2.1] at hp
        left; omega
    · have hnt' : (a, b) ∉ t'.getEdgeList := fun h => hne (List.mem_filter.2 ⟨h, by simpa using hout⟩)
      have hnt : (a, b) ∉ t.getEdgeList := fun h => hnt' (hsub _ h)
      have hno : ¬ EAdj t'.getEdgeList a b := by
        rintro (h | h)
        · exact hnt' h
        · exact hba (ht'.sub _ h)
      have z1 : cnt (a, b) (v :: l ++ [v]) = 0 := by
        by_contra h0
        exact hno (cnt_pos_chain (e := (a, b)) hclosed (by have := cnt_bounds (a, b) (v :: l ++ [v]); omega))
      have z2 : cnt (b, a) (v :: l ++ [v]) = 0 := by
        by_contra h0
        exact hno (EAdj.symm (cnt_pos_chain (e := (b, a)) hclosed (by have := cnt_bounds (b, a) (v :: l ++ [v]); omega)))
      rw [z1, z2] at hp
      simp only [Int.sub_self, Int.mul_zero, Int.add_zero] at hp
      rw [hp]
      exact hb _ he hnt
  · intro x; rw [h6.net x]; simp

theorem path_potential {p : N → Int} {pi : N → Option Int} (hp : PotOK g t cost pi p) {v y : N} {l : List N}
    (hch : (v :: l).IsChain (EAdj t.getEdgeList)) (hy : (v :: l).getLast? = some y) :
    pathCost (rcost g cost) (v :: l) = p v - p y := by
  induction l generalizing v with
  | nil => simp at hy; subst hy; simp [pathCost]
  | cons a l ih =>
    rw [List.isChain_cons_cons] at hch
    rw [List.getLast?_cons_cons] at hy
    simp only [pathCost]
    rw [ih hch.2 hy]
    have := hp.zero v a hch.1
    omega

theorem cycle_potential {p : N → Int} {pi : N → Option Int} (hp : PotOK g t cost pi p) {v y : N} {l : List N}
    (hch : (v :: l).IsChain (EAdj t.getEdgeList)) (hy : (v :: l).getLast? = some y) :
    cycleCost (rcost g cost) (v :: l) = p v - p y + rcost g cost y v := by
  obtain ⟨L, hL⟩ := List.getLast?_eq_some_iff.1 hy
  have pc : ∀ (l : List N) (u v : N), pathCost (rcost g cost) (l ++ [u, v]) =
      pathCost (rcost g cost) (l ++ [u]) + rcost g cost u v := by
    intro l u v
    induction l with
    | nil => simp [pathCost]
    | cons a l ih =>
      rcases l with _ | ⟨b, l⟩
      · simp [pathCost]
      · show _ + pathCost _ ((b :: l) ++ [u, v]) = _ + pathCost _ ((b :: l) ++ [u]) + _
        rw [ih]; ring
  unfold cycleCost
  show pathCost _ (v :: l ++ [v]) = _
  rw [← path_potential hp hch hy, hL, List.append_assoc]
  exact pc L y v

/-- what a pivot step guarantees -/
structure PivotOK (g : Graph N) (W : List N) (cap cost : N × N → Int) (p : N → Int) (t : Graph N) (f : N × N → Int) (e : N × N)
    (t' : Graph N) (f' : N × N → Int) : Prop where
  tree : STree g W t'
  swap : ∃ out ∈ t.getEdgeList ++ [e], t'.getEdgeList = without (t.getEdgeList ++ [e]) out
  within : Within g.getEdgeList cap f'
  bound : AtBound g t' cap f'
  net : ∀ v, net g.getEdgeList f' v = net g.getEdgeList f v
  total : ∃ d, 0 ≤ d ∧ totalCost g.getEdgeList cost f' = totalCost g.getEdgeList cost f - d * (redc cost p e).natAbs ∧
    (d = 0 → (∀ e ∈ g.getEdgeList, f' e = f e) ∧ (cap e = 0 ∨ e ∈ t'.getEdgeList))

theorem pivotOn_ok (hn : Netw g cap cost) (ht : STree g W t) (hix : Good t.getEdgeList W root seq ix)
    {pi : N → Option Int} {p : N → Int} (hp : PotOK g t cost pi p) (hf : Within g.getEdgeList cap f)
    (hb : AtBound g t cap f) {e : N × N} (he : e ∈ g.getEdgeList) (het : e ∉ t.getEdgeList) {x : Int}
    (hv : viol cap cost f p e = some x) {fuel : Nat} (hfu : 2 * g.getNodeList.length ≤ fuel) :
    ∃ t' f', pivotOn g t f ix e fuel = .ok (t', f') ∧ PivotOK g W cap cost p t f e t' f' := by
  obtain ⟨k, l⟩ := e
  have hV := hn.ends he
  have hw := hf _ he
  have hlk : (l, k) ∉ g.getEdgeList := hn.simple _ _ he
  obtain ⟨P, h1, h2, h3, h4, h5⟩ := identify_ok ht.tg ht.sub hix (ht.ends _ he).1 (ht.ends _ he).2
    (fuel := fuel) (by have := ht.toCore.len; omega)
  obtain ⟨t', h6, h7, h8⟩ := ht.tg.add hV.1 hV.2 he het
  -- the oriented cycle
  obtain ⟨v, L, y, hc, hnd, hch, hy, hvy, hpot, hcost⟩ : ∃ v L y,
      (if f (k, l) = cap (k, l) then P.reverse else P) = v :: L ∧ (v :: L).Nodup ∧
      (v :: L).IsChain (EAdj t.getEdgeList) ∧ (v :: L).getLast? = some y ∧ ((v = k ∧ y = l) ∨ (v = l ∧ y = k)) ∧
      pot g cap f y v = cap (k, l) ∧
      (0 < cap (k, l) → cycleCost (rcost g cost) (v :: L) = - (redc cost p (k, l)).natAbs) := by
    unfold viol at hv
    by_cases hfc : f (k, l) = cap (k, l)
    · rw [if_pos hfc]
      have hrev : P.reverse.head? = some k := by rw [List.head?_reverse]; exact h5
      have hrl : P.reverse.getLast? = some l := by rw [List.getLast?_reverse]; exact h4
      have hnd : P.reverse.Nodup := List.nodup_reverse.2 h2
      have hch : P.reverse.IsChain (EAdj t.getEdgeList) := by
        rw [List.isChain_reverse]; exact h3.imp fun _ _ h => h.symm
      rcases hr : P.reverse with _ | ⟨a, L⟩
      · rw [hr] at hrev; cases hrev
      · rw [hr] at hrev hrl hnd hch
        simp only [List.head?_cons, Option.some.injEq] at hrev
        subst hrev
        refine ⟨a, L, l, rfl, hnd, hch, hrl, .inl ⟨rfl, rfl⟩, ?_, ?_⟩
        · unfold pot; rw [if_neg hlk, hfc]
        · intro hpos
          rw [cycle_potential hp hch hrl]
          unfold rcost
          rw [if_neg hlk]
          rw [if_neg (by omega), if_pos hfc] at hv
          split at hv
          · unfold redc at *; simp only at *; omega
          · cases hv
    · rw [if_neg hfc]
      rcases hr : P with _ | ⟨a, L⟩
      · rw [hr] at h4; cases h4
      · rw [hr] at h2 h3 h4 h5
        simp only [List.head?_cons, Option.some.injEq] at h4
        subst h4
        have h0 : f (k, a) = 0 := by
          rcases hb _ he het with h | h
          · exact h
          · exact absurd h hfc
        refine ⟨a, L, k, rfl, h2, h3, h5, .inr ⟨rfl, rfl⟩, ?_, ?_⟩
        · unfold pot; rw [if_pos he, h0]; omega
        · intro hpos
          rw [cycle_potential hp h3 h5]
          unfold rcost
          rw [if_pos he]
          rw [if_pos h0] at hv
          split at hv
          · unfold redc at *; simp only at *; omega
          · cases hv
  obtain ⟨out, d, f', h9, h10, h11, hdc⟩ := pivot_core (cost := cost) hn ht h7 h8 he het hnd hch hy hvy hf hb
    (c0 := cap (k, l)) (by omega)
  obtain ⟨t'', h12, h13, h14⟩ := h7.del h11.mem
  refine ⟨t'', f', ?_, ⟨ht.toCore, h13, by rw [h14]; exact h11.forest, by rw [h14]; exact h11.conn⟩,
    ⟨out, by rw [← h8]; exact h11.mem, by rw [h14, h8]⟩, h11.within, ?_, h11.net, ?_⟩
  · unfold pivotOn
    rw [h1]
    simp only []
    rw [flowOf_ok he, hn.caps k l he]
    simp only []
    rw [h6]
    simp only []
    rw [hc, h9]
    simp only []
    rw [h10]
    simp only []
    rw [h12]
  · intro e' he' hne
    rw [h14] at hne
    exact h11.bound e' he' hne
  · by_cases hpos : 0 < cap (k, l)
    · refine ⟨d, h11.nonneg, ?_, fun hd => ⟨h11.same hd, .inr ?_⟩⟩
      · rw [h11.total, hcost hpos]; ring
      · rw [h14, h8]
        refine List.mem_filter.2 ⟨by simp, ?_⟩
        have : out ≠ (k, l) := by
          rintro rfl
          have := h11.back het
          omega
        simpa only [ne_eq, decide_not, Bool.not_eq_true', decide_eq_false_iff_not] using Ne.symm this
    · have hd0 : d = 0 := by
        have := h11.nonneg
        omega
      refine ⟨0, Int.le_refl _, ?_, fun _ => ⟨h11.same hd0, .inl (by omega)⟩⟩
      rw [h11.total, hd0]; simp

end Simplex
end GiMPy
