import Verif.Lemmas.FloydWarshall
import Verif.Lemmas.Components
import Verif.Spec.Built

/-! # C32-C35: Floyd-Warshall and negative cycles -/

namespace GiMPy
open FW
variable {N : Type} [DecidableEq N] {g : Graph N}

theorem arc_eq_step (hd : g.directed = true) : (fun u v => (u, v) ∈ g.getEdgeList) = Step g false := by
  funext u v
  simp only [Step, Graph.checkEdge, hd, if_true, Bool.false_eq_true, if_false, Dict.contains_iff, eq_iff_iff]
  exact Iff.rfl

theorem reach_walk {R : N → N → Prop} (w : N → N → Int) {i j : N} (h : Relation.ReflTransGen R i j) :
    ∃ x, WalkCost R w i x j := by
  induction h with
  | refl => exact ⟨0, .nil⟩
  | tail _ hr ih => obtain ⟨x, hx⟩ := ih; exact ⟨_, hx.snoc hr⟩

theorem walk_reach {R : N → N → Prop} {w : N → N → Int} {i j : N} {x : Int} (h : WalkCost R w i x j) :
    Relation.ReflTransGen R i j := by
  induction h with
  | nil => exact .refl
  | snoc _ hr ih => exact ih.tail hr

/-- the hypotheses shared by C32-C35 in the form used by the lemmas -/
theorem fw_facts (hg : Built g) (hd : g.directed = true) {w : N → N → Int}
    (hw : ∀ u v, g.checkEdge u v = true → g.getEdgeCost u v = .ok (w u v)) :
    ∃ b st, floydWarshall g = .ok (b, st) ∧
      (∀ i j x, st.dist (i, j) = some x → WalkCost (Step g false) w i x j) ∧
      (∀ i, ∃ x, st.dist (i, i) = some x ∧ (¬ Step g false i i → x ≤ 0)) ∧
      (b = true ↔ ∀ i ∈ g.getNodeList, ∀ x, st.dist (i, i) = some x → 0 ≤ x) ∧
      (Covers (Step g false) w (b = true) (fun _ => True) st) ∧
      Sound (Step g false) w (fun e => if e ∈ g.getEdgeList then some (w e.1 e.2) else dist0 e) st := by
  have := floydWarshall_ok (g := g) (w := w) (fun u v h => hg.wf.endp u v h) (by
    intro e he
    refine hw _ _ ?_
    have := congrFun (congrFun (arc_eq_step hd) e.1) e.2
    exact this.mp he)
  have hiff : ∀ i, (i, i) ∉ g.getEdgeList ↔ ¬ Step g false i i := by
    intro i; rw [← arc_eq_step hd]
  simpa only [arc_eq_step hd, hiff] using this

/-- **C32.** On a digraph with integer costs of any sign `floyd_warshall` returns, and if the flag is True the
distance of a pair is the least cost of a walk, or 'infinity' when there is no walk.  (`distance[(i,i)]` is left out
for nodes with a self loop, whose cost replaces the 0 there.) -/
theorem C32_floyd_warshall_exact (hg : Built g) (hd : g.directed = true) {w : N → N → Int}
    (hw : ∀ u v, g.checkEdge u v = true → g.getEdgeCost u v = .ok (w u v)) :
    ∃ valid st, floydWarshall g = .ok (valid, st) ∧ (valid = true → ∀ i ∈ g.getNodeList, ∀ j ∈ g.getNodeList,
      (i ≠ j ∨ g.checkEdge i i = false) →
      match st.dist (i, j) with
      | none => ¬ Reach g false i j
      | some x => IsLeastCost (Step g false) w i j x) := by
  obtain ⟨b, st, h1, h2, h3, h4, h5, h6⟩ := fw_facts hg hd hw
  refine ⟨b, st, h1, fun hb i hi j hj hij => ?_⟩
  rcases hx : st.dist (i, j) with _ | x
  · intro hr
    obtain ⟨y, hy⟩ := reach_walk w hr
    rcases Via.of_walk (K := fun _ => True) (fun _ _ _ => trivial) hy with ⟨rfl, rfl⟩ | hv
    · obtain ⟨z, hz, _⟩ := h3 i
      rw [hx] at hz; cases hz
    · obtain ⟨z, _, hz⟩ := h5 _ _ _ hv
      rw [hx] at hz; cases hz
  · refine ⟨h2 _ _ _ hx, fun y hy => ?_⟩
    rcases Via.of_walk (K := fun _ => True) (fun _ _ _ => trivial) hy with ⟨rfl, rfl⟩ | hv
    · obtain ⟨z, hz, hz'⟩ := h3 i
      rw [hx] at hz; cases hz
      refine hz' ?_
      rcases hij with hij | hij
      · exact absurd rfl hij
      · simp [Step, hij]
    · obtain ⟨z, hz', hz⟩ := h5 _ _ _ hv
      rw [hx] at hz; cases hz
      exact hz' hb

theorem via_closed {R : N → N → Prop} {w : N → N → Int} {u v : N} {x : Int} (h : WalkCost R w u x v) (hr : R v u) :
    Via R w (fun _ => True) u (x + w v u) u := by
  rcases Via.of_walk (K := fun _ => True) (fun _ _ _ => trivial) h with ⟨rfl, rfl⟩ | hv
  · rw [Int.zero_add]; exact .arc hr
  · exact hv.snoc trivial hr

/-- with a True flag no closed walk is negative -/
theorem closed_nonneg (hg : Built g) {w : N → N → Int} {b : Bool} {st : FState N}
    (h4 : b = true ↔ ∀ i ∈ g.getNodeList, ∀ x, st.dist (i, i) = some x → 0 ≤ x)
    (h5 : Covers (Step g false) w (b = true) (fun _ => True) st) (hb : b = true) {v : N} {x : Int}
    (h : WalkCost (Step g false) w v x v) : 0 ≤ x := by
  rcases Via.of_walk (K := fun _ => True) (fun _ _ _ => trivial) h with ⟨_, rfl⟩ | hv
  · exact Int.le_refl _
  · obtain ⟨y, hy, hd⟩ := h5 _ _ _ hv
    have hn : v ∈ g.getNodeList := by
      have : ∀ {x z}, Via (Step g false) w (fun _ => True) v x z → v ∈ g.getNodeList := by
        intro x z h
        induction h with
        | arc h => exact (Search.step_node hg.wf h).1
        | snoc _ _ _ ih => exact ih
      exact this hv
    have := h4.1 hb v hn y hd
    have := hy hb
    omega

/-- **C33.** `floyd_warshall` reports False exactly when there is a closed walk of negative cost. -/
theorem C33_floyd_warshall_valid (hg : Built g) (hd : g.directed = true) {w : N → N → Int}
    (hw : ∀ u v, g.checkEdge u v = true → g.getEdgeCost u v = .ok (w u v)) :
    ∃ valid st, floydWarshall g = .ok (valid, st) ∧
      (valid = false ↔ ∃ v x, WalkCost (Step g false) w v x v ∧ x < 0) := by
  obtain ⟨b, st, h1, h2, h3, h4, h5, h6⟩ := fw_facts hg hd hw
  refine ⟨b, st, h1, ?_⟩
  constructor
  · intro hb
    by_contra hcon
    have : b = true := by
      rw [h4]
      intro i _ x hx
      by_contra hlt
      exact hcon ⟨i, x, h2 _ _ _ hx, by omega⟩
    rw [hb] at this; cases this
  · rintro ⟨v, x, hv, hx⟩
    rcases hb : b with _ | _
    · rfl
    · have := closed_nonneg hg h4 h5 hb hv
      omega

/-! ## Paths -/

theorem pathCost_concat (w : N → N → Int) (l : List N) (u v : N) :
    pathCost w (l ++ [u, v]) = pathCost w (l ++ [u]) + w u v := by
  induction l with
  | nil => simp [pathCost]
  | cons a l ih =>
    rcases l with _ | ⟨b, l⟩
    · simp [pathCost]
    · show w a b + pathCost w ((b :: l) ++ [u, v]) = w a b + pathCost w ((b :: l) ++ [u]) + w u v
      rw [ih]; omega

/-- how one call of `floyd_warshall_get_path` sees the dictionaries -/
theorem path_step {w : N → N → Int} {st : FState N} {d0 : N × N → Option Int}
    (hd0 : ∀ u v, u ≠ v → Step g false u v → d0 (u, v) = some (w u v))
    (hpos : ∀ v x, Via (Step g false) w (fun _ => True) v x v → 0 < x)
    (hcov : Covers (Step g false) w True (fun _ => True) st) (hs : Sound (Step g false) w d0 st)
    {i j : N} (hij : i ≠ j) {x : Int} (hx : st.dist (i, j) = some x) :
    ∃ p, st.next (i, j) = some p ∧ Step g false p j ∧ ((p = i ∧ x = w i j) ∨
      (p ≠ i ∧ (∃ x', st.dist (i, p) = some x' ∧ x = x' + w p j) ∧ st.next (p, j) = some p ∧
        ∃ z, st.dist (p, j) = some z)) := by
  have hnn : ∀ v, Step g false v v → 0 ≤ w v v := fun v h => by have := hpos _ _ (.arc h); omega
  obtain ⟨p, hp⟩ := hs.has hnn i j x hx (.inl hij)
  obtain ⟨y, hy, hr, hxy⟩ := hs.next _ _ _ hp
  rw [hx] at hxy
  replace hxy := Option.some.inj hxy
  refine ⟨p, hp, hr, ?_⟩
  have least : ∀ u v z, Via (Step g false) w (fun _ => True) u z v → ∃ y, y ≤ z ∧ st.dist (u, v) = some y := by
    intro u v z h; obtain ⟨y, h1, h2⟩ := hcov u v z h; exact ⟨y, h1 trivial, h2⟩
  by_cases hpi : p = i
  · subst hpi
    left
    refine ⟨rfl, ?_⟩
    obtain ⟨z, hz, hz'⟩ := least p j _ (.arc hr)
    rw [hx] at hz'; cases hz'
    rcases Via.of_walk (K := fun _ => True) (fun _ _ _ => trivial) hy with ⟨_, rfl⟩ | hv
    · omega
    · have := hpos _ _ hv; omega
  · right
    have hv : Via (Step g false) w (fun _ => True) i y p := by
      rcases Via.of_walk (K := fun _ => True) (fun _ _ _ => trivial) hy with ⟨h, _⟩ | hv
      · exact absurd h.symm hpi
      · exact hv
    obtain ⟨x', hx', hdx'⟩ := least _ _ _ hv
    have hpj : p ≠ j := by
      rintro rfl
      rw [hx] at hdx'; cases hdx'
      have := hpos _ _ (.arc hr)
      omega
    have e1 : x = x' + w p j := by
      have := walk_trans (hs.walk _ _ _ hdx') (walk_arc hr)
      rcases Via.of_walk (K := fun _ => True) (fun _ _ _ => trivial) this with ⟨h, _⟩ | hv
      · exact absurd h hij
      · obtain ⟨z, hz, hz'⟩ := least _ _ _ hv
        rw [hx] at hz'; cases hz'
        omega
    obtain ⟨z, hz, hz'⟩ := least p j _ (.arc hr)
    refine ⟨hpi, ⟨x', hdx', e1⟩, ?_, ⟨z, hz'⟩⟩
    rcases hs.first p j with h | h
    · rw [h]; simp [next0, hpj, hd0 _ _ hpj hr]
    · exfalso
      obtain ⟨z', h1, h2⟩ := h _ (hd0 _ _ hpj hr)
      have := walk_trans (hs.walk _ _ _ hdx') (hs.walk _ _ _ h1)
      rcases Via.of_walk (K := fun _ => True) (fun _ _ _ => trivial) this with ⟨h, _⟩ | hv
      · exact absurd h hij
      · obtain ⟨z, hz, hz'⟩ := least _ _ _ hv
        rw [hx] at hz'; cases hz'
        omega

/-- each inner node is listed three times -/
def triple (l : List N) : List N := l.flatMap fun v => [v, v, v]

theorem getPath_ok {w : N → N → Int} {st : FState N} {d0 : N × N → Option Int} {V : List N}
    (hV : ∀ u v, Step g false u v → u ∈ V ∧ v ∈ V)
    (hd0 : ∀ u v, u ≠ v → Step g false u v → d0 (u, v) = some (w u v))
    (hpos : ∀ v x, Via (Step g false) w (fun _ => True) v x v → 0 < x)
    (hcov : Covers (Step g false) w True (fun _ => True) st) (hs : Sound (Step g false) w d0 st) {i : N} :
    ∀ (f : Nat) (S : List N) (j : N) (x : Int), i ≠ j → st.dist (i, j) = some x → S.Nodup → (∀ s ∈ S, s ∈ V) → j ∉ S →
      (∀ s ∈ S, ∃ z, Via (Step g false) w (fun _ => True) j z s ∧ st.dist (i, s) = some (x + z)) →
      V.length ≤ f + S.length →
      ∃ l, getPath st (f + 1) i j = .ok (some (i :: triple l ++ [j])) ∧ IsPath (Step g false) i j (i :: l ++ [j]) ∧
        pathCost w (i :: l ++ [j]) = x := by
  intro f
  induction f with
  | zero =>
    intro S j x hij hx hnd hS hj _ hlen
    exfalso
    have hjV : j ∈ V := by
      rcases Via.of_walk (K := fun _ => True) (fun _ _ _ => trivial) (hs.walk _ _ _ hx) with ⟨h, _⟩ | hv
      · exact absurd h hij
      · cases hv with
        | arc h => exact (hV _ _ h).2
        | snoc _ _ h => exact (hV _ _ h).2
    have : (j :: S).length ≤ V.length :=
      ((List.nodup_cons.2 ⟨hj, hnd⟩).subperm (by
        intro s hs; rcases List.mem_cons.1 hs with rfl | hs
        · exact hjV
        · exact hS s hs)).length_le
    simp at this; omega
  | succ f ih =>
    intro S j x hij hx hnd hS hj hchain hlen
    obtain ⟨p, hp, hr, h⟩ := path_step hd0 hpos hcov hs hij hx
    rcases h with ⟨rfl, hxw⟩ | ⟨hpi, ⟨x', hx', hxx⟩, hpp, z, hz⟩
    · refine ⟨[], by simp [getPath, hx, hp, triple], ⟨rfl, rfl, by simpa using hr⟩, by simp [pathCost, hxw]⟩
    · have hpS : p ∉ j :: S := by
        intro hmem
        rcases List.mem_cons.1 hmem with rfl | hmem
        · rw [hx] at hx'; cases hx'
          have := hpos _ _ (.arc hr); omega
        · obtain ⟨z, hz1, hz2⟩ := hchain p hmem
          rw [hx'] at hz2; cases hz2
          have := hpos _ _ (hz1.snoc trivial hr)
          omega
      have : ∃ l, getPath st (f + 1) i p = .ok (some (i :: triple l ++ [p])) ∧ IsPath (Step g false) i p (i :: l ++ [p]) ∧
          pathCost w (i :: l ++ [p]) = x' := by
        refine ih (j :: S) p x' (Ne.symm hpi) hx' (List.nodup_cons.2 ⟨hj, hnd⟩) ?_ hpS ?_ (by simp; omega)
        · intro s hs; rcases List.mem_cons.1 hs with rfl | hs
          · exact (hV _ _ hr).2
          · exact hS s hs
        · intro s hs; rcases List.mem_cons.1 hs with rfl | hs
          · exact ⟨w p s, .arc hr, by rw [hx, hxx]⟩
          · obtain ⟨z, hz1, hz2⟩ := hchain s hs
            refine ⟨w p j + z, ?_, by rw [hz2, hxx]; congr 1; omega⟩
            have := walk_trans (walk_arc hr) hz1.walk
            rcases Via.of_walk (K := fun _ => True) (fun _ _ _ => trivial) this with ⟨rfl, _⟩ | hv
            · exact absurd (by simp [hs]) hpS
            · exact hv
      obtain ⟨l, h1, h2, h3⟩ := this
      refine ⟨l ++ [p], ?_, ⟨by simp, by rw [List.getLast?_append]; rfl, ?_⟩, ?_⟩
      · rw [getPath]
        simp only [hx, hp]
        rw [if_neg (Ne.symm hpi), h1]
        simp only []
        have : getPath st (f + 1) p j = .ok (some [p, j]) := by simp [getPath, hz, hpp]
        rw [this]
        simp [join, triple]
      · have : i :: (l ++ [p]) ++ [j] = (i :: l) ++ p :: j :: [] := by simp
        rw [this, List.isChain_append_cons_cons]
        exact ⟨h2.2.2, hr, by simp⟩
      · have : i :: (l ++ [p]) ++ [j] = (i :: l) ++ [p, j] := by simp
        rw [this, pathCost_concat, h3, hxx]

/-- **C34** (what holds).  On a digraph all of whose cycles have positive cost, for a pair `i ≠ j` with a walk from `i`
to `j`, `floyd_warshall_get_path` returns a list obtained from a cheapest path from `i` to `j` by writing each inner
node three times.  Missing from C34: the list is not itself a path, see `C34_false`. -/
theorem C34_get_path_partial (hg : Built g) (hd : g.directed = true) {w : N → N → Int}
    (hw : ∀ u v, g.checkEdge u v = true → g.getEdgeCost u v = .ok (w u v))
    (hpos : ∀ u v x, WalkCost (Step g false) w u x v → Step g false v u → 0 < x + w v u)
    {i j : N} (hij : i ≠ j) (hr : Reach g false i j) {fuel : Nat} (hf : g.getNodeList.length + 1 ≤ fuel) :
    ∃ st l x, floydWarshall g = .ok (true, st) ∧ st.dist (i, j) = some x ∧
      getPath st fuel i j = .ok (some (i :: triple l ++ [j])) ∧ IsPath (Step g false) i j (i :: l ++ [j]) ∧
      pathCost w (i :: l ++ [j]) = x ∧ IsLeastCost (Step g false) w i j x := by
  obtain ⟨b, st, h1, h2, h3, h4, h5, h6⟩ := fw_facts hg hd hw
  have hpos' : ∀ v x, Via (Step g false) w (fun _ => True) v x v → 0 < x := by
    intro v x h
    cases h with
    | arc h => have := hpos v v 0 .nil h; omega
    | snoc h _ hr => exact hpos _ _ _ h.walk hr
  have hb : b = true := by
    rw [h4]
    intro v _ x hx
    rcases Via.of_walk (K := fun _ => True) (fun _ _ _ => trivial) (h2 _ _ _ hx) with ⟨_, rfl⟩ | hv
    · exact Int.le_refl _
    · have := hpos' _ _ hv; omega
  subst hb
  have hcov : Covers (Step g false) w True (fun _ => True) st := by
    intro i j x h; obtain ⟨y, hy, hd⟩ := h5 i j x h; exact ⟨y, fun _ => hy rfl, hd⟩
  have hvia : ∀ {x}, WalkCost (Step g false) w i x j → Via (Step g false) w (fun _ => True) i x j := by
    intro x h
    rcases Via.of_walk (K := fun _ => True) (fun _ _ _ => trivial) h with ⟨h, _⟩ | hv
    · exact absurd h hij
    · exact hv
  obtain ⟨y, hy⟩ := reach_walk w hr
  obtain ⟨x, _, hx⟩ := hcov _ _ _ (hvia hy)
  obtain ⟨f, rfl⟩ : ∃ f, fuel = f + 1 := ⟨fuel - 1, by omega⟩
  obtain ⟨l, hl1, hl2, hl3⟩ := getPath_ok (V := g.getNodeList) (fun u v h => Search.step_node hg.wf h) (by
      intro u v _ h
      rw [← arc_eq_step hd] at h
      simp [h]) hpos' hcov h6 f [] j x hij hx (by simp) (by simp) (by simp) (by simp) (by simp; omega)
  refine ⟨st, l, x, h1, hx, hl1, hl2, hl3, h2 _ _ _ hx, fun y hy => ?_⟩
  obtain ⟨z, hz, hz'⟩ := hcov _ _ _ (hvia hy)
  rw [hx] at hz'; cases hz'
  exact hz trivial

/-! ## Cycles -/

theorem back_ok {st : FState N} {R : N → N → Prop} {el : N} (hn : ∀ j k, st.next (el, j) = some k → R k j) :
    ∀ (f : Nat) (t : List N) (k : Option N) (k' : N) (c : List N), (el :: t).Nodup → (t ++ [el]).IsChain R →
      (∀ x, (t ++ [el]).head? = some x → st.next (el, x) = k) → back st.next el f (el :: t) k = .ok (k', c) →
      ∃ t, c = el :: t ∧ c.Nodup ∧ (k' :: t ++ [el]).IsChain R := by
  intro f
  induction f with
  | zero => intro t k k' c _ _ _ h; cases h
  | succ f ih =>
    intro t k k' c hnd hch hk h
    rcases k with _ | k
    · cases h
    rw [back] at h
    have hch' : (k :: t ++ [el]).IsChain R := by
      obtain ⟨x, r, hx⟩ : ∃ x r, t ++ [el] = x :: r := by cases t <;> simp
      have := hn x k (hk x (by rw [hx]; rfl))
      show (k :: (t ++ [el])).IsChain R
      rw [hx] at hch ⊢
      exact List.isChain_cons_cons.2 ⟨this, hch⟩
    by_cases hmem : k ∈ el :: t
    · rw [if_pos hmem] at h
      cases h
      exact ⟨t, rfl, hnd, hch'⟩
    · rw [if_neg hmem] at h
      refine ih (k :: t) _ k' c ?_ hch' ?_ h
      · rw [List.nodup_cons] at hnd ⊢
        simp only [List.mem_cons, not_or] at hmem ⊢
        exact ⟨⟨Ne.symm hmem.1, hnd.1⟩, List.nodup_cons.2 ⟨hmem.2, hnd.2⟩⟩
      · intro x hx; cases hx; rfl

theorem cycleFrom_ok {st : FState N} {R : N → N → Prop} (hn : ∀ i j k, st.next (i, j) = some k → R k j) (inner : Nat) :
    ∀ (f : Nat) (el : N) (c : List N), cycleFrom st inner f el = .ok c → IsCycle R c := by
  intro f
  induction f with
  | zero => intro el c h; cases h
  | succ f ih =>
    intro el c h
    rw [cycleFrom] at h
    rcases hb : back st.next el inner [el] (st.next (el, el)) with e | ⟨k, cyc⟩
    · rw [hb] at h; cases h
    · rw [hb] at h
      simp only [] at h
      obtain ⟨t, h1, h2, h3⟩ := back_ok (hn el) inner [] _ k cyc (by simp) (by simp) (by rintro x ⟨⟩; rfl) hb
      by_cases hk : k = el
      · rw [if_pos hk] at h
        cases h
        subst hk h1
        refine ⟨h2, k, (k :: t).getLast (by simp), ⟨rfl, List.getLast?_eq_some_getLast _, ?_⟩, ?_⟩
        · exact (List.isChain_append.1 h3).1
        · exact (List.isChain_append.1 h3).2.2 _ (List.getLast?_eq_some_getLast _) _ rfl
      · rw [if_neg hk] at h
        rcases hd : st.dist (k, k) with _ | x
        · rw [hd] at h; cases h
        · rw [hd] at h
          simp only [] at h
          by_cases hx : x ≥ 0
          · rw [if_pos hx] at h; cases h
          · rw [if_neg hx] at h; exact ih k c h

/-- `back` neither meets None nor runs out of fuel -/
theorem back_total {st : FState N} {V : List N} {el : N}
    (hn : ∀ j k, st.next (el, j) = some k → k ∈ V ∧ ((∃ x, st.dist (el, k) = some x) ∧ (k = el ∨ ∃ k', st.next (el, k) = some k'))) :
    ∀ (f : Nat) (t : List N) (k : N) (j : N), st.next (el, j) = some k → (el :: t).Nodup → (∀ v ∈ t, v ∈ V) →
      V.length < f + t.length → ∃ r, back st.next el f (el :: t) (some k) = .ok r ∧ ∃ j, st.next (el, j) = some r.1 := by
  intro f
  induction f with
  | zero =>
    intro t k j _ hnd ht hlen
    exfalso
    have := ((List.nodup_cons.1 hnd).2.subperm ht).length_le
    omega
  | succ f ih =>
    intro t k j hk hnd ht hlen
    rw [back]
    by_cases hmem : k ∈ el :: t
    · exact ⟨(k, el :: t), by rw [if_pos hmem], j, hk⟩
    · rw [if_neg hmem]
      have hmem' := hmem
      simp only [List.mem_cons, not_or] at hmem
      obtain ⟨hkV, hd, h⟩ := hn j k hk
      rcases h with h | ⟨k', hk'⟩
      · exact absurd h hmem.1
      · rw [hk']
        refine ih (k :: t) k' k hk' ?_ ?_ (by simp; omega)
        · rw [List.nodup_cons] at hnd ⊢
          simp only [List.mem_cons, not_or]
          exact ⟨⟨Ne.symm hmem.1, hnd.1⟩, List.nodup_cons.2 ⟨hmem.2, hnd.2⟩⟩
        · intro v hv; rcases List.mem_cons.1 hv with rfl | hv
          · exact hkV
          · exact ht v hv

theorem cycleFrom_err {st : FState N} {V : List N}
    (hn : ∀ el j k, st.next (el, j) = some k → k ∈ V ∧ ((∃ x, st.dist (el, k) = some x) ∧ (k = el ∨ ∃ k', st.next (el, k) = some k')))
    (hdiag : ∀ v, ∃ x, st.dist (v, v) = some x) (hneg : ∀ v x, st.dist (v, v) = some x → x < 0 → ∃ k, st.next (v, v) = some k)
    {inner : Nat} (hin : V.length < inner) :
    ∀ (f : Nat) (el : N) (x : Int), st.dist (el, el) = some x → x < 0 → ∀ e, cycleFrom st inner f el = .error e →
      e = .exception ∨ e = .diverge := by
  intro f
  induction f with
  | zero => rintro el x _ _ e ⟨⟩; exact .inr rfl
  | succ f ih =>
    intro el x hx hlt e h
    rw [cycleFrom] at h
    obtain ⟨k, hk⟩ := hneg el x hx hlt
    obtain ⟨⟨k', c⟩, hr, j, hj⟩ := back_total (hn el) inner [] k el hk (by simp) (by simp) (by simpa using hin)
    rw [hk, hr] at h
    simp only [] at h
    by_cases hkel : k' = el
    · rw [if_pos hkel] at h; cases h
    · rw [if_neg hkel] at h
      obtain ⟨y, hy⟩ := hdiag k'
      rw [hy] at h
      simp only [] at h
      by_cases h0 : y ≥ 0
      · rw [if_pos h0] at h; cases h; exact .inl rfl
      · rw [if_neg h0] at h; exact ih k' y hy (by omega) e h

theorem firstNeg_ok {d : N × N → Option Int} {l : List N} (hdiag : ∀ v, ∃ x, d (v, v) = some x)
    (h : ∃ i ∈ l, ∃ x, d (i, i) = some x ∧ x < 0) : ∃ i x, firstNeg d l = .ok i ∧ d (i, i) = some x ∧ x < 0 := by
  induction l with
  | nil => obtain ⟨i, hi, _⟩ := h; cases hi
  | cons a l ih =>
    obtain ⟨x, hx⟩ := hdiag a
    unfold firstNeg
    rw [hx]
    simp only []
    by_cases hlt : x < 0
    · rw [if_pos hlt]; exact ⟨a, x, rfl, hx, hlt⟩
    · rw [if_neg hlt]
      refine ih ?_
      obtain ⟨i, hi, y, hy, hy'⟩ := h
      rcases List.mem_cons.1 hi with rfl | hi
      · rw [hx] at hy; cases hy; omega
      · exact ⟨i, hi, y, hy, hy'⟩

/-- **C35** (what holds).  On a non-empty digraph without self loops of negative cost, `get_negative_cycle` returns None
exactly when no closed walk is negative; a list that it returns is a cycle of the graph; and it fails in no other way
than by raising `Exception` in `floyd_warshall_get_cycle` or by unending recursion there.  Missing from C35: the cycle
need not be negative (`C35_false_cost`) and the exception does occur (`C35_false_exception`). -/
theorem C35_negative_cycle_partial (hg : Built g) (hd : g.directed = true) {w : N → N → Int}
    (hw : ∀ u v, g.checkEdge u v = true → g.getEdgeCost u v = .ok (w u v)) (hne : g.getNodeList ≠ [])
    (hloop : ∀ v, Step g false v v → 0 ≤ w v v) {fuel : Nat} (hf : g.getNodeList.length < fuel) :
    (getNegativeCycle g fuel = .ok none ↔ ¬ ∃ v x, WalkCost (Step g false) w v x v ∧ x < 0) ∧
    (∀ c, getNegativeCycle g fuel = .ok (some c) → IsCycle (Step g false) c) ∧
    (∀ e, getNegativeCycle g fuel = .error e → e = .exception ∨ e = .diverge) := by
  obtain ⟨b, st, h1, h2, h3, h4, h5, h6⟩ := fw_facts hg hd hw
  obtain ⟨b', st', h1', hb'⟩ := C33_floyd_warshall_valid hg hd hw
  obtain ⟨rfl, rfl⟩ : b' = b ∧ st' = st := by rw [h1] at h1'; cases h1'; exact ⟨rfl, rfl⟩
  have hdiag : ∀ v, ∃ x, st'.dist (v, v) = some x := fun v => by obtain ⟨x, hx, _⟩ := h3 v; exact ⟨x, hx⟩
  have hn : ∀ el j k, st'.next (el, j) = some k → k ∈ g.getNodeList ∧
      ((∃ x, st'.dist (el, k) = some x) ∧ (k = el ∨ ∃ k', st'.next (el, k) = some k')) := by
    intro el j k hk
    obtain ⟨y, hy, hr, _⟩ := h6.next _ _ _ hk
    refine ⟨(Search.step_node hg.wf hr).1, ?_⟩
    by_cases hke : k = el
    · subst hke; exact ⟨hdiag k, .inl rfl⟩
    · rcases Via.of_walk (K := fun _ => True) (fun _ _ _ => trivial) hy with ⟨h, _⟩ | hv
      · exact absurd h.symm hke
      · obtain ⟨z, _, hz⟩ := h5 _ _ _ hv
        exact ⟨⟨z, hz⟩, .inr (h6.has hloop _ _ z hz (.inl (Ne.symm hke)))⟩
  obtain ⟨a, l, hl⟩ : ∃ a l, g.getNodeList = a :: l := by
    cases h : g.getNodeList with
    | nil => exact absurd h hne
    | cons a l => exact ⟨a, l, rfl⟩
  have hrun : getNegativeCycle g fuel = (if b' = true then .ok none
      else match getCycle g.getNodeList st' fuel with
        | .error e => .error e
        | .ok c => .ok (some c)) := by
    unfold getNegativeCycle
    rw [h1, hl]
    cases b' <;> rfl
  rw [hrun]
  cases b' with
  | true =>
    rw [if_pos rfl]
    refine ⟨⟨fun _ h => ?_, fun _ => rfl⟩, fun c hc => (by cases hc), fun e he => (by cases he)⟩
    have := hb'.2 h; cases this
  | false =>
    have hneg := hb'.1 rfl
    obtain ⟨i, x, hi, hx, hlt⟩ : ∃ i x, firstNeg st'.dist g.getNodeList = .ok i ∧ st'.dist (i, i) = some x ∧ x < 0 := by
      refine firstNeg_ok hdiag ?_
      by_contra hcon
      have : false = true := h4.2 fun i hi x hx => by
        by_contra hlt
        exact hcon ⟨i, hi, x, hx, by omega⟩
      cases this
    have hgc : getCycle g.getNodeList st' fuel = cycleFrom st' fuel fuel i := by
      unfold getCycle; rw [hi]
    rw [if_neg (by simp), hgc]
    refine ⟨⟨fun h => ?_, fun h => absurd hneg h⟩, fun c hc => ?_, fun e he => ?_⟩
    · cases hr : cycleFrom st' fuel fuel i <;> rw [hr] at h <;> cases h
    · cases hr : cycleFrom st' fuel fuel i with
      | error e => rw [hr] at hc; cases hc
      | ok c' =>
        rw [hr] at hc; cases hc
        exact cycleFrom_ok (fun i j k hk => by obtain ⟨y, _, hr, _⟩ := h6.next _ _ _ hk; exact hr) fuel fuel i c hr
    · cases hr : cycleFrom st' fuel fuel i with
      | error e' =>
        rw [hr] at he; cases he
        exact cycleFrom_err hn hdiag (fun v x hx hlt => h6.has hloop v v x hx (.inr hlt)) hf fuel i x hx hlt e hr
      | ok c' => rw [hr] at he; cases he

/-! ## Witnesses -/

/-- a digraph with the nodes 0, …, n-1 and the given arcs and costs -/
def costGraph (n : Nat) (l : List (Nat × Nat × Int)) : Graph Nat :=
  runOps (Graph.init true) (((List.range n).map fun v => .addNode v []) ++ l.map fun e => .addEdge e.1 e.2.1 [("cost", .int e.2.2)])

theorem costGraph_built (n : Nat) (l : List (Nat × Nat × Int)) : Built (costGraph n l) :=
  ⟨true, _, by intro op _; cases op <;> simp [Op.InScope], rfl⟩

/-- readable form of the distances -/
def distsOf (l : List (Nat × Nat)) (r : Except PyErr (Bool × FState Nat)) : Option (Bool × List (Option Int)) :=
  match r with
  | .ok (b, st) => some (b, l.map st.dist)
  | .error _ => none

/-- the result of `floyd_warshall_get_path` after `floyd_warshall` -/
def fwPathOf (g : Graph Nat) (i j fuel : Nat) : Option (Except PyErr (Option (List Nat))) :=
  match floydWarshall g with
  | .ok (_, st) => some (getPath st fuel i j)
  | .error _ => none

/-- non-vacuity of C32-C34: negative costs, unreachable pairs, and a cheapest path that is not the single arc -/
example : distsOf [(0, 1), (0, 2), (0, 3), (3, 0)] (floydWarshall (costGraph 4 [(0, 2, 5), (0, 1, 4), (1, 2, -3), (2, 3, 2), (3, 1, 2)])) =
    some (true, [some 4, some 1, some 3, none]) ∧
    fwPathOf (costGraph 4 [(0, 2, 5), (0, 1, 4), (1, 2, -3), (2, 3, 2), (3, 1, 2)]) 0 3 10 =
      some (.ok (some [0, 1, 1, 1, 2, 2, 2, 3])) := by decide +kernel

/-- non-vacuity of C33 in the other direction -/
example : (distsOf [(1, 1)] (floydWarshall (costGraph 3 [(0, 1, 4), (1, 2, -3), (2, 1, 2)]))).map Prod.fst = some false := by
  decide +kernel

/-- **C34 is false.**  On the digraph 0→1→2 the path from 0 to 2 comes out as [0, 1, 1, 1, 2], in which 1, 1 is not an
edge. -/
theorem C34_false : ∃ (g : Graph Nat) (st : FState Nat), Built g ∧ g.directed = true ∧ floydWarshall g = .ok (true, st) ∧
    getPath st 10 0 2 = .ok (some [0, 1, 1, 1, 2]) ∧ Reach g false 0 2 ∧
    ¬ IsPath (Step g false) 0 2 [0, 1, 1, 1, 2] := by
  refine ⟨costGraph 3 [(0, 1, 1), (1, 2, 1)], _, costGraph_built _ _, rfl, rfl, ?_, ?_, ?_⟩
  · decide +kernel
  · exact .tail (.single (b := 1) (by unfold Step; decide +kernel)) (by unfold Step; decide +kernel)
  · rintro ⟨_, _, h⟩
    have : Step (costGraph 3 [(0, 1, 1), (1, 2, 1)]) false 1 1 := by
      simp only [List.isChain_cons_cons] at h
      exact h.2.1
    revert this
    unfold Step
    decide +kernel

/-- **C35 is false: the cycle need not be negative.**  Here the only negative cycle is 1→2→1, and the cycle
returned is 0→3→0 of cost 1. -/
theorem C35_false_cost : ∃ (g : Graph Nat) (w : Nat → Nat → Int), Built g ∧ g.directed = true ∧
    (∀ e ∈ g.getEdgeList, g.getEdgeCost e.1 e.2 = .ok (w e.1 e.2)) ∧ (∀ e ∈ g.getEdgeList, e.1 ≠ e.2) ∧
    getNegativeCycle g 10 = .ok (some [0, 3]) ∧ cycleCost w [0, 3] = 1 := by
  refine ⟨costGraph 5 [(0, 3, 1), (0, 4, 1), (1, 2, -1), (2, 0, -1), (2, 1, 0), (3, 0, 0), (4, 2, 0)],
    fun u v => if (u, v) = (0, 3) ∨ (u, v) = (0, 4) then 1 else if (u, v) = (1, 2) ∨ (u, v) = (2, 0) then -1 else 0,
    costGraph_built _ _, ?_⟩
  decide +kernel

/-- **C35 is false: the search for the cycle may raise.**  This digraph has the negative cycle 2→3→2 and no self
loops. -/
theorem C35_false_exception : ∃ (g : Graph Nat), Built g ∧ g.directed = true ∧ (∀ e ∈ g.getEdgeList, e.1 ≠ e.2) ∧
    g.getEdgeCost 2 3 = .ok (-2) ∧ g.getEdgeCost 3 2 = .ok (-2) ∧ getNegativeCycle g 10 = .error .exception := by
  refine ⟨costGraph 6 [(0, 1, 2), (0, 4, 2), (0, 5, 0), (1, 4, 4), (1, 5, 5), (2, 3, -2), (3, 0, 4), (3, 2, -2), (4, 1, -1),
    (4, 5, 4), (5, 0, 1), (5, 2, 5), (5, 4, 3)], costGraph_built _ _, ?_⟩
  decide +kernel

/-- **C35 is false: a negative self loop makes it raise KeyError.** -/
theorem C35_false_self_loop : ∃ (g : Graph Nat), Built g ∧ g.directed = true ∧ g.getEdgeCost 0 0 = .ok (-1) ∧
    getNegativeCycle g 10 = .error .keyError :=
  ⟨costGraph 1 [(0, 0, -1)], costGraph_built _ _, rfl, by decide +kernel⟩

/-- non-vacuity of the partial C35 theorem: a negative cycle is found -/
example : getNegativeCycle (costGraph 4 [(0, 1, 4), (1, 2, -3), (2, 3, 1), (3, 1, 1), (3, 0, 2)]) 10 = .ok (some [1, 2, 3]) ∧
    getNegativeCycle (costGraph 4 [(0, 1, 4), (1, 2, -3), (2, 3, 1), (3, 1, 2), (3, 0, 2)]) 10 = .ok none := by decide +kernel

end GiMPy
