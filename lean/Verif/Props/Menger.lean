import Verif.Spec.Routes
import Verif.Props.Agree
import Verif.Props.Preflow

/-! # C139, C140: maximum flows as families of paths -/

namespace GiMPy
open MaxFlow Search
variable {N : Type} [DecidableEq N] {Q : Type} {g : Graph N} {O : QOps N Q} {items : Q → List N}
variable {cap : N × N → Int} {src sink : N}

/-- arcs out of `v` minus arcs into `v` -/
def bal (l : List (N × N)) (v : N) : Int := (l.countP fun e => e.1 = v) - l.countP fun e => e.2 = v

theorem bal_nil (v : N) : bal [] v = 0 := by simp [bal]

theorem bal_cons (e : N × N) (l : List (N × N)) (v : N) :
    bal (e :: l) v = bal l v + (if e.1 = v then 1 else 0) - if e.2 = v then 1 else 0 := by
  unfold bal
  simp only [List.countP_cons, decide_eq_true_eq]
  split <;> split <;> push_cast <;> ring

theorem bal_append (l l' : List (N × N)) (v : N) : bal (l ++ l') v = bal l v + bal l' v := by
  unfold bal; simp only [List.countP_append]; push_cast; ring

theorem bal_perm {l l' : List (N × N)} (h : l.Perm l') (v : N) : bal l v = bal l' v := by
  unfold bal; rw [h.countP_eq, h.countP_eq]

theorem bal_route {E : List (N × N)} {t : N} (l : List (N × N)) : ∀ s, IsRoute E t s l → ∀ v,
    bal l v = (if s = v then 1 else 0) - if t = v then 1 else 0 := by
  induction l with
  | nil => intro s h v; rw [bal_nil]; rw [IsRoute] at h; rw [h]; ring
  | cons e l ih =>
    intro s h v
    obtain ⟨rfl, _, h⟩ := h
    rw [bal_cons, ih _ h]; ring

/-- the flow that counts how often each arc occurs in a list -/
theorem net_count {E : List (N × N)} (hE : E.Nodup) (v : N) (l : List (N × N)) (hl : ∀ e ∈ l, e ∈ E) :
    net E (fun e => (l.count e : Int)) v = - bal l v := by
  induction l with
  | nil => simp [net, bal]
  | cons a l ih =>
    have h : (fun e => ((a :: l).count e : Int)) = upd (fun e => (l.count e : Int)) a (l.count a + 1) := by
      funext e
      unfold upd
      by_cases h : e = a
      · subst h; simp
      · rw [if_neg h, List.count_cons_of_ne (Ne.symm h)]
    rw [h, net_upd hE _ (hl a (by simp)), ih fun e he => hl e (by simp [he]), bal_cons]
    split <;> split <;> ring

/-- the arcs of an integral flow, repeated -/
theorem flow_list (f : N × N → Int) {E : List (N × N)} (hE : E.Nodup) :
    ∃ F : List (N × N), (∀ e ∈ F, e ∈ E) ∧ ∀ e ∈ E, F.count e = (f e).toNat := by
  induction E with
  | nil => exact ⟨[], by simp, by simp⟩
  | cons a E ih =>
    rw [List.nodup_cons] at hE
    obtain ⟨F, h1, h2⟩ := ih hE.2
    refine ⟨List.replicate (f a).toNat a ++ F, ?_, ?_⟩
    · intro e he
      rcases List.mem_append.1 he with he | he
      · rw [(List.mem_replicate.1 he).2]; simp
      · exact List.mem_cons_of_mem _ (h1 e he)
    · intro e he
      rw [List.count_append]
      rcases List.mem_cons.1 he with rfl | he
      · rw [List.count_replicate_self, List.count_eq_zero_of_not_mem fun h => hE.1 (h1 _ h)]; rfl
      · rw [h2 e he, List.count_replicate, if_neg]
        · omega
        · intro h
          have : a = e := by simpa using h
          subst this; exact hE.1 he

/-- a walk that starts at a node with a surplus of arcs leads to `t` -/
theorem extract {E : List (N × N)} {t s : N} {j : Int} (hj : 0 ≤ j) (n : Nat) : ∀ (F : List (N × N)) (cur : N), F.length = n →
    (∀ e ∈ F, e ∈ E) → (∀ v, v ≠ t → bal F v = (if cur = v then 1 else 0) + if s = v then j else 0) →
    ∃ P F', F.Perm (P ++ F') ∧ IsRoute E t cur P ∧ ∀ v, v ≠ t → bal F' v = if s = v then j else 0 := by
  induction n with
  | zero =>
    intro F cur hF _ hb
    obtain rfl := List.length_eq_zero_iff.1 hF
    by_cases h : cur = t
    · refine ⟨[], [], List.Perm.refl _, h, fun v hv => ?_⟩
      rw [hb v hv, if_neg (by rintro rfl; exact hv h)]; ring
    · have := hb cur h
      rw [bal_nil, if_pos rfl] at this
      split at this <;> omega
  | succ n ih =>
    intro F cur hF hE hb
    by_cases h : cur = t
    · refine ⟨[], F, List.Perm.refl _, h, fun v hv => ?_⟩
      rw [hb v hv, if_neg (by rintro rfl; exact hv h)]; ring
    · have h1 := hb cur h
      rw [if_pos rfl] at h1
      have h2 : 0 < F.countP fun e => e.1 = cur := by
        unfold bal at h1
        split at h1 <;> omega
      obtain ⟨e, he, h3⟩ := List.countP_pos_iff.1 h2
      replace h3 : e.1 = cur := by simpa using h3
      have hp := List.perm_cons_erase he
      obtain ⟨P, F', a1, a2, a3⟩ := ih (F.erase e) e.2 (by rw [List.length_erase_of_mem he]; omega)
        (fun x hx => hE x (List.mem_of_mem_erase hx)) (by
          intro v hv
          have h4 := bal_perm hp v
          rw [hb v hv, bal_cons, h3] at h4
          omega)
      exact ⟨e :: P, F', hp.trans (a1.cons e), ⟨h3, hE e he, a2⟩, a3⟩

/-- a balanced list of arcs contains as many walks as its value says -/
theorem decompose {E : List (N × N)} {t s : N} (k : Nat) : ∀ (F : List (N × N)), (∀ e ∈ F, e ∈ E) →
    (∀ v, v ≠ t → bal F v = if s = v then (k : Int) else 0) →
    ∃ (Ps : List (List (N × N))) (R : List (N × N)), Ps.length = k ∧ (∀ P ∈ Ps, IsRoute E t s P) ∧ F.Perm (Ps.flatten ++ R) := by
  induction k with
  | zero => intro F _ _; exact ⟨[], F, rfl, by simp, by simp⟩
  | succ k ih =>
    intro F hE hb
    obtain ⟨P, F', h1, h2, h3⟩ := extract (E := E) (t := t) (s := s) (j := k) (by omega) F.length F s rfl hE (by
      intro v hv
      rw [hb v hv]
      split <;> push_cast <;> ring)
    obtain ⟨Ps, R, a1, a2, a3⟩ := ih F' (fun e he => hE e (h1.mem_iff.2 (List.mem_append_right _ he))) h3
    refine ⟨P :: Ps, R, by simp [a1], ?_, ?_⟩
    · intro P' hP'
      rcases List.mem_cons.1 hP' with rfl | hP'
      · exact h2
      · exact a2 P' hP'
    · rw [List.flatten_cons, List.append_assoc]
      exact h1.trans (a3.append_left P)

/-- the rest of a simple route -/
theorem route_from {E : List (N × N)} {t x : N} (l : List (N × N)) : ∀ s, IsRoute E t s l → (routeNodes s l).Nodup →
    x ∈ routeNodes s l → ∃ l', l'.Sublist l ∧ IsRoute E t x l' ∧ (routeNodes x l').Nodup := by
  induction l with
  | nil =>
    intro s h hn hx
    have : x = s := by simpa [routeNodes] using hx
    subst this
    exact ⟨[], .refl _, h, hn⟩
  | cons e l ih =>
    intro s h hn hx
    by_cases hxs : x = s
    · subst hxs; exact ⟨e :: l, .refl _, h, hn⟩
    · have hx' : x ∈ routeNodes e.2 l := by
        unfold routeNodes at hx ⊢
        rw [List.map_cons] at hx
        exact (List.mem_cons.1 hx).resolve_left hxs
      obtain ⟨l', a1, a2, a3⟩ := ih e.2 h.2.2 (by
        unfold routeNodes at hn ⊢
        rw [List.map_cons, List.nodup_cons] at hn
        exact hn.2) hx'
      exact ⟨l', a1.cons e, a2, a3⟩

/-- every route contains a route without repeated nodes -/
theorem route_simple {E : List (N × N)} {t : N} (l : List (N × N)) : ∀ s, IsRoute E t s l →
    ∃ l', l'.Sublist l ∧ IsRoute E t s l' ∧ (routeNodes s l').Nodup := by
  induction l with
  | nil => intro s h; exact ⟨[], .refl _, h, by simp [routeNodes]⟩
  | cons e l ih =>
    intro s h
    obtain ⟨l', a1, a2, a3⟩ := ih e.2 h.2.2
    by_cases hs : s ∈ routeNodes e.2 l'
    · obtain ⟨l'', b1, b2, b3⟩ := route_from l' e.2 a2 a3 hs
      exact ⟨l'', (b1.trans a1).cons e, b2, b3⟩
    · refine ⟨e :: l', a1.cons_cons e, ⟨h.1, h.2.1, a2⟩, ?_⟩
      show (s :: routeNodes e.2 l').Nodup
      exact List.nodup_cons.2 ⟨hs, a3⟩

theorem routes_simple {E : List (N × N)} {s t : N} (Ps : List (List (N × N))) : (∀ P ∈ Ps, IsRoute E t s P) →
    ∃ Ps' : List (List (N × N)), Ps'.length = Ps.length ∧ (∀ P ∈ Ps', IsRoute E t s P ∧ (routeNodes s P).Nodup) ∧
      Ps'.flatten.Sublist Ps.flatten := by
  induction Ps with
  | nil => intro _; exact ⟨[], rfl, by simp, .refl _⟩
  | cons P Ps ih =>
    intro h
    obtain ⟨P', a1, a2, a3⟩ := route_simple P s (h P (by simp))
    obtain ⟨Ps', b1, b2, b3⟩ := ih fun P hP => h P (by simp [hP])
    refine ⟨P' :: Ps', by simp [b1], ?_, ?_⟩
    · intro P hP
      rcases List.mem_cons.1 hP with rfl | hP
      · exact ⟨a2, a3⟩
      · exact b2 P hP
    · rw [List.flatten_cons, List.flatten_cons]; exact a1.append b3

/-- what leaves the source arrives at the sink -/
theorem net_src {E : List (N × N)} {V : List N} (hV : V.Nodup) (hEV : ∀ e ∈ E, e.1 ∈ V ∧ e.2 ∈ V) {s t : N} (ht : t ∈ V)
    (hst : s ≠ t) {f : N × N → Int} (hf : ∀ v, v ≠ s → v ≠ t → net E f v = 0) : net E f s = - net E f t := by
  rw [net_eq_cut hV hEV ht hf (fun v => v = s) rfl (Ne.symm hst), net, ← sum_map_sub']
  clear hEV hf
  induction E with
  | nil => simp
  | cons e E ih =>
    simp only [List.map_cons, List.sum_cons, ih]
    split <;> split <;> ring

/-- a flow consists of simple paths -/
theorem flow_paths {E : List (N × N)} {V : List N} (hV : V.Nodup) (hE : E.Nodup) (hEV : ∀ e ∈ E, e.1 ∈ V ∧ e.2 ∈ V) {s t : N}
    (ht : t ∈ V) (hst : s ≠ t) {f : N × N → Int} (hf : IsFlow E cap s t f) (h0 : 0 ≤ net E f t) :
    ∃ Ps, IsPacking E f s t Ps ∧ (∀ P ∈ Ps, (routeNodes s P).Nodup) ∧ (Ps.length : Int) = net E f t := by
  obtain ⟨F, h1, h2⟩ := flow_list f hE
  have h3 : ∀ v, bal F v = - net E f v := by
    intro v
    rw [← MinCost.net_congr (f := fun e => (F.count e : Int)) (fun e he => by
      show (F.count e : Int) = f e
      rw [h2 e he]; have := hf.within e he; omega), net_count hE v F h1]; ring
  obtain ⟨Ps, R, a1, a2, a3⟩ := decompose (E := E) (t := t) (s := s) (net E f t).toNat F h1 (by
    intro v hv
    rw [h3]
    by_cases hs : s = v
    · subst hs; rw [if_pos rfl, net_src hV hEV ht hst hf.conserved]; omega
    · rw [if_neg hs, hf.conserved v (Ne.symm hs) hv]; rfl)
  obtain ⟨Ps', b1, b2, b3⟩ := routes_simple Ps a2
  refine ⟨Ps', ⟨fun P hP => (b2 P hP).1, fun e he => ?_⟩, fun P hP => (b2 P hP).2, by omega⟩
  have c1 := b3.count_le e
  have c2 := a3.count_eq e
  rw [List.count_append, h2 e he] at c2
  have := hf.within e he
  omega

omit [DecidableEq N] in
theorem route_sub {E : List (N × N)} {t : N} (l : List (N × N)) : ∀ s, IsRoute E t s l → ∀ e ∈ l, e ∈ E := by
  induction l with
  | nil => intro s _ e he; cases he
  | cons a l ih =>
    intro s h e he
    rcases List.mem_cons.1 he with rfl | he
    · exact h.2.1
    · exact ih _ h.2.2 e he

theorem bal_flatten {E : List (N × N)} {s t : N} (Ps : List (List (N × N))) (h : ∀ P ∈ Ps, IsRoute E t s P) (v : N) :
    bal Ps.flatten v = Ps.length * ((if s = v then 1 else 0) - if t = v then 1 else 0) := by
  induction Ps with
  | nil => simp [bal]
  | cons P Ps ih =>
    rw [List.flatten_cons, bal_append, bal_route P s (h P (by simp)), ih fun P hP => h P (by simp [hP]), List.length_cons]
    push_cast; ring

/-- a family of routes is a flow -/
theorem packing_flow {E : List (N × N)} (hE : E.Nodup) {s t : N} (hst : s ≠ t) {Ps : List (List (N × N))}
    (h : IsPacking E cap s t Ps) :
    IsFlow E cap s t (fun e => (Ps.flatten.count e : Int)) ∧ net E (fun e => (Ps.flatten.count e : Int)) t = Ps.length := by
  have hsub : ∀ e ∈ Ps.flatten, e ∈ E := by
    intro e he
    obtain ⟨P, hP, he⟩ := List.mem_flatten.1 he
    exact route_sub P s (h.route P hP) e he
  have hn : ∀ v, net E (fun e => (Ps.flatten.count e : Int)) v =
      - (Ps.length * ((if s = v then 1 else 0) - if t = v then 1 else 0)) := by
    intro v; rw [net_count hE v _ hsub, bal_flatten Ps h.route]
  refine ⟨⟨fun e he => ⟨by omega, h.load e he⟩, fun v hv1 hv2 => ?_⟩, ?_⟩
  · rw [hn, if_neg (Ne.symm hv1), if_neg (Ne.symm hv2)]; ring
  · rw [hn, if_neg hst, if_pos rfl]; ring

/-- a maximum flow consists of paths, and no family of routes is larger -/
theorem max_paths (hg : Built g) (hpos : ∀ e ∈ g.getEdgeList, 0 ≤ cap e) (ht : sink ∈ g.getNodeList) (hst : src ≠ sink)
    {f : N × N → Int} (h2 : IsMaxFlow g.getEdgeList cap src sink f) :
    (∃ Ps, IsPacking g.getEdgeList f src sink Ps ∧ (∀ P ∈ Ps, (routeNodes src P).Nodup) ∧
      (Ps.length : Int) = net g.getEdgeList f sink) ∧
    ∀ Ps, IsPacking g.getEdgeList cap src sink Ps → (Ps.length : Int) ≤ net g.getEdgeList f sink := by
  have h0 : 0 ≤ net g.getEdgeList f sink := by
    have := h2.most _ (zero_isFlow hpos src sink)
    rwa [show net g.getEdgeList (fun _ => 0) sink = 0 by simp [net]] at this
  refine ⟨flow_paths hg.wf.nodup hg.wf.edup (fun e he => hg.wf.endp e.1 e.2 he) ht hst h2.flow h0, ?_⟩
  intro Ps hPs
  obtain ⟨a, b⟩ := packing_flow hg.wf.edup hst hPs
  rw [← b]; exact h2.most _ a

/-- **C139.** The flow that `max_flow` leaves consists of as many paths from the source to the sink as its value says: they
have no repeated nodes, and no arc lies on more of them than its flow.  No family of routes from the source to the sink that
respects the capacities is larger. -/
theorem C139_most_paths (hg : Built g) (hd : g.directed = true) (hb : LawfulBag O items) {newQ : Q}
    (hq : items newQ = []) (hc : ∀ u v, (u, v) ∈ g.getEdgeList → g.capOf u v = .ok (cap (u, v)))
    (hpos : ∀ e ∈ g.getEdgeList, 0 ≤ cap e) (hs : src ∈ g.getNodeList) (ht : sink ∈ g.getNodeList) (hst : src ≠ sink)
    (hanti : ∀ u v, u ≠ v → (u, v) ∈ g.getEdgeList → (v, u) ∉ g.getEdgeList) {fuel : Nat}
    (hf : flowFuel g cap ≤ fuel) :
    ∃ f, maxFlow g O newQ src sink fuel = .ok f ∧
      (∃ Ps, IsPacking g.getEdgeList f src sink Ps ∧ (∀ P ∈ Ps, (routeNodes src P).Nodup) ∧
        (Ps.length : Int) = net g.getEdgeList f sink) ∧
      ∀ Ps, IsPacking g.getEdgeList cap src sink Ps → (Ps.length : Int) ≤ net g.getEdgeList f sink := by
  obtain ⟨f, h1, h2⟩ := C27_max_flow_maximum hg hd hb hq hc hpos hs ht hst hanti hf
  exact ⟨f, h1, max_paths hg hpos ht hst h2⟩

/-- **C139, preflow push.** Whenever `max_flow_preflowpush` returns, its flow too consists of as many paths as its value says and
no family of routes that respects the capacities is larger; the excess of the sink is the number of paths. -/
theorem C139_preflow_paths {Q' QS : Type} {O' : QOps N Q'} {items' : Q' → List N} {has : Q' → N → Bool} {OS : QOps N QS}
    {itemsS : QS → List N} (hg : Built g) (hd : g.directed = true)
    (hOS : LawfulFIFO OS itemsS) (hOS' : OS.isPQ = false) (col : SState N QS) (hcol : itemsS col.q = [])
    (hs : LawfulSet O' items' has) {newQ : Q'} (hq : items' newQ = []) (algo : Preflow.PAlgo)
    (hc : ∀ u v, (u, v) ∈ g.getEdgeList → g.capOf u v = .ok (cap (u, v))) (hpos : ∀ e ∈ g.getEdgeList, 0 ≤ cap e)
    (hsn : src ∈ g.getNodeList) (htn : sink ∈ g.getNodeList) (hst : src ≠ sink)
    (hanti : ∀ u v, (u, v) ∈ g.getEdgeList → (v, u) ∉ g.getEdgeList) {fuel : Nat} (hf : fuelBound g true ≤ fuel) :
    Preflow.preflowPush g OS col O' has newQ algo src sink fuel = .error .diverge ∨
    ∃ st, Preflow.preflowPush g OS col O' has newQ algo src sink fuel = .ok st ∧
      (∃ Ps, IsPacking g.getEdgeList st.flow src sink Ps ∧ (∀ P ∈ Ps, (routeNodes src P).Nodup) ∧
        (Ps.length : Int) = st.excess sink) ∧
      ∀ Ps, IsPacking g.getEdgeList cap src sink Ps → (Ps.length : Int) ≤ st.excess sink := by
  rcases C28_preflow_max hg hd hOS hOS' col hcol hs hq algo hc hpos hsn htn hst hanti hf with h | ⟨st, h1, h2, h3⟩
  · exact .inl h
  · refine .inr ⟨st, h1, ?_⟩
    rw [h3 sink]
    exact max_paths hg hpos htn hst h2

/-! ## Capacity 1: Menger's theorem -/

theorem route_avoid {E C : List (N × N)} {t : N} (l : List (N × N)) : ∀ s, IsRoute E t s l → (∀ e ∈ l, e ∉ C) →
    IsRoute (E.filter fun e => e ∉ C) t s l := by
  induction l with
  | nil => intro s h _; exact h
  | cons e l ih =>
    intro s h hC
    exact ⟨h.1, List.mem_filter.2 ⟨h.2.1, by simpa using hC e (by simp)⟩, ih _ h.2.2 fun x hx => hC x (by simp [hx])⟩

/-- lists without common elements that all meet `C` are not more than the elements of `C` -/
theorem disjoint_le {A : Type} [DecidableEq A] (Ps : List (List A)) : ∀ C : List A, Ps.flatten.Nodup →
    (∀ P ∈ Ps, ∃ e ∈ P, e ∈ C) → Ps.length ≤ C.length := by
  induction Ps with
  | nil => intro C _ _; simp
  | cons P Ps ih =>
    intro C hn h
    obtain ⟨e, he, heC⟩ := h P (by simp)
    rw [List.flatten_cons, List.nodup_append] at hn
    have := ih (C.erase e) hn.2.1 (by
      intro P' hP'
      obtain ⟨x, hx, hxC⟩ := h P' (by simp [hP'])
      have hne : x ≠ e := fun hxe => hn.2.2 e he x (List.mem_flatten.2 ⟨P', hP', hx⟩) hxe.symm
      exact ⟨x, hx, (List.mem_erase_of_ne hne).2 hxC⟩)
    rw [List.length_erase_of_mem heC] at this
    have := List.length_pos_of_mem heC
    simp only [List.length_cons]; omega

theorem cut_separates {E : List (N × N)} {t : N} (S : N → Bool) (ht : S t = false) (l : List (N × N)) : ∀ s, S s = true →
    IsRoute (E.filter fun e => e ∉ E.filter fun e => S e.1 && !S e.2) t s l → False := by
  induction l with
  | nil => intro s hs h; rw [IsRoute] at h; rw [h, ht] at hs; cases hs
  | cons e l ih =>
    intro s hs h
    obtain ⟨rfl, h1, h2⟩ := h
    refine ih e.2 ?_ h2
    obtain ⟨h3, h4⟩ := List.mem_filter.1 h1
    simp only [List.mem_filter, hs, Bool.true_and, not_and, h3, true_implies, decide_eq_true_eq] at h4
    simpa using h4

/-- **C140.** If all capacities are 1, `max_flow` finds a number `k` such that there are `k` paths from the source to the sink
without a common arc but no larger family of routes without a common arc, and `k` arcs whose removal leaves no route from the
source to the sink but no fewer such arcs. -/
theorem C140_disjoint_paths (hg : Built g) (hd : g.directed = true) (hb : LawfulBag O items) {newQ : Q}
    (hq : items newQ = []) (hc : ∀ u v, (u, v) ∈ g.getEdgeList → g.capOf u v = .ok 1)
    (hs : src ∈ g.getNodeList) (ht : sink ∈ g.getNodeList) (hst : src ≠ sink)
    (hanti : ∀ u v, u ≠ v → (u, v) ∈ g.getEdgeList → (v, u) ∉ g.getEdgeList) {fuel : Nat}
    (hf : g.getNodeList.length + g.getEdgeList.length + 1 ≤ fuel) :
    ∃ f, ∃ k : Nat, maxFlow g O newQ src sink fuel = .ok f ∧ net g.getEdgeList f sink = k ∧
      (∃ Ps, ArcDisjoint g.getEdgeList src sink Ps ∧ (∀ P ∈ Ps, (routeNodes src P).Nodup ∧ ∀ e ∈ P, f e = 1) ∧ Ps.length = k) ∧
      (∀ Ps, ArcDisjoint g.getEdgeList src sink Ps → Ps.length ≤ k) ∧
      (∃ C, C.Sublist g.getEdgeList ∧ Separates g.getEdgeList src sink C ∧ C.length = k) ∧
      ∀ C, Separates g.getEdgeList src sink C → k ≤ C.length := by
  classical
  have hcap : (g.getEdgeList.map fun _ => (1 : Int)).sum = g.getEdgeList.length := by simp
  have hfuel : flowFuel g (fun _ => (1 : Int)) ≤ fuel := by
    unfold flowFuel; rw [hcap]; omega
  obtain ⟨f, h1, ⟨Ps, h2, h3, h4⟩, h5⟩ := C139_most_paths (cap := fun _ => 1) hg hd hb hq hc (fun _ _ => by omega) hs ht hst
    hanti hfuel
  obtain ⟨f', a1, a2, S, hS1, hS2, hS3⟩ := loop_ok (cap := fun _ => 1) hg.wf hd hb hc hq hs hst (inner := fuel) (by omega) fuel _
    (zero_isFlow (cap := fun _ => 1) (fun _ _ => by omega) src sink) (by
      have : net g.getEdgeList (fun _ => 0) sink = 0 := by simp [net]
      rw [this, hcap]; omega)
  have a3 : maxFlow g O newQ src sink fuel = .ok f' := a1
  rw [h1] at a3
  cases a3
  have hsub : ∀ e ∈ Ps.flatten, e ∈ g.getEdgeList := by
    intro e he
    obtain ⟨P, hP, he⟩ := List.mem_flatten.1 he
    exact route_sub P src (h2.route P hP) e he
  have hnd : Ps.flatten.Nodup := by
    rw [List.nodup_iff_count_le_one]
    intro e
    by_cases he : e ∈ Ps.flatten
    · have := h2.load e (hsub e he)
      have := (a2.within e (hsub e he)).2
      omega
    · rw [List.count_eq_zero_of_not_mem he]; omega
  have hval : net g.getEdgeList f sink = cutCap g.getEdgeList (fun _ => 1) fun v => decide (S v) := by
    refine flow_eq_cut hg.wf.nodup (fun e he => hg.wf.endp e.1 e.2 he) ht a2 (by simpa using hS1) (by simpa using hS2) ?_ ?_
    · rintro ⟨u, v⟩ he hu hv
      replace he : (u, v) ∈ g.getEdgeList := he
      simp only [decide_eq_true_eq, decide_eq_false_iff_not] at hu hv
      have := mt (hS3 u hu v) hv
      unfold Use pot at this
      rw [if_pos he, not_and] at this
      have := this (Or.inl he)
      have hw := a2.within _ he
      beta_reduce at this hw
      omega
    · rintro ⟨u, v⟩ he hu hv
      replace he : (u, v) ∈ g.getEdgeList := he
      simp only [decide_eq_true_eq, decide_eq_false_iff_not] at hu hv
      have huv : u ≠ v := by rintro rfl; exact hu hv
      have := mt (hS3 v hv u) hu
      unfold Use pot at this
      rw [if_neg (hanti u v huv he), not_and] at this
      have := this (Or.inr he)
      have hw := a2.within _ he
      beta_reduce at this hw
      omega
  refine ⟨f, Ps.length, h1, h4.symm, ⟨Ps, ⟨h2.route, hnd⟩, fun P hP => ⟨h3 P hP, fun e he => ?_⟩, rfl⟩, ?_, ?_, ?_⟩
  · have he' : e ∈ Ps.flatten := List.mem_flatten.2 ⟨P, hP, he⟩
    have c1 := h2.load e (hsub e he')
    have c2 := a2.within e (hsub e he')
    have c3 := List.count_pos_iff.2 he'
    omega
  · intro Ps' h'
    have := h5 Ps' ⟨h'.route, fun e _ => by have := List.nodup_iff_count_le_one.1 h'.once e; omega⟩
    omega
  · refine ⟨g.getEdgeList.filter fun e => decide (S e.1) && !decide (S e.2), List.filter_sublist, ?_, ?_⟩
    · exact fun l hl => cut_separates (fun v => decide (S v)) (by simpa using hS2) l src (by simpa using hS1) hl
    · have : cutCap g.getEdgeList (fun _ => 1) (fun v => decide (S v)) =
          ((g.getEdgeList.filter fun e => decide (S e.1) && !decide (S e.2)).length : Int) := by simp [cutCap]
      omega
  · intro C hC
    refine disjoint_le Ps C hnd fun P hP => ?_
    by_contra hno
    push Not at hno
    exact hC P (route_avoid P src (h2.route P hP) hno)

/-- **C140.** The same for `max_flow_preflowpush` whenever it returns: the excess that it leaves at the sink is the largest number of
arc-disjoint routes and the smallest number of separating arcs, and its flow consists of such paths. -/
theorem C140_preflow_disjoint {Q' QS : Type} {O' : QOps N Q'} {items' : Q' → List N} {has : Q' → N → Bool} {OS : QOps N QS}
    {itemsS : QS → List N} (hg : Built g) (hd : g.directed = true)
    (hOS : LawfulFIFO OS itemsS) (hOS' : OS.isPQ = false) (col : SState N QS) (hcol : itemsS col.q = [])
    (hs : LawfulSet O' items' has) {newQ : Q'} (hq : items' newQ = []) (algo : Preflow.PAlgo)
    (hc : ∀ u v, (u, v) ∈ g.getEdgeList → g.capOf u v = .ok 1)
    (hsn : src ∈ g.getNodeList) (htn : sink ∈ g.getNodeList) (hst : src ≠ sink)
    (hanti : ∀ u v, (u, v) ∈ g.getEdgeList → (v, u) ∉ g.getEdgeList) {fuel : Nat} (hf : fuelBound g true ≤ fuel) :
    Preflow.preflowPush g OS col O' has newQ algo src sink fuel = .error .diverge ∨
    ∃ st, ∃ k : Nat, Preflow.preflowPush g OS col O' has newQ algo src sink fuel = .ok st ∧ st.excess sink = k ∧
      (∃ Ps, ArcDisjoint g.getEdgeList src sink Ps ∧ (∀ P ∈ Ps, (routeNodes src P).Nodup ∧ ∀ e ∈ P, st.flow e = 1) ∧ Ps.length = k) ∧
      (∀ Ps, ArcDisjoint g.getEdgeList src sink Ps → Ps.length ≤ k) ∧
      (∃ C, C.Sublist g.getEdgeList ∧ Separates g.getEdgeList src sink C ∧ C.length = k) ∧
      ∀ C, Separates g.getEdgeList src sink C → k ≤ C.length := by
  rcases C28_preflow_max (cap := fun _ => 1) hg hd hOS hOS' col hcol hs hq algo hc (fun _ _ => by omega) hsn htn hst hanti hf with
    h | ⟨st, h1, h2, h3⟩
  · exact .inl h
  obtain ⟨⟨Ps, p1, p2, p3⟩, p4⟩ := max_paths (cap := fun _ => 1) hg (fun _ _ => by omega) htn hst h2
  obtain ⟨f, k, -, -, ⟨Ps', a1, -, a3⟩, b, c, d⟩ := C140_disjoint_paths (O := stackOps) (newQ := []) hg hd stack_lawful rfl hc hsn htn hst
    (fun u v _ => hanti u v) le_rfl
  have hsub : ∀ e ∈ Ps.flatten, e ∈ g.getEdgeList := by
    intro e he
    obtain ⟨P, hP, he⟩ := List.mem_flatten.1 he
    exact route_sub P src (p1.route P hP) e he
  have hnd : Ps.flatten.Nodup := by
    rw [List.nodup_iff_count_le_one]
    intro e
    by_cases he : e ∈ Ps.flatten
    · have := p1.load e (hsub e he)
      have := (h2.flow.within e (hsub e he)).2
      omega
    · rw [List.count_eq_zero_of_not_mem he]; omega
  have hA : ArcDisjoint g.getEdgeList src sink Ps := ⟨p1.route, hnd⟩
  have e1 := b Ps hA
  have e2 := p4 Ps' ⟨a1.route, fun e _ => by have := List.nodup_iff_count_le_one.1 a1.once e; omega⟩
  have hk : Ps.length = k := by omega
  refine .inr ⟨st, k, h1, by rw [h3, ← p3, hk], ⟨Ps, hA, fun P hP => ⟨p2 P hP, fun e he => ?_⟩, hk⟩, b, c, d⟩
  have he' : e ∈ Ps.flatten := List.mem_flatten.2 ⟨P, hP, he⟩
  have c1 := p1.load e (hsub e he')
  have c2 := h2.flow.within e (hsub e he')
  have c3 := List.count_pos_iff.2 he'
  omega

/-- a network with capacities 1 and two paths without a common arc, reached only by undoing a first path -/
def exMenger : Graph Nat := runOps (Graph.init true)
  ([(0, 1), (1, 2), (0, 2), (1, 3), (2, 3), (3, 4), (4, 0)].map fun e => Op.addEdge e.1 e.2 [("capacity", .int 1)])

/-- non-vacuity of C139 and C140: two paths from 0 to 3, one from 0 to 4 -/
example : exMenger.directed = true ∧ (∀ e ∈ exMenger.getEdgeList, exMenger.capOf e.1 e.2 = .ok 1) ∧
    (∀ e ∈ exMenger.getEdgeList, e.1 ≠ e.2 → (e.2, e.1) ∉ exMenger.getEdgeList) ∧
    0 ∈ exMenger.getNodeList ∧ 3 ∈ exMenger.getNodeList ∧
    flowsOf exMenger (maxFlow exMenger stackOps [] 0 3 20) = some [1, 0, 1, 1, 1, 0, 0] ∧
    flowsOf exMenger (maxFlow exMenger stackOps [] 0 4 20) = some [0, 0, 1, 0, 1, 1, 0] := by
  decide +kernel

/-- non-vacuity of C139 and C140 for preflow push: the same two paths (`exMenger` has no antiparallel arcs) -/
example : pushOf exMenger (Preflow.preflowPush exMenger queueOps (exCol []) queueOps (fun q x => decide (x ∈ q)) [] .fifo 0 3 60) =
    some ([1, 0, 1, 1, 1, 0, 0], [-2, 0, 0, 2, 0]) := by decide +kernel

example : ArcDisjoint exMenger.getEdgeList 0 3 [[(0, 1), (1, 3)], [(0, 2), (2, 3)]] := by
  have hE : exMenger.getEdgeList = [(0, 1), (1, 2), (0, 2), (1, 3), (2, 3), (3, 4), (4, 0)] := by decide +kernel
  rw [hE]
  exact ⟨by simp [IsRoute], by decide⟩

end GiMPy
