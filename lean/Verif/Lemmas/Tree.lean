import Verif.Model.Tree
import Verif.Lemmas.MinCost
import Verif.Spec.Walk

namespace GiMPy
variable {N : Type} [DecidableEq N]
set_option linter.unusedSectionVars false

theorem kw_append (l l' : List (String × Val N)) (s : String) :
    AGraph.kw (l ++ l') s = (AGraph.kw l' s).or (AGraph.kw l s) := by
  unfold AGraph.kw
  rw [List.reverse_append, List.find?_append]
  cases List.find? (fun p => decide (p.1 = s)) l'.reverse <;> simp

theorem kw_nil (s : String) : AGraph.kw (N := N) [] s = none := rfl

namespace Tree
open MinCost

theorem lift_run (m : GM N Unit) (t : Tree N) : (lift m).run t =
    match m.run t.g with
    | .ok _ g => .ok () { t with g := g }
    | .error e g => .error e { t with g := g } := rfl

theorem lift_ok {t : Tree N} {a : AGraph N} (h : Rep t.g a) (hd : a.directed = true) (op : Op N)
    (hn : (a.step op).1 = none) : ∃ g', (lift op.call).run t = .ok () { t with g := g' } ∧ Rep g' (a.step op).2 := by
  obtain ⟨h1, h2⟩ := rep_step h op (by rw [hd]; cases op <;> simp [Op.InScope])
  rw [lift_run]
  cases hr : op.call.run t.g with
  | ok x s => rw [hr] at h2; exact ⟨s, rfl, h2⟩
  | error e s => rw [hr, hn] at h1; cases h1

theorem lift_addNode_err {t : Tree N} {a : AGraph N} (h : Rep t.g a) {n : N} (hn : n ∈ a.V) (attr : List (String × Val N)) :
    (lift (Graph.addNode n attr)).run t = .error .multipleNode t := by
  rw [lift_run]
  have : t.g.neighbors.contains n = true := by rw [Dict.contains_iff, h.V]; exact hn
  rw [Graph.addNode_run, this]
  rfl

theorem tm_bind {α β : Type} (x : TM N α) (f : α → TM N β) (t : Tree N) :
    (x >>= f).run t = (match x.run t with | .ok a t' => (f a).run t' | .error e t' => .error e t') := by
  show EStateM.bind x f t = _
  unfold EStateM.bind EStateM.run
  cases x t <;> rfl

/-- the graph after a successful `add_root` -/
def rootG (a : AGraph N) (r : N) (attr : List (String × Val N)) : AGraph N :=
  { a with V := a.V ++ [r], na := AGraph.upd a.na r (AGraph.kw (attr ++ [("level", .int 0)])) }

theorem addRoot_ok {t : Tree N} {a : AGraph N} (h : Rep t.g a) (hd : a.directed = true) {r : N} (hr : r ∉ a.V)
    (attr : List (String × Val N)) :
    ∃ g', (addRoot r attr).run t = .ok () ⟨g', some r⟩ ∧ Rep g' (rootG a r attr) := by
  have hst : a.step (.addNode r (attr ++ [("level", .int 0)])) = (none, rootG a r attr) := by
    simp only [AGraph.step, if_neg hr]; rfl
  obtain ⟨g', h1, h2⟩ := lift_ok h hd _ (by rw [hst])
  rw [hst] at h2
  refine ⟨g', ?_, h2⟩
  unfold addRoot
  rw [tm_bind]
  have h1' : (lift (Graph.addNode r (attr ++ [("level", .int 0)]))).run t = .ok () { t with g := g' } := h1
  rw [h1']
  rfl

/-- the graph after a successful `add_child` -/
def childG (a : AGraph N) (n p : N) (k : Int) (attr : List (String × Val N)) : AGraph N :=
  { a with V := a.V ++ [n], E := a.E ++ [(p, n)],
           na := AGraph.upd a.na n (AGraph.kw (attr ++ [("level", .int (k + 1)), ("parent", .name p)])),
           ea := AGraph.upd a.ea (p, n) (AGraph.kw []) }

theorem addChild_run (n p : N) (attr : List (String × Val N)) (t : Tree N) : (addChild n p attr).run t =
    match t.g.getNodeAttr p "level" with
    | .error e => .error e t
    | .ok (.int k) => (lift (Graph.addNode n (attr ++ [("level", .int (k + 1)), ("parent", .name p)])) >>= fun _ =>
        lift (Graph.addEdge p n [])).run t
    | .ok _ => .error .typeError t := by
  unfold addChild
  rw [tm_bind]
  show (match t.g.getNodeAttr p "level" with
    | .error e => throw e
    | .ok (.int k) => _
    | .ok _ => throw .typeError : TM N Unit).run t = _
  cases t.g.getNodeAttr p "level" with
  | error e => rfl
  | ok x => cases x <;> rfl

theorem addChild_noparent {t : Tree N} {a : AGraph N} (h : Rep t.g a) {n p : N} (hp : p ∉ a.V)
    (attr : List (String × Val N)) : (addChild n p attr).run t = .error .attributeError t := by
  rw [addChild_run, getNodeAttr_rep h, AGraph.getNodeAttr, if_neg hp]

theorem addChild_dup {t : Tree N} {a : AGraph N} (h : Rep t.g a) {n p : N} (hp : p ∈ a.V) {k : Int}
    (hk : a.na p "level" = some (.int k)) (hn : n ∈ a.V)
    (attr : List (String × Val N)) : (addChild n p attr).run t = .error .multipleNode t := by
  rw [addChild_run, getNodeAttr_rep h, AGraph.getNodeAttr, if_pos hp, hk]
  show (lift (Graph.addNode n _) >>= fun _ => lift (Graph.addEdge p n [])).run t = _
  rw [tm_bind, lift_addNode_err h hn]

theorem addChild_ok {t : Tree N} {a : AGraph N} (h : Rep t.g a) (hd : a.directed = true) {n p : N} (hp : p ∈ a.V) {k : Int}
    (hk : a.na p "level" = some (.int k)) (hn : n ∉ a.V) (attr : List (String × Val N)) :
    ∃ g', (addChild n p attr).run t = .ok () { t with g := g' } ∧ Rep g' (childG a n p k attr) := by
  rw [addChild_run, getNodeAttr_rep h, AGraph.getNodeAttr, if_pos hp, hk]
  obtain ⟨a1, ha1, hst⟩ : ∃ a1, a1 = ({ a with V := a.V ++ [n], na := AGraph.upd a.na n (AGraph.kw (attr ++ [("level", .int (k + 1)), ("parent", .name p)])) } : AGraph N) ∧
      a.step (.addNode n (attr ++ [("level", .int (k + 1)), ("parent", .name p)])) = (none, a1) :=
    ⟨_, rfl, by simp only [AGraph.step, if_neg hn]⟩
  obtain ⟨g1, h1, h2⟩ := lift_ok h hd _ (by rw [hst])
  rw [hst] at h2
  have hd1 : a1.directed = true := by rw [ha1]; exact hd
  have hE : (p, n) ∉ a1.E := by
    rw [ha1]
    intro hm
    have := h.wf.endp p n (by show (p, n) ∈ _; rw [h.E]; exact hm)
    rw [h.V] at this
    exact hn this.2
  have hV : p ∈ a1.V ∧ n ∈ a1.V := by rw [ha1]; simp [hp]
  have hst2 : a1.step (.addEdge p n []) = (none, childG a n p k attr) := by
    have hk : (a1.key? p n).isSome = false := by simp [AGraph.key?, hE, hd1]
    have he : (a1.ensure p).ensure n = a1 := by
      have : a1.ensure p = a1 := by unfold AGraph.ensure; rw [if_pos hV.1]
      rw [this]; unfold AGraph.ensure; rw [if_pos hV.2]
    simp only [AGraph.step, hk, he]
    rw [ha1]; rfl
  obtain ⟨g2, h3, h4⟩ := lift_ok (t := { t with g := g1 }) h2 hd1 (.addEdge p n []) (by rw [hst2])
  rw [hst2] at h4
  refine ⟨g2, ?_, h4⟩
  show (lift (Graph.addNode n _) >>= fun _ => lift (Graph.addEdge p n [])).run t = _
  rw [tm_bind]
  have h1' : (lift (Graph.addNode n (attr ++ [("level", .int (k + 1)), ("parent", .name p)]))).run t = .ok () { t with g := g1 } := h1
  rw [h1']
  exact h3

/-- The invariant of a tree that is built by `add_root` and `add_child`. -/
structure Inv (a : AGraph N) (r : N) : Prop where
  dir : a.directed = true
  root : r ∈ a.V
  level0 : a.na r "level" = some (.int 0)
  parent0 : a.na r "parent" = none
  other : ∀ v ∈ a.V, v ≠ r → ∃ p, ∃ k : Nat, p ∈ a.V ∧ a.na p "level" = some (.int k) ∧
    a.na v "level" = some (.int (k + 1 : Nat)) ∧ a.na v "parent" = some (.name p) ∧ (p, v) ∈ a.E
  edge : ∀ u v, (u, v) ∈ a.E → v ∈ a.V ∧ v ≠ r ∧ a.na v "parent" = some (.name u)

theorem Inv.level {a : AGraph N} {r : N} (h : Inv a r) {v : N} (hv : v ∈ a.V) :
    ∃ k : Nat, a.na v "level" = some (.int k) := by
  by_cases hr : v = r
  · exact ⟨0, by rw [hr]; exact h.level0⟩
  · obtain ⟨_, k, _, _, h1, _⟩ := h.other v hv hr
    exact ⟨k + 1, h1⟩

theorem Inv.root_mk {r : N} (attr : List (String × Val N)) (hp : AGraph.kw attr "parent" = none) :
    Inv (rootG (.empty true) r attr) r where
  dir := rfl
  root := by simp [rootG, AGraph.empty]
  level0 := by
    simp only [rootG, AGraph.upd, if_pos]
    rw [kw_append]; rfl
  parent0 := by
    simp only [rootG, AGraph.upd, if_pos]
    rw [kw_append, hp]; rfl
  other := by
    intro v hv hn
    simp [rootG, AGraph.empty] at hv
    exact absurd hv hn
  edge := by intro u v h; simp [rootG, AGraph.empty] at h

theorem Inv.child {a : AGraph N} {r n p : N} {k : Nat} (h : Inv a r) (attr : List (String × Val N)) (hp : p ∈ a.V)
    (hk : a.na p "level" = some (.int k)) (hn : n ∉ a.V) : Inv (childG a n p k attr) r := by
  have hne : ∀ v ∈ a.V, (childG a n p k attr).na v = a.na v := by
    intro v hv
    have : v ≠ n := by rintro rfl; exact hn hv
    simp only [childG, AGraph.upd, if_neg this]
  have hnn : (childG a n p k attr).na n = AGraph.kw (attr ++ [("level", .int (k + 1)), ("parent", .name p)]) := by
    simp only [childG, AGraph.upd, if_pos]
  have hrn : n ≠ r := by rintro rfl; exact hn h.root
  constructor
  · exact h.dir
  · simp [childG, h.root]
  · rw [hne r h.root]; exact h.level0
  · rw [hne r h.root]; exact h.parent0
  · intro v hv hvr
    have hv : v ∈ a.V ++ [n] := hv
    rw [List.mem_append, List.mem_singleton] at hv
    rcases hv with hv | hv
    · obtain ⟨p', k', h1, h2, h3, h4, h5⟩ := h.other v hv hvr
      exact ⟨p', k', by simp [childG, h1], by rw [hne p' h1]; exact h2, by rw [hne v hv]; exact h3,
        by rw [hne v hv]; exact h4, by simp [childG, h5]⟩
    · rw [hv]
      refine ⟨p, k, by simp [childG, hp], by rw [hne p hp]; exact hk, ?_, ?_, by simp [childG]⟩
      · rw [hnn, kw_append]; rfl
      · rw [hnn, kw_append]; rfl
  · intro u v huv
    have huv : (u, v) ∈ a.E ++ [(p, n)] := huv
    rw [List.mem_append, List.mem_singleton, Prod.mk.injEq] at huv
    rcases huv with huv | ⟨h1, h2⟩
    · obtain ⟨h1, h2, h3⟩ := h.edge u v huv
      exact ⟨by simp [childG, h1], h2, by rw [hne v h1]; exact h3⟩
    · rw [h1, h2]
      refine ⟨by simp [childG], hrn, ?_⟩
      rw [hnn, kw_append]; rfl

/-! ## Consequences -/

variable {a : AGraph N} {r : N}

theorem Inv.edge_level (h : Inv a r) {u v : N} (huv : (u, v) ∈ a.E) :
    u ∈ a.V ∧ ∃ k : Nat, a.na u "level" = some (.int k) ∧ a.na v "level" = some (.int (k + 1 : Nat)) := by
  obtain ⟨h1, h2, h3⟩ := h.edge u v huv
  obtain ⟨p, k, h4, h5, h6, h7, _⟩ := h.other v h1 h2
  rw [h3] at h7
  cases h7
  exact ⟨h4, k, h5, h6⟩

theorem Inv.walk (h : Inv a r) : ∀ (k : Nat) (v : N), v ∈ a.V → a.na v "level" = some (.int k) →
    WalkLen (fun x y => (x, y) ∈ a.E) r k v := by
  intro k
  induction k with
  | zero =>
    intro v hv hk
    by_cases hr : v = r
    · rw [hr]; exact .nil
    · obtain ⟨p, j, _, _, h3, _, _⟩ := h.other v hv hr
      rw [h3] at hk
      simp only [Option.some.injEq, Val.int.injEq] at hk
      omega
  | succ k ih =>
    intro v hv hk
    have hr : v ≠ r := by
      rintro rfl
      rw [h.level0] at hk
      simp only [Option.some.injEq, Val.int.injEq] at hk
      omega
    obtain ⟨p, j, h1, h2, h3, _, h5⟩ := h.other v hv hr
    rw [h3] at hk
    simp only [Option.some.injEq, Val.int.injEq] at hk
    obtain rfl : j = k := by omega
    exact .snoc (ih p h1 h2) h5

theorem Inv.walk_level (h : Inv a r) {k : Nat} {v : N} (hw : WalkLen (fun x y => (x, y) ∈ a.E) r k v) :
    a.na v "level" = some (.int k) := by
  induction hw with
  | nil => exact h.level0
  | snoc _ he ih =>
    obtain ⟨_, j, h1, h2⟩ := h.edge_level he
    rw [ih] at h1
    simp only [Option.some.injEq, Val.int.injEq] at h1
    rw [h2]; congr 2; omega

theorem Inv.lt (h : Inv a r) {u v : N} (hw : Relation.TransGen (fun x y => (x, y) ∈ a.E) u v) :
    ∃ j k : Nat, a.na u "level" = some (.int j) ∧ a.na v "level" = some (.int k) ∧ j < k := by
  induction hw with
  | single he =>
    obtain ⟨_, k, h1, h2⟩ := h.edge_level he
    exact ⟨k, k + 1, h1, h2, by omega⟩
  | tail _ he ih =>
    obtain ⟨j, k, h1, h2, h3⟩ := ih
    obtain ⟨_, k', h4, h5⟩ := h.edge_level he
    rw [h2] at h4
    simp only [Option.some.injEq, Val.int.injEq] at h4
    exact ⟨j, k' + 1, h1, h5, by omega⟩

/-! ## Traversals -/

section Trav
variable {R : N → N → Prop} {ch : N → List N}

/-- the loop of `traverse` on names -/
def nLoop (ch : N → List N) (stack : Bool) : Nat → List N → List N → Option (List N)
  | 0, _, _ => none
  | _ + 1, [], vis => some vis
  | k + 1, cur :: q, vis => nLoop ch stack k (if stack then (ch cur).reverse ++ q else q ++ ch cur) (vis ++ [cur])

theorem travLoop_eq {t : Tree N} {V : List N} (hch : ∀ v ∈ V, t.getChildren v = .ok (ch v))
    (hV : ∀ v ∈ V, ∀ w ∈ ch v, w ∈ V) (stack : Bool) : ∀ (k : Nat) (q vis : List N), (∀ x ∈ q, x ∈ V) →
    travLoop t stack k (q.map .name) (vis.map .name) =
      match nLoop ch stack k q vis with | none => .error .diverge | some l => .ok (l.map .name) := by
  intro k
  induction k with
  | zero => intro q vis _; rfl
  | succ k ih =>
    intro q vis hq
    cases q with
    | nil => rfl
    | cons v q =>
      rw [List.map_cons, travLoop, nLoop, childrenOf, hch v (hq v (by simp))]
      have hq' : ∀ x ∈ (if stack then (ch v).reverse ++ q else q ++ ch v), x ∈ V := by
        intro x hx
        have : x ∈ ch v ∨ x ∈ q := by
          cases stack <;> simp at hx
          · exact hx.symm
          · exact hx
        rcases this with h | h
        · exact hV v (hq v (by simp)) x h
        · exact hq x (by simp [h])
      rw [← ih _ (vis ++ [v]) hq']
      cases stack <;> simp

/-- what the traversals keep -/
structure TInv (R : N → N → Prop) (s : N) (vis q : List N) : Prop where
  nodup : (vis ++ q).Nodup
  mem : ∀ x ∈ vis ++ q, Relation.ReflTransGen R s x
  start : s ∈ vis ++ q
  closed : ∀ x ∈ vis, ∀ y, R x y → y ∈ vis ++ q
  parent : ∀ x ∈ vis ++ q, x ≠ s → ∃ p ∈ vis, R p x
  order : ∀ l1 x l2, vis = l1 ++ x :: l2 → x ≠ s → ∃ p ∈ l1, R p x

theorem TInv.step {s cur : N} {vis q q' : List N} (hch : ∀ w, w ∈ ch cur ↔ R cur w) (hnd : (ch cur).Nodup)
    (huniq : ∀ p p' x, R p x → R p' x → p = p') (hac : ∀ x, ¬ Relation.TransGen R x x)
    (h : TInv R s vis (cur :: q)) (hq : q'.Perm (ch cur ++ q)) : TInv R s (vis ++ [cur]) q' := by
  have hcm : Relation.ReflTransGen R s cur := h.mem cur (by simp)
  have hmem : ∀ x, x ∈ (vis ++ [cur]) ++ q' ↔ x ∈ vis ++ cur :: q ∨ x ∈ ch cur := by
    intro x
    have := hq.mem_iff (a := x)
    simp only [List.mem_append, List.mem_cons, List.not_mem_nil, or_false] at *
    tauto
  have hnew : ∀ x ∈ ch cur, x ∉ vis ++ cur :: q := by
    intro x hx hxm
    have hRx := (hch x).1 hx
    by_cases hs : x = s
    · rw [hs] at hRx
      exact hac s (Relation.TransGen.tail' hcm hRx)
    · obtain ⟨p, hp, hRp⟩ := h.parent x hxm hs
      rw [huniq _ _ _ hRp hRx] at hp
      exact (List.nodup_append.1 h.nodup).2.2 _ hp _ (by simp) rfl
  constructor
  · have : ((vis ++ [cur]) ++ q').Perm ((vis ++ cur :: q) ++ ch cur) := by
      calc ((vis ++ [cur]) ++ q').Perm ((vis ++ [cur]) ++ (ch cur ++ q)) := hq.append_left _
        _ = vis ++ [cur] ++ (ch cur ++ q) := rfl
        List.Perm _ (vis ++ [cur] ++ (q ++ ch cur)) := List.perm_append_comm.append_left _
        _ = (vis ++ cur :: q) ++ ch cur := by simp
    rw [this.nodup_iff, List.nodup_append]
    exact ⟨h.nodup, hnd, fun x hx y hy hxy => hnew y hy (hxy ▸ hx)⟩
  · intro x hx
    rcases (hmem x).1 hx with hx | hx
    · exact h.mem x hx
    · exact hcm.tail ((hch x).1 hx)
  · exact (hmem s).2 (.inl h.start)
  · intro x hx y hxy
    rw [hmem]
    rw [List.mem_append, List.mem_singleton] at hx
    rcases hx with hx | hx
    · exact .inl (h.closed x hx y hxy)
    · exact .inr ((hch y).2 (hx ▸ hxy))
  · intro x hx hs
    rcases (hmem x).1 hx with hx | hx
    · obtain ⟨p, hp, hR⟩ := h.parent x hx hs
      exact ⟨p, by simp [hp], hR⟩
    · exact ⟨cur, by simp, (hch x).1 hx⟩
  · intro l1 x l2 heq hs
    rcases List.append_eq_append_iff.1 heq with ⟨l, h1, h2⟩ | ⟨l, h1, h2⟩
    · cases l with
      | nil =>
        simp at h1 h2
        obtain ⟨rfl, _⟩ := h2
        obtain ⟨p, hp, hR⟩ := h.parent cur (by simp) hs
        exact ⟨p, by rw [h1]; exact hp, hR⟩
      | cons y l =>
        rw [List.cons_append, List.cons.injEq] at h2
        exact absurd h2.2.symm (by simp)
    · cases l with
      | nil =>
        simp at h1 h2
        obtain ⟨rfl, _⟩ := h2
        obtain ⟨p, hp, hR⟩ := h.parent x (by simp) hs
        exact ⟨p, by rw [← h1]; exact hp, hR⟩
      | cons y l =>
        rw [List.cons_append, List.cons.injEq] at h2
        obtain ⟨rfl, h2⟩ := h2
        exact h.order l1 x l (by rw [h1]) hs

theorem TInv.init (s : N) : TInv R s [] [s] where
  nodup := by simp
  mem := by intro x hx; simp at hx; rw [hx]
  start := by simp
  closed := by simp
  parent := by intro x hx; simp at hx; exact fun h => absurd hx h
  order := by intro l1 x l2 h; simp at h

theorem nLoop_ok {V : List N} {s : N} (hch : ∀ v ∈ V, ∀ w, w ∈ ch v ↔ R v w) (hnd : ∀ v ∈ V, (ch v).Nodup)
    (hV : ∀ v ∈ V, ∀ w, R v w → w ∈ V) (hs : s ∈ V)
    (huniq : ∀ p p' x, R p x → R p' x → p = p') (hac : ∀ x, ¬ Relation.TransGen R x x) (stack : Bool) :
    ∀ (k : Nat) (q vis : List N), TInv R s vis q → V.length < k + vis.length →
      ∃ l, nLoop ch stack k q vis = some l ∧ TInv R s l [] := by
  have hmemV : ∀ x, Relation.ReflTransGen R s x → x ∈ V := by
    intro x hx
    induction hx with
    | refl => exact hs
    | tail _ h ih => exact hV _ ih _ h
  intro k
  induction k with
  | zero =>
    intro q vis h hk
    have : vis.length ≤ V.length := (List.nodup_append.1 h.nodup).1.length_le_of_subset
      (fun x hx => hmemV x (h.mem x (by simp [hx])))
    omega
  | succ k ih =>
    intro q vis h hk
    cases q with
    | nil => exact ⟨vis, rfl, h⟩
    | cons v q =>
      have hv : v ∈ V := hmemV v (h.mem v (by simp))
      rw [nLoop]
      refine ih _ _ (h.step (ch := ch) (hch v hv) (hnd v hv) huniq hac ?_) (by simp; omega)
      cases stack
      · exact List.perm_append_comm
      · exact (List.reverse_perm _).append_right _

/-- breadth-first: the levels do not decrease -/
theorem nLoop_bfs {lev : N → Nat} (hlev : ∀ v w, w ∈ ch v → lev w = lev v + 1) : ∀ (k : Nat) (q vis l : List N),
    (vis ++ q).Pairwise (fun x y => lev x ≤ lev y) → (∀ x ∈ q, ∀ y ∈ q, lev x ≤ lev y + 1) →
    nLoop ch false k q vis = some l → l.Pairwise (fun x y => lev x ≤ lev y) := by
  intro k
  induction k with
  | zero => intro q vis l _ _ h; cases h
  | succ k ih =>
    intro q vis l hp hq h
    cases q with
    | nil => simp only [nLoop, Option.some.injEq] at h; rw [← h]; simpa using hp
    | cons v q =>
      rw [nLoop] at h
      refine ih _ _ _ ?_ ?_ h
      · rw [if_neg (by simp), show vis ++ [v] ++ (q ++ ch v) = (vis ++ v :: q) ++ ch v by simp, List.pairwise_append]
        refine ⟨hp, List.pairwise_of_forall_mem_list ?_, ?_⟩
        · intro x hx y hy; rw [hlev v x hx, hlev v y hy]
        · intro x hx y hy
          rw [hlev v y hy]
          rw [List.mem_append] at hx
          rcases hx with hx | hx
          · have := (List.pairwise_append.1 hp).2.2 x hx v (by simp); omega
          · exact hq x hx v (by simp)
      · have hge : ∀ y ∈ q, lev v ≤ lev y := by
          intro y hy
          exact (List.pairwise_cons.1 (List.pairwise_append.1 hp).2.1).1 y hy
        intro x hx y hy
        rw [if_neg (by simp), List.mem_append] at hx hy
        have h1 : lev x ≤ lev v + 1 := by
          rcases hx with hx | hx
          · exact hq x (by simp [hx]) v (by simp)
          · rw [hlev v x hx]
        have h2 : lev v ≤ lev y := by
          rcases hy with hy | hy
          · exact hge y hy
          · rw [hlev v y hy]; omega
        omega

/-- depth-first order of a list of subtrees, where `ch` lists the children from right to left -/
inductive DFSOrder (ch : N → List N) : List N → List N → Prop
  | nil : DFSOrder ch [] []
  | cons {v q B C} : DFSOrder ch (ch v).reverse B → DFSOrder ch q C → DFSOrder ch (v :: q) (v :: (B ++ C))

theorem DFSOrder.split : ∀ {q1 q2 l : List N}, DFSOrder ch (q1 ++ q2) l →
    ∃ l1 l2, l = l1 ++ l2 ∧ DFSOrder ch q1 l1 ∧ DFSOrder ch q2 l2
  | [], q2, l, h => ⟨[], l, rfl, .nil, h⟩
  | v :: q1, q2, l, h => by
    cases h with
    | cons h1 h2 =>
      obtain ⟨l1, l2, rfl, h3, h4⟩ := h2.split
      exact ⟨_ :: (_ ++ l1), l2, by simp, .cons h1 h3, h4⟩

theorem nLoop_dfs : ∀ (k : Nat) (q vis l : List N), nLoop ch true k q vis = some l →
    ∃ l', l = vis ++ l' ∧ DFSOrder ch q l' := by
  intro k
  induction k with
  | zero => intro q vis l h; cases h
  | succ k ih =>
    intro q vis l h
    cases q with
    | nil => simp only [nLoop, Option.some.injEq] at h; exact ⟨[], by simp [h], .nil⟩
    | cons v q =>
      rw [nLoop] at h
      obtain ⟨l', rfl, hd⟩ := ih _ _ _ h
      rw [if_pos rfl] at hd
      obtain ⟨B, C, rfl, h1, h2⟩ := hd.split
      exact ⟨v :: (B ++ C), by simp, .cons h1 h2⟩

theorem DFSOrder.mem {V : List N} (hch : ∀ v ∈ V, ∀ w, w ∈ ch v ↔ R v w) (hV : ∀ v ∈ V, ∀ w, R v w → w ∈ V)
    {q l : List N} (h : DFSOrder ch q l) : (∀ x ∈ q, x ∈ V) →
    ∀ w, w ∈ l ↔ ∃ v ∈ q, Relation.ReflTransGen R v w := by
  induction h with
  | nil => intro _ w; simp
  | @cons v q B C _ _ ih1 ih2 =>
    intro hq w
    have hv := hq v (by simp)
    have h1 := ih1 (fun x hx => hV v hv x ((hch v hv x).1 (by simpa using hx))) w
    have h2 := ih2 (fun x hx => hq x (by simp [hx])) w
    rw [List.mem_cons, List.mem_append, h1, h2]
    constructor
    · rintro (rfl | ⟨c, hc, hw⟩ | ⟨c, hc, hw⟩)
      · exact ⟨w, by simp, .refl⟩
      · exact ⟨v, by simp, .head ((hch v hv c).1 (by simpa using hc)) hw⟩
      · exact ⟨c, by simp [hc], hw⟩
    · rintro ⟨c, hc, hw⟩
      rw [List.mem_cons] at hc
      rcases hc with rfl | hc
      · rcases Relation.ReflTransGen.cases_head hw with rfl | ⟨d, hd, hw⟩
        · exact .inl rfl
        · exact .inr (.inl ⟨d, by simpa using (hch c hv d).2 hd, hw⟩)
      · exact .inr (.inr ⟨c, hc, hw⟩)

theorem DFSOrder.block {V : List N} (hch : ∀ v ∈ V, ∀ w, w ∈ ch v ↔ R v w) (hV : ∀ v ∈ V, ∀ w, R v w → w ∈ V)
    {q l : List N} (h : DFSOrder ch q l) : (∀ x ∈ q, x ∈ V) →
    ∀ l1 x l2, l = l1 ++ x :: l2 → ∃ B C, l2 = B ++ C ∧ ∀ w, w ∈ B ↔ Relation.TransGen R x w := by
  induction h with
  | nil => intro _ l1 x l2 h; simp at h
  | @cons v q B C hB hC ih1 ih2 =>
    intro hq l1 x l2 heq
    have hv := hq v (by simp)
    have hkV : ∀ x ∈ (ch v).reverse, x ∈ V := fun x hx => hV v hv x ((hch v hv x).1 (by simpa using hx))
    cases l1 with
    | nil =>
      rw [List.nil_append, List.cons.injEq] at heq
      obtain ⟨rfl, rfl⟩ := heq
      refine ⟨B, C, rfl, ?_⟩
      intro w
      rw [hB.mem hch hV hkV w, Relation.TransGen.head'_iff]
      constructor
      · rintro ⟨c, hc, hw⟩; exact ⟨c, (hch v hv c).1 (by simpa using hc), hw⟩
      · rintro ⟨c, hc, hw⟩; exact ⟨c, by simpa using (hch v hv c).2 hc, hw⟩
    | cons y l1 =>
      rw [List.cons_append, List.cons.injEq] at heq
      obtain ⟨rfl, heq⟩ := heq
      rcases List.append_eq_append_iff.1 heq with ⟨l, h1, h2⟩ | ⟨l, h1, h2⟩
      · exact ih2 (fun x hx => hq x (by simp [hx])) l x l2 h2
      · cases l with
        | nil =>
          exact ih2 (fun x hx => hq x (by simp [hx])) [] x l2 (by simpa using h2.symm)
        | cons z l =>
          rw [List.cons_append, List.cons.injEq] at h2
          obtain ⟨rfl, rfl⟩ := h2
          obtain ⟨B', C', rfl, h3⟩ := ih1 hkV l1 x l h1
          exact ⟨B', C' ++ C, by simp, h3⟩

end Trav

end Tree
end GiMPy
