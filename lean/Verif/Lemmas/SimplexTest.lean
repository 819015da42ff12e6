import Verif.Model.SimplexTest
import Verif.Lemmas.MinCost
import Verif.Lemmas.Script

/-! # The problems that `generate_graph` in simplex_test.py makes -/

namespace GiMPy
namespace STest
open MinCost
variable {R : Type} {rnd : Rand R} {P : Params}

/-- `randint(a, b)` is between `a` and `b` -/
def Lawful (rnd : Rand R) : Prop := ∀ a b r, a ≤ b → a ≤ (rnd.int a b r).1 ∧ (rnd.int a b r).1 ≤ b

/-- ranges that are not empty, at least one node, one supply, one demand, and positive amounts -/
structure Sane (P : Params) : Prop where
  cap : P.capLo ≤ P.capHi
  cost : P.costLo ≤ P.costHi
  dem : P.demLo ≤ P.demHi
  pos : 1 ≤ P.demLo
  dn : 1 ≤ P.demandNodes
  sn : 1 ≤ P.supplyNodes
  nn : 1 ≤ P.numNodes

/-- what the double loop keeps -/
structure GenInv (P : Params) (g : Graph Nm) (a : AGraph Nm) : Prop where
  rep : Rep g a
  built : Built g
  dir : a.directed = true
  arc : ∀ u v, (u, v) ∈ a.E → ∃ i j, u = .num i ∧ v = .num j ∧ i ≠ j ∧ i < P.numNodes ∧ j < P.numNodes ∧ (v, u) ∉ a.E ∧
    ∃ c w : Nat, P.capLo ≤ c ∧ c ≤ P.capHi ∧ P.costLo ≤ w ∧ w ≤ P.costHi ∧ a.ea (u, v) "capacity" = some (.int c) ∧
      a.ea (u, v) "cost" = some (.int w)
  inc : ∀ v ∈ a.V, ∃ e ∈ a.E, v = e.1 ∨ v = e.2

theorem mem_pairs {n : Nat} {x : Nat × Nat} : x ∈ pairs n ↔ x.1 < n ∧ x.2 < n := by
  unfold pairs
  simp only [List.mem_flatMap, List.mem_range, List.mem_map]
  constructor
  · rintro ⟨i, hi, j, hj, rfl⟩; exact ⟨hi, hj⟩
  · rintro ⟨hi, hj⟩; exact ⟨x.1, hi, x.2, hj, rfl⟩

theorem arcStep_ok (hr : Lawful rnd) (hP : Sane P) {i j : Nat} (hi : i < P.numNodes) (hj : j < P.numNodes) {g : Graph Nm}
    {a : AGraph Nm} (h : GenInv P g a) (r : R) : ∃ g' a' r', arcStep P rnd i j g r = .ok (g', r') ∧ GenInv P g' a' := by
  unfold arcStep
  by_cases h1 : i = j
  · rw [if_pos h1]; exact ⟨g, a, r, rfl, h⟩
  rw [if_neg h1]
  have hE : g.getEdgeList = a.E := h.rep.E
  rw [hE]
  by_cases h2 : (Nm.num i, Nm.num j) ∈ a.E
  · rw [if_pos h2]; exact ⟨g, a, r, rfl, h⟩
  rw [if_neg h2]
  by_cases h3 : (Nm.num j, Nm.num i) ∈ a.E
  · rw [if_pos h3]; exact ⟨g, a, r, rfl, h⟩
  rw [if_neg h3]
  rcases hc : rnd.coin r with ⟨c, r1⟩
  cases c with
  | false => exact ⟨g, a, r1, rfl, h⟩
  | true =>
    simp only []
    have k1 := hr P.capLo P.capHi r1 hP.cap
    have k2 := hr P.costLo P.costHi (rnd.int P.capLo P.capHi r1).2 hP.cost
    obtain ⟨g', a', e1, e2, e3, e4, e5, e6, _⟩ := rep_addEdge h.rep h.dir h2
      [("cost", .int (rnd.int P.costLo P.costHi (rnd.int P.capLo P.capHi r1).2).1), ("capacity", .int (rnd.int P.capLo P.capHi r1).1)]
    rw [e1]
    refine ⟨g', a', _, rfl, e2, h.built.call (by rw [h.rep.dir, h.dir]) e1, e3, ?_, ?_⟩
    · intro u v huv
      rw [e4, List.mem_append, List.mem_singleton] at huv
      rw [e4, e5]
      rcases huv with huv | huv
      · obtain ⟨i', j', rfl, rfl, q1, q2, q3, q4, c, w, q5, q6, q7, q8, q9, q10⟩ := h.arc u v huv
        refine ⟨i', j', rfl, rfl, q1, q2, q3, ?_, c, w, q5, q6, q7, q8, ?_⟩
        · rw [List.mem_append, List.mem_singleton]
          rintro (hm | hm)
          · exact q4 hm
          · simp only [Prod.mk.injEq, Nm.num.injEq] at hm
            obtain ⟨rfl, rfl⟩ := hm
            exact h3 huv
        · have hne : (Nm.num i', Nm.num j') ≠ (Nm.num i, Nm.num j) := by
            intro he; rw [he] at huv; exact h2 huv
          rw [AGraph.upd, if_neg hne]
          exact ⟨q9, q10⟩
      · simp only [Prod.mk.injEq] at huv
        obtain ⟨rfl, rfl⟩ := huv
        refine ⟨i, j, rfl, rfl, h1, hi, hj, ?_, _, _, k1.1, k1.2, k2.1, k2.2, ?_⟩
        · rw [List.mem_append, List.mem_singleton]
          rintro (hm | hm)
          · exact h3 hm
          · simp only [Prod.mk.injEq, Nm.num.injEq] at hm
            exact h1 hm.2
        · rw [AGraph.upd, if_pos rfl]
          exact ⟨kw_capacity _ _, kw_cost _ _⟩
    · intro v hv
      rw [e6] at hv
      rw [e4]
      rcases mem_ensure hv with hv | rfl
      · rcases mem_ensure hv with hv | rfl
        · obtain ⟨e, he, hve⟩ := h.inc v hv
          exact ⟨e, by simp [he], hve⟩
        · exact ⟨_, List.mem_append_right _ (List.mem_singleton_self _), .inl rfl⟩
      · exact ⟨_, List.mem_append_right _ (List.mem_singleton_self _), .inr rfl⟩

theorem arcLoop_ok (hr : Lawful rnd) (hP : Sane P) : ∀ (l : List (Nat × Nat)), (∀ x ∈ l, x.1 < P.numNodes ∧ x.2 < P.numNodes) →
    ∀ (g : Graph Nm) (a : AGraph Nm) (r : R), GenInv P g a →
    ∃ g' a' r', arcLoop P rnd l g r = .ok (g', r') ∧ GenInv P g' a' := by
  intro l
  induction l with
  | nil => exact fun _ g a r h => ⟨g, a, r, rfl, h⟩
  | cons x l ih =>
    intro hl g a r h
    obtain ⟨i, j⟩ := x
    have hx := hl (i, j) (by simp)
    obtain ⟨g1, a1, r1, h1, h2⟩ := arcStep_ok hr hP hx.1 hx.2 h r
    obtain ⟨g2, a2, r2, h3, h4⟩ := ih (fun x hx => hl x (by simp [hx])) g1 a1 r1 h2
    refine ⟨g2, a2, r2, ?_, h4⟩
    unfold arcLoop
    rw [h1]
    exact h3

theorem genInv_init : GenInv P (Graph.init true) (.empty true) where
  rep := rep_init true
  built := ⟨true, [], by simp, rfl⟩
  dir := rfl
  arc := by simp [AGraph.empty]
  inc := by simp [AGraph.empty]

/-- chosen nodes -/
structure Chosen (P : Params) (excl l : List Nat) : Prop where
  nodup : l.Nodup
  lt : ∀ n ∈ l, n < P.numNodes
  disj : ∀ n ∈ l, n ∉ excl

theorem pick_ok (hr : Lawful rnd) (hP : Sane P) (excl : List Nat) (count : Nat) : ∀ (k : Nat) (l : List Nat) (r : R),
    Chosen P excl l → l.length ≤ count → pick P rnd excl count k l r = .error .diverge ∨
    ∃ l' r', pick P rnd excl count k l r = .ok (l', r') ∧ Chosen P excl l' ∧ l'.length = count := by
  intro k
  induction k with
  | zero => exact fun _ _ _ _ => .inl rfl
  | succ k ih =>
    intro l r h hl
    unfold pick
    by_cases h1 : l.length < count
    · rw [if_pos h1]
      have k1 := hr 0 (P.numNodes - 1) r (by omega)
      rcases hx : rnd.int 0 (P.numNodes - 1) r with ⟨n, r1⟩
      rw [hx] at k1
      simp only [] at k1 ⊢
      by_cases h2 : n ∈ excl ∨ n ∈ l
      · rw [if_pos h2]; exact ih l r1 h hl
      · rw [if_neg h2]
        push Not at h2
        refine ih _ r1 ⟨?_, ?_, ?_⟩ (by simp; omega)
        · rw [List.nodup_append]
          exact ⟨h.nodup, by simp, by
            intro a ha b hb
            rw [List.mem_singleton] at hb
            rintro rfl
            exact h2.2 (hb ▸ ha)⟩
        · intro m hm
          rcases List.mem_append.1 hm with hm | hm
          · exact h.lt m hm
          · rw [List.mem_singleton] at hm; subst hm; have := hP.nn; omega
        · intro m hm
          rcases List.mem_append.1 hm with hm | hm
          · exact h.disj m hm
          · rw [List.mem_singleton] at hm; subst hm; exact h2.1
    · rw [if_neg h1]
      exact .inr ⟨l, r, rfl, h, by omega⟩

theorem amounts_ok (hr : Lawful rnd) (hP : Sane P) : ∀ (l : List Nat) (r : R), (amounts P rnd l r).1.map Prod.fst = l ∧
    ∀ x ∈ (amounts P rnd l r).1, P.demLo ≤ x.2 ∧ x.2 ≤ P.demHi := by
  intro l
  induction l with
  | nil => exact fun r => ⟨rfl, by simp [amounts]⟩
  | cons n l ih =>
    intro r
    unfold amounts
    have k1 := hr P.demLo P.demHi r hP.dem
    obtain ⟨h1, h2⟩ := ih (rnd.int P.demLo P.demHi r).2
    simp only [List.map_cons, List.cons.injEq, true_and, List.mem_cons, forall_eq_or_imp]
    exact ⟨h1, k1, h2⟩

theorem addFirst_keys (x : Nat) (d : List (Nat × Nat)) : (addFirst x d).map Prod.fst = d.map Prod.fst := by
  cases d <;> rfl

theorem addFirst_total (x : Nat) {d : List (Nat × Nat)} (h : d ≠ []) : total (addFirst x d) = total d + x := by
  cases d with
  | nil => exact absurd rfl h
  | cons a d => simp only [addFirst, total, List.map_cons, List.sum_cons]; omega

theorem addFirst_ge {x lo : Nat} {d : List (Nat × Nat)} (h : ∀ y ∈ d, lo ≤ y.2) : ∀ y ∈ addFirst x d, lo ≤ y.2 := by
  cases d with
  | nil => exact h
  | cons a d =>
    simp only [addFirst, List.mem_cons, forall_eq_or_imp] at h ⊢
    exact ⟨by omega, h.2⟩

theorem balance_ok {d s : List (Nat × Nat)} {lo : Nat} (hd : d ≠ []) (hs : s ≠ []) (hld : ∀ x ∈ d, lo ≤ x.2)
    (hls : ∀ x ∈ s, lo ≤ x.2) : (balance d s).1.map Prod.fst = d.map Prod.fst ∧ (balance d s).2.map Prod.fst = s.map Prod.fst ∧
    (∀ x ∈ (balance d s).1, lo ≤ x.2) ∧ (∀ x ∈ (balance d s).2, lo ≤ x.2) ∧ total (balance d s).1 = total (balance d s).2 := by
  unfold balance
  by_cases h1 : total s < total d
  · rw [if_pos h1]
    exact ⟨rfl, addFirst_keys _ _, hld, addFirst_ge hls, by simp only [addFirst_total _ hs]; omega⟩
  · rw [if_neg h1]
    by_cases h2 : total d < total s
    · rw [if_pos h2]
      exact ⟨addFirst_keys _ _, rfl, addFirst_ge hld, hls, by simp only [addFirst_total _ hd]; omega⟩
    · rw [if_neg h2]
      exact ⟨rfl, rfl, hld, hls, by simp only []; omega⟩

theorem setDemands_ok (d s : List (Nat × Nat)) : ∀ (l done : List Nm) (g : Graph Nm) (a : AGraph Nm), GenInv P g a →
    (∀ v ∈ l, v ∈ a.V) → (∀ v ∈ done, a.na v "demand" = some (.int (demandVal d s v))) →
    ∃ g' a', setDemands d s l g = .ok g' ∧ GenInv P g' a' ∧ a'.V = a.V ∧
      ∀ v, v ∈ done ∨ v ∈ l → a'.na v "demand" = some (.int (demandVal d s v)) := by
  intro l
  induction l with
  | nil => exact fun done g a h _ hd => ⟨g, a, rfl, h, rfl, fun v hv => hd v (by simpa using hv)⟩
  | cons n l ih =>
    intro done g a h hl hd
    have hn := hl n (by simp)
    have hst : a.step (.setNodeAttr n "demand" (.int (demandVal d s n))) =
        (none, { a with na := AGraph.upd a.na n (AGraph.upd (a.na n) "demand" (some (.int (demandVal d s n)))) }) := by
      simp [AGraph.step, hn]
    obtain ⟨g1, e1, e2⟩ := rep_call h.rep h.dir (.setNodeAttr n "demand" (.int (demandVal d s n))) (by rw [hst])
    rw [hst] at e2
    obtain ⟨g2, a2, e3, e4, e5, e6⟩ := ih (n :: done) g1 _
      ⟨e2, h.built.call (by rw [h.rep.dir, h.dir]) e1, h.dir, h.arc, h.inc⟩ (fun v hv => hl v (by simp [hv])) (by
        intro v hv
        by_cases hvn : v = n
        · subst hvn; simp [AGraph.upd]
        · simp only [AGraph.upd, if_neg hvn]
          exact hd v ((List.mem_cons.1 hv).resolve_left hvn))
    refine ⟨g2, a2, ?_, e4, e5, fun v hv => e6 v ?_⟩
    · unfold setDemands
      rw [e1]
      exact e3
    · simp only [List.mem_cons] at hv ⊢
      tauto

/-! ## The sum of the demands -/

/-- the amount of the node `v` -/
def valAt (d : List (Nat × Nat)) (v : Nm) : Int := ((d.filter fun x => decide (Nm.num x.1 = v)).map fun x => (x.2 : Int)).sum

theorem valAt_cons (x : Nat × Nat) (d : List (Nat × Nat)) (v : Nm) :
    valAt (x :: d) v = (if Nm.num x.1 = v then (x.2 : Int) else 0) + valAt d v := by
  unfold valAt
  by_cases h : Nm.num x.1 = v
  · rw [if_pos h, List.filter_cons_of_pos (by simpa using h)]; simp
  · rw [if_neg h, List.filter_cons_of_neg (by simpa using h)]; simp

theorem valAt_absent {d : List (Nat × Nat)} {n : Nat} (h : n ∉ d.map Prod.fst) : valAt d (.num n) = 0 := by
  induction d with
  | nil => rfl
  | cons x d ih =>
    simp only [List.map_cons, List.mem_cons, not_or] at h
    rw [valAt_cons, if_neg (by simpa using fun h' => h.1 h'.symm), ih h.2]; rfl

theorem find_valAt {d : List (Nat × Nat)} (hd : (d.map Prod.fst).Nodup) (n : Nat) :
    (match d.find? fun x => decide (x.1 = n) with | some x => (x.2 : Int) | none => 0) = valAt d (.num n) := by
  induction d with
  | nil => rfl
  | cons x d ih =>
    rw [List.map_cons, List.nodup_cons] at hd
    rw [valAt_cons]
    by_cases h : x.1 = n
    · subst h
      rw [List.find?_cons_of_pos (by simp), if_pos rfl, valAt_absent hd.1]; simp
    · rw [List.find?_cons_of_neg (by simpa using h), if_neg (by simpa using h), ih hd.2]; simp

theorem find_none {d : List (Nat × Nat)} {n : Nat} (h : n ∉ d.map Prod.fst) : (d.find? fun x => decide (x.1 = n)) = none := by
  rw [List.find?_eq_none]
  intro x hx
  simp only [decide_eq_true_eq]
  rintro rfl
  exact h (List.mem_map_of_mem hx)

theorem demandVal_eq {d s : List (Nat × Nat)} (hd : (d.map Prod.fst).Nodup) (hs : (s.map Prod.fst).Nodup)
    (hds : ∀ n ∈ s.map Prod.fst, n ∉ d.map Prod.fst) (v : Nm) : demandVal d s v = valAt s v - valAt d v := by
  cases v with
  | s =>
    have : ∀ l : List (Nat × Nat), valAt l .s = 0 := by intro l; simp [valAt]
    simp [demandVal, this]
  | t =>
    have : ∀ l : List (Nat × Nat), valAt l .t = 0 := by intro l; simp [valAt]
    simp [demandVal, this]
  | num n =>
    have h1 := find_valAt hd n
    have h2 := find_valAt hs n
    unfold demandVal
    simp only []
    by_cases hn : n ∈ d.map Prod.fst
    · have h3 : valAt s (.num n) = 0 := valAt_absent fun h => hds n h hn
      rw [h3]
      cases hf : d.find? fun x => decide (x.1 = n) with
      | none =>
        obtain ⟨x, hx, rfl⟩ := List.mem_map.1 hn
        have := List.find?_eq_none.1 hf x hx
        simp at this
      | some x =>
        rw [hf] at h1
        simp only [] at h1 ⊢
        omega
    · rw [find_none hn, valAt_absent hn]
      simp only []
      rw [← h2]
      cases s.find? fun x => decide (x.1 = n) <;> simp

/-- the sum over the nodes counts the amounts of the nodes that exist -/
theorem sum_valAt {V : List Nm} (hV : V.Nodup) (d : List (Nat × Nat)) :
    (V.map (valAt d)).sum = ((d.filter fun x => decide (Nm.num x.1 ∈ V)).map fun x => (x.2 : Int)).sum := by
  have key : ∀ (u : Nm) (y : Int) (V : List Nm), V.Nodup → (V.map fun v => if u = v then y else 0).sum = if u ∈ V then y else 0 := by
    intro u y V
    induction V with
    | nil => simp
    | cons v V ih =>
      intro h
      rw [List.nodup_cons] at h
      rw [List.map_cons, List.sum_cons, ih h.2]
      by_cases hv : u = v
      · subst hv; simp [h.1]
      · simp [hv]
  induction d with
  | nil =>
    have : V.map (valAt []) = V.map fun _ => 0 := rfl
    rw [this]; simp
  | cons x d ih =>
    have h1 : V.map (valAt (x :: d)) = V.map fun v => (if Nm.num x.1 = v then (x.2 : Int) else 0) + valAt d v :=
      List.map_congr_left fun v _ => valAt_cons x d v
    rw [h1, List.sum_map_add, key _ _ V hV]
    by_cases hx : Nm.num x.1 ∈ V
    · rw [List.filter_cons_of_pos (by simpa using hx), if_pos hx, List.map_cons, List.sum_cons, ← ih]
    · rw [List.filter_cons_of_neg (by simpa using hx), if_neg hx, ← ih]; simp

end STest
end GiMPy
