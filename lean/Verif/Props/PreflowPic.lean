import Verif.Lemmas.PreflowPic
import Verif.Props.Preflow

/-! # C130, C131: the picture `max_flow_preflowpush` leaves -/

namespace GiMPy
open Search
variable {N : Type} [DecidableEq N] {Q QS : Type} {g : Graph N} {O : QOps N Q} {items : Q → List N}
variable {has : Q → N → Bool} {OS : QOps N QS} {itemsS : QS → List N}
variable {cap : N × N → Int} {src sink : N}

/-- what leaves the source of a flow arrives at the sink -/
theorem net_source {E : List (N × N)} {V : List N} (hV : V.Nodup) (hEV : ∀ e ∈ E, e.1 ∈ V ∧ e.2 ∈ V) {s t : N}
    (hs : s ∈ V) (ht : t ∈ V) (hst : s ≠ t) {f : N × N → Int} (hf : ∀ v, v ≠ s → v ≠ t → net E f v = 0) :
    net E f s = - net E f t := by
  rw [net_eq_cut hV hEV ht hf (fun v => v = s) rfl (Ne.symm hst),
    net_eq_cut hV hEV hs (fun v h1 h2 => hf v h2 h1) (fun v => v ≠ s) (Ne.symm hst) (by simp)]
  have : ∀ l : List (N × N), (l.map fun e => f e * ((if e.2 ≠ s then 0 else 1) - (if e.1 ≠ s then 0 else 1))).sum =
      - (l.map fun e => f e * ((if e.2 = s then 0 else 1) - (if e.1 = s then 0 else 1))).sum := by
    intro l
    induction l with
    | nil => simp
    | cons e l ih =>
      simp only [List.map_cons, List.sum_cons]
      rw [ih]
      by_cases h1 : e.1 = s <;> by_cases h2 : e.2 = s <;> simp [h1, h2] <;> omega
  exact this E

/-- what holds of the columns that a run leaves -/
theorem preflow_inv (hg : Built g) (hd : g.directed = true)
    (hOS : LawfulFIFO OS itemsS) (hOS' : OS.isPQ = false) (col : SState N QS) (hcol : itemsS col.q = [])
    (hs : LawfulSet O items has) {newQ : Q} (hq : items newQ = []) (algo : Preflow.PAlgo)
    (hc : ∀ u v, (u, v) ∈ g.getEdgeList → g.capOf u v = .ok (cap (u, v))) (hpos : ∀ e ∈ g.getEdgeList, 0 ≤ cap e)
    (hsn : src ∈ g.getNodeList) (htn : sink ∈ g.getNodeList) (hst : src ≠ sink)
    (hanti : ∀ u v, (u, v) ∈ g.getEdgeList → (v, u) ∉ g.getEdgeList) {fuel : Nat} (hf : fuelBound g true ≤ fuel)
    {st : Preflow.PState N Q} (a : Preflow.preflowPush g OS col O has newQ algo src sink fuel = .ok st) :
    Preflow.PInv g cap items src sink st ∧ IsMaxFlow g.getEdgeList cap src sink st.flow := by
  obtain ⟨⟨pred, s, h1, h2⟩, _⟩ := C10_bfs_shortest hg hOS hOS' (Or.inr rfl) true none htn col hcol hf
  obtain ⟨out, st0, h3, h4, h5, h6, _⟩ := Preflow.start_ok (algo := algo) hg.wf hd hs hc hanti hsn htn hst hpos hq h2
  unfold Preflow.preflowPush at a
  rw [h1] at a
  simp only [] at a
  rw [h3] at a
  simp only [] at a
  rw [h4] at a
  simp only [] at a
  rcases Preflow.loop_ok (algo := algo) hg.wf hd hs hc hanti hsn fuel none _ h5 h6 with ⟨a', _⟩ | ⟨st', a', b, c, d⟩
  · rw [a'] at a; cases a
  · rw [a'] at a; cases a; exact ⟨b, Preflow.max_of_inv hg.wf hanti b c d hsn htn hst⟩

/-- a capacity as written in a label: INF for 10000 -/
def capText (c : Int) : String := if c = 10000 then "INF" else toString c

/-- the picture of a maximum flow `f`: the labels of the source, of the sink and of the other nodes, and the labels and colours of
the arcs -/
structure PicturesFlow (V : List N) (E : List (N × N)) (cap f : N × N → Int) (src sink : N) (p : PPic N) : Prop where
  atSource : p.node src = toString (-net E f sink) ++ "/" ++ toString V.length
  atSink : p.node sink = toString (net E f sink) ++ "/0"
  other : ∀ v ∈ V, v ≠ src → v ≠ sink → ∃ d : Nat, p.node v = "0/" ++ toString d
  label : ∀ e ∈ E, p.label e = capText (cap e) ++ "/" ++ toString (f e)
  full : ∀ e ∈ E, f e = cap e → p.edge e = .red
  used : ∀ e ∈ E, 0 < f e → f e < cap e → p.edge e = .green
  empty : ∀ e ∈ E, f e = 0 → 0 < cap e → p.edge e = .black

/-- **C130** -/
theorem C130_preflow_picture (hg : Built g) (hd : g.directed = true)
    (hOS : LawfulFIFO OS itemsS) (hOS' : OS.isPQ = false) (col : SState N QS) (hcol : itemsS col.q = [])
    (hs : LawfulSet O items has) {newQ : Q} (hq : items newQ = []) (algo : Preflow.PAlgo)
    (hc : ∀ u v, (u, v) ∈ g.getEdgeList → g.capOf u v = .ok (cap (u, v))) (hpos : ∀ e ∈ g.getEdgeList, 0 ≤ cap e)
    (hsn : src ∈ g.getNodeList) (htn : sink ∈ g.getNodeList) (hst : src ≠ sink)
    (hanti : ∀ u v, (u, v) ∈ g.getEdgeList → (v, u) ∉ g.getEdgeList) {fuel : Nat} (hf : fuelBound g true ≤ fuel)
    (p0 : PPic N) :
    (Preflow.preflowPushP g OS col O has newQ algo src sink fuel p0 = .error .diverge ∧
      Preflow.preflowPush g OS col O has newQ algo src sink fuel = .error .diverge ∧
      ((∀ v, ((src, v) ∈ g.getEdgeList ∧ 0 < cap (src, v)) ∨ ((v, src) ∈ g.getEdgeList ∧ 0 < cap (v, src)) →
        Reach g true sink v) → fuel < pushFuel g)) ∨
    ∃ st p, Preflow.preflowPushP g OS col O has newQ algo src sink fuel p0 = .ok (st, p) ∧
      Preflow.preflowPush g OS col O has newQ algo src sink fuel = .ok st ∧
      IsMaxFlow g.getEdgeList cap src sink st.flow ∧
      PicturesFlow g.getNodeList g.getEdgeList cap st.flow src sink p := by
  rcases preflow_cases hg hd hOS hOS' col hcol hs hq algo hc hpos hsn htn hst hanti hf with ⟨a, b⟩ | ⟨st, a, b, c⟩
  · exact Or.inl ⟨by rw [Preflow.preflowPushP_eq, a], a, b⟩
  · refine Or.inr ⟨st, Preflow.showP g st, by rw [Preflow.preflowPushP_eq, a], a, b, ?_⟩
    obtain ⟨hI, _⟩ := preflow_inv hg hd hOS hOS' col hcol hs hq algo hc hpos hsn htn hst hanti hf a
    have hE : ∀ e ∈ g.getEdgeList, g.capOf e.1 e.2 = .ok (cap e) := fun e he => hc e.1 e.2 he
    have hV : g.getNodeList.Nodup := hg.wf.nodup
    have hEV : ∀ e ∈ g.getEdgeList, e.1 ∈ g.getNodeList ∧ e.2 ∈ g.getNodeList := fun e he => hg.wf.endp e.1 e.2 he
    refine ⟨?_, ?_, ?_, ?_, ?_, ?_, ?_⟩
    · show toString (st.excess src) ++ "/" ++ toString (st.dist src) = _
      rw [c, net_source hV hEV hsn htn hst b.1.conserved, hI.dsrc]
      rfl
    · show toString (st.excess sink) ++ "/" ++ toString (st.dist sink) = _
      rw [c, hI.dsink, String.append_assoc]
      rfl
    · intro v _ h1 h2
      refine ⟨(st.dist v).toNat, ?_⟩
      show toString (st.excess v) ++ "/" ++ toString (st.dist v) = _
      rw [c, b.1.conserved v h1 h2]
      have := Int.toNat_of_nonneg (hI.d0 v)
      generalize (st.dist v).toNat = k at this
      rw [← this]
      rfl
    · intro e he
      show MaxFlow.flowLabel g e (st.flow e) = _
      unfold MaxFlow.flowLabel
      rw [hE e he]
      rfl
    · intro e he h
      show (if MaxFlow.atCap g e (st.flow e) = true then FColor.red else _) = _
      rw [if_pos]
      unfold MaxFlow.atCap
      rw [hE e he]
      simpa using h
    · intro e he h1 h2
      show (if MaxFlow.atCap g e (st.flow e) = true then FColor.red else if _ then _ else _) = _
      rw [if_neg, if_pos h1]
      unfold MaxFlow.atCap
      rw [hE e he]
      simp; omega
    · intro e he h1 h2
      show (if MaxFlow.atCap g e (st.flow e) = true then FColor.red else if _ then _ else _) = _
      rw [if_neg, if_neg (by omega)]
      unfold MaxFlow.atCap
      rw [hE e he]
      simp; omega

/-- **C131.** A number below the number of nodes that is the distance of no node exists when `max_flow_preflowpush` returns; each
such number separates the nodes by their distances into the two sides of a minimum cut. -/
theorem C131_preflow_distances_show_cut (hg : Built g) (hd : g.directed = true)
    (hOS : LawfulFIFO OS itemsS) (hOS' : OS.isPQ = false) (col : SState N QS) (hcol : itemsS col.q = [])
    (hs : LawfulSet O items has) {newQ : Q} (hq : items newQ = []) (algo : Preflow.PAlgo)
    (hc : ∀ u v, (u, v) ∈ g.getEdgeList → g.capOf u v = .ok (cap (u, v))) (hpos : ∀ e ∈ g.getEdgeList, 0 ≤ cap e)
    (hsn : src ∈ g.getNodeList) (htn : sink ∈ g.getNodeList) (hst : src ≠ sink)
    (hanti : ∀ u v, (u, v) ∈ g.getEdgeList → (v, u) ∉ g.getEdgeList) {fuel : Nat} (hf : fuelBound g true ≤ fuel)
    {st : Preflow.PState N Q} (hrun : Preflow.preflowPush g OS col O has newQ algo src sink fuel = .ok st) :
    (∃ L : Nat, L < g.getNodeList.length ∧ ∀ v ∈ g.getNodeList, st.dist v ≠ L) ∧
    ∀ L : Nat, L < g.getNodeList.length → (∀ v ∈ g.getNodeList, st.dist v ≠ L) →
      IsMinCut g.getEdgeList cap src sink (fun v => decide ((L : Int) < st.dist v)) ∧
      net g.getEdgeList st.flow sink = cutCap g.getEdgeList cap (fun v => decide ((L : Int) < st.dist v)) := by
  obtain ⟨hI, hM⟩ := preflow_inv hg hd hOS hOS' col hcol hs hq algo hc hpos hsn htn hst hanti hf hrun
  have hEV : ∀ e ∈ g.getEdgeList, e.1 ∈ g.getNodeList ∧ e.2 ∈ g.getNodeList := fun e he => hg.wf.endp e.1 e.2 he
  constructor
  · obtain ⟨L, h1, h2, h3⟩ := Preflow.gap g.getNodeList (fun v => min (st.dist v) g.getNodeList.length) 0
    have hL1 := h3 src hsn
    simp only [hI.dsrc] at hL1
    refine ⟨L.toNat, by omega, fun v hv => ?_⟩
    have := h3 v hv
    omega
  · intro L hL hno
    have h0 := hno sink htn
    rw [hI.dsink] at h0
    have e1 : decide ((L : Int) < st.dist src) = true := by rw [hI.dsrc]; simpa using hL
    have e2 : decide ((L : Int) < st.dist sink) = false := by rw [hI.dsink]; simp
    have hval : net g.getEdgeList st.flow sink = cutCap g.getEdgeList cap (fun v => decide ((L : Int) < st.dist v)) := by
      refine flow_eq_cut (S := fun v => decide ((L : Int) < st.dist v)) hg.wf.nodup hEV htn hM.1 e1 e2 ?_ ?_
      · rintro ⟨u, v⟩ he hu hv
        simp only [decide_eq_true_eq, decide_eq_false_iff_not] at hu hv
        have hw := hI.within _ he
        by_contra hne
        have hU : MaxFlow.Use g cap st.flow u v := ⟨Or.inl he, by unfold MaxFlow.pot; rw [if_pos he]; omega⟩
        have a := hI.valid u v hU
        have b := hno v (hg.wf.endp _ _ he).2
        omega
      · rintro ⟨u, v⟩ he hu hv
        simp only [decide_eq_true_eq, decide_eq_false_iff_not] at hu hv
        have hw := hI.within _ he
        by_contra hne
        have hU : MaxFlow.Use g cap st.flow v u := ⟨Or.inr he, by unfold MaxFlow.pot; rw [if_neg (hanti _ _ he)]; omega⟩
        have a := hI.valid v u hU
        have b := hno u (hg.wf.endp _ _ he).1
        omega
    exact ⟨⟨e1, e2, fun S' hs' ht' => by rw [← hval]; exact flow_le_cut hg.wf.nodup hEV htn hM.1 hs' ht'⟩, hval⟩

/-- the picture of a run -/
def pushPic (g : Graph Nat) {Q : Type} (r : Except PyErr (Preflow.PState Nat Q × PPic Nat)) : Option (List String × List String × List FColor) :=
  match r with
  | .ok (_, p) => some (g.getNodeList.map p.node, g.getEdgeList.map p.label, g.getEdgeList.map p.edge)
  | .error _ => none

example : pushPic exP (Preflow.preflowPushP exP queueOps (exCol []) queueOps (fun q x => decide (x ∈ q)) [] .fifo 0 3 40
    ⟨fun _ => "", fun _ => .blue, fun _ => ""⟩) =
    some (["-5/4", "0/5", "0/1", "5/0"], ["7/3", "2/2", "1/1", "2/2", "4/3"], [.green, .red, .red, .red, .green]) := by
  decide +kernel

/-- the distances of this run are 4, 5, 1, 0; the gaps below 4 are 2 and 3, and the arcs from the nodes 0, 1 to the nodes 2, 3 have
the capacities 2, 1, 2 -/
example : cutCap exP.getEdgeList exPCap (fun v => decide ((2 : Int) < if v = 0 then 4 else if v = 1 then 5 else if v = 2 then 1 else 0)) = 5 ∧
    cutCap exP.getEdgeList exPCap (fun v => decide (v = 0)) = 9 := by decide +kernel

/-- the remaining hypotheses of `C130_preflow_picture` and `C131_preflow_distances_show_cut` for `exP` -/
example : fuelBound exP true ≤ 40 ∧ exP.directed = true ∧ 0 ∈ exP.getNodeList ∧ 3 ∈ exP.getNodeList ∧
    (∀ e ∈ exP.getEdgeList, e.swap ∉ exP.getEdgeList ∧ 0 ≤ exPCap e ∧ exP.capOf e.1 e.2 = .ok (exPCap e)) := by
  decide +kernel

end GiMPy
