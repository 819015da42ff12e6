import Verif.Model.MaxFlow
import Verif.Lemmas.Flow
import Verif.Lemmas.Components

/-! # The augmenting path algorithm -/

namespace GiMPy
namespace MaxFlow
open Search
variable {N : Type} [DecidableEq N] {Q : Type} {g : Graph N} {O : QOps N Q} {items : Q → List N}
variable {cap f : N × N → Int} {src sink : N}
set_option linter.unusedSectionVars false

/-- the capacities of the model -/
def HasCaps (g : Graph N) (cap : N × N → Int) : Prop := ∀ u v, (u, v) ∈ g.getEdgeList → g.capOf u v = .ok (cap (u, v))

/-- residual capacity of the step from `u` to `v`; the arc `(u,v)` takes precedence over `(v,u)` -/
def pot (g : Graph N) (cap f : N × N → Int) (u v : N) : Int :=
  if (u, v) ∈ g.getEdgeList then cap (u, v) - f (u, v) else f (v, u)

/-- joined by an arc -/
def Adj (g : Graph N) (u v : N) : Prop := (u, v) ∈ g.getEdgeList ∨ (v, u) ∈ g.getEdgeList

/-- a usable step -/
def Use (g : Graph N) (cap f : N × N → Int) (u v : N) : Prop := Adj g u v ∧ 0 < pot g cap f u v

theorem contains_edge (g : Graph N) (u v : N) : g.edgeAttr.contains (u, v) = true ↔ (u, v) ∈ g.getEdgeList :=
  Dict.contains_iff _ _

theorem flowOf_ok {u v : N} (h : (u, v) ∈ g.getEdgeList) (f : N × N → Int) : g.flowOf f u v = .ok (f (u, v)) := by
  unfold Graph.flowOf; rw [if_pos ((contains_edge g u v).2 h)]

theorem potential_ok (hc : HasCaps g cap) {m cur : N} (h : Adj g m cur) : potential g f m cur = .ok (pot g cap f m cur) := by
  unfold potential pot
  by_cases h1 : (m, cur) ∈ g.getEdgeList
  · rw [if_pos ((contains_edge g m cur).2 h1), if_pos h1, hc m cur h1]
  · rw [if_neg (fun h' => h1 ((contains_edge g m cur).1 h')), if_neg h1, flowOf_ok (h.resolve_left h1)]

theorem avail_ok (hc : HasCaps g cap) {cur m : N} {out : List N} (hout : m ∈ out ↔ (cur, m) ∈ g.getEdgeList)
    (h : Adj g cur m) : avail g f cur out m = .ok (pot g cap f cur m) := by
  unfold avail pot
  by_cases h1 : (cur, m) ∈ g.getEdgeList
  · rw [if_pos (hout.2 h1), if_pos h1, hc cur m h1, flowOf_ok h1]
  · rw [if_neg (fun h' => h1 (hout.1 h')), if_neg h1, flowOf_ok (h.resolve_left h1)]

/-- the explored nodes, newest first, each with an older predecessor -/
inductive Expl (P : N → N → Prop) (pred : Dict N (Option N)) (src : N) : List N → Prop
  | base : pred.get? src = some none → Expl P pred src [src]
  | step {l m p} : Expl P pred src l → m ∉ l → p ∈ l → pred.get? m = some (some p) → P p m → Expl P pred src (m :: l)

theorem Expl.nodup {P : N → N → Prop} {pred : Dict N (Option N)} {l : List N} (h : Expl P pred src l) : l.Nodup := by
  induction h with
  | base _ => simp
  | step _ h _ _ _ ih => exact List.nodup_cons.2 ⟨h, ih⟩

theorem Expl.src_mem {P : N → N → Prop} {pred : Dict N (Option N)} {l : List N} (h : Expl P pred src l) : src ∈ l := by
  induction h with
  | base _ => simp
  | step _ h _ _ _ ih => simp [ih]

theorem Expl.set {P : N → N → Prop} {pred : Dict N (Option N)} {l : List N} (h : Expl P pred src l) {m : N} (hm : m ∉ l)
    (x : Option N) : Expl P (pred.set m x) src l := by
  induction h with
  | base h => exact .base (by rw [Dict.get?_set_ne _ _ (by rintro rfl; simp at hm)]; exact h)
  | step _ h1 h2 h3 h4 ih =>
    rw [List.mem_cons, not_or] at hm
    exact .step (ih hm.2) h1 h2 (by rw [Dict.get?_set_ne _ _ hm.1]; exact h3) h4

/-- the predecessor links from the head of the list to the source -/
inductive Tr (P : N → N → Prop) (pred : Dict N (Option N)) (src : N) : List N → Prop
  | base : Tr P pred src [src]
  | step {x p L} : pred.get? x = some (some p) → x ≠ src → P p x → Tr P pred src (p :: L) → Tr P pred src (x :: p :: L)

theorem Expl.trace {P : N → N → Prop} {pred : Dict N (Option N)} {l : List N} (h : Expl P pred src l) :
    ∀ x ∈ l, ∃ L, Tr P pred src (x :: L) ∧ (x :: L).Nodup ∧ ∀ y ∈ x :: L, y ∈ l := by
  induction h with
  | base h =>
    intro x hx
    obtain rfl := List.mem_singleton.1 hx
    exact ⟨[], .base, by simp, by simp⟩
  | @step l m p h0 h1 h2 h3 h4 ih =>
    intro x hx
    rcases List.mem_cons.1 hx with rfl | hx
    · obtain ⟨L, a, b, c⟩ := ih p h2
      refine ⟨p :: L, .step h3 (fun h => h1 (h ▸ h0.src_mem)) h4 a, List.nodup_cons.2 ⟨fun h => h1 (c x h), b⟩, ?_⟩
      intro y hy
      rcases List.mem_cons.1 hy with rfl | hy
      · simp
      · exact List.mem_cons_of_mem _ (c y hy)
    · obtain ⟨L, a, b, c⟩ := ih x hx
      exact ⟨L, a, b, fun y hy => List.mem_cons_of_mem _ (c y hy)⟩

/-- state of the search; `C u v` says that the pair has been looked at from `u` -/
structure XInv (g : Graph N) (cap f : N × N → Int) (items : Q → List N) (src : N) (C : N → N → Prop) (k : Nat)
    (st : XState N Q) : Prop where
  keys : ∀ v, v ∈ st.pred.keys ↔ v ∈ st.explored
  expl : Expl (Use g cap f) st.pred src st.explored
  node : ∀ v ∈ st.explored, v ∈ g.getNodeList
  item : ∀ v ∈ items st.q, v ∈ st.explored
  closed : ∀ u ∈ st.explored, u ∈ items st.q ∨ ∀ v, C u v → Use g cap f u v → v ∈ st.explored
  len : (items st.q).length + g.getNodeList.length ≤ k + st.explored.length

theorem XInv.weaken {C C' : N → N → Prop} {k : Nat} {st : XState N Q} (h : XInv g cap f items src C k st)
    (hC : ∀ u v, C' u v → Use g cap f u v → C u v ∨ v ∈ st.explored) : XInv g cap f items src C' k st := by
  refine ⟨h.keys, h.expl, h.node, h.item, fun u hu => ?_, h.len⟩
  refine (h.closed u hu).imp id fun h1 v hv hU => ?_
  exact (hC u v hv hU).elim (fun h2 => h1 v h2 hU) id

theorem scan_ok (hwf : g.Wf) (hb : LawfulBag O items) (hc : HasCaps g cap) {cur : N} {out : List N}
    (hout : ∀ v, v ∈ out ↔ (cur, v) ∈ g.getEdgeList) {k : Nat} : ∀ (l done : List N) (st : XState N Q),
    (∀ m ∈ l, Adj g cur m) → cur ∈ st.explored → XInv g cap f items src (fun u v => u ≠ cur ∨ v ∈ done) k st →
    ∃ st', scan g O f cur out l st = .ok st' ∧
      XInv g cap f items src (fun u v => u ≠ cur ∨ v ∈ l ∨ v ∈ done) k st' := by
  intro l
  induction l with
  | nil => intro done st _ _ h; exact ⟨st, rfl, by simpa using h⟩
  | cons m l ih =>
    intro done st hl hcur h
    rw [scan]
    have hfin : ∀ st', XInv g cap f items src (fun u v => u ≠ cur ∨ v ∈ l ∨ v ∈ m :: done) k st' →
        XInv g cap f items src (fun u v => u ≠ cur ∨ v ∈ m :: l ∨ v ∈ done) k st' := fun st' h' =>
      h'.weaken fun u v hv _ => Or.inl (by simp only [List.mem_cons] at hv ⊢; tauto)
    by_cases hm : m ∈ st.explored
    · rw [if_pos hm]
      obtain ⟨st', a, b⟩ := ih (m :: done) st (fun x hx => hl x (by simp [hx])) hcur
        (h.weaken fun u v hv _ => by
            simp only [List.mem_cons] at hv
            rcases hv with hv | rfl | hv
            · exact Or.inl (Or.inl hv)
            · exact Or.inr hm
            · exact Or.inl (Or.inr hv))
      exact ⟨st', a, hfin st' b⟩
    · rw [if_neg hm, avail_ok hc (hout m) (hl m (by simp))]
      simp only []
      by_cases ha : pot g cap f cur m > 0
      · rw [if_pos ha]
        have hU : Use g cap f cur m := ⟨hl m (by simp), ha⟩
        have hmn : m ∈ g.getNodeList := by
          rcases hU.1 with h1 | h1
          · exact (hwf.endp _ _ h1).2
          · exact (hwf.endp _ _ h1).1
        obtain ⟨st', a, b⟩ := ih (m :: done) ⟨O.push st.q m, st.pred.set m (some cur), m :: st.explored⟩
          (fun x hx => hl x (by simp [hx])) (by simp [hcur]) (by
            refine ⟨?_, ?_, ?_, ?_, ?_, ?_⟩
            · intro v
              simp only [Dict.mem_keys_set, List.mem_cons, h.keys v]
            · exact .step (h.expl.set hm _) hm hcur (Dict.get?_set_self _ _ _) hU
            · intro v hv
              rcases List.mem_cons.1 hv with rfl | hv
              · exact hmn
              · exact h.node v hv
            · intro v hv
              rcases (hb.mem_push _ _ _).1 hv with rfl | hv
              · simp
              · exact List.mem_cons_of_mem _ (h.item v hv)
            · intro u hu
              simp only [hb.mem_push]
              rcases List.mem_cons.1 hu with rfl | hu
              · exact Or.inl (Or.inl rfl)
              · refine (h.closed u hu).imp Or.inr fun h1 v hv hU => ?_
                simp only [List.mem_cons] at hv ⊢
                rcases hv with hv | rfl | hv
                · exact Or.inr (h1 v (Or.inl hv) hU)
                · exact Or.inl rfl
                · exact Or.inr (h1 v (Or.inr hv) hU)
            · have := hb.len_push st.q m
              have := h.len
              simp only [List.length_cons]; omega)
        exact ⟨st', a, hfin st' b⟩
      · rw [if_neg ha]
        obtain ⟨st', a, b⟩ := ih (m :: done) st (fun x hx => hl x (by simp [hx])) hcur
          (h.weaken fun u v hv hU => by
              simp only [List.mem_cons] at hv
              rcases hv with hv | rfl | hv
              · exact Or.inl (Or.inl hv)
              · by_cases huc : u = cur
                · subst huc; exact absurd hU.2 ha
                · exact Or.inl (Or.inl huc)
              · exact Or.inl (Or.inr hv))
        exact ⟨st', a, hfin st' b⟩

/-- neighbour lists of a digraph -/
theorem nbrs_edges (hwf : g.Wf) (hd : g.directed = true) {u : N} (hu : u ∈ g.getNodeList) :
    ∃ out inn, g.getNeighbors u = .ok out ∧ g.getInNeighbors u = .ok inn ∧
      (∀ v, v ∈ out ↔ (u, v) ∈ g.getEdgeList) ∧ ∀ v, v ∈ inn ↔ (v, u) ∈ g.getEdgeList := by
  have hs : ∀ a b, g.checkEdge a b = true ↔ (a, b) ∈ g.getEdgeList := by
    intro a b; unfold Graph.checkEdge; rw [if_pos hd, contains_edge]
  obtain ⟨out, h1, h2⟩ := nbrs_ok hwf false hu
  obtain ⟨inn, h3, h4⟩ := nbrs_ok hwf true hu
  refine ⟨out, inn, by simpa [nbrs] using h1, by simpa [nbrs, hd] using h3, ?_, ?_⟩
  · intro v; rw [h2]; simp [Step, hs]
  · intro v; rw [h4]; simp [Step, hs]

theorem find_ok (hwf : g.Wf) (hd : g.directed = true) (hb : LawfulBag O items) (hc : HasCaps g cap) (k : Nat) :
    ∀ (st : XState N Q), XInv g cap f items src (fun _ _ => True) k st →
    ∃ st', find g O f sink (k + 1) st = .ok st' ∧ Expl (Use g cap f) st'.pred src st'.explored ∧
      (∀ v, v ∈ st'.pred.keys ↔ v ∈ st'.explored) ∧ (∀ v ∈ st'.explored, v ∈ g.getNodeList) ∧
      (sink ∉ st'.explored → ∀ u ∈ st'.explored, ∀ v, Use g cap f u v → v ∈ st'.explored) := by
  induction k with
  | zero =>
    intro st h
    have hsub : st.explored.length ≤ g.getNodeList.length :=
      (List.subperm_of_subset h.expl.nodup h.node).length_le
    have hq : items st.q = [] := List.length_eq_zero_iff.1 (by have := h.len; omega)
    rw [find, if_pos ((hb.isEmpty_iff _).2 hq)]
    refine ⟨st, rfl, h.expl, h.keys, h.node, fun _ u hu v hv => ?_⟩
    exact ((h.closed u hu).resolve_left (by rw [hq]; simp)) v trivial hv
  | succ k ih =>
    intro st h
    rw [find]
    by_cases he : O.isEmpty st.q = true
    · rw [if_pos he]
      have hq := (hb.isEmpty_iff _).1 he
      refine ⟨st, rfl, h.expl, h.keys, h.node, fun _ u hu v hv => ?_⟩
      exact ((h.closed u hu).resolve_left (by rw [hq]; simp)) v trivial hv
    · rw [if_neg he]
      obtain ⟨cur, hcur, hpk⟩ := hb.peek_mem st.q (fun h => he ((hb.isEmpty_iff _).2 h))
      rw [hpk]
      simp only []
      have hce := h.item cur hcur
      by_cases hcs : cur = sink
      · rw [if_pos hcs]
        exact ⟨_, rfl, h.expl, h.keys, h.node, fun h' => absurd (hcs ▸ hce) h'⟩
      · rw [if_neg hcs]
        obtain ⟨out, inn, h1, h2, h3, h4⟩ := nbrs_edges hwf hd (h.node cur hce)
        simp only [h1, h2]
        obtain ⟨st1, e1, e2⟩ := scan_ok (f := f) (src := src) (O := O) (k := k) hwf hb hc h3 (out ++ inn) []
          { st with q := O.remove st.q cur }
          (by
            intro m hm
            rcases List.mem_append.1 hm with hm | hm
            · exact Or.inl ((h3 m).1 hm)
            · exact Or.inr ((h4 m).1 hm)) hce (by
            have hrem : ∀ v, v ∈ items (O.remove st.q cur) → v ∈ items st.q := by
              intro v hv
              by_cases hvc : v = cur
              · rw [hvc]; exact hcur
              · exact (hb.mem_remove _ _ hcur v hvc).1 hv
            refine ⟨h.keys, h.expl, h.node, fun v hv => h.item v (hrem v hv), ?_, ?_⟩
            · intro u hu
              by_cases huc : u = cur
              · right
                intro v hv
                simp [huc] at hv
              · refine (h.closed u hu).imp (fun h' => (hb.mem_remove _ _ hcur u huc).2 h') fun h' v _ => h' v trivial
            · have := hb.len_remove _ _ hcur
              have := h.len
              simp only []; omega)
        rw [e1]
        refine ih st1 (e2.weaken fun u v _ hU => Or.inl ?_)
        by_cases huc : u = cur
        · subst huc
          right; left
          rw [List.mem_append, h3, h4]
          exact hU.1
        · exact Or.inl huc

theorem bottleneck_ok (hc : HasCaps g cap) {pred : Dict N (Option N)} (k : Nat) : ∀ (x p : N) (L : List N) (mn : Option Int),
    Tr (Use g cap f) pred src (x :: p :: L) → L.length < k → (∀ y, mn = some y → 0 < y) →
    ∃ d, bottleneck g f pred src k x mn = .ok d ∧ 0 < d ∧ (∀ y, mn = some y → d ≤ y) ∧
      (x :: p :: L).IsChain fun a b => d ≤ pot g cap f b a := by
  induction k with
  | zero => intro x p L mn _ h; omega
  | succ k ih =>
    intro x p L mn hT hk hmn
    cases hT with
    | step h1 h2 h3 h4 =>
      rw [bottleneck, h1]
      simp only []
      rw [potential_ok hc h3.1]
      simp only []
      have hlow : 0 < lowest mn (pot g cap f p x) ∧ lowest mn (pot g cap f p x) ≤ pot g cap f p x ∧
          ∀ y, mn = some y → lowest mn (pot g cap f p x) ≤ y := by
        have h3 := h3.2
        cases mn with
        | none => exact ⟨h3, Int.le_refl _, by simp⟩
        | some y =>
          have := hmn y rfl
          simp only [lowest, Option.some.injEq, forall_eq']
          split <;> omega
      cases h4 with
      | base =>
        rw [if_pos rfl]
        exact ⟨_, rfl, hlow.1, hlow.2.2, by simpa using hlow.2.1⟩
      | @step _ p' L' a1 a2 a3 a4 =>
        rw [if_neg a2]
        obtain ⟨d, d1, d2, d3, d4⟩ := ih p p' L' (some (lowest mn (pot g cap f p x))) (.step a1 a2 a3 a4)
          (by simp at hk; omega) (by intro y hy; obtain rfl := Option.some.inj hy; exact hlow.1)
        have hd := d3 _ rfl
        refine ⟨d, d1, d2, fun y hy => Int.le_trans hd (hlow.2.2 y hy), ?_⟩
        exact List.isChain_cons_cons.2 ⟨Int.le_trans hd hlow.2.1, d4⟩

theorem Adj.symm {u v : N} (h : Adj g u v) : Adj g v u := Or.symm h

/-- one arc update -/
theorem pushArc_ok (hwf : g.Wf) {m cur : N} (h : Adj g m cur) {d : Int} (hw : Within g.getEdgeList cap f) (hd : 0 ≤ d)
    (hp : d ≤ pot g cap f m cur) :
    ∃ f', pushArc g f m cur d = .ok f' ∧ Within g.getEdgeList cap f' ∧
      (∀ v, net g.getEdgeList f' v = net g.getEdgeList f v + ((if cur = v then d else 0) - (if m = v then d else 0))) ∧
      ∀ e, e.1 ≠ cur → e.2 ≠ cur → f' e = f e := by
  have hE : g.getEdgeList.Nodup := hwf.edup
  unfold pushArc
  unfold pot at hp
  by_cases h1 : (m, cur) ∈ g.getEdgeList
  · rw [if_pos ((contains_edge g m cur).2 h1)]
    rw [if_pos h1] at hp
    refine ⟨_, rfl, ?_, ?_, ?_⟩
    · intro e he
      have := hw e he
      unfold upd
      split
      · next h => subst h; omega
      · exact this
    · intro v
      rw [net_upd hE f h1]
      simp only [add_sub_cancel_left]
    · intro e h2 h3
      unfold upd; rw [if_neg (by rintro rfl; exact h3 rfl)]
  · have h2 := h.resolve_left h1
    rw [if_neg (fun h' => h1 ((contains_edge g m cur).1 h')), if_pos ((contains_edge g cur m).2 h2)]
    rw [if_neg h1] at hp
    refine ⟨_, rfl, ?_, ?_, ?_⟩
    · intro e he
      have := hw e he
      unfold upd
      split
      · next h => subst h; omega
      · exact this
    · intro v
      rw [net_upd hE f h2]
      simp only []
      split <;> split <;> omega
    · intro e h2 h3
      unfold upd; rw [if_neg (by rintro rfl; exact h2 rfl)]

theorem augment_ok (hwf : g.Wf) {P : N → N → Prop} (hP : ∀ u v, P u v → Adj g u v) {pred : Dict N (Option N)} {d : Int}
    (hd : 0 ≤ d) (k : Nat) : ∀ (x p : N) (L : List N) (f : N × N → Int),
    Tr P pred src (x :: p :: L) → (x :: p :: L).Nodup → L.length < k → Within g.getEdgeList cap f →
    (x :: p :: L).IsChain (fun a b => d ≤ pot g cap f b a) →
    ∃ f', augment g pred src d k x f = .ok f' ∧ Within g.getEdgeList cap f' ∧
      ∀ v, net g.getEdgeList f' v = net g.getEdgeList f v + ((if x = v then d else 0) - (if src = v then d else 0)) := by
  induction k with
  | zero => intro x p L f _ _ h; omega
  | succ k ih =>
    intro x p L f hT hn hk hw hch
    rw [List.isChain_cons_cons] at hch
    cases hT with
    | step h1 h2 h3 h4 =>
      rw [augment, h1]
      simp only []
      obtain ⟨f1, e1, e2, e3, e4⟩ := pushArc_ok hwf (hP _ _ h3) hw hd hch.1
      rw [e1]
      simp only []
      cases h4 with
      | base => rw [if_pos rfl]; exact ⟨f1, rfl, e2, e3⟩
      | @step _ p' L' a1 a2 a3 a4 =>
        rw [if_neg a2]
        rw [List.nodup_cons] at hn
        have hch' : (p :: p' :: L').IsChain (fun a b => d ≤ pot g cap f1 b a) := by
          have := chain_restrict (fun y => y ≠ x) hch.2 (fun y hy => by rintro rfl; exact hn.1 hy)
          refine this.imp ?_
          rintro a b ⟨h5, h6, h7⟩
          unfold pot at h5 ⊢
          rw [e4 (b, a) h7 h6, e4 (a, b) h6 h7]
          exact h5
        obtain ⟨f2, d1, d2, d3⟩ := ih p p' L' f1 (.step a1 a2 a3 a4) hn.2 (by simp at hk; omega) e2 hch'
        refine ⟨f2, d1, d2, ?_⟩
        intro v
        rw [d3, e3]; ring

/-- the outer loop -/
theorem loop_ok (hwf : g.Wf) (hd : g.directed = true) (hb : LawfulBag O items) (hc : HasCaps g cap) {newQ : Q}
    (hq : items newQ = []) (hs : src ∈ g.getNodeList) (hst : src ≠ sink) {inner : Nat}
    (hin : g.getNodeList.length < inner) (k : Nat) : ∀ f, IsFlow g.getEdgeList cap src sink f →
    (g.getEdgeList.map cap).sum - net g.getEdgeList f sink < k →
    ∃ f', loop g O newQ src sink inner k f = .ok f' ∧ IsFlow g.getEdgeList cap src sink f' ∧
      ∃ S : N → Prop, S src ∧ ¬ S sink ∧ ∀ u, S u → ∀ v, Use g cap f' u v → S v := by
  induction k with
  | zero =>
    intro f hf hk
    have := net_le_total hf.within sink
    simp at hk; omega
  | succ k ih =>
    intro f hf hk
    rw [loop]
    have h0 : XInv g cap f items src (fun _ _ => True) (inner - 1)
        (⟨O.push newQ src, Dict.empty.set src none, [src]⟩ : XState N Q) := by
      have hi : ∀ v, v ∈ items (O.push newQ src) ↔ v = src := by intro v; rw [hb.mem_push, hq]; simp
      refine ⟨?_, .base (Dict.get?_set_self _ _ _), ?_, ?_, ?_, ?_⟩
      · intro v; rw [Dict.mem_keys_set]; simp [Dict.empty, Dict.keys]
      · intro v hv; obtain rfl := List.mem_singleton.1 hv; exact hs
      · intro v hv; simpa using (hi v).1 hv
      · intro u hu; exact Or.inl ((hi u).2 (List.mem_singleton.1 hu))
      · have := hb.len_push newQ src
        rw [hq] at this
        simp only [List.length_nil, List.length_singleton] at this ⊢; omega
    obtain ⟨st, e1, e2, e3, e4, e5⟩ := find_ok (sink := sink) hwf hd hb hc (inner - 1) _ h0
    rw [show inner - 1 + 1 = inner by omega] at e1
    rw [e1]
    simp only []
    by_cases hk' : st.pred.contains sink = true
    · rw [if_pos hk']
      rw [Dict.contains_iff, e3] at hk'
      obtain ⟨L, t1, t2, t3⟩ := e2.trace sink hk'
      have hlen : (sink :: L).length ≤ g.getNodeList.length :=
        (List.subperm_of_subset t2 fun y hy => e4 y (t3 y hy)).length_le
      cases L with
      | nil => cases t1; exact absurd rfl hst
      | cons p L =>
        simp only [List.length_cons] at hlen
        obtain ⟨d, d1, d2, d3, d4⟩ := bottleneck_ok (f := f) hc inner sink p L none t1 (by omega) (by simp)
        rw [d1]
        simp only []
        obtain ⟨f', a1, a2, a3⟩ := augment_ok (cap := cap) hwf (fun u v h => h.1) (Int.le_of_lt d2) inner sink p L f t1 t2
          (by omega) hf.within d4
        rw [a1]
        refine ih f' ⟨a2, ?_⟩ ?_
        · intro v hv1 hv2
          rw [a3, hf.conserved v hv1 hv2, if_neg (Ne.symm hv2), if_neg (Ne.symm hv1)]; rfl
        · have := a3 sink
          rw [if_pos rfl, if_neg hst] at this
          push_cast at hk; omega
    · rw [if_neg hk']
      rw [Dict.contains_iff, e3] at hk'
      exact ⟨f, rfl, hf, (· ∈ st.explored), e2.src_mem, hk', e5 hk'⟩

end MaxFlow
end GiMPy
