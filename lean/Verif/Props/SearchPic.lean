import Verif.Lemmas.SearchPic
import Verif.Props.Search

/-! # C124, C125: what `search` leaves in the colours and labels -/

namespace GiMPy
open Search
variable {N : Type} [DecidableEq N] {Q : Type}
variable {g : Graph N} {O : QOps N Q} {items : Q → List N} {rev : Bool} {src : N}

/-- `e` is the edge along which the search steps from `u` to `v` -/
def Joins (g : Graph N) (rev : Bool) (u v : N) (e : N × N) : Prop :=
  if g.directed then e = (if rev then (v, u) else (u, v)) else e = (u, v) ∨ e = (v, u)

/-- `e` is an edge of the tree given by the predecessors `pred` -/
def TreeEdge (g : Graph N) (rev : Bool) (pred : Dict N N) (e : N × N) : Prop :=
  ∃ v u, pred.get? v = some u ∧ Joins g rev u v e

/-- The colours show the tree `pred` grown from `src`: its nodes and edges are green, the rest is black. -/
def ShowsTree (g : Graph N) (rev : Bool) (src : N) (pred : Dict N N) (color : N → Color) (edge : N × N → EColor) : Prop :=
  (∀ v, (v = src ∨ v ∈ pred.keys) → color v = .green) ∧ (∀ v, ¬ (v = src ∨ v ∈ pred.keys) → color v = .black) ∧
  ∀ e ∈ g.edgeAttr.keys, (TreeEdge g rev pred e → edge e = .green) ∧ (¬ TreeEdge g rev pred e → edge e = .black)

/-- The colours show the path `l` to `dst`: its edges are green, its nodes are green, the last one is blue; nothing but
edges of the tree is green. -/
def ShowsPath (g : Graph N) (rev : Bool) (dst : N) (pred : Dict N N) (l : List N) (color : N → Color)
    (edge : N × N → EColor) : Prop :=
  l.IsChain (fun u v => ∃ e ∈ g.edgeAttr.keys, Joins g rev u v e ∧ edge e = .green) ∧
  (∀ v ∈ l, v ≠ dst → color v = .green) ∧ color dst = .blue ∧
  ∀ e ∈ g.edgeAttr.keys, (edge e = .green ∧ TreeEdge g rev pred e) ∨ edge e = .black

theorem ekey_joins (hw : g.Wf) {u v : N} {e : N × N} (hs : Step g rev u v) (he : e ∈ g.edgeAttr.keys) :
    ekey g rev u v = e ↔ Joins g rev u v e := by
  unfold Step at hs
  unfold ekey Joins
  have hk : ∀ a b, g.edgeAttr.contains (a, b) = true ↔ (a, b) ∈ g.edgeAttr.keys := fun a b => Dict.contains_iff _ _
  cases hd : g.directed with
  | true =>
    simp only [if_true]
    cases rev with
    | true =>
      simp only [if_true] at hs ⊢
      have : g.edgeAttr.contains (v, u) = true := by simpa [Graph.checkEdge, hd] using hs
      simp only [Graph.edgeKey, this, if_true, eq_comm]
    | false =>
      simp only [if_false, Bool.false_eq_true] at hs ⊢
      have : g.edgeAttr.contains (u, v) = true := by simpa [Graph.checkEdge, hd] using hs
      simp only [Graph.edgeKey, this, if_true, eq_comm]
  | false =>
    simp only [if_false, Bool.false_eq_true]
    have key : ∀ a b, g.checkEdge a b = true → (g.edgeKey a b = e ↔ e = (a, b) ∨ e = (b, a)) := by
      intro a b hab
      unfold Graph.edgeKey
      constructor
      · split
        · intro h; exact .inl h.symm
        · intro h; exact .inr h.symm
      · rintro (rfl | rfl)
        · rw [if_pos ((hk _ _).2 he)]
        · by_cases h : g.edgeAttr.contains (a, b) = true
          · rw [if_pos h]
            rw [hw.simple hd _ _ ((hk _ _).1 h) he]
          · rw [if_neg h]
    cases rev with
    | true =>
      simp only [if_true] at hs ⊢
      rw [key _ _ hs, or_comm]
    | false =>
      simp only [if_false, Bool.false_eq_true] at hs ⊢
      rw [key _ _ hs]

theorem reconstruct_chain {pred : Dict N N} {R : N → N → Prop} {P : N → Prop} (hR : ∀ v u, P v → pred.get? v = some u → R u v ∧ P u)
    (f : Nat) (cur : N) (path : List N) {l : List N} (hc : P cur) (h : reconstruct pred src f cur (cur :: path) = .ok l)
    (hp : (cur :: path).IsChain R) (hP : ∀ v ∈ path, P v) : l.IsChain R ∧ ∀ v ∈ l, P v := by
  induction f generalizing cur path with
  | zero => cases h
  | succ f ih =>
    unfold reconstruct at h
    by_cases h1 : cur = src
    · rw [if_pos h1] at h; cases h
      refine ⟨hp, fun v hv => ?_⟩
      rcases List.mem_cons.1 hv with rfl | hv
      · exact hc
      · exact hP v hv
    · rw [if_neg h1] at h
      cases h2 : pred.get? cur with
      | none => rw [h2] at h; cases h
      | some u =>
        rw [h2] at h
        obtain ⟨h3, h4⟩ := hR cur u hc h2
        refine ih u (cur :: path) h4 h (List.isChain_cons_cons.2 ⟨h3, hp⟩) ?_
        intro v hv
        rcases List.mem_cons.1 hv with rfl | hv
        · exact hc
        · exact hP v hv

theorem Search.PI.tree {S : N → Prop} {st : SState N Q} {p : Pic N} (hw : g.Wf) (h : PI g items rev src S st p)
    (hS : ∀ v ∈ st.pred.keys, S v) :
    ∀ e ∈ g.edgeAttr.keys, (TreeEdge g rev st.pred e → p.edge e = .green) ∧ (¬ TreeEdge g rev st.pred e → p.edge e = .black) := by
  intro e he
  obtain ⟨h1, h2⟩ := h.edge e he
  have h3 : p.edge e = .green ↔ TreeEdge g rev st.pred e := by
    rw [h2]
    constructor
    · rintro ⟨v, u, _, hu, hk⟩
      exact ⟨v, u, hu, (ekey_joins hw (h.link v u hu).2 he).1 hk⟩
    · rintro ⟨v, u, hu, hk⟩
      exact ⟨v, u, hS v (Dict.mem_keys_of_get? hu), hu, (ekey_joins hw (h.link v u hu).2 he).2 hk⟩
  refine ⟨h3.2, fun hn => ?_⟩
  rcases h1 with h1 | h1
  · exact absurd (h3.1 h1) hn
  · exact h1

theorem Search.LI.shows {J} {st : SState N Q} {p : Pic N} (hw : g.Wf) (h : LI g items rev src J st p) (hq : items st.q = []) :
    ShowsTree g rev src st.pred st.color p.edge := by
  have hg : ∀ v, v = src ∨ v ∈ st.pred.keys → st.color v = .green := by
    intro v hv
    rcases h.pi.wait v hv with h1 | h1
    · exact h1
    · rw [hq] at h1; cases h1
  exact ⟨hg, h.pi.dark, h.pi.tree hw fun v hv => hg v (.inr hv)⟩

/-- everything that a returning `search` leaves, for any property `J` of the labels kept by its steps -/
theorem searchP_spec (hg : Built g) (hb : LawfulBag O items) (hns : ∀ v, ¬ Step g rev v v) {algo : Algo}
    {comp : Option Int} {dest : Option N} {col : SState N Q} (hq : items col.q = []) {pic : Pic N} {fuel : Nat} {J}
    (L : Lab g O items rev src algo comp J)
    (hJ : ∀ lab : N → Val N, (∀ v ∈ g.getNodeList, lab v = .str "-") →
      J (fun v => (start O algo comp src col).color v = .green) (start O algo comp src col)
        (upd lab src (sourceLabel algo comp)))
    {r : SearchRes N} {st : SState N Q} {p : Pic N}
    (h : searchP g O algo rev comp dest src col pic fuel = .ok (r, st, p)) :
    (dest ≠ some src ∧ r = (if dest = none then .pred st.pred else .none) ∧ LI g items rev src J st p ∧ items st.q = []) ∨
    (dest = some src ∧ r = .path [src] ∧ st = start O algo comp src col ∧ ∀ e ∈ g.edgeAttr.keys, p.edge e = .black) ∨
    ∃ dst l st0, dest = some dst ∧ dst ≠ src ∧ r = .path l ∧ reconstruct st.pred src fuel dst [dst] = .ok l ∧
      st0.color dst ≠ .green ∧ st = entered O st0 dst ∧
      PI g items rev src (fun v => st0.color v = .green ∨ v = dst) st p ∧
      J (fun v => st0.color v = .green ∨ v = dst) st p.label := by
  have hw := hg.wf
  unfold searchP at h
  by_cases h1 : ¬ g.hasNode src
  · rw [if_pos h1] at h; cases h
  · rw [if_neg h1] at h
    have hsrc : src ∈ g.getNodeList := by
      have : g.nodes.contains src = true := by simpa [Graph.hasNode] using h1
      rw [Dict.contains_iff, hw.nodesEq] at this; exact this
    cases hr : resetP g rev g.getNodeList pic with
    | error e => rw [hr] at h; cases h
    | ok p0 =>
      rw [hr] at h
      simp only [] at h
      have hbl := resetP_black hw pic hr
      have hbl' : ∀ e ∈ g.edgeAttr.keys, (tag src (sourceLabel algo comp) p0).edge e = .black := hbl
      have hlb : ∀ v ∈ g.getNodeList, p0.label v = .str "-" := fun v hv => ((resetP_spec _ _ hr).1 v).1 hv
      obtain ⟨s1, s2, s3⟩ := start_PI (g := g) (rev := rev) (src := src) hb algo comp col hq hbl'
      by_cases hd : dest = some src
      · rw [if_pos hd] at h
        simp only [if_true] at h
        subst hd
        simp only [] at h
        cases hrec : reconstruct (start O algo comp src col).pred src fuel src [src] with
        | error e => rw [hrec] at h; cases h
        | ok l =>
          rw [hrec] at h; cases h
          refine .inr (.inl ⟨rfl, ?_, rfl, hbl'⟩)
          cases fuel with
          | zero => cases hrec
          | succ f => rw [reconstruct, if_pos rfl] at hrec; cases hrec; rfl
      · rw [if_neg hd] at h
        cases hlp : loopP g O algo rev comp dest src fuel (start O algo comp src col) (tag src (sourceLabel algo comp) p0) with
        | error e => rw [hlp] at h; cases h
        | ok a =>
          obtain ⟨b, st1, p1⟩ := a
          rw [hlp] at h
          simp only [] at h
          rcases loopP_inv hw hb L hns hsrc fuel _ _ ⟨s1, hJ _ hlb, .inr s3⟩ hlp with
            ⟨rfl, h2, h3⟩ | ⟨rfl, c, st0, hc, h4, rfl, h5, h6⟩
          · simp only [if_false, Bool.false_eq_true] at h
            left
            cases dest with
            | none => cases h; exact ⟨hd, rfl, h2, h3⟩
            | some d => cases h; exact ⟨hd, rfl, h2, h3⟩
          · simp only [if_true] at h
            subst hc
            simp only [] at h
            cases hrec : reconstruct (entered O st0 c).pred src fuel c [c] with
            | error e => rw [hrec] at h; cases h
            | ok l =>
              rw [hrec] at h; cases h
              refine .inr (.inr ⟨c, l, st0, rfl, ?_, rfl, hrec, h4, rfl, h5, h6⟩)
              rintro rfl; exact hd rfl

theorem lab_true (algo : Algo) (comp : Option Int) : Lab g O items rev src algo comp fun _ _ _ => True :=
  ⟨fun _ _ _ _ _ _ _ _ => trivial, fun _ _ _ _ _ _ _ _ => trivial, fun _ _ _ _ _ _ _ _ _ _ _ _ _ _ _ => trivial,
    fun _ _ _ _ _ _ _ _ => trivial⟩

/-- **C124.** `search` with any algorithm and any queue, no self loops.  The colours do not influence the search.  When it
returns the predecessors or None, the tree of the predecessors is green and everything else is black.  When it returns a
path, the edges and nodes of the path are green, the destination is blue, and only edges of the tree are green; if the
destination is the source no edge is green. -/
theorem C124_search_picture (hg : Built g) (hb : LawfulBag O items) (hns : ∀ v, ¬ Step g rev v v) (algo : Algo)
    (comp : Option Int) (dest : Option N) (col : SState N Q) (hq : items col.q = []) (pic : Pic N) (fuel : Nat) :
    (∀ e, searchP g O algo rev comp dest src col pic fuel = .error e ↔ search g O algo rev comp dest src col fuel = .error e) ∧
    ∀ r st p, searchP g O algo rev comp dest src col pic fuel = .ok (r, st, p) →
      search g O algo rev comp dest src col fuel = .ok (r, st) ∧
      (∀ d, r = .pred d → ShowsTree g rev src d st.color p.edge) ∧
      (r = .none → ShowsTree g rev src st.pred st.color p.edge) ∧
      (∀ l dst, r = .path l → dest = some dst → dst ≠ src → ShowsPath g rev dst st.pred l st.color p.edge) ∧
      (dest = some src → ∀ e ∈ g.edgeAttr.keys, p.edge e = .black) := by
  have hmap := searchP_map (g := g) (O := O) (rev := rev) (src := src) algo comp dest col pic fuel
  refine ⟨?_, ?_⟩
  · intro e
    rw [← hmap]
    cases searchP g O algo rev comp dest src col pic fuel with
    | error e' => simp [Except.map]
    | ok a => simp [Except.map]
  · intro r st p h
    refine ⟨by rw [← hmap, h]; rfl, ?_⟩
    rcases searchP_spec hg hb hns hq (lab_true algo comp) (fun _ _ => trivial) h with
      ⟨hds, rfl, h2, h3⟩ | ⟨rfl, rfl, rfl, h2⟩ | ⟨dst, l, st0, rfl, hds, rfl, hrec, h4, rfl, h5, -⟩
    · have hsh := h2.shows hg.wf h3
      refine ⟨?_, fun _ => hsh, ?_, ?_⟩
      · intro d hd
        split at hd
        · cases hd; exact hsh
        · cases hd
      · intro l dst hl
        split at hl <;> cases hl
      · intro hd; exact absurd hd hds
    · refine ⟨fun d hd => (by cases hd), fun hd => (by cases hd), ?_, fun _ => h2⟩
      intro l dst _ hd hne
      cases hd; exact absurd rfl hne
    · refine ⟨fun d hd => (by cases hd), fun hd => (by cases hd), ?_, fun hd => by cases hd; exact absurd rfl hds⟩
      rintro _ _ ⟨⟩ ⟨⟩ _
      have hcol : ∀ v, v ≠ dst → (entered O st0 dst).color v = st0.color v := by
        intro v hv; simp [entered, upd, hv]
      obtain ⟨h6, h7⟩ := reconstruct_chain (src := src) (P := fun v => st0.color v = .green ∨ v = dst)
        (R := fun u v => ∃ e ∈ g.edgeAttr.keys, Joins g rev u v e ∧ p.edge e = .green) (by
          intro v u hv hu
          obtain ⟨h8, h9⟩ := h5.link v u hu
          refine ⟨?_, h8⟩
          have hmem : ekey g rev u v ∈ g.edgeAttr.keys := by
            unfold Step at h9
            have key : ∀ a b, g.checkEdge a b = true → g.edgeKey a b ∈ g.edgeAttr.keys := by
              intro a b hab
              unfold Graph.edgeKey
              by_cases hc : g.edgeAttr.contains (a, b) = true
              · rw [if_pos hc]; exact (Dict.contains_iff _ _).1 hc
              · rw [if_neg hc]
                unfold Graph.checkEdge at hab
                rw [← Dict.contains_iff]
                cases hd : g.directed <;> simp [hd, hc] at hab
                exact hab
            unfold ekey
            cases rev with
            | true => exact key _ _ (by simpa using h9)
            | false => exact key _ _ (by simpa using h9)
          exact ⟨_, hmem, (ekey_joins hg.wf h9 hmem).1 rfl, (h5.edge _ hmem).2.2 ⟨v, u, hv, hu, rfl⟩⟩)
        fuel dst [] (.inr rfl) hrec (by simp) (by simp)
      refine ⟨h6, ?_, by simp [entered, upd], ?_⟩
      · intro v hv hne
        rw [hcol v hne]
        exact (h7 v hv).resolve_right hne
      · intro e he
        obtain ⟨h8, h9⟩ := h5.edge e he
        rcases h8 with h8 | h8
        · obtain ⟨v, u, _, hu, hk⟩ := h9.1 h8
          exact .inl ⟨h8, v, u, hu, (ekey_joins hg.wf (h5.link v u hu).2 he).1 hk⟩
        · exact .inr h8

/-! ## labels -/

/-- the nodes reached are labelled with the component -/
def LComp (g : Graph N) (src : N) (c : Int) (_ : N → Prop) (st : SState N Q) (lab : N → Val N) : Prop :=
  (∀ v, (v = src ∨ v ∈ st.pred.keys) → lab v = .int c) ∧
  ∀ v ∈ g.getNodeList, ¬ (v = src ∨ v ∈ st.pred.keys) → lab v = .str "-"

/-- the nodes reached are labelled with their distance -/
def LDist (g : Graph N) (src : N) (_ : N → Prop) (st : SState N Q) (lab : N → Val N) : Prop :=
  lab src = .int 0 ∧ (∀ v ∈ st.pred.keys, v ≠ src → ∃ d, st.dist v = some d ∧ lab v = .str (toString d)) ∧
  ∀ v ∈ g.getNodeList, ¬ (v = src ∨ v ∈ st.pred.keys) → lab v = .str "-"

/-- the nodes reached are labelled with their priority -/
def LPrio (g : Graph N) (O : QOps N Q) (src : N) (algo : Algo) (S : N → Prop) (st : SState N Q) (lab : N → Val N) : Prop :=
  (∀ v, (v = src ∨ v ∈ st.pred.keys) → ∃ x, (S v → st.prio v = some x) ∧ (¬ S v → O.getPriority st.q v = some x) ∧
    lab v = .int x) ∧
  (algo = .prim → ∀ v u, v ≠ src → st.pred.get? v = some u → ∃ x, g.getEdgeCost u v = .ok x ∧ lab v = .int x) ∧
  ∀ v ∈ g.getNodeList, ¬ (v = src ∨ v ∈ st.pred.keys) → lab v = .str "-"

theorem lab_comp {algo : Algo} (ha : Plain algo) (c : Int) :
    Lab g O items rev src algo (some c) (LComp g src c) := by
  refine ⟨fun S st p c' _ h _ _ => h, fun S st p c' _ h _ _ => h, ?_, fun S st p c' _ h _ _ => h⟩
  intro S st p p₀ c' n st' p' _ h hs _ hn hp he
  have hns : n ≠ src := by rintro rfl; exact hn hs
  have key : st'.pred = st.pred.set n c' → p'.label = upd p₀.label n (.int c) → LComp g src c S st' p'.label := by
    intro h1 h2
    rw [h2, hp]
    refine ⟨fun v hv => ?_, fun v hv hv' => ?_⟩
    · rw [h1, Dict.mem_keys_set] at hv
      unfold upd
      by_cases hvn : v = n
      · rw [if_pos hvn]
      · rw [if_neg hvn]; exact h.1 v (by tauto)
    · rw [h1, Dict.mem_keys_set] at hv'
      unfold upd
      rw [if_neg (by tauto)]
      exact h.2 v hv (by tauto)
  rcases processEdgeP_plain ha he with ⟨rfl, rfl⟩ | ⟨_, x, d', h1, h2⟩ | ⟨_, d, h1, h2⟩
  · rw [hp]; exact h
  · exact key (by rw [h1]; rfl) (by rw [h2]; rfl)
  · refine key (by rw [h1]; rfl) ?_
    rw [h2]
    funext v
    simp only [finishLabel, tag, upd]
    split <;> rfl

theorem lab_dist {algo : Algo} (ha : Plain algo) (hO : O.isPQ = false) :
    Lab g O items rev src algo none (LDist g src) := by
  refine ⟨fun S st p c' _ h _ _ => h, fun S st p c' _ h _ _ => h, ?_, fun S st p c' _ h _ _ => h⟩
  intro S st p p₀ c' n st' p' _ h hs _ hn hp he
  have hns : n ≠ src := by rintro rfl; exact hn hs
  rcases processEdgeP_plain ha he with ⟨rfl, rfl⟩ | ⟨hq, _⟩ | ⟨_, d, rfl, rfl⟩
  · rw [hp]; exact h
  · rw [hO] at hq; cases hq
  · simp only [LDist, finishLabel, tag, finishEdge, hp, Dict.mem_keys_set]
    refine ⟨?_, ?_, ?_⟩
    · unfold upd; rw [if_neg (Ne.symm hns)]; exact h.1
    · intro v hv hvs
      unfold upd
      by_cases hvn : v = n
      · exact ⟨d, by rw [if_pos hvn], by rw [if_pos hvn]⟩
      · rw [if_neg hvn, if_neg hvn]; exact h.2.1 v (by tauto) hvs
    · intro v hv hv'
      unfold upd; rw [if_neg (by tauto)]
      exact h.2.2 v hv (by tauto)

theorem lab_prio (hp : LawfulPQ O items) {algo : Algo} (ha : ¬ Plain algo) (comp : Option Int) :
    Lab g O items rev src algo comp (LPrio g O src algo) := by
  have rem : ∀ S st lab c color', LPrio g O src algo S st lab → c ∈ items st.q → S c →
      LPrio g O src algo S { st with q := O.remove st.q c, color := color' } lab := by
    intro S st lab c color' h hc hS
    refine ⟨fun v hv => ?_, h.2⟩
    obtain ⟨x, h1, h2, h3⟩ := h.1 v hv
    refine ⟨x, h1, fun hn => ?_, h3⟩
    have hvc : v ≠ c := by rintro rfl; exact hn hS
    rw [hp.prio_remove _ _ hc, if_neg hvc]
    exact h2 hn
  refine ⟨fun S st p c _ h hc hS => rem S st _ c st.color h hc hS, ?_, ?_, fun S st p c _ h hc hS => rem S st _ c _ h hc hS⟩
  · intro S st p c _ h hc hS
    refine ⟨fun v hv => ?_, h.2⟩
    obtain ⟨x, h1, h2, h3⟩ := h.1 v hv
    refine ⟨x, ?_, fun hn => h2 (fun h => hn (.inl h)), h3⟩
    rintro (h4 | rfl)
    · have hvc : v ≠ c := by rintro rfl; exact hS h4
      simp only [hp.isPQ, if_true, upd, if_neg hvc]
      exact h1 h4
    · simp only [hp.isPQ, if_true, upd]
      exact h2 hS
  · intro S st p p₀ c n st' p' _ h hs _ hn hl he
    have hns : n ≠ src := by rintro rfl; exact hn hs
    rcases processEdgeP_weighted ha he with ⟨rfl, rfl⟩ | ⟨x, rfl, rfl, hx⟩
    · rw [hl]; exact h
    · simp only [LPrio, tag, hl, Dict.mem_keys_set]
      refine ⟨?_, ?_, ?_⟩
      · intro v hv
        by_cases hvn : v = n
        · subst hvn
          exact ⟨x, fun h => absurd h hn, fun _ => by rw [hp.prio_push, if_pos rfl], by simp [upd]⟩
        · obtain ⟨y, h1, h2, h3⟩ := h.1 v (by tauto)
          refine ⟨y, h1, fun h => ?_, by unfold upd; rw [if_neg hvn]; exact h3⟩
          rw [hp.prio_push, if_neg hvn]; exact h2 h
      · intro hpr v u hv hu
        rw [Dict.get?_set] at hu
        unfold upd
        by_cases hvn : v = n
        · subst hvn
          rw [if_pos rfl] at hu; cases hu
          exact ⟨x, hx hpr, by rw [if_pos rfl]⟩
        · rw [if_neg (Ne.symm hvn)] at hu
          rw [if_neg hvn]
          exact h.2.1 hpr v u hv hu
      · intro v hv hv'
        unfold upd; rw [if_neg (by tauto)]
        exact h.2.2 v hv (by tauto)

/-- **C125, as far as it holds.**  After `search` without destination on a graph without self loops, the label of a node
that was not reached is '-'.  A node that was reached shows: for BFS and DFS its component, if one was given; otherwise,
over a queue that is no PriorityQueue, its distance (0 for the source); for Dijkstra and Prim its priority, which for Prim
is the cost of its tree edge.  Missing: BFS and DFS over a PriorityQueue, see `C125_false`. -/
theorem C125_search_labels_partial (hg : Built g) (hb : LawfulBag O items) (hns : ∀ v, ¬ Step g rev v v) {algo : Algo}
    {comp : Option Int} {col : SState N Q} (hq : items col.q = []) {pic : Pic N} {fuel : Nat} {d : Dict N N}
    {st : SState N Q} {p : Pic N} (h : searchP g O algo rev comp none src col pic fuel = .ok (.pred d, st, p)) :
    (Plain algo → ∀ c, comp = some c →
      (∀ v, (v = src ∨ v ∈ d.keys) → p.label v = .int c) ∧
      ∀ v ∈ g.getNodeList, ¬ (v = src ∨ v ∈ d.keys) → p.label v = .str "-") ∧
    (Plain algo → comp = none → O.isPQ = false →
      p.label src = .int 0 ∧ (∀ v ∈ d.keys, ∃ x, st.dist v = some x ∧ p.label v = .str (toString x)) ∧
      ∀ v ∈ g.getNodeList, ¬ (v = src ∨ v ∈ d.keys) → p.label v = .str "-") ∧
    (¬ Plain algo → LawfulPQ O items →
      (∀ v, (v = src ∨ v ∈ d.keys) → ∃ x, st.prio v = some x ∧ p.label v = .int x) ∧
      (algo = .prim → ∀ v u, d.get? v = some u → ∃ x, g.getEdgeCost u v = .ok x ∧ p.label v = .int x) ∧
      ∀ v ∈ g.getNodeList, ¬ (v = src ∨ v ∈ d.keys) → p.label v = .str "-") := by
  obtain ⟨h1, h2, h3⟩ := start_fields (O := O) (src := src) algo comp col
  refine ⟨?_, ?_, ?_⟩
  · rintro ha c rfl
    have hs := fun hJ => searchP_spec hg hb hns hq (lab_comp ha c) hJ h
    specialize hs ?_
    · intro lab hl
      have : sourceLabel (N := N) algo (some c) = .int c := by
        cases algo with
        | dijkstra => exact absurd rfl ha.1
        | prim => exact absurd rfl ha.2
        | _ => rfl
      rw [this]
      refine ⟨fun v hv => ?_, fun v hv hv' => ?_⟩
      · rw [h1] at hv
        have : v = src := hv.resolve_right (by simp)
        simp [upd, this]
      · unfold upd; rw [if_neg (by tauto)]; exact hl v hv
    rcases hs with
      ⟨_, hr, h4, _⟩ | ⟨h5, _⟩ | ⟨_, _, _, h5, _⟩
    · cases hr; exact h4.lab
    · cases h5
    · cases h5
  · rintro ha rfl hO
    have hs := fun hJ => searchP_spec hg hb hns hq (lab_dist ha hO) hJ h
    specialize hs ?_
    · intro lab hl
      have : sourceLabel (N := N) algo none = .int 0 := by cases algo <;> rfl
      rw [this]
      refine ⟨by simp [upd], fun v hv => ?_, fun v hv hv' => ?_⟩
      · rw [h1] at hv; cases hv
      · unfold upd; rw [if_neg (by tauto)]; exact hl v hv
    rcases hs with
      ⟨_, hr, h4, _⟩ | ⟨h5, _⟩ | ⟨_, _, _, h5, _⟩
    · cases hr
      refine ⟨h4.lab.1, fun v hv => h4.lab.2.1 v hv ?_, h4.lab.2.2⟩
      rintro rfl; exact h4.pi.nosrc hv
    · cases h5
    · cases h5
  · intro ha hp
    have hs := fun hJ => searchP_spec hg hb hns hq (lab_prio hp ha comp) hJ h
    specialize hs ?_
    · intro lab hl
      have hs : sourceLabel (N := N) algo comp = .int 0 := by
        cases algo with
        | dijkstra => rfl
        | prim => rfl
        | dfs => exact absurd ⟨by decide, by decide⟩ ha
        | bfs => exact absurd ⟨by decide, by decide⟩ ha
        | unweightedSPT => exact absurd ⟨by decide, by decide⟩ ha
      have hq0 : (start O algo comp src col).q = O.pushP col.q src 0 := by
        cases algo with
        | dijkstra => rfl
        | prim => rfl
        | dfs => exact absurd ⟨by decide, by decide⟩ ha
        | bfs => exact absurd ⟨by decide, by decide⟩ ha
        | unweightedSPT => exact absurd ⟨by decide, by decide⟩ ha
      rw [hs]
      refine ⟨fun v hv => ?_, fun _ v u _ hu => ?_, fun v hv hv' => ?_⟩
      · rw [h1] at hv
        have hv : v = src := hv.resolve_right (by simp)
        subst hv
        refine ⟨0, fun hc => ?_, fun _ => ?_, by simp [upd]⟩
        · simp only [h2] at hc; cases hc
        · rw [hq0, hp.prio_push, if_pos rfl]
      · rw [h1] at hu; cases hu
      · unfold upd; rw [if_neg (by tauto)]; exact hl v hv
    rcases hs with
      ⟨_, hr, h4, hq4⟩ | ⟨h5, _⟩ | ⟨_, _, _, h5, _⟩
    · cases hr
      refine ⟨fun v hv => ?_, fun hpr v u hu => h4.lab.2.1 hpr v u ?_ hu, h4.lab.2.2⟩
      · obtain ⟨x, h5, _, h6⟩ := h4.lab.1 v hv
        refine ⟨x, h5 ?_, h6⟩
        rcases h4.pi.wait v hv with h7 | h7
        · exact h7
        · rw [hq4] at h7; cases h7
      · rintro rfl; exact h4.pi.nosrc (Dict.mem_keys_of_get? hu)
    · cases h5
    · cases h5

theorem searchP_of_search {algo : Algo} {comp : Option Int} {dest : Option N} {col : SState N Q} (pic : Pic N) {fuel : Nat}
    {r : SearchRes N} {st : SState N Q} (h : search g O algo rev comp dest src col fuel = .ok (r, st)) :
    ∃ p, searchP g O algo rev comp dest src col pic fuel = .ok (r, st, p) := by
  rw [← searchP_map algo comp dest col pic fuel] at h
  cases hs : searchP g O algo rev comp dest src col pic fuel with
  | error e => rw [hs] at h; cases h
  | ok a =>
    obtain ⟨r', st', p⟩ := a
    rw [hs] at h; cases h
    exact ⟨p, rfl⟩

/-- **C125 for BFS.** Over a FIFO queue `search` returns, and the labels are the least numbers of edges (0 at the source). -/
theorem C125_bfs_labels_partial (hg : Built g) (hf : LawfulFIFO O items) (hO : O.isPQ = false)
    (hns : ∀ v, ¬ Step g rev v v) {algo : Algo} (ha : algo = .bfs ∨ algo = .unweightedSPT) (hsrc : src ∈ g.getNodeList)
    (col : SState N Q) (hq : items col.q = []) (pic : Pic N) {fuel : Nat} (hfu : fuelBound g rev ≤ fuel) :
    ∃ d st p, searchP g O algo rev none none src col pic fuel = .ok (.pred d, st, p) ∧ p.label src = .int 0 ∧
      ∀ v ∈ g.getNodeList, v ≠ src →
        (∃ k : Nat, IsLeastLen (Step g rev) src v k ∧ p.label v = .str (toString (k : Int))) ∨
        (¬ Reach g rev src v ∧ p.label v = .str "-") := by
  obtain ⟨d, st, h1, h2, _⟩ := C08_search_tree hg hf.toLawfulBag hO (algo := algo) (by tauto) rev none hsrc col hq hfu
  obtain ⟨⟨d', st', h1', h3⟩, _⟩ := C10_bfs_shortest hg hf hO ha rev none hsrc col hq hfu
  rw [h1] at h1'; cases h1'
  obtain ⟨p, hp⟩ := searchP_of_search pic h1
  have hpl : Plain algo := by rcases ha with rfl | rfl <;> exact ⟨by decide, by decide⟩
  obtain ⟨h4, h5, h6⟩ := (C125_search_labels_partial hg hf.toLawfulBag hns hq hp).2.1 hpl rfl hO
  refine ⟨d, st, p, hp, h4, fun v hv hvs => ?_⟩
  by_cases hr : Reach g rev src v
  · obtain ⟨k, hk, hl⟩ := (h3 v).1 hr
    obtain ⟨x, hx, hlab⟩ := h5 v (((h2 v).2 hr).resolve_left hvs)
    rw [hk] at hx; cases hx
    exact .inl ⟨k, hl, hlab⟩
  · exact .inr ⟨hr, h6 v hv fun h => hr ((h2 v).1 h)⟩

/-- **C125 for Dijkstra.** With non-negative costs `search` returns, and the labels are the least costs. -/
theorem C125_dijkstra_labels_partial (hg : Built g) (hp : LawfulPQ O items) {w : N → N → Int}
    (hw : ∀ u v, g.checkEdge u v = true → g.getEdgeCost u v = .ok (w u v))
    (hpos : ∀ u v, g.checkEdge u v = true → 0 ≤ w u v) (hnl : ∀ v, g.checkEdge v v = false) (comp : Option Int)
    (hsrc : src ∈ g.getNodeList) (col : SState N Q) (hq : items col.q = []) (pic : Pic N) {fuel : Nat}
    (hfu : fuelBound g false ≤ fuel) :
    ∃ d st p, searchP g O .dijkstra false comp none src col pic fuel = .ok (.pred d, st, p) ∧
      ∀ v ∈ g.getNodeList, (∃ c, IsLeastCost (Step g false) w src v c ∧ p.label v = .int c) ∨
        (¬ Reach g false src v ∧ p.label v = .str "-") := by
  obtain ⟨⟨d, st, h1, h2, h3⟩, _⟩ := C11_dijkstra hg hp hw hpos hnl comp hsrc col hq hfu
  obtain ⟨p, hsp⟩ := searchP_of_search pic h1
  have hns : ∀ v, ¬ Step g false v v := by intro v h; simp only [Step, Bool.false_eq_true, if_false, hnl v] at h
  obtain ⟨h4, _, h6⟩ := (C125_search_labels_partial hg hp.toLawfulBag hns hq hsp).2.2
    (fun h => h.1 rfl) hp
  refine ⟨d, st, p, hsp, fun v hv => ?_⟩
  by_cases hr : Reach g false src v
  · obtain ⟨c, hc, hl⟩ := h3 v hr
    obtain ⟨x, hx, hlab⟩ := h4 v ((h2 v).2 hr)
    rw [hc] at hx; cases hx
    exact .inl ⟨c, hl, hlab⟩
  · exact .inr ⟨hr, h6 v hv fun h => hr ((h2 v).1 h)⟩

/-- a picture before the search -/
def exPic : Pic Nat := ⟨fun _ => .yellow, fun _ => .none⟩

/-- labels of the nodes and colours of the edges after a call -/
def shownOf (g : Graph Nat) : Except PyErr (SearchRes Nat × SState Nat Q × Pic Nat) →
    Option (List (Val Nat) × List EColor × List Color)
  | .ok (_, st, p) => some (g.getNodeList.map p.label, g.getEdgeList.map p.edge, g.getNodeList.map st.color)
  | _ => none

theorem exG_noloop : ∀ v, ¬ Step exG false v v := by
  intro v h
  have : (v, v) ∈ exG.edgeAttr.keys := by
    simpa [Step, Graph.checkEdge, show exG.directed = true by decide, Dict.contains_iff] using h
  have h2 : exG.edgeAttr.keys = [(0, 1), (0, 2), (1, 2), (2, 0), (7, 8)] := by decide
  rw [h2] at this
  simp at this
  omega

/-- **The general claim of C125 is false**: with BFS over a PriorityQueue, a node at distance 1 keeps the label '-'. -/
theorem C125_false : ∃ (g : Graph Nat) (d : Dict Nat Nat) (st : SState Nat (PQ Nat)) (p : Pic Nat), Built g ∧
    (∀ v, ¬ Step g false v v) ∧
    searchP g pqOps' .bfs false none none 0 (exCol ⟨.empty, by decide⟩) exPic 20 = .ok (.pred d, st, p) ∧
    d.get? 1 = some 0 ∧ st.dist 1 = some 1 ∧ p.label 1 = .str "-" :=
  ⟨exG, _, _, _, exG_built, exG_noloop, rfl, by decide, by decide, by decide⟩

/-- Without the exclusion of self loops C124 is false: 0→1, 1→1 and DFS make 1 its own predecessor, and the edge 1→1 is
black. -/
theorem C124_self_loop : ∃ (g : Graph Nat) (d : Dict Nat Nat) (st : SState Nat (List Nat)) (p : Pic Nat), Built g ∧
    searchP g stackOps .dfs false none none 0 (exCol []) exPic 20 = .ok (.pred d, st, p) ∧
    d.get? 1 = some 1 ∧ (1, 1) ∈ g.edgeAttr.keys ∧ p.edge (1, 1) = .black :=
  ⟨runOps (Graph.init true) [Op.addEdge 0 1 [], .addEdge 1 1 []], _, _, _,
    ⟨true, _, by intro op _; cases op <;> simp [Op.InScope], rfl⟩, rfl, by decide, by decide, by decide⟩

/-- non-vacuity of C124 and C125: DFS without destination, BFS with destination, Dijkstra, and a component number -/
example : shownOf exG (searchP exG stackOps .dfs false none none 0 (exCol []) exPic 20) =
    some ([.int 0, .str "1", .str "1", .str "-", .str "-"], [.green, .green, .black, .black, .black],
      [.green, .green, .green, .black, .black]) := by decide
example : shownOf exG (searchP exG queueOps .bfs false none (some 1) 2 (exCol []) exPic 20) =
    some ([.str "1", .str "2", .int 0, .str "-", .str "-"], [.green, .black, .black, .green, .black],
      [.green, .blue, .green, .black, .black]) := by decide
example : shownOf exG (searchP exG pqOps' .dijkstra false none none 0 (exCol ⟨.empty, by decide⟩) exPic 20) =
    some ([.int 0, .int 5, .int 8, .str "-", .str "-"], [.green, .black, .green, .black, .black],
      [.green, .green, .green, .black, .black]) := by decide
example : shownOf exG (searchP exG queueOps .bfs true (some 4) none 8 (exCol []) exPic 20) =
    some ([.str "-", .str "-", .str "-", .int 4, .int 4], [.black, .black, .black, .black, .green],
      [.black, .black, .black, .green, .green]) := by decide

end GiMPy
