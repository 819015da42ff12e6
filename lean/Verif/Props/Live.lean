import Verif.Model.Live
import Verif.Lemmas.DGraph
import Verif.Props.Core

/-! # C145: deleting edges while walking through the neighbours -/

namespace GiMPy
variable {N : Type} [DecidableEq N]

/-- the elements at the positions 0, 2, 4, ... -/
def evens : List N → List N
  | [] => []
  | [a] => [a]
  | a :: _ :: l => a :: evens l

/-- the elements at the positions 1, 3, 5, ... -/
def odds : List N → List N
  | [] => []
  | [_] => []
  | _ :: b :: l => b :: odds l

namespace Graph

theorem outs_nodup {g : Graph N} (h : g.Wf) (hd : g.directed = true) (m : N) {l : List N} (hl : g.neighbors.get? m = some l) : l.Nodup := by
  rw [List.nodup_iff_count_le_one]
  intro v
  have := h.out m v
  rw [hd] at this
  simp only [if_true, Nat.add_zero, outc, hl, Option.getD_some] at this
  rw [this]
  unfold ind
  split <;> omega

/-- one `del_edge` in the loop -/
theorem delEdge_step {g : Graph N} (h : g.Wf) (hd : g.directed = true) (m n : N) {l : List N} (hl : g.neighbors.get? m = some l)
    (hn : n ∈ l) : ∃ g1, (delEdge (m, n)).run g = .ok ⟨⟩ g1 ∧ g1.Wf ∧ g1.directed = true ∧ g1.neighbors.get? m = some (l.erase n) ∧
      g1.edgeAttr.keys = g.edgeAttr.keys.filter (fun e => ¬ e = (m, n)) ∧ (∀ e, e ≠ (m, n) → g1.edgeAttr.get? e = g.edgeAttr.get? e) ∧
      g1.nodes = g.nodes := by
  have he : (m, n) ∈ g.edgeAttr.keys := (mem_nbrs_iff h hd m n).1 (by rw [hl]; exact hn)
  have hdup : g.dup m n := Or.inl he
  have hk : g.key m n = (m, n) := if_pos he
  refine ⟨g.delEdgeS m n (g.key m n), by rw [delEdge_run h, if_pos hdup], wf_delEdgeS h hdup, by simp [hd], ?_, ?_, ?_, ?_⟩
  · rw [delEdgeS_nbrs hd, if_pos rfl, hl]; rfl
  · rw [hk]
    simp only [delEdgeS, hd, if_true, remS, remInS]
    exact Dict.keys_erase _ _
  · intro e hne
    rw [hk]
    simp only [delEdgeS, hd, if_true, remS, remInS]
    rw [Dict.get?_erase, if_neg (Ne.symm hne)]
  · simp [delEdgeS, hd, remS, remInS]

theorem liveDel_run (m : N) : ∀ (rest : List N) (f : Nat), rest.length < f → ∀ (kept : List N) (g : Graph N), g.Wf → g.directed = true →
    g.neighbors.get? m = some (kept ++ rest) →
    ∃ g', (liveDel m f kept.length).run g = .ok true g' ∧ g'.Wf ∧ g'.directed = true ∧
      g'.neighbors.get? m = some (kept ++ odds rest) ∧
      g'.edgeAttr.keys = g.edgeAttr.keys.filter (fun e => ¬ (e.1 = m ∧ e.2 ∈ evens rest)) ∧
      (∀ e, ¬ (e.1 = m ∧ e.2 ∈ evens rest) → g'.edgeAttr.get? e = g.edgeAttr.get? e) ∧ g'.nodes = g.nodes
  | [], f, hf, kept, g, h, hd, hl => by
    obtain ⟨f, rfl⟩ : ∃ f', f = f' + 1 := ⟨f - 1, by simp at hf; omega⟩
    refine ⟨g, ?_, h, hd, by simpa [odds] using hl, by simp [evens], fun _ _ => rfl, rfl⟩
    simp [liveDel, gm_bind, hl]
  | [a], f, hf, kept, g, h, hd, hl => by
    obtain ⟨f, rfl⟩ : ∃ f', f = f' + 2 := ⟨f - 2, by simp at hf; omega⟩
    have hnd := outs_nodup h hd m hl
    obtain ⟨g1, e1, e2, e3, e4, e5, e6, e7⟩ := delEdge_step h hd m a hl (by simp)
    have hak : a ∉ kept := fun hh => (List.nodup_append.1 hnd).2.2 a hh a (by simp) rfl
    have her : (kept ++ [a]).erase a = kept := by rw [List.erase_append_right _ hak]; simp
    rw [her] at e4
    refine ⟨g1, ?_, e2, e3, by simpa [odds] using e4, ?_, ?_, e7⟩
    · rw [liveDel]
      simp [gm_bind, hl, e1]
      rw [liveDel]
      simp [gm_bind, e4]
    · rw [e5]
      refine List.filter_congr fun e _ => ?_
      simp [evens, Prod.ext_iff]
    · intro e he
      exact e6 e fun hh => he (by simp [hh, evens])
  | a :: b :: r, f, hf, kept, g, h, hd, hl => by
    obtain ⟨f, rfl⟩ : ∃ f', f = f' + 1 := ⟨f - 1, by simp at hf; omega⟩
    have hnd := outs_nodup h hd m hl
    obtain ⟨g1, e1, e2, e3, e4, e5, e6, e7⟩ := delEdge_step h hd m a hl (by simp)
    have hak : a ∉ kept := fun hh => (List.nodup_append.1 hnd).2.2 a hh a (by simp) rfl
    have her : (kept ++ a :: b :: r).erase a = (kept ++ [b]) ++ r := by rw [List.erase_append_right _ hak]; simp
    rw [her] at e4
    obtain ⟨g', i1, i2, i3, i4, i5, i6, i7⟩ := liveDel_run m r f (by simp at hf; omega) (kept ++ [b]) g1 e2 e3 e4
    refine ⟨g', ?_, i2, i3, by simpa [odds] using i4, ?_, ?_, i7.trans e7⟩
    · rw [liveDel]
      simp [gm_bind, hl, e1]
      simpa using i1
    · rw [i5, e5, List.filter_filter]
      refine List.filter_congr fun e _ => ?_
      simp only [evens, List.mem_cons, Prod.ext_iff, ← Bool.decide_and, decide_eq_decide]
      tauto
    · intro e he
      rw [i6 e fun hh => he ⟨hh.1, by simp [evens, hh.2]⟩]
      exact e6 e fun hh => he (by simp [hh, evens])

theorem delEach_run (m : N) : ∀ (l : List N) (g : Graph N), g.Wf → g.directed = true → g.neighbors.get? m = some l →
    ∃ g', (delEach m l).run g = .ok ⟨⟩ g' ∧ g'.neighbors.get? m = some [] ∧
      g'.edgeAttr.keys = g.edgeAttr.keys.filter (fun e => ¬ (e.1 = m ∧ e.2 ∈ l)) ∧
      (∀ e, ¬ (e.1 = m ∧ e.2 ∈ l) → g'.edgeAttr.get? e = g.edgeAttr.get? e) ∧ g'.nodes = g.nodes
  | [], g, h, hd, hl => ⟨g, rfl, hl, by simp, fun _ _ => rfl, rfl⟩
  | a :: l, g, h, hd, hl => by
    obtain ⟨g1, e1, e2, e3, e4, e5, e6, e7⟩ := delEdge_step h hd m a hl (by simp)
    rw [List.erase_cons_head] at e4
    obtain ⟨g', i1, i4, i5, i6, i7⟩ := delEach_run m l g1 e2 e3 e4
    refine ⟨g', ?_, i4, ?_, ?_, i7.trans e7⟩
    · rw [delEach, gm_bind, e1]; exact i1
    · rw [i5, e5, List.filter_filter]
      refine List.filter_congr fun e _ => ?_
      simp only [List.mem_cons, Prod.ext_iff, ← Bool.decide_and, decide_eq_decide]
      tauto
    · intro e he
      rw [i6 e fun hh => he ⟨hh.1, by simp [hh.2]⟩]
      exact e6 e fun hh => he (by simp [hh])

end Graph

theorem odds_length : ∀ l : List N, (odds l).length = l.length / 2
  | [] => by simp [odds]
  | [_] => by simp [odds]
  | _ :: _ :: l => by simp only [odds, List.length_cons, odds_length l]; omega

/-- **C145 is false: what the loop does instead.** On every digraph built through the API the loop
`for n in g.get_out_neighbors(m): g.del_edge((m, n))` ends without an exception and deletes exactly every second arc out of `m`,
beginning with the first; half of the arcs remain, rounded down, and all other arcs and all attributes stay. -/
theorem C145_live_loop (ops : List (Op N)) (m : N) (l : List N) (hl : (runOps (Graph.init true) ops).neighbors.get? m = some l)
    (f : Nat) (hf : l.length < f) :
    ∃ g', (Graph.liveDel m f 0).run (runOps (Graph.init true) ops) = .ok true g' ∧
      g'.neighbors.get? m = some (odds l) ∧ (odds l).length = l.length / 2 ∧
      g'.getEdgeList = (runOps (Graph.init true) ops).getEdgeList.filter (fun e => ¬ (e.1 = m ∧ e.2 ∈ evens l)) ∧
      (∀ e, ¬ (e.1 = m ∧ e.2 ∈ evens l) → g'.edgeAttr.get? e = (runOps (Graph.init true) ops).edgeAttr.get? e) ∧
      g'.nodes = (runOps (Graph.init true) ops).nodes := by
  have hs : ∀ op ∈ ops, op.InScope true := by intro op _; cases op <;> simp [Op.InScope]
  obtain ⟨g', h1, -, -, h2, h3, h4, h5⟩ := Graph.liveDel_run m l f hf [] _ (wf_reachable (N := N) true ops hs)
    (runOps_directed (N := N) true ops hs) hl
  exact ⟨g', h1, h2, odds_length l, h3, h4, h5⟩

/-- **C145 (partial).** The loop over a copy of the list deletes exactly the arcs out of `m`; the loop over the list itself does so
if there is at most one.  Missing from the full claim: the loop over the list itself with two arcs or more, see `C145_live_loop`. -/
theorem C145_delete_all_partial (ops : List (Op N)) (m : N) (l : List N)
    (hl : (runOps (Graph.init true) ops).neighbors.get? m = some l) :
    (∃ g', (Graph.copyDel m).run (runOps (Graph.init true) ops) = .ok ⟨⟩ g' ∧ g'.neighbors.get? m = some [] ∧
      g'.getEdgeList = (runOps (Graph.init true) ops).getEdgeList.filter (fun e => ¬ e.1 = m) ∧
      (∀ e, e.1 ≠ m → g'.edgeAttr.get? e = (runOps (Graph.init true) ops).edgeAttr.get? e) ∧
      g'.nodes = (runOps (Graph.init true) ops).nodes) ∧
    ∀ f, l.length < f → ∃ g', (Graph.liveDel m f 0).run (runOps (Graph.init true) ops) = .ok true g' ∧
      ((∀ e ∈ g'.getEdgeList, e.1 ≠ m) ↔ l.length ≤ 1) := by
  have hs : ∀ op ∈ ops, op.InScope true := by intro op _; cases op <;> simp [Op.InScope]
  have h := wf_reachable (N := N) true ops hs
  have hd := runOps_directed (N := N) true ops hs
  generalize runOps (Graph.init true) ops = g at *
  constructor
  · obtain ⟨g', h1, h2, h3, h4, h5⟩ := Graph.delEach_run m l g h hd hl
    have hmem : ∀ e ∈ g.edgeAttr.keys, e.1 = m → e.2 ∈ l := by
      rintro ⟨u, v⟩ he rfl
      have := (Graph.mem_nbrs_iff h hd u v).2 he
      rw [hl] at this
      exact this
    refine ⟨g', ?_, h2, ?_, fun e he => h4 e fun hh => he hh.1, h5⟩
    · rw [Graph.copyDel, gm_bind]
      simp [hl, h1]
    · show g'.edgeAttr.keys = g.edgeAttr.keys.filter _
      rw [h3]
      refine List.filter_congr fun e he => ?_
      rw [decide_eq_decide]
      exact ⟨fun hh he1 => hh ⟨he1, hmem e he he1⟩, fun hh he1 => hh he1.1⟩
  · intro f hf
    obtain ⟨g', h1, w, d, h2, -, -, -⟩ := Graph.liveDel_run m l f hf [] g h hd hl
    refine ⟨g', h1, ?_⟩
    have hlen := odds_length l
    rw [List.nil_append] at h2
    constructor
    · intro hall
      by_contra hc
      have : odds l ≠ [] := by
        intro he; rw [he] at hlen; simp at hlen; omega
      obtain ⟨x, hx⟩ := List.exists_mem_of_ne_nil _ this
      exact hall (m, x) ((Graph.mem_nbrs_iff w d m x).1 (by rw [h2]; exact hx)) rfl
    · rintro hle ⟨u, v⟩ he rfl
      have := (Graph.mem_nbrs_iff w d u v).2 he
      have h0 : odds l = [] := List.length_eq_zero_iff.1 (by omega)
      rw [h2, h0] at this
      simp at this

/-- a node with three arcs: the hypotheses of both theorems hold, and the arc to 2 remains -/
example : (runOps (Graph.init true) [.addEdge 0 1 [], .addEdge 0 2 [], .addEdge 0 3 [], .addEdge 1 2 []] : Graph Nat).neighbors.get? 0 =
    some [1, 2, 3] := by decide

theorem C145_false : ∃ g', (Graph.liveDel 0 4 0).run
    (runOps (Graph.init true) [.addEdge 0 1 [], .addEdge 0 2 [], .addEdge 0 3 [], .addEdge 1 2 []] : Graph Nat) = .ok true g' ∧
    g'.getEdgeList = [(0, 2), (1, 2)] := ⟨_, rfl, by decide⟩

end GiMPy
