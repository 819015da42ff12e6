import Verif.Lemmas.DfsPic
import Verif.Props.DfsForest
import Verif.Props.SearchPic

/-! # C127: what `dfs` leaves in the colours and labels -/

namespace GiMPy
open Dfs Search
variable {N : Type} [DecidableEq N] {g : Graph N}

/-- **C127.** The colours and labels do not influence `dfs` (without `transpose`).  On a graph without discovery times: each
node reached is green and has its two times as label, in quotes; the edges of the depth-first tree of C90 are green; all
other nodes and edges look as before. -/
theorem C127_dfs_picture (hg : Built g) (comp : Option Int) {root : N} (hr : root ∈ g.getNodeList) (st : DState N)
    (hfresh : ∀ v, st.disc v = none) (hpred : st.pred = .empty) {fuel : Nat} (hf : g.getNodeList.length ≤ fuel)
    (old : DPic N) :
    ∃ (st' : DState N) (dc fc : Int) (p : DPic N) (l : List N),
      dfsP g comp fuel root st old 0 1 = .ok ((st', dc, fc), p) ∧ dfs g comp fuel root st 0 1 = .ok (st', dc, fc) ∧
      IsDfsTree (Step g false) st'.pred root l ∧
      (∀ v, Reach g false root v → ∃ d f : Int, st'.disc v = some d ∧ st'.fin v = some f ∧ p.node v = "green" ∧
        p.label v = "\"" ++ toString d ++ "," ++ toString f ++ "\"") ∧
      (∀ v, ¬ Reach g false root v → p.node v = old.node v ∧ p.label v = old.label v) ∧
      (∀ e ∈ g.edgeAttr.keys, TreeEdge g false st'.pred e → p.edge e = "green") ∧
      (∀ e ∈ g.edgeAttr.keys, ¬ TreeEdge g false st'.pred e → p.edge e = old.edge e) := by
  obtain ⟨st', dc, fc, l, h1, h2, h3, -, h4⟩ := C90_dfs_tree hg comp hr st hfresh hpred hf
  have hm := dfsP_map (g := g) (component := comp) fuel root st old 0 1
  rw [h1] at hm
  cases hp : dfsP g comp fuel root st old 0 1 with
  | error e => rw [hp] at hm; cases hm
  | ok s =>
    obtain ⟨s1, p⟩ := s
    rw [hp] at hm
    have hs : s1 = (st', dc, fc) := by simpa [Except.map] using hm
    subst hs
    obtain ⟨New, n1, n2, n3, -⟩ := dfsP_eff fuel root st old 0 1 hp
    have hnew : ∀ v, New v ↔ Reach g false root v := by
      intro v
      constructor
      · intro hv
        obtain ⟨d, f, a1, _⟩ := n3.done v hv
        by_contra hn
        have := C17_dfs_times hg comp hr st hfresh hpred hf
        obtain ⟨st2, k, L, b1, _, _, _, _, _, _, b2⟩ := this
        rw [h1] at b1
        cases b1
        rw [(b2 v hn).1] at a1; cases a1
      · intro hv
        obtain ⟨d, _, a1, _⟩ := h4.has v hv
        by_contra hn
        rw [(n3.frame v hn).1, hfresh] at a1; cases a1
    have hke : ∀ v u e, e ∈ g.edgeAttr.keys → st'.pred.get? v = some u →
        (g.edgeKey u v = e ↔ Joins g false u v e) := by
      intro v u e he hu
      have := ekey_joins (rev := false) hg.wf (h3.link v u hu).2.2 he
      simpa [ekey] using this
    refine ⟨st', dc, fc, p, l, rfl, h1, h3, ?_, ?_, ?_, ?_⟩
    · intro v hv
      exact n3.done v ((hnew v).2 hv)
    · intro v hv
      have := n3.frame v (mt (hnew v).1 hv)
      exact ⟨this.2.2.2.1, this.2.2.2.2⟩
    · rintro e he ⟨v, u, hu, hj⟩
      rw [← (hke v u e he hu).2 hj]
      exact n3.tree v u ((hnew v).2 ((h2 v).1 (h3.link v u hu).1)) hu
    · intro e he hn
      refine n3.other e fun v u hv hu h => hn ⟨v, u, hu, (hke v u e he hu).1 h.symm⟩

/-- a readable form of the picture -/
def dpicOf (g : Graph Nat) : ResP Nat → Option (List String × List String × List String)
  | .ok (_, p) => some (g.getNodeList.map p.node, g.getNodeList.map p.label, g.getEdgeList.map p.edge)
  | .error _ => none

/-- non-vacuity of C127: exG has the edges 0→1, 0→2, 1→2, 2→0 and 7→8 -/
example : dpicOf exG (dfsP exG none 5 0 exD ⟨fun _ => "old", fun _ => "x", fun _ => "grey"⟩ 0 1) =
    some (["green", "green", "green", "old", "old"], ["\"1,3\"", "\"2,2\"", "\"3,1\"", "x", "x"],
      ["green", "grey", "green", "grey", "grey"]) := by decide +kernel

end GiMPy
