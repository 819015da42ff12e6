import Verif.Props.DfsTree
import Verif.Props.Dfs
import Verif.Lemmas.DfsForest

/-! # C90, C91: the tree and the times of `dfs` -/

namespace GiMPy
open Search Dfs
variable {N : Type} [DecidableEq N] {g : Graph N}

theorem ticks_get? (t : Int) : ∀ (k i : Nat), i < k → (ticks t k)[i]? = some (some (t + i))
  | 0, _, h => by omega
  | k + 1, 0, _ => by simp [ticks]
  | k + 1, i + 1, h => by
    rw [ticks, List.getElem?_cons_succ, ticks_get? (t + 1) k i (by omega)]
    push_cast; congr 2; omega

theorem time_of {f : N → Option Int} {l : List N} {t : Int} {k : Nat} (h : l.map f = ticks t k) (hk : l.length = k) {v : N}
    (hv : v ∈ l) : f v = some (t + l.idxOf v) := by
  have hi := List.idxOf_lt_length_of_mem hv
  have h1 := ticks_get? t k (l.idxOf v) (by omega)
  rw [← h, List.getElem?_map, List.getElem?_idxOf hv] at h1
  simpa using h1

/-- the times and links of a run from a graph without discovery times -/
structure DfsTimes (g : Graph N) (root : N) (pred : Dict N N) (disc fin : N → Option Int) : Prop where
  /-- exactly the reachable nodes have times -/
  has : ∀ v, Reach g false root v → ∃ a b, disc v = some a ∧ fin v = some b
  hasNot : ∀ v, ¬ Reach g false root v → disc v = none
  /-- `u` is an ancestor of `v` iff the time of `u` encloses that of `v` -/
  paren : ∀ u v a b c d, Reach g false root u → Reach g false root v → disc u = some a → fin u = some b →
    disc v = some c → fin v = some d → (LeadsTo pred u v ↔ a ≤ c ∧ d ≤ b)
  /-- an edge leads to a descendant, or to a node discovered before -/
  edge : ∀ u v a b, Reach g false root u → Step g false u v → disc u = some a → disc v = some b →
    LeadsTo pred u v ∨ b < a
  /-- different nodes have different times -/
  distinct : ∀ u v, Reach g false root u → Reach g false root v → disc u = disc v ∨ fin u = fin v → u = v

/-- **C90.** `dfs(root)` on a graph without discovery times: `pred` becomes a depth-first tree of the reachable nodes, its
preorder is the order of the discovery times, a node is an ancestor of another iff its two times enclose those of the
other, and an edge that does not lead to a descendant leads to an earlier node. -/
theorem C90_dfs_tree (hg : Built g) (comp : Option Int) {root : N} (hr : root ∈ g.getNodeList) (st : DState N)
    (hfresh : ∀ v, st.disc v = none) (hpred : st.pred = .empty) {fuel : Nat} (hf : g.getNodeList.length ≤ fuel) :
    ∃ (st' : DState N) (dc fc : Int) (l : List N), dfs g comp fuel root st 0 1 = .ok (st', dc, fc) ∧
      (∀ v, v ∈ l ↔ Reach g false root v) ∧ IsDfsTree (Step g false) st'.pred root l ∧
      (l.map st'.disc = (List.range l.length).map fun i : Nat => some (1 + (i : Int))) ∧
      DfsTimes g root st'.pred st'.disc st'.fin := by
  obtain ⟨st', dc, fc, L, M, h1, h2, h3, _⟩ := dfs_fresh hg.wf comp hr hfresh hpred hf 0 1
  obtain ⟨K, k1, k2, k3⟩ := dfs_forest hg.wf comp fuel root st 0 1 st' dc fc (hfresh root) h1
  have e0 : (Fst.cons root K .nil).pre = root :: K.pre := by simp [Fst.pre]
  have r0 : (Fst.cons root K .nil).rp = root :: K.rp := by simp [Fst.rp]
  have hmem : ∀ v, v ∈ root :: K.pre ↔ Reach g false root v := by
    intro v
    rw [← h3, ← e0]
    have a := k1.some v; have b := h2.some v
    rw [hfresh v] at a b
    simp only [Option.isSome_none, Bool.false_eq_true, false_or] at a b
    rw [← a, b]
  set F := Fst.cons root K .nil with hF
  have hnd := k1.nodup
  have hrK : root ∉ K.pre := by rw [e0] at hnd; exact (List.nodup_cons.1 hnd).1
  have hroot : st'.pred.get? root = none := by rw [k3 root hrK, hpred]; rfl
  have hdl : ∀ u v, F.Desc u v → LeadsTo st'.pred u v := by
    intro u v h
    rcases h with ⟨rfl, h⟩ | h | h
    · rcases List.mem_cons.1 h with rfl | h
      · exact .here
      · exact k2.leads h
    · exact k2.desc h
    · exact h.elim
  have hld : ∀ u v, v ∈ F.pre → LeadsTo st'.pred u v → F.Desc u v := by
    intro u v hv h
    induction h with
    | here => exact Fst.Desc.refl hv
    | @step v p hp _ ih =>
      have hvK : v ∈ K.pre := by
        rw [e0] at hv
        rcases List.mem_cons.1 hv with rfl | h
        · rw [hroot] at hp; cases hp
        · exact h
      have hpv : F.Desc p v := by
        rcases k2.parent hvK hp with rfl | h
        · exact Or.inl ⟨rfl, by simp [hvK]⟩
        · exact Or.inr (Or.inl h)
      exact (ih hpv.mem.1).trans hnd hpv
  have hiff : ∀ u v, v ∈ F.pre → (LeadsTo st'.pred u v ↔ F.Desc u v) := fun u v hv => ⟨hld u v hv, hdl u v⟩
  have hdisc : ∀ v ∈ F.pre, st'.disc v = some (1 + F.pre.idxOf v) := fun v hv => by
    have := time_of k1.dtimes rfl hv
    simpa using this
  have hfin : ∀ v ∈ F.pre, ∃ b : Int, st'.fin v = some b ∧ b = F.pre.length - F.rp.idxOf v := fun v hv => by
    have hv' : v ∈ F.rp.reverse := by rw [List.mem_reverse]; exact (Fst.rp_perm F).mem_iff.2 hv
    have hlen : F.rp.reverse.length = F.pre.length := by rw [List.length_reverse]; exact (Fst.rp_perm F).length_eq
    refine ⟨_, time_of k1.ftimes hlen hv', ?_⟩
    have hndr : F.rp.Nodup := (Fst.rp_perm F).nodup_iff.2 hnd
    have hvr : v ∈ F.rp := List.mem_reverse.1 hv'
    have hlt := List.idxOf_lt_length_of_mem hvr
    have hx : F.rp.reverse.idxOf v = F.rp.length - 1 - F.rp.idxOf v := by
      have h5 : F.rp.reverse[F.rp.length - 1 - F.rp.idxOf v]? = some v := by
        rw [List.getElem?_reverse (by omega)]
        rw [show F.rp.length - 1 - (F.rp.length - 1 - F.rp.idxOf v) = F.rp.idxOf v by omega]
        exact List.getElem?_idxOf hvr
      have h6 := List.getElem?_idxOf hv'
      have h7 := List.idxOf_lt_length_of_mem hv'
      exact (List.getElem?_inj h7 (List.nodup_reverse.2 hndr)).1 (h6.trans h5.symm)
    rw [List.length_reverse] at hlen
    rw [hx]; omega
  -- positions in the preorder
  have hpos : ∀ l₁ u l₂, F.pre = l₁ ++ u :: l₂ → F.pre.idxOf u = l₁.length ∧ u ∈ F.pre ∧
      (∀ v ∈ l₁, v ∈ F.pre ∧ F.pre.idxOf v < l₁.length) ∧ ∀ v ∈ l₂, v ∈ F.pre ∧ l₁.length < F.pre.idxOf v := by
    intro l₁ u l₂ h
    have hnd' := hnd
    rw [h] at hnd' ⊢
    obtain ⟨_, hn1, hn2⟩ := List.nodup_append.1 hnd'
    have hu : u ∉ l₁ := fun hu => hn2 u hu u (by simp) rfl
    refine ⟨?_, by simp, ?_, ?_⟩
    · rw [List.idxOf_append_of_notMem hu]; simp
    · intro v hv
      exact ⟨by simp [hv], by rw [List.idxOf_append_of_mem hv]; exact List.idxOf_lt_length_of_mem hv⟩
    · intro v hv
      refine ⟨by simp [hv], ?_⟩
      have hvu : u ≠ v := by rintro rfl; exact (List.nodup_cons.1 hn1).1 hv
      rw [List.idxOf_append_of_notMem fun h => hn2 v h v (by simp [hv]) rfl, List.idxOf_cons_ne _ hvu]
      omega
  have hmemF : ∀ v, v ∈ F.pre ↔ Reach g false root v := by rw [e0]; exact hmem
  refine ⟨st', dc, fc, F.pre, h1, hmemF, ⟨hnd, ⟨by rw [e0]; rfl, hroot⟩, ?_, ?_, ?_, ?_, ?_⟩, ?_, ⟨?_, ?_, ?_, ?_, ?_⟩⟩
  · intro v hv hvr
    have : LeadsTo st'.pred root v := hdl _ _ (Or.inl ⟨rfl, by rw [← e0]; exact hv⟩)
    cases this with
    | here => exact absurd rfl hvr
    | step hp _ => exact ⟨_, hp⟩
  · intro v p hp
    have hvK : v ∈ K.pre := by
      by_contra hv
      rw [k3 v hv, hpred] at hp; cases hp
    refine ⟨by rw [e0]; simp [hvK], ?_, h2.predOK _ _ hp⟩
    rcases k2.parent hvK hp with rfl | h
    · rw [e0]; simp
    · rw [e0]; simp [h.mem.1]
  · intro l₁ u l₂ h v hv hl
    obtain ⟨p1, p2, p3, _⟩ := hpos l₁ u l₂ h
    obtain ⟨p4, p5⟩ := p3 v hv
    have := ((Fst.desc_iff hnd p2 p4).1 (hld u v p4 hl)).1
    omega
  · intro l₁ u l₂ v l₃ h hl w hw
    obtain ⟨p1, p2, _, p3⟩ := hpos l₁ u _ h
    obtain ⟨q1, q2, q3, _⟩ := hpos (l₁ ++ u :: l₂) v l₃ (by rw [h]; simp)
    obtain ⟨w1, w2⟩ := p3 w (by simp [hw])
    obtain ⟨_, w3⟩ := q3 w (by simp [hw])
    exact hdl u w ((hld u v q2 hl).block hnd w1 (by omega) (by omega))
  · intro l₁ u l₂ h v hv hs
    obtain ⟨p1, p2, _, p3⟩ := hpos l₁ u l₂ h
    obtain ⟨p4, p5⟩ := p3 v hv
    exact hdl u v (k1.fwd u v p2 p4 (by omega) hs)
  · rw [k1.dtimes, ticks_eq_range]; rfl
  · intro v hv
    obtain ⟨b, hb, _⟩ := hfin v ((hmemF v).2 hv)
    exact ⟨_, b, hdisc v ((hmemF v).2 hv), hb⟩
  · intro v hv
    rw [k1.dkeep v (fun h => hv ((hmemF v).1 h)), hfresh]
  · intro u v a b c d hu hv ha hb hc hd
    replace hu := (hmemF u).2 hu
    replace hv := (hmemF v).2 hv
    obtain ⟨b', hb', hb2⟩ := hfin u hu
    obtain ⟨d', hd', hd2⟩ := hfin v hv
    rw [hb] at hb'; cases hb'
    rw [hd] at hd'; cases hd'
    rw [hdisc u hu] at ha; cases ha
    rw [hdisc v hv] at hc; cases hc
    rw [hiff u v hv, Fst.desc_iff hnd hu hv]
    constructor
    · rintro ⟨h5, h6⟩; constructor <;> omega
    · rintro ⟨h5, h6⟩; constructor <;> omega
  · intro u v a b hu hs ha hb
    have hv := (hmemF v).2 (hu.tail hs)
    replace hu := (hmemF u).2 hu
    rw [hdisc u hu] at ha; cases ha
    rw [hdisc v hv] at hb; cases hb
    by_cases hle : F.pre.idxOf u ≤ F.pre.idxOf v
    · exact Or.inl (hdl u v (k1.fwd u v hu hv hle hs))
    · exact Or.inr (by omega)
  · intro u v hu hv h
    replace hu := (hmemF u).2 hu
    replace hv := (hmemF v).2 hv
    rcases h with h | h
    · rw [hdisc u hu, hdisc v hv] at h
      exact (List.idxOf_inj hu).1 (by have := Option.some.inj h; omega)
    · obtain ⟨b, hb, hb2⟩ := hfin u hu
      obtain ⟨d, hd, hd2⟩ := hfin v hv
      rw [hb, hd] at h
      exact (List.idxOf_inj ((Fst.rp_perm F).mem_iff.2 hu)).1 (by have := Option.some.inj h; omega)

/-- **C91.** `dfs(root)` finds the cycles: a cycle is reachable from `root` iff some edge between reachable nodes leads to a
node that is not finished earlier. -/
theorem C91_dfs_finds_cycles (hg : Built g) (comp : Option Int) {root : N} (hr : root ∈ g.getNodeList) (st : DState N)
    (hfresh : ∀ v, st.disc v = none) (hpred : st.pred = .empty) {fuel : Nat} (hf : g.getNodeList.length ≤ fuel) :
    ∃ (st' : DState N) (dc fc : Int), dfs g comp fuel root st 0 1 = .ok (st', dc, fc) ∧
      ((∃ c, Reach g false root c ∧ Relation.TransGen (Step g false) c c) ↔
        ∃ u v a b, Reach g false root u ∧ Step g false u v ∧ st'.fin u = some a ∧ st'.fin v = some b ∧ a ≤ b) := by
  obtain ⟨st', dc, fc, l, h1, h2, h3, h4, h5⟩ := C90_dfs_tree hg comp hr st hfresh hpred hf
  refine ⟨st', dc, fc, h1, ?_, ?_⟩
  · rintro ⟨c, hc, hcyc⟩
    by_contra hno
    have hlt : ∀ u v, Reach g false root u → Step g false u v → ∀ a b, st'.fin u = some a → st'.fin v = some b → b < a := by
      intro u v hu hs a b ha hb
      by_contra hab
      exact hno ⟨u, v, a, b, hu, hs, ha, hb, by omega⟩
    have hall : ∀ v, Relation.TransGen (Step g false) c v → ∀ a b, st'.fin c = some a → st'.fin v = some b → b < a := by
      intro v hv
      induction hv with
      | single hs => exact hlt c _ hc hs
      | @tail v w hv hs ih =>
        intro a b ha hb
        have hrv : Reach g false root v := hc.trans hv.to_reflTransGen
        obtain ⟨_, x, _, hx⟩ := h5.has v hrv
        have := ih a x ha hx
        have := hlt v w hrv hs x b hx hb
        omega
    obtain ⟨_, x, _, hx⟩ := h5.has c hc
    have := hall c hcyc x x hx hx
    omega
  · rintro ⟨u, v, a, b, hu, hs, ha, hb, hab⟩
    have hv := hu.tail hs
    obtain ⟨x, _, hx, _⟩ := h5.has u hu
    obtain ⟨y, _, hy, _⟩ := h5.has v hv
    refine ⟨u, hu, ?_⟩
    rcases h5.edge u v x y hu hs hx hy with h | h
    · have hle := (h5.paren u v x a y b hu hv hx ha hy hb).1 h
      have huv : u = v := h5.distinct u v hu hv (Or.inr (by rw [ha, hb, show a = b by omega]))
      subst huv
      exact .single hs
    · have hvu := (h5.paren v u y b x a hv hu hy hb hx ha).2 ⟨by omega, hab⟩
      exact .head' hs (h3.reach hvu)

/-- the links of a result -/
def linksOf : Dfs.Res Nat → Option (List (Nat × Nat))
  | .ok (st, _, _) => some st.pred.entries
  | .error _ => none

/-- non-vacuity of C90 and C91: exG has the cycle 0, 1, 2; exDag has none -/
example : linksOf (dfs exG none 5 0 exD 0 1) = some [(1, 0), (2, 1)] ∧
    timesOf exG.getNodeList (dfs exG none 5 0 exD 0 1) = some ([some 1, some 2, some 3, none, none],
      [some 3, some 2, some 1, none, none], [0, 1, 2], 3, 4) ∧
    linksOf (dfs exDag none 5 0 exD 0 1) = some [(1, 0), (2, 1), (3, 2)] ∧ 0 ∈ exG.getNodeList := by
  decide

end GiMPy
