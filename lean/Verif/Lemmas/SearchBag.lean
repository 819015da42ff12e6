import Verif.Lemmas.Search

/-! # DFS and BFS search over a stack or queue (not a priority queue) -/

namespace GiMPy
namespace Search
variable {N : Type} [DecidableEq N] {Q : Type}
variable {g : Graph N} {O : QOps N Q} {items : Q → List N} {rev : Bool} {src : N}
set_option linter.unusedSectionVars false

/-- the algorithms handled by graph.py 1216-1241 -/
def Algo.plain : Algo → Prop
  | .dijkstra => False
  | .prim => False
  | _ => True

/-- no node has an edge to itself -/
def NoLoop (g : Graph N) (rev : Bool) : Prop := ∀ v, ¬ Step g rev v v

/-- when predecessor chains are guaranteed to lead to the source -/
def Chains (g : Graph N) (rev : Bool) (algo : Algo) : Prop := NoLoop g rev ∨ algo ≠ .dfs

/-- the distance column marks the discovered nodes; the component column is written at them -/
structure ABag (src : N) (comp : Option Int) (c0 : N → Option Int) (st : SState N Q) : Prop where
  dist : ∀ v, (st.dist v).isSome ↔ D src st v
  comp : ∀ v, st.comp v = if v = src ∨ (comp.isSome ∧ v ∈ st.pred.keys) then comp else c0 v

theorem processEdge_plain {algo : Algo} (ha : Algo.plain algo) (hO : O.isPQ = false) (comp : Option Int)
    (st : SState N Q) (c n : N) {d : Int} (hd : st.dist c = some d) :
    processEdge g O algo comp st c n = if algo ≠ .dfs ∧ (st.dist n).isSome then .ok st
      else .ok (finishEdge comp { st with q := O.push st.q n, dist := upd st.dist n (some (d + 1)) } c n) := by
  cases algo <;> simp_all [Algo.plain, processEdge]

theorem abag_take {comp : Option Int} {c0} {st : SState N Q} (h : ABag src comp c0 st) (q : Q) (c n : N) (d : Int) :
    ABag src comp c0 (finishEdge comp { st with q := q, dist := upd st.dist n (some d) } c n) := by
  have hD : ∀ v, D src (finishEdge comp { st with q := q, dist := upd st.dist n (some d) } c n) v ↔
      v = n ∨ D src st v := by
    intro v; unfold D finishEdge; simp only [Dict.mem_keys_set]
    constructor
    · rintro (h | h | h) <;> simp [h]
    · rintro (h | h | h) <;> simp [h]
  constructor
  · intro v
    rw [hD]
    show (upd st.dist n (some d) v).isSome = true ↔ _
    by_cases hv : v = n
    · subst hv; simp
    · rw [upd_ne _ _ hv, h.dist]; simp [hv]
  · intro v
    have := h.comp v
    show (if comp.isSome then upd st.comp n comp else st.comp) v = if v = src ∨ (comp.isSome ∧ v ∈ (st.pred.set n c).keys) then _ else _
    simp only [Dict.mem_keys_set]
    by_cases hc : comp.isSome
    · simp only [hc, if_true, true_and]
      by_cases hv : v = n
      · subst hv; simp
      · rw [upd_ne _ _ hv, this]; simp [hc, hv]
    · simp only [hc, Bool.false_eq_true, if_false, false_and, or_false, this]

theorem peRel_take (hb : LawfulBag O items) {NS : Prop} {comp : Option Int} {st : SState N Q} (c n : N)
    (f : N → Option Int) (hns : NS → n ≠ c) :
    PERel items src NS st c n (finishEdge comp { st with q := O.push st.q n, dist := f } c n) :=
  Or.inr ⟨rfl, fun y => hb.mem_push _ _ _, hb.len_push _ _, ⟨.red, by simp, rfl⟩, hns⟩

/-- obligations for the plain algorithms -/
theorem inv_plain (hb : LawfulBag O items) (hO : O.isPQ = false) {algo : Algo} (ha : Algo.plain algo)
    (comp : Option Int) (c0 : N → Option Int) :
    Inv g O items rev src (Chains g rev algo) algo comp (ABag src comp c0) (fun _ _ => ABag src comp c0) where
  drop st t c hB hA hp hc hg := ⟨hA.dist, hA.comp⟩
  enter st t c hB hA hp hc hg := ⟨hA.dist, hA.comp⟩
  green c t len0 color0 done n st hM hA hg hs := hA
  pe c t len0 color0 done n st hM hA hg hs := by
    obtain ⟨d, hd⟩ := Option.isSome_iff_exists.1 ((hA.dist c).2 (hM.item c hM.curItem))
    rw [processEdge_plain ha hO comp st c n hd]
    by_cases hcase : algo ≠ .dfs ∧ (st.dist n).isSome
    · rw [if_pos hcase]
      exact ⟨st, rfl, Or.inl ⟨rfl, rfl, rfl, (hA.dist n).1 hcase.2⟩, hA⟩
    · rw [if_neg hcase]
      refine ⟨_, rfl, peRel_take hb c n _ ?_, abag_take hA _ c n _⟩
      rintro hNS rfl
      rcases hNS with h1 | h1
      · exact h1 _ hs
      · exact hcase ⟨h1, by simp [hd]⟩
  leave c t len0 color0 done st hM hA hdone := ⟨hA.dist, hA.comp⟩

theorem abag_start {algo : Algo} (ha : Algo.plain algo) (comp : Option Int) (col : SState N Q) :
    ABag src comp col.comp (start O algo comp src col) := by
  have h1 := (start_fields (O := O) (src := src) algo comp col).1
  constructor
  · intro v
    have : (start O algo comp src col).dist v = if v = src then some 0 else none := by
      cases algo <;> first | exact ha.elim | rfl
    rw [this]; unfold D; rw [h1]
    by_cases hv : v = src <;> simp [hv, Dict.empty, Dict.keys]
  · intro v
    rw [h1]
    have : (start O algo comp src col).comp v = if v = src then comp else col.comp v := by
      cases algo <;> first | exact ha.elim | skip
      all_goals
        simp only [start, processSource]
        by_cases hv : v = src
        · subst hv; split <;> simp
        · split <;> simp [upd, hv]
    rw [this]
    simp [Dict.empty, Dict.keys]

/-! ## breadth-first distances -/

/-- value of the distance column -/
def dv (st : SState N Q) (v : N) : Int := (st.dist v).getD 0

/-- `ABag` together with the queue order: `hd` is the node being visited or the head of the queue -/
structure ABfs (g : Graph N) (rev : Bool) (src : N) (comp : Option Int) (c0 : N → Option Int) (items : Q → List N)
    (st : SState N Q) : Prop extends ABag src comp c0 st where
  walk : ∀ v d, st.dist v = some d → ∃ k : Nat, d = k ∧ WalkLen (Step g rev) src k v
  src0 : st.dist src = some 0
  sorted : (items st.q).Pairwise fun x y => dv st x ≤ dv st y
  top : ∀ c, (items st.q).head? = some c → ∀ v, D src st v → dv st v ≤ dv st c + 1
  tri : ∀ u v, st.color u = .green → Step g rev u v → dv st v ≤ dv st u + 1
  links : ∀ v p, st.pred.get? v = some p → dv st v = dv st p + 1

/-- the version inside the `for` loop -/
structure KBfs (g : Graph N) (rev : Bool) (src : N) (comp : Option Int) (c0 : N → Option Int) (items : Q → List N)
    (c : N) (done : List N) (st : SState N Q) : Prop extends ABfs g rev src comp c0 items st where
  head : (items st.q).head? = some c
  doneLe : ∀ v ∈ done, dv st v ≤ dv st c + 1

theorem inv_bfs (hf : LawfulFIFO O items) (hO : O.isPQ = false) {algo : Algo} (ha : Algo.plain algo)
    (hbfs : algo ≠ .dfs) (comp : Option Int) (c0 : N → Option Int) :
    Inv g O items rev src (Chains g rev algo) algo comp (ABfs g rev src comp c0 items)
      (KBfs g rev src comp c0 items) where
  drop st t c hB hA hp hc hg := by
    have hh : (items st.q).head? = some c := by rw [← hf.peek_eq]; exact hp
    obtain ⟨l₁, l₂, e1, e2⟩ := hf.remove_eq st.q c hc
    have hsub : (l₁ ++ l₂).Sublist (l₁ ++ c :: l₂) := List.Sublist.append_left (List.sublist_cons_self _ _) _
    refine ⟨⟨hA.dist, hA.comp⟩, hA.walk, hA.src0, ?_, ?_, hA.tri, hA.links⟩
    · show (items (O.remove st.q c)).Pairwise _
      rw [e2]
      have := hA.sorted
      rw [e1] at this
      exact this.sublist hsub
    · intro c' hc' v hv
      have hc' : (items (O.remove st.q c)).head? = some c' := hc'
      rw [e2] at hc'
      have hmem : c' ∈ items st.q := by rw [e1]; exact hsub.subset (List.mem_of_mem_head? hc')
      have hle : dv st c ≤ dv st c' := by
        have hs := hA.sorted
        cases hl : items st.q with
        | nil => rw [hl] at hh; cases hh
        | cons a l =>
          rw [hl] at hh hs hmem
          obtain rfl := Option.some.inj hh
          rcases List.mem_cons.1 hmem with rfl | h
          · exact Int.le_refl _
          · exact (List.pairwise_cons.1 hs).1 _ h
      have := hA.top c hh v hv
      show dv st v ≤ dv st c' + 1
      omega
  enter st t c hB hA hp hc hg := by
    refine ⟨⟨⟨hA.dist, hA.comp⟩, hA.walk, hA.src0, hA.sorted, hA.top, ?_, hA.links⟩, ?_, by simp⟩
    · intro u v hu hs
      by_cases huc : u = c
      · subst huc; simp at hu
      · exact hA.tri u v (by simpa [upd, huc] using hu) hs
    · show (items st.q).head? = some c
      rw [← hf.peek_eq]; exact hp
  green c t len0 color0 done n st hM hA hg hs :=
    ⟨hA.toABfs, hA.head, by
      intro v hv
      rcases List.mem_cons.1 hv with rfl | hv
      · exact hA.top c hA.head v (hM.closed v hg).1
      · exact hA.doneLe v hv⟩
  pe c t len0 color0 done n st hM hA hg hs := by
    obtain ⟨d, hd⟩ := Option.isSome_iff_exists.1 ((hA.dist c).2 (hM.item c hM.curItem))
    rw [processEdge_plain ha hO comp st c n hd]
    by_cases hcase : (st.dist n).isSome
    · rw [if_pos ⟨hbfs, hcase⟩]
      refine ⟨st, rfl, Or.inl ⟨rfl, rfl, rfl, (hA.dist n).1 hcase⟩, ⟨hA.toABfs, hA.head, ?_⟩⟩
      intro v hv
      rcases List.mem_cons.1 hv with rfl | hv
      · exact hA.top c hA.head v ((hA.dist v).1 hcase)
      · exact hA.doneLe v hv
    · rw [if_neg (by simp [hcase])]
      have hnc : n ≠ c := by rintro rfl; simp [hd] at hcase
      have hnD : ¬ D src st n := fun h => hcase ((hA.dist n).2 h)
      refine ⟨_, rfl, peRel_take hf.toLawfulBag c n _ (fun _ => hnc), ?_⟩
      set st' := finishEdge comp { st with q := O.push st.q n, dist := upd st.dist n (some (d + 1)) } c n with hst'
      have hab := abag_take hA.toABag (O.push st.q n) c n (d + 1)
      rw [← hst'] at hab
      have hdv : ∀ x, x ≠ n → dv st' x = dv st x := by
        intro x hx
        show (upd st.dist n (some (d + 1)) x).getD 0 = _
        rw [upd_ne _ _ hx]; rfl
      have hdn : dv st' n = dv st c + 1 := by
        show (upd st.dist n (some (d + 1)) n).getD 0 = _
        rw [upd_same]; simp [dv, hd]
      have hdc : dv st' c = dv st c := hdv c (Ne.symm hnc)
      have hitems : items st'.q = items st.q ++ [n] := hf.push_eq _ _
      have hhead : (items st'.q).head? = some c := by
        rw [hitems]
        cases hl : items st.q with
        | nil => have := hA.head; rw [hl] at this; cases this
        | cons a l => have := hA.head; rw [hl] at this; simpa using this
      have hnit : ∀ x ∈ items st.q, x ≠ n := by
        rintro x hx rfl; exact hnD (hM.item x hx)
      have hDn : ∀ v, D src st' v → v = n ∨ D src st v := by
        intro v hv
        have h1 := (hab.dist v).2 hv
        by_cases hvn : v = n
        · exact Or.inl hvn
        · right
          rw [← hA.dist]
          have h2 : (upd st.dist n (some (d + 1)) v).isSome = true := h1
          rwa [upd_ne _ _ hvn] at h2
      refine ⟨⟨hab, ?_, ?_, ?_, ?_, ?_, ?_⟩, hhead, ?_⟩
      · intro v e hv
        by_cases hvn : v = n
        · subst hvn
          have hv : upd st.dist v (some (d + 1)) v = some e := hv
          rw [upd_same] at hv
          obtain rfl := Option.some.inj hv
          obtain ⟨k, rfl, hk⟩ := hA.walk c d hd
          exact ⟨k + 1, by push_cast; rfl, .snoc hk hs⟩
        · have hv : upd st.dist n (some (d + 1)) v = some e := hv
          rw [upd_ne _ _ hvn] at hv
          exact hA.walk v e hv
      · show upd st.dist n (some (d + 1)) src = _
        rw [upd_ne _ _ (by rintro rfl; exact hnD (Or.inl rfl))]; exact hA.src0
      · rw [hitems, List.pairwise_append]
        refine ⟨?_, by simp, ?_⟩
        · refine hA.sorted.imp_of_mem ?_
          intro a b hma hmb hab'
          rw [hdv a (hnit a hma), hdv b (hnit b hmb)]; exact hab'
        · intro a hma b hmb
          obtain rfl := List.mem_singleton.1 hmb
          rw [hdn, hdv a (hnit a hma)]
          exact hA.top c hA.head a (hM.item a hma)
      · intro c' hc' v hv
        rw [hhead] at hc'
        obtain rfl := Option.some.inj hc'
        rw [hdc]
        rcases hDn v hv with rfl | hv
        · omega
        · by_cases hvn : v = n
          · subst hvn; omega
          · rw [hdv v hvn]; exact hA.top _ hA.head v hv
      · intro u v hu huv
        have hun : u ≠ n := by
          rintro rfl
          have : upd st.color u .red u = .green := hu
          simp at this
        have hu' : st.color u = .green := by
          have : upd st.color n .red u = .green := hu
          rwa [upd_ne _ _ hun] at this
        have hvn : v ≠ n := by rintro rfl; exact hnD ((hM.closed u hu').2 v huv)
        rw [hdv u hun, hdv v hvn]
        exact hA.tri u v hu' huv
      · intro v p hv
        replace hv : (st.pred.set n c).get? v = some p := hv
        rw [Dict.get?_set] at hv
        split at hv
        · next hvn =>
          subst hvn
          obtain rfl := Option.some.inj hv
          rw [hdn, hdc]
        · next hvn =>
          have hpn : p ≠ n := by
            rintro rfl
            rcases (hM.link v p hv).2 with h1 | h1
            · exact hg h1
            · exact hnc h1
          rw [hdv v (Ne.symm hvn), hdv p hpn]
          exact hA.links v p hv
      · intro v hv
        rw [hdc]
        rcases List.mem_cons.1 hv with rfl | hv
        · omega
        · by_cases hvn : v = n
          · subst hvn; omega
          · rw [hdv v hvn]; exact hA.doneLe v hv
  leave c t len0 color0 done st hM hA hdone := by
    obtain ⟨l₁, l₂, e1, e2⟩ := hf.remove_eq st.q c hM.curItem
    have hsub : (l₁ ++ l₂).Sublist (l₁ ++ c :: l₂) := List.Sublist.append_left (List.sublist_cons_self _ _) _
    refine ⟨⟨hA.dist, hA.comp⟩, hA.walk, hA.src0, ?_, ?_, ?_, hA.links⟩
    · show (items (O.remove st.q c)).Pairwise _
      rw [e2]
      have := hA.sorted
      rw [e1] at this
      exact this.sublist hsub
    · intro c' hc' v hv
      have hc' : (items (O.remove st.q c)).head? = some c' := hc'
      rw [e2] at hc'
      have hmem : c' ∈ items st.q := by rw [e1]; exact hsub.subset (List.mem_of_mem_head? hc')
      have hle : dv st c ≤ dv st c' := by
        have hs := hA.sorted
        have hh := hA.head
        cases hl : items st.q with
        | nil => rw [hl] at hh; cases hh
        | cons a l =>
          rw [hl] at hh hs hmem
          obtain rfl := Option.some.inj hh
          rcases List.mem_cons.1 hmem with rfl | h
          · exact Int.le_refl _
          · exact (List.pairwise_cons.1 hs).1 _ h
      have := hA.top c hA.head v hv
      show dv st v ≤ dv st c' + 1
      omega
    · intro u v hu huv
      show dv st v ≤ dv st u + 1
      by_cases huc : u = c
      · subst huc
        exact hA.doneLe v ((hdone v).2 huv)
      · exact hA.tri u v (by simpa [upd, huc] using hu) huv

theorem abfs_start (hf : LawfulFIFO O items) (hO : O.isPQ = false) {algo : Algo} (ha : Algo.plain algo)
    (comp : Option Int) (col : SState N Q) (hq : items col.q = []) :
    ABfs g rev src comp col.comp items (start O algo comp src col) := by
  have hdist : ∀ v, (start O algo comp src col).dist v = if v = src then some 0 else none := by
    intro v; cases algo <;> first | exact ha.elim | rfl
  obtain ⟨h1, h2, _⟩ := start_fields (O := O) (src := src) algo comp col
  have hqq : items (start O algo comp src col).q = [src] := by
    have : (start O algo comp src col).q = O.push col.q src := by
      cases algo <;> first | exact ha.elim | simp [start, processSource, hO]
    rw [this, hf.push_eq, hq]; rfl
  refine ⟨abag_start ha comp col, ?_, by rw [hdist]; simp, by rw [hqq]; simp, ?_, ?_, ?_⟩
  · intro v d hv
    rw [hdist] at hv
    split at hv
    · next h => subst h; obtain rfl := Option.some.inj hv; exact ⟨0, rfl, .nil⟩
    · cases hv
  · intro c hc v hv
    have : v = src := by
      rcases hv with h | h
      · exact h
      · rw [h1] at h; simp [Dict.empty, Dict.keys] at h
    rw [hqq] at hc
    obtain rfl := Option.some.inj hc
    subst this; omega
  · intro u v hu; rw [h2] at hu; cases hu
  · intro v p hv; rw [h1] at hv; cases hv

/-- any walk either stays in the part with correct bounds or has to leave through the queue -/
theorem bfs_bound {comp c0 NS} {st : SState N Q} {t} (hB : Base g items rev src NS st t)
    (hA : ABfs g rev src comp c0 items st) {k : Nat} {v : N} (hwk : WalkLen (Step g rev) src k v) :
    (D src st v ∧ dv st v ≤ k) ∨ ∃ x ∈ items st.q, dv st x ≤ k := by
  induction hwk with
  | nil => exact Or.inl ⟨Or.inl rfl, by simp [dv, hA.src0]⟩
  | @snoc k v w _ hs ih =>
    rcases ih with ⟨h1, h2⟩ | ⟨x, hx, h2⟩
    · rcases hB.disc v h1 with h3 | h3
      · have := hA.tri v w h3 hs
        exact Or.inl ⟨(hB.closed v h3).2 w hs, by push_cast; omega⟩
      · exact Or.inr ⟨v, h3, by push_cast; omega⟩
    · exact Or.inr ⟨x, hx, by push_cast; omega⟩

theorem bfs_chain_len {comp c0} {st : SState N Q} (hA : ABfs g rev src comp c0 items st) {P : N → Prop} {k : Nat}
    {v : N} (h : PC st.pred src P k v) : dv st v = k := by
  induction h with
  | src => simp [dv, hA.src0]
  | step _ _ hl ih => rw [hA.links _ _ hl, ih]; push_cast; rfl

theorem walkLen_of_path {R : N → N → Prop} {u v : N} {l : List N} (h : IsPath R u v l) :
    ∃ k, l.length = k + 1 ∧ WalkLen R u k v := by
  obtain ⟨h1, h2, h3⟩ := h
  have key : ∀ (l : List N) (k : Nat) (a : N), WalkLen R u k a → (a :: l).IsChain R → (a :: l).getLast? = some v →
      WalkLen R u (k + l.length) v := by
    intro l
    induction l with
    | nil => intro k a hk _ hl; simp at hl; subst hl; exact hk
    | cons b l ih =>
      intro k a hk hc hl
      rw [List.isChain_cons_cons] at hc
      have := ih (k + 1) b (.snoc hk hc.1) hc.2 (by rw [List.getLast?_cons_cons] at hl; exact hl)
      simpa [Nat.add_assoc, Nat.add_comm 1] using this
  cases l with
  | nil => cases h1
  | cons a l =>
    obtain rfl := Option.some.inj h1
    exact ⟨l.length, rfl, by simpa using key l 0 a .nil h3 h2⟩

theorem reach_of_walkLen {R : N → N → Prop} {u v : N} {k : Nat} (h : WalkLen R u k v) : Relation.ReflTransGen R u v := by
  induction h with
  | nil => exact .refl
  | snoc _ hs ih => exact ih.tail hs

end Search
end GiMPy
