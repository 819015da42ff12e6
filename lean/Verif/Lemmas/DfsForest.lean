import Verif.Lemmas.Dfs

/-! # The forest of recursive calls of `dfs` -/

namespace GiMPy
namespace Dfs
open Search
variable {N : Type} [DecidableEq N] {g : Graph N}
set_option linter.unusedSectionVars false

/-- ordered forests: first tree (root and children), other trees -/
inductive Fst (N : Type)
  | nil
  | cons (r : N) (kids rest : Fst N)

namespace Fst

/-- first visit order -/
def pre : Fst N → List N
  | nil => []
  | cons r k s => r :: (k.pre ++ s.pre)

/-- last visit order, reversed -/
def rp : Fst N → List N
  | nil => []
  | cons r k s => s.rp ++ r :: k.rp

/-- `v` is `u` or below it -/
def Desc : Fst N → N → N → Prop
  | nil, _, _ => False
  | cons r k s, u, v => (u = r ∧ v ∈ r :: k.pre) ∨ Desc k u v ∨ Desc s u v

/-- `pred` has the links of the forest, the roots hanging at `p` -/
def Linked (pred : Dict N N) : N → Fst N → Prop
  | _, nil => True
  | p, cons r k s => pred.get? r = some p ∧ Linked pred r k ∧ Linked pred p s

theorem rp_perm : ∀ F : Fst N, F.rp.Perm F.pre
  | nil => .nil
  | cons r k s => by
    rw [rp, pre]
    refine List.perm_middle.trans (.cons _ ?_)
    exact List.perm_append_comm.trans ((rp_perm k).append (rp_perm s))

theorem Desc.mem : ∀ {F : Fst N} {u v : N}, F.Desc u v → u ∈ F.pre ∧ v ∈ F.pre
  | nil, _, _, h => h.elim
  | cons r k s, u, v, h => by
    rw [pre]
    rcases h with ⟨rfl, h⟩ | h | h
    · refine ⟨by simp, ?_⟩
      rcases List.mem_cons.1 h with rfl | h <;> simp_all
    · have := Desc.mem h; simp [this]
    · have := Desc.mem h; simp [this]

theorem Desc.refl : ∀ {F : Fst N} {u : N}, u ∈ F.pre → F.Desc u u
  | nil, _, h => by cases h
  | cons r k s, u, h => by
    rw [pre, List.mem_cons, List.mem_append] at h
    rcases h with rfl | h | h
    · exact Or.inl ⟨rfl, by simp⟩
    · exact Or.inr (Or.inl (Desc.refl h))
    · exact Or.inr (Or.inr (Desc.refl h))

/-- descendants are the nodes that come later in both orders -/
theorem desc_iff : ∀ {F : Fst N} {u v : N}, F.pre.Nodup → u ∈ F.pre → v ∈ F.pre →
    (F.Desc u v ↔ F.pre.idxOf u ≤ F.pre.idxOf v ∧ F.rp.idxOf u ≤ F.rp.idxOf v)
  | nil, _, _, _, h, _ => by cases h
  | cons r k s, u, v, hn, hu, hv => by
    rw [pre] at hn hu hv ⊢
    obtain ⟨hr, hn⟩ := List.nodup_cons.1 hn
    obtain ⟨hk, hs, hks⟩ := List.nodup_append.1 hn
    rw [List.mem_append, not_or] at hr
    rw [List.mem_cons, List.mem_append] at hu hv
    have hks' : ∀ x ∈ k.pre, x ∉ s.pre := fun x h h' => hks x h x h' rfl
    have mk : ∀ x, x ∈ k.rp ↔ x ∈ k.pre := fun x => (rp_perm k).mem_iff
    have ms : ∀ x, x ∈ s.rp ↔ x ∈ s.pre := fun x => (rp_perm s).mem_iff
    have lk := (rp_perm k).length_eq
    have ls := (rp_perm s).length_eq
    -- positions
    have pr : (r :: (k.pre ++ s.pre)).idxOf r = 0 ∧ (s.rp ++ r :: k.rp).idxOf r = s.rp.length := by
      refine ⟨by simp, ?_⟩
      rw [List.idxOf_append_of_notMem (by rw [ms]; exact hr.2)]; simp
    have pk : ∀ x ∈ k.pre, (r :: (k.pre ++ s.pre)).idxOf x = k.pre.idxOf x + 1 ∧ k.pre.idxOf x < k.pre.length ∧
        (s.rp ++ r :: k.rp).idxOf x = s.rp.length + 1 + k.rp.idxOf x ∧ x ≠ r := by
      intro x hx
      have hxr : x ≠ r := by rintro rfl; exact hr.1 hx
      refine ⟨?_, List.idxOf_lt_length_of_mem hx, ?_, hxr⟩
      · rw [List.idxOf_cons_ne _ (Ne.symm hxr), List.idxOf_append_of_mem hx]
      · rw [List.idxOf_append_of_notMem (by rw [ms]; exact hks' x hx), List.idxOf_cons_ne _ (Ne.symm hxr)]; omega
    have ps : ∀ x ∈ s.pre, (r :: (k.pre ++ s.pre)).idxOf x = k.pre.length + s.pre.idxOf x + 1 ∧
        (s.rp ++ r :: k.rp).idxOf x = s.rp.idxOf x ∧ s.rp.idxOf x < s.rp.length ∧ x ≠ r := by
      intro x hx
      have hxr : x ≠ r := by rintro rfl; exact hr.2 hx
      have hx' : x ∈ s.rp := (ms x).2 hx
      refine ⟨?_, ?_, List.idxOf_lt_length_of_mem hx', hxr⟩
      · rw [List.idxOf_cons_ne _ (Ne.symm hxr), List.idxOf_append_of_notMem (fun h => hks' x h hx)]
      · rw [List.idxOf_append_of_mem hx']
    rw [rp]
    have nk : ∀ x y, k.Desc x y → x ∈ k.pre ∧ y ∈ k.pre := fun x y h => Desc.mem h
    have ns : ∀ x y, s.Desc x y → x ∈ s.pre ∧ y ∈ s.pre := fun x y h => Desc.mem h
    show (u = r ∧ v ∈ r :: k.pre) ∨ Desc k u v ∨ Desc s u v ↔ _
    rcases hu with rfl | hu | hu
    · rw [pr.1, pr.2]
      rcases hv with rfl | hv | hv
      · rw [pr.1, pr.2]; simp
      · have := pk v hv
        rw [this.1, this.2.2.1]
        exact ⟨fun _ => ⟨by omega, by omega⟩, fun _ => Or.inl ⟨rfl, by simp [hv]⟩⟩
      · have := ps v hv
        rw [this.1, this.2.1]
        constructor
        · rintro (⟨_, h⟩ | h | h)
          · rcases List.mem_cons.1 h with h | h
            · exact absurd h this.2.2.2
            · exact absurd hv (hks' v h)
          · exact absurd (nk _ _ h).1 hr.1
          · exact absurd (ns _ _ h).1 hr.2
        · rintro ⟨_, h⟩; omega
    · have hu' := pk u hu
      rw [hu'.1, hu'.2.2.1]
      rcases hv with rfl | hv | hv
      · rw [pr.1, pr.2]
        constructor
        · rintro (⟨h, _⟩ | h | h)
          · exact absurd h hu'.2.2.2
          · exact absurd (nk _ _ h).2 hr.1
          · exact absurd (ns _ _ h).2 hr.2
        · rintro ⟨h, _⟩; omega
      · have hv' := pk v hv
        rw [hv'.1, hv'.2.2.1]
        have := desc_iff hk hu hv
        constructor
        · rintro (⟨h, _⟩ | h | h)
          · exact absurd h hu'.2.2.2
          · have := this.1 h; omega
          · exact absurd (ns _ _ h).1 (hks' u hu)
        · rintro ⟨h1, h2⟩
          exact Or.inr (Or.inl (this.2 ⟨by omega, by omega⟩))
      · have hv' := ps v hv
        rw [hv'.1, hv'.2.1]
        constructor
        · rintro (⟨h, _⟩ | h | h)
          · exact absurd h hu'.2.2.2
          · exact absurd hv (hks' v (nk _ _ h).2)
          · exact absurd (ns _ _ h).1 (hks' u hu)
        · rintro ⟨_, h⟩; omega
    · have hu' := ps u hu
      rw [hu'.1, hu'.2.1]
      rcases hv with rfl | hv | hv
      · rw [pr.1]
        constructor
        · rintro (⟨h, _⟩ | h | h)
          · exact absurd h hu'.2.2.2
          · exact absurd (nk _ _ h).2 hr.1
          · exact absurd (ns _ _ h).2 hr.2
        · rintro ⟨h, _⟩; omega
      · have hv' := pk v hv
        rw [hv'.1]
        constructor
        · rintro (⟨h, _⟩ | h | h)
          · exact absurd h hu'.2.2.2
          · exact absurd hu (hks' u (nk _ _ h).1)
          · exact absurd (ns _ _ h).2 (hks' v hv)
        · rintro ⟨h, _⟩; have := hv'.2.1; omega
      · have hv' := ps v hv
        rw [hv'.1, hv'.2.1]
        have := desc_iff hs hu hv
        constructor
        · rintro (⟨h, _⟩ | h | h)
          · exact absurd h hu'.2.2.2
          · exact absurd hu (hks' u (nk _ _ h).1)
          · have := this.1 h; omega
        · rintro ⟨h1, h2⟩
          exact Or.inr (Or.inr (this.2 ⟨by omega, by omega⟩))

theorem Desc.trans {F : Fst N} {u v w : N} (hn : F.pre.Nodup) (h1 : F.Desc u v) (h2 : F.Desc v w) : F.Desc u w := by
  have a := (desc_iff hn h1.mem.1 h1.mem.2).1 h1
  have b := (desc_iff hn h2.mem.1 h2.mem.2).1 h2
  exact (desc_iff hn h1.mem.1 h2.mem.2).2 ⟨by omega, by omega⟩

/-- descendants of a node are not interrupted -/
theorem Desc.block : ∀ {F : Fst N} {u v w : N}, F.pre.Nodup → F.Desc u v → w ∈ F.pre → F.pre.idxOf u ≤ F.pre.idxOf w →
    F.pre.idxOf w ≤ F.pre.idxOf v → F.Desc u w
  | nil, _, _, _, _, h, _, _, _ => h.elim
  | cons r k s, u, v, w, hn, h, hw, h1, h2 => by
    rw [pre] at hn hw h1 h2
    obtain ⟨hr, hn⟩ := List.nodup_cons.1 hn
    obtain ⟨hk, hs, hks⟩ := List.nodup_append.1 hn
    rw [List.mem_append, not_or] at hr
    rw [List.mem_cons, List.mem_append] at hw
    have hks' : ∀ x ∈ k.pre, x ∉ s.pre := fun x h h' => hks x h x h' rfl
    have pk : ∀ x ∈ k.pre, (r :: (k.pre ++ s.pre)).idxOf x = k.pre.idxOf x + 1 ∧ k.pre.idxOf x < k.pre.length := by
      intro x hx
      have hxr : x ≠ r := by rintro rfl; exact hr.1 hx
      refine ⟨?_, List.idxOf_lt_length_of_mem hx⟩
      rw [List.idxOf_cons_ne _ (Ne.symm hxr), List.idxOf_append_of_mem hx]
    have ps : ∀ x ∈ s.pre, (r :: (k.pre ++ s.pre)).idxOf x = k.pre.length + s.pre.idxOf x + 1 := by
      intro x hx
      have hxr : x ≠ r := by rintro rfl; exact hr.2 hx
      rw [List.idxOf_cons_ne _ (Ne.symm hxr), List.idxOf_append_of_notMem (fun h => hks' x h hx)]
    have pr : (r :: (k.pre ++ s.pre)).idxOf r = 0 := by simp
    rcases h with ⟨rfl, h⟩ | h | h
    · -- `u` is the root
      rcases hw with rfl | hw | hw
      · exact Or.inl ⟨rfl, by simp⟩
      · exact Or.inl ⟨rfl, by simp [hw]⟩
      · rw [ps w hw] at h2
        rcases List.mem_cons.1 h with rfl | h
        · rw [pr] at h2; omega
        · have := pk v h; omega
    · have hm := h.mem
      have a := pk u hm.1; have b := pk v hm.2
      rcases hw with rfl | hw | hw
      · rw [pr] at h1; omega
      · have c := pk w hw
        exact Or.inr (Or.inl (Desc.block hk h hw (by omega) (by omega)))
      · have c := ps w hw; omega
    · have hm := h.mem
      have a := ps u hm.1; have b := ps v hm.2
      rcases hw with rfl | hw | hw
      · rw [pr] at h1; omega
      · have c := pk w hw; omega
      · have c := ps w hw
        exact Or.inr (Or.inr (Desc.block hs h hw (by omega) (by omega)))

/-- parent or the outer node -/
theorem Linked.parent {pred : Dict N N} : ∀ {F : Fst N} {p v q : N}, Linked pred p F → v ∈ F.pre → pred.get? v = some q →
    q = p ∨ F.Desc q v
  | nil, _, _, _, _, h, _ => by cases h
  | cons r k s, p, v, q, ⟨h1, h2, h3⟩, hv, hq => by
    rw [pre, List.mem_cons, List.mem_append] at hv
    rcases hv with rfl | hv | hv
    · rw [h1] at hq; cases hq; exact Or.inl rfl
    · rcases Linked.parent h2 hv hq with rfl | h
      · exact Or.inr (Or.inl ⟨rfl, by simp [hv]⟩)
      · exact Or.inr (Or.inr (Or.inl h))
    · rcases Linked.parent h3 hv hq with rfl | h
      · exact Or.inl rfl
      · exact Or.inr (Or.inr (Or.inr h))

/-- the links lead from every node to the outer node -/
theorem Linked.leads {pred : Dict N N} : ∀ {F : Fst N} {p v : N}, Linked pred p F → v ∈ F.pre → LeadsTo pred p v
  | nil, _, _, _, h => by cases h
  | cons r k s, p, v, ⟨h1, h2, h3⟩, hv => by
    have ht : ∀ x, LeadsTo pred r x → LeadsTo pred p x := by
      intro x hx
      induction hx with
      | here => exact .step h1 .here
      | step hp _ ih => exact .step hp ih
    rw [pre, List.mem_cons, List.mem_append] at hv
    rcases hv with rfl | hv | hv
    · exact ht _ .here
    · exact ht _ (Linked.leads h2 hv)
    · exact Linked.leads h3 hv

theorem Linked.desc {pred : Dict N N} : ∀ {F : Fst N} {p u v : N}, Linked pred p F → F.Desc u v → LeadsTo pred u v
  | nil, _, _, _, _, h => h.elim
  | cons r k s, p, u, v, ⟨h1, h2, h3⟩, h => by
    rcases h with ⟨rfl, h⟩ | h | h
    · rcases List.mem_cons.1 h with rfl | h
      · exact .here
      · exact h2.leads h
    · exact Linked.desc h2 h
    · exact Linked.desc h3 h

theorem Linked.congr {pred pred' : Dict N N} : ∀ {F : Fst N} {p : N}, (∀ v ∈ F.pre, pred'.get? v = pred.get? v) →
    Linked pred p F → Linked pred' p F
  | nil, _, _, _ => trivial
  | cons r k s, p, h, ⟨h1, h2, h3⟩ => by
    rw [pre] at h
    exact ⟨by rw [h r (by simp)]; exact h1, Linked.congr (fun v hv => h v (by simp [hv])) h2,
      Linked.congr (fun v hv => h v (by simp [hv])) h3⟩

end Fst

/-- the run of a call or loop builds the forest `F` -/
structure Run (g : Graph N) (st st' : DState N) (dc dc' fc fc' : Int) (F : Fst N) : Prop where
  nodup : F.pre.Nodup
  fresh : ∀ v ∈ F.pre, st.disc v = none
  some : ∀ v, (st'.disc v).isSome ↔ (st.disc v).isSome ∨ v ∈ F.pre
  dkeep : ∀ v, v ∉ F.pre → st'.disc v = st.disc v
  fkeep : ∀ v, v ∉ F.pre → st'.fin v = st.fin v
  dcount : dc' = dc + F.pre.length
  fcount : fc' = fc + F.pre.length
  dtimes : F.pre.map st'.disc = ticks (dc + 1) F.pre.length
  ftimes : F.rp.reverse.map st'.fin = ticks fc F.pre.length
  closed : ∀ u v, u ∈ F.pre → Step g false u v → (st'.disc v).isSome
  fwd : ∀ u v, u ∈ F.pre → v ∈ F.pre → F.pre.idxOf u ≤ F.pre.idxOf v → Step g false u v → F.Desc u v

theorem Run.trans {st st1 st2 : DState N} {dc dc1 dc2 fc fc1 fc2 : Int} {r : N} {K F : Fst N}
    (h1 : Run g st st1 dc dc1 fc fc1 (.cons r K .nil)) (h2 : Run g st1 st2 dc1 dc2 fc1 fc2 F) :
    Run g st st2 dc dc2 fc fc2 (.cons r K F) := by
  have e0 : (Fst.cons r K .nil).pre = r :: K.pre := by simp [Fst.pre]
  have e1 : (Fst.cons r K F).pre = (r :: K.pre) ++ F.pre := by simp [Fst.pre]
  have r0 : (Fst.cons r K .nil).rp = r :: K.rp := by simp [Fst.rp]
  have r1 : (Fst.cons r K F).rp = F.rp ++ (r :: K.rp) := by simp [Fst.rp]
  have hm : ∀ v, v ∈ r :: K.rp ↔ v ∈ r :: K.pre := fun v => ((Fst.rp_perm K).cons r).mem_iff
  obtain ⟨a1, a2, a3, a4, a5, a6, a7, a8, a9, a10, a11⟩ := h1
  rw [e0] at a1 a2 a3 a4 a5 a6 a7 a8 a9 a10 a11
  rw [r0] at a9
  have hdisj : ∀ v, v ∈ F.pre → v ∉ r :: K.pre := by
    intro v hv hv1
    have := h2.fresh v hv
    have h3 := (a3 v).2 (Or.inr hv1)
    rw [this] at h3; cases h3
  have hnd : ((r :: K.pre) ++ F.pre).Nodup := List.nodup_append.2 ⟨a1, h2.nodup, fun a ha b hb hab => hdisj b hb (hab ▸ ha)⟩
  constructor <;> rw [e1]
  · exact hnd
  · intro v hv
    rcases List.mem_append.1 hv with hv | hv
    · exact a2 v hv
    · have := h2.fresh v hv
      rw [a4 v (hdisj v hv)] at this
      exact this
  · intro v
    rw [h2.some, a3, List.mem_append, or_assoc]
  · intro v hv
    rw [List.mem_append, not_or] at hv
    rw [h2.dkeep v hv.2, a4 v hv.1]
  · intro v hv
    rw [List.mem_append, not_or] at hv
    rw [h2.fkeep v hv.2, a5 v hv.1]
  · rw [h2.dcount, a6, List.length_append]; push_cast; omega
  · rw [h2.fcount, a7, List.length_append]; push_cast; omega
  · have e : (r :: K.pre).map st2.disc = (r :: K.pre).map st1.disc :=
      List.map_congr_left fun v hv => h2.dkeep v fun h => hdisj v h hv
    rw [List.map_append, e, a8, h2.dtimes, List.length_append, ticks_add, a6]
    congr 2; omega
  · have e : (r :: K.rp).reverse.map st2.fin = (r :: K.rp).reverse.map st1.fin :=
      List.map_congr_left fun v hv => h2.fkeep v fun h => hdisj v h ((hm v).1 (List.mem_reverse.1 hv))
    rw [r1, List.reverse_append, List.map_append, e, a9, h2.ftimes, List.length_append, ticks_add, a7]
  · intro u v hu hs
    rcases List.mem_append.1 hu with hu | hu
    · exact (h2.some v).2 (Or.inl (a10 u v hu hs))
    · exact h2.closed u v hu hs
  · intro u v hu hv hle hs
    rcases List.mem_append.1 hu with hu | hu <;> rcases List.mem_append.1 hv with hv | hv
    · rw [List.idxOf_append_of_mem hu, List.idxOf_append_of_mem hv] at hle
      rcases a11 u v hu hv hle hs with h | h | h
      · exact Or.inl h
      · exact Or.inr (Or.inl h)
      · exact h.elim
    · have := a10 u v hu hs
      rw [h2.fresh v hv] at this; cases this
    · rw [List.idxOf_append_of_notMem (hdisj u hu), List.idxOf_append_of_mem hv] at hle
      have := List.idxOf_lt_length_of_mem hv
      omega
    · rw [List.idxOf_append_of_notMem (hdisj u hu), List.idxOf_append_of_notMem (hdisj v hv)] at hle
      exact Or.inr (Or.inr (h2.fwd u v hu hv (by omega) hs))

/-- what a successful recursive call does -/
def CallF (g : Graph N) (rec : N → DState N → Int → Int → Res N) : Prop :=
  ∀ r st dc fc st' dc' fc', st.disc r = none → rec r st dc fc = .ok (st', dc', fc') →
    ∃ K, Run g st st' dc dc' fc fc' (.cons r K .nil) ∧ K.Linked st'.pred r ∧
      ∀ v, v ∉ K.pre → st'.pred.get? v = st.pred.get? v

theorem dfsFor_forest {rec : N → DState N → Int → Int → Res N} (hrec : CallF g rec) (root : N) (l : List N) (st : DState N)
    (dc fc : Int) {st' : DState N} {dc' fc' : Int} (he : dfsFor rec root l st dc fc = .ok (st', dc', fc')) :
    ∃ F, Run g st st' dc dc' fc fc' F ∧ F.Linked st'.pred root ∧ (∀ v, v ∉ F.pre → st'.pred.get? v = st.pred.get? v) ∧
      ∀ i ∈ l, (st'.disc i).isSome := by
  induction l generalizing st dc fc with
  | nil =>
    cases he
    exact ⟨.nil, ⟨by simp [Fst.pre], by simp [Fst.pre], by simp [Fst.pre], by simp, by simp, by simp [Fst.pre], by simp [Fst.pre],
      by simp [Fst.pre, ticks], by simp [Fst.pre, Fst.rp, ticks], by simp [Fst.pre], by simp [Fst.pre]⟩, trivial, by simp, by simp⟩
  | cons i l ih =>
    rw [dfsFor] at he
    by_cases hd : st.disc i = none
    · rw [if_pos hd] at he
      split at he
      · cases he
      · next st1 dc1 fc1 h1 =>
        obtain ⟨K, e1, e2, e3⟩ := hrec i { st with pred := st.pred.set i root } dc fc st1 dc1 fc1 hd h1
        have e1' : Run g st st1 dc dc1 fc fc1 (.cons i K .nil) := ⟨e1.nodup, e1.fresh, e1.some, e1.dkeep, e1.fkeep, e1.dcount, e1.fcount, e1.dtimes, e1.ftimes, e1.closed, e1.fwd⟩
        obtain ⟨F, f1, f2, f3, f4⟩ := ih st1 dc1 fc1 he
        have hnd := (e1'.trans f1).nodup
        rw [Fst.pre] at hnd
        obtain ⟨hi, hnd⟩ := List.nodup_cons.1 hnd
        rw [List.mem_append, not_or] at hi
        have hKF : ∀ v ∈ K.pre, v ∉ F.pre := fun v h h' => (List.nodup_append.1 hnd).2.2 v h v h' rfl
        refine ⟨.cons i K F, e1'.trans f1, ⟨?_, ?_, f2⟩, ?_, ?_⟩
        · rw [f3 i hi.2, e3 i hi.1, Dict.get?_set, if_pos rfl]
        · exact e2.congr fun v hv => f3 v (hKF v hv)
        · intro v hv
          rw [Fst.pre, List.mem_cons, List.mem_append, not_or, not_or] at hv
          rw [f3 v hv.2.2, e3 v hv.2.1]
          show (st.pred.set i root).get? v = _
          rw [Dict.get?_set, if_neg (Ne.symm hv.1)]
        · intro j hj
          rcases List.mem_cons.1 hj with rfl | hj
          · exact (f1.some j).2 (Or.inl ((e1'.some j).2 (Or.inr (by simp [Fst.pre]))))
          · exact f4 j hj
    · rw [if_neg hd] at he
      obtain ⟨F, f1, f2, f3, f4⟩ := ih st dc fc he
      refine ⟨F, f1, f2, f3, fun j hj => ?_⟩
      rcases List.mem_cons.1 hj with rfl | hj
      · exact (f1.some j).2 (Or.inl (Option.isSome_iff_ne_none.2 hd))
      · exact f4 j hj

theorem dfs_forest (hw : g.Wf) (component : Option Int) (f : Nat) : CallF g (dfs g component f) := by
  induction f with
  | zero => intro r st dc fc st' dc' fc' _ h; cases h
  | succ f ih =>
    intro r st dc fc st' dc' fc' hd h
    rw [dfs] at h
    split at h
    · cases h
    next hnode =>
    split at h
    · cases h
    split at h
    · cases h
    next l hl =>
    split at h
    · cases h
    next st1 dc1 fc1 h1 =>
    cases h
    have hr : r ∈ g.getNodeList := by
      have : g.hasNode r = true := by simpa using hnode
      unfold Graph.hasNode at this
      rwa [Dict.contains_iff, hw.nodesEq] at this
    obtain ⟨l', hl', hmem⟩ := nbrs_ok hw false hr
    have hl' : g.getNeighbors r = .ok l' := by simpa [nbrs] using hl'
    rw [hl] at hl'; cases hl'
    obtain ⟨K, e1, e2, e3, e4⟩ := dfsFor_forest ih r l _ _ _ h1
    have hsome0 : ∀ v, ((enter component r st dc).disc v).isSome ↔ (st.disc v).isSome ∨ v = r := by
      intro v
      show (upd st.disc r (some (dc + 1)) v).isSome = true ↔ _
      by_cases hv : v = r
      · subst hv; simp
      · rw [upd_ne _ _ hv]; simp [hv]
    have hrK : r ∉ K.pre := by
      intro h
      have h1 := e1.fresh r h
      have h2 := (hsome0 r).2 (Or.inr rfl)
      rw [h1] at h2; cases h2
    have e0 : (Fst.cons r K .nil).pre = r :: K.pre := by simp [Fst.pre]
    have r0 : (Fst.cons r K .nil).rp = r :: K.rp := by simp [Fst.rp]
    have hdr : (leave r st1 fc1).disc = st1.disc := rfl
    have hfin : (leave r st1 fc1).fin = upd st1.fin r (some fc1) := rfl
    refine ⟨K, ?_, e2, e3⟩
    constructor <;> rw [e0]
    · exact List.nodup_cons.2 ⟨hrK, e1.nodup⟩
    · intro v hv
      rcases List.mem_cons.1 hv with rfl | hv
      · exact hd
      · have h1 := e1.fresh v hv
        cases h2 : st.disc v with
        | none => rfl
        | some x => have := (hsome0 v).2 (Or.inl (by simp [h2])); rw [h1] at this; cases this
    · intro v; rw [hdr, e1.some, hsome0, List.mem_cons, or_assoc]
    · intro v hv
      rw [List.mem_cons, not_or] at hv
      rw [hdr, e1.dkeep v hv.2]
      exact upd_ne _ _ hv.1
    · intro v hv
      rw [List.mem_cons, not_or] at hv
      rw [hfin, upd_ne _ _ hv.1, e1.fkeep v hv.2]
      rfl
    · rw [e1.dcount]; simp; omega
    · rw [e1.fcount]; simp; omega
    · have : st1.disc r = some (dc + 1) := by
        rw [e1.dkeep r hrK]; exact upd_same _ _ _
      rw [hdr, List.map_cons, e1.dtimes, this]; rfl
    · have e : K.rp.reverse.map (upd st1.fin r (some fc1)) = K.rp.reverse.map st1.fin := by
        refine List.map_congr_left fun v hv => upd_ne _ _ ?_
        rintro rfl; exact hrK ((Fst.rp_perm K).mem_iff.1 (by simpa using hv))
      rw [hfin, r0, List.reverse_cons, List.map_append, e, e1.ftimes, List.length_cons, ticks_add]
      simp [ticks, e1.fcount]
    · intro u v hu hs
      rw [hdr]
      rcases List.mem_cons.1 hu with rfl | hu
      · exact e4 v ((hmem v).2 hs)
      · exact e1.closed u v hu hs
    · intro u v hu hv hle hs
      rcases List.mem_cons.1 hu with rfl | hu'
      · exact Or.inl ⟨rfl, hv⟩
      · have hur : u ≠ r := by rintro rfl; exact hrK hu'
        rw [List.idxOf_cons_ne _ (Ne.symm hur)] at hle
        rcases List.mem_cons.1 hv with rfl | hv'
        · simp at hle
        · have hvr : v ≠ r := by rintro rfl; exact hrK hv'
          rw [List.idxOf_cons_ne _ (Ne.symm hvr)] at hle
          exact Or.inr (Or.inl (e1.fwd u v hu' hv' (by omega) hs))

end Dfs
end GiMPy
