import Verif.Model.LabelCorrecting
import Verif.Lemmas.Search
import Mathlib.Tactic.Ring
import Mathlib.Tactic.Linarith
import Mathlib.Data.List.Nodup
import Mathlib.Data.List.Perm.Subperm

/-! # Invariants of the label correcting loop -/

namespace GiMPy
namespace LC
variable {N : Type} [DecidableEq N]
set_option linter.unusedSectionVars false

/-! ## predecessor chains -/

/-- `p` is the chain of predecessors of `v`, from `v` to the node without predecessor -/
inductive Anc (pred : Dict N (Option N)) : N → List N → Prop
  | root {v} : pred.get? v = some none → Anc pred v [v]
  | step {v u p} : pred.get? v = some (some u) → Anc pred u p → Anc pred v (v :: p)

/-- `l` is the chain of predecessors from `x` up to, but without, `y` -/
inductive Pre (pred : Dict N (Option N)) (y : N) : N → List N → Prop
  | nil : Pre pred y y []
  | cons {x u l} : pred.get? x = some (some u) → Pre pred y u l → Pre pred y x (x :: l)

theorem Anc.det {pred : Dict N (Option N)} {v p} (h : Anc pred v p) : ∀ {p'}, Anc pred v p' → p = p' := by
  induction h with
  | root h =>
    intro p' h'
    cases h' with
    | root _ => rfl
    | step h1 _ => rw [h] at h1; cases h1
  | step h _ ih =>
    intro p' h'
    cases h' with
    | root h1 => rw [h] at h1; cases h1
    | step h1 h2 => rw [h] at h1; cases h1; rw [ih h2]

/-- the part of a chain from a node on is the chain of that node -/
theorem Anc.suffix {pred : Dict N (Option N)} {v p} (h : Anc pred v p) : ∀ {x}, x ∈ p →
    ∃ p1 p2, p = p1 ++ p2 ∧ Anc pred x p2 ∧ Pre pred x v p1 ∧ x ∉ p1 := by
  induction h with
  | @root v h =>
    intro x hx
    rw [List.mem_singleton] at hx
    subst hx
    exact ⟨[], _, rfl, .root h, .nil, by simp⟩
  | @step v u p h hu ih =>
    intro x hx
    by_cases hxv : x = v
    · subst hxv
      exact ⟨[], _, rfl, .step h hu, .nil, by simp⟩
    · obtain ⟨p1, p2, h1, h2, h3, h4⟩ := ih ((List.mem_cons.1 hx).resolve_left hxv)
      exact ⟨v :: p1, p2, by rw [h1]; rfl, h2, .cons h h3, by simp [hxv, h4]⟩

theorem Anc.nodup {pred : Dict N (Option N)} {v p} (h : Anc pred v p) : p.Nodup := by
  induction h with
  | root h => simp
  | @step v u p h hu ih =>
    rw [List.nodup_cons]
    refine ⟨fun hv => ?_, ih⟩
    obtain ⟨p1, p2, h1, h2, _, _⟩ := hu.suffix hv
    have h3 := h2.det (.step h hu)
    have := congrArg List.length h1
    rw [h3] at this
    simp at this
    omega

theorem Anc.keys {pred : Dict N (Option N)} {v p} (h : Anc pred v p) : ∀ x ∈ p, x ∈ pred.keys := by
  induction h with
  | root h => simp [Dict.mem_keys_of_get? h]
  | step h _ ih =>
    intro x hx
    rcases List.mem_cons.1 hx with rfl | hx
    · exact Dict.mem_keys_of_get? h
    · exact ih x hx

theorem Anc.head {pred : Dict N (Option N)} {v p} (h : Anc pred v p) : v ∈ p := by
  cases h <;> simp

theorem Anc.set {pred : Dict N (Option N)} {v p j o} (h : Anc pred v p) (hj : j ∉ p) : Anc (pred.set j o) v p := by
  induction h with
  | root h =>
    refine .root ?_
    rw [Dict.get?_set_ne _ _ (by rintro rfl; simp at hj), h]
  | step h _ ih =>
    refine .step ?_ (ih (by simp at hj; exact hj.2))
    rw [Dict.get?_set_ne _ _ (by rintro rfl; simp at hj), h]

theorem Pre.set {pred : Dict N (Option N)} {v p y j o} (h : Pre pred y v p) (hj : j ∉ p) : Pre (pred.set j o) y v p := by
  induction h with
  | nil => exact .nil
  | cons h _ ih =>
    refine .cons ?_ (ih (by simp at hj; exact hj.2))
    rw [Dict.get?_set_ne _ _ (by rintro rfl; simp at hj), h]

/-- all chains after `pred[j] = i`, if `j` is not on the chain of `i` -/
theorem Anc.relink {pred : Dict N (Option N)} {i pi j} (hi : Anc pred i pi) (hj : j ∉ pi) {v p} (h : Anc pred v p) :
    ∃ p', Anc (pred.set j (some i)) v p' := by
  have key : Anc (pred.set j (some i)) j (j :: pi) := .step (by simp) (hi.set hj)
  induction h with
  | @root v h =>
    by_cases hv : v = j
    · subst hv; exact ⟨_, key⟩
    · exact ⟨_, .root (by rw [Dict.get?_set_ne _ _ (Ne.symm hv), h])⟩
  | @step v u p h _ ih =>
    by_cases hv : v = j
    · subst hv; exact ⟨_, key⟩
    · obtain ⟨p', hp'⟩ := ih
      exact ⟨_, .step (by rw [Dict.get?_set_ne _ _ (Ne.symm hv), h]) hp'⟩

/-! ## the two loops over `pred` -/

theorem meets_anc {nl : List N} {pred : Dict N (Option N)} {v p} (h : Anc pred v p) : ∀ {lab : List N} {f : Nat},
    (∀ x ∈ p, x ∈ nl ∧ x ∉ lab) → p.length < f → meets nl pred f lab (some v) = .ok false := by
  have hn := h.nodup
  induction h with
  | @root v h =>
    intro lab f hp hf
    obtain ⟨f, rfl⟩ : ∃ f', f = f' + 2 := ⟨f - 2, by simp at hf; omega⟩
    have := hp v (by simp)
    rw [meets, if_neg (by simp [this.1]), if_neg this.2, h]
    rfl
  | @step v u p h _ ih =>
    intro lab f hp hf
    obtain ⟨f, rfl⟩ : ∃ f', f = f' + 1 := ⟨f - 1, by simp at hf; omega⟩
    have := hp v (by simp)
    rw [List.nodup_cons] at hn
    rw [meets, if_neg (by simp [this.1]), if_neg this.2, h]
    simp only
    refine ih hn.2 (fun x hx => ⟨(hp x (by simp [hx])).1, ?_⟩) (by simp at hf; omega)
    rw [List.mem_cons]
    rintro (rfl | hh)
    · exact hn.1 hx
    · exact (hp x (by simp [hx])).2 hh

theorem meets_pre {nl : List N} {pred : Dict N (Option N)} {y x l} (h : Pre pred y x l) : ∀ {lab : List N} {f : Nat},
    (∀ x ∈ l, x ∈ nl ∧ x ∉ lab) → l.Nodup → y ∈ nl → (y ∈ lab ∨ y ∈ l) → l.length < f →
    meets nl pred f lab (some x) = .ok true := by
  induction h with
  | nil =>
    intro lab f _ _ hy hy' hf
    obtain ⟨f, rfl⟩ : ∃ f', f = f' + 1 := ⟨f - 1, by simp at hf; omega⟩
    rw [meets, if_neg (by simp [hy]), if_pos (by simpa using hy')]
  | @cons x u l h _ ih =>
    intro lab f hp hn hy hy' hf
    obtain ⟨f, rfl⟩ : ∃ f', f = f' + 1 := ⟨f - 1, by simp at hf; omega⟩
    have := hp x (by simp)
    rw [List.nodup_cons] at hn
    rw [meets, if_neg (by simp [this.1]), if_neg this.2, h]
    simp only
    refine ih (fun z hz => ⟨(hp z (by simp [hz])).1, ?_⟩) hn.2 hy ?_ (by simp at hf; omega)
    · rw [List.mem_cons]
      rintro (rfl | hh)
      · exact hn.1 hz
      · exact (hp z (by simp [hz])).2 hh
    · rcases hy' with hy' | hy'
      · exact .inl (by simp [hy'])
      · rcases List.mem_cons.1 hy' with rfl | hy'
        · exact .inl (by simp)
        · exact .inr hy'

theorem getCycle_pre {pred : Dict N (Option N)} {y x l} (h : Pre pred y x l) : ∀ {cyc : List N} {f : Nat},
    y ∉ l → l.length < f → getCycle pred y f cyc (some x) = .ok (cyc ++ l).reverse := by
  induction h with
  | nil =>
    intro cyc f _ hf
    obtain ⟨f, rfl⟩ : ∃ f', f = f' + 1 := ⟨f - 1, by simp at hf; omega⟩
    simp [getCycle]
  | @cons x u l h _ ih =>
    intro cyc f hy hf
    obtain ⟨f, rfl⟩ : ∃ f', f = f' + 1 := ⟨f - 1, by simp at hf; omega⟩
    simp only [List.mem_cons, not_or] at hy
    rw [getCycle, if_neg (Ne.symm hy.1), h]
    simp only
    rw [ih hy.2 (by simp at hf; omega)]
    simp

/-! ## the invariant -/

variable {R : N → N → Prop} {w : N → N → Int} {V : List N} {s : N}

/-- what holds between the turns of the for loop -/
structure Inv (R : N → N → Prop) (w : N → N → Int) (V : List N) (s : N) (st : LState N) : Prop where
  keysV : ∀ v ∈ st.pred.keys, v ∈ V
  nod : st.pred.keys.Nodup
  lab : ∀ v, (∃ d, st.dist v = some d) ↔ v ∈ st.pred.keys
  src : st.dist s = some 0
  root : ∀ v, st.pred.get? v = some none ↔ v = s
  arc : ∀ v u, st.pred.get? v = some (some u) → R u v ∧ ∃ a b, st.dist u = some a ∧ st.dist v = some b ∧ a + w u v ≤ b
  anc : ∀ v ∈ st.pred.keys, ∃ p, Anc st.pred v p
  qn : st.q.Nodup
  qk : ∀ v ∈ st.q, v ∈ st.pred.keys

theorem inv_start (hs : s ∈ V) : Inv R w V s (start s) where
  keysV := by simp [start, Dict.keys, hs]
  nod := by simp [start, Dict.keys]
  lab := by
    intro v
    by_cases h : v = s <;> simp [start, Dict.keys, h]
  src := by simp [start]
  root := by
    intro v
    by_cases h : s = v
    · subst h; simp [start, Dict.get?, Dict.getL]
    · simp [start, Dict.get?, Dict.getL, h, Ne.symm h]
  arc := by
    intro v u h
    by_cases h' : s = v
    · subst h'; simp [start, Dict.get?, Dict.getL] at h
    · simp [start, Dict.get?, Dict.getL, h'] at h
  anc := by
    intro v hv
    simp [start, Dict.keys] at hv
    subst hv
    exact ⟨_, .root (by simp [start, Dict.get?, Dict.getL])⟩
  qn := by simp [start]
  qk := by simp [start, Dict.keys]

theorem pathCost_snoc {l : List N} {u : N} (v : N) (h : l.getLast? = some u) :
    pathCost w (l ++ [v]) = pathCost w l + w u v := by
  induction l with
  | nil => cases h
  | cons a l ih =>
    cases l with
    | nil => simp at h; subst h; simp [pathCost]
    | cons b l =>
      rw [List.getLast?_cons_cons] at h
      have := ih h
      simp only [List.cons_append, pathCost] at this ⊢
      omega

/-- labels along a chain -/
theorem Inv.chain_cost {st : LState N} (h : Inv R w V s st) {y x l} (hp : Pre st.pred y x l) : ∀ {a}, st.dist x = some a →
    ∃ b, st.dist y = some b ∧ b + pathCost w (y :: l.reverse) ≤ a ∧ (y :: l.reverse).IsChain R ∧
      (y :: l.reverse).getLast? = some x := by
  induction hp with
  | nil =>
    intro a ha
    exact ⟨a, ha, by simp [pathCost], by simp, by simp⟩
  | @cons x u l hx _ ih =>
    intro a ha
    obtain ⟨hR, a1, b1, ha1, hb1, hle⟩ := h.arc x u hx
    rw [ha] at hb1
    cases hb1
    obtain ⟨b, hb, hc, hch, hl⟩ := ih ha1
    refine ⟨b, hb, ?_, ?_, by rw [List.reverse_cons, ← List.cons_append]; exact List.getLast?_concat⟩
    · have : pathCost w (y :: (x :: l).reverse) = pathCost w (y :: l.reverse) + w u x := by
        rw [List.reverse_cons, ← List.cons_append]
        exact pathCost_snoc _ hl
      omega
    · rw [List.reverse_cons, ← List.cons_append]
      rw [List.isChain_append]
      refine ⟨hch, by simp, ?_⟩
      intro p hp q hq
      rw [hl] at hp
      simp only [List.head?_cons, Option.mem_def, Option.some.injEq] at hp hq
      subst hp; subst hq
      exact hR

/-! ## one update -/

/-- `j` is not on the chain of `i`: the state after the update -/
theorem Inv.update {st : LState N} (h : Inv R w V s st) {i j : N} {d : Int} {p : List N}
    (hi : st.dist i = some d) (hR : R i j) (hV : j ∈ V) (hlt : ∀ dj, st.dist j = some dj → d + w i j < dj)
    (hp : Anc st.pred i p) (hj : j ∉ p) :
    Inv R w V s ⟨upd st.dist j (some (d + w i j)), st.pred.set j (some i), enqueue st.q j⟩ := by
  have hji : j ≠ i := fun e => hj (e ▸ hp.head)
  have hjs : j ≠ s := by
    rintro rfl
    apply hj
    clear hj hlt hR hi hji
    induction hp with
    | root hv => rw [(h.root _).1 hv]; simp
    | step _ _ ih => simp [ih]
  have hik : i ∈ st.pred.keys := (h.lab i).1 ⟨d, hi⟩
  refine ⟨?_, Dict.nodup_keys_set h.nod _ _, ?_, ?_, ?_, ?_, ?_, ?_, ?_⟩
  · intro v hv
    rcases (Dict.mem_keys_set _ _ _ _).1 hv with rfl | hv
    · exact hV
    · exact h.keysV v hv
  · intro v
    rw [Dict.mem_keys_set]
    by_cases hv : v = j
    · simp [upd, hv]
    · simp [upd, hv, h.lab v]
  · simp [upd, Ne.symm hjs, h.src]
  · intro v
    rw [Dict.get?_set]
    by_cases hv : j = v
    · subst hv; simp [hjs]
    · simp only [if_neg hv]; exact h.root v
  · intro v u hvu
    simp only [Dict.get?_set] at hvu
    by_cases hv : j = v
    · subst hv
      simp only [if_true, Option.some.injEq] at hvu
      subst hvu
      exact ⟨hR, d, d + w i j, by simp [upd, Ne.symm hji, hi], by simp [upd], le_rfl⟩
    · rw [if_neg hv] at hvu
      obtain ⟨h1, a, b, ha, hb, hle⟩ := h.arc v u hvu
      refine ⟨h1, ?_⟩
      by_cases hu : u = j
      · subst hu
        exact ⟨d + w i u, b, by simp [upd], by simp [upd, Ne.symm hv, hb], by have := hlt a ha; omega⟩
      · exact ⟨a, b, by simp [upd, hu, ha], by simp [upd, Ne.symm hv, hb], hle⟩
  · intro v hv
    rcases (Dict.mem_keys_set _ _ _ _).1 hv with rfl | hv
    · exact ⟨_, .step (by simp) (hp.set hj)⟩
    · obtain ⟨p', hp'⟩ := h.anc v hv
      exact hp.relink hj hp'
  · unfold enqueue
    split
    · exact h.qn
    · next hq => simp only [List.nodup_append, h.qn, true_and]
                 exact ⟨by simp, by rintro a ha b hb rfl; simp at hb; exact hq (hb ▸ ha)⟩
  · intro v hv
    rw [Dict.mem_keys_set]
    unfold enqueue at hv
    split at hv
    · exact .inr (h.qk v hv)
    · rcases List.mem_append.1 hv with hv | hv
      · exact .inr (h.qk v hv)
      · exact .inl (by simpa using hv)

theorem pathCost_rotate (w : N → N → Int) (j : N) : ∀ l : List N, cycleCost w (l ++ [j]) = pathCost w (j :: (l ++ [j]))
  | [] => by simp [cycleCost]
  | k :: m => by
    have h : ∀ (m : List N) (k z : N), pathCost w (k :: (m ++ [j, z])) = pathCost w (k :: (m ++ [j])) + w j z := by
      intro m
      induction m with
      | nil => intro k z; simp [pathCost]
      | cons a m ih => intro k z; simp only [List.cons_append, pathCost, ih]; ring
    simp only [cycleCost, List.cons_append, List.head?_cons, Option.toList_some, List.append_assoc, List.nil_append]
    rw [h, pathCost]
    ring

/-- `j` is on the chain of `i`: the cycle that is found -/
theorem Inv.cycle {st : LState N} (h : Inv R w V s st) {i j : N} {d dj : Int} {p : List N}
    (hi : st.dist i = some d) (hR : R i j) (hdj : st.dist j = some dj) (hlt : d + w i j < dj)
    (hp : Anc st.pred i p) (hj : j ∈ p) {fuel : Nat} (hf : V.length + 1 < fuel) (g : Graph N) (hg : g.getNodeList = V) :
    ∃ c, checkCycle g j (st.pred.set j (some i)) fuel = .ok (some c) ∧ IsCycle R c ∧ cycleCost w c < 0 := by
  obtain ⟨p1, p2, h1, h2, h3, h4⟩ := hp.suffix hj
  have hn : p1.Nodup := (List.nodup_append.1 (h1 ▸ hp.nodup)).1
  have hpV : ∀ x ∈ p, x ∈ V := fun x hx => h.keysV x (hp.keys x hx)
  have hlen : p1.length ≤ V.length :=
    (hn.subperm fun x hx => hpV x (by rw [h1]; simp [hx])).length_le
  have h5 := h3.set (o := some i) h4
  obtain ⟨b, hb, hc, hch, hl⟩ := h.chain_cost h3 hi
  rw [hdj] at hb
  cases hb
  refine ⟨(j :: p1).reverse, ?_, ⟨?_, ?_⟩, ?_⟩
  · unfold checkCycle
    rw [hg, meets_pre (y := j) (l := j :: p1) (.cons (by simp) h5)
      (by
        intro x hx
        refine ⟨?_, by simp⟩
        rcases List.mem_cons.1 hx with rfl | hx
        · exact hpV _ hj
        · exact hpV x (by rw [h1]; simp [hx]))
      (by simp [h4, hn]) (hpV _ hj) (.inr (by simp)) (by simp; omega)]
    simp only
    unfold cycleOf
    rw [Dict.get?_set_self]
    simp only
    rw [getCycle_pre h5 h4 (by omega)]
    rfl
  · rw [List.nodup_reverse]; simp [h4, hn]
  · rw [List.reverse_cons]
    cases hp1 : p1.reverse with
    | nil =>
      have : p1 = [] := by simpa using hp1
      subst this
      cases h3
      exact ⟨i, i, ⟨by simp, by simp, by simp⟩, hR⟩
    | cons k m =>
      rw [hp1] at hch hl
      rw [List.isChain_cons_cons] at hch
      refine ⟨k, j, ⟨by simp, List.getLast?_concat, ?_⟩, hch.1⟩
      rw [List.isChain_append]
      refine ⟨hch.2, by simp, ?_⟩
      intro a ha b hb
      rw [List.getLast?_cons_cons] at hl
      rw [hl] at ha
      simp only [List.head?_cons, Option.mem_def, Option.some.injEq] at ha hb
      subst ha; subst hb
      exact hR
  · rw [List.reverse_cons, pathCost_rotate, ← List.cons_append, pathCost_snoc _ hl]
    omega
end LC
end GiMPy
