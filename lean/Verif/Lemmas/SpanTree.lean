import Verif.Spec.SpanTree
import Mathlib.Data.List.Chain
import Mathlib.Data.List.Perm.Subperm
import Mathlib.Algebra.BigOperators.Group.List.Lemmas

/-! # The exchange argument for minimum spanning trees -/

namespace GiMPy
variable {N : Type} [DecidableEq N]
set_option linter.unusedSectionVars false

theorem EAdj.symm {T : List (N × N)} {a b : N} (h : EAdj T a b) : EAdj T b a := Or.symm h

theorem EConn.symm {T : List (N × N)} {a b : N} (h : EConn T a b) : EConn T b a := by
  induction h with
  | refl => exact .refl
  | tail _ h2 ih => exact .head h2.symm ih

theorem EConn.mono {T T' : List (N × N)} (hs : ∀ e ∈ T, e ∈ T') {a b : N} (h : EConn T a b) : EConn T' a b := by
  refine Relation.ReflTransGen.mono ?_ _ _ h
  intro x y hxy
  exact hxy.imp (hs _) (hs _)

/-- a connection can be realised by a path without repeated nodes -/
theorem exists_nodup_path {R : N → N → Prop} {a b : N} (h : Relation.ReflTransGen R a b) :
    ∃ l : List N, (a :: l).Nodup ∧ (a :: l).IsChain R ∧ (a :: l).getLast? = some b := by
  induction h using Relation.ReflTransGen.head_induction_on with
  | refl => exact ⟨[], by simp, by simp, by simp⟩
  | @head a c hac _ ih =>
    obtain ⟨l, h1, h2, h3⟩ := ih
    by_cases ha : a ∈ c :: l
    · obtain ⟨l₁, l₂, hl⟩ := List.append_of_mem ha
      refine ⟨l₂, ?_, ?_, ?_⟩
      · rw [hl] at h1; exact (List.nodup_append.1 h1).2.1
      · rw [hl] at h2; exact (List.isChain_append.1 h2).2.1
      · rw [hl] at h3
        rw [List.getLast?_append] at h3
        simpa using h3
    · refine ⟨c :: l, List.nodup_cons.2 ⟨ha, h1⟩, List.isChain_cons_cons.2 ⟨hac, h2⟩, ?_⟩
      rw [List.getLast?_cons_cons]; exact h3

theorem chain_conn {R : N → N → Prop} {a b : N} {l : List N} (h2 : (a :: l).IsChain R)
    (h3 : (a :: l).getLast? = some b) : Relation.ReflTransGen R a b := by
  induction l generalizing a with
  | nil => simp at h3; subst h3; exact .refl
  | cons c l ih =>
    rw [List.isChain_cons_cons] at h2
    rw [List.getLast?_cons_cons] at h3
    exact .head h2.1 (ih h2.2 h3)

/-- a chain whose steps all satisfy a side condition on the visited nodes -/
theorem chain_restrict {R : N → N → Prop} {l : List N} (P : N → Prop) (h : l.IsChain R) (hP : ∀ x ∈ l, P x) :
    l.IsChain fun x y => R x y ∧ P x ∧ P y := by
  induction l with
  | nil => simp
  | cons a l ih =>
    cases l with
    | nil => simp
    | cons b l =>
      rw [List.isChain_cons_cons] at h ⊢
      exact ⟨⟨h.1, hP a (by simp), hP b (by simp)⟩, ih h.2 fun x hx => hP x (by simp [hx])⟩

/-- a path from inside `S` to outside crosses: split it at the crossing -/
theorem crossing {R : N → N → Prop} (S : N → Prop) {a b : N} (l : List N) (hn : (a :: l).Nodup)
    (hc : (a :: l).IsChain R) (hl : (a :: l).getLast? = some b) (ha : S a) (hb : ¬ S b) :
    ∃ x y, S x ∧ ¬ S y ∧ R x y ∧ Relation.ReflTransGen (fun u v => R u v ∧ u ≠ y ∧ v ≠ y) a x ∧
      Relation.ReflTransGen (fun u v => R u v ∧ u ≠ x ∧ v ≠ x) y b := by
  induction l generalizing a with
  | nil => simp at hl; subst hl; exact absurd ha hb
  | cons c l ih =>
    rw [List.isChain_cons_cons] at hc
    rw [List.getLast?_cons_cons] at hl
    rw [List.nodup_cons] at hn
    by_cases hSc : S c
    · obtain ⟨x, y, h1, h2, h3, h4, h5⟩ := ih hn.2 hc.2 hl hSc
      refine ⟨x, y, h1, h2, h3, ?_, h5⟩
      by_cases hay : a = y
      · subst hay; exact absurd ha h2
      · by_cases hcy : c = y
        · subst hcy; exact absurd hSc h2
        · exact .head ⟨hc.1, hay, hcy⟩ h4
    · refine ⟨a, c, ha, hSc, hc.1, .refl, ?_⟩
      exact chain_conn (chain_restrict (fun x => x ≠ a) hc.2 (by rintro x hx rfl; exact hn.1 hx)) hl

theorem eAdj_erase {T : List (N × N)} {f : N × N} {u v z : N} (h : EAdj T u v) (hz : z = f.1 ∨ z = f.2)
    (hu : u ≠ z) (hv : v ≠ z) : EAdj (T.erase f) u v := by
  have key : ∀ p q : N, p ≠ z → q ≠ z → (p, q) ∈ T → (p, q) ∈ T.erase f := by
    intro p q hp hq h
    refine (List.mem_erase_of_ne ?_).2 h
    rintro rfl
    rcases hz with rfl | rfl
    · exact hp rfl
    · exact hq rfl
  exact h.imp (key _ _ hu hv) (key _ _ hv hu)

/-- common form of spanning trees and forests: pairs related by `K` are connected, and there are `c` edges fewer than
nodes -/
structure SpanK (adj : N → N → Prop) (V : List N) (K : N → N → Prop) (c : Nat) (T : List (N × N)) : Prop where
  edges : ∀ e ∈ T, adj e.1 e.2 ∧ e.1 ∈ V ∧ e.2 ∈ V
  conn : ∀ u ∈ V, ∀ v ∈ V, K u v → EConn T u v
  size : T.length + c = V.length

/-- **Exchange lemma.** `F` is part of the spanning forest `T`, no edge of `F` crosses the cut `S`, and `(p, v)` is a
cheapest edge crossing the cut.  Then some spanning forest, no more expensive than `T`, contains `F` and `(p, v)`. -/
theorem exchangeK {adj : N → N → Prop} {w : N → N → Int} (hsymm : ∀ a b, adj a b → adj b a)
    (hw : ∀ a b, adj a b → w a b = w b a) {V : List N} {K : N → N → Prop} {c : Nat}
    {T F : List (N × N)} (hT : SpanK adj V K c T)
    (hF : List.Subperm F T) (S : N → Prop) (hcut : ∀ e ∈ F, (S e.1 ↔ S e.2)) {p v : N} (hp : p ∈ V) (hv : v ∈ V)
    (hK : K p v) (hpS : S p) (hvS : ¬ S v) (hpv : adj p v)
    (hmin : ∀ x y, x ∈ V → y ∈ V → S x → ¬ S y → adj x y → w p v ≤ w x y) :
    ∃ T', SpanK adj V K c T' ∧ treeCost w T' ≤ treeCost w T ∧ List.Subperm ((p, v) :: F) T' := by
  obtain ⟨l, h1, h2, h3⟩ := exists_nodup_path (hT.conn p hp v hv hK)
  obtain ⟨x, y, hxS, hyS, hxy, hpx, hyv⟩ := crossing S l h1 h2 h3 hpS hvS
  -- the tree edge `f` that crosses
  obtain ⟨f, hfT, hf⟩ : ∃ f ∈ T, f = (x, y) ∨ f = (y, x) := by
    rcases hxy with h | h
    · exact ⟨_, h, Or.inl rfl⟩
    · exact ⟨_, h, Or.inr rfl⟩
  have hfx : x = f.1 ∨ x = f.2 := by rcases hf with rfl | rfl <;> simp
  have hfy : y = f.1 ∨ y = f.2 := by rcases hf with rfl | rfl <;> simp
  have hfF : f ∉ F := by
    intro h
    have := hcut f h
    rcases hf with rfl | rfl
    · exact hyS (this.1 hxS)
    · exact hyS (this.2 hxS)
  have hxV : x ∈ V ∧ y ∈ V ∧ adj x y := by
    have := hT.edges f hfT
    rcases hf with rfl | rfl
    · exact ⟨this.2.1, this.2.2, this.1⟩
    · exact ⟨this.2.2, this.2.1, hsymm _ _ this.1⟩
  have hwf : w f.1 f.2 = w x y := by
    rcases hf with rfl | rfl
    · rfl
    · exact (hw _ _ hxV.2.2).symm
  refine ⟨(p, v) :: T.erase f, ⟨?_, ?_, ?_⟩, ?_, ?_⟩
  · intro e he
    rcases List.mem_cons.1 he with rfl | he
    · exact ⟨hpv, hp, hv⟩
    · exact hT.edges e (List.mem_of_mem_erase he)
  · have c1 : EConn ((p, v) :: T.erase f) p x := by
      refine Relation.ReflTransGen.mono ?_ _ _ hpx
      rintro a b ⟨hab, ha, hb⟩
      exact (eAdj_erase hab hfy ha hb).imp (List.mem_cons_of_mem _) (List.mem_cons_of_mem _)
    have c2 : EConn ((p, v) :: T.erase f) y v := by
      refine Relation.ReflTransGen.mono ?_ _ _ hyv
      rintro a b ⟨hab, ha, hb⟩
      exact (eAdj_erase hab hfx ha hb).imp (List.mem_cons_of_mem _) (List.mem_cons_of_mem _)
    have c3 : EConn ((p, v) :: T.erase f) x y :=
      c1.symm.trans (Relation.ReflTransGen.head (Or.inl (by simp)) c2.symm)
    have c4 : ∀ a b, EAdj T a b → EConn ((p, v) :: T.erase f) a b := by
      have : ∀ a b, (a, b) ∈ T → EConn ((p, v) :: T.erase f) a b := by
        intro a b hab
        by_cases he : (a, b) = f
        · rcases hf with hf | hf
          · rw [hf] at he; cases he; exact c3
          · rw [hf] at he; cases he; exact c3.symm
        · exact .single (Or.inl (List.mem_cons_of_mem _ ((List.mem_erase_of_ne he).2 hab)))
      rintro a b (h | h)
      · exact this _ _ h
      · exact (this _ _ h).symm
    intro a ha b hb hab
    have := hT.conn a ha b hb hab
    clear ha hb hab
    induction this with
    | refl => exact .refl
    | tail _ hs ih => exact ih.trans (c4 _ _ hs)
  · have := List.length_pos_of_mem hfT
    have h5 := hT.size
    rw [List.length_cons, List.length_erase_of_mem hfT]; omega
  · have e1 : treeCost w T = w f.1 f.2 + treeCost w (T.erase f) := by
      unfold treeCost
      rw [((List.perm_cons_erase hfT).map _).sum_eq]; simp
    have e2 : treeCost w ((p, v) :: T.erase f) = w p v + treeCost w (T.erase f) := by
      unfold treeCost; simp
    have := hmin x y hxV.1 hxV.2.1 hxS hyS hxV.2.2
    rw [e1, e2, hwf]; omega
  · have h6 : F.erase f = F := List.erase_of_not_mem hfF
    have := hF.erase f
    rw [h6] at this
    exact (List.subperm_cons _).2 this

/-- exchange lemma for trees -/
theorem exchange {adj : N → N → Prop} {w : N → N → Int} (hsymm : ∀ a b, adj a b → adj b a)
    (hw : ∀ a b, adj a b → w a b = w b a) {V : List N} {T F : List (N × N)} (hT : IsSpanTree adj V T)
    (hF : List.Subperm F T) (S : N → Prop) (hcut : ∀ e ∈ F, (S e.1 ↔ S e.2)) {p v : N} (hp : p ∈ V) (hv : v ∈ V)
    (hpS : S p) (hvS : ¬ S v) (hpv : adj p v)
    (hmin : ∀ x y, x ∈ V → y ∈ V → S x → ¬ S y → adj x y → w p v ≤ w x y) :
    ∃ T', IsSpanTree adj V T' ∧ treeCost w T' ≤ treeCost w T ∧ List.Subperm ((p, v) :: F) T' := by
  obtain ⟨T', h1, h2⟩ := exchangeK hsymm hw (K := fun _ _ => True) (c := 1)
    ⟨hT.edges, fun u hu v hv _ => hT.conn u hu v hv, hT.size⟩ hF S hcut hp hv trivial hpS hvS hpv hmin
  exact ⟨T', ⟨h1.edges, fun u hu v hv => h1.conn u hu v hv trivial, h1.size⟩, h2⟩

/-- exchange lemma for forests -/
theorem exchangeF {adj : N → N → Prop} {w : N → N → Int} (hsymm : ∀ a b, adj a b → adj b a)
    (hw : ∀ a b, adj a b → w a b = w b a) {V : List N} {c : Nat} {T F : List (N × N)} (hT : IsSpanForest adj V c T)
    (hF : List.Subperm F T) (S : N → Prop) (hcut : ∀ e ∈ F, (S e.1 ↔ S e.2)) {p v : N} (hp : p ∈ V) (hv : v ∈ V)
    (hpS : S p) (hvS : ¬ S v) (hpv : adj p v)
    (hmin : ∀ x y, x ∈ V → y ∈ V → S x → ¬ S y → adj x y → w p v ≤ w x y) :
    ∃ T', IsSpanForest adj V c T' ∧ treeCost w T' ≤ treeCost w T ∧ List.Subperm ((p, v) :: F) T' := by
  obtain ⟨T', h1, h2⟩ := exchangeK hsymm hw ⟨hT.edges, hT.conn, hT.size⟩ hF S hcut hp hv (.single hpv) hpS hvS hpv hmin
  exact ⟨T', ⟨h1.edges, h1.conn, h1.size⟩, h2⟩

theorem IsSpanTree.conn_sub {adj : N → N → Prop} {V T} (h : IsSpanTree adj V T) : 0 < V.length := by
  have := h.size; omega

/-- a forest that is contained in a cheapest tree and has the right number of edges is itself a cheapest tree -/
theorem min_of_greedy {adj : N → N → Prop} {w : N → N → Int} {V : List N} {F : List (N × N)}
    (hF : IsSpanTree adj V F)
    (h : ∀ T, IsSpanTree adj V T → ∃ T', IsSpanTree adj V T' ∧ treeCost w T' ≤ treeCost w T ∧ List.Subperm F T') :
    IsMinSpanTree adj w V F := by
  refine ⟨hF, ?_⟩
  intro T hT
  obtain ⟨T', h1, h2, h3⟩ := h T hT
  have hp : F.Perm T' := h3.perm_of_length_le (by have := h1.size; have := hF.size; omega)
  have : treeCost w F = treeCost w T' := by unfold treeCost; exact (hp.map _).sum_eq
  omega

theorem treeCost_perm {w : N → N → Int} {T T' : List (N × N)} (h : T.Perm T') : treeCost w T = treeCost w T' := by
  unfold treeCost; exact (h.map _).sum_eq

theorem IsSpanTree.perm {adj : N → N → Prop} {V T T'} (h : IsSpanTree adj V T) (hp : T.Perm T') :
    IsSpanTree adj V T' :=
  ⟨fun e he => h.edges e (hp.mem_iff.2 he), fun u hu v hv => (h.conn u hu v hv).mono fun e he => hp.mem_iff.1 he,
    by rw [← hp.length_eq]; exact h.size⟩

end GiMPy
