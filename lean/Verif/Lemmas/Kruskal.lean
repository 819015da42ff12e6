import Verif.Lemmas.DisjointSet
import Verif.Lemmas.SpanTree
import Verif.Lemmas.Components

/-! # Kruskal's algorithm -/

namespace GiMPy
namespace Kruskal
open DSet
variable {N : Type} [DecidableEq N]
set_option linter.unusedSectionVars false

theorem econn_equiv (F : List (N × N)) : Equivalence (EConn F) := ⟨fun _ => .refl, EConn.symm, .trans⟩

theorem merge_econn (F : List (N × N)) (i j : N) : merge (EConn F) i j = EConn (F ++ [(i, j)]) := by
  have hsub : ∀ a b, EConn F a b → EConn (F ++ [(i, j)]) a b := fun a b h => h.mono fun e he => by simp [he]
  have hij : EConn (F ++ [(i, j)]) i j := .single (Or.inl (by simp))
  funext u v
  refine propext ⟨?_, fun h => ?_⟩
  · rintro (h | ⟨h, h'⟩ | ⟨h, h'⟩)
    · exact hsub _ _ h
    · exact (hsub _ _ h).trans (hij.trans (hsub _ _ h'))
    · exact (hsub _ _ h).trans (hij.symm.trans (hsub _ _ h'))
  · have e := merge_equiv (econn_equiv F) i j
    induction h with
    | refl => exact e.refl _
    | @tail b c _ h1 ih =>
      refine e.trans ih ?_
      rcases h1 with h1 | h1
      · rcases List.mem_append.1 h1 with h1 | h1
        · exact Or.inl (.single (Or.inl h1))
        · simp only [List.mem_singleton, Prod.mk.injEq] at h1
          obtain ⟨rfl, rfl⟩ := h1
          exact Or.inr (Or.inl ⟨.refl, .refl⟩)
      · rcases List.mem_append.1 h1 with h1 | h1
        · exact Or.inl (.single (Or.inr h1))
        · simp only [List.mem_singleton, Prod.mk.injEq] at h1
          obtain ⟨rfl, rfl⟩ := h1
          exact Or.inr (Or.inr ⟨.refl, .refl⟩)

/-- joining two components leaves one representative fewer -/
theorem reps_merge {F : List (N × N)} {V R : List N} (h : IsReps (EAdj F) V R) {i j : N} (hi : i ∈ V) (hj : j ∈ V)
    (hij : ¬ EConn F i j) : ∃ R', IsReps (EAdj (F ++ [(i, j)])) V R' ∧ R'.length + 1 = R.length := by
  obtain ⟨ri, hri, hiri⟩ := h.cover i hi
  obtain ⟨rj, hrj, hjrj⟩ := h.cover j hj
  have hne : ri ≠ rj := by
    rintro rfl; exact hij (Relation.ReflTransGen.trans hiri (EConn.symm hjrj))
  have hsub : ∀ a b, EConn F a b → EConn (F ++ [(i, j)]) a b := fun a b h => h.mono fun e he => by simp [he]
  have hlast : EConn (F ++ [(i, j)]) j i := .single (Or.inr (by simp))
  refine ⟨R.erase rj, ⟨h.nodup.erase _, fun r hr => h.sub r (List.mem_of_mem_erase hr), ?_, ?_⟩, ?_⟩
  · intro v hv
    obtain ⟨r, hr, hvr⟩ := h.cover v hv
    by_cases hrr : r = rj
    · subst hrr
      refine ⟨ri, (List.mem_erase_of_ne hne).2 hri, ?_⟩
      exact (hsub _ _ hvr).trans ((hsub _ _ (EConn.symm hjrj)).trans (hlast.trans (hsub _ _ hiri)))
    · exact ⟨r, (List.mem_erase_of_ne hrr).2 hr, hsub _ _ hvr⟩
  · intro r hr s hs hrs
    have hr1 := List.mem_of_mem_erase hr
    have hs1 := List.mem_of_mem_erase hs
    have hr2 : r ≠ rj := by rintro rfl; exact (h.nodup.not_mem_erase) hr
    have hs2 : s ≠ rj := by rintro rfl; exact (h.nodup.not_mem_erase) hs
    have : merge (EConn F) i j r s := by rw [merge_econn]; exact hrs
    rcases this with h1 | ⟨_, h1⟩ | ⟨h1, _⟩
    · exact h.distinct r hr1 s hs1 h1
    · exact absurd (h.distinct s hs1 rj hrj ((EConn.symm h1).trans hjrj)) hs2
    · exact absurd (h.distinct r hr1 rj hrj (h1.trans hjrj)) hr2
  · rw [List.length_erase_of_mem hrj]
    have := List.length_pos_of_mem hrj
    omega

theorem addAll_ok (l : List N) {d : DSet N} (h : FInv d Eq) (hnd : l.Nodup) (hl : ∀ x ∈ l, x ∉ d.g.neighbors.keys) :
    ∃ d', addAll d l = .ok d' ∧ FInv d' Eq ∧ d'.g.neighbors.keys = d.g.neighbors.keys ++ l := by
  induction l generalizing d with
  | nil => exact ⟨d, rfl, h, by simp⟩
  | cons n l ih =>
    have hnd' := List.nodup_cons.1 hnd
    obtain ⟨d1, e1, e2, e3, _⟩ := add_ok h [n] (by simp) (by simp) (by simpa using hl n (by simp))
    have : addRel Eq [n] = Eq := by
      funext u v
      simp only [addRel, List.mem_singleton, eq_iff_iff]
      constructor
      · rintro (h | ⟨h, h'⟩)
        · exact h
        · rw [h, h']
      · exact Or.inl
    rw [this] at e2
    obtain ⟨d2, f1, f2, f3⟩ := ih e2 hnd'.2 (by
      intro x hx
      rw [e3]
      have hne : x ≠ n := by rintro rfl; exact hnd'.1 hx
      simp [hl x (by simp [hx]), hne])
    exact ⟨d2, by rw [addAll, e1]; exact f1, f2, by rw [f3, e3]; simp⟩

theorem costs_ok {g : Graph N} {w : N → N → Int} (l : List (N × N))
    (h : ∀ e ∈ l, g.getEdgeCost e.1 e.2 = .ok (w e.1 e.2)) : costs g l = .ok (l.map fun e => (e, w e.1 e.2)) := by
  induction l with
  | nil => rfl
  | cons e l ih => rw [costs, h e (by simp)]; simp only []; rw [ih fun e he => h e (by simp [he])]; rfl

theorem sorted_perm (w : N → N → Int) (l : List (N × N)) : (sorted (l.map fun e => (e, w e.1 e.2))).Perm l := by
  unfold sorted
  refine ((List.perm_insertionSort _ _).map Prod.fst).trans ?_
  rw [List.map_map]
  have : (Prod.fst ∘ fun e : N × N => (e, w e.1 e.2)) = id := rfl
  rw [this, List.map_id]

theorem sorted_sorted (w : N → N → Int) (l : List (N × N)) :
    (sorted (l.map fun e => (e, w e.1 e.2))).Pairwise fun e f => w e.1 e.2 ≤ w f.1 f.2 := by
  unfold sorted
  have : Std.Total (fun a b : (N × N) × Int => a.2 ≤ b.2) := ⟨fun a b => by omega⟩
  have : IsTrans ((N × N) × Int) (fun a b => a.2 ≤ b.2) := ⟨fun a b c h1 h2 => Int.le_trans h1 h2⟩
  have h := List.pairwise_insertionSort (fun a b : (N × N) × Int => a.2 ≤ b.2) (l.map fun e => (e, w e.1 e.2))
  rw [List.pairwise_map]
  refine h.imp_of_mem ?_
  intro a b ha hb hab
  rw [List.mem_insertionSort] at ha hb
  obtain ⟨e, _, rfl⟩ := List.mem_map.1 ha
  obtain ⟨f, _, rfl⟩ := List.mem_map.1 hb
  exact hab

/-- invariant of the main loop -/
structure KInv (adj : N → N → Prop) (w : N → N → Int) (V : List N) (done F : List (N × N)) (d : DSet N) : Prop where
  finv : FInv d (EConn F)
  keys : d.g.neighbors.keys = V
  mem : ∀ e ∈ F, e ∈ done
  done : ∀ e ∈ done, EConn F e.1 e.2
  reps : ∃ R, IsReps (EAdj F) V R ∧ F.length + R.length = V.length
  greedy : ∀ c T, IsSpanForest adj V c T → ∃ T', IsSpanForest adj V c T' ∧ treeCost w T' ≤ treeCost w T ∧
    List.Subperm F T'

/-- what the loop delivers -/
structure KDone (adj : N → N → Prop) (w : N → N → Int) (V : List N) (E F : List (N × N)) : Prop where
  mem : ∀ e ∈ F, e ∈ E
  done : ∀ e ∈ E, EConn F e.1 e.2
  reps : ∃ R, IsReps (EAdj F) V R ∧ F.length + R.length = V.length
  greedy : ∀ c T, IsSpanForest adj V c T → ∃ T', IsSpanForest adj V c T' ∧ treeCost w T' ≤ treeCost w T ∧
    List.Subperm F T'

theorem loop_ok {adj : N → N → Prop} {w : N → N → Int} {V : List N} {E : List (N × N)}
    (hsymm : ∀ a b, adj a b → adj b a) (hw : ∀ a b, adj a b → w a b = w b a)
    (hE : ∀ e ∈ E, adj e.1 e.2 ∧ e.1 ∈ V ∧ e.2 ∈ V) (hadj : ∀ a b, adj a b → (a, b) ∈ E ∨ (b, a) ∈ E)
    {fuel : Nat} (hf : V.length ≤ fuel) (l done F : List (N × N)) (hl : done ++ l = E)
    (hs : E.Pairwise fun e f => w e.1 e.2 ≤ w f.1 f.2) {d : DSet N} (h : KInv adj w V done F d) :
    ∃ F', loop V.length fuel l d F = .ok F' ∧ KDone adj w V E F' := by
  induction l generalizing done F d with
  | nil =>
    simp only [List.append_nil] at hl
    subst hl
    exact ⟨F, rfl, h.mem, h.done, h.reps, h.greedy⟩
  | cons e l ih =>
    have heE := hE e (by rw [← hl]; simp)
    rw [loop]
    by_cases hc : F.length + 1 = V.length
    · rw [if_pos hc]
      refine ⟨F, rfl, fun e he => by rw [← hl]; simp [h.mem e he], ?_, h.reps, h.greedy⟩
      intro f hf'
      obtain ⟨R, hR, hlen⟩ := h.reps
      obtain ⟨r, rfl⟩ := List.length_eq_one_iff.1 (show R.length = 1 by omega)
      obtain ⟨_, f1, f2⟩ := hE f hf'
      obtain ⟨r1, h1, h2⟩ := hR.cover f.1 f1
      obtain ⟨r2, h3, h4⟩ := hR.cover f.2 f2
      obtain rfl := List.mem_singleton.1 h1
      obtain rfl := List.mem_singleton.1 h3
      exact Relation.ReflTransGen.trans h2 (EConn.symm h4)
    · rw [if_neg hc]
      obtain ⟨b, d', u1, u2, u3, _, u5⟩ := union_ok h.finv (i := e.1) (j := e.2) (by rw [h.keys]; exact heE.2.1)
        (by rw [h.keys]; exact heE.2.2) (f := fuel) (by rw [h.keys]; exact hf)
      rw [u1]
      cases b with
      | false =>
        simp only []
        have hconn : EConn F e.1 e.2 := by
          by_contra hn; exact absurd (u2.2 hn) (by simp)
        have hm : merge (EConn F) e.1 e.2 = EConn F := by
          funext u v
          refine propext ⟨?_, Or.inl⟩
          have eq := econn_equiv F
          rintro (x | ⟨x, y⟩ | ⟨x, y⟩)
          · exact x
          · exact eq.trans x (eq.trans hconn y)
          · exact eq.trans x (eq.trans (eq.symm hconn) y)
        rw [hm] at u5
        refine ih (done ++ [e]) F (by rw [← hl]; simp) ⟨u5, u3.trans h.keys, ?_, ?_, h.reps, h.greedy⟩
        · intro f hf'; simp [h.mem f hf']
        · intro f hf'
          rcases List.mem_append.1 hf' with h1 | h1
          · exact h.done f h1
          · obtain rfl := List.mem_singleton.1 h1; exact hconn
      | true =>
        simp only []
        have hconn : ¬ EConn F e.1 e.2 := u2.1 rfl
        rw [merge_econn] at u5
        have hsub : ∀ a b, EConn F a b → EConn (F ++ [(e.1, e.2)]) a b := fun a b h => h.mono fun e he => by simp [he]
        refine ih (done ++ [e]) (F ++ [e]) (by rw [← hl]; simp) ⟨u5, u3.trans h.keys, ?_, ?_, ?_, ?_⟩
        · intro f hf'
          rcases List.mem_append.1 hf' with h1 | h1
          · simp [h.mem f h1]
          · simp [List.mem_singleton.1 h1]
        · intro f hf'
          rcases List.mem_append.1 hf' with h1 | h1
          · exact hsub _ _ (h.done f h1)
          · obtain rfl := List.mem_singleton.1 h1
            exact .single (Or.inl (by simp))
        · obtain ⟨R, hR, hlen⟩ := h.reps
          obtain ⟨R', hR', hlen'⟩ := reps_merge hR heE.2.1 heE.2.2 hconn
          exact ⟨R', hR', by simp; omega⟩
        · intro c T hT
          obtain ⟨T1, t1, t2, t3⟩ := h.greedy c T hT
          obtain ⟨T2, s1, s2, s3⟩ := exchangeF hsymm hw t1 t3 (fun x => EConn F e.1 x) (by
            intro f hf'
            have : EConn F f.1 f.2 := .single (Or.inl hf')
            exact ⟨fun h => h.trans this, fun h => h.trans this.symm⟩) heE.2.1 heE.2.2 .refl hconn heE.1 (by
            intro x y _ _ hx hy hxy
            -- the crossing edge has not been processed yet
            have key : ∀ f ∈ E, (f = (x, y) ∨ f = (y, x)) → w e.1 e.2 ≤ w f.1 f.2 := by
              intro f hf' hfe
              rw [← hl] at hf' hs
              rcases List.mem_append.1 hf' with h1 | h1
              · exfalso
                have h2 := h.done f h1
                rcases hfe with rfl | rfl
                · exact hy (Relation.ReflTransGen.trans hx h2)
                · exact hy (Relation.ReflTransGen.trans hx (EConn.symm h2))
              · rcases List.mem_cons.1 h1 with rfl | h1
                · exact Int.le_refl _
                · exact (List.pairwise_cons.1 (List.pairwise_append.1 hs).2.1).1 f h1
            rcases hadj x y hxy with h1 | h1
            · exact key _ h1 (Or.inl rfl)
            · have := key _ h1 (Or.inr rfl)
              rw [hw x y hxy]; exact this)
          refine ⟨T2, s1, Int.le_trans s2 t2, ?_⟩
          exact (List.perm_append_singleton e F).subperm.trans s3

end Kruskal
end GiMPy
