import Verif.Lemmas.MaxFlow

/-! # `max_flow` with a first-in first-out queue: levels of the search, distances and the number of augmentations -/

namespace GiMPy
namespace MaxFlow
open Search
variable {N : Type} [DecidableEq N] {Q : Type} {g : Graph N} {O : QOps N Q} {items : Q → List N}
variable {cap f : N × N → Int} {src sink : N}

/-- walks along arcs with residual capacity, with their lengths -/
inductive Walk (g : Graph N) (cap f : N × N → Int) (src : N) : Nat → N → Prop
  | nil : Walk g cap f src 0 src
  | step {k u v} : Walk g cap f src k u → Use g cap f u v → Walk g cap f src (k + 1) v

open Classical in
/-- length of a shortest walk, or the number of nodes if there is none as short as that -/
noncomputable def dist (g : Graph N) (cap : N × N → Int) (src : N) (f : N × N → Int) (v : N) : Nat :=
  Nat.find (p := fun k => Walk g cap f src k v ∨ k = g.getNodeList.length) ⟨_, Or.inr rfl⟩

theorem dist_spec (f : N × N → Int) (v : N) :
    Walk g cap f src (dist g cap src f v) v ∨ dist g cap src f v = g.getNodeList.length := by
  classical
  exact Nat.find_spec (p := fun k => Walk g cap f src k v ∨ k = g.getNodeList.length) ⟨_, Or.inr rfl⟩

theorem dist_le {k : Nat} {v : N} (h : Walk g cap f src k v) : dist g cap src f v ≤ k := by
  classical
  exact Nat.find_min' (p := fun k => Walk g cap f src k v ∨ k = g.getNodeList.length) ⟨_, Or.inr rfl⟩ (Or.inl h)

theorem dist_le_card (f : N × N → Int) (v : N) : dist g cap src f v ≤ g.getNodeList.length := by
  classical
  exact Nat.find_min' (p := fun k => Walk g cap f src k v ∨ k = g.getNodeList.length) ⟨_, Or.inr rfl⟩ (Or.inr rfl)

theorem dist_step {u v : N} (h : Use g cap f u v) : dist g cap src f v ≤ dist g cap src f u + 1 := by
  rcases dist_spec (g := g) (cap := cap) (src := src) f u with h1 | h1
  · exact dist_le (.step h1 h)
  · have := dist_le_card (g := g) (cap := cap) (src := src) f v
    omega

/-! ## levels of the search -/

/-- `lv` gives the level of each explored node -/
structure Lev (items : Q → List N) (src : N) (lv : N → Nat) (st : XState N Q) : Prop where
  src0 : lv src = 0
  srcE : src ∈ st.explored
  item : ∀ v ∈ items st.q, v ∈ st.explored
  keys : ∀ m p, st.pred.get? m = some (some p) → m ∈ st.explored ∧ p ∈ st.explored ∧ lv m = lv p + 1
  nd : (items st.q).Nodup
  srt : (items st.q).Pairwise fun x y => lv x ≤ lv y
  short : ∀ u ∈ st.explored, lv u < st.explored.length

/-- what has been looked at is explored, at most one level further -/
def Clo (g : Graph N) (cap f : N × N → Int) (items : Q → List N) (C : N → N → Prop) (lv : N → Nat) (st : XState N Q) :
    Prop := ∀ u ∈ st.explored, u ∈ items st.q ∨ ∀ v, C u v → Use g cap f u v → v ∈ st.explored ∧ lv v ≤ lv u + 1

/-- state of the search while the neighbours of `cur` are looked at -/
structure AtCur (g : Graph N) (cap f : N × N → Int) (items : Q → List N) (src cur : N) (done : List N) (lv : N → Nat)
    (st : XState N Q) : Prop extends Lev items src lv st where
  curE : cur ∈ st.explored
  top : ∀ v ∈ st.explored, lv v ≤ lv cur + 1
  low : ∀ v ∈ items st.q, lv cur ≤ lv v
  clo : Clo g cap f items (fun u v => u ≠ cur ∨ v ∈ done) lv st

theorem AtCur.more {cur : N} {done done' : List N} {lv : N → Nat} {st : XState N Q}
    (h : AtCur g cap f items src cur done lv st)
    (hC : ∀ v, v ∈ done' → Use g cap f cur v → v ∈ done ∨ v ∈ st.explored) : AtCur g cap f items src cur done' lv st := by
  refine { h with clo := fun u hu => (h.clo u hu).imp id fun h1 v hv hU => ?_ }
  by_cases huc : u = cur
  · subst huc
    rcases hC v (hv.resolve_left (by simp)) hU with h2 | h2
    · exact h1 v (Or.inr h2) hU
    · exact ⟨h2, h.top v h2⟩
  · exact h1 v (Or.inl huc) hU

theorem scan_lev (hf : LawfulFIFO O items) (hc : HasCaps g cap) {cur : N} {out : List N}
    (hout : ∀ v, v ∈ out ↔ (cur, v) ∈ g.getEdgeList) : ∀ (l done : List N) (st st' : XState N Q) (lv : N → Nat),
    (∀ m ∈ l, Adj g cur m) → scan g O f cur out l st = .ok st' → AtCur g cap f items src cur done lv st →
    ∃ lv', AtCur g cap f items src cur (l ++ done) lv' st' := by
  intro l
  induction l with
  | nil =>
    intro done st st' lv _ h hI
    obtain rfl := Except.ok.inj h
    exact ⟨lv, hI⟩
  | cons m l ih =>
    intro done st st' lv hl h hI
    have hl' : ∀ x ∈ l, Adj g cur x := fun x hx => hl x (by simp [hx])
    have hfin : ∀ {lv' st'}, AtCur g cap f items src cur (l ++ m :: done) lv' st' →
        AtCur g cap f items src cur (m :: l ++ done) lv' st' := fun h' =>
      h'.more fun v hv _ => Or.inl (by simp only [List.mem_append, List.mem_cons] at hv ⊢; tauto)
    rw [scan] at h
    by_cases hm : m ∈ st.explored
    · rw [if_pos hm] at h
      obtain ⟨lv', h'⟩ := ih (m :: done) st st' lv hl' h (hI.more fun v hv _ => by
        rcases List.mem_cons.1 hv with rfl | hv
        · exact Or.inr hm
        · exact Or.inl hv)
      exact ⟨lv', hfin h'⟩
    · rw [if_neg hm, avail_ok hc (hout m) (hl m (by simp))] at h
      simp only [] at h
      by_cases ha : pot g cap f cur m > 0
      · rw [if_pos ha] at h
        have hmc : m ≠ cur := fun e => hm (e ▸ hI.curE)
        have hne : ∀ x ∈ st.explored, x ≠ m := fun x hx e => hm (e ▸ hx)
        have hlv : ∀ x ∈ st.explored, upd lv m (lv cur + 1) x = lv x := fun x hx => if_neg (hne x hx)
        have hlm : upd lv m (lv cur + 1) m = lv cur + 1 := if_pos rfl
        have hcur : upd lv m (lv cur + 1) cur = lv cur := hlv cur hI.curE
        have hmi : m ∉ items st.q := fun h => hm (hI.item m h)
        obtain ⟨lv', h'⟩ := ih (m :: done) ⟨O.push st.q m, st.pred.set m (some cur), m :: st.explored⟩ st'
          (upd lv m (lv cur + 1)) hl' h (by
            refine ⟨⟨?_, ?_, ?_, ?_, ?_, ?_, ?_⟩, ?_, ?_, ?_, ?_⟩
            · rw [hlv _ hI.srcE, hI.src0]
            · exact List.mem_cons_of_mem _ hI.srcE
            · intro v hv
              rcases (hf.mem_push _ _ _).1 hv with rfl | hv
              · simp
              · exact List.mem_cons_of_mem _ (hI.item v hv)
            · intro x p hx
              by_cases hxm : x = m
              · subst hxm
                rw [Dict.get?_set_self] at hx
                obtain rfl := Option.some.inj (Option.some.inj hx)
                exact ⟨by simp, by simp [hI.curE], by rw [hlm, hcur]⟩
              · rw [Dict.get?_set_ne _ _ (Ne.symm hxm)] at hx
                obtain ⟨a, b, c⟩ := hI.keys x p hx
                exact ⟨by simp [a], by simp [b], by rw [hlv x a, hlv p b, c]⟩
            · rw [hf.push_eq, List.nodup_append]
              exact ⟨hI.nd, by simp, by rintro x hx y hy rfl; exact hmi (List.mem_singleton.1 hy ▸ hx)⟩
            · rw [hf.push_eq, List.pairwise_append]
              refine ⟨hI.srt.imp_of_mem ?_, by simp, ?_⟩
              · intro x y hx hy h
                rw [hlv x (hI.item x hx), hlv y (hI.item y hy)]; exact h
              · intro x hx y hy
                rw [List.mem_singleton.1 hy, hlm, hlv x (hI.item x hx)]
                exact hI.top x (hI.item x hx)
            · intro u hu
              rcases List.mem_cons.1 hu with rfl | hu
              · rw [hlm]; have := hI.short cur hI.curE; simp only [List.length_cons]; omega
              · rw [hlv u hu]; have := hI.short u hu; simp only [List.length_cons]; omega
            · exact List.mem_cons_of_mem _ hI.curE
            · intro v hv
              rw [hcur]
              rcases List.mem_cons.1 hv with rfl | hv
              · rw [hlm]
              · rw [hlv v hv]; exact hI.top v hv
            · intro v hv
              rw [hcur]
              rcases (hf.mem_push _ _ _).1 hv with rfl | hv
              · rw [hlm]; omega
              · rw [hlv v (hI.item v hv)]; exact hI.low v hv
            · intro u hu
              rcases List.mem_cons.1 hu with rfl | hu
              · exact Or.inl ((hf.mem_push _ _ _).2 (Or.inl rfl))
              · refine (hI.clo u hu).imp (fun h' => (hf.mem_push _ _ _).2 (Or.inr h')) fun h1 v hv hU => ?_
                by_cases hvm : v = m
                · subst hvm
                  by_cases huc : u = cur
                  · subst huc
                    exact ⟨by simp, by rw [hlm, hcur]⟩
                  · exact absurd (h1 v (Or.inl huc) hU).1 hm
                · have hv' : u ≠ cur ∨ v ∈ done := hv.imp id fun h' => (List.mem_cons.1 h').resolve_left hvm
                  obtain ⟨a, b⟩ := h1 v hv' hU
                  exact ⟨by simp [a], by rw [hlv v a, hlv u hu]; exact b⟩)
        exact ⟨lv', hfin h'⟩
      · rw [if_neg ha] at h
        obtain ⟨lv', h'⟩ := ih (m :: done) st st' lv hl' h (hI.more fun v hv hU => by
          rcases List.mem_cons.1 hv with rfl | hv
          · exact absurd hU.2 ha
          · exact Or.inl hv)
        exact ⟨lv', hfin h'⟩

/-- nodes reached by a walk no longer than the level of the items of the queue have been explored -/
theorem clo_walk {lv : N → Nat} {st : XState N Q} (h : Lev items src lv st)
    (hC : Clo g cap f items (fun _ _ => True) lv st) {B : Nat} (hB : ∀ x ∈ items st.q, B ≤ lv x) {j : Nat} {v : N}
    (hw : Walk g cap f src j v) : j ≤ B → v ∈ st.explored ∧ lv v ≤ j := by
  induction hw with
  | nil => intro _; exact ⟨h.srcE, Nat.le_of_eq h.src0⟩
  | @step k u v _ hU ih =>
    intro hj
    obtain ⟨a, b⟩ := ih (by omega)
    obtain ⟨c, d⟩ := ((hC u a).resolve_left (fun hu => by have := hB u hu; omega)) v trivial hU
    exact ⟨c, by omega⟩

theorem scan_nodes (hwf : g.Wf) {cur : N} {out : List N} : ∀ {l : List N} {st st' : XState N Q},
    (∀ m ∈ l, Adj g cur m) → (∀ v ∈ st.explored, v ∈ g.getNodeList) → scan g O f cur out l st = .ok st' →
    ∀ v ∈ st'.explored, v ∈ g.getNodeList := by
  intro l
  induction l with
  | nil => intro st st' _ h1 h; obtain rfl := Except.ok.inj h; exact h1
  | cons m l ih =>
    intro st st' hl hN h
    have hl' : ∀ x ∈ l, Adj g cur x := fun x hx => hl x (by simp [hx])
    rw [scan] at h
    split at h
    · exact ih hl' hN h
    · split at h
      · simp at h
      · split at h
        · refine ih hl' ?_ h
          intro v hv
          rcases List.mem_cons.1 hv with rfl | hv
          · rcases hl v (by simp) with h1 | h1
            · exact (hwf.endp _ _ h1).2
            · exact (hwf.endp _ _ h1).1
          · exact hN v hv
        · exact ih hl' hN h

theorem find_lev (hwf : g.Wf) (hd : g.directed = true) (hf : LawfulFIFO O items) (hc : HasCaps g cap) (k : Nat) :
    ∀ (st st' : XState N Q) (lv : N → Nat), find g O f sink k st = .ok st' → Lev items src lv st →
    (∀ v ∈ st.explored, v ∈ g.getNodeList) →
    (∀ v ∈ st.explored, ∀ y ∈ items st.q, lv v ≤ lv y + 1) → Clo g cap f items (fun _ _ => True) lv st →
    ∃ lv', Lev items src lv' st' ∧ ∀ j v, Walk g cap f src j v → j ≤ lv' sink → v ∈ st'.explored ∧ lv' v ≤ j := by
  induction k with
  | zero => intro st st' lv h; exact absurd h (by simp [find])
  | succ k ih =>
    intro st st' lv h hI hN hT hC
    rw [find] at h
    by_cases he : O.isEmpty st.q = true
    · rw [if_pos he] at h
      obtain rfl := Except.ok.inj h
      have hq := (hf.isEmpty_iff _).1 he
      exact ⟨lv, hI, fun j v hw _ => clo_walk (B := j) hI hC (by simp [hq]) hw (Nat.le_refl _)⟩
    · rw [if_neg he] at h
      obtain ⟨cur, rest, hq⟩ : ∃ cur rest, items st.q = cur :: rest := by
        cases hq : items st.q with
        | nil => exact absurd ((hf.isEmpty_iff _).2 hq) he
        | cons a l => exact ⟨a, l, rfl⟩
      have hcq : cur ∈ items st.q := by simp [hq]
      have hce := hI.item cur hcq
      rw [hf.peek_eq, hq] at h
      simp only [List.head?_cons] at h
      have hnd := hI.nd
      have hsrt := hI.srt
      rw [hq] at hnd hsrt
      rw [List.nodup_cons] at hnd
      rw [List.pairwise_cons] at hsrt
      have hrem : items (O.remove st.q cur) = rest := by
        obtain ⟨l₁, l₂, h1, h2⟩ := hf.remove_eq st.q cur hcq
        rw [hq] at h1
        cases l₁ with
        | nil => simp only [List.nil_append, List.cons.injEq, true_and] at h1; rw [h2, h1]; rfl
        | cons a l₁ =>
          simp only [List.cons_append, List.cons.injEq] at h1
          exact absurd (by rw [h1.2]; simp) hnd.1
      have hI' : Lev items src lv { st with q := O.remove st.q cur } := by
        refine ⟨hI.src0, hI.srcE, ?_, hI.keys, ?_, ?_, hI.short⟩
        · intro v hv
          simp only [hrem] at hv
          exact hI.item v (by simp [hq, hv])
        · simp only [hrem]; exact hnd.2
        · simp only [hrem]; exact hsrt.2
      have hlow : ∀ v ∈ items st.q, lv cur ≤ lv v := by
        intro v hv
        rw [hq] at hv
        rcases List.mem_cons.1 hv with rfl | hv
        · exact Nat.le_refl _
        · exact hsrt.1 v hv
      by_cases hcs : cur = sink
      · rw [if_pos hcs] at h
        obtain rfl := Except.ok.inj h
        refine ⟨lv, hI', fun j v hw hj => ?_⟩
        exact clo_walk hI hC (B := lv sink) (by rw [← hcs]; exact hlow) hw hj
      · rw [if_neg hcs] at h
        obtain ⟨out, inn, h1, h2, h3, h4⟩ := nbrs_edges hwf hd (hN cur hce)
        simp only [h1, h2] at h
        cases hs : scan g O f cur out (out ++ inn) { st with q := O.remove st.q cur } with
        | error e => rw [hs] at h; simp at h
        | ok st1 =>
          rw [hs] at h
          simp only [] at h
          have hadj : ∀ m ∈ out ++ inn, Adj g cur m := by
            intro m hm
            rcases List.mem_append.1 hm with hm | hm
            · exact Or.inl ((h3 m).1 hm)
            · exact Or.inr ((h4 m).1 hm)
          obtain ⟨lv1, hA⟩ := scan_lev (src := src) hf hc h3 (out ++ inn) [] _ st1 lv hadj hs (by
            refine ⟨hI', hce, fun v hv => hT v hv cur hcq, ?_, ?_⟩
            · intro v hv
              simp only [hrem] at hv
              exact hsrt.1 v hv
            · intro u hu
              by_cases huc : u = cur
              · right; intro v hv; simp [huc] at hv
              · refine (hC u hu).imp (fun h' => ?_) fun h' v _ => h' v trivial
                rw [hq] at h'
                simp only [hrem]
                exact (List.mem_cons.1 h').resolve_left huc)
          refine ih st1 st' lv1 h hA.toLev ?_ ?_ ?_
          · exact scan_nodes (st := { st with q := O.remove st.q cur }) hwf hadj hN hs
          · intro v hv y hy
            have := hA.top v hv
            have := hA.low y hy
            omega
          · intro u hu
            refine (hA.clo u hu).imp id fun h' v _ hU => h' v ?_ hU
            by_cases huc : u = cur
            · subst huc
              right
              simp only [List.append_nil, List.mem_append, h3, h4]
              exact hU.1
            · exact Or.inl huc

/-! ## what one augmentation does to the residual capacities -/

/-- the steps of a path given by its nodes, last node first: pairs (node, predecessor) -/
def steps (l : List N) : List (N × N) := l.zip l.tail

theorem steps_cons (x p : N) (L : List N) : steps (x :: p :: L) = (x, p) :: steps (p :: L) := rfl

theorem mem_steps {l : List N} {a b : N} (h : (a, b) ∈ steps l) : a ∈ l ∧ b ∈ l :=
  ⟨(List.of_mem_zip h).1, List.mem_of_mem_tail (List.of_mem_zip h).2⟩

theorem pushArc_eff {m cur : N} (hmc : m ≠ cur) {d : Int} {f' : N × N → Int} (hd : 0 ≤ d) (h : pushArc g f m cur d = .ok f') :
    pot g cap f' m cur = pot g cap f m cur - d ∧ pot g cap f cur m ≤ pot g cap f' cur m ∧
      ∀ e, e ≠ (m, cur) → e ≠ (cur, m) → f' e = f e := by
  have hne : (m, cur) ≠ (cur, m) := fun e => hmc (Prod.mk.inj e).1
  unfold pushArc at h
  by_cases h1 : (m, cur) ∈ g.getEdgeList
  · rw [if_pos ((contains_edge g m cur).2 h1)] at h
    obtain rfl := Except.ok.inj h
    refine ⟨?_, ?_, fun e he _ => if_neg he⟩
    · unfold pot; rw [if_pos h1, if_pos h1]; simp only [upd, if_true]; omega
    · unfold pot
      by_cases h2 : (cur, m) ∈ g.getEdgeList
      · rw [if_pos h2, if_pos h2]; simp only [upd, if_neg hne.symm]; omega
      · rw [if_neg h2, if_neg h2]; simp only [upd, if_true]; omega
  · rw [if_neg (fun h' => h1 ((contains_edge g m cur).1 h'))] at h
    by_cases h2 : (cur, m) ∈ g.getEdgeList
    · rw [if_pos ((contains_edge g cur m).2 h2)] at h
      obtain rfl := Except.ok.inj h
      refine ⟨?_, ?_, fun e _ he => if_neg he⟩
      · unfold pot; rw [if_neg h1, if_neg h1]; simp only [upd, if_true]
      · unfold pot; rw [if_pos h2, if_pos h2]; simp only [upd, if_true]; omega
    · rw [if_neg (fun h' => h2 ((contains_edge g cur m).1 h'))] at h; simp at h

theorem augment_eff {P : N → N → Prop} {pred : Dict N (Option N)} {d : Int} (hd : 0 ≤ d) (k : Nat) :
    ∀ (x p : N) (L : List N) (f f' : N × N → Int),
    Tr P pred src (x :: p :: L) → (x :: p :: L).Nodup → augment g pred src d k x f = .ok f' →
    (∀ a b, (a, b) ∈ steps (x :: p :: L) →
      pot g cap f' b a = pot g cap f b a - d ∧ pot g cap f a b ≤ pot g cap f' a b) ∧
    ∀ e, e ∉ steps (x :: p :: L) → (e.2, e.1) ∉ steps (x :: p :: L) → f' e = f e := by
  induction k with
  | zero => intro x p L f f' _ _ h; exact absurd h (by simp [augment])
  | succ k ih =>
    intro x p L f f' hT hn h
    rw [List.nodup_cons] at hn
    have hpx : p ≠ x := by rintro rfl; exact hn.1 (by simp)
    cases hT with
    | step h1 h2 h3 h4 =>
      rw [augment, h1] at h
      simp only [] at h
      cases hp : pushArc g f p x d with
      | error e => rw [hp] at h; simp at h
      | ok f1 =>
        rw [hp] at h
        simp only [] at h
        obtain ⟨e1, e2, e3⟩ := pushArc_eff (cap := cap) hpx hd hp
        cases h4 with
        | base =>
          rw [if_pos rfl] at h
          obtain rfl := Except.ok.inj h
          refine ⟨?_, ?_⟩
          · intro a b hab
            simp only [steps, List.tail_cons, List.zip_cons_cons, List.zip_nil_right, List.mem_singleton,
              Prod.mk.injEq] at hab
            obtain ⟨rfl, rfl⟩ := hab
            exact ⟨e1, e2⟩
          · rintro ⟨a, b⟩ ha hb
            simp only [steps, List.tail_cons, List.zip_cons_cons, List.zip_nil_right, List.mem_singleton] at ha hb
            refine e3 _ (fun he => hb ?_) ha
            simp only [Prod.mk.injEq] at he ⊢
            exact ⟨he.2, he.1⟩
        | @step _ p' L' a1 a2 a3 a4 =>
          rw [if_neg a2] at h
          obtain ⟨i1, i2⟩ := ih p p' L' f1 f' (.step a1 a2 a3 a4) hn.2 h
          have hout : ∀ a b, (a = x ∨ b = x) → (a, b) ∉ steps (p :: p' :: L') := by
            intro a b hab hm
            have := mem_steps hm
            rcases hab with rfl | rfl
            · exact hn.1 this.1
            · exact hn.1 this.2
          have hsame : ∀ a b, a ≠ x → b ≠ x → f1 (a, b) = f (a, b) := fun a b ha hb =>
            e3 _ (fun he => hb (Prod.mk.inj he).2) (fun he => ha (Prod.mk.inj he).1)
          rw [steps_cons]
          refine ⟨?_, ?_⟩
          · intro a b hab
            rcases List.mem_cons.1 hab with hab | hab
            · obtain ⟨rfl, rfl⟩ := Prod.mk.inj hab
              have h5 : f' (a, b) = f1 (a, b) := i2 _ (hout _ _ (Or.inl rfl)) (hout _ _ (Or.inr rfl))
              have h6 : f' (b, a) = f1 (b, a) := i2 _ (hout _ _ (Or.inr rfl)) (hout _ _ (Or.inl rfl))
              have h7 : ∀ u v, f' (u, v) = f1 (u, v) → f' (v, u) = f1 (v, u) → pot g cap f' u v = pot g cap f1 u v := by
                intro u v h8 h9; unfold pot; rw [h8, h9]
              rw [h7 _ _ h6 h5, h7 _ _ h5 h6]
              exact ⟨e1, e2⟩
            · obtain ⟨m1, m2⟩ := mem_steps hab
              have ha : a ≠ x := fun e => hn.1 (e ▸ m1)
              have hb : b ≠ x := fun e => hn.1 (e ▸ m2)
              have h7 : ∀ u v, u ≠ x → v ≠ x → pot g cap f1 u v = pot g cap f u v := by
                intro u v h8 h9; unfold pot; rw [hsame u v h8 h9, hsame v u h9 h8]
              rw [← h7 b a hb ha, ← h7 a b ha hb]
              exact i1 a b hab
          · rintro ⟨a, b⟩ ha hb
            rw [List.mem_cons, not_or] at ha hb
            rw [i2 _ ha.2 hb.2]
            refine e3 _ (fun he => hb.1 ?_) ha.1
            simp only [Prod.mk.injEq] at he ⊢
            exact ⟨he.2, he.1⟩

/-- the capacity of the path is that of one of its steps -/
theorem bottleneck_eq (hc : HasCaps g cap) {pred : Dict N (Option N)} (k : Nat) :
    ∀ (x p : N) (L : List N) (mn : Option Int) (d : Int),
    Tr (Use g cap f) pred src (x :: p :: L) → bottleneck g f pred src k x mn = .ok d →
    mn = some d ∨ ∃ a b, (a, b) ∈ steps (x :: p :: L) ∧ pot g cap f b a = d := by
  induction k with
  | zero => intro x p L mn d _ h; exact absurd h (by simp [bottleneck])
  | succ k ih =>
    intro x p L mn d hT h
    cases hT with
    | step h1 h2 h3 h4 =>
      rw [bottleneck, h1] at h
      simp only [] at h
      rw [potential_ok hc h3.1] at h
      simp only [] at h
      have hlow : mn = some (lowest mn (pot g cap f p x)) ∨ lowest mn (pot g cap f p x) = pot g cap f p x := by
        cases mn with
        | none => exact Or.inr rfl
        | some y => simp only [lowest]; split <;> simp
      have hhere : ∀ {d}, lowest mn (pot g cap f p x) = d →
          mn = some d ∨ ∃ a b, (a, b) ∈ steps (x :: p :: L) ∧ pot g cap f b a = d := by
        rintro d rfl
        exact hlow.imp id fun h => ⟨x, p, by simp [steps_cons], h.symm⟩
      cases h4 with
      | base =>
        rw [if_pos rfl] at h
        exact hhere (Except.ok.inj h)
      | @step _ p' L' a1 a2 a3 a4 =>
        rw [if_neg a2] at h
        rcases ih p p' L' _ d (.step a1 a2 a3 a4) h with h' | ⟨a, b, hab, h'⟩
        · exact hhere (Option.some.inj h')
        · exact Or.inr ⟨a, b, by rw [steps_cons]; exact List.mem_cons_of_mem _ hab, h'⟩

/-! ## the measure -/

open Classical in
/-- a number for the pair `(u, v)`: it never falls, and grows when an augmentation uses up the residual capacity -/
noncomputable def weight (g : Graph N) (cap : N × N → Int) (src : N) (f : N × N → Int) (u v : N) : Nat :=
  (if Use g cap f u v then dist g cap src f u else dist g cap src f v + 1) / 2

/-- the effect of an augmentation along a shortest path with steps `S` -/
structure Aug (g : Graph N) (cap : N × N → Int) (src : N) (S : List (N × N)) (f f' : N × N → Int) : Prop where
  short : ∀ a b, (a, b) ∈ S → dist g cap src f a = dist g cap src f b + 1
  back : ∀ a b, Use g cap f' a b → Use g cap f a b ∨ (a, b) ∈ S
  forth : ∀ a b, Use g cap f a b → Use g cap f' a b ∨ (b, a) ∈ S
  used : ∃ a b, (a, b) ∈ S ∧ Use g cap f b a ∧ ¬ Use g cap f' b a

variable {S : List (N × N)} {f' : N × N → Int}

theorem Aug.dist_mono (h : Aug g cap src S f f') (v : N) : dist g cap src f v ≤ dist g cap src f' v := by
  have key : ∀ {k v}, Walk g cap f' src k v → dist g cap src f v ≤ k := by
    intro k v hw
    induction hw with
    | nil => exact dist_le .nil
    | @step k u v _ hU ih =>
      rcases h.back u v hU with h1 | h1
      · have := dist_step (src := src) h1; omega
      · have := h.short u v h1; omega
  rcases dist_spec (g := g) (cap := cap) (src := src) f' v with h1 | h1
  · exact key h1
  · rw [h1]; exact dist_le_card f v

theorem Aug.weight_le (h : Aug g cap src S f f') (u v : N) : weight g cap src f u v ≤ weight g cap src f' u v := by
  unfold weight
  have hu := h.dist_mono u
  have hv := h.dist_mono v
  refine Nat.div_le_div_right ?_
  by_cases h1 : Use g cap f u v
  · rw [if_pos h1]
    by_cases h2 : Use g cap f' u v
    · rw [if_pos h2]; exact hu
    · rw [if_neg h2]
      have := h.short v u ((h.forth u v h1).resolve_left h2)
      omega
  · rw [if_neg h1]
    by_cases h2 : Use g cap f' u v
    · rw [if_pos h2]
      have := h.short u v ((h.back u v h2).resolve_left h1)
      omega
    · rw [if_neg h2]; omega

theorem Aug.weight_lt (h : Aug g cap src S f f') :
    ∃ u v, Use g cap f u v ∧ weight g cap src f u v < weight g cap src f' u v := by
  obtain ⟨a, b, h1, h2, h3⟩ := h.used
  refine ⟨b, a, h2, ?_⟩
  unfold weight
  rw [if_pos h2, if_neg h3]
  have := h.short a b h1
  have := h.dist_mono a
  omega

/-- the measure: the sum over the arcs, both ways -/
noncomputable def meas (g : Graph N) (cap : N × N → Int) (src : N) (f : N × N → Int) : Nat :=
  (g.getEdgeList.map fun e => weight g cap src f e.1 e.2 + weight g cap src f e.2 e.1).sum

theorem Aug.meas_lt (h : Aug g cap src S f f') : meas g cap src f < meas g cap src f' := by
  unfold meas
  refine List.sum_lt_sum _ _ (fun e _ => Nat.add_le_add (h.weight_le _ _) (h.weight_le _ _)) ?_
  obtain ⟨u, v, h1, h2⟩ := h.weight_lt
  have hvu := h.weight_le v u
  rcases h1.1 with h3 | h3
  · exact ⟨(u, v), h3, by simp only []; omega⟩
  · exact ⟨(v, u), h3, by simp only []; omega⟩

theorem meas_le (f : N × N → Int) : meas g cap src f ≤ g.getEdgeList.length * (g.getNodeList.length + 1) := by
  unfold meas
  have hw : ∀ u v, 2 * weight g cap src f u v ≤ g.getNodeList.length + 1 := by
    intro u v
    unfold weight
    have hu := dist_le_card (g := g) (cap := cap) (src := src) f u
    have hv := dist_le_card (g := g) (cap := cap) (src := src) f v
    split <;> omega
  generalize g.getEdgeList = E
  induction E with
  | nil => simp
  | cons e E ih =>
    simp only [List.map_cons, List.sum_cons, List.length_cons, Nat.succ_mul]
    have h1 := hw e.1 e.2
    have h2 := hw e.2 e.1
    omega

/-! ## the outer loop -/

theorem tr_walk {P : N → N → Prop} (hP : ∀ u v, P u v → Use g cap f u v) {pred : Dict N (Option N)} {l : List N}
    (h : Tr P pred src l) : ∀ x L, l = x :: L → Walk g cap f src L.length x := by
  induction h with
  | base => rintro x L h; obtain ⟨rfl, rfl⟩ := List.cons.inj h; exact .nil
  | @step y p L' _ _ h3 _ ih =>
    rintro x L h
    obtain ⟨rfl, rfl⟩ := List.cons.inj h
    exact .step (ih p L' rfl) (hP _ _ h3)

theorem tr_lev {P : N → N → Prop} {lv : N → Nat} {st : XState N Q} (hI : Lev items src lv st) {l : List N}
    (h : Tr P st.pred src l) : ∀ x L, l = x :: L → lv x = L.length := by
  induction h with
  | base => rintro x L h; obtain ⟨rfl, rfl⟩ := List.cons.inj h; exact hI.src0
  | @step y p L' h1 _ _ _ ih =>
    rintro x L h
    obtain ⟨rfl, rfl⟩ := List.cons.inj h
    rw [(hI.keys _ _ h1).2.2, ih p L' rfl]; rfl

/-- distances along the path found -/
theorem tr_dist {lv : N → Nat} {st : XState N Q} (hI : Lev items src lv st) (hn : st.explored.length ≤ g.getNodeList.length)
    (hw : ∀ j v, Walk g cap f src j v → j ≤ lv sink → v ∈ st.explored ∧ lv v ≤ j) {l : List N}
    (h : Tr (Use g cap f) st.pred src l) (hE : ∀ y ∈ l, y ∈ st.explored) (hl : l.length ≤ lv sink + 1) :
    ∀ a b, (a, b) ∈ steps l → dist g cap src f a = dist g cap src f b + 1 := by
  have key : ∀ x L, Tr (Use g cap f) st.pred src (x :: L) → x ∈ st.explored → L.length ≤ lv sink →
      dist g cap src f x = L.length := by
    intro x L hT hx hL
    have h1 := dist_le (tr_walk (fun _ _ h => h) hT x L rfl)
    have h2 := tr_lev hI hT x L rfl
    have h3 := hI.short x hx
    rcases dist_spec (g := g) (cap := cap) (src := src) f x with h4 | h4
    · have := (hw _ _ h4 (by omega)).2
      omega
    · omega
  induction h with
  | base => intro a b hab; simp [steps] at hab
  | @step x p L h1 h2 h3 h4 ih =>
    intro a b hab
    simp only [List.length_cons] at hl
    rw [steps_cons] at hab
    rcases List.mem_cons.1 hab with hab | hab
    · obtain ⟨rfl, rfl⟩ := Prod.mk.inj hab
      rw [key _ _ (.step h1 h2 h3 h4) (hE _ (by simp)) (by simp only [List.length_cons]; omega),
        key _ _ h4 (hE _ (by simp)) (by omega)]
      rfl
    · exact ih (fun y hy => hE y (by simp [hy])) (by simp only [List.length_cons]; omega) a b hab

theorem tr_use {P : N → N → Prop} {pred : Dict N (Option N)} {l : List N} (h : Tr P pred src l) :
    ∀ a b, (a, b) ∈ steps l → P b a := by
  induction h with
  | base => intro a b hab; simp [steps] at hab
  | @step x p L _ _ h3 _ ih =>
    intro a b hab
    rw [steps_cons] at hab
    rcases List.mem_cons.1 hab with hab | hab
    · obtain ⟨rfl, rfl⟩ := Prod.mk.inj hab; exact h3
    · exact ih a b hab

/-- with a first-in first-out queue the number of passes is bounded without the capacities -/
theorem loop_fifo (hwf : g.Wf) (hd : g.directed = true) (hb : LawfulFIFO O items) (hc : HasCaps g cap) {newQ : Q}
    (hq : items newQ = []) (hs : src ∈ g.getNodeList) (hst : src ≠ sink) {inner : Nat}
    (hin : g.getNodeList.length < inner) (k : Nat) : ∀ f, IsFlow g.getEdgeList cap src sink f →
    g.getEdgeList.length * (g.getNodeList.length + 1) < k + meas g cap src f →
    ∃ f', loop g O newQ src sink inner k f = .ok f' ∧ IsFlow g.getEdgeList cap src sink f' ∧
      ∃ S : N → Prop, S src ∧ ¬ S sink ∧ ∀ u, S u → ∀ v, Use g cap f' u v → S v := by
  induction k with
  | zero =>
    intro f hf hk
    have := meas_le (g := g) (cap := cap) (src := src) f
    omega
  | succ k ih =>
    intro f hf hk
    rw [loop]
    have hi : items (O.push newQ src) = [src] := by rw [hb.push_eq, hq]; rfl
    have h0 : XInv g cap f items src (fun _ _ => True) (inner - 1)
        (⟨O.push newQ src, Dict.empty.set src none, [src]⟩ : XState N Q) := by
      refine ⟨?_, .base (Dict.get?_set_self _ _ _), ?_, ?_, ?_, ?_⟩
      · intro v; rw [Dict.mem_keys_set]; simp [Dict.empty, Dict.keys]
      · intro v hv; obtain rfl := List.mem_singleton.1 hv; exact hs
      · intro v hv; simpa [hi] using hv
      · intro u hu; exact Or.inl (by simpa [hi] using hu)
      · simp only [hi, List.length_singleton]; omega
    have h1 : Lev items src (fun _ => 0) (⟨O.push newQ src, Dict.empty.set src none, [src]⟩ : XState N Q) := by
      refine ⟨rfl, by simp, by simp [hi], ?_, by simp [hi], by simp [hi], by simp⟩
      intro m p hm
      by_cases hms : m = src
      · subst hms; rw [Dict.get?_set_self] at hm; simp at hm
      · rw [Dict.get?_set_ne _ _ (Ne.symm hms)] at hm; simp [Dict.empty, Dict.get?, Dict.getL] at hm
    obtain ⟨st, e1, e2, e3, e4, e5⟩ := find_ok (sink := sink) hwf hd hb.toLawfulBag hc (inner - 1) _ h0
    rw [show inner - 1 + 1 = inner by omega] at e1
    obtain ⟨lv, l1, l2⟩ := find_lev hwf hd hb hc inner _ st _ e1 h1 (by simpa using hs) (by simp)
      (fun u hu => Or.inl (by simpa [hi] using hu))
    rw [e1]
    simp only []
    by_cases hk' : st.pred.contains sink = true
    · rw [if_pos hk']
      rw [Dict.contains_iff, e3] at hk'
      obtain ⟨L, t1, t2, t3⟩ := e2.trace sink hk'
      have hlen : (sink :: L).length ≤ g.getNodeList.length :=
        (List.subperm_of_subset t2 fun y hy => e4 y (t3 y hy)).length_le
      have hxl : st.explored.length ≤ g.getNodeList.length := (List.subperm_of_subset e2.nodup e4).length_le
      cases L with
      | nil => cases t1; exact absurd rfl hst
      | cons p L =>
        simp only [List.length_cons] at hlen
        obtain ⟨d, d1, d2, d3, d4⟩ := bottleneck_ok (f := f) hc inner sink p L none t1 (by omega) (by simp)
        rw [d1]
        simp only []
        obtain ⟨f', a1, a2, a3⟩ := augment_ok (cap := cap) hwf (fun u v h => h.1) (Int.le_of_lt d2) inner sink p L f t1 t2
          (by omega) hf.within d4
        rw [a1]
        have hA : Aug g cap src (steps (sink :: p :: L)) f f' := by
          obtain ⟨b1, b2⟩ := augment_eff (cap := cap) (Int.le_of_lt d2) inner sink p L f f' t1 t2 a1
          have hun : ∀ a b, (a, b) ∉ steps (sink :: p :: L) → (b, a) ∉ steps (sink :: p :: L) →
              pot g cap f' a b = pot g cap f a b := by
            intro a b h3 h4
            unfold pot; rw [b2 (a, b) h3 h4, b2 (b, a) h4 h3]
          refine ⟨?_, ?_, ?_, ?_⟩
          · exact tr_dist l1 hxl l2 t1 t3 (Nat.le_of_eq (by rw [tr_lev l1 t1 sink (p :: L) rfl]; rfl))
          · intro a b hU
            by_cases h3 : (a, b) ∈ steps (sink :: p :: L)
            · exact Or.inr h3
            · refine Or.inl ⟨hU.1, ?_⟩
              have := hU.2
              by_cases h4 : (b, a) ∈ steps (sink :: p :: L)
              · have := (b1 b a h4).1; omega
              · rw [hun a b h3 h4] at this; exact this
          · intro a b hU
            by_cases h4 : (b, a) ∈ steps (sink :: p :: L)
            · exact Or.inr h4
            · refine Or.inl ⟨hU.1, ?_⟩
              have := hU.2
              by_cases h3 : (a, b) ∈ steps (sink :: p :: L)
              · have := (b1 a b h3).2; omega
              · rw [hun a b h3 h4]; exact this
          · obtain ⟨a, b, h3, h4⟩ := (bottleneck_eq hc inner sink p L none d t1 d1).resolve_left (by simp)
            refine ⟨a, b, h3, tr_use t1 a b h3, fun hU => ?_⟩
            have := (b1 a b h3).1
            have := hU.2
            omega
        refine ih f' ⟨a2, ?_⟩ ?_
        · intro v hv1 hv2
          rw [a3, hf.conserved v hv1 hv2, if_neg (Ne.symm hv2), if_neg (Ne.symm hv1)]; rfl
        · have := hA.meas_lt; omega
    · rw [if_neg hk']
      rw [Dict.contains_iff, e3] at hk'
      exact ⟨f, rfl, hf, (· ∈ st.explored), e2.src_mem, hk', e5 hk'⟩

end MaxFlow
end GiMPy
