import Verif.Lemmas.SearchBag

/-! # Depth-first order of a search over a stack

The stack is described by a list of entries: an item and the node that pushed it.  `L` are the visited nodes, the latest
first. -/

namespace GiMPy
namespace Search
variable {N : Type} [DecidableEq N] {Q : Type}
set_option linter.unusedSectionVars false

/-- the links lead from `x` through nodes of `L` to `u` -/
inductive Anc (pred : Dict N N) (L : List N) (u : N) : N → Prop
  | here : Anc pred L u u
  | step {x p} : x ∈ L → pred.get? x = some p → Anc pred L u p → Anc pred L u x

theorem Anc.set {pred : Dict N N} {L : List N} {u x n c : N} (hn : n ∉ L) (h : Anc pred L u x) : Anc (pred.set n c) L u x := by
  induction h with
  | here => exact .here
  | step hx hp _ ih =>
    refine .step hx ?_ ih
    rw [Dict.get?_set_ne _ _ (by rintro rfl; exact hn hx)]; exact hp

theorem Anc.mono {pred : Dict N N} {L L' : List N} {u x : N} (hL : ∀ y ∈ L, y ∈ L') (h : Anc pred L u x) : Anc pred L' u x := by
  induction h with
  | here => exact .here
  | step hx hp _ ih => exact .step (hL _ hx) hp ih

theorem Anc.trans {pred : Dict N N} {L : List N} {u x y : N} (h : Anc pred L u x) (h' : Anc pred L x y) : Anc pred L u y := by
  induction h' with
  | here => exact h
  | step hx hp _ ih => exact .step hx hp ih

/-- ancestors of a node of `L` depend on the links of `L` only -/
theorem Anc.restrict {pred pred' : Dict N N} {L L' : List N} {u x : N} (hc : ∀ y ∈ L, ∀ p, pred.get? y = some p → p ∈ L)
    (he : ∀ y ∈ L, pred'.get? y = pred.get? y) (h : Anc pred' L' u x) (hx : x ∈ L) : Anc pred L u x := by
  induction h with
  | here => exact .here
  | step _ hp _ ih =>
    rw [he _ hx] at hp
    exact .step hx hp (ih (hc _ hx _ hp))

theorem anc_of_leads {pred : Dict N N} {L : List N} {u x : N} (hL : ∀ y p, pred.get? y = some p → y ∈ L)
    (h : LeadsTo pred u x) : Anc pred L u x := by
  induction h with
  | here => exact .here
  | step hp _ ih => exact .step (hL _ _ hp) hp ih

theorem Anc.leads {pred : Dict N N} {L : List N} {u x : N} (h : Anc pred L u x) : LeadsTo pred u x := by
  induction h with
  | here => exact .here
  | step _ hp _ ih => exact .step hp ih

theorem getL_remove {G₁ G₂ : List (N × N)} {e : N × N} {v : N} (h : e.1 ≠ v) :
    Dict.getL (G₁ ++ e :: G₂) v = Dict.getL (G₁ ++ G₂) v := by
  induction G₁ with
  | nil => rw [List.nil_append, List.nil_append]; cases e; rw [Dict.getL, if_neg h]
  | cons a G ih => cases a; rw [List.cons_append, List.cons_append, Dict.getL, Dict.getL, ih]

theorem getL_mem {G : List (N × N)} {v p : N} (h : Dict.getL G v = some p) : (v, p) ∈ G := by
  induction G with
  | nil => cases h
  | cons a G ih =>
    cases a with
    | mk a b =>
      rw [Dict.getL] at h
      by_cases hav : a = v
      · rw [if_pos hav] at h; cases h; subst hav; simp
      · rw [if_neg hav] at h; simp [ih h]

/-- the state of the search in terms of the visited nodes and the entries; `E` are the edges processed so far -/
structure DfsCore (R : N → N → Prop) (src : N) (E : N → N → Prop) (pred : Dict N N) (L : List N) (G : List (N × N)) : Prop where
  nodup : L.Nodup
  order : G.Pairwise fun a b => L.idxOf a.2 ≤ L.idxOf b.2
  pushers : ∀ e ∈ G, e.2 = src ∨ e.2 ∈ L
  entry : ∀ v, v ∉ L → v ≠ src → Dict.getL G v = pred.get? v
  front : ∀ u v, v ∉ L → u ∈ L → E u v → ∃ p, pred.get? v = some p ∧ p ∈ L ∧ L.idxOf p ≤ L.idxOf u
  below : ∀ u w, w ∉ L → u ∈ L → R u w → ∀ x ∈ L, L.idxOf x < L.idxOf u → Anc pred L u x
  edges : ∀ u x, u ∈ L → x ∈ L → L.idxOf x < L.idxOf u → R u x → Anc pred L u x
  closed : ∀ x ∈ L, ∀ p, pred.get? x = some p → p ∈ L ∧ L.idxOf x < L.idxOf p
  contig : ∀ u x y, u ∈ L → x ∈ L → y ∈ L → L.idxOf x ≤ L.idxOf y → L.idxOf y ≤ L.idxOf u → Anc pred L u x → Anc pred L u y

variable {R : N → N → Prop} {src : N} {E : N → N → Prop} {pred : Dict N N} {L : List N} {G : List (N × N)}

theorem DfsCore.remove {G₁ G₂ : List (N × N)} {e : N × N} (h : DfsCore R src E pred L (G₁ ++ e :: G₂)) (he : e.1 ∈ L) :
    DfsCore R src E pred L (G₁ ++ G₂) := by
  have hsub : (G₁ ++ G₂).Sublist (G₁ ++ e :: G₂) := List.Sublist.append_left (List.sublist_cons_self _ _) _
  refine ⟨h.nodup, h.order.sublist hsub, fun a ha => h.pushers a (hsub.subset ha), fun v hv hs => ?_, h.front, h.below, h.edges, h.closed, h.contig⟩
  rw [← h.entry v hv hs, getL_remove]
  rintro rfl; exact hv he

theorem DfsCore.weaken {E' : N → N → Prop} (h : DfsCore R src E pred L G) (hE : ∀ u v, u ∈ L → v ∉ L → E' u v → E u v) :
    DfsCore R src E' pred L G :=
  ⟨h.nodup, h.order, h.pushers, h.entry, fun u v hv hu he => h.front u v hv hu (hE u v hu hv he), h.below, h.edges, h.closed, h.contig⟩

theorem DfsCore.push {c n : N} {done : List N} (h : DfsCore R src (fun u v => R u v ∧ (u = c → v ∈ done)) pred (c :: L) G)
    (hsrc : src ∈ c :: L) (hn : n ∉ c :: L) :
    DfsCore R src (fun u v => R u v ∧ (u = c → v ∈ n :: done)) (pred.set n c) (c :: L) ((n, c) :: G) := by
  have hc0 : (c :: L).idxOf c = 0 := by simp
  refine ⟨h.nodup, List.pairwise_cons.2 ⟨fun a _ => by simp, h.order⟩, ?_, ?_, ?_, fun u w hw hu hr x hx hlt =>
    (h.below u w hw hu hr x hx hlt).set hn, fun u x hu hx hlt hr => (h.edges u x hu hx hlt hr).set hn, ?_, ?_⟩
  · intro e he
    rcases List.mem_cons.1 he with rfl | he
    · exact Or.inr (by simp)
    · exact h.pushers e he
  · intro v hv hs
    rw [Dict.getL, Dict.get?_set]
    by_cases hvn : n = v
    · rw [if_pos hvn, if_pos hvn]
    · rw [if_neg hvn, if_neg hvn]; exact h.entry v hv hs
  · rintro u v hv hu ⟨hr, hd⟩
    by_cases hvn : n = v
    · subst hvn
      exact ⟨c, by rw [Dict.get?_set, if_pos rfl], by simp, by rw [hc0]; omega⟩
    · obtain ⟨p, h1, h2, h3⟩ := h.front u v hv hu ⟨hr, fun huc => by
        rcases List.mem_cons.1 (hd huc) with h | h
        · exact absurd h.symm hvn
        · exact h⟩
      exact ⟨p, by rw [Dict.get?_set, if_neg hvn]; exact h1, h2, h3⟩
  · intro x hx p hp
    rw [Dict.get?_set, if_neg (by rintro rfl; exact hn hx)] at hp
    exact h.closed x hx p hp
  · intro u x y hu hx hy h1 h2 ha
    refine (h.contig u x y hu hx hy h1 h2 (ha.restrict (fun y hy p hp => (h.closed y hy p hp).1) ?_ hx)).set hn
    intro z hz
    rw [Dict.get?_set, if_neg (by rintro rfl; exact hn hz)]

theorem idxOf_cons_pos {c x : N} (h : x ≠ c) (L : List N) : (c :: L).idxOf x = L.idxOf x + 1 :=
  List.idxOf_cons_ne _ (Ne.symm h)

/-- the source is visited first -/
theorem DfsCore.first (hp : pred = .empty) : DfsCore R src (fun u v => R u v ∧ (u = src → v ∈ ([] : List N))) pred [src] [(src, src)] := by
  refine ⟨by simp, by simp, by simp, ?_, ?_, ?_, ?_, ?_, ?_⟩
  · intro v hv _
    rw [hp, Dict.getL, if_neg (by rintro rfl; simp at hv)]; rfl
  · rintro u v _ hu ⟨_, hd⟩
    exact absurd (hd (by simpa using hu)) (by simp)
  · intro u w _ hu _ x hx hlt
    simp only [List.mem_singleton] at hu hx
    subst hu hx; omega
  · intro u x hu hx hlt
    simp only [List.mem_singleton] at hu hx
    subst hu hx; omega
  · intro x _ p h; rw [hp] at h; cases h
  · intro u x y hu hx hy _ _ _
    simp only [List.mem_singleton] at hu hy
    rw [hu, hy]; exact .here

/-- visiting the node on top of the stack -/
theorem DfsCore.enter {c q : N} {G' : List (N × N)} (h : DfsCore R src R pred L ((c, q) :: G')) (hc : c ∉ L) (hs : src ∈ L)
    (hR : ∀ p, pred.get? c = some p → R p c) :
    DfsCore R src (fun u v => R u v ∧ (u = c → v ∈ ([] : List N))) pred (c :: L) ((c, q) :: G') := by
  have hcs : c ≠ src := by rintro rfl; exact hc hs
  have hq : q ∈ L := by
    rcases h.pushers (c, q) (by simp) with h | h
    · have : q = src := h
      rw [this]; exact hs
    · exact h
  have hpc : pred.get? c = some q := by
    rw [← h.entry c hc hcs, Dict.getL, if_pos rfl]
  have hidx : ∀ x ∈ L, (c :: L).idxOf x = L.idxOf x + 1 := fun x hx => idxOf_cons_pos (by rintro rfl; exact hc hx) L
  -- every visited node with an unvisited neighbour is an ancestor of the pusher
  have hanc : ∀ u w, w ∉ L → u ∈ L → R u w → Anc pred L u q := by
    intro u w hw hu hr
    obtain ⟨p, h1, h2, h3⟩ := h.front u w hw hu hr
    have hle : L.idxOf q ≤ L.idxOf p := by
      by_cases hwc : w = c
      · subst hwc; rw [hpc] at h1; cases h1; exact Nat.le_refl _
      · have hws : w ≠ src := by rintro rfl; exact hw hs
        have h4 := h.entry w hw hws
        rw [h1, Dict.getL, if_neg (Ne.symm hwc)] at h4
        exact (List.pairwise_cons.1 h.order).1 _ (getL_mem h4)
    by_cases hlt : L.idxOf q < L.idxOf u
    · exact h.below u w hw hu hr q hq hlt
    · have : L.idxOf q = L.idxOf u := by omega
      rw [(List.idxOf_inj hq).1 this]
      exact .here
  have hup : ∀ u x, Anc pred L u x → Anc pred (c :: L) u x := fun u x h => h.mono fun y hy => by simp [hy]
  have hcl : ∀ y ∈ L, ∀ p, pred.get? y = some p → p ∈ L := fun y hy p hp => (h.closed y hy p hp).1
  refine ⟨List.nodup_cons.2 ⟨hc, h.nodup⟩, ?_, ?_, ?_, ?_, ?_, ?_, ?_, ?_⟩
  · refine h.order.imp_of_mem ?_
    intro a b ha hb hab
    have hm : ∀ e ∈ (c, q) :: G', e.2 ∈ L := by
      intro e he
      rcases h.pushers e he with h | h
      · rw [h]; exact hs
      · exact h
    rw [hidx _ (hm a ha), hidx _ (hm b hb)]; omega
  · intro e he
    rcases h.pushers e he with h | h
    · exact Or.inl h
    · exact Or.inr (by simp [h])
  · intro v hv hvs
    exact h.entry v (fun h => hv (by simp [h])) hvs
  · rintro u v hv hu ⟨hr, hd⟩
    rcases List.mem_cons.1 hu with rfl | hu
    · exact absurd (hd rfl) (by simp)
    · obtain ⟨p, h1, h2, h3⟩ := h.front u v (fun h => hv (by simp [h])) hu hr
      exact ⟨p, h1, by simp [h2], by rw [hidx _ h2, hidx _ hu]; omega⟩
  · intro u w hw hu hr x hx hlt
    rcases List.mem_cons.1 hu with rfl | hu
    · simp at hlt
    · have hw' : w ∉ L := fun h => hw (by simp [h])
      rcases List.mem_cons.1 hx with hxc | hx
      · rw [hxc]; exact .step (by simp) hpc (hup _ _ (hanc u w hw' (by assumption) hr))
      · rw [hidx _ hx, hidx _ hu] at hlt
        exact hup _ _ (h.below u w hw' hu hr x hx (by omega))
  · intro u x hu hx hlt hr
    rcases List.mem_cons.1 hu with rfl | hu
    · simp at hlt
    · rcases List.mem_cons.1 hx with hxc | hx
      · rw [hxc] at hr ⊢; exact .step (by simp) hpc (hup _ _ (hanc u c hc (by assumption) hr))
      · rw [hidx _ hx, hidx _ hu] at hlt
        exact hup _ _ (h.edges u x hu hx (by omega) hr)
  · intro x hx p hp
    rcases List.mem_cons.1 hx with hxc | hx
    · rw [hxc, hpc] at hp; cases hp
      exact ⟨by simp [hq], by rw [hidx _ hq, hxc]; simp⟩
    · obtain ⟨h1, h2⟩ := h.closed x hx p hp
      exact ⟨by simp [h1], by rw [hidx _ hx, hidx _ h1]; omega⟩
  · intro u x y hu hx hy h1 h2 ha
    by_cases huc : u = c
    · rw [huc] at h2 ⊢
      have : y = c := by
        by_contra hyc
        rw [idxOf_cons_pos hyc] at h2; simp at h2
      rw [this]; exact .here
    have huL : u ∈ L := (List.mem_cons.1 hu).resolve_left huc
    by_cases hyc : y = c
    · have hxc : x = c := by
        by_contra hxc
        rw [idxOf_cons_pos hxc, hyc] at h1; simp at h1
      rw [hxc] at ha; rw [hyc]; exact ha
    have hyL : y ∈ L := (List.mem_cons.1 hy).resolve_left hyc
    rw [hidx _ hyL, hidx _ huL] at h2
    by_cases hxc : x = c
    · -- the node just visited
      rw [hxc] at ha
      cases ha with
      | here => exact absurd rfl huc
      | step _ hp ha =>
        rw [hpc] at hp; cases hp
        have ha' : Anc pred L u q := ha.restrict hcl (fun _ _ => rfl) hq
        apply hup
        by_cases hqy : L.idxOf q ≤ L.idxOf y
        · exact h.contig u q y huL hq hyL hqy (by omega) ha'
        · exact ha'.trans (h.below q c hc hq (hR q hpc) y hyL (by omega))
    · have hxL : x ∈ L := (List.mem_cons.1 hx).resolve_left hxc
      rw [hidx _ hxL, hidx _ hyL] at h1
      exact hup _ _ (h.contig u x y huL hxL hyL (by omega) (by omega) (ha.restrict hcl (fun _ _ => rfl) hxL))

/-! ## the loop -/

variable {g : Graph N} {O : QOps N Q} {items : Q → List N} {rev : Bool}

/-- every link adds 1 to the distance -/
structure Depth (src : N) (st : SState N Q) : Prop where
  zero : st.dist src = some 0
  link : ∀ v p, st.pred.get? v = some p → ∃ d, st.dist p = some d ∧ st.dist v = some (d + 1)

/-- between two visits -/
structure ADfs (g : Graph N) (rev : Bool) (src : N) (comp : Option Int) (c0 : N → Option Int) (items : Q → List N)
    (st : SState N Q) : Prop extends ABag src comp c0 st, Depth src st where
  core : ∃ L G, items st.q = G.map Prod.fst ∧ (∀ v, v ∈ L ↔ st.color v = .green) ∧
    DfsCore (Step g rev) src (Step g rev) st.pred L G ∧
    ((src ∈ L ∧ L.getLast? = some src) ∨ (L = [] ∧ G = [(src, src)] ∧ st.pred = .empty))

/-- during the visit of `c` -/
structure KDfs (g : Graph N) (rev : Bool) (src : N) (comp : Option Int) (c0 : N → Option Int) (items : Q → List N)
    (c : N) (done : List N) (st : SState N Q) : Prop extends ABag src comp c0 st, Depth src st where
  core : ∃ L G, items st.q = G.map Prod.fst ∧ (∀ v, v ∈ c :: L ↔ st.color v = .green ∨ v = c) ∧
    DfsCore (Step g rev) src (fun u v => Step g rev u v ∧ (u = c → v ∈ done)) st.pred (c :: L) G ∧
    src ∈ c :: L ∧ (c :: L).getLast? = some src

theorem inv_dfs (hf : LawfulLIFO O items) (hO : O.isPQ = false) (hnl : NoLoop g rev) (comp : Option Int) (c0 : N → Option Int) :
    Inv g O items rev src (Chains g rev .dfs) .dfs comp (ADfs g rev src comp c0 items) (KDfs g rev src comp c0 items) where
  drop st t c hB hA hp hc hg := by
    obtain ⟨L, G, h1, h2, h3, h4⟩ := hA.core
    obtain ⟨l₁, l₂, e1, e2⟩ := hf.remove_eq st.q c hc
    have hcL : c ∈ L := (h2 c).2 hg
    rw [h1] at e1
    obtain ⟨G₁, G₂', rfl, rfl, e3⟩ := List.map_eq_append_iff.1 e1
    obtain ⟨e, G₂, rfl, rfl, rfl⟩ := List.map_eq_cons_iff.1 e3
    refine ⟨⟨hA.dist, hA.comp⟩, ⟨hA.zero, hA.link⟩, L, G₁ ++ G₂, ?_, h2, h3.remove hcL, Or.inl ?_⟩
    · show items (O.remove st.q _) = _
      rw [e2, List.map_append]
    · rcases h4 with h4 | ⟨rfl, _⟩
      · exact h4
      · cases hcL
  enter st t c hB hA hp hc hg := by
    obtain ⟨L, G, h1, h2, h3, h4⟩ := hA.core
    have hcL : c ∉ L := fun h => hg ((h2 c).1 h)
    refine ⟨⟨hA.dist, hA.comp⟩, ⟨hA.zero, hA.link⟩, L, G, h1, ?_, ?_⟩
    · intro v
      rw [List.mem_cons, h2]
      show _ ↔ upd st.color c .blue v = .green ∨ v = c
      by_cases hv : v = c
      · simp [hv]
      · rw [upd_ne _ _ hv]; simp [hv]
    · have hhd : (G.map Prod.fst).head? = some c := by rw [← h1, ← hf.peek_eq]; exact hp
      cases G with
      | nil => cases hhd
      | cons e G =>
        obtain ⟨a, q⟩ := e
        obtain rfl : a = c := by simpa using hhd
        rcases h4 with ⟨h4, h5⟩ | ⟨rfl, h5, h6⟩
        · refine ⟨h3.enter hcL h4 fun p hp => (hB.link _ p hp).1, by simp [h4], ?_⟩
          rw [List.getLast?_cons_of_ne_nil (List.ne_nil_of_mem h4)]; exact h5
        · cases h5
          exact ⟨DfsCore.first h6, by simp, by simp⟩
  green c t len0 color0 done n st hM hA hg hs := by
    obtain ⟨L, G, h1, h2, h3, h4, h5⟩ := hA.core
    refine ⟨hA.toABag, hA.toDepth, L, G, h1, h2, h3.weaken ?_, h4, h5⟩
    rintro u v hu hv ⟨hr, hd⟩
    refine ⟨hr, fun huc => ?_⟩
    rcases List.mem_cons.1 (hd huc) with rfl | h
    · exact absurd ((h2 _).2 (Or.inl hg)) hv
    · exact h
  pe c t len0 color0 done n st hM hA hg hs := by
    obtain ⟨d, hd⟩ := Option.isSome_iff_exists.1 ((hA.dist c).2 (hM.item c hM.curItem))
    rw [processEdge_plain (algo := .dfs) trivial hO comp st c n hd, if_neg (by simp)]
    have hnc : n ≠ c := by rintro rfl; exact hnl _ hs
    refine ⟨_, rfl, peRel_take hf.toLawfulBag c n _ (fun _ => hnc), abag_take hA.toABag _ c n _, ?_, ?_⟩
    · have hns : n ≠ src := by
        rintro rfl
        obtain ⟨L, G, h1, h2, h3, h4, h5⟩ := hA.core
        rcases (h2 _).1 h4 with h | h
        · exact hg h
        · exact hnc h
      constructor
      · show upd st.dist n (some (d + 1)) src = _
        rw [upd_ne _ _ (Ne.symm hns)]; exact hA.zero
      · intro v p hv
        replace hv : (st.pred.set n c).get? v = some p := hv
        show ∃ e, upd st.dist n (some (d + 1)) p = some e ∧ upd st.dist n (some (d + 1)) v = some (e + 1)
        rw [Dict.get?_set] at hv
        by_cases hvn : n = v
        · rw [if_pos hvn] at hv; cases hv; subst hvn
          exact ⟨d, by rw [upd_ne _ _ (Ne.symm hnc)]; exact hd, by rw [upd_same]⟩
        · rw [if_neg hvn] at hv
          have hpn : p ≠ n := by
            rintro rfl
            rcases (hM.link v p hv).2 with h1 | h1
            · exact hg h1
            · exact hnc h1
          rw [upd_ne _ _ hpn, upd_ne _ _ (Ne.symm hvn)]
          exact hA.link v p hv
    · obtain ⟨L, G, h1, h2, h3, h4, h5⟩ := hA.core
      have hnL : n ∉ c :: L := by
        intro h
        rcases (h2 n).1 h with h | h
        · exact hg h
        · exact hnc h
      refine ⟨L, (n, c) :: G, ?_, ?_, h3.push h4 hnL, h4, h5⟩
      · show items (O.push st.q n) = _
        rw [hf.push_eq, h1]; rfl
      · intro v
        rw [h2]
        show _ ↔ upd st.color n .red v = .green ∨ v = c
        by_cases hvn : v = n
        · subst hvn; simp [hg]
        · rw [upd_ne _ _ hvn]
  leave c t len0 color0 done st hM hA hdone := by
    obtain ⟨L, G, h1, h2, h3, h4, h5⟩ := hA.core
    obtain ⟨l₁, l₂, e1, e2⟩ := hf.remove_eq st.q c hM.curItem
    rw [h1] at e1
    obtain ⟨G₁, G₂', rfl, rfl, e3⟩ := List.map_eq_append_iff.1 e1
    obtain ⟨e, G₂, rfl, rfl, rfl⟩ := List.map_eq_cons_iff.1 e3
    refine ⟨⟨hA.dist, hA.comp⟩, ⟨hA.zero, hA.link⟩, e.1 :: L, G₁ ++ G₂, ?_, ?_, ?_, Or.inl ⟨h4, h5⟩⟩
    · show items (O.remove st.q _) = _
      rw [e2, List.map_append]
    · intro v
      rw [h2]
      show _ ↔ upd st.color _ .green v = .green
      by_cases hv : v = e.1
      · simp [hv]
      · rw [upd_ne _ _ hv]; simp [hv]
    · refine (h3.remove (by simp)).weaken fun u v _ _ hr => ⟨hr, fun huc => ?_⟩
      subst huc
      exact (hdone v).2 hr

theorem adfs_start (hf : LawfulLIFO O items) (hO : O.isPQ = false) (comp : Option Int) (col : SState N Q)
    (hq : items col.q = []) : ADfs g rev src comp col.comp items (start O .dfs comp src col) := by
  obtain ⟨h1, h2, _⟩ := start_fields (O := O) (src := src) .dfs comp col
  have hqq : items (start O .dfs comp src col).q = [src] := by
    have : (start O .dfs comp src col).q = O.push col.q src := by simp [start, processSource, hO]
    rw [this, hf.push_eq, hq]
  refine ⟨abag_start (algo := .dfs) trivial comp col, ⟨by simp [start, processSource], ?_⟩, [], [(src, src)], hqq, ?_, ?_, Or.inr ⟨rfl, rfl, h1⟩⟩
  · intro v p hv; rw [h1] at hv; cases hv
  · intro v; rw [h2]; simp
  · refine ⟨by simp, by simp, by simp, ?_, by simp, by simp, by simp, by simp, by simp⟩
    intro v _ hs
    rw [h1, Dict.getL, if_neg (Ne.symm hs)]; rfl

end Search
end GiMPy
