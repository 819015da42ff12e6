import Verif.Lemmas.Display

/-! # C74-C79: `display`, `write`, `create` -/

namespace GiMPy
open Display
variable {N : Type} [DecidableEq N] {E : Env} {T : Text N} {hl : Option (List N)} {basename format m lay : String} {w : Bool}
  {st st' : DState N}

/-- the state after a call, whether it returned or raised, differs from the state before only in what `display` may touch -/
structure OnlyShown (hl : List N) (basename format : String) (a b : DState N) : Prop where
  dir : b.g.directed = a.g.directed
  nbrs : b.g.neighbors = a.g.neighbors
  inn : b.g.inNeighbors = a.g.inNeighbors
  edges : b.g.edgeAttr = a.g.edgeAttr
  keys : b.g.nodes.keys = a.g.nodes.keys
  others : ∀ n, n ∉ hl → b.g.nodes.get? n = a.g.nodes.get? n
  nattr : ∀ n x, a.g.nodes.get? n = some x → ∃ y, b.g.nodes.get? n = some y ∧ ∀ s, s ≠ "color" → y.get? s = x.get? s
  gattr : ∀ s, s ≠ "display" → s ≠ "layout" → s ≠ "d2tgraphstyle" → b.attr.get? s = a.attr.get? s
  files : ∀ f, f ≠ basename ++ ".dot" → f ≠ basename ++ ".tex" → f ≠ basename ++ "." ++ format →
    b.files.get? f = a.files.get? f

theorem OnlyShown.refl (l : List N) (b f : String) (a : DState N) : OnlyShown l b f a a :=
  ⟨rfl, rfl, rfl, rfl, rfl, fun _ _ => rfl, fun _ x h => ⟨x, h, fun _ _ => rfl⟩, fun _ _ _ _ => rfl, fun _ _ _ _ => rfl⟩

theorem onlyShown_allows (l : List N) (basename format : String) :
    Allows (OnlyShown l basename format) basename format where
  re a := OnlyShown.refl _ _ _ a
  tr a b c h1 h2 := by
    refine ⟨h2.dir.trans h1.dir, h2.nbrs.trans h1.nbrs, h2.inn.trans h1.inn, h2.edges.trans h1.edges,
      h2.keys.trans h1.keys, fun n hn => (h2.others n hn).trans (h1.others n hn), ?_,
      fun s x y z => (h2.gattr s x y z).trans (h1.gattr s x y z), fun s x y z => (h2.files s x y z).trans (h1.files s x y z)⟩
    intro n x hx
    obtain ⟨y, hy, h3⟩ := h1.nattr n x hx
    obtain ⟨z, hz, h4⟩ := h2.nattr n y hy
    exact ⟨z, hz, fun s hs => (h4 s hs).trans (h3 s hs)⟩
  attr st a s ha := by
    refine { OnlyShown.refl l basename format st with gattr := ?_ }
    intro s h1 h2 h3
    refine Dict.get?_set_ne _ _ ?_
    rintro rfl
    rcases ha with h | h | h
    exacts [h1 h, h2 h, h3 h]
  file st f s hf := by
    refine { OnlyShown.refl l basename format st with files := ?_ }
    intro s h1 h2 h3
    refine Dict.get?_set_ne _ _ ?_
    rintro rfl
    rcases hf with h | h | h
    exacts [h1 h, h2 h, h3 h]
  tmp st d k := { OnlyShown.refl l basename format st with }
  shown st l' := { OnlyShown.refl l basename format st with }
  ran st l' := { OnlyShown.refl l basename format st with }

theorem onlyShown_recolour (c : String) (l l' : List N) (hs : ∀ n ∈ l', n ∈ l) (st : DState N) :
    OnlyShown l basename format st { st with g := recolour c l' st.g } := by
  refine ⟨rfl, rfl, rfl, rfl, recolour_keys c l' st.g, ?_, ?_, fun _ _ _ _ => rfl, fun _ _ _ _ => rfl⟩
  · intro n hn
    show (recolour c l' st.g).nodes.get? n = _
    rw [recolour_get, if_neg fun h => hn (hs n h)]
  · intro n x hx
    show ∃ y, (recolour c l' st.g).nodes.get? n = some y ∧ _
    rw [recolour_get, hx]
    split
    · exact ⟨_, rfl, fun s hs => Dict.get?_set_ne _ _ (Ne.symm hs)⟩
    · exact ⟨_, rfl, fun _ _ => rfl⟩

/-- **C74.** Whatever the mode, the layout, the installed programs and the outcome, `display` leaves nodes, adjacency lists,
edges, edge attributes and all node attributes except `color` of the highlighted nodes as they are; it changes no graph
attribute except `display`, `layout` and `d2tgraphstyle`, and no file except `basename.format`, `basename.tex` and
`basename.dot`. -/
theorem C74_display_frame (E : Env) (T : Text N) (hl : Option (List N)) (basename format : String) (w : Bool)
    (st : DState N) :
    OnlyShown (hl.getD []) basename format st (EStateM.Result.state (display E T hl basename format w st)) := by
  refine (onlyShown_allows (hl.getD []) basename format).display hl w ?_ st
  intro c s
  rw [colourAll_eq]
  by_cases hp : ∀ n ∈ hl.getD [], n ∈ s.g.nodes.keys
  · rw [colour_ok c _ s hp]
    exact onlyShown_recolour c _ _ (fun _ h => h) s
  · push Not at hp
    obtain ⟨l', h1, h2⟩ := colour_missing c _ s hp
    rw [h2]
    exact onlyShown_recolour c _ _ (fun _ h => h1.subset h) s

theorem keeps_graph (basename format : String) : Allows (fun a b : DState N => b.g = a.g) basename format :=
  ⟨⟨fun _ => rfl, fun _ _ _ h1 h2 => h2.trans h1, fun _ _ _ _ => rfl, fun _ _ _ => rfl, fun _ _ => rfl, fun _ _ => rfl⟩,
    fun _ _ _ _ => rfl⟩

/-- the hypotheses on the graph attributes that every `Graph` object meets after `__init__` -/
def HasModes (st : DState N) (m lay : String) : Prop :=
  st.attr.get? "display" = some (.str m) ∧ st.attr.get? "layout" = some (.str lay)

/-- **C75** is false as stated.  Exact: after a call that returns, the highlighted nodes are red in mode 'file' and with
layout 'dot2tex', and black in all other modes but 'off', whatever colour they had; in mode 'off' nothing changes. -/
theorem C75_highlight_partial (h : HasModes st m lay) (hr : display E T hl basename format w st = .ok () st') (n : N) :
    st'.g.nodes.get? n =
      if m = "off" ∨ n ∉ hl.getD [] then st.g.nodes.get? n
      else (st.g.nodes.get? n).map
        (·.set "color" (.str (if m = "file" ∨ lay = "dot2tex" then "red" else "black"))) := by
  by_cases ho : m = "off"
  · subst ho
    rw [display_off h.1] at hr
    cases hr
    rw [if_pos (Or.inl rfl)]
  · by_cases hn : n ∈ hl.getD []
    · rw [if_neg (by rintro (h | h); exacts [ho h, h hn])]
      by_cases hp : ∀ n ∈ hl.getD [], n ∈ st.g.nodes.keys
      · rw [display_eq h.1 ho h.2 hp] at hr
        by_cases hf : lay = "dot2tex" ∨ m = "file"
        · rw [if_pos hf] at hr
          have := (keeps_graph basename format).fileMode (E := E) (T := T) (chosen hl lay st)
          rw [hr] at this
          have h2 : st'.g = recolour "red" (hl.getD []) st.g := this
          rw [h2, recolour_get, if_pos hn, if_pos hf.symm]
        · rw [if_neg hf] at hr
          obtain ⟨_, s1, h1, h2⟩ := bind_of_ok hr
          have h3 := (keeps_graph basename format).window (E := E) (T := T) m w (chosen hl lay st)
          rw [h1] at h3
          have h3 : s1.g = recolour "red" (hl.getD []) st.g := h3
          rw [colour_ok _ _ _ (by rw [h3, recolour_keys]; exact hp)] at h2
          cases h2
          show (recolour "black" (hl.getD []) s1.g).nodes.get? n = _
          rw [recolour_get, if_pos hn, h3, recolour_get, if_pos hn, if_neg fun h => hf h.symm]
          cases st.g.nodes.get? n with
          | none => rfl
          | some x => simp only [Option.map_some]; rw [set_set]
      · push Not at hp
        obtain ⟨s, hs⟩ := display_missing (E := E) (T := T) (basename := basename) (format := format) (w := w) h.1 ho hp
        rw [hs] at hr; cases hr
    · rw [if_pos (Or.inr hn)]
      have := (C74_display_frame E T hl basename format w st).others n hn
      rw [hr] at this
      exact this

/-- the colour of a highlighted node is lost in every mode but 'off', unless it was the one that `display` leaves -/
theorem C75_highlight_lost (h : HasModes st m lay) (hm : m ≠ "off")
    (hr : display E T hl basename format w st = .ok () st') {n : N} (hn : n ∈ hl.getD []) {x : Attrs N}
    (hx : st.g.nodes.get? n = some x) (h1 : x.get? "color" ≠ some (.str "red")) (h2 : x.get? "color" ≠ some (.str "black")) :
    ∃ y, st'.g.nodes.get? n = some y ∧ y.get? "color" ≠ x.get? "color" := by
  have := C75_highlight_partial h hr n
  rw [if_neg (by rintro (h | h); exacts [hm h, h hn]), hx] at this
  refine ⟨_, this, ?_⟩
  rw [Dict.get?_set_self]
  split
  · exact fun e => h1 e.symm
  · exact fun e => h2 e.symm

/-! ## The text does not show the settings -/

/-- **C74.** The DOT text depends on no graph attribute unknown to Graphviz; in particular it does not change when the display
mode or the type of the graph is set. -/
theorem C74_text_settings (T : Text N) (st : DState N) (v : Val N) :
    (∀ a, a ∉ graphAttributes → text T { st with attr := st.attr.set a v } = text T st) ∧
    ∀ a ∈ ["display", "type"], text T { st with attr := st.attr.set a v } = text T st := by
  have key : ∀ a, a ∉ graphAttributes → text T { st with attr := st.attr.set a v } = text T st := by
    intro a ha
    unfold text
    simp only []
    have hf : ∀ l : List (String × Val N), (Dict.setL l a v).filter (fun p => graphAttributes.contains p.1) =
        l.filter (fun p => graphAttributes.contains p.1) := by
      intro l
      have hc : graphAttributes.contains a = false := by simpa using ha
      induction l with
      | nil => simp only [Dict.setL, List.filter_cons, hc, Bool.false_eq_true, if_false]
      | cons p l ih =>
        rw [Dict.setL]
        split
        · next e =>
          subst e
          simp only [List.filter_cons, hc, Bool.false_eq_true, if_false]
        · rw [List.filter_cons, List.filter_cons, ih]
    show Dot.toString _ _ _ ((Dict.setL st.attr.entries a v).filter _) _ = _
    rw [hf]
  refine ⟨key, fun a ha => key a ?_⟩
  simp only [List.mem_cons, List.not_mem_nil, or_false] at ha
  rcases ha with rfl | rfl <;> decide

/-! ## Temporary files -/

/-- Graphviz runs without error on everything -/
def Works (E : Env) : Prop := ∀ l f s, ∃ out, E.graphviz l f s = some (0, out)

/-- **C76** is false as stated.  It holds if Graphviz can be started and returns 0: `create` returns the output of Graphviz
and removes its temporary file. -/
theorem C76_create_partial (hF : Fresh st) {s out : List Char} (hs : text T st = .ok s)
    (hg : E.graphviz lay format s = some (0, out)) :
    create E T lay format st = .ok (some out) { st with next := st.next + 1 } := by
  rw [create_eq, hs]
  simp only []
  rw [hg]
  simp only [ne_eq, not_true_eq_false, if_false, hF.erase]

/-- without Graphviz, and if it returns an error, the temporary file with the DOT text stays -/
theorem C76_create_leak {s : List Char} (hs : text T st = .ok s) (hg : ∀ out, E.graphviz lay format s ≠ some (0, out)) :
    (EStateM.Result.state (create E T lay format st)).tmp.get? st.next = some s := by
  rw [create_eq, hs]
  simp only []
  cases h : E.graphviz lay format s with
  | none => exact Dict.get?_set_self _ _ _
  | some x =>
    obtain ⟨code, out⟩ := x
    simp only []
    by_cases hc : code = 0
    · exact absurd (hc ▸ h) (hg out)
    · rw [if_pos hc]
      exact Dict.get?_set_self _ _ _

theorem picture_ok {E : Env} (hF : Fresh st) (hE : Works E) {p : Nat × List Char} (h : picture E T format st = .ok p st') :
    st'.tmp.erase p.1 = st.tmp ∧ st.next ≤ st'.next := by
  unfold picture at h
  have h1 : (mkstemp : DIO N Nat) st = .ok st.next { st with tmp := st.tmp.set st.next [], next := st.next + 1 } := rfl
  rw [bind_ok h1] at h
  have hF1 : Fresh { st with tmp := st.tmp.set st.next [], next := st.next + 1 } := by
    intro k hk
    rcases (Dict.mem_keys_set _ _ _ _).1 hk with rfl | hk
    · exact Nat.lt_succ_self _
    · exact Nat.lt_succ_of_lt (hF k hk)
  obtain ⟨l, s1, hl, h⟩ := bind_of_ok h
  obtain ⟨-, rfl⟩ := getAttr_of_ok hl
  obtain ⟨s, s2, hw, h⟩ := bind_of_ok h
  obtain ⟨_, _, _, h2, h3⟩ := write_fresh hF1 (fun s _ => Or.inr (hE _ _ _)) hw
  have h4 : (tmpWrite st.next s : DIO N Unit) s2 = .ok () { s2 with tmp := s2.tmp.set st.next s } := rfl
  rw [bind_ok h4] at h
  split at h
  · cases h
    refine ⟨?_, Nat.le_trans (Nat.le_succ _) h3⟩
    show (s2.tmp.set st.next s).erase st.next = st.tmp
    rw [h2]
    show ((st.tmp.set st.next []).set st.next s).erase st.next = st.tmp
    rw [set_set, hF.erase]
  · cases h

theorem window_fresh (hF : Fresh st) (hE : Works E) (h : window E T m format w st = .ok () st') : st'.tmp = st.tmp := by
  unfold window at h
  split at h
  · unfold pilMode at h
    split at h
    · obtain ⟨p, s1, hp, h⟩ := bind_of_ok h
      have := (picture_ok hF hE hp).1
      cases h
      exact this
    · cases h; rfl
  · split at h
    · unfold mplMode at h
      split at h
      · obtain ⟨p, s1, hp, h⟩ := bind_of_ok h
        have := (picture_ok hF hE hp).1
        obtain ⟨_, s2, h2, h⟩ := bind_of_ok h
        cases h2
        split at h
        · cases h
        · cases h
          exact this
      · cases h; rfl
    · split at h
      · unfold xdotMode at h
        split at h
        · obtain ⟨s, s1, hs, h⟩ := bind_of_ok h
          rw [toStr_eq] at hs
          cases ht : text T st with
          | error e => rw [ht] at hs; cases hs
          | ok x => rw [ht] at hs; cases hs; cases h; rfl
        · cases h; rfl
      · cases h; rfl

/-- with a Graphviz that works, a call of `display` that returns leaves no temporary file -/
theorem C76_display_partial (h : HasModes st m lay) (hF : Fresh st) (hE : Works E)
    (hr : display E T hl basename format w st = .ok () st') : st'.tmp = st.tmp := by
  by_cases ho : m = "off"
  · subst ho
    rw [display_off h.1] at hr
    cases hr
    rfl
  · by_cases hp : ∀ n ∈ hl.getD [], n ∈ st.g.nodes.keys
    · rw [display_eq h.1 ho h.2 hp] at hr
      have hF1 : Fresh (chosen hl lay st) := hF
      split at hr
      · unfold fileMode at hr
        obtain ⟨l, s1, hl1, hr⟩ := bind_of_ok hr
        obtain ⟨-, rfl⟩ := getAttr_of_ok hl1
        split at hr
        · by_cases hd : E.dot2tex = true ∧ ∃ s t, text T
            { chosen hl lay st with attr := (chosen hl lay st).attr.set "layout" (.str "dot") } = .ok s ∧ E.d2t s = some t
          · obtain ⟨hi, s, t, h1, h2⟩ := hd
            rw [fileTex_ok hi h1 h2] at hr
            cases hr
            split <;> rfl
          · obtain ⟨s, h1, _⟩ := fileTex_error (basename := basename) (format := format) hd
            rw [h1] at hr; cases hr
        · have h1 : (openFile (basename ++ "." ++ format) : DIO N Unit) (chosen hl lay st) = .ok ()
            { chosen hl lay st with files := st.files.set (basename ++ "." ++ format) [] } := rfl
          rw [bind_ok h1] at hr
          obtain ⟨l, s1, hl1, hr⟩ := bind_of_ok hr
          obtain ⟨-, rfl⟩ := getAttr_of_ok hl1
          obtain ⟨s, s2, hw, hr⟩ := bind_of_ok hr
          obtain ⟨_, _, _, h2, _⟩ := write_fresh (by exact hF1) (fun s _ => Or.inr (hE _ _ _)) hw
          cases hr
          show s2.tmp = st.tmp
          rw [h2]
          rfl
      · obtain ⟨_, s1, h1, h2⟩ := bind_of_ok hr
        have h3 := (keeps_graph basename format).window (E := E) (T := T) m w (chosen hl lay st)
        rw [h1] at h3
        have h3 : s1.g = recolour "red" (hl.getD []) st.g := h3
        rw [colour_ok _ _ _ (by rw [h3, recolour_keys]; exact hp)] at h2
        cases h2
        exact (window_fresh (T := T) (m := m) (format := format) (w := w) hF1 hE h1 : s1.tmp = _)
    · push Not at hp
      obtain ⟨s, hs⟩ := display_missing (E := E) (T := T) (basename := basename) (format := format) (w := w) h.1 ho hp
      rw [hs] at hr; cases hr

/-- in mode 'PIL' without Graphviz, `display` raises, both temporary files stay and the highlighted nodes stay red -/
theorem C76_display_leak (h : HasModes st "PIL" lay) (hlay : lay ≠ "dot2tex") (hE : E.pil = true)
    (hg : ∀ l f s, E.graphviz l f s = none) (hi : E.image [] = false) (hf : format ≠ "dot")
    (hp : ∀ n ∈ hl.getD [], n ∈ st.g.nodes.keys) {s : List Char}
    (hs : text T { st with g := recolour "red" (hl.getD []) st.g } = .ok s) : ∃ st',
    display E T hl basename format w st = .error .badImage st' ∧ st'.tmp.get? st.next = some [] ∧
      st'.tmp.get? (st.next + 1) = some s ∧ st'.g = recolour "red" (hl.getD []) st.g := by
  have hch : chosen hl lay st = { st with g := recolour "red" (hl.getD []) st.g } := by
    unfold chosen; rw [if_neg hlay]
  refine ⟨{ st with g := recolour "red" (hl.getD []) st.g,
                    tmp := ((st.tmp.set st.next []).set (st.next + 1) s).set st.next [], next := st.next + 1 + 1 }, ?_, ?_, ?_, rfl⟩
  · rw [display_eq h.1 (by decide) h.2 hp, if_neg (by rintro (h | h); exacts [hlay h, absurd h (by decide)]), hch]
    refine bind_error ?_
    unfold window
    rw [if_pos rfl]
    unfold pilMode
    rw [if_pos hE]
    refine bind_error ?_
    unfold picture
    have h1 : (mkstemp : DIO N Nat) { st with g := recolour "red" (hl.getD []) st.g } = .ok st.next
      { st with g := recolour "red" (hl.getD []) st.g, tmp := st.tmp.set st.next [], next := st.next + 1 } := rfl
    rw [bind_ok h1]
    unfold getLayout
    rw [bind_ok (getAttr_eq (s := lay) (by exact h.2))]
    have h2 : write E T lay format
      { st with g := recolour "red" (hl.getD []) st.g, tmp := st.tmp.set st.next [], next := st.next + 1 } = .ok []
      { st with g := recolour "red" (hl.getD []) st.g, tmp := (st.tmp.set st.next []).set (st.next + 1) s,
                next := st.next + 1 + 1 } := by
      rw [write_eq, if_neg hf, create_eq]
      have : text T { st with g := recolour "red" (hl.getD []) st.g, tmp := st.tmp.set st.next [], next := st.next + 1 } =
        .ok s := hs
      rw [this]
      simp only []
      rw [hg]
      rfl
    rw [bind_ok h2]
    have h3 : (tmpWrite st.next [] : DIO N Unit)
      { st with g := recolour "red" (hl.getD []) st.g, tmp := (st.tmp.set st.next []).set (st.next + 1) s,
                next := st.next + 1 + 1 } = .ok ()
      { st with g := recolour "red" (hl.getD []) st.g, tmp := ((st.tmp.set st.next []).set (st.next + 1) s).set st.next [],
                next := st.next + 1 + 1 } := rfl
    rw [bind_ok h3, if_neg (by rw [hi]; decide)]
    rfl
  · exact Dict.get?_set_self _ _ _
  · show (((st.tmp.set st.next []).set (st.next + 1) s).set st.next []).get? (st.next + 1) = some s
    rw [Dict.get?_set_ne _ _ (Nat.ne_of_lt (Nat.lt_succ_self _)), Dict.get?_set_self]

/-- a click into the matplotlib window ends the program with the temporary file still there and the nodes still red -/
theorem C76_click_leak (h : HasModes st "matplotlib" lay) (hlay : lay ≠ "dot2tex") (hF : Fresh st) (h1 : E.pil = true)
    (h2 : E.mpl = true) (hg : Works E) (hi : ∀ s, E.image s = true) (hc : E.click ≠ some false) (hf : format ≠ "dot")
    (hp : ∀ n ∈ hl.getD [], n ∈ st.g.nodes.keys) {s : List Char}
    (hs : text T { st with g := recolour "red" (hl.getD []) st.g } = .ok s) : ∃ st' out,
    display E T hl basename format true st = .error .systemExit st' ∧ E.graphviz lay format s = some (0, out) ∧
      st'.tmp.get? st.next = some out ∧ st'.g = recolour "red" (hl.getD []) st.g := by
  have hch : chosen hl lay st = { st with g := recolour "red" (hl.getD []) st.g } := by
    unfold chosen; rw [if_neg hlay]
  obtain ⟨out, ho⟩ := hg lay format s
  refine ⟨{ st with g := recolour "red" (hl.getD []) st.g, tmp := st.tmp.set st.next out, next := st.next + 1 + 1,
                    shown := st.shown ++ [out] }, out, ?_, ho, Dict.get?_set_self _ _ _, rfl⟩
  rw [display_eq h.1 (by decide) h.2 hp, if_neg (by rintro (h | h); exacts [hlay h, absurd h (by decide)]), hch]
  refine bind_error ?_
  unfold window
  rw [if_neg (by decide), if_pos rfl]
  unfold mplMode
  rw [if_pos (by rw [h1, h2]; rfl)]
  have h3 : picture E T format { st with g := recolour "red" (hl.getD []) st.g } = .ok (st.next, out)
    { st with g := recolour "red" (hl.getD []) st.g, tmp := st.tmp.set st.next out, next := st.next + 1 + 1 } := by
    unfold picture
    have h1 : (mkstemp : DIO N Nat) { st with g := recolour "red" (hl.getD []) st.g } = .ok st.next
      { st with g := recolour "red" (hl.getD []) st.g, tmp := st.tmp.set st.next [], next := st.next + 1 } := rfl
    have hF1 : Fresh { st with g := recolour "red" (hl.getD []) st.g, tmp := st.tmp.set st.next [], next := st.next + 1 } := by
      intro k hk
      rcases (Dict.mem_keys_set _ _ _ _).1 hk with rfl | hk
      · exact Nat.lt_succ_self _
      · exact Nat.lt_succ_of_lt (hF k hk)
    rw [bind_ok h1]
    unfold getLayout
    rw [bind_ok (getAttr_eq (s := lay) (by exact h.2))]
    have h2 : write E T lay format
      { st with g := recolour "red" (hl.getD []) st.g, tmp := st.tmp.set st.next [], next := st.next + 1 } = .ok out
      { st with g := recolour "red" (hl.getD []) st.g, tmp := st.tmp.set st.next [], next := st.next + 1 + 1 } := by
      rw [write_eq, if_neg hf, C76_create_partial (s := s) hF1 (by exact hs) ho]
      rfl
    rw [bind_ok h2]
    have h3 : (tmpWrite st.next out : DIO N Unit)
      { st with g := recolour "red" (hl.getD []) st.g, tmp := st.tmp.set st.next [], next := st.next + 1 + 1 } = .ok ()
      { st with g := recolour "red" (hl.getD []) st.g, tmp := st.tmp.set st.next out, next := st.next + 1 + 1 } := by
      rw [← set_set st.tmp st.next [] out]; rfl
    rw [bind_ok h3, if_pos (hi out)]
    rfl
  rw [bind_ok h3]
  have h4 : (true && !(E.click == some false)) = true := by simp [hc]
  rw [h4]
  rfl

/-! ## The layout dot2tex -/

/-- the state that `dot2tex` sees: highlighted nodes red, mode 'file', layout 'dot' -/
def texState (hl : Option (List N)) (st : DState N) : DState N :=
  { st with g := recolour "red" (hl.getD []) st.g, attr := (st.attr.set "display" (.str "file")).set "layout" (.str "dot") }

/-- **C77** is false as stated.  With layout 'dot2tex' the mode becomes 'file'.  If dot2tex is installed and works, the TeX
text is written to `basename.tex`, and `pdflatex` is run whatever the format is (for 'ps' too); if LaTeX cannot be started
the layout stays 'dot'. -/
theorem C77_dot2tex_partial (h : HasModes st m "dot2tex") (hm : m ≠ "off") (hp : ∀ n ∈ hl.getD [], n ∈ st.g.nodes.keys)
    (hi : E.dot2tex = true) {s t : List Char}
    (hs : text T (texState hl st) = .ok s)
    (ht : E.d2t s = some t) : ∃ st', display E T hl basename format w st = .ok () st' ∧
      st'.files.get? (basename ++ ".tex") = some t ∧
      st'.ran = st.ran ++ (if E.latex then ["latex", "pdflatex"] else []) ∧
      HasModes st' "file" (if E.latex then "dot2tex" else "dot") := by
  rw [display_eq h.1 hm h.2 hp, if_pos (Or.inl rfl)]
  have hch : chosen hl "dot2tex" st = { st with g := recolour "red" (hl.getD []) st.g,
                                                attr := st.attr.set "display" (.str "file") } := by
    unfold chosen; rw [if_pos rfl]
  have hd : (st.attr.set "display" (.str "file")).get? "layout" = some (.str "dot2tex") := by
    rw [Dict.get?_set_ne _ _ (by decide)]; exact h.2
  unfold fileMode getLayout
  rw [hch, bind_ok (getAttr_eq hd), if_pos rfl, fileTex_ok hi (by exact hs) ht]
  refine ⟨_, rfl, ?_⟩
  by_cases hl : E.latex = true
  · simp only [if_pos hl]
    refine ⟨Dict.get?_set_self _ _ _, trivial, ?_, ?_⟩
    · show Dict.get? (((Dict.set _ _ _).set _ _).set _ _) _ = _
      rw [Dict.get?_set_ne _ _ (by decide), Dict.get?_set_ne _ _ (by decide), Dict.get?_set_self]
    · show Dict.get? (((Dict.set _ _ _).set _ _).set _ _) _ = _
      rw [Dict.get?_set_ne _ _ (by decide), Dict.get?_set_self]
  · simp only [if_neg hl]
    refine ⟨Dict.get?_set_self _ _ _, by simp, ?_, ?_⟩
    · show Dict.get? ((Dict.set _ _ _).set _ _) _ = _
      rw [Dict.get?_set_ne _ _ (by decide), Dict.get?_set_self]
    · exact Dict.get?_set_self _ _ _

/-- if dot2tex is not installed, or raises, or `to_string` raises, the call raises UnboundLocalError and leaves an empty
`basename.tex`; the attempt in the `except` branch cannot help -/
theorem C77_dot2tex_raises (h : HasModes st m "dot2tex") (hm : m ≠ "off") (hp : ∀ n ∈ hl.getD [], n ∈ st.g.nodes.keys)
    (hd : E.dot2tex = false ∨ ∀ s, text T (texState hl st) = .ok s → E.d2t s = none) :
    ∃ st', display E T hl basename format w st = .error (.py .unboundLocal) st' ∧
      st'.files.get? (basename ++ ".tex") = some [] := by
  rw [display_eq h.1 hm h.2 hp, if_pos (Or.inl rfl)]
  have hch : chosen hl "dot2tex" st = { st with g := recolour "red" (hl.getD []) st.g,
                                                attr := st.attr.set "display" (.str "file") } := by
    unfold chosen; rw [if_pos rfl]
  have hd1 : (st.attr.set "display" (.str "file")).get? "layout" = some (.str "dot2tex") := by
    rw [Dict.get?_set_ne _ _ (by decide)]; exact h.2
  unfold fileMode getLayout
  rw [hch, bind_ok (getAttr_eq hd1), if_pos rfl]
  refine fileTex_error ?_
  rintro ⟨hi, s, t, h1, h2⟩
  rcases hd with hd | hd
  · rw [hd] at hi; cases hi
  · rw [hd s h1] at h2; cases h2

/-! ## Mode 'file' -/

/-- **C78.** In mode 'file' with a layout of Graphviz, `display` writes `basename.format`: the DOT text of the graph with the
highlighted nodes red if the format is 'dot', and otherwise what Graphviz makes of it; nothing if Graphviz cannot be
started. -/
theorem C78_file (h : HasModes st "file" lay) (hlay : lay ≠ "dot2tex") (hp : ∀ n ∈ hl.getD [], n ∈ st.g.nodes.keys)
    {s : List Char} (hs : text T { st with g := recolour "red" (hl.getD []) st.g } = .ok s)
    (hg : ∀ out code, E.graphviz lay format s = some (code, out) → code = 0) :
    ∃ st', display E T hl basename format w st = .ok () st' ∧
      st'.files.get? (basename ++ "." ++ format) = some (if format = "dot" then s else
        match E.graphviz lay format s with
        | none => []
        | some (_, out) => out) := by
  have hch : chosen hl lay st = { st with g := recolour "red" (hl.getD []) st.g } := by
    unfold chosen; rw [if_neg hlay]
  rw [display_eq h.1 (by decide) h.2 hp, if_pos (Or.inr rfl), hch]
  unfold fileMode getLayout
  rw [bind_ok (getAttr_eq (s := lay) (by exact h.2)), if_neg hlay]
  have h1 : (openFile (basename ++ "." ++ format) : DIO N Unit) { st with g := recolour "red" (hl.getD []) st.g } = .ok ()
    { st with g := recolour "red" (hl.getD []) st.g, files := st.files.set (basename ++ "." ++ format) [] } := rfl
  rw [bind_ok h1, bind_ok (getAttr_eq (s := lay) (by exact h.2))]
  have hs1 : text T { st with g := recolour "red" (hl.getD []) st.g, files := st.files.set (basename ++ "." ++ format) [] } =
    .ok s := hs
  have hw := write_eq E T lay format
    { st with g := recolour "red" (hl.getD []) st.g, files := st.files.set (basename ++ "." ++ format) [] }
  by_cases hf : format = "dot"
  · rw [if_pos hf, toStr_eq, hs1] at hw
    rw [bind_ok hw, if_pos hf]
    exact ⟨_, rfl, Dict.get?_set_self _ _ _⟩
  · rw [if_neg hf, create_eq, hs1] at hw
    rw [if_neg hf]
    simp only [] at hw
    cases he : E.graphviz lay format s with
    | none =>
      rw [he] at hw
      rw [bind_ok hw]
      exact ⟨_, rfl, Dict.get?_set_self _ _ _⟩
    | some x =>
      obtain ⟨code, out⟩ := x
      rw [he] at hw
      simp only [hg out code he, ne_eq, not_true_eq_false, if_false] at hw
      rw [bind_ok hw]
      exact ⟨_, rfl, Dict.get?_set_self _ _ _⟩

/-- if Graphviz returns an error, `display` raises CalledProcessError; the file is empty and the highlighted nodes stay red -/
theorem C78_file_fails (h : HasModes st "file" lay) (hlay : lay ≠ "dot2tex") (hp : ∀ n ∈ hl.getD [], n ∈ st.g.nodes.keys)
    {s out : List Char} {code : Int} (hs : text T { st with g := recolour "red" (hl.getD []) st.g } = .ok s)
    (hf : format ≠ "dot") (hg : E.graphviz lay format s = some (code, out)) (hc : code ≠ 0) :
    ∃ st', display E T hl basename format w st = .error .calledProcess st' ∧
      st'.files.get? (basename ++ "." ++ format) = some [] ∧ st'.g = recolour "red" (hl.getD []) st.g := by
  have hch : chosen hl lay st = { st with g := recolour "red" (hl.getD []) st.g } := by
    unfold chosen; rw [if_neg hlay]
  rw [display_eq h.1 (by decide) h.2 hp, if_pos (Or.inr rfl), hch]
  unfold fileMode getLayout
  rw [bind_ok (getAttr_eq (s := lay) (by exact h.2)), if_neg hlay]
  have h1 : (openFile (basename ++ "." ++ format) : DIO N Unit) { st with g := recolour "red" (hl.getD []) st.g } = .ok ()
    { st with g := recolour "red" (hl.getD []) st.g, files := st.files.set (basename ++ "." ++ format) [] } := rfl
  rw [bind_ok h1, bind_ok (getAttr_eq (s := lay) (by exact h.2))]
  have hs1 : text T { st with g := recolour "red" (hl.getD []) st.g, files := st.files.set (basename ++ "." ++ format) [] } =
    .ok s := hs
  have hw := write_eq E T lay format
    { st with g := recolour "red" (hl.getD []) st.g, files := st.files.set (basename ++ "." ++ format) [] }
  rw [if_neg hf, create_eq, hs1] at hw
  simp only [] at hw
  rw [hg] at hw
  simp only [ne_eq, hc, not_false_eq_true, if_true] at hw
  rw [bind_error hw]
  exact ⟨_, rfl, Dict.get?_set_self _ _ _, rfl⟩

/-! ## Mode and layout -/

theorem keeps_attr (basename format : String) : Base (fun a b : DState N => b.attr = a.attr) basename format :=
  ⟨fun _ => rfl, fun _ _ _ h1 h2 => h2.trans h1, fun _ _ _ _ => rfl, fun _ _ _ => rfl, fun _ _ => rfl, fun _ _ => rfl⟩

theorem window_attr (E : Env) (T : Text N) (m format : String) (w : Bool) (st : DState N) :
    (EStateM.Result.state (window E T m format w st)).attr =
      if m = "PIL" ∧ E.pil = false then st.attr.set "display" (.str "off")
      else if m = "matplotlib" ∧ (E.mpl = false ∨ E.pil = false) then st.attr.set "display" (.str "off")
      else if m = "xdot" ∧ E.xdot = false then st.attr.set "display" (.str "off")
      else st.attr := by
  have hb := keeps_attr (N := N) "" format
  unfold window
  by_cases m1 : m = "PIL"
  · subst m1
    rw [if_pos rfl]
    unfold pilMode
    cases hp : E.pil with
    | true =>
      rw [if_pos rfl, if_neg (by simp), if_neg (by simp), if_neg (by simp)]
      exact Pres.bind hb.tr hb.picture (fun p => Pres.bind hb.tr (Pres.modify fun st => hb.shown st _) fun _ =>
        Pres.modify fun st => hb.tmp st _ _) st
    | false =>
      rw [if_neg (by simp), if_pos (by simp)]
      rfl
  · rw [if_neg m1, if_neg (fun h : m = "PIL" ∧ E.pil = false => m1 h.1)]
    by_cases m2 : m = "matplotlib"
    · subst m2
      rw [if_pos rfl]
      unfold mplMode
      cases hp : (E.mpl && E.pil) with
      | true =>
        have : E.mpl = true ∧ E.pil = true := by simpa using hp
        rw [if_pos rfl, if_neg (by simp [this.1, this.2]), if_neg (by simp)]
        refine Pres.bind hb.tr hb.picture (fun p => Pres.bind hb.tr (Pres.modify fun st => hb.shown st _) fun _ => ?_) st
        split
        · exact Pres.throw hb.re _
        · exact Pres.modify fun st => hb.tmp st _ _
      | false =>
        have : E.mpl = false ∨ E.pil = false := by
          cases h1 : E.mpl <;> cases h2 : E.pil <;> simp_all
        rw [if_neg (by simp), if_pos ⟨rfl, this⟩]
        rfl
    · rw [if_neg m2, if_neg (fun h : m = "matplotlib" ∧ (E.mpl = false ∨ E.pil = false) => m2 h.1)]
      by_cases m3 : m = "xdot"
      · subst m3
        rw [if_pos rfl]
        unfold xdotMode
        cases hx : E.xdot with
        | true =>
          rw [if_pos rfl, if_neg (by simp)]
          exact Pres.bind hb.tr hb.toStr (fun s => Pres.modify fun st => hb.shown st _) st
        | false =>
          rw [if_neg (by simp), if_pos (by simp)]
          rfl
      · rw [if_neg m3, if_neg (fun h : m = "xdot" ∧ E.xdot = false => m3 h.1)]
        rfl

/-- the mode after a call that returns -/
def modeLeft (E : Env) (m lay : String) : String :=
  if m = "off" then "off" else if lay = "dot2tex" then "file"
  else if m = "PIL" ∧ E.pil = false then "off"
  else if m = "matplotlib" ∧ (E.mpl = false ∨ E.pil = false) then "off"
  else if m = "xdot" ∧ E.xdot = false then "off"
  else m

/-- **C79** is false as stated.  Exact: a call that returns switches the display off if the library of the mode is missing, and
sets mode 'file' for ever if the layout is 'dot2tex'; the layout changes only from 'dot2tex' to 'dot', if LaTeX cannot be
started. -/
theorem C79_mode_partial (h : HasModes st m lay) (hr : display E T hl basename format w st = .ok () st') :
    HasModes st' (modeLeft E m lay) (if m ≠ "off" ∧ lay = "dot2tex" ∧ E.latex = false then "dot" else lay) := by
  by_cases ho : m = "off"
  · subst ho
    rw [display_off h.1] at hr
    cases hr
    rw [if_neg (by simp)]
    exact h
  have hp : ∀ n ∈ hl.getD [], n ∈ st.g.nodes.keys := by
    by_contra hp
    push Not at hp
    obtain ⟨s, hs⟩ := display_missing (E := E) (T := T) (basename := basename) (format := format) (w := w) h.1 ho hp
    rw [hs] at hr; cases hr
  unfold modeLeft
  rw [if_neg ho]
  by_cases hd : lay = "dot2tex"
  · subst hd
    rw [if_pos rfl]
    by_cases hx : E.dot2tex = true ∧ ∃ s t, text T (texState hl st) = .ok s ∧ E.d2t s = some t
    · obtain ⟨hi, s, t, h1, h2⟩ := hx
      obtain ⟨s2, h3, _, _, h4⟩ := C77_dot2tex_partial (basename := basename) (format := format) (w := w) h ho hp hi h1 h2
      rw [h3] at hr; cases hr
      cases he : E.latex with
      | true => rw [he] at h4; simpa using h4
      | false => rw [he] at h4; simpa [ho] using h4
    · obtain ⟨s2, h3, _⟩ := C77_dot2tex_raises (E := E) (T := T) (basename := basename) (format := format) (w := w) h ho hp (by
        by_cases hi : E.dot2tex = true
        · refine Or.inr fun s hs => ?_
          cases ht : E.d2t s with
          | none => rfl
          | some t => exact absurd ⟨hi, s, t, hs, ht⟩ hx
        · exact Or.inl (by simpa using hi))
      rw [h3] at hr; cases hr
  · rw [if_neg hd, if_neg (fun h : m ≠ "off" ∧ lay = "dot2tex" ∧ E.latex = false => hd h.2.1)]
    have hch : (chosen hl lay st).attr = st.attr := by unfold chosen; simp only [if_neg hd]
    rw [display_eq h.1 ho h.2 hp] at hr
    by_cases hf : m = "file"
    · subst hf
      rw [if_pos (Or.inr rfl)] at hr
      have hb := keeps_attr (N := N) basename format
      have : Pres (fun a b : DState N => b.attr = a.attr) (do
          openFile (basename ++ "." ++ format)
          let s ← write E T (← getLayout) format
          fileWrite (basename ++ "." ++ format) s) :=
        Pres.bind hb.tr (hb.openFile (.inr (.inr rfl))) fun _ => Pres.bind hb.tr (hb.getAttr _) fun _ =>
          Pres.bind hb.tr (hb.write _ _) fun _ => hb.fileWrite _ (.inr (.inr rfl))
      unfold fileMode at hr
      obtain ⟨l, s1, hl1, hr⟩ := bind_of_ok hr
      obtain ⟨hl2, rfl⟩ := getAttr_of_ok hl1
      have : l = lay := by
        rw [hch, h.2] at hl2; cases hl2; rfl
      subst this
      rw [if_neg hd] at hr
      have h3 := this (chosen hl l st)
      rw [hr] at h3
      have h3 : st'.attr = st.attr := h3.trans hch
      unfold HasModes
      rw [h3]
      exact h
    · rw [if_neg (by rintro (h | h); exacts [hd h, hf h])] at hr
      obtain ⟨_, s1, h1, h2⟩ := bind_of_ok hr
      have hb := keeps_attr (N := N) basename format
      have h3 := (keeps_graph basename format).window (E := E) (T := T) m w (chosen hl lay st)
      rw [h1] at h3
      have h3 : s1.g = recolour "red" (hl.getD []) st.g := h3
      rw [colour_ok _ _ _ (by rw [h3, recolour_keys]; exact hp)] at h2
      cases h2
      have h4 := window_attr E T m format w (chosen hl lay st)
      rw [h1, hch] at h4
      have h4 : s1.attr = _ := h4
      show s1.attr.get? _ = _ ∧ s1.attr.get? _ = _
      rw [h4]
      have off : (st.attr.set "display" (.str "off")).get? "display" = some (.str "off") ∧
        (st.attr.set "display" (.str "off")).get? "layout" = some (.str lay) := by
        rw [Dict.get?_set_self, Dict.get?_set_ne _ _ (by decide)]
        exact ⟨rfl, h.2⟩
      split
      · exact off
      · split
        · exact off
        · split
          · exact off
          · exact h

/-! ## Examples -/

/-- one node, blue, in mode `m` with layout `lay` -/
def exDisp (m lay : String) : DState Nat :=
  { g := EStateM.Result.state ((Graph.addNode 1 [("color", .str "blue")]).run (Graph.init false)),
    attr := ⟨[("display", .str m), ("layout", .str lay)]⟩, files := .empty, tmp := .empty, next := 0, shown := [], ran := [] }

/-- nothing is installed -/
def exBare : Env := ⟨false, false, false, false, fun _ _ _ => none, fun _ => none, false, fun s => !s.isEmpty, none⟩

/-- everything is installed -/
def exFull : Env :=
  ⟨true, true, true, true, fun _ _ s => some (0, s), fun s => some s, true, fun s => !s.isEmpty, some true⟩

/-- plain text of numbers -/
def exText : Text Nat := ⟨fun n => (toString n).toList, ['G'], []⟩

/-- the negation of C75 and C79 on one call: the colour blue is lost and the mode is 'off' -/
theorem C75_C79_witness : ∃ st', display exBare exText (some [1]) "graph" "png" true (exDisp "xdot" "fdp") = .ok () st' ∧
    ((exDisp "xdot" "fdp").g.nodes.get? 1).bind (·.get? "color") = some (.str "blue") ∧
    (st'.g.nodes.get? 1).bind (·.get? "color") = some (.str "black") ∧ HasModes st' "off" "fdp" := by
  have h : HasModes (exDisp "xdot" "fdp") "xdot" "fdp" := ⟨by decide, by decide⟩
  have hp : ∀ n ∈ (some [1]).getD [], n ∈ (exDisp "xdot" "fdp").g.nodes.keys := by decide
  obtain ⟨st', hr⟩ : ∃ st', display exBare exText (some [1]) "graph" "png" true (exDisp "xdot" "fdp") = .ok () st' := by
    rw [display_eq h.1 (by decide) h.2 hp, if_neg (by decide)]
    exact ⟨_, rfl⟩
  refine ⟨st', hr, by decide, ?_, C79_mode_partial h hr⟩
  rw [C75_highlight_partial h hr 1]
  decide

example : ∃ s, text exText (texState (some [1]) (exDisp "file" "dot2tex")) = .ok s ∧ exFull.d2t s = some s :=
  ⟨_, rfl, rfl⟩

example : Fresh (exDisp "PIL" "fdp") ∧ Works exFull ∧
    ∃ s, text exText { exDisp "PIL" "fdp" with g := recolour "red" [1] (exDisp "PIL" "fdp").g } = .ok s :=
  ⟨fun k h => (by simp [exDisp] at h), fun _ _ s => ⟨s, rfl⟩, _, rfl⟩

end GiMPy
