import Verif.Model.Display
import Verif.Lemmas.Dict

/-! # Runs of the programs of `Model/Display.lean` -/

namespace GiMPy
namespace Display
variable {N : Type} [DecidableEq N] {α β : Type}
set_option linter.unusedSectionVars false

theorem bind_ok {ε σ : Type} {m : EStateM ε σ α} {f : α → EStateM ε σ β} {s s' : σ} {a : α} (h : m s = .ok a s') : (m >>= f) s = f a s' := by
  show (EStateM.bind m f) s = _
  unfold EStateM.bind
  rw [h]

theorem bind_error {ε σ : Type} {m : EStateM ε σ α} {f : α → EStateM ε σ β} {s s' : σ} {e : ε} (h : m s = .error e s') :
    (m >>= f) s = .error e s' := by
  show (EStateM.bind m f) s = _
  unfold EStateM.bind
  rw [h]

theorem bind_of_ok {m : DIO N α} {f : α → DIO N β} {s s' : DState N} {b : β} (h : (m >>= f) s = .ok b s') :
    ∃ a s1, m s = .ok a s1 ∧ f a s1 = .ok b s' := by
  cases hm : m s with
  | ok a s1 => exact ⟨a, s1, rfl, by rw [bind_ok hm] at h; exact h⟩
  | error e s1 => rw [bind_error hm] at h; cases h

/-- the state after a run is related with the state before -/
def Pres (P : DState N → DState N → Prop) (m : DIO N α) : Prop := ∀ st, P st (EStateM.Result.state (m st))

section
variable {P : DState N → DState N → Prop}

theorem Pres.bind (tr : ∀ a b c, P a b → P b c → P a c) {m : DIO N α} {f : α → DIO N β} (h : Pres P m)
    (hf : ∀ a, Pres P (f a)) : Pres P (m >>= f) := by
  intro st
  have h1 := h st
  cases hm : m st with
  | ok a s =>
    rw [bind_ok hm]
    rw [hm] at h1
    exact tr _ _ _ h1 (hf a s)
  | error e s =>
    rw [bind_error hm]
    rw [hm] at h1
    exact h1

theorem Pres.pure (re : ∀ a, P a a) (a : α) : Pres P (pure a : DIO N α) := fun st => re st
theorem Pres.throw (re : ∀ a, P a a) (e : DErr) : Pres P (throw e : DIO N α) := fun st => re st
theorem Pres.get (re : ∀ a, P a a) : Pres P (get : DIO N (DState N)) := fun st => re st
theorem Pres.modify {f : DState N → DState N} (h : ∀ st, P st (f st)) : Pres P (modify f : DIO N Unit) := fun st => h st

/-- what a relation must allow so that the parts of `display` that set no attribute keep it -/
structure Base (P : DState N → DState N → Prop) (basename format : String) : Prop where
  re : ∀ a, P a a
  tr : ∀ a b c, P a b → P b c → P a c
  file : ∀ st f s, f = basename ++ ".dot" ∨ f = basename ++ ".tex" ∨ f = basename ++ "." ++ format →
    P st { st with files := st.files.set f s }
  tmp : ∀ st d k, P st { st with tmp := d, next := k }
  shown : ∀ st l, P st { st with shown := l }
  ran : ∀ st l, P st { st with ran := l }

/-- what a relation must allow so that every part of `display` other than the colouring keeps it -/
structure Allows (P : DState N → DState N → Prop) (basename format : String) : Prop extends Base P basename format where
  attr : ∀ st a s, a = "display" ∨ a = "layout" ∨ a = "d2tgraphstyle" → P st { st with attr := st.attr.set a s }

variable {E : Env} {T : Text N} {basename format : String}

theorem Base.lift (h : Base P basename format) (x : Except PyErr α) : Pres P (lift x : DIO N α) := by
  cases x with
  | ok a => exact Pres.pure h.re a
  | error e => exact Pres.throw h.re _

theorem Base.toStr (h : Base P basename format) : Pres P (toStr T) :=
  Pres.bind h.tr (Pres.get h.re) fun _ => h.lift _

theorem Base.getAttr (h : Base P basename format) (a : String) : Pres P (getAttr a : DIO N String) := by
  refine Pres.bind h.tr (Pres.get h.re) fun st => ?_
  split
  · exact Pres.pure h.re _
  · exact Pres.throw h.re _
  · exact Pres.throw h.re _

theorem Allows.setAttr (h : Allows P basename format) {a : String} (s : String)
    (ha : a = "display" ∨ a = "layout" ∨ a = "d2tgraphstyle") : Pres P (setAttr a s : DIO N Unit) :=
  Pres.modify fun st => h.attr st a _ ha

theorem Allows.setLayout (h : Allows P basename format) (s : String) : Pres P (setLayout s : DIO N Unit) := by
  refine Pres.bind h.tr (h.setAttr _ (by simp)) fun _ => ?_
  split
  · exact h.setAttr _ (by simp)
  · exact Pres.pure h.re _

theorem Base.mkstemp (h : Base P basename format) : Pres P (mkstemp : DIO N Nat) := fun st => h.tmp st _ _

theorem Base.create (h : Base P basename format) (l f : String) : Pres P (create E T l f) := by
  refine Pres.bind h.tr h.mkstemp fun i => Pres.bind h.tr h.toStr fun s =>
    Pres.bind h.tr (Pres.modify fun st => h.tmp st _ _) fun _ => ?_
  split
  · exact Pres.pure h.re _
  · split
    · exact Pres.throw h.re _
    · exact Pres.bind h.tr (Pres.modify fun st => h.tmp st _ _) fun _ => Pres.pure h.re _

theorem Base.write (h : Base P basename format) (l f : String) : Pres P (write E T l f) := by
  unfold Display.write
  split
  · exact h.toStr
  · refine Pres.bind h.tr (h.create l f) fun o => ?_
    split
    · exact Pres.pure h.re _
    · exact Pres.pure h.re _

theorem Base.openFile (h : Base P basename format) {f : String}
    (hf : f = basename ++ ".dot" ∨ f = basename ++ ".tex" ∨ f = basename ++ "." ++ format) :
    Pres P (openFile f : DIO N Unit) := Pres.modify fun st => h.file st f _ hf

theorem Base.fileWrite (h : Base P basename format) {f : String} (s : List Char)
    (hf : f = basename ++ ".dot" ∨ f = basename ++ ".tex" ∨ f = basename ++ "." ++ format) :
    Pres P (fileWrite f s : DIO N Unit) := Pres.modify fun st => h.file st f _ hf

theorem Base.runProg (h : Base P basename format) (p : String) : Pres P (runProg p : DIO N Unit) :=
  Pres.modify fun st => h.ran st _

theorem Allows.texTry (h : Allows P basename format) : Pres P (texTry E T basename format) := by
  unfold Display.texTry
  split
  · refine Pres.bind h.tr (h.setLayout _) fun _ => Pres.bind h.tr (Pres.get h.re) fun st => ?_
    split
    · split
      · exact Pres.pure h.re _
      · exact Pres.bind h.tr (h.setLayout _) fun _ => Pres.bind h.tr (h.openFile (.inl rfl)) fun _ =>
          Pres.bind h.tr (h.fileWrite _ (.inl rfl)) fun _ => Pres.pure h.re _
    · exact Pres.bind h.tr (h.setLayout _) fun _ => Pres.bind h.tr (h.openFile (.inl rfl)) fun _ => Pres.pure h.re _
  · exact Pres.pure h.re _

theorem Base.convert (h : Base P basename format) (f : String) : Pres P (convert f : DIO N Unit) := by
  unfold Display.convert
  split
  · exact h.runProg _
  · split
    · exact h.runProg _
    · exact Pres.pure h.re _

theorem Allows.fileTex (h : Allows P basename format) : Pres P (fileTex E T basename format) := by
  unfold Display.fileTex
  refine Pres.bind h.tr h.texTry fun r => Pres.bind h.tr (h.openFile (.inr (.inl rfl))) fun _ => ?_
  split
  · exact Pres.throw h.re _
  · refine Pres.bind h.tr (h.fileWrite _ (.inr (.inl rfl))) fun _ => ?_
    split
    · exact Pres.bind h.tr (h.runProg _) fun _ => Pres.bind h.tr (h.convert _) fun _ => h.setLayout _
    · exact Pres.pure h.re _

theorem Allows.fileMode (h : Allows P basename format) : Pres P (fileMode E T basename format) := by
  unfold Display.fileMode
  refine Pres.bind h.tr (h.getAttr _) fun l => ?_
  split
  · exact h.fileTex
  · exact Pres.bind h.tr (h.openFile (.inr (.inr rfl))) fun _ => Pres.bind h.tr (h.getAttr _) fun _ =>
      Pres.bind h.tr (h.write _ _) fun _ => h.fileWrite _ (.inr (.inr rfl))

theorem Base.picture (h : Base P basename format) : Pres P (picture E T format) := by
  unfold Display.picture
  refine Pres.bind h.tr h.mkstemp fun i => Pres.bind h.tr (h.getAttr _) fun l => Pres.bind h.tr (h.write _ _) fun s =>
    Pres.bind h.tr (Pres.modify fun st => h.tmp st _ _) fun _ => ?_
  split
  · exact Pres.pure h.re _
  · exact Pres.throw h.re _

theorem Allows.pilMode (h : Allows P basename format) : Pres P (pilMode E T format) := by
  unfold Display.pilMode
  split
  · exact Pres.bind h.tr h.picture fun p => Pres.bind h.tr (Pres.modify fun st => h.shown st _) fun _ =>
      Pres.modify fun st => h.tmp st _ _
  · exact h.setAttr _ (by simp)

theorem Allows.mplMode (h : Allows P basename format) (w : Bool) : Pres P (mplMode E T format w) := by
  unfold Display.mplMode
  split
  · refine Pres.bind h.tr h.picture fun p => Pres.bind h.tr (Pres.modify fun st => h.shown st _) fun _ => ?_
    split
    · exact Pres.throw h.re _
    · exact Pres.modify fun st => h.tmp st _ _
  · exact h.setAttr _ (by simp)

theorem Allows.xdotMode (h : Allows P basename format) : Pres P (xdotMode E T) := by
  unfold Display.xdotMode
  split
  · exact Pres.bind h.tr h.toStr fun s => Pres.modify fun st => h.shown st _
  · exact h.setAttr _ (by simp)

theorem Allows.window (h : Allows P basename format) (mode : String) (w : Bool) : Pres P (window E T mode format w) := by
  unfold Display.window
  split
  · exact h.pilMode
  · split
    · exact h.mplMode w
    · split
      · exact h.xdotMode
      · exact Pres.pure h.re _

theorem Allows.forceFile (h : Allows P basename format) : Pres P (forceFile : DIO N Unit) := by
  refine Pres.bind h.tr (h.getAttr _) fun l => ?_
  split
  · exact h.setAttr _ (by simp)
  · exact Pres.pure h.re _

/-- the whole of `display`, if the relation also allows the colouring -/
theorem Allows.display (h : Allows P basename format) (hl : Option (List N)) (w : Bool)
    (hc : ∀ c, Pres P (colourAll c hl)) : Pres P (display E T hl basename format w) := by
  unfold Display.display
  refine Pres.bind h.tr (h.getAttr _) fun m => ?_
  split
  · exact Pres.pure h.re _
  · refine Pres.bind h.tr (hc _) fun _ => Pres.bind h.tr h.forceFile fun l => Pres.bind h.tr (h.getAttr _) fun mode => ?_
    split
    · exact h.fileMode
    · exact Pres.bind h.tr (h.window mode w) fun _ => hc _

end

/-- the node attributes after `for n in highlight: set_attr('color', c)` -/
def recolour (c : String) (l : List N) (g : Graph N) : Graph N :=
  { g with nodes := l.foldl (fun d n => match d.get? n with
      | none => d
      | some x => d.set n (x.set "color" (.str c))) g.nodes }

theorem colour_ok (c : String) : ∀ (l : List N) (st : DState N), (∀ n ∈ l, n ∈ st.g.nodes.keys) →
    colour c l st = .ok () { st with g := recolour c l st.g }
  | [], st, _ => rfl
  | n :: l, st, h => by
    obtain ⟨x, hx⟩ := (Dict.mem_keys' _ _).1 (h n (by simp))
    have ih := colour_ok c l { st with g := { st.g with nodes := st.g.nodes.set n (x.set "color" (.str c)) } } (by
      intro m hm
      rw [Dict.mem_keys]
      show ((st.g.nodes.set n _).get? m).isSome
      rw [Dict.get?_set]
      split
      · rfl
      · exact (Dict.mem_keys _ _).1 (h m (List.mem_cons_of_mem _ hm)))
    unfold colour
    have h1 : (get : DIO N (DState N)) st = .ok st st := rfl
    rw [bind_ok h1, hx]
    have h2 : (set { st with g := { st.g with nodes := st.g.nodes.set n (x.set "color" (.str c)) } } : DIO N PUnit) st =
      .ok ⟨⟩ { st with g := { st.g with nodes := st.g.nodes.set n (x.set "color" (.str c)) } } := rfl
    simp only []
    rw [bind_ok h2, ih]
    unfold recolour
    rw [List.foldl_cons, hx]

theorem colour_missing (c : String) : ∀ (l : List N) (st : DState N), (∃ n ∈ l, n ∉ st.g.nodes.keys) →
    ∃ l', l' <+: l ∧ colour c l st = .error (.py .attributeError) { st with g := recolour c l' st.g }
  | [], st, h => by obtain ⟨n, h, _⟩ := h; cases h
  | n :: l, st, h => by
    have h1 : (get : DIO N (DState N)) st = .ok st st := rfl
    cases hx : st.g.nodes.get? n with
    | none =>
      refine ⟨[], List.nil_prefix, ?_⟩
      unfold colour
      rw [bind_ok h1, hx]
      rfl
    | some x =>
      have hk : ∀ m, m ∈ (st.g.nodes.set n (x.set "color" (.str c))).keys ↔ m ∈ st.g.nodes.keys := by
        intro m
        rw [Dict.mem_keys, Dict.mem_keys, Dict.get?_set]
        split
        · rename_i e; rw [← e, hx]; simp
        · rfl
      obtain ⟨m, hm, hm'⟩ := h
      have hne : m ∈ l := by
        rcases List.mem_cons.1 hm with rfl | hm
        · exact absurd (Dict.mem_keys_of_get? hx) hm'
        · exact hm
      obtain ⟨l', hp, ih⟩ := colour_missing c l { st with g := { st.g with nodes := st.g.nodes.set n (x.set "color" (.str c)) } }
        ⟨m, hne, fun hc => hm' ((hk m).1 hc)⟩
      refine ⟨n :: l', (List.cons_prefix_cons).2 ⟨rfl, hp⟩, ?_⟩
      unfold colour
      have h2 : (set { st with g := { st.g with nodes := st.g.nodes.set n (x.set "color" (.str c)) } } : DIO N PUnit) st =
        .ok ⟨⟩ { st with g := { st.g with nodes := st.g.nodes.set n (x.set "color" (.str c)) } } := rfl
      rw [bind_ok h1, hx]
      simp only []
      rw [bind_ok h2, ih]
      unfold recolour
      rw [List.foldl_cons, hx]

theorem setL_setL {K V : Type} [DecidableEq K] : ∀ (d : List (K × V)) (k : K) (v w : V),
    Dict.setL (Dict.setL d k v) k w = Dict.setL d k w
  | [], k, v, w => by simp [Dict.setL]
  | (a, b) :: d, k, v, w => by
    have ih := setL_setL d k v w
    by_cases h : a = k
    · simp [Dict.setL, h]
    · simp [Dict.setL, h, ih]

theorem set_set {K V : Type} [DecidableEq K] (d : Dict K V) (k : K) (v w : V) : (d.set k v).set k w = d.set k w := by
  unfold Dict.set; rw [setL_setL]

theorem recolour_get (c : String) : ∀ (l : List N) (g : Graph N) (n : N), (recolour c l g).nodes.get? n =
    if n ∈ l then (g.nodes.get? n).map (·.set "color" (.str c)) else g.nodes.get? n
  | [], g, n => by simp [recolour]
  | m :: l, g, n => by
    have ih := recolour_get c l
    unfold recolour
    rw [List.foldl_cons]
    cases hx : g.nodes.get? m with
    | none =>
      have := ih g n
      simp only [recolour] at this
      rw [this]
      by_cases h1 : n ∈ l
      · rw [if_pos h1, if_pos (List.mem_cons_of_mem _ h1)]
      · rw [if_neg h1]
        by_cases h2 : n = m
        · subst h2; rw [hx]; simp
        · rw [if_neg (by simp [h1, h2])]
    | some x =>
      have := ih { g with nodes := g.nodes.set m (x.set "color" (.str c)) } n
      simp only [recolour] at this
      rw [this, Dict.get?_set]
      by_cases h2 : m = n
      · subst h2
        rw [if_pos rfl, hx, if_pos (List.mem_cons_self : m ∈ m :: l)]
        by_cases h1 : m ∈ l
        · rw [if_pos h1]
          simp only [Option.map_some]
          rw [set_set]
        · rw [if_neg h1]
          rfl
      · rw [if_neg h2]
        by_cases h1 : n ∈ l
        · rw [if_pos h1, if_pos (List.mem_cons_of_mem _ h1)]
        · rw [if_neg h1, if_neg (by simp [h1, Ne.symm h2])]

theorem colourAll_eq (c : String) (hl : Option (List N)) : (colourAll c hl : DIO N Unit) = colour c (hl.getD []) := by
  cases hl <;> rfl

theorem getAttr_eq {a s : String} {st : DState N} (h : st.attr.get? a = some (.str s)) :
    (getAttr a : DIO N String) st = .ok s st := by
  unfold getAttr
  have h1 : (get : DIO N (DState N)) st = .ok st st := rfl
  rw [bind_ok h1, h]
  rfl

theorem getAttr_of_ok {a s : String} {st st' : DState N} (h : (getAttr a : DIO N String) st = .ok s st') :
    st.attr.get? a = some (.str s) ∧ st' = st := by
  unfold getAttr at h
  have h1 : (get : DIO N (DState N)) st = .ok st st := rfl
  rw [bind_ok h1] at h
  cases hx : st.attr.get? a with
  | none => rw [hx] at h; cases h
  | some v =>
    rw [hx] at h
    cases v <;> cases h
    exact ⟨rfl, rfl⟩

/-- the state when the branch is chosen: highlighted nodes red, mode 'file' if the layout is 'dot2tex' -/
def chosen (hl : Option (List N)) (lay : String) (st : DState N) : DState N :=
  { st with g := recolour "red" (hl.getD []) st.g,
            attr := if lay = "dot2tex" then st.attr.set "display" (.str "file") else st.attr }

theorem forceFile_eq {lay : String} {st : DState N} (h : st.attr.get? "layout" = some (.str lay)) :
    (forceFile : DIO N Unit) st = .ok ()
      { st with attr := if lay = "dot2tex" then st.attr.set "display" (.str "file") else st.attr } := by
  unfold forceFile getLayout
  rw [bind_ok (getAttr_eq h)]
  split <;> rfl

theorem display_off {E : Env} {T : Text N} {hl : Option (List N)} {basename format : String} {w : Bool} {st : DState N}
    (h : st.attr.get? "display" = some (.str "off")) : display E T hl basename format w st = .ok () st := by
  unfold display
  rw [bind_ok (getAttr_eq h), if_pos rfl]
  rfl

theorem display_eq {E : Env} {T : Text N} {hl : Option (List N)} {basename format m lay : String} {w : Bool} {st : DState N}
    (h : st.attr.get? "display" = some (.str m)) (hm : m ≠ "off") (hlay : st.attr.get? "layout" = some (.str lay))
    (hp : ∀ n ∈ hl.getD [], n ∈ st.g.nodes.keys) : display E T hl basename format w st =
      if lay = "dot2tex" ∨ m = "file" then fileMode E T basename format (chosen hl lay st)
      else (window E T m format w >>= fun _ => colour "black" (hl.getD [])) (chosen hl lay st) := by
  unfold display
  rw [bind_ok (getAttr_eq h), if_neg hm, colourAll_eq, bind_ok (colour_ok _ _ _ hp)]
  rw [bind_ok (forceFile_eq (lay := lay) (by exact hlay))]
  have h2 : (chosen hl lay st).attr.get? "display" = some (.str (if lay = "dot2tex" then "file" else m)) := by
    unfold chosen
    by_cases hd : lay = "dot2tex"
    · simp only [if_pos hd]; rw [Dict.get?_set_self]
    · simp only [if_neg hd]; exact h
  refine Eq.trans (bind_ok (getAttr_eq (st := chosen hl lay st) h2)) ?_
  rw [colourAll_eq]
  by_cases hd : lay = "dot2tex"
  · rw [if_pos hd, if_pos rfl, if_pos (Or.inl hd)]
  · rw [if_neg hd]
    by_cases hf : m = "file"
    · rw [if_pos hf, if_pos (Or.inr hf)]
    · rw [if_neg hf, if_neg (by rintro (h | h); exacts [hd h, hf h])]

theorem display_missing {E : Env} {T : Text N} {hl : Option (List N)} {basename format m : String} {w : Bool} {st : DState N}
    (h : st.attr.get? "display" = some (.str m)) (hm : m ≠ "off")
    (hp : ∃ n ∈ hl.getD [], n ∉ st.g.nodes.keys) : ∃ st', display E T hl basename format w st =
      .error (.py .attributeError) st' := by
  obtain ⟨l', _, h1⟩ := colour_missing "red" _ st hp
  refine ⟨{ st with g := recolour "red" l' st.g }, ?_⟩
  unfold display
  rw [bind_ok (getAttr_eq h), if_neg hm, colourAll_eq, bind_error h1]

theorem recolour_keys (c : String) (l : List N) (g : Graph N) : (recolour c l g).nodes.keys = g.nodes.keys := by
  unfold recolour
  show (l.foldl (fun d n => match d.get? n with
      | none => d
      | some x => d.set n (x.set "color" (.str c))) g.nodes).keys = g.nodes.keys
  generalize g.nodes = d
  induction l generalizing d with
  | nil => rfl
  | cons n l ih =>
    rw [List.foldl_cons, ih]
    cases hx : d.get? n with
    | none => rfl
    | some x => exact Dict.keys_set_of_mem _ (Dict.mem_keys_of_get? hx)

theorem text_congr {T : Text N} {st st' : DState N} (h1 : st'.g = st.g) (h2 : st'.attr = st.attr) : text T st' = text T st := by
  unfold text; rw [h1, h2]

theorem toStr_eq (T : Text N) (st : DState N) : toStr T st = match text T st with
    | .ok s => .ok s st
    | .error e => .error (.py e) st := by
  unfold toStr
  have h1 : (get : DIO N (DState N)) st = .ok st st := rfl
  rw [bind_ok h1]
  cases text T st <;> rfl

/-- the outcome of `create` -/
theorem create_eq (E : Env) (T : Text N) (lay format : String) (st : DState N) : create E T lay format st =
    match text T st with
    | .error e => .error (.py e) { st with tmp := st.tmp.set st.next [], next := st.next + 1 }
    | .ok s => match E.graphviz lay format s with
      | none => .ok none { st with tmp := st.tmp.set st.next s, next := st.next + 1 }
      | some (code, out) =>
        if code ≠ 0 then .error .calledProcess { st with tmp := st.tmp.set st.next s, next := st.next + 1 }
        else .ok (some out) { st with tmp := (st.tmp.set st.next s).erase st.next, next := st.next + 1 } := by
  unfold create
  have h1 : (mkstemp : DIO N Nat) st = .ok st.next { st with tmp := st.tmp.set st.next [], next := st.next + 1 } := rfl
  rw [bind_ok h1]
  have h2 := toStr_eq T { st with tmp := st.tmp.set st.next [], next := st.next + 1 }
  have ht : text T { st with tmp := st.tmp.set st.next [], next := st.next + 1 } = text T st := rfl
  rw [ht] at h2
  cases hs : text T st with
  | error e =>
    rw [hs] at h2
    rw [bind_error h2]
  | ok s =>
    rw [hs] at h2
    rw [bind_ok h2]
    have h3 : (tmpWrite st.next s : DIO N Unit) { st with tmp := st.tmp.set st.next [], next := st.next + 1 } = .ok ()
      { st with tmp := st.tmp.set st.next s, next := st.next + 1 } := by
      rw [← set_set st.tmp st.next [] s]; rfl
    rw [bind_ok h3]
    simp only []
    cases E.graphviz lay format s with
    | none => rfl
    | some x =>
      obtain ⟨code, out⟩ := x
      simp only []
      split <;> rfl

/-- the outcome of `write` -/
theorem write_eq (E : Env) (T : Text N) (lay format : String) (st : DState N) : write E T lay format st =
    if format = "dot" then toStr T st else match create E T lay format st with
      | .ok o st' => .ok (o.getD []) st'
      | .error e st' => .error e st' := by
  unfold write
  by_cases h : format = "dot"
  · rw [if_pos h, if_pos h]
  · rw [if_neg h, if_neg h]
    cases hc : create E T lay format st with
    | ok o s =>
      rw [bind_ok hc]
      cases o <;> rfl
    | error e s => rw [bind_error hc]

/-- `mkstemp` gives a new name -/
def Fresh (st : DState N) : Prop := ∀ k ∈ st.tmp.keys, k < st.next

theorem erase_set {K V : Type} [DecidableEq K] {d : Dict K V} {k : K} (h : k ∉ d.keys) (v : V) : (d.set k v).erase k = d := by
  obtain ⟨l⟩ := d
  unfold Dict.set Dict.erase
  congr 1
  induction l with
  | nil => simp [Dict.setL]
  | cons p l ih =>
    obtain ⟨a, b⟩ := p
    have h1 : ¬ a = k := fun e => h (by simp [Dict.keys, e])
    have := ih fun hk => h (by simpa [Dict.keys] using Or.inr hk)
    simp only [Dict.setL, h1, if_false, List.filter_cons]
    simp only [] at this
    rw [this]
    simp

theorem Fresh.erase {st : DState N} (h : Fresh st) (s : List Char) : (st.tmp.set st.next s).erase st.next = st.tmp :=
  erase_set (fun hk => Nat.lt_irrefl _ (h _ hk)) s

/-- the state after `set_layout` -/
theorem setLayout_eq (v : String) (st : DState N) : (setLayout v : DIO N Unit) st = .ok ()
    { st with attr := if v = "dot2tex" then (st.attr.set "layout" (.str v)).set "d2tgraphstyle" (.str texStyle)
                      else st.attr.set "layout" (.str v) } := by
  unfold setLayout
  have h1 : (setAttr "layout" v : DIO N Unit) st = .ok () { st with attr := st.attr.set "layout" (.str v) } := rfl
  rw [bind_ok h1]
  split <;> rfl

theorem setLayout_dot (st : DState N) : (setLayout "dot" : DIO N Unit) st = .ok ()
    { st with attr := st.attr.set "layout" (.str "dot") } := by
  rw [setLayout_eq, if_neg (by decide)]

/-- the outcome of the `dot2tex` branch if `dot2tex` works: always `pdflatex` -/
theorem fileTex_ok {E : Env} {T : Text N} {basename format : String} {st : DState N} {s t : List Char}
    (hi : E.dot2tex = true) (hs : text T { st with attr := st.attr.set "layout" (.str "dot") } = .ok s)
    (ht : E.d2t s = some t) : fileTex E T basename format st = .ok ()
      (if E.latex then
        { st with
          attr := (st.attr.set "layout" (.str "dot2tex")).set "d2tgraphstyle" (.str texStyle),
          files := st.files.set (basename ++ ".tex") t, ran := st.ran ++ ["latex", "pdflatex"] }
      else { st with attr := st.attr.set "layout" (.str "dot"), files := st.files.set (basename ++ ".tex") t }) := by
  have hr : texTry E T basename format st = .ok (some t, "pdf") { st with attr := st.attr.set "layout" (.str "dot") } := by
    unfold texTry
    rw [if_pos hi]
    refine Eq.trans (bind_ok (setLayout_dot st)) ?_
    have h1 : (get : DIO N (DState N)) { st with attr := st.attr.set "layout" (.str "dot") } = .ok _ _ := rfl
    refine Eq.trans (bind_ok h1) ?_
    rw [hs]
    simp only []
    rw [ht]
    have : (if format ≠ "pdf" ∨ format ≠ "ps" then "pdf" else format) = "pdf" := by
      by_cases h : format = "pdf"
      · rw [if_pos (Or.inr (by rw [h]; decide))]
      · rw [if_pos (Or.inl h)]
    simp only []
    rw [this]
    rfl
  unfold fileTex
  rw [bind_ok hr]
  have h1 : (openFile (basename ++ ".tex") : DIO N Unit) { st with attr := st.attr.set "layout" (.str "dot") } = .ok ()
    { st with attr := st.attr.set "layout" (.str "dot"), files := st.files.set (basename ++ ".tex") [] } := rfl
  rw [bind_ok h1]
  simp only []
  have h2 : (fileWrite (basename ++ ".tex") t : DIO N Unit)
    { st with attr := st.attr.set "layout" (.str "dot"), files := st.files.set (basename ++ ".tex") [] } = .ok ()
    { st with attr := st.attr.set "layout" (.str "dot"), files := st.files.set (basename ++ ".tex") t } := by
    rw [← set_set st.files (basename ++ ".tex") [] t]; rfl
  rw [bind_ok h2]
  by_cases hl : E.latex = true
  · rw [if_pos hl, if_pos hl]
    have h3 : (runProg "latex" : DIO N Unit)
      { st with attr := st.attr.set "layout" (.str "dot"), files := st.files.set (basename ++ ".tex") t } = .ok ()
      { st with attr := st.attr.set "layout" (.str "dot"), files := st.files.set (basename ++ ".tex") t,
                ran := st.ran ++ ["latex"] } := rfl
    rw [bind_ok h3]
    have h4 : (convert "pdf" : DIO N Unit)
      { st with attr := st.attr.set "layout" (.str "dot"), files := st.files.set (basename ++ ".tex") t,
                ran := st.ran ++ ["latex"] } = .ok ()
      { st with attr := st.attr.set "layout" (.str "dot"), files := st.files.set (basename ++ ".tex") t,
                ran := st.ran ++ ["latex", "pdflatex"] } := by
      unfold convert
      rw [if_neg (by decide), if_pos rfl]
      have : st.ran ++ ["latex", "pdflatex"] = (st.ran ++ ["latex"]) ++ ["pdflatex"] := by simp
      rw [this]
      rfl
    rw [bind_ok h4, setLayout_eq, if_pos rfl]
    simp only []
    rw [set_set]
  · rw [if_neg hl, if_neg hl]
    rfl

/-- otherwise the variable `tex` has no value -/
theorem fileTex_error {E : Env} {T : Text N} {basename format : String} {st : DState N}
    (h : ¬ (E.dot2tex = true ∧ ∃ s t, text T { st with attr := st.attr.set "layout" (.str "dot") } = .ok s ∧ E.d2t s = some t)) :
    ∃ st', fileTex E T basename format st = .error (.py .unboundLocal) st' ∧
      st'.files.get? (basename ++ ".tex") = some [] := by
  have hr : ∃ f st1, texTry E T basename format st = .ok (none, f) st1 := by
    unfold texTry
    by_cases hi : E.dot2tex = true
    · rw [if_pos hi]
      have h0 := setLayout_dot st
      have h1 : (get : DIO N (DState N)) { st with attr := st.attr.set "layout" (.str "dot") } = .ok _ _ := rfl
      cases hs : text T { st with attr := st.attr.set "layout" (.str "dot") } with
      | error e =>
        rw [bind_ok h0, bind_ok h1, hs]
        exact ⟨_, _, rfl⟩
      | ok s =>
        cases ht : E.d2t s with
        | some t => exact absurd ⟨hi, s, t, hs, ht⟩ h
        | none =>
          rw [bind_ok h0, bind_ok h1, hs]
          simp only []
          rw [ht]
          exact ⟨_, _, rfl⟩
    · rw [if_neg hi]
      exact ⟨_, _, rfl⟩
  obtain ⟨f, st1, hr⟩ := hr
  refine ⟨{ st1 with files := st1.files.set (basename ++ ".tex") [] }, ?_, Dict.get?_set_self _ _ _⟩
  unfold fileTex
  rw [bind_ok hr]
  rfl

theorem Fresh.next {st st' : DState N} (h : Fresh st) (h1 : st'.tmp = st.tmp) (h2 : st.next ≤ st'.next) : Fresh st' := by
  intro k hk
  rw [h1] at hk
  exact Nat.lt_of_lt_of_le (h k hk) h2

/-- with a Graphviz that works, `write` removes its temporary file -/
theorem write_fresh {E : Env} {T : Text N} {lay format : String} {st st' : DState N} {o : List Char} (hF : Fresh st)
    (hg : ∀ s, text T st = .ok s → format = "dot" ∨ ∃ out, E.graphviz lay format s = some (0, out))
    (h : write E T lay format st = .ok o st') : ∃ s, text T st = .ok s ∧
      (format = "dot" ∧ o = s ∨ format ≠ "dot" ∧ E.graphviz lay format s = some (0, o)) ∧
      st' = { st with next := st'.next } ∧ st.next ≤ st'.next := by
  rw [write_eq] at h
  by_cases hf : format = "dot"
  · rw [if_pos hf, toStr_eq] at h
    cases hs : text T st with
    | error e => rw [hs] at h; cases h
    | ok s => rw [hs] at h; cases h; exact ⟨o, rfl, Or.inl ⟨hf, rfl⟩, rfl, Nat.le_refl _⟩
  · rw [if_neg hf, create_eq] at h
    cases hs : text T st with
    | error e => rw [hs] at h; cases h
    | ok s =>
      rcases hg s hs with e | ⟨out, ho⟩
      · exact absurd e hf
      · rw [hs] at h
        simp only [] at h
        rw [ho] at h
        simp only [ne_eq, not_true_eq_false, if_false, Option.getD_some, hF.erase] at h
        cases h
        exact ⟨s, rfl, Or.inr ⟨hf, ho⟩, rfl, Nat.le_succ _⟩

end Display
end GiMPy
