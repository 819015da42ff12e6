import Verif.Props.Dot
import Verif.Spec.DotSub

/-! # C118: the text of `to_string` with clusters reads back -/

namespace GiMPy
open DotSpec
namespace Dot

variable {N : Type} [DecidableEq N]

/-- a name or a numeral is a whole word -/
theorem whole_plain {s rest w : List Char} (h : Plain s) (hr : Delim rest) (hw : keyword w = true) (hw0 : w ≠ []) :
    wholeWord w (skipWs (quote s ++ rest)) = none := by
  obtain ⟨c, t, h1, h2⟩ := quote_first h
  have h3 : skipWs (quote s ++ rest) = quote s ++ rest := by
    rw [h1, List.cons_append, skipWs_of (first_ne h2).1]
  rw [h3]
  unfold wholeWord
  rw [if_neg]
  unfold quote
  rw [if_neg h.1]
  by_cases hq : needsQuotes s = true
  · rw [if_pos hq]
    have : ('"' :: (esc s ++ ['"']) ++ rest).takeWhile nameChar = [] := by
      rw [List.cons_append, List.takeWhile_cons, if_neg (by decide)]
    rw [this]
    exact fun e => hw0 e.symm
  · rw [if_neg hq]
    have ha : s.all nameChar = true := by
      rw [List.all_eq_true]
      intro x hx
      unfold nameChar
      rcases base_plain h (needsQuotes_false h (by simpa using hq)) with ⟨⟨c, t, rfl, hc, ht⟩, _⟩ | h1
      · rcases List.mem_cons.1 hx with rfl | hx
        · simp [isAlpha_nameStart hc]
        · rcases ht x hx with h | h
          · simp [isAlpha_nameStart h]
          · simp [isNum_digit h]
      · simp [isNum_digit (h1 x hx)]
    rw [(takeWhile_delim ha fun c hc => (hr c hc).1).1]
    rintro rfl
    rw [h.2.1] at hw
    cases hw

theorem quote_name {s : List Char} (h : IsName s) : quote s = s := by
  unfold quote
  rw [if_neg (by obtain ⟨⟨c, t, rfl, _⟩, _⟩ := h; simp)]
  rw [if_neg]
  have hp := name_plain h
  obtain ⟨⟨c, t, rfl, hc, ht⟩, hk⟩ := h
  have hk' : (c :: t) ∉ keywords := fun hh => by rw [keyword_of_mem hh] at hk; cases hk
  have hal : reAlnum (c :: t) = true := by
    rw [reAlnum, hc, Bool.true_and, List.all_eq_true]
    intro x hx
    unfold isWord
    rcases ht x hx with h | h <;> simp [h]
  have hlow : ((c :: t).any fun c => 127 < c.toNat || c.toNat == 0) = false := by
    rw [List.any_eq_false]
    intro x hx
    have : isAlpha x = true ∨ isNum x = true := by
      rcases List.mem_cons.1 hx with rfl | h
      · exact Or.inl hc
      · exact ht x h
    have hx : 48 ≤ x.toNat ∧ x.toNat ≤ 122 := by
      rcases this with h | h
      · unfold isAlpha at h
        simp only [Bool.or_eq_true, Bool.and_eq_true, beq_iff_eq, decide_eq_true_eq] at h
        rcases h with (rfl | ⟨h1, h2⟩) | ⟨h1, h2⟩
        · decide
        · have h1 : 97 ≤ x.toNat := h1
          have h2 : x.toNat ≤ 122 := h2
          omega
        · have h1 : 65 ≤ x.toNat := h1
          have h2 : x.toNat ≤ 90 := h2
          omega
      · unfold isNum at h
        simp only [Bool.and_eq_true, decide_eq_true_eq] at h
        have h1 : 48 ≤ x.toNat := h.1
        have h2 : x.toNat ≤ 57 := h.2
        omega
    simp only [Bool.or_eq_true, decide_eq_true_eq, beq_iff_eq]
    omega
  have hb : base (c :: t) = some false := by
    unfold base
    rw [if_neg hk', hlow, Bool.false_and, Bool.false_and, if_neg (by decide), if_pos]
    simp [atEnd, hal]
  unfold needsQuotes
  rw [hb]
  simp

/-- the first character of a statement -/
theorem whole_name {s rest w : List Char} (h : IsName s) (hr : Delim rest) (hw : keyword w = true) (hw0 : w ≠ []) :
    wholeWord w (skipWs (s ++ rest)) = none := by
  have := whole_plain (name_plain h) hr hw hw0
  rwa [quote_name h] at this

/-- a keyword and a blank are read as the keyword -/
theorem whole_self {w : List Char} (hw : w.all nameChar = true) (hw0 : w ≠ []) (s : List Char) :
    wholeWord w (skipWs (w ++ ' ' :: s)) = some (' ' :: s) := by
  have h1 : skipWs (w ++ ' ' :: s) = w ++ ' ' :: s := by
    cases w with
    | nil => exact absurd rfl hw0
    | cons c t =>
      rw [List.cons_append]
      apply skipWs_of
      rw [List.all_eq_true] at hw
      have := hw c (by simp)
      refine ⟨?_, ?_⟩ <;> (rintro rfl; revert this; decide)
  have h2 := takeWhile_delim (rest := ' ' :: s) hw (by rintro c ⟨⟩; decide)
  rw [h1, wholeWord, h2.1, h2.2, if_pos rfl]

section many
variable {A : Type} {p : List Char → Option (A × List Char)}

theorem scanMany_line (f : Nat) (s : List Char) : scanMany p f ('\n' :: s) = scanMany p f s := by
  cases f <;> rfl

theorem scanMany_cons {f : Nat} {s r : List Char} {i : A} (hs : ∃ c t, s = c :: t ∧ First c)
    (h : p s = some (i, '\n' :: r)) :
    scanMany p (f + 1) s = match scanMany p f r with
      | none => none
      | some (l, r) => some (i :: l, r) := by
  obtain ⟨c, t, rfl, h2⟩ := hs
  rw [scanMany, skipWs_of (first_ne h2).1]
  split
  · next heq => exact absurd (List.cons.inj heq).1 (first_ne h2).2.2.1
  · simp only [h, scanMany_line]
    cases scanMany p f r <;> rfl

/-- a list of statements, each of which is read as an item -/
theorem scanMany_list {B : Type} (text : B → List Char) (item : B → A) (l : List B)
    (h : ∀ a ∈ l, (∀ rest, p (text a ++ rest) = some (item a, '\n' :: rest)) ∧ ∃ c t, text a = c :: t ∧ First c)
    {s r : List Char} {l' : List A} {f : Nat} (hs : scanMany p f s = some (l', r)) :
    scanMany p (l.length + f) (l.flatMap text ++ s) = some (l.map item ++ l', r) := by
  induction l with
  | nil => simpa using hs
  | cons a l ih =>
    obtain ⟨h1, c, t, h2, h3⟩ := h a (by simp)
    have ih := ih fun a ha => h a (by simp [ha])
    rw [List.flatMap_cons, List.append_assoc, List.length_cons, show l.length + 1 + f = (l.length + f) + 1 by omega,
      scanMany_cons ⟨c, t ++ (l.flatMap text ++ s), by rw [h2]; rfl, h3⟩ (h1 _), ih]
    rfl

end many

theorem subItem_of {k : Nat} {s r : List Char} {i : Item} (hw : wholeWord "node".toList (skipWs s) = none)
    (h : scanItem k s = some (i, r)) : scanSubItem k s = some (.item i, r) := by
  unfold scanSubItem
  rw [hw, h]

theorem top_of {k : Nat} {s r : List Char} {i : Item} (hw : wholeWord "subgraph".toList (skipWs s) = none)
    (h : scanItem k s = some (i, r)) : scanTop k s = some (.item i, r) := by
  unfold scanTop
  rw [hw, h]

/-- no node statement begins with a keyword -/
theorem whole_node {strN : N → List Char} {name : List Char} {g : Graph N} {n : N} (hn : Plain (strN n)) (rest : List Char)
    {w : List Char} (hw : keyword w = true) (hw0 : w ≠ []) :
    wholeWord w (skipWs (render strN name g (.node n) ++ rest)) = none := by
  simp only [render_node, nodeString, List.append_assoc, List.cons_append]
  exact whole_plain hn (delim_of (by decide) (by decide)) hw hw0

theorem whole_edge {strN : N → List Char} {name : List Char} {g : Graph N} {e : N × N} (hn : Plain (strN e.1))
    (rest : List Char) {w : List Char} (hw : keyword w = true) (hw0 : w ≠ []) :
    wholeWord w (skipWs (render strN name g (.edge e) ++ rest)) = none := by
  simp only [render_edge, edgeString, List.append_assoc]
  refine whole_plain hn ?_ hw hw0
  cases g.directed <;> exact delim_of (by decide) (by decide)

theorem first_node {strN : N → List Char} {name : List Char} {g : Graph N} {n : N} (hn : Plain (strN n)) :
    ∃ c t, render strN name g (.node n) = c :: t ∧ First c := by
  obtain ⟨c, t, h1, h2⟩ := quote_first hn
  simp only [render_node, nodeString, h1, List.cons_append]
  exact ⟨c, _, rfl, h2⟩

theorem first_edge {strN : N → List Char} {name : List Char} {g : Graph N} {e : N × N} (hn : Plain (strN e.1)) :
    ∃ c t, render strN name g (.edge e) = c :: t ∧ First c := by
  obtain ⟨c, t, h1, h2⟩ := quote_first hn
  simp only [render_edge, edgeString, h1, List.cons_append]
  exact ⟨c, _, rfl, h2⟩

theorem first_attr {strN : N → List Char} {name : List Char} {g : Graph N} {p : String × Val N} (hp : IsName p.1.toList) :
    ∃ c t, render strN name g (.attr p.1 p.2) = c :: t ∧ First c := by
  obtain ⟨c, t, h1, h2⟩ := name_first hp
  obtain ⟨a, v⟩ := p
  simp only at h1
  cases v <;> simp only [render_attr, attrString, h1, List.cons_append] <;> exact ⟨c, _, rfl, h2⟩

theorem whole_attr {strN : N → List Char} {name : List Char} {g : Graph N} {p : String × Val N} (hp : IsName p.1.toList)
    (rest : List Char) {w : List Char} (hw : keyword w = true) (hw0 : w ≠ []) :
    wholeWord w (skipWs (render strN name g (.attr p.1 p.2) ++ rest)) = none := by
  obtain ⟨a, v⟩ := p
  simp only at hp
  cases v <;> simp only [render_attr, attrString, List.append_assoc, List.cons_append] <;>
    exact whole_name hp (delim_of (by decide) (by decide)) hw hw0

/-! ## a cluster -/

/-- a cluster attribute that reads back: only the label is quoted -/
def CAttrOk (strN : N → List Char) (p : String × Val N) : Prop :=
  IsName p.1.toList ∧ Plain (strVal strN p.2) ∧ (p.1 = "label" ∨ quote (strVal strN p.2) = strVal strN p.2)

/-- a default node attribute that reads back: none is quoted -/
def DAttrOk (strN : N → List Char) (p : String × Val N) : Prop :=
  IsName p.1.toList ∧ Plain (strVal strN p.2) ∧ quote (strVal strN p.2) = strVal strN p.2

theorem render_clusterAttr (strN : N → List Char) (name : List Char) (g : Graph N) (a : String) (v : Val N) :
    render strN name g (.clusterAttr a v) =
      a.toList ++ '=' :: (if a = "label" then quote (strVal strN v) else strVal strN v) ++ [';', '\n'] := rfl

theorem clusterAttr_text {strN : N → List Char} {name : List Char} {g : Graph N} {p : String × Val N} (hp : CAttrOk strN p) :
    render strN name g (.clusterAttr p.1 p.2) = p.1.toList ++ '=' :: (quote (strVal strN p.2) ++ [';', '\n']) := by
  have : (if p.1 = "label" then quote (strVal strN p.2) else strVal strN p.2) = quote (strVal strN p.2) := by
    split
    · rfl
    · next h => rw [hp.2.2.resolve_left h]
  rw [render_clusterAttr, this]
  simp

theorem scanClusterAttr {strN : N → List Char} {name : List Char} {g : Graph N} {p : String × Val N} (hp : CAttrOk strN p)
    (k : Nat) (rest : List Char) : scanSubItem k (render strN name g (.clusterAttr p.1 p.2) ++ rest) =
      some (.item (.assign p.1.toList (strVal strN p.2)), '\n' :: rest) := by
  have h5 : render strN name g (.clusterAttr p.1 p.2) ++ rest =
      p.1.toList ++ '=' :: (quote (strVal strN p.2) ++ ';' :: '\n' :: rest) := by
    rw [clusterAttr_text hp]; simp
  have hd : Delim ('=' :: (quote (strVal strN p.2) ++ ';' :: '\n' :: rest)) := delim_of (by decide) (by decide)
  rw [h5]
  refine subItem_of (whole_name hp.1 hd (by decide +kernel) (by decide)) ?_
  rw [scanItem, scan_name hp.1 hd]
  simp only [skipWs_of (c := '=') ⟨by decide, by decide⟩, scan_quote hp.2.1 (delim_of (c := ';') (by decide) (by decide))]
  rfl

theorem first_clusterAttr {strN : N → List Char} {name : List Char} {g : Graph N} {p : String × Val N} (hp : CAttrOk strN p) :
    ∃ c t, render strN name g (.clusterAttr p.1 p.2) = c :: t ∧ First c := by
  obtain ⟨c, t, h1, h2⟩ := name_first hp.1
  rw [clusterAttr_text hp, h1]
  exact ⟨c, _, rfl, h2⟩

/-- the default attributes without blanks -/
theorem scanAttrs_tight {strN : N → List Char} {l : List (String × Val N)} (h : ∀ p ∈ l, DAttrOk strN p) (rest : List Char)
    {k : Nat} (hk : l.length < k) :
    scanAttrs k ([','].intercalate (l.map fun p => p.1.toList ++ '=' :: strVal strN p.2) ++ ']' :: rest) =
      some (readAttrs strN l, rest) := by
  induction l generalizing k with
  | nil =>
    obtain ⟨k, rfl⟩ : ∃ j, k = j + 1 := ⟨k - 1, by simp at hk; omega⟩
    rfl
  | cons p l ih =>
    obtain ⟨k, rfl⟩ : ∃ j, k = j + 1 := ⟨k - 1, by simp at hk; omega⟩
    have hp := h p (by simp)
    have ih := ih (fun p hp => h p (by simp [hp])) (k := k) (by simpa using hk)
    cases l with
    | nil =>
      have : [','].intercalate ([p].map fun p => p.1.toList ++ '=' :: strVal strN p.2) ++ ']' :: rest =
          p.1.toList ++ '=' :: (quote (strVal strN p.2) ++ ']' :: rest) := by
        simp [hp.2.2]
      rw [this, scanAttrs_cons hp.1 hp.2.1 (delim_of (by decide) (by decide))]
      have hc : comma (']' :: rest) = ']' :: rest := rfl
      obtain ⟨k, rfl⟩ : ∃ j, k = j + 1 := ⟨k - 1, by simp at hk; omega⟩
      rw [hc, scanAttrs_end]
      rfl
    | cons p' l =>
      have : [','].intercalate ((p :: p' :: l).map fun p => p.1.toList ++ '=' :: strVal strN p.2) ++ ']' :: rest =
          p.1.toList ++ '=' :: (quote (strVal strN p.2) ++ ',' ::
            ([','].intercalate ((p' :: l).map fun p => p.1.toList ++ '=' :: strVal strN p.2) ++ ']' :: rest)) := by
        simp [List.intercalate, hp.2.2]
      rw [this, scanAttrs_cons hp.1 hp.2.1 (delim_of (by decide) (by decide))]
      have hc : ∀ s, comma (',' :: s) = s := fun _ => rfl
      rw [hc, ih]
      rfl

theorem scanDefault {strN : N → List Char} {name : List Char} {g : Graph N} {l : List (String × Val N)}
    (h : ∀ p ∈ l, DAttrOk strN p) {k : Nat} (hk : l.length < k) (rest : List Char) :
    scanSubItem k (render strN name g (.clusterNodeAttrs l) ++ rest) = some (.defaults (readAttrs strN l), '\n' :: rest) := by
  have h1 : render strN name g (.clusterNodeAttrs l) ++ rest = "node".toList ++ ' ' :: '[' ::
      ([','].intercalate (l.map fun p => p.1.toList ++ '=' :: strVal strN p.2) ++ ']' :: ';' :: '\n' :: rest) := by
    show ("node [".toList ++ _ ++ "];\n".toList) ++ rest = _
    simp
  have h2 : ∀ s, wholeWord "node".toList (skipWs ("node".toList ++ ' ' :: s)) = some (' ' :: s) := fun s =>
    whole_self (by decide +kernel) (by decide) s
  rw [h1]
  unfold scanSubItem
  rw [h2]
  unfold scanDefaults
  simp only [skipWs_blank, skipWs_of (c := '[') ⟨by decide, by decide⟩, scanAttrs_tight h _ hk]
  rfl

/-- the text of a cluster -/
def clusterText (strN : N → List Char) (name : List Char) (g : Graph N) (ins : List (N × N)) (c : Val N × Misc.Cluster N) :
    List Char :=
  ("subgraph cluster_".toList ++ strVal strN c.1 ++ [' ', '{', '\n']) ++
    (c.2.attrs.entries.flatMap (fun p => render strN name g (.clusterAttr p.1 p.2)) ++
      ((if c.2.nodeAttrs.entries.isEmpty then [] else [c.2.nodeAttrs.entries]).flatMap
          (fun l => render strN name g (.clusterNodeAttrs l)) ++
        (c.2.nodes.flatMap (fun n => render strN name g (.node n)) ++
          (ins.flatMap (fun e => render strN name g (.edge e)) ++ ['}', '\n']))))

/-- a cluster as it is read: its name, its attributes, the default node attributes if any, the nodes, the edges `ins` -/
def readCluster (strN : N → List Char) (g : Graph N) (ins : List (N × N)) (c : Val N × Misc.Cluster N) : Top :=
  .sub ("cluster_".toList ++ strVal strN c.1)
    ((c.2.attrs.entries.map fun p => .item (.assign p.1.toList (strVal strN p.2))) ++
      ((if c.2.nodeAttrs.entries.isEmpty then [] else [c.2.nodeAttrs.entries]).map fun l => .defaults (readAttrs strN l)) ++
      (c.2.nodes.map fun n => .item (readNode strN g n)) ++ ins.map fun e => .item (readEdge strN g e))

/-- the strings of a cluster are such that they read back -/
structure ClusterOk (strN : N → List Char) (c : Val N × Misc.Cluster N) : Prop where
  cname : IsName ("cluster_".toList ++ strVal strN c.1)
  cattr : ∀ p ∈ c.2.attrs.entries, CAttrOk strN p
  nattr : ∀ p ∈ c.2.nodeAttrs.entries, DAttrOk strN p

/-- the names and attributes of the graph are such that they read back -/
structure GraphOk (strN : N → List Char) (g : Graph N) : Prop where
  node : ∀ n ∈ g.getNodeList, Plain (strN n) ∧ AttrsOk strN ((g.nodes.get? n).getD .empty).entries
  edge : ∀ e ∈ g.getEdgeList, AttrsOk strN ((g.edgeAttr.get? e).getD .empty).entries

theorem scanCluster {strN : N → List Char} {name : List Char} {g : Graph N} (hw : g.Wf) (hg : GraphOk strN g)
    {c : Val N × Misc.Cluster N} (hc : ClusterOk strN c) (hm : ∀ n ∈ c.2.nodes, n ∈ g.getNodeList) {ins : List (N × N)}
    (hi : ∀ e ∈ ins, e ∈ g.getEdgeList) {k : Nat}
    (hk1 : ∀ n ∈ g.getNodeList, ((g.nodes.get? n).getD .empty).entries.length < k)
    (hk2 : ∀ e ∈ g.getEdgeList, ((g.edgeAttr.get? e).getD .empty).entries.length < k)
    (hk3 : c.2.nodeAttrs.entries.length < k)
    (hk4 : c.2.attrs.entries.length + c.2.nodes.length + ins.length + 1 < k) (rest : List Char) :
    scanTop k (clusterText strN name g ins c ++ rest) = some (readCluster strN g ins c, '\n' :: rest) := by
  have hE := fun f => scanMany_list (p := scanSubItem k) (fun e => render strN name g (.edge e))
    (fun e => .item (readEdge strN g e)) ins (by
    intro e he
    have hp := hw.endp e.1 e.2 (hi e he)
    have hu := (hg.node e.1 hp.1).1
    exact ⟨fun r => subItem_of (whole_edge hu _ (by decide +kernel) (by decide))
      (scanEdge hu (hg.node e.2 hp.2).1 (hg.edge e (hi e he)) (hk2 e (hi e he)) r), first_edge hu⟩)
    (s := '}' :: '\n' :: rest) (r := '\n' :: rest) (l' := []) (f := f + 1) rfl
  have hN := fun f => scanMany_list (p := scanSubItem k) (fun n => render strN name g (.node n))
    (fun n => .item (readNode strN g n)) c.2.nodes (by
    intro n hn
    have hu := hg.node n (hm n hn)
    exact ⟨fun r => subItem_of (whole_node hu.1 _ (by decide +kernel) (by decide))
      (scanNode hu.1 hu.2 (hk1 n (hm n hn)) r), first_node hu.1⟩) (hE f)
  have hD := fun f => scanMany_list (p := scanSubItem k) (fun l => render strN name g (.clusterNodeAttrs l))
    (fun l => .defaults (readAttrs strN l)) (if c.2.nodeAttrs.entries.isEmpty then [] else [c.2.nodeAttrs.entries]) (by
    intro l hl
    have : l = c.2.nodeAttrs.entries := by
      split at hl
      · cases hl
      · simpa using hl
    subst this
    exact ⟨fun r => scanDefault hc.nattr hk3 r, 'n', _, rfl, Or.inr (Or.inl (by decide))⟩) (hN f)
  have hA := fun f => scanMany_list (p := scanSubItem k)
    (fun p : String × Val N => render strN name g (.clusterAttr p.1 p.2))
    (fun p => .item (.assign p.1.toList (strVal strN p.2))) c.2.attrs.entries (by
    intro p hp
    exact ⟨scanClusterAttr (hc.cattr p hp) k, first_clusterAttr (hc.cattr p hp)⟩) (hD f)
  have hlen : (if c.2.nodeAttrs.entries.isEmpty then [] else [c.2.nodeAttrs.entries] :
      List (List (String × Val N))).length ≤ 1 := by
    split <;> simp
  generalize hL : (if c.2.nodeAttrs.entries.isEmpty then [] else [c.2.nodeAttrs.entries] :
      List (List (String × Val N))) = L at hA hlen
  obtain ⟨f, hf⟩ : ∃ f, k = c.2.attrs.entries.length + (L.length + (c.2.nodes.length + (ins.length + (f + 1)))) :=
    ⟨k - (c.2.attrs.entries.length + (L.length + (c.2.nodes.length + ins.length)) + 1), by omega⟩
  have hA := hA f
  rw [← hf] at hA
  have hid := scan_name (rest := ' ' :: '{' :: '\n' :: (c.2.attrs.entries.flatMap (fun p => render strN name g (.clusterAttr p.1 p.2)) ++
      (L.flatMap (fun l => render strN name g (.clusterNodeAttrs l)) ++
        (c.2.nodes.flatMap (fun n => render strN name g (.node n)) ++
          (ins.flatMap (fun e => render strN name g (.edge e)) ++ '}' :: '\n' :: rest))))) hc.cname
    (delim_of (c := ' ') (by decide) (by decide))
  have h1 : clusterText strN name g ins c ++ rest = "subgraph".toList ++ ' ' :: ("cluster_".toList ++ strVal strN c.1 ++
      ' ' :: '{' :: '\n' :: (c.2.attrs.entries.flatMap (fun p => render strN name g (.clusterAttr p.1 p.2)) ++
      (L.flatMap (fun l => render strN name g (.clusterNodeAttrs l)) ++
        (c.2.nodes.flatMap (fun n => render strN name g (.node n)) ++
          (ins.flatMap (fun e => render strN name g (.edge e)) ++ '}' :: '\n' :: rest))))) := by
    unfold clusterText
    rw [hL, show "subgraph cluster_".toList = "subgraph".toList ++ ' ' :: "cluster_".toList by decide +kernel]
    simp only [List.append_assoc, List.cons_append, List.nil_append]
  have h2 : ∀ s, wholeWord "subgraph".toList (skipWs ("subgraph".toList ++ ' ' :: s)) = some (' ' :: s) := fun s =>
    whole_self (by decide +kernel) (by decide) s
  rw [h1]
  unfold scanTop
  rw [h2]
  simp only []
  unfold scanSub
  rw [skipWs_blank, hid]
  simp only [skipWs_blank, skipWs_of (c := '{') ⟨by decide, by decide⟩, scanMany_line, hA]
  unfold readCluster
  rw [hL]
  simp

/-! ## all clusters -/

/-- the edges of a cluster in the order in which `to_string` writes them -/
def inner (g : Graph N) (c : Val N × Misc.Cluster N) : List (N × N) :=
  (allPairs c.2.nodes).filter fun e => g.checkEdge e.1 e.2

/-- the statements of a cluster -/
def stmtsOf (g : Graph N) (c : Val N × Misc.Cluster N) : List (Stmt N) :=
  .openCluster c.1 :: ((c.2.attrs.entries.map fun p => .clusterAttr p.1 p.2) ++
    ((if c.2.nodeAttrs.entries.isEmpty then [] else [c.2.nodeAttrs.entries]).map fun l => .clusterNodeAttrs l) ++
    c.2.nodes.map .node ++ (inner g c).map .edge ++ [.close])

theorem inner_mem {g : Graph N} {cl : List (Val N × Misc.Cluster N)} (h : GoodClusters g cl) {c : Val N × Misc.Cluster N}
    (hc : c ∈ cl) {e : N × N} : e ∈ inner g c ↔ e ∈ g.getEdgeList ∧ e.1 ∈ c.2.nodes ∧ e.2 ∈ c.2.nodes := by
  unfold inner
  rw [List.mem_filter, mem_allPairs, Search.checkEdge_iff]
  constructor
  · rintro ⟨h1, h2 | ⟨h2, h3⟩⟩
    · exact ⟨h2, h1⟩
    · have h6 := h.inner (by simpa using h2) c hc e.2 h1.2 e.1 h1.1 h3
      refine ⟨?_, h1⟩
      rw [show e = (e.2, e.1) from Prod.ext h6.symm h6]
      exact h3
  · rintro ⟨h1, h2⟩
    exact ⟨h2, Or.inl h1⟩

theorem nodup_nodes {cl : List (Val N × Misc.Cluster N)} (h : (cl.flatMap fun c => c.2.nodes).Nodup)
    {c : Val N × Misc.Cluster N} (hc : c ∈ cl) : c.2.nodes.Nodup := (List.nodup_flatMap.1 h).1 c hc

theorem inner_perm {g : Graph N} (hw : g.Wf) {cl : List (Val N × Misc.Cluster N)} (h : GoodClusters g cl)
    {c : Val N × Misc.Cluster N} (hc : c ∈ cl) :
    (inner g c).Perm (g.getEdgeList.filter fun e => c.2.nodes.contains e.1 && c.2.nodes.contains e.2) := by
  refine (List.perm_ext_iff_of_nodup ((nodup_allPairs (nodup_nodes h.nodup hc)).filter _) (hw.edup.filter _)).2 fun e => ?_
  refine (inner_mem h hc).trans (Iff.trans ?_ List.mem_filter.symm)
  simp [Graph.getEdgeList]

theorem clustersStmts_eq {g : Graph N} {cl cl' : List (Val N × Misc.Cluster N)} (hg : g.Wf) (h : GoodClusters g cl)
    (hs : ∀ c ∈ cl', c ∈ cl) : clustersStmts g cl' = .ok (cl'.flatMap (stmtsOf g)) := by
  induction cl' with
  | nil => rfl
  | cons c cl' ih =>
    have ih := ih fun c hc => hs c (by simp [hc])
    have hc := hs c (by simp)
    have ha := h.attrs c hc
    have a1 : clusterAttrs c.2.attrs.entries = .ok (c.2.attrs.entries.map fun p => .clusterAttr p.1 p.2) :=
      (C46_cluster_attributes _).1 fun p hp => Or.inl (ha.1 p hp)
    have b1 : clusterNodeAttrs c.2.nodeAttrs.entries = .ok ((if c.2.nodeAttrs.entries.isEmpty then [] else
        [c.2.nodeAttrs.entries]).map fun l => .clusterNodeAttrs l) := by
      unfold clusterNodeAttrs
      by_cases he : c.2.nodeAttrs.entries.isEmpty = true
      · rw [if_pos he, if_pos he]; rfl
      · rw [if_neg he, if_neg he, if_pos]
        · rfl
        · rw [List.all_eq_true]
          intro p hp
          obtain ⟨s, hs⟩ := ha.2 p hp
          rw [hs]
    have c1 := nodeStmts_ok (g := g) (l := c.2.nodes) fun n hn => by
      unfold Graph.hasNode; rw [Dict.contains_iff, hg.nodesEq]; exact h.mem c hc n hn
    have d1 := edgeStmts_ok (g := g) (l := allPairs c.2.nodes) fun e he hh => by
      rw [Dict.contains_iff]
      exact ((inner_mem h hc).1 (List.mem_filter.2 ⟨he, hh⟩)).1
    obtain ⟨k, x⟩ := c
    rw [clustersStmts]
    unfold clusterStmts
    rw [a1, b1, c1, d1, ih]
    rfl

theorem stmtsOf_text (strN : N → List Char) (name : List Char) (g : Graph N) (c : Val N × Misc.Cluster N) :
    (stmtsOf g c).flatMap (render strN name g) = clusterText strN name g (inner g c) c := by
  unfold stmtsOf clusterText
  have h1 : render strN name g (.openCluster c.1) = "subgraph cluster_".toList ++ strVal strN c.1 ++ [' ', '{', '\n'] := rfl
  simp only [List.flatMap_append, List.flatMap_cons, List.flatMap_nil, List.flatMap_map, List.append_nil, List.append_assoc,
    h1, render_close]

theorem first_cluster (strN : N → List Char) (name : List Char) (g : Graph N) (ins : List (N × N))
    (c : Val N × Misc.Cluster N) : ∃ d t, clusterText strN name g ins c = d :: t ∧ First d :=
  ⟨'s', _, rfl, Or.inr (Or.inl (by decide))⟩

theorem bound_of {A : Type} (l : List A) (f : A → Nat) : ∃ b, ∀ a ∈ l, f a < b :=
  ⟨(l.map f).sum + 1, fun a ha => Nat.lt_succ_of_le (List.le_sum_of_mem (List.mem_map.2 ⟨a, ha, rfl⟩))⟩

end Dot

open Dot

/-- **C118 (partial).** Reading back with clusters: let node names and attribute values of nodes and edges be plain strings and
let the clusters be as in `GoodClusters` (C46).  Let every attribute value of a cluster other than the label, and every default
node attribute, be a string that needs no quotes, and the name of the cluster a plain word.  Then a DOT reader reads the text
of `to_string` as one graph of the same kind and name with: the graph attributes; one subgraph for each cluster, with the
cluster's attributes, its default node attributes, exactly its nodes, and exactly the edges with both ends in it; then exactly
the nodes that are in no cluster and exactly the edges that are in no cluster, each with its attributes.  Missing from the full
claim: cluster attributes that need quotes, for which it is false, see `C118_false`. -/
theorem C118_clusters_read_back_partial {N : Type} [DecidableEq N] (strN : N → List Char) (name : List Char) (g : Graph N)
    (hg : Built g) (attrs : List (String × Val N)) (cl : List (Val N × Misc.Cluster N)) (hname : IsName name)
    (hattrs : ∀ p ∈ attrs, GAttrOk strN p) (hok : GraphOk strN g) (hcl : GoodClusters g cl)
    (hco : ∀ c ∈ cl, ClusterOk strN c) :
    ∃ text k0, ∃ ins : Val N × Misc.Cluster N → List (N × N), Dot.toString strN name g attrs cl = .ok text ∧
      (∀ c ∈ cl, (ins c).Perm (g.getEdgeList.filter fun e => c.2.nodes.contains e.1 && c.2.nodes.contains e.2)) ∧
      ∀ k ≥ k0, scanGraphSub k text = some (g.directed, name,
        (attrs.map fun p => .item (.assign p.1.toList (strVal strN p.2))) ++
        (cl.map fun c => readCluster strN g (ins c) c) ++
        ((g.getNodeList.filter fun n => !cl.any fun c => c.2.nodes.contains n).map fun n => .item (readNode strN g n)) ++
        ((g.getEdgeList.filter fun e => !cl.any fun c => c.2.nodes.contains e.1 && c.2.nodes.contains e.2).map fun e =>
          .item (readEdge strN g e))) := by
  have hw := hg.wf
  obtain ⟨b1, hb1⟩ := bound_of g.getNodeList fun n => ((g.nodes.get? n).getD .empty).entries.length
  obtain ⟨b2, hb2⟩ := bound_of g.getEdgeList fun e => ((g.edgeAttr.get? e).getD .empty).entries.length
  obtain ⟨b3, hb3⟩ := bound_of cl fun c => c.2.nodeAttrs.entries.length
  obtain ⟨b4, hb4⟩ := bound_of cl fun c => c.2.attrs.entries.length + c.2.nodes.length + (inner g c).length + 1
  have hf2 : (g.getEdgeList.filter fun e => !((processed g cl).contains e)) =
      g.getEdgeList.filter fun e => !cl.any fun c => c.2.nodes.contains e.1 && c.2.nodes.contains e.2 := by
    apply List.filter_congr
    intro e he
    congr 1
    rw [Bool.eq_iff_iff, List.contains_iff_mem, mem_processed, List.any_eq_true]
    simp only [Bool.and_eq_true, List.contains_iff_mem]
    constructor
    · rintro ⟨c, hc, h, _⟩; exact ⟨c, hc, h⟩
    · rintro ⟨c, hc, h⟩; exact ⟨c, hc, h, (Search.checkEdge_iff _ _).2 (Or.inl he)⟩
  have htop := clustersStmts_eq hw hcl fun c hc => hc
  set NL := g.getNodeList.filter fun n => !cl.any fun c => c.2.nodes.contains n with hNL
  set EL := g.getEdgeList.filter fun e => !cl.any fun c => c.2.nodes.contains e.1 && c.2.nodes.contains e.2 with hEL
  refine ⟨(Stmt.header :: (attrs.map fun p : String × Val N => Stmt.attr p.1 p.2) ++ cl.flatMap (stmtsOf g) ++
      NL.map Stmt.node ++ EL.map Stmt.edge ++ [Stmt.close]).flatMap (render strN name g), b1 + b2 + b3 + b4 + attrs.length + cl.length + NL.length + EL.length + 1, inner g, ?_, fun c hc =>
    inner_perm hw hcl hc, fun k hk => ?_⟩
  · unfold Dot.toString toStmts
    rw [htop, hf2, ← hNL]
  obtain ⟨f, hf⟩ : ∃ f, k = attrs.length + (cl.length + (NL.length + (EL.length + (f + 1)))) :=
    ⟨k - (attrs.length + cl.length + NL.length + EL.length + 1), by omega⟩
  have hE := scanMany_list (p := scanTop k) (fun e => render strN name g (.edge e)) (fun e => .item (readEdge strN g e)) EL (by
    intro e he
    have he : e ∈ g.getEdgeList := (List.mem_filter.1 he).1
    have hp := hw.endp e.1 e.2 he
    have hu := (hok.node e.1 hp.1).1
    exact ⟨fun r => top_of (whole_edge hu _ (by decide +kernel) (by decide))
      (scanEdge hu (hok.node e.2 hp.2).1 (hok.edge e he) (by have := hb2 e he; omega) r), first_edge hu⟩)
    (s := ['}', '\n']) (r := ['\n']) (l' := []) (f := f + 1) rfl
  have hN := scanMany_list (p := scanTop k) (fun n => render strN name g (.node n)) (fun n => .item (readNode strN g n)) NL (by
    intro n hn
    have hn : n ∈ g.getNodeList := (List.mem_filter.1 hn).1
    have hu := hok.node n hn
    exact ⟨fun r => top_of (whole_node hu.1 _ (by decide +kernel) (by decide))
      (scanNode hu.1 hu.2 (by have := hb1 n hn; omega) r), first_node hu.1⟩) hE
  have hC := scanMany_list (p := scanTop k) (fun c => clusterText strN name g (inner g c) c)
    (fun c => readCluster strN g (inner g c) c) cl (by
    intro c hc
    refine ⟨fun r => scanCluster hw hok (hco c hc) (hcl.mem c hc) (fun e he => ((inner_mem hcl hc).1 he).1) ?_ ?_ ?_ ?_ r,
      first_cluster strN name g _ c⟩
    · intro n hn; have := hb1 n hn; omega
    · intro n hn; have := hb2 n hn; omega
    · have := hb3 c hc; omega
    · have := hb4 c hc; omega) hN
  have hA := scanMany_list (p := scanTop k) (fun p : String × Val N => render strN name g (.attr p.1 p.2))
    (fun p => .item (.assign p.1.toList (strVal strN p.2))) attrs (by
    intro p hp
    exact ⟨fun r => top_of (whole_attr (hattrs p hp).1 _ (by decide +kernel) (by decide)) (scanAttr (hattrs p hp) k r),
      first_attr (hattrs p hp).1⟩) hC
  rw [← hf] at hA
  have htext : (Stmt.header :: (attrs.map fun p : String × Val N => Stmt.attr p.1 p.2) ++ cl.flatMap (stmtsOf g) ++
      NL.map Stmt.node ++ EL.map Stmt.edge ++ [Stmt.close]).flatMap (render strN name g) =
      (if g.directed then "digraph ".toList else "graph ".toList) ++ (name ++ ' ' :: '{' :: '\n' ::
        (attrs.flatMap (fun p : String × Val N => render strN name g (.attr p.1 p.2)) ++
          (cl.flatMap (fun c => clusterText strN name g (inner g c) c) ++
            (NL.flatMap (fun n => render strN name g (.node n)) ++
              (EL.flatMap (fun e => render strN name g (.edge e)) ++ ['}', '\n']))))) := by
    simp only [List.flatMap_append, List.flatMap_cons, List.flatMap_nil, List.flatMap_map, List.append_nil, List.cons_append,
      List.append_assoc, render_header, render_close, List.nil_append, List.flatMap_assoc, stmtsOf_text]
  rw [htext]
  have hkind : ∀ s, scanKind (skipWs ((if g.directed then "digraph ".toList else "graph ".toList) ++ s)) =
      some (g.directed, ' ' :: s) := by
    intro s
    cases g.directed <;> rfl
  unfold scanGraphSub
  rw [hkind]
  simp only [skipWs_blank, scan_name hname (delim_of (c := ' ') (by decide) (by decide))]
  unfold scanTops
  simp only [skipWs_blank, skipWs_of (c := '{') ⟨by decide, by decide⟩, scanMany_line, hA]
  simp [skipWs]

/-- clusters for the witnesses of C118 -/
def exCls (color : String) : List (Val Nat × Misc.Cluster Nat) :=
  [(.str "c0", ⟨[1, 2], ⟨[("label", .str "x y"), ("color", .str color)]⟩, ⟨[("shape", .str "box"), ("style", .str "filled")]⟩⟩),
    exCl "c1" [3]]

/-- **C118 is false** for cluster attributes that need quotes: of the attributes of a cluster only the label is quoted.  With
`color = 'light blue'` (as node attribute it would be quoted) the text is no DOT graph at all, whatever the bound of the
reader; with `color = '#0000ff'` likewise. -/
theorem C118_false :
    (∃ t, Dot.toString (fun n => n.repr.toList) "G".toList (exDot true) [] (exCls "light blue") = .ok t ∧
      ∀ k, scanGraphSub k t = none) ∧
    ∃ t, Dot.toString (fun n => n.repr.toList) "G".toList (exDot true) [] (exCls "#0000ff") = .ok t ∧
      ∀ k, scanGraphSub k t = none :=
  ⟨⟨_, rfl, fun k => by
      rcases Nat.lt_or_ge k 20 with h | h
      · revert k; decide +kernel
      · obtain ⟨j, rfl⟩ := Nat.exists_eq_add_of_le' h
        rfl⟩,
    _, rfl, fun k => by
      rcases Nat.lt_or_ge k 20 with h | h
      · revert k; decide +kernel
      · obtain ⟨j, rfl⟩ := Nat.exists_eq_add_of_le' h
        rfl⟩

/-- non-vacuity of C118: two clusters with attributes, an edge inside, edges between them -/
example : Built (exDot true) ∧ IsName "G".toList ∧ GraphOk (fun n => n.repr.toList) (exDot true) ∧
    GoodClusters (exDot true) (exCls "red") ∧ (∀ c ∈ exCls "red", ClusterOk (fun n => n.repr.toList) c) ∧
    (match Dot.toString (fun n => n.repr.toList) "G".toList (exDot true) [] (exCls "red") with
      | .ok t => (scanGraphSub 20 t).isSome
      | .error _ => false) = true := by
  refine ⟨⟨true, _, by intro op _; cases op <;> simp [Op.InScope], rfl⟩, by decide +kernel, ⟨?_, ?_⟩,
    ⟨by decide +kernel, by decide +kernel, ?_, by intro h; cases h⟩, ?_, by decide +kernel⟩
  · unfold AttrsOk
    decide +kernel
  · unfold AttrsOk
    decide +kernel
  · intro c hc
    simp only [exCls, List.mem_cons, List.not_mem_nil, or_false] at hc
    rcases hc with rfl | rfl <;> simp [AllStr, exCl, Dict.empty]
  · intro c hc
    simp only [exCls, List.mem_cons, List.not_mem_nil, or_false] at hc
    rcases hc with rfl | rfl <;> refine ⟨?_, ?_, ?_⟩ <;> (try unfold CAttrOk) <;> (try unfold DAttrOk) <;> decide +kernel

end GiMPy
