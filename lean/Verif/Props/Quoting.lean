import Verif.Spec.Regex
import Verif.Props.Dot

/-! # C45: which strings are quoted, in terms of the regular expressions of the code -/

namespace GiMPy
namespace Rx
open Dot

theorem mem_star {l : List (Char × Char)} {s : List Char} :
    s ∈ KStar.kstar (cls l) ↔ ∀ c ∈ s, ∃ r ∈ l, r.1 ≤ c ∧ c ≤ r.2 := by
  rw [Language.mem_kstar]
  constructor
  · rintro ⟨L, rfl, h⟩ c hc
    obtain ⟨x, hx, hc⟩ := List.mem_flatten.1 hc
    obtain ⟨d, hd, rfl⟩ := h x hx
    obtain rfl := List.mem_singleton.1 hc
    exact hd
  · intro h
    refine ⟨s.map fun c => [c], ?_, ?_⟩
    · induction s with
      | nil => rfl
      | cons c s ih => simp [← ih fun d hd => h d (by simp [hd])]
    · intro y hy
      obtain ⟨c, hc, rfl⟩ := List.mem_map.1 hy
      exact ⟨c, h c hc, rfl⟩

theorem mem_any (s : List Char) : s ∈ KStar.kstar any := by
  rw [Language.mem_kstar]
  refine ⟨s.map fun c => [c], ?_, ?_⟩
  · induction s with
    | nil => rfl
    | cons c s ih => simp [← ih]
  · intro y hy
    obtain ⟨c, _, rfl⟩ := List.mem_map.1 hy
    exact ⟨c, rfl⟩

theorem mem_cls_mul {l : List (Char × Char)} {L : Language Char} {s : List Char} :
    s ∈ cls l * L ↔ ∃ c t, s = c :: t ∧ (∃ r ∈ l, r.1 ≤ c ∧ c ≤ r.2) ∧ t ∈ L := by
  rw [Language.mem_mul]
  constructor
  · rintro ⟨_, ⟨c, hc, rfl⟩, t, ht, rfl⟩
    exact ⟨c, t, rfl, hc, ht⟩
  · rintro ⟨c, t, rfl, hc, ht⟩
    exact ⟨[c], ⟨c, hc, rfl⟩, t, ht, rfl⟩

theorem mem_dollar {L : Language Char} {p : List Char → Bool} (h : ∀ s, s ∈ L ↔ p s = true) (s : List Char) :
    s ∈ dollar L ↔ atEnd p s = true := by
  unfold dollar atEnd lit
  rw [Language.mem_add, Language.mem_mul, Bool.or_eq_true, h, Bool.and_eq_true, beq_iff_eq]
  refine or_congr Iff.rfl ⟨?_, ?_⟩
  · rintro ⟨a, ha, b, hb, rfl⟩
    obtain rfl : b = ['\n'] := hb
    simpa using (h a).1 ha
  · rintro ⟨h1, h2⟩
    refine ⟨s.dropLast, (h _).2 h2, ['\n'], rfl, ?_⟩
    exact List.dropLast_append_getLast? _ h1

theorem eqv (c : Char) : ∀ d : Char, d ≤ c ∧ c ≤ d ↔ c = d :=
  fun _ => ⟨fun h => Char.le_antisymm h.2 h.1, fun h => h ▸ ⟨Char.le_refl _, Char.le_refl _⟩⟩

theorem first_iff (c : Char) : (∃ r ∈ cFirst, r.1 ≤ c ∧ c ≤ r.2) ↔ isAlpha c = true := by
  have e := eqv c
  simp only [cFirst, isAlpha, List.exists_mem_cons_iff, List.not_mem_nil, false_and, exists_false, or_false, e, Bool.or_eq_true,
    Bool.and_eq_true, decide_eq_true_eq, beq_iff_eq]
  tauto

theorem word_iff (c : Char) : (∃ r ∈ cWord, r.1 ≤ c ∧ c ≤ r.2) ↔ isWord c = true := by
  have e := eqv c
  simp only [cWord, isWord, isAlpha, isNum, List.exists_mem_cons_iff, List.not_mem_nil, false_and, exists_false, or_false, e,
    Bool.or_eq_true, Bool.and_eq_true, decide_eq_true_eq, beq_iff_eq]
  tauto

theorem port_iff (c : Char) : (∃ r ∈ cPort, r.1 ≤ c ∧ c ≤ r.2) ↔ (isWord c || c == ':' || c == '"') = true := by
  have e := eqv c
  simp only [cPort, isWord, isAlpha, isNum, List.exists_mem_cons_iff, List.not_mem_nil, false_and, exists_false, or_false, e,
    Bool.or_eq_true, Bool.and_eq_true, decide_eq_true_eq, beq_iff_eq]
  tauto

theorem last_iff (c : Char) : (∃ r ∈ cLast, r.1 ≤ c ∧ c ≤ r.2) ↔ (isWord c || c == '"') = true := by
  have e := eqv c
  simp only [cLast, isWord, isAlpha, isNum, List.exists_mem_cons_iff, List.not_mem_nil, false_and, exists_false, or_false, e,
    Bool.or_eq_true, Bool.and_eq_true, decide_eq_true_eq, beq_iff_eq]
  tauto

theorem num_iff (c : Char) : (∃ r ∈ cNum, r.1 ≤ c ∧ c ≤ r.2) ↔ (isNum c || c == ',') = true := by
  have e := eqv c
  simp only [cNum, isNum, List.exists_mem_cons_iff, List.not_mem_nil, false_and, exists_false, or_false, e,
    Bool.or_eq_true, Bool.and_eq_true, decide_eq_true_eq, beq_iff_eq]

theorem alphaNums_iff (s : List Char) : s ∈ alphaNums ↔ atEnd reAlnum s = true := by
  refine mem_dollar (fun s => ?_) s
  rw [mem_cls_mul]
  cases s with
  | nil => simp [reAlnum]
  | cons c t =>
    simp only [reAlnum, Bool.and_eq_true, List.all_eq_true, ← first_iff, ← word_iff, ← mem_star]
    constructor
    · rintro ⟨_, _, h, h1, h2⟩; cases h; exact ⟨h1, h2⟩
    · rintro ⟨h1, h2⟩; exact ⟨c, t, rfl, h1, h2⟩

theorem num_mem (s : List Char) : s ∈ num ↔ atEnd reNum s = true := by
  refine mem_dollar (fun s => ?_) s
  unfold plus
  rw [mem_cls_mul]
  cases s with
  | nil => simp [reNum]
  | cons c t =>
    simp only [reNum, List.isEmpty_cons, Bool.not_false, Bool.true_and, List.all_eq_true, List.forall_mem_cons, ← num_iff, ← mem_star]
    constructor
    · rintro ⟨_, _, h, h1, h2⟩; cases h; exact ⟨h1, h2⟩
    · rintro ⟨h1, h2⟩; exact ⟨c, t, rfl, h1, h2⟩

theorem between_iff (l r : Char) (s : List Char) :
    s ∈ dollar (lit l * KStar.kstar any * lit r) ↔ atEnd (reBetween l r) s = true := by
  refine mem_dollar (fun s => ?_) s
  unfold reBetween lit
  simp only [Language.mem_mul, Bool.and_eq_true, decide_eq_true_eq, beq_iff_eq]
  constructor
  · rintro ⟨_, ⟨a, ha, b, _, rfl⟩, c, hc, rfl⟩
    obtain rfl : a = [l] := ha
    obtain rfl : c = [r] := hc
    refine ⟨⟨by simp, by simp⟩, by rw [List.getLast?_append]; rfl⟩
  · rintro ⟨⟨h1, h2⟩, h3⟩
    cases s with
    | nil => cases h2
    | cons c t =>
      cases h2
      have h3 : t.getLast? = some r := by
        cases t with
        | nil => simp at h1
        | cons d t => rwa [List.getLast?_cons_cons] at h3
      exact ⟨l :: t.dropLast, ⟨[l], rfl, t.dropLast, mem_any _, rfl⟩, [r], rfl, by
        rw [List.cons_append, List.dropLast_append_getLast? _ h3]⟩

theorem withPorts_iff (s : List Char) : s ∈ withPorts ↔ atEnd rePorts s = true := by
  refine mem_dollar (fun s => ?_) s
  rw [mul_assoc, mem_cls_mul]
  cases s with
  | nil => simp [rePorts]
  | cons c t =>
    have key : t ∈ KStar.kstar (cls cPort) * plus (cls cLast) ↔
        t ≠ [] ∧ (∀ d ∈ t, ∃ r ∈ cPort, r.1 ≤ d ∧ d ≤ r.2) ∧ t.getLast? ≠ some ':' := by
      have sub : ∀ d, (∃ r ∈ cLast, r.1 ≤ d ∧ d ≤ r.2) → ∃ r ∈ cPort, r.1 ≤ d ∧ d ≤ r.2 := by
        intro d
        rw [last_iff, port_iff]
        simp only [Bool.or_eq_true, beq_iff_eq]
        tauto
      have colon : ¬ ∃ r ∈ cLast, r.1 ≤ ':' ∧ ':' ≤ r.2 := by decide
      unfold plus
      rw [Language.mem_mul]
      constructor
      · rintro ⟨a, ha, b, hb, rfl⟩
        obtain ⟨d, b, rfl, hd, hb⟩ := mem_cls_mul.1 hb
        rw [mem_star] at ha hb
        refine ⟨by simp, ?_, ?_⟩
        · intro x hx
          rcases List.mem_append.1 hx with hx | hx
          · exact ha x hx
          · rcases List.mem_cons.1 hx with rfl | hx
            · exact sub _ hd
            · exact sub _ (hb x hx)
        · intro h
          rw [List.getLast?_append, List.getLast?_cons] at h
          simp only [Option.some_or, Option.some.injEq] at h
          cases hl : b.getLast? with
          | none => rw [hl] at h; simp only [Option.getD_none] at h; subst h; exact colon hd
          | some x =>
            rw [hl] at h; simp only [Option.getD_some] at h; subst h
            exact colon (hb _ (List.mem_of_getLast? hl))
      · rintro ⟨h1, h2, h3⟩
        obtain ⟨x, hx⟩ : ∃ x, t.getLast? = some x := ⟨_, List.getLast?_eq_some_getLast h1⟩
        refine ⟨t.dropLast, mem_star.2 fun d hd => h2 d ((List.dropLast_sublist t).subset hd), [x], ?_,
          List.dropLast_append_getLast? _ hx⟩
        refine mem_cls_mul.2 ⟨x, [], rfl, ?_, mem_star.2 (by simp)⟩
        have := (port_iff x).1 (h2 x (List.mem_of_getLast? hx))
        rw [last_iff]
        have hne : x ≠ ':' := fun h => h3 (by rw [hx, h])
        simp only [Bool.or_eq_true, beq_iff_eq] at this ⊢
        tauto
    have h1 : rePorts (c :: t) = true ↔ (∃ r ∈ cFirst, r.1 ≤ c ∧ c ≤ r.2) ∧ t ≠ [] ∧
        (∀ d ∈ t, ∃ r ∈ cPort, r.1 ≤ d ∧ d ≤ r.2) ∧ t.getLast? ≠ some ':' := by
      simp only [first_iff, port_iff, rePorts, Bool.and_eq_true, Bool.not_eq_true', List.all_eq_true, List.isEmpty_eq_false_iff,
        beq_eq_false_iff_ne, and_assoc]
    rw [h1, ← key]
    constructor
    · rintro ⟨_, _, h, h2, h3⟩; cases h; exact ⟨h2, h3⟩
    · rintro ⟨h2, h3⟩; exact ⟨c, t, rfl, h2, h3⟩

theorem foreign_iff (s : List Char) : Foreign s ↔
    ((s.any fun c => 127 < c.toNat || c.toNat == 0) && !Dot.dblQuoted s && !Dot.html s) = true := by
  unfold Foreign dblQuoted html Dot.dblQuoted Dot.html
  rw [between_iff, between_iff]
  simp only [Bool.and_eq_true, List.any_eq_true, Bool.or_eq_true, decide_eq_true_eq, beq_iff_eq, Bool.not_eq_true',
    Bool.not_eq_true, and_assoc, gt_iff_lt]

theorem keyword_iff (s : List Char) : (∃ k ∈ keyword, s = k.toList) ↔ s ∈ keywords := by
  simp [keyword, keywords]

theorem base_iff (s : List Char) : (base s = some false ↔ Simple s) ∧
    (base s = none → ¬ Foreign s ∧ ¬ ∃ k ∈ keyword, s = k.toList) ∧ (base s = some true → Foreign s) := by
  unfold Simple
  rw [keyword_iff, foreign_iff, alphaNums_iff, num_mem, withPorts_iff]
  unfold dblQuoted html
  rw [between_iff, between_iff]
  show (base s = some false ↔ s ∈ keywords ∨ ¬ _ ∧ (_ ∨ _ ∨ Dot.dblQuoted s = true ∨ Dot.html s = true ∨ _)) ∧ _
  unfold base
  by_cases h1 : s ∈ keywords
  · simp [h1]
  · rw [if_neg h1]
    by_cases h2 : ((s.any fun c => 127 < c.toNat || c.toNat == 0) && !Dot.dblQuoted s && !Dot.html s) = true
    · rw [if_pos h2]
      simp only [h1, h2, not_true_eq_false, false_and, or_false]
      simp
    · rw [if_neg h2]
      by_cases h3 : (atEnd reAlnum s || atEnd reNum s || Dot.dblQuoted s || Dot.html s || atEnd rePorts s) = true
      · rw [if_pos h3]
        simp only [Bool.or_eq_true] at h3
        simp only [h1, h2, not_false_eq_true, true_and, false_or, true_iff, reduceCtorEq, false_implies, and_true]
        tauto
      · rw [if_neg h3]
        simp only [Bool.or_eq_true] at h3
        simp only [h1, h2, not_false_eq_true, true_and, false_or, reduceCtorEq, false_iff, false_implies, and_true]
        tauto

end Rx

open Rx Dot in
/-- **C45**, which strings are written as they are: `needs_quotes` is False exactly for the keywords of DOT, for the strings that
match one of the five regular expressions of the code, and for two such strings with a colon between; and, apart from
keywords, only if no character is outside ASCII (or 0), or quotes or angle brackets are around the whole string. -/
theorem C45_needs_quotes (s : List Char) : needsQuotes s = false ↔
    Simple s ∨ ¬ Foreign s ∧ ∃ a b, s = a ++ ':' :: b ∧ ':' ∉ a ∧ ':' ∉ b ∧ Simple a ∧ Simple b := by
  obtain ⟨h1, h2, h3⟩ := base_iff s
  have get : ∀ x : List Char, (base x).getD true = false ↔ Simple x := by
    intro x
    rw [← (base_iff x).1]
    rcases base x with _ | _ | _ <;> simp
  unfold needsQuotes
  cases hb : base s with
  | some b =>
    cases b with
    | false => simp [h1.1 hb]
    | true =>
      have : ¬ Simple s := fun h => by rw [h1.2 h] at hb; cases hb
      simp [this, h3 hb]
  | none =>
    have hs : ¬ Simple s := fun h => by rw [h1.2 h] at hb; cases hb
    simp only [hs, false_or, (h2 hb).1, not_false_eq_true, true_and]
    unfold splitPort
    by_cases hc : s.count ':' = 1
    · rw [if_pos hc]
      simp only [Bool.or_eq_false_iff, get]
      obtain ⟨a, b, rfl, ha, hb'⟩ : ∃ a b, s = a ++ ':' :: b ∧ ':' ∉ a ∧ ':' ∉ b := by
        have hm : ':' ∈ s := List.count_pos_iff.1 (by omega)
        obtain ⟨a, b, rfl, ha⟩ := List.eq_append_cons_of_mem hm
        refine ⟨a, b, rfl, ha, ?_⟩
        rw [List.count_append, List.count_cons_self, List.count_eq_zero.2 ha] at hc
        exact List.count_eq_zero.1 (by omega)
      have ht : (a ++ ':' :: b).takeWhile (fun x => decide (x ≠ ':')) = a := by
        rw [List.takeWhile_append_of_pos (by intro x hx; have : x ≠ ':' := fun e => ha (e ▸ hx); simpa using this), List.takeWhile_cons]
        simp
      have hd : (a ++ ':' :: b).dropWhile (fun x => decide (x ≠ ':')) = ':' :: b := by
        rw [List.dropWhile_append_of_pos (by intro x hx; have : x ≠ ':' := fun e => ha (e ▸ hx); simpa using this), List.dropWhile_cons]
        simp
      rw [ht, hd, List.tail_cons]
      constructor
      · rintro ⟨h4, h5⟩; exact ⟨a, b, rfl, ha, hb', h4, h5⟩
      · rintro ⟨a', b', he, ha2, hb2, h4, h5⟩
        have := congrArg (List.takeWhile fun x => decide (x ≠ ':')) he
        rw [ht, List.takeWhile_append_of_pos (by intro x hx; have : x ≠ ':' := fun e => ha2 (e ▸ hx); simpa using this), List.takeWhile_cons] at this
        simp only [ne_eq, not_true_eq_false, decide_false, Bool.false_eq_true, if_false, List.append_nil] at this
        subst this
        simp only [List.append_cancel_left_eq, List.cons.injEq, true_and] at he
        subst he
        exact ⟨h4, h5⟩
    · rw [if_neg hc]
      simp only [Bool.true_eq_false, false_iff]
      rintro ⟨a, b, rfl, ha, hb', _, _⟩
      rw [List.count_append, List.count_cons_self, List.count_eq_zero.2 ha, List.count_eq_zero.2 hb'] at hc
      omega

open Rx Dot in
/-- non-vacuity of `C45_needs_quotes`: strings of each kind -/
example : needsQuotes "node".toList = false ∧ needsQuotes "x,1".toList = false ∧ needsQuotes "<b>".toList = false ∧
    needsQuotes "12:<b>".toList = false ∧ needsQuotes "12:a b".toList = true ∧ needsQuotes "ü".toList = true ∧
    needsQuotes "\"ü\"".toList = false := by decide +kernel

end GiMPy
