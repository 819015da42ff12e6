import Verif.Model.Py
import Mathlib.Data.List.Nodup

/-! # Lemmas about dictionaries -/

namespace GiMPy.Dict
variable {K V : Type} [DecidableEq K]
set_option linter.unusedSectionVars false

theorem getL_setL (d : List (K × V)) (k k' : K) (v : V) :
    getL (setL d k v) k' = if k = k' then some v else getL d k' := by
  induction d with
  | nil => simp [setL, getL]
  | cons e d ih =>
    obtain ⟨a, b⟩ := e
    simp only [setL]
    by_cases h1 : a = k
    · subst h1; simp only [if_true, getL]; split <;> rfl
    · simp only [h1, if_false, getL, ih]
      by_cases h2 : a = k'
      · subst h2; simp [Ne.symm h1]
      · simp [h2]

@[simp] theorem get?_empty (k : K) : (empty : Dict K V).get? k = none := rfl

theorem get?_set (d : Dict K V) (k k' : K) (v : V) :
    (d.set k v).get? k' = if k = k' then some v else d.get? k' := getL_setL _ _ _ _

@[simp] theorem get?_set_self (d : Dict K V) (k : K) (v : V) : (d.set k v).get? k = some v := by
  simp [get?_set]

theorem get?_set_ne (d : Dict K V) {k k' : K} (v : V) (h : k ≠ k') : (d.set k v).get? k' = d.get? k' := by
  simp [get?_set, h]

theorem getL_filter (d : List (K × V)) (k k' : K) :
    getL (d.filter (fun e => ¬ e.1 = k)) k' = if k = k' then none else getL d k' := by
  induction d with
  | nil => simp [getL]
  | cons e d ih =>
    obtain ⟨a, b⟩ := e
    simp only [List.filter_cons, decide_not, getL]
    simp only [decide_not] at ih
    by_cases h1 : a = k
    · subst h1
      simp only [decide_true, Bool.not_true, Bool.false_eq_true, if_false, ih]
      split <;> rfl
    · simp only [h1, decide_false, Bool.not_false, if_true, getL, ih]
      by_cases h2 : a = k'
      · subst h2; simp [Ne.symm h1]
      · simp [h2]

theorem get?_erase (d : Dict K V) (k k' : K) :
    (d.erase k).get? k' = if k = k' then none else d.get? k' := getL_filter _ _ _

@[simp] theorem keys_empty : (empty : Dict K V).keys = [] := rfl

theorem mem_keysL (d : List (K × V)) (k : K) : k ∈ d.map Prod.fst ↔ (getL d k).isSome := by
  induction d with
  | nil => simp [getL]
  | cons e d ih =>
    obtain ⟨a, b⟩ := e
    simp only [List.map_cons, List.mem_cons, getL]
    by_cases h : a = k
    · simp [h]
    · simp [h, Ne.symm h, ih]

theorem mem_keys (d : Dict K V) (k : K) : k ∈ d.keys ↔ (d.get? k).isSome := mem_keysL _ _

theorem mem_keys' (d : Dict K V) (k : K) : k ∈ d.keys ↔ ∃ v, d.get? k = some v := by
  rw [mem_keys, Option.isSome_iff_exists]

theorem contains_iff (d : Dict K V) (k : K) : d.contains k = true ↔ k ∈ d.keys := by
  rw [mem_keys]; rfl

theorem get?_eq_none_iff (d : Dict K V) (k : K) : d.get? k = none ↔ k ∉ d.keys := by
  rw [mem_keys]; cases d.get? k <;> simp

theorem mem_keys_of_get? {d : Dict K V} {k : K} {v : V} (h : d.get? k = some v) : k ∈ d.keys := by
  rw [mem_keys, h]; rfl

theorem keysL_setL (d : List (K × V)) (k : K) (v : V) :
    (setL d k v).map Prod.fst = if k ∈ d.map Prod.fst then d.map Prod.fst else d.map Prod.fst ++ [k] := by
  induction d with
  | nil => simp [setL]
  | cons e d ih =>
    obtain ⟨a, b⟩ := e
    simp only [setL]
    by_cases h : a = k
    · simp [h]
    · simp only [h, if_false, List.map_cons, ih, List.mem_cons, Ne.symm h, false_or]
      split <;> simp

theorem keys_set (d : Dict K V) (k : K) (v : V) :
    (d.set k v).keys = if k ∈ d.keys then d.keys else d.keys ++ [k] := keysL_setL _ _ _

theorem keys_set_of_mem {d : Dict K V} {k : K} (v : V) (h : k ∈ d.keys) : (d.set k v).keys = d.keys := by
  rw [keys_set, if_pos h]

theorem keys_set_of_not_mem {d : Dict K V} {k : K} (v : V) (h : k ∉ d.keys) :
    (d.set k v).keys = d.keys ++ [k] := by
  rw [keys_set, if_neg h]

theorem mem_keys_set (d : Dict K V) (k k' : K) (v : V) : k' ∈ (d.set k v).keys ↔ k' = k ∨ k' ∈ d.keys := by
  rw [keys_set]; split
  · constructor
    · exact Or.inr
    · rintro (rfl | h) <;> assumption
  · simp [or_comm]

theorem keys_erase (d : Dict K V) (k : K) : (d.erase k).keys = d.keys.filter (fun x => ¬ x = k) := by
  unfold erase keys
  rw [List.filter_map]
  rfl

theorem mem_keys_erase (d : Dict K V) (k k' : K) : k' ∈ (d.erase k).keys ↔ k' ≠ k ∧ k' ∈ d.keys := by
  rw [keys_erase]; simp [and_comm]

theorem nodup_keys_set {d : Dict K V} (h : d.keys.Nodup) (k : K) (v : V) : (d.set k v).keys.Nodup := by
  rw [keys_set]; split
  · exact h
  · next hk => exact List.nodup_append.2 ⟨h, by simp, by
      intro a ha b hb; simp at hb; subst hb; rintro rfl; exact hk ha⟩

theorem nodup_keys_erase {d : Dict K V} (h : d.keys.Nodup) (k : K) : (d.erase k).keys.Nodup := by
  rw [keys_erase]; exact h.filter _

theorem keys_length (d : Dict K V) : d.keys.length = d.entries.length := by simp [keys]

theorem get?_update (d : Dict K V) (l : List (K × V)) (k : K) :
    (d.update l).get? k = ((getL l.reverse k).orElse fun _ => d.get? k) := by
  induction l generalizing d with
  | nil => simp [update, getL]
  | cons e l ih =>
    obtain ⟨a, b⟩ := e
    simp only [update, ih, List.reverse_cons, get?_set]
    have : ∀ (xs : List (K × V)), getL (xs ++ [(a, b)]) k = ((getL xs k).orElse fun _ => if a = k then some b else none) := by
      intro xs
      induction xs with
      | nil => simp [getL]
      | cons y ys ih2 => obtain ⟨c, e⟩ := y; simp only [List.cons_append, getL]; split <;> simp [ih2]
    rw [this]
    cases getL l.reverse k <;> simp
    split <;> simp

theorem entries_eq_of_get? (d : Dict K V) (h : d.keys.Nodup) (k : K) (v : V) :
    d.get? k = some v ↔ (k, v) ∈ d.entries := by
  obtain ⟨es⟩ := d
  simp only [get?, keys] at *
  induction es with
  | nil => simp [getL]
  | cons e es ih =>
    obtain ⟨a, b⟩ := e
    simp only [List.map_cons, List.nodup_cons] at h
    simp only [getL, List.mem_cons, Prod.mk.injEq]
    by_cases hak : a = k
    · subst hak
      simp only [if_true, Option.some.injEq, true_and]
      constructor
      · intro h2; exact Or.inl h2.symm
      · rintro (h2 | h2)
        · exact h2.symm
        · exact absurd (List.mem_map.2 ⟨_, h2, rfl⟩) h.1
    · simp [hak, Ne.symm hak, ih h.2]

end GiMPy.Dict
