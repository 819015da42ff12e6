import Verif.Model.Search
import Verif.Lemmas.Dict
import Mathlib.Data.List.Nodup

/-! # Assumed behaviour of the queue classes of `blimpy`, with list implementations that satisfy it

`blimpy` is not part of the repository, so theorems about `search` hold for every queue satisfying these laws. -/

namespace GiMPy
variable {N : Type} [DecidableEq N] {Q : Type}
set_option linter.unusedSectionVars false

/-- What any of the three containers does: `items q` are its contents. -/
structure LawfulBag (O : QOps N Q) (items : Q → List N) : Prop where
  isEmpty_iff : ∀ q, O.isEmpty q = true ↔ items q = []
  peek_mem : ∀ q, items q ≠ [] → ∃ x ∈ items q, O.peek q = some x
  mem_push : ∀ q x y, y ∈ items (O.push q x) ↔ y = x ∨ y ∈ items q
  len_push : ∀ q x, (items (O.push q x)).length ≤ (items q).length + 1
  mem_pushP : ∀ q x p y, y ∈ items (O.pushP q x p) ↔ y = x ∨ y ∈ items q
  len_pushP : ∀ q x p, (items (O.pushP q x p)).length ≤ (items q).length + 1
  mem_remove : ∀ q x, x ∈ items q → ∀ y, y ≠ x → (y ∈ items (O.remove q x) ↔ y ∈ items q)
  len_remove : ∀ q x, x ∈ items q → (items (O.remove q x)).length < (items q).length

/-- A first-in first-out queue: `push` appends, `peek` shows the oldest, `remove` drops one occurrence. -/
structure LawfulFIFO (O : QOps N Q) (items : Q → List N) : Prop extends LawfulBag O items where
  push_eq : ∀ q x, items (O.push q x) = items q ++ [x]
  peek_eq : ∀ q, O.peek q = (items q).head?
  remove_eq : ∀ q x, x ∈ items q → ∃ l₁ l₂, items q = l₁ ++ x :: l₂ ∧ items (O.remove q x) = l₁ ++ l₂

/-- A last-in first-out stack: `push` puts on top, `peek` shows the top, `remove` drops one occurrence. -/
structure LawfulLIFO (O : QOps N Q) (items : Q → List N) : Prop extends LawfulBag O items where
  push_eq : ∀ q x, items (O.push q x) = x :: items q
  peek_eq : ∀ q, O.peek q = (items q).head?
  remove_eq : ∀ q x, x ∈ items q → ∃ l₁ l₂, items q = l₁ ++ x :: l₂ ∧ items (O.remove q x) = l₁ ++ l₂

/-- A priority queue: each item has one priority, `push` sets it, `peek` shows an item of least priority. -/
structure LawfulPQ (O : QOps N Q) (items : Q → List N) : Prop extends LawfulBag O items where
  isPQ : O.isPQ = true
  prio_isSome : ∀ q x, (O.getPriority q x).isSome ↔ x ∈ items q
  prio_push : ∀ q x p y, O.getPriority (O.pushP q x p) y = if y = x then some p else O.getPriority q y
  prio_remove : ∀ q x, x ∈ items q → ∀ y, O.getPriority (O.remove q x) y = if y = x then none else O.getPriority q y
  peek_min : ∀ q x y px py, O.peek q = some x → O.getPriority q x = some px → O.getPriority q y = some py → px ≤ py

/-! ## implementations -/

/-- a stack as a list, top at the head; `remove` takes out the deepest occurrence -/
def stackOps : QOps N (List N) where
  isEmpty := List.isEmpty
  peek := List.head?
  push q x := x :: q
  pushP q x _ := x :: q
  remove q x := (q.reverse.erase x).reverse
  getPriority _ _ := none
  isPQ := false

/-- a queue as a list, oldest at the head -/
def queueOps : QOps N (List N) where
  isEmpty := List.isEmpty
  peek := List.head?
  push q x := q ++ [x]
  pushP q x _ := q ++ [x]
  remove q x := q.erase x
  getPriority _ _ := none
  isPQ := false

/-- first entry of least priority -/
def minEntry : List (N × Int) → Option (N × Int)
  | [] => none
  | e :: l => match minEntry l with
    | none => some e
    | some m => if e.2 ≤ m.2 then some e else some m

/-- a priority queue as a dictionary from items to priorities; ties go to the earliest inserted item -/
def pqOps : QOps N (Dict N Int) where
  isEmpty d := d.entries.isEmpty
  peek d := (minEntry d.entries).map Prod.fst
  push d x := d.set x 0
  pushP d x p := d.set x p
  remove d x := d.erase x
  getPriority d x := d.get? x
  isPQ := true

theorem stack_lawful : LawfulBag (stackOps : QOps N (List N)) id where
  isEmpty_iff q := by simp [stackOps]
  peek_mem q h := by
    cases q with
    | nil => exact absurd rfl h
    | cons a q => exact ⟨a, by simp, rfl⟩
  mem_push q x y := by simp [stackOps]
  len_push q x := by simp [stackOps]
  mem_pushP q x p y := by simp [stackOps]
  len_pushP q x p := by simp [stackOps]
  mem_remove q x h y hy := by simp [stackOps, List.mem_erase_of_ne hy]
  len_remove q x h := by
    have h' : x ∈ q := h
    simp only [stackOps, id, List.length_reverse]
    rw [List.length_erase_of_mem (by simpa using h')]
    have : 0 < q.length := List.length_pos_of_mem h'
    simp; omega

theorem stack_lifo : LawfulLIFO (stackOps : QOps N (List N)) id where
  toLawfulBag := stack_lawful
  push_eq q x := rfl
  peek_eq q := rfl
  remove_eq q x h := by
    have h' : x ∈ q.reverse := by simpa using h
    obtain ⟨l₁, l₂, _, h1, h2⟩ := List.exists_erase_eq h'
    refine ⟨l₂.reverse, l₁.reverse, ?_, ?_⟩
    · show q = _
      rw [← List.reverse_reverse q, h1]; simp
    · show (q.reverse.erase x).reverse = _
      rw [h2]; simp

theorem queue_lawful : LawfulFIFO (queueOps : QOps N (List N)) id where
  isEmpty_iff q := by simp [queueOps]
  peek_mem q h := by
    cases q with
    | nil => exact absurd rfl h
    | cons a q => exact ⟨a, by simp, rfl⟩
  mem_push q x y := by simp [queueOps, or_comm]
  len_push q x := by simp [queueOps]
  mem_pushP q x p y := by simp [queueOps, or_comm]
  len_pushP q x p := by simp [queueOps]
  mem_remove q x h y hy := by simp [queueOps, List.mem_erase_of_ne hy]
  len_remove q x h := by
    have h' : x ∈ q := h
    simp only [queueOps, id]
    rw [List.length_erase_of_mem h']
    have : 0 < q.length := List.length_pos_of_mem h'
    omega
  push_eq q x := rfl
  peek_eq q := rfl
  remove_eq q x h := by
    obtain ⟨l₁, l₂, _, h1, h2⟩ := List.exists_erase_eq h
    exact ⟨l₁, l₂, h1, h2⟩

theorem minEntry_spec (l : List (N × Int)) :
    (l = [] ∧ minEntry l = none) ∨ ∃ m ∈ l, minEntry l = some m ∧ ∀ e ∈ l, m.2 ≤ e.2 := by
  induction l with
  | nil => exact Or.inl ⟨rfl, rfl⟩
  | cons e l ih =>
    refine Or.inr ?_
    rcases ih with ⟨rfl, h⟩ | ⟨m, hm, h, hmin⟩
    · exact ⟨e, by simp, by simp [minEntry], by simp⟩
    · simp only [minEntry, h]
      by_cases hle : e.2 ≤ m.2
      · refine ⟨e, by simp, by simp [hle], ?_⟩
        intro e' he'
        rcases List.mem_cons.1 he' with rfl | he'
        · exact Int.le_refl _
        · exact Int.le_trans hle (hmin e' he')
      · refine ⟨m, by simp [hm], by simp [hle], ?_⟩
        intro e' he'
        rcases List.mem_cons.1 he' with rfl | he'
        · omega
        · exact hmin e' he'

/-- dictionaries as kept by the priority queue have no repeated keys; we package that with the queue -/
abbrev PQ (N : Type) := { d : Dict N Int // d.keys.Nodup }

/-- `pqOps` on dictionaries without repeated keys -/
def pqOps' : QOps N (PQ N) where
  isEmpty d := pqOps.isEmpty d.1
  peek d := pqOps.peek d.1
  push d x := ⟨d.1.set x 0, Dict.nodup_keys_set d.2 _ _⟩
  pushP d x p := ⟨d.1.set x p, Dict.nodup_keys_set d.2 _ _⟩
  remove d x := ⟨d.1.erase x, Dict.nodup_keys_erase d.2 _⟩
  getPriority d x := d.1.get? x
  isPQ := true

theorem keys_length_set (d : Dict N Int) (x p) : (d.set x p).keys.length ≤ d.keys.length + 1 := by
  rw [Dict.keys_set]; split <;> simp

theorem pq_lawful : LawfulPQ (pqOps' : QOps N (PQ N)) (fun d => d.1.keys) where
  isEmpty_iff q := by simp [pqOps', pqOps, Dict.keys]
  peek_mem q h := by
    rcases minEntry_spec q.1.entries with ⟨h1, _⟩ | ⟨m, hm, h1, _⟩
    · exact absurd (by simp [Dict.keys, h1]) h
    · exact ⟨m.1, List.mem_map.2 ⟨m, hm, rfl⟩, by simp [pqOps', pqOps, h1]⟩
  mem_push q x y := by simp [pqOps', Dict.mem_keys_set]
  len_push q x := keys_length_set _ _ _
  mem_pushP q x p y := by simp [pqOps', Dict.mem_keys_set]
  len_pushP q x p := keys_length_set _ _ _
  mem_remove q x h y hy := by simp [pqOps', Dict.mem_keys_erase, hy]
  len_remove q x h := by
    simp only [pqOps', Dict.keys_erase]
    exact List.length_filter_lt_length_iff_exists.2 ⟨x, h, by simp⟩
  isPQ := rfl
  prio_isSome q x := (Dict.mem_keys _ _).symm
  prio_push q x p y := by
    simp only [pqOps', Dict.get?_set]
    by_cases h : x = y <;> simp [h, eq_comm]
  prio_remove q x h y := by
    simp only [pqOps', Dict.get?_erase]
    by_cases h : x = y <;> simp [h, eq_comm]
  peek_min q x y px py hx hpx hpy := by
    rcases minEntry_spec q.1.entries with ⟨h1, h2⟩ | ⟨m, hm, h1, hmin⟩
    · simp [pqOps', pqOps, h2] at hx
    · simp only [pqOps', pqOps, h1, Option.map_some, Option.some.injEq] at hx hpx hpy
      subst hx
      rw [Dict.entries_eq_of_get? _ q.2] at hpx hpy
      have e1 : (q.1).get? m.1 = some m.2 := (Dict.entries_eq_of_get? _ q.2 _ _).2 hm
      have e2 := (Dict.entries_eq_of_get? _ q.2 _ _).2 hpx
      rw [e1] at e2
      have := hmin _ hpy
      simp only [Option.some.injEq] at e2
      omega

end GiMPy
