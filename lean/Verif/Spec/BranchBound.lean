import Verif.Model.BranchBound

/-! # What the branch and bound program should do, and what is assumed of the queue and of the solver -/

namespace GiMPy
namespace BB

/-- a constraint holds at a point -/
def Con.Holds (c : Con) (x : String → ℚ) : Prop :=
  match c.rel with
  | .le => (c.terms.map fun p => p.1 * x p.2).sum ≤ c.rhs
  | .ge => c.rhs ≤ (c.terms.map fun p => p.1 * x p.2).sum
  | .eq => (c.terms.map fun p => p.1 * x p.2).sum = c.rhs

/-- the feasible points of a linear program with variables between 0 and 1 -/
def Feasible (vars : List String) (cons : List Con) (x : String → ℚ) : Prop :=
  (∀ v ∈ vars, 0 ≤ x v ∧ x v ≤ 1) ∧ ∀ c ∈ cons, c.Holds x

/-- the right answer to a linear program -/
def Exact (vars : List String) (P : Prob) : Option (String → ℚ) → Prop
  | none => ∀ x, ¬ Feasible vars P.cons x
  | some x => Feasible vars P.cons x ∧
      ∀ y, Feasible vars P.cons y → (P.obj.map fun p => p.1 * y p.2).sum ≤ (P.obj.map fun p => p.1 * x p.2).sum

/-- the problem is about these variables -/
def Over (vars : List String) (P : Prob) : Prop :=
  (∀ p ∈ P.obj, p.2 ∈ vars) ∧ ∀ c ∈ P.cons, ∀ p ∈ c.terms, p.2 ∈ vars

/-- A solver that answers every linear program correctly (`pulp` with exact arithmetic). -/
def ExactSolver (vars : List String) (solve : Prob → Option (String → ℚ)) : Prop :=
  ∀ P, Over vars P → Exact vars P (solve P)

/-- What `blimpy.PriorityQueue` does: `items q` are its entries with their priorities; `pop` takes out one of least priority. -/
structure LawfulBQ {Q : Type} (B : BQ Q) (items : Q → List (Item × ℚ)) : Prop where
  isEmpty_iff : ∀ q, B.isEmpty q = true ↔ items q = []
  push : ∀ q x p, (∀ e ∈ items q, e.1 ≠ x) → (items (B.push q x p)).Perm ((x, p) :: items q)
  pop : ∀ q, items q ≠ [] → ∃ x p q', B.pop q = some (x, q') ∧ (items q).Perm ((x, p) :: items q') ∧ ∀ e ∈ items q, p ≤ e.2

/-- the objective -/
def value (D : Data) (x : String → ℚ) : ℚ := (D.vars.map fun i => D.obj i * x i).sum

/-- a point satisfies the constraints of the instance -/
def RowsHold (D : Data) (x : String → ℚ) : Prop :=
  ∀ j < D.numCons, (D.vars.map fun i => D.mat i j * x i).sum ≤ D.rhs j

/-- a solution of the integer program -/
def Sol (D : Data) (x : String → ℚ) : Prop := (∀ v ∈ D.vars, x v = 0 ∨ x v = 1) ∧ RowsHold D x

/-- a list of fixed variables; `false` is 0 and `true` is 1 -/
abbrev Fixing := List (String × Bool)

/-- a point has the fixed values -/
def Sat (F : Fixing) (x : String → ℚ) : Prop := ∀ p ∈ F, x p.1 = if p.2 then 1 else 0

/-- a solution of the relaxation with fixed variables -/
def Relax (D : Data) (F : Fixing) (x : String → ℚ) : Prop :=
  (∀ v ∈ D.vars, 0 ≤ x v ∧ x v ≤ 1) ∧ RowsHold D x ∧ Sat F x

/-- the attributes of a node of the tree that fix a variable: `<= 0` or `>= 1` -/
def senseStr (b : Bool) : String := if b then ">=" else "<="
/-- the right-hand side that goes with it -/
def rhsInt (b : Bool) : Int := if b then 1 else 0

/-- The variables that are fixed on the way from the root 0 to the node `k`, the last one first, as written in the attributes of
the tree; the level of a node is their number. -/
inductive Path (attr : Nm → String → Except PyErr (Val Nm)) : Nat → Fixing → Prop
  | root : attr (.num 0) "level" = .ok (.int 0) → attr (.num 0) "parent" = .ok .none → Path attr 0 []
  | child {k p : Nat} {v : String} {b : Bool} {F : Fixing} : k ≠ 0 → attr (.num k) "branch_var" = .ok (.str v) →
      attr (.num k) "sense" = .ok (.str (senseStr b)) → attr (.num k) "rhs" = .ok (.int (rhsInt b)) →
      attr (.num k) "parent" = .ok (.name (.num p)) → attr (.num k) "level" = .ok (.int (F.length + 1 : Nat)) →
      Path attr p F → Path attr k ((v, b) :: F)

/-- What a node `k` of the search tree proves, if the variables `G` are fixed on the way to it, and `kid c v b` says that `c` is a
child of it with `v` fixed to `b`: there is no solution below it (I), the best one below it is not better than `lb` (S, P), or
it has two children that divide the solutions below it (C). -/
inductive NodeOk (D : Data) (C : Cfg) (attr : Nm → String → Except PyErr (Val Nm)) (kid : Nat → String → Bool → Prop) (lb : ℚ)
    (k : Nat) (G : Fixing) : Prop
  | infeasible : attr (.num k) "status" = .ok (.str "I") → attr (.num k) "color" = .ok (.str "orange") →
      (∀ x, ¬ Relax D G x) → (∀ c v b, ¬ kid c v b) → NodeOk D C attr kid lb k G
  | sol : attr (.num k) "status" = .ok (.str "S") → attr (.num k) "color" = .ok (.str "lightblue") →
      (∃ x, Sol D x ∧ Sat G x ∧ value D x ≤ lb ∧ ∀ y, Relax D G y → value D y ≤ value D x) → (∀ c v b, ¬ kid c v b) →
      NodeOk D C attr kid lb k G
  | pruned : attr (.num k) "status" = .ok (.str "P") → attr (.num k) "color" = .ok (.str "red") → C.complete = false →
      (∃ x, Relax D G x) → (∀ y, Relax D G y → value D y ≤ lb) → (∀ c v b, ¬ kid c v b) → NodeOk D C attr kid lb k G
  | candidate (v : String) (i j : Nat) : attr (.num k) "status" = .ok (.str "C") → attr (.num k) "color" = .ok (.str "yellow") →
      attr (.num k) "yellow" = .ok (.str "green") → v ∈ D.vars → v ∉ G.map Prod.fst → (∃ x, Relax D G x ∧ 0 < x v ∧ x v < 1 ∧ ∀ y, Relax D G y → value D y ≤ value D x) → i ≠ j →
      (∀ c w b, kid c w b ↔ w = v ∧ (c = i ∧ b = false ∨ c = j ∧ b = true)) → NodeOk D C attr kid lb k G

/-- the bound of the relaxation with fixed variables -/
def IsBound (D : Data) (G : Fixing) (r : ℚ) : Prop := (∃ x, Relax D G x ∧ value D x = r) ∧ ∀ y, Relax D G y → value D y ≤ r

/-- one turn of the loop -/
def turn {Q : Type} (B : BQ Q) (D : Data) (solve : Prob → Option (String → ℚ)) (C : Cfg) (fuel : Nat) (st : State Q) :
    Except PyErr (State Q) :=
  match B.pop st.q with
  | none => .error .indexError
  | some (it, q) => step B D solve C fuel it { st with q := q }

/-- the states at the head of the loop -/
inductive Reach {Q : Type} (B : BQ Q) (newQ : Q) (D : Data) (solve : Prob → Option (String → ℚ)) (C : Cfg) (fuel : Nat) :
    State Q → Prop
  | start : Reach B newQ D solve C fuel (BB.start B newQ)
  | next {st st' : State Q} : Reach B newQ D solve C fuel st → B.isEmpty st.q = false → turn B D solve C fuel st = .ok st' →
      Reach B newQ D solve C fuel st'

/-! ## A queue as a list -/

/-- the first entry of least priority, and the others -/
def takeMin : List (Item × ℚ) → Option ((Item × ℚ) × List (Item × ℚ))
  | [] => none
  | e :: l => match takeMin l with
    | none => some (e, [])
    | some (m, r) => if e.2 ≤ m.2 then some (e, l) else some (m, e :: r)

/-- a priority queue as a list of entries, the oldest first -/
def listBQ : BQ (List (Item × ℚ)) where
  isEmpty := List.isEmpty
  push q x p := q ++ [(x, p)]
  pop q := (takeMin q).map fun r => (r.1.1, r.2)

theorem takeMin_none {l : List (Item × ℚ)} (h : takeMin l = none) : l = [] := by
  cases l with
  | nil => rfl
  | cons e l =>
    simp only [takeMin] at h
    cases h' : takeMin l with
    | none => rw [h'] at h; simp at h
    | some r => rw [h'] at h; simp only [] at h; split at h <;> simp at h

theorem takeMin_some {l : List (Item × ℚ)} {m r} (h : takeMin l = some (m, r)) :
    l.Perm (m :: r) ∧ ∀ e ∈ l, m.2 ≤ e.2 := by
  induction l generalizing m r with
  | nil => simp [takeMin] at h
  | cons e l ih =>
    simp only [takeMin] at h
    cases h' : takeMin l with
    | none =>
      rw [h'] at h
      simp only [Option.some.injEq, Prod.mk.injEq] at h
      rw [takeMin_none h', ← h.1, ← h.2]
      exact ⟨.refl _, by simp⟩
    | some q =>
      obtain ⟨m', r'⟩ := q
      rw [h'] at h
      simp only [] at h
      obtain ⟨h1, h2⟩ := ih h'
      by_cases hle : e.2 ≤ m'.2
      · rw [if_pos hle] at h
        simp only [Option.some.injEq, Prod.mk.injEq] at h
        rw [← h.1, ← h.2]
        refine ⟨.refl _, ?_⟩
        intro e' he'
        rcases List.mem_cons.1 he' with rfl | he'
        · exact le_refl _
        · exact hle.trans (h2 e' he')
      · rw [if_neg hle] at h
        simp only [Option.some.injEq, Prod.mk.injEq] at h
        rw [← h.1, ← h.2]
        refine ⟨(h1.cons e).trans (.swap _ _ _), ?_⟩
        intro e' he'
        rcases List.mem_cons.1 he' with rfl | he'
        · exact le_of_lt (not_le.1 hle)
        · exact h2 e' he'

theorem listBQ_lawful : LawfulBQ listBQ id where
  isEmpty_iff q := by simp [listBQ]
  push q x p _ := by
    show (q ++ [(x, p)]).Perm _
    exact List.perm_append_comm
  pop q hq := by
    cases h : takeMin q with
    | none => exact absurd (takeMin_none h) hq
    | some r =>
      obtain ⟨m, r⟩ := r
      obtain ⟨h1, h2⟩ := takeMin_some h
      exact ⟨m.1, m.2, r, by simp [listBQ, h], h1, h2⟩

end BB
end GiMPy
