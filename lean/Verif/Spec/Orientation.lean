/-
Specification of coherent orientation of a list of simplices, and of a SAT solver.
-/
import Verif.Spec.Simplicial
import Mathlib.Logic.Relation

namespace Verif.Spec

/-- `e` is a face of `l`: the corners of `l` with one deleted -/
def IsFace (e l : List Nat) : Prop := ∃ c < l.length, e.Perm (l.eraseIdx c)

/-- orientation that the simplex `l` induces on its face `e`: `(-1)^c` times the sign relating
the corner order of `e` to that of `l` without corner `c`; zero if `e` is not a face. -/
def inducedSign (e l : List Nat) : Int :=
  ((List.range l.length).map fun c => (-1) ^ c * relSign e (l.eraseIdx c)).sum

/-- `e` is shared by exactly the two simplices number `j1` and `j2` of the list -/
def SharedFace (rows : List (List Nat)) (e : List Nat) (j1 j2 : Nat) : Prop :=
  j1 ≠ j2 ∧ j1 < rows.length ∧ j2 < rows.length ∧
  ∀ j l, rows[j]? = some l → (IsFace e l ↔ j = j1 ∨ j = j2)

/-- every face shared by exactly two simplices receives opposite orientations from them -/
def Coherent (rows : List (List Nat)) : Prop :=
  ∀ e j1 j2 l1 l2, rows[j1]? = some l1 → rows[j2]? = some l2 → SharedFace rows e j1 j2 →
    inducedSign e l1 + inducedSign e l2 = 0

/-- an orientation choice: each simplex is kept or reversed (first two corners exchanged) -/
def reorient (flip : Nat → Bool) (rows : List (List Nat)) : List (List Nat) :=
  rows.mapIdx fun j l => if flip j then (match l with | a :: b :: t => b :: a :: t | l => l) else l

/-- some choice of orientations is coherent -/
def Orientable (rows : List (List Nat)) : Prop := ∃ flip, Coherent (reorient flip rows)

/-- two simplices are neighbours if they share a face that no other simplex has -/
def Adjacent (rows : List (List Nat)) (j1 j2 : Nat) : Prop := ∃ e, SharedFace rows e j1 j2

/-- connected through shared faces -/
def Connected (rows : List (List Nat)) : Prop :=
  ∀ j1 < rows.length, ∀ j2 < rows.length, Relation.ReflTransGen (Adjacent rows) j1 j2

/-- `σ` satisfies a clause: some literal `v` has the sign chosen by `σ` for variable `|v|` -/
def Satisfies (σ : Nat → Bool) (clause : List Int) : Prop :=
  ∃ v ∈ clause, σ v.natAbs = decide (0 < v)

/-- the contract of the SAT solver: an answer lists, for every variable `1..max`, the variable
with the sign of a satisfying assignment; no answer only if there is none. -/
def SatSpec (solve : List (List Int) → Option (List Int)) : Prop :=
  ∀ clauses, (∀ c ∈ clauses, ∀ v ∈ c, v ≠ 0) →
    (∀ m, solve clauses = some m → ∃ σ : Nat → Bool,
      m = (List.range ((clauses.flatten.map Int.natAbs).foldl max 0)).map
        (fun v => if σ (v + 1) then ((v : Int) + 1) else -((v : Int) + 1)) ∧
      ∀ c ∈ clauses, Satisfies σ c) ∧
    (solve clauses = none → ¬ ∃ σ : Nat → Bool, ∀ c ∈ clauses, Satisfies σ c)

end Verif.Spec
