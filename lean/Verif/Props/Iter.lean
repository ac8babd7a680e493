/-
C46: the iteration helpers.
-/
import Verif.Model.Iter

namespace Verif.Props

open Verif.Model

theorem pairsLoop_eq {α : Type} (v : Bool) : ∀ (l : List α) (x : α),
    pairsLoop v x l = ((x :: l).zip l, stopInGenerator v) := by
  intro l
  induction l with
  | nil => intro x; rfl
  | cons y t ih => intro x; simp [pairsLoop, ih]

/-- C46: `pairs` yields exactly the consecutive pairs, in order.  It never ends normally under
PEP 479: it raises `RuntimeError`, on every input (also the empty one). -/
theorem C46_pairs {α : Type} (pep479 : Bool) (l : List α) :
    (∀ (i : Nat), (pairs pep479 l).1[i]? =
      match l[i]?, l[i + 1]? with
      | some x, some y => some (x, y)
      | _, _ => none) ∧
    (pairs pep479 l).1.length = l.length - 1 ∧
    (pairs pep479 l).2 = if pep479 then .raised .runtimeError else .done := by
  cases l with
  | nil => simp [pairs, stopInGenerator]
  | cons x t =>
    simp only [pairs, pairsLoop_eq]
    refine ⟨?_, by simp, rfl⟩
    intro i
    rw [List.getElem?_cons_succ]
    cases h1 : (x :: t)[i]? <;> cases h2 : t[i]? <;>
      simp_all [List.zip, List.getElem?_zipWith]

theorem accumulateLoop_eq {α : Type} (f : α → α → α) : ∀ (l : List α) (x : α),
    accumulateLoop f x l = (List.range l.length).map fun i => (l.take (i + 1)).foldl f x := by
  intro l
  induction l with
  | nil => intro x; rfl
  | cons e t ih =>
    intro x
    rw [accumulateLoop, ih, List.length_cons, List.range_succ_eq_map, List.map_cons, List.map_map]
    rfl

/-- C46: `accumulate` yields the fold of every non-empty prefix, for every (also non-associative)
function; as many items as the input has -/
theorem C46_accumulate {α : Type} (f : α → α → α) (l : List α) :
    (accumulate f l).length = l.length ∧
    ∀ (i : Nat) (x : α) (t : List α), l = x :: t → i < l.length →
      (accumulate f l)[i]? = some ((t.take i).foldl f x) := by
  cases l with
  | nil => exact ⟨rfl, fun i x t h _ => by simp at h⟩
  | cons x t =>
    refine ⟨by simp [accumulate, accumulateLoop_eq], ?_⟩
    rintro i x' t' h hi
    obtain ⟨rfl, rfl⟩ := List.cons.inj h
    rw [accumulate, accumulateLoop_eq]
    cases i with
    | zero => simp
    | succ i =>
      have : i < t.length := by simpa using hi
      rw [List.getElem?_cons_succ, List.getElem?_map, List.getElem?_range this]
      rfl

theorem adjacentLoop_eq {α : Type} (truthy : α → Bool) : ∀ (l : List α) (x : α),
    adjacentLoop truthy (some x) l = ((x :: l).zip l).filter fun p => truthy p.1 := by
  intro l
  induction l with
  | nil => intro x; rfl
  | cons y t ih =>
    intro x
    rw [adjacentLoop, ih, List.zip_cons_cons, List.filter_cons]
    by_cases h : truthy x = true
    · simp [h]
    · simp [h]

theorem adjacentPairs_eq {α : Type} (truthy : α → Bool) (l : List α) :
    adjacentPairs truthy l = (l.zip l.tail).filter fun p => truthy p.1 := by
  cases l with
  | nil => rfl
  | cons x t =>
    rw [adjacentPairs, adjacentLoop, adjacentLoop_eq]
    rfl

/-- C46: `adjecent_pairs` yields the consecutive pairs whose first item is truthy, and no others -/
theorem C46_adjacent {α : Type} (truthy : α → Bool) (l : List α) :
    adjacentPairs truthy l = (l.zip l.tail).filter fun p => truthy p.1 := adjacentPairs_eq truthy l

/-- C46: so it yields all of them exactly when every item but the last is truthy; every falsy item
that has a successor costs a pair -/
theorem C46_adjacent_all_iff {α : Type} (truthy : α → Bool) (l : List α) :
    adjacentPairs truthy l = l.zip l.tail ↔ ∀ x ∈ l.dropLast, truthy x = true := by
  rw [adjacentPairs_eq, List.filter_eq_self]
  have h : (l.zip l.tail).map Prod.fst = l.dropLast := by
    induction l with
    | nil => rfl
    | cons x t ih =>
      cases t with
      | nil => rfl
      | cons y t => simpa using ih
  rw [← h]
  simp

example : pairs true [3, 0, 7] = ([(3, 0), (0, 7)], .raised .runtimeError) ∧
    accumulate (· * ·) [1, 2, 3, 4, 5] = [1, 2, 6, 24, 120] ∧
    adjacentPairs (fun n : Nat => n != 0) [0, 1, 2, 3] = [(1, 2), (2, 3)] := by decide

end Verif.Props
