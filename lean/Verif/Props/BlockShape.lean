/-
C95: the shapes of block arrays.
-/
import Verif.Model.BlockShape
import Verif.Lemmas.Simplicial

namespace Verif.Props

open Verif.Model

theorem mapM_first_error {α β : Type} {f : α → Except PyErr β} {e : PyErr} : ∀ {l₁ l₂ : List α} {x : α},
    (∀ y ∈ l₁, ∃ z, f y = .ok z) → f x = .error e → (l₁ ++ x :: l₂).mapM f = .error e := by
  intro l₁ l₂ x
  induction l₁ with
  | nil =>
    intro _ hx
    rw [List.nil_append, List.mapM_cons, hx]
    rfl
  | cons y t ih =>
    intro h hx
    obtain ⟨z, hz⟩ := h y (by simp)
    rw [List.cons_append, List.mapM_cons, hz, ih (fun w hw => h w (List.mem_cons_of_mem _ hw)) hx]
    rfl

/-- C95: `shape` of a block vector is the list of the lengths of its blocks, and `is_compatible` is true. -/
theorem C95_vectors {b : ObjArr} {k : Nat} (hb : b.shape = [k]) {len : Nat → Nat} (hl : ∀ i < k, (b.leaf [i])[0]? = some (len i)) :
    b.blockShape = .ok [(List.range k).map len] ∧ b.isCompatible = .ok true := by
  have : b.blockShape = .ok [(List.range k).map len] := by
    unfold ObjArr.blockShape
    rw [hb]
    show (List.range 1).mapM _ = _
    rw [show List.range 1 = [0] from rfl, List.mapM_cons]
    simp only [List.getElem?_cons_zero, Option.getD_some]
    rw [mapM_ok _ len (List.range k) fun i hi => by
      unfold ObjArr.takeShape
      rw [if_pos (by rw [hb]; rfl), hl i (List.mem_range.1 hi)]]
    rfl
  refine ⟨this, ?_⟩
  unfold ObjArr.isCompatible
  rw [this]
  rfl

/-- C95: `shape` raises an `IndexError` for every array of blocks with two or more axes and at least one block, and so do
`is_compatible` and `is_square`, whatever the shapes of the blocks are. -/
theorem C95_matrices {b : ObjArr} (h2 : 2 ≤ b.shape.length) (hpos : ∀ d ∈ b.shape, 0 < d) :
    b.blockShape = .error .indexError ∧ b.isCompatible = .error .indexError ∧ b.isSquare = .error .indexError := by
  have key : b.blockShape = .error .indexError := by
    unfold ObjArr.blockShape
    obtain ⟨m, hm⟩ : ∃ m, b.shape.length = m + 1 := ⟨b.shape.length - 1, by omega⟩
    rw [hm, List.range_succ]
    refine mapM_first_error (fun n hn => ?_) ?_
    · have hn := List.mem_range.1 hn
      refine ⟨_, mapM_ok _ (fun _ => (b.shape.eraseIdx n)[n]?.getD 0) _ fun i _ => ?_⟩
      unfold ObjArr.takeShape
      rw [if_neg (by omega), List.getElem?_eq_getElem (by rw [List.length_eraseIdx]; split <;> omega)]
      rfl
    · have hlt : m < b.shape.length := by omega
      have hd : 0 < b.shape[m] := hpos _ (List.getElem_mem hlt)
      rw [List.getElem?_eq_getElem hlt, Option.getD_some]
      obtain ⟨d, hd'⟩ : ∃ d, b.shape[m] = d + 1 := ⟨b.shape[m] - 1, by omega⟩
      rw [hd', List.range_succ_eq_map]
      refine mapM_first_error (l₁ := []) (by simp) ?_
      unfold ObjArr.takeShape
      rw [if_neg (by omega), List.getElem?_eq_none (by rw [List.length_eraseIdx]; split <;> omega)]
  refine ⟨key, ?_, ?_⟩
  · unfold ObjArr.isCompatible
    rw [key]
    rfl
  · unfold ObjArr.isSquare
    rw [key]
    rfl

/-- C95, a case: blocks of lengths 2 and 3, and a block matrix with one square block. -/
theorem C95_case : (⟨[2], fun i => if i = [0] then [2] else [3]⟩ : ObjArr).blockShape = .ok [[2, 3]] ∧
    (⟨[1, 1], fun _ => [3, 3]⟩ : ObjArr).isSquare = .error .indexError ∧
    (⟨[2, 3], fun _ => [3, 3]⟩ : ObjArr).isCompatible = .error .indexError := by
  refine ⟨by decide, ?_, ?_⟩
  · exact (C95_matrices (by simp) (by simp)).2.2
  · exact (C95_matrices (by simp) (by simp)).2.1

end Verif.Props
