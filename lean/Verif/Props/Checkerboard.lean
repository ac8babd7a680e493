/-
C97: the masks of `checkerboard_2` split a grid into independent parts.
-/
import Verif.Model.Checkerboard
import Mathlib.Algebra.BigOperators.Ring.List
import Mathlib.Tactic.Ring

namespace Verif.Props

open Verif.Model

theorem boardColour_cons (a : Nat) (t : List Nat) : boardColour (a :: t) = a % 2 + 2 * boardColour t := by
  unfold boardColour
  rw [List.length_cons, List.range_succ_eq_map, List.map_cons, List.sum_cons, List.map_map, ← List.sum_map_mul_left]
  congr 1
  · simp
  · refine congrArg List.sum (List.map_congr_left fun k _ => ?_)
    simp only [Function.comp, Nat.succ_eq_add_one, List.getElem?_cons_succ]
    ring

/-- C97: every index of a grid with `n` axes is in exactly one of the `2 ** n` masks. -/
theorem C97_partition (idx : List Nat) : ∃ c < 2 ^ idx.length, ∀ c', checkerboard2 c' idx = true ↔ c' = c := by
  refine ⟨boardColour idx, ?_, fun c' => ?_⟩
  · induction idx with
    | nil => simp [boardColour]
    | cons a t ih =>
      rw [boardColour_cons, List.length_cons, Nat.pow_succ]
      have := Nat.mod_lt a (show 0 < 2 by norm_num)
      omega
  · unfold checkerboard2
    rw [beq_iff_eq]
    exact eq_comm

theorem boardColour_eq : ∀ {x y : List Nat}, x.length = y.length → boardColour x = boardColour y →
    ∀ k : Nat, (x[k]?.getD 0) % 2 = (y[k]?.getD 0) % 2 := by
  intro x
  induction x with
  | nil =>
    intro y hl _ k
    obtain rfl := List.length_eq_zero_iff.1 hl.symm
    rfl
  | cons a t ih =>
    intro y hl h k
    match y, hl with
    | b :: u, hl =>
      rw [boardColour_cons, boardColour_cons] at h
      have ha := Nat.mod_lt a (show 0 < 2 by norm_num)
      have hb := Nat.mod_lt b (show 0 < 2 by norm_num)
      match k with
      | 0 => simp only [List.getElem?_cons_zero, Option.getD_some]; omega
      | k + 1 =>
        simp only [List.getElem?_cons_succ]
        exact ih (by simpa using hl) (by omega) k

theorem boardColour_of : ∀ {x y : List Nat}, x.length = y.length → (∀ k : Nat, (x[k]?.getD 0) % 2 = (y[k]?.getD 0) % 2) →
    boardColour x = boardColour y := by
  intro x y hl h
  unfold boardColour
  rw [hl]
  exact congrArg List.sum (List.map_congr_left fun k _ => by rw [h k])

/-- C97: two indices are in the same mask exactly if they differ by an even number on every axis. -/
theorem C97_same_mask {x y : List Nat} (hl : x.length = y.length) :
    (∃ c, checkerboard2 c x = true ∧ checkerboard2 c y = true) ↔ ∀ k : Nat, (x[k]?.getD 0) % 2 = (y[k]?.getD 0) % 2 := by
  unfold checkerboard2
  simp only [beq_iff_eq]
  constructor
  · rintro ⟨c, h1, h2⟩
    exact boardColour_eq hl (h1.trans h2.symm)
  · intro h
    exact ⟨_, rfl, (boardColour_of hl h).symm⟩

/-- C97: different indices in the same mask are at least two apart on some axis, also around a grid with an even number of points
on every axis: stencils that reach one point in every direction, diagonals included, do not connect them. -/
theorem C97_independent {x y : List Nat} (hl : x.length = y.length) {shape : List Nat} (hs : ∀ n ∈ shape, 2 ∣ n)
    (hx : ∀ k, k < x.length → ∃ n, shape[k]? = some n ∧ x[k]?.getD 0 < n ∧ y[k]?.getD 0 < n) {c : Nat} (h1 : checkerboard2 c x = true)
    (h2 : checkerboard2 c y = true) (hne : x ≠ y) :
    ∃ k < x.length, ∃ n, shape[k]? = some n ∧ x[k]?.getD 0 ≠ y[k]?.getD 0 ∧ ((x[k]?.getD 0) + 1) % n ≠ y[k]?.getD 0 ∧
      ((y[k]?.getD 0) + 1) % n ≠ x[k]?.getD 0 := by
  have hpar := (C97_same_mask hl).1 ⟨c, h1, h2⟩
  by_contra hcon
  apply hne
  refine List.ext_getElem hl fun k g1 g2 => ?_
  by_contra hk
  obtain ⟨n, hn, bx, by'⟩ := hx k g1
  apply hcon
  have ex : x[k]?.getD 0 = x[k] := by rw [List.getElem?_eq_getElem g1]; rfl
  have ey : y[k]?.getD 0 = y[k] := by rw [List.getElem?_eq_getElem g2]; rfl
  have hp := hpar k
  rw [ex, ey] at hp
  rw [ex] at bx
  rw [ey] at by'
  obtain ⟨q, rfl⟩ := hs n (List.mem_of_getElem? hn)
  have step : ∀ a b : Nat, a < 2 * q → b < 2 * q → a % 2 = b % 2 → (a + 1) % (2 * q) ≠ b := by
    intro a b ha hb hab e
    have h : ((a + 1) % (2 * q)) % 2 = (a + 1) % 2 := Nat.mod_mul_right_mod (a + 1) 2 q
    rw [e] at h
    omega
  refine ⟨k, g1, 2 * q, hn, ?_, ?_, ?_⟩
  · rw [ex, ey]; exact hk
  · rw [ex, ey]; exact step _ _ bx by' hp
  · rw [ex, ey]; exact step _ _ by' bx hp.symm

/-- C97 needs even grids: around three points the first and the last one are neighbours and in the same mask. -/
theorem C97_odd_needed : checkerboard2 0 [0] = true ∧ checkerboard2 0 [2] = true ∧ (2 + 1) % 3 = 0 := by decide

/-- C97, a case: two points of a 4 by 2 grid. -/
theorem C97_case : checkerboard2 2 [0, 1] = true ∧ checkerboard2 2 [2, 1] = true ∧ checkerboard2 3 [1, 1] = true ∧
    ∃ k < 2, ∃ n, [4, 2][k]? = some n ∧ [0, 1][k]?.getD 0 ≠ [2, 1][k]?.getD 0 ∧ (([0, 1][k]?.getD 0) + 1) % n ≠ [2, 1][k]?.getD 0 ∧
      (([2, 1][k]?.getD 0) + 1) % n ≠ [0, 1][k]?.getD 0 := by
  refine ⟨by decide, by decide, by decide, ?_⟩
  refine C97_independent (x := [0, 1]) (y := [2, 1]) (shape := [4, 2]) (c := 2) rfl (by simp) ?_ (by decide) (by decide) (by decide)
  intro k hk
  match k, hk with
  | 0, _ => exact ⟨4, rfl, by decide, by decide⟩
  | 1, _ => exact ⟨2, rfl, by decide, by decide⟩

end Verif.Props
