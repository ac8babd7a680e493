/-
Numbering the elements of all levels consecutively, and decoding such a number.
-/
import Mathlib.Algebra.Order.BigOperators.Group.List
import Mathlib.Tactic.Ring

namespace Verif

/-- start of level `k` when level sizes are `N 0, N 1, ...` -/
def offs (N : Nat → Nat) (k : Nat) : Nat := ((List.range k).map N).sum

theorem offs_succ (N : Nat → Nat) (k : Nat) : offs N (k + 1) = offs N k + N k := by
  simp [offs, List.range_succ]

theorem offs_mono (N : Nat → Nat) {a b : Nat} (h : a ≤ b) : offs N a ≤ offs N b := by
  induction h with
  | refl => exact Nat.le_refl _
  | step _ ih => rw [offs_succ]; omega

/-- level of a number: how many of the levels `0..m-1` end at or before it -/
def levelOf (N : Nat → Nat) (m v : Nat) : Nat :=
  (List.range m).countP fun k => offs N (k + 1) ≤ v

theorem countP_range_lt (m k : Nat) (h : k ≤ m) : (List.range m).countP (fun i => i < k) = k := by
  induction m generalizing k with
  | zero => have : k = 0 := by omega
            subst this; rfl
  | succ m ih =>
    rw [List.range_succ, List.countP_append]
    rcases Nat.lt_or_ge m k with h1 | h1
    · have : k = m + 1 := by omega
      subst this
      have : (List.range m).countP (fun i => decide (i < m + 1)) = m := by
        rw [List.countP_eq_length.2, List.length_range]
        intro i hi
        have := List.mem_range.1 hi
        simp; omega
      rw [this]; simp
    · rw [ih k h1]
      simp; omega

theorem levelOf_encode (N : Nat → Nat) {m k x : Nat} (hk : k ≤ m) (hx : x < N k) :
    levelOf N m (x + offs N k) = k := by
  unfold levelOf
  refine Eq.trans ?_ (countP_range_lt m k hk)
  apply List.countP_congr
  intro i hi
  simp only [decide_eq_true_eq]
  rcases Nat.lt_or_ge i k with h | h
  · have := offs_mono N (show i + 1 ≤ k by omega)
    constructor
    · intro _; exact h
    · intro _; omega
  · have := offs_mono N (show k ≤ i by omega)
    have h2 := offs_succ N i
    have h3 := offs_mono N (show k + 1 ≤ i + 1 by omega)
    have h4 := offs_succ N k
    constructor
    · intro h5; omega
    · intro h5; omega

end Verif
