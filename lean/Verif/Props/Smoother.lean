/-
C98: the smoothing kernel in any number of dimensions.
-/
import Verif.Model.Smoother
import Mathlib.Algebra.BigOperators.Ring.Finset
import Mathlib.Algebra.BigOperators.Fin
import Mathlib.Algebra.Order.BigOperators.Ring.Finset
import Mathlib.Data.Nat.Choose.Basic
import Mathlib.Tactic.Ring
import Mathlib.Tactic.NormNum
import Mathlib.Tactic.FinCases

namespace Verif.Spec

/-- the index of an array with `n` axes of length three that has the entries `f` -/
def kernelIndex {n : Nat} (f : Fin n → Fin 3) : List Nat := List.ofFn fun b => (f b : Nat)

end Verif.Spec

namespace Verif.Props

open Verif.Model Verif.Spec

theorem smootherKernel_choose (j : Fin 3) : (smootherKernel (K := Rat))[(j : Nat)]?.getD 0 = (Nat.choose 2 j : Rat) / 4 := by
  fin_cases j <;> simp [smootherKernel]

/-- C98: `smoother(ndim)` has the product of one-dimensional weights in every entry. -/
theorem C98_values (n : Nat) : ∀ limit, n + 1 ≤ limit → ∃ k, smootherGrid limit ((n : Int) + 1) = some k ∧
    ∀ f : Fin (n + 1) → Fin 3, k (kernelIndex f) = ∏ b, (Nat.choose 2 (f b) : Rat) / 4 := by
  induction n with
  | zero =>
    intro limit hl
    obtain ⟨l, rfl⟩ : ∃ l, limit = l + 1 := ⟨limit - 1, by omega⟩
    refine ⟨_, by simp only [smootherGrid]; rw [if_pos (by norm_num)], fun f => ?_⟩
    have e : (kernelIndex f).getLastD 0 = (f 0 : Nat) := by simp [kernelIndex]
    simp only [e]
    rw [smootherKernel_choose, Fin.prod_univ_succ]
    simp
  | succ n ih =>
    intro limit hl
    obtain ⟨l, rfl⟩ : ∃ l, limit = l + 1 + 1 := ⟨limit - 2, by omega⟩
    obtain ⟨k, hk, hv⟩ := ih (l + 1) (by omega)
    have h1 : smootherGrid (l + 1) 1 = some fun idx => (smootherKernel (K := Rat))[idx.getLastD 0]?.getD 0 := by
      rw [smootherGrid, if_pos rfl]
    have e : (((n + 1 : Nat) : Int) + 1) - 1 = (n : Int) + 1 := by push_cast; ring
    refine ⟨fun idx => (smootherKernel (K := Rat))[[idx.getLastD 0].getLastD 0]?.getD 0 * k idx.dropLast, ?_, fun f => ?_⟩
    · rw [smootherGrid, if_neg (by push_cast; omega), h1, e, hk]
      rfl
    · have hx : kernelIndex f = kernelIndex (fun b : Fin (n + 1) => f b.castSucc) ++ [(f (Fin.last (n + 1)) : Nat)] := by
        unfold kernelIndex
        rw [List.ofFn_succ_last]
      simp only [hx, List.dropLast_concat, List.getLastD_concat, List.getLastD_cons, List.getLastD_nil]
      rw [smootherKernel_choose, hv, Fin.prod_univ_castSucc (n := n + 1), mul_comm]

/-- C98: without a positive number of dimensions the recursion of `smoother` has no end. -/
theorem C98_no_end (limit : Nat) : ∀ {ndim : Int}, ndim ≤ 0 → smootherGrid limit ndim = none := by
  induction limit with
  | zero => intros; rfl
  | succ l ih =>
    intro ndim h
    rw [smootherGrid, if_neg (by omega), ih (ndim := ndim - 1) (by omega)]
    cases smootherGrid l 1 <;> rfl

theorem sum_weights {n : Nat} (g : Fin n → Fin 3 → Rat) : ∑ f : Fin n → Fin 3, ∏ b, g b (f b) = ∏ b, ∑ j, g b j := by
  rw [Finset.prod_univ_sum, Fintype.piFinset_univ]

/-- C98: the entries of `smoother(ndim)` are positive and add up to one, so smoothing keeps constants and never leaves the range of
the values. -/
theorem C98_average {n limit : Nat} (hl : n + 1 ≤ limit) {k : List Nat → Rat} (hk : smootherGrid limit ((n : Int) + 1) = some k) :
    (∀ f : Fin (n + 1) → Fin 3, 0 < k (kernelIndex f)) ∧ ∑ f : Fin (n + 1) → Fin 3, k (kernelIndex f) = 1 := by
  obtain ⟨k', hk', hv⟩ := C98_values n limit hl
  obtain rfl : k' = k := Option.some.inj (hk'.symm.trans hk)
  refine ⟨fun f => ?_, ?_⟩
  · rw [hv]
    refine Finset.prod_pos fun b _ => div_pos ?_ (by norm_num)
    exact_mod_cast Nat.choose_pos (by omega)
  · simp only [hv]
    rw [sum_weights (fun _ j => (Nat.choose 2 j : Rat) / 4)]
    refine Finset.prod_eq_one fun b _ => ?_
    simp [Fin.sum_univ_three]
    norm_num

/-- C98: smoothing keeps linear functions: the average of the offset from the middle vanishes on every axis. -/
theorem C98_linear {n limit : Nat} (hl : n + 1 ≤ limit) {k : List Nat → Rat} (hk : smootherGrid limit ((n : Int) + 1) = some k)
    (a : Fin (n + 1)) : ∑ f : Fin (n + 1) → Fin 3, k (kernelIndex f) * (((f a : Nat) : Rat) - 1) = 0 := by
  obtain ⟨k', hk', hv⟩ := C98_values n limit hl
  obtain rfl : k' = k := Option.some.inj (hk'.symm.trans hk)
  have e : ∀ f : Fin (n + 1) → Fin 3, k' (kernelIndex f) * (((f a : Nat) : Rat) - 1) =
      ∏ b, (Nat.choose 2 (f b) : Rat) / 4 * (if b = a then ((f b : Nat) : Rat) - 1 else 1) := by
    intro f
    rw [hv, Finset.prod_mul_distrib, Finset.prod_ite_eq' Finset.univ a, if_pos (Finset.mem_univ a)]
  simp only [e]
  rw [sum_weights (fun b j => (Nat.choose 2 j : Rat) / 4 * (if b = a then ((j : Nat) : Rat) - 1 else 1))]
  refine Finset.prod_eq_zero (Finset.mem_univ a) ?_
  simp [Fin.sum_univ_three]
  norm_num

/-- C98: smoothing removes what alternates along any set of axes that is not empty, checkerboard patterns included. -/
theorem C98_alternating {n limit : Nat} (hl : n + 1 ≤ limit) {k : List Nat → Rat} (hk : smootherGrid limit ((n : Int) + 1) = some k)
    (S : Finset (Fin (n + 1))) (hS : S.Nonempty) :
    ∑ f : Fin (n + 1) → Fin 3, k (kernelIndex f) * (-1) ^ (∑ b ∈ S, (f b : Nat)) = 0 := by
  obtain ⟨k', hk', hv⟩ := C98_values n limit hl
  obtain rfl : k' = k := Option.some.inj (hk'.symm.trans hk)
  obtain ⟨a, ha⟩ := hS
  have e : ∀ f : Fin (n + 1) → Fin 3, k' (kernelIndex f) * (-1) ^ (∑ b ∈ S, (f b : Nat)) =
      ∏ b, (Nat.choose 2 (f b) : Rat) / 4 * (if b ∈ S then (-1) ^ (f b : Nat) else 1) := by
    intro f
    rw [hv, Finset.prod_mul_distrib, Finset.prod_ite_mem, Finset.univ_inter, Finset.prod_pow_eq_pow_sum]
  simp only [e]
  rw [sum_weights (fun b j => (Nat.choose 2 j : Rat) / 4 * (if b ∈ S then (-1) ^ (j : Nat) else 1))]
  refine Finset.prod_eq_zero (Finset.mem_univ a) ?_
  simp [Fin.sum_univ_three, ha]
  norm_num

/-- C98, a case: two dimensions; the weight in the middle and in a corner, and the sum of all. -/
theorem C98_case : ∃ k, smootherGrid 5 2 = some k ∧ k [1, 1] = 1 / 4 ∧ k [0, 2] = 1 / 16 ∧
    ∑ f : Fin 2 → Fin 3, k (kernelIndex f) = 1 ∧ ∑ f : Fin 2 → Fin 3, k (kernelIndex f) * (-1) ^ (∑ b, (f b : Nat)) = 0 := by
  obtain ⟨k, hk, hv⟩ := C98_values 1 5 (by norm_num)
  refine ⟨k, hk, ?_, ?_, (C98_average (by norm_num) hk).2, C98_alternating (by norm_num) hk Finset.univ ⟨0, Finset.mem_univ _⟩⟩
  · have h := hv ![1, 1]
    simpa [kernelIndex, Fin.prod_univ_two] using h.trans (by simp [Fin.prod_univ_two]; norm_num)
  · have h := hv ![0, 2]
    simpa [kernelIndex, Fin.prod_univ_two] using h.trans (by simp [Fin.prod_univ_two]; norm_num)

end Verif.Props
