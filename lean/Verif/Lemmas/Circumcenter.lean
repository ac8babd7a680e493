/-
Lemmas for circumcenters: solving a symmetric system with the inverted eigenvalues, and the linear
system of the center.
-/
import Verif.Model.Circumcenter
import Verif.Spec.Circumcenter
import Mathlib.Tactic.Ring
import Mathlib.Tactic.Linarith
import Mathlib.Tactic.LinearCombination
import Mathlib.Tactic.FieldSimp
import Mathlib.Algebra.BigOperators.Fin

namespace Verif

open Verif.Model Verif.Spec Matrix

set_option linter.unusedSectionVars false

section

variable {K : Type} [Field K]

theorem Spec.IsEigh.mul_rows {n : Nat} {A : Matrix (Fin n) (Fin n) K} {v : Fin n → K}
    {w : Matrix (Fin n) (Fin n) K} (h : IsEigh A v w) : w * wᵀ = 1 := by
  ext i k
  rw [mul_apply, one_apply, ← h.rows i k]
  rfl

theorem Spec.IsEigh.mul_cols {n : Nat} {A : Matrix (Fin n) (Fin n) K} {v : Fin n → K}
    {w : Matrix (Fin n) (Fin n) K} (h : IsEigh A v w) : wᵀ * w = 1 := by
  ext i k
  rw [mul_apply, one_apply, ← h.cols i k]
  rfl

theorem sandwich {n : Nat} (w : Matrix (Fin n) (Fin n) K) (d : Fin n → K) :
    (Matrix.of fun i k => ∑ j, w i j * d j * w k j) = w * diagonal d * wᵀ := by
  ext i k
  rw [mul_apply]
  simp [mul_diagonal]

theorem Spec.IsEigh.eq {n : Nat} {A : Matrix (Fin n) (Fin n) K} {v : Fin n → K}
    {w : Matrix (Fin n) (Fin n) K} (h : IsEigh A v w) : A = w * diagonal v * wᵀ := by
  rw [← sandwich]
  ext i k
  exact h.decomp i k

/-- the decomposition of `exists_eigh` in the form of the contract -/
theorem Spec.IsEigh.of {n : Nat} {A : Matrix (Fin n) (Fin n) K} {v : Fin n → K}
    {w : Matrix (Fin n) (Fin n) K} (h1 : w * wᵀ = 1) (h2 : wᵀ * w = 1)
    (h3 : A = w * diagonal v * wᵀ) : IsEigh A v w where
  rows i k := by
    have := congrFun (congrFun h1 i) k
    rw [mul_apply, one_apply] at this
    exact this
  cols i k := by
    have := congrFun (congrFun h2 i) k
    rw [mul_apply, one_apply] at this
    exact this
  decomp i k := by rw [h3, ← sandwich]; rfl

/-- inverting the eigenvalues other than zero solves every system that has a solution -/
theorem Spec.IsEigh.solve {n : Nat} {A : Matrix (Fin n) (Fin n) K} {v : Fin n → K}
    {w : Matrix (Fin n) (Fin n) K} (h : IsEigh A v w) (vr : Fin n → K)
    (hvr : ∀ j, (v j = 0 → vr j = 0) ∧ (v j ≠ 0 → vr j = 1 / v j)) (y b : Fin n → K) (hy : A *ᵥ y = b) :
    A *ᵥ ((Matrix.of fun i k => ∑ j, w i j * vr j * w k j) *ᵥ b) = b := by
  rw [sandwich, ← hy, mulVec_mulVec, mulVec_mulVec]
  congr 1
  have e := h.eq
  have hd : diagonal v * diagonal vr * diagonal v = diagonal v := by
    rw [diagonal_mul_diagonal, diagonal_mul_diagonal]
    congr 1
    funext j
    by_cases h0 : v j = 0
    · simp [h0]
    · rw [(hvr j).2 h0]; field_simp
  rw [e]
  calc w * diagonal v * wᵀ * (w * diagonal vr * wᵀ) * (w * diagonal v * wᵀ)
      = w * diagonal v * (wᵀ * w) * diagonal vr * (wᵀ * w) * diagonal v * wᵀ := by
        simp only [Matrix.mul_assoc]
    _ = w * (diagonal v * diagonal vr * diagonal v) * wᵀ := by
        rw [h.mul_cols, Matrix.mul_one, Matrix.mul_one]
        simp only [Matrix.mul_assoc]
    _ = _ := by rw [hd]

/-- the columns of `w` are eigenvectors, and none of them is zero -/
theorem Spec.IsEigh.column {n : Nat} {A : Matrix (Fin n) (Fin n) K} {v : Fin n → K}
    {w : Matrix (Fin n) (Fin n) K} (h : IsEigh A v w) (j : Fin n) :
    (∀ i, ∑ k, A i k * w k j = v j * w i j) ∧ ∃ i, w i j ≠ 0 := by
  constructor
  · intro i
    have : A * w = w * diagonal v := by
      rw [h.eq, Matrix.mul_assoc, h.mul_cols, Matrix.mul_one]
    have := congrFun (congrFun this i) j
    rw [mul_apply, mul_diagonal] at this
    rw [this, mul_comm]
  · by_contra hc
    push Not at hc
    have := h.cols j j
    simp [hc] at this

theorem sum_castSucc_split {P : Nat} (f : Fin (P + 1) → K) :
    ∑ k, f k = ∑ k : Fin P, f k.castSucc + f (Fin.last P) := Fin.sum_univ_castSucc f

variable [LinearOrder K]

theorem productMatrix_entries {P D : Nat} (pts : Matrix (Fin P) (Fin D) K) :
    (∀ i k, productMatrix pts i.castSucc k.castSucc = 2 * ∑ c, pts i c * pts k c) ∧
    (∀ i : Fin P, productMatrix pts i.castSucc (Fin.last P) = 1) ∧
    (∀ k : Fin P, productMatrix pts (Fin.last P) k.castSucc = 1) ∧
    productMatrix pts (Fin.last P) (Fin.last P) = 0 := by
  refine ⟨fun i k => ?_, fun i => ?_, fun k => ?_, ?_⟩
  · simp [productMatrix, dot, mul_comm]
  · simp [productMatrix]
  · simp [productMatrix]
  · simp [productMatrix]

theorem productMatrix_symm {P D : Nat} (pts : Matrix (Fin P) (Fin D) K) :
    (productMatrix pts)ᵀ = productMatrix pts := by
  obtain ⟨h1, h2, h3, h4⟩ := productMatrix_entries pts
  ext i k
  rw [transpose_apply]
  refine Fin.lastCases ?_ (fun i => ?_) i <;> refine Fin.lastCases ?_ (fun k => ?_) k
  · rfl
  · rw [h2, h3]
  · rw [h2, h3]
  · rw [h1, h1]
    congr 1
    exact Finset.sum_congr rfl fun c _ => mul_comm _ _

theorem productRhs_entries {P D : Nat} (pts : Matrix (Fin P) (Fin D) K) (w : Option (Vec K P)) :
    (∀ i, productRhs pts w i.castSucc = ∑ c, pts i c * pts i c - weightsOf w i) ∧
    productRhs pts w (Fin.last P) = 1 := by
  constructor
  · intro i
    cases w <;> simp [productRhs, dot, weightsOf]
  · simp [productRhs]

theorem power_expand {D : Nat} (x p : Fin D → K) (w : K) :
    power x p w = ∑ c, x c * x c - 2 * ∑ c, p c * x c + ∑ c, p c * p c - w := by
  simp only [power, Finset.mul_sum, ← Finset.sum_sub_distrib, ← Finset.sum_add_distrib]
  congr 1
  exact Finset.sum_congr rfl fun c _ => by ring

/-- products with a combination of the points -/
theorem dot_combination {P D : Nat} (pts : Matrix (Fin P) (Fin D) K) (y : Fin P → K)
    (c : Fin D → K) (hc : ∀ j, c j = ∑ i, y i * pts i j) (p : Fin D → K) :
    ∑ k, 2 * (∑ j, p j * pts k j) * y k = 2 * ∑ j, p j * c j := by
  have e : ∀ j, p j * c j = ∑ k, p j * pts k j * y k := by
    intro j
    rw [hc, Finset.mul_sum]
    exact Finset.sum_congr rfl fun k _ => by ring
  simp only [e, Finset.mul_sum, Finset.sum_mul]
  rw [Finset.sum_comm]
  exact Finset.sum_congr rfl fun k _ => Finset.sum_congr rfl fun j _ => by ring

/-- the rows of the linear system -/
theorem product_system {P D : Nat} (pts : Matrix (Fin P) (Fin D) K) (w : Option (Vec K P))
    (x : Vec K (P + 1)) :
    productMatrix pts *ᵥ x = productRhs pts w ↔
      (∀ i, ∑ k : Fin P, 2 * (∑ c, pts i c * pts k c) * x k.castSucc + x (Fin.last P) =
        ∑ c, pts i c * pts i c - weightsOf w i) ∧ ∑ k : Fin P, x k.castSucc = 1 := by
  obtain ⟨h1, h2, h3, h4⟩ := productMatrix_entries pts
  obtain ⟨r1, r2⟩ := productRhs_entries pts w
  rw [funext_iff]
  have ei : ∀ i : Fin P, (productMatrix pts *ᵥ x) i.castSucc =
      ∑ k : Fin P, 2 * (∑ c, pts i c * pts k c) * x k.castSucc + x (Fin.last P) := by
    intro i
    rw [mulVec, dotProduct, sum_castSucc_split]
    simp only [h1, h2, one_mul]
  have el : (productMatrix pts *ᵥ x) (Fin.last P) = ∑ k : Fin P, x k.castSucc := by
    rw [mulVec, dotProduct, sum_castSucc_split]
    simp only [h3, h4, one_mul, zero_mul, add_zero]
  constructor
  · intro h
    refine ⟨fun i => ?_, ?_⟩
    · rw [← ei, h, r1]
    · rw [← el, h, r2]
  · rintro ⟨ha, hb⟩ i
    refine Fin.lastCases ?_ (fun i => ?_) i
    · rw [el, hb, r2]
    · rw [ei, ha, r1]

/-- a solution of the linear system is a point of equal power -/
theorem center_of_solution {P D : Nat} (pts : Matrix (Fin P) (Fin D) K) (w : Option (Vec K P))
    (x : Vec K (P + 1)) (h : productMatrix pts *ᵥ x = productRhs pts w) :
    Combines (fun i => pts i) (fun i => x i.castSucc)
        (fun j => ∑ i : Fin P, x i.castSucc * pts i j) ∧
      IsCenter (fun i => pts i) (weightsOf w) (fun j => ∑ i : Fin P, x i.castSucc * pts i j) := by
  obtain ⟨h1, h2⟩ := (product_system pts w x).1 h
  have hc : Combines (fun i => pts i) (fun i => x i.castSucc)
      (fun j => ∑ i : Fin P, x i.castSucc * pts i j) := ⟨h2, fun j => rfl⟩
  refine ⟨hc, ⟨_, hc⟩, fun i j => ?_⟩
  have key : ∀ i, power (fun j => ∑ i : Fin P, x i.castSucc * pts i j) (pts i) (weightsOf w i) =
      (∑ c, (∑ i : Fin P, x i.castSucc * pts i c) * (∑ i : Fin P, x i.castSucc * pts i c)) +
        x (Fin.last P) := by
    intro i
    rw [power_expand]
    have := h1 i
    rw [dot_combination pts (fun k => x k.castSucc) _ (fun j => rfl)] at this
    linear_combination -this
  exact (key i).trans (key j).symm

/-- and the coordinates of a point of equal power solve the linear system -/
theorem solution_of_center {P D : Nat} (pts : Matrix (Fin (P + 1)) (Fin D) K)
    (w : Option (Vec K (P + 1))) (c : Fin D → K) (y : Fin (P + 1) → K)
    (hy : Combines (fun i => pts i) y c)
    (hp : ∀ i j, power c (pts i) (weightsOf w i) = power c (pts j) (weightsOf w j)) :
    ∃ x : Vec K (P + 2), productMatrix pts *ᵥ x = productRhs pts w ∧ ∀ i, x (Fin.castSucc i) = y i := by
  refine ⟨Fin.snoc (α := fun _ => K) y (power c (pts 0) (weightsOf w 0) - ∑ j, c j * c j), ?_, fun i => ?_⟩
  · rw [product_system]
    simp only [Fin.snoc_castSucc, Fin.snoc_last]
    refine ⟨fun i => ?_, hy.1⟩
    rw [dot_combination pts y c hy.2, hp 0 i, power_expand]
    ring
  · simp

end

section

variable {K : Type} [Field K] [LinearOrder K] [IsStrictOrderedRing K]

/-- there is at most one circumcenter -/
theorem center_unique {P D : Nat} (pts : Fin P → Fin D → K) (w : Fin P → K) (c d : Fin D → K)
    (hc : IsCenter pts w c) (hd : IsCenter pts w d) : c = d := by
  obtain ⟨⟨y, hy1, hy2⟩, hp⟩ := hc
  obtain ⟨⟨z, hz1, hz2⟩, hq⟩ := hd
  have hP : Nonempty (Fin P) := by
    by_contra hn
    rw [not_nonempty_iff] at hn
    simp at hy1
  obtain ⟨i0⟩ := hP
  -- the difference is orthogonal to all differences of sites
  have ho : ∀ i, ∑ j, (c j - d j) * pts i j = ∑ j, (c j - d j) * pts i0 j := by
    intro i
    have h1 := hp i i0
    have h2 := hq i i0
    simp only [power_expand] at h1 h2
    have e : ∀ i, ∑ j, (c j - d j) * pts i j = ∑ j, pts i j * c j - ∑ j, pts i j * d j := by
      intro i
      rw [← Finset.sum_sub_distrib]
      exact Finset.sum_congr rfl fun j _ => by ring
    rw [e, e]
    linarith
  have hs : ∑ j, (c j - d j) * (c j - d j) = 0 := by
    have e : ∀ j, (c j - d j) * (c j - d j) = ∑ i, (y i - z i) * ((c j - d j) * pts i j) := by
      intro j
      have : c j - d j = ∑ i, (y i - z i) * pts i j := by
        rw [hy2, hz2, ← Finset.sum_sub_distrib]
        exact Finset.sum_congr rfl fun i _ => by ring
      have e2 : (c j - d j) * (c j - d j) = (∑ i, (y i - z i) * pts i j) * (c j - d j) := by
        rw [← this]
      rw [e2, Finset.sum_mul]
      exact Finset.sum_congr rfl fun i _ => by ring
    simp only [e]
    rw [Finset.sum_comm]
    simp only [← Finset.mul_sum, ho]
    rw [← Finset.sum_mul, Finset.sum_sub_distrib, hy1, hz1]
    ring
  funext j
  have hz : ∀ j ∈ Finset.univ, (c j - d j) * (c j - d j) = 0 :=
    (Finset.sum_eq_zero_iff_of_nonneg fun j _ => mul_self_nonneg _).1 hs
  exact sub_eq_zero.1 (mul_self_eq_zero.1 (hz j (Finset.mem_univ j)))

end

end Verif
