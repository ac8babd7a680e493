/-
The pseudoinverse of the corners of a simplex around their mean: its columns point along the heights.
-/
import Verif.Lemmas.Height
import Verif.Lemmas.FlagVolume
import Verif.Props.Pinv
import Verif.Model.Velocity
import Mathlib.LinearAlgebra.Matrix.Rank
import Mathlib.LinearAlgebra.Matrix.ToLinearEquiv
import Mathlib.Order.Interval.Finset.Fin

set_option linter.unusedSectionVars false

namespace Verif

open Verif.Model Verif.Spec Matrix

variable {D P : Nat}

/-- weights that add up to zero and annihilate independent points are zero -/
theorem affine_zero {p : Fin (P + 1) → Fin D → ℝ} (hp : AffineIndependent ℝ p) {w : Fin (P + 1) → ℝ}
    (h1 : ∑ i, w i = 0) (h2 : ∀ j, ∑ i, w i * p i j = 0) (i : Fin (P + 1)) : w i = 0 := by
  rw [affineIndependent_iff] at hp
  refine hp Finset.univ w h1 ?_ i (Finset.mem_univ i)
  funext j
  simpa [Finset.sum_apply] using h2 j

theorem centred_sum (p : Fin (P + 1) → Fin D → ℝ) (j : Fin D) : ∑ i, centred p i j = 0 := by
  unfold centred
  rw [Finset.sum_sub_distrib, Finset.sum_const, Finset.card_univ, Fintype.card_fin, nsmul_eq_mul]
  have : ((P + 1 : ℕ) : ℝ) ≠ 0 := by positivity
  field_simp
  ring

theorem sum_mul_centred (p : Fin (P + 1) → Fin D → ℝ) {w : Fin (P + 1) → ℝ} (h : ∑ i, w i = 0) (j : Fin D) :
    ∑ i, w i * centred p i j = ∑ i, w i * p i j := by
  unfold centred
  simp only [mul_sub, Finset.sum_sub_distrib, ← Finset.sum_mul, h, zero_mul, sub_zero]

/-- the products of the corners around their mean with the columns of the pseudoinverse -/
theorem centred_product {p : Fin (P + 1) → Fin D → ℝ} (hp : AffineIndependent ℝ p)
    {X : Matrix (Fin D) (Fin (P + 1)) ℝ} (hX : IsPseudoinverse (Matrix.of (centred p)) X) (a b : Fin (P + 1)) (i : Fin (P + 1)) :
    (Matrix.of (centred p) * X) a i - (Matrix.of (centred p) * X) b i =
      (if a = i then 1 else 0) - (if b = i then 1 else 0) := by
  set C : Matrix (Fin (P + 1)) (Fin D) ℝ := Matrix.of (centred p) with hC
  set Q := C * X with hQ
  have hQC : Q * C = C := hX.axa
  have hsym : ∀ x y, Q x y = Q y x := by
    intro x y
    have := congrFun (congrFun hX.ax y) x
    exact this
  have hcol : ∀ x, ∑ y, Q y x = 0 := by
    intro x
    simp only [hQ, mul_apply]
    rw [Finset.sum_comm]
    refine Finset.sum_eq_zero fun k _ => ?_
    rw [← Finset.sum_mul]
    have : ∑ y, C y k = 0 := centred_sum p k
    rw [this, zero_mul]
  set w : Fin (P + 1) → ℝ := fun x => ((if x = a then 1 else 0) - (if x = b then 1 else 0)) - (Q x a - Q x b) with hw
  have hw1 : ∑ x, w x = 0 := by
    simp only [hw, Finset.sum_sub_distrib, hcol, Finset.sum_ite_eq', Finset.mem_univ, if_true]
    ring
  have hrow : ∀ x j, ∑ y, Q y x * C y j = C x j := by
    intro x j
    have := congrFun (congrFun hQC x) j
    rw [mul_apply] at this
    rw [← this]
    exact Finset.sum_congr rfl fun y _ => by rw [hsym]
  have h0 := affine_zero hp hw1 (fun j => by
    rw [← sum_mul_centred p hw1]
    have hCa : ∀ x, centred p x j = C x j := fun x => rfl
    simp only [hw, sub_mul, Finset.sum_sub_distrib, hCa, hrow, ite_mul, one_mul, zero_mul, Finset.sum_ite_eq',
      Finset.mem_univ, if_true]
    ring) i
  simp only [hw] at h0
  rw [hsym a i, hsym b i]
  simp only [eq_comm (a := a), eq_comm (a := b)]
  linarith

/-- the columns of the pseudoinverse are combinations of the corners with weights that add up to zero -/
theorem pseudo_span {p : Fin (P + 1) → Fin D → ℝ} {X : Matrix (Fin D) (Fin (P + 1)) ℝ}
    (hX : IsPseudoinverse (Matrix.of (centred p)) X) (i : Fin (P + 1)) :
    ∃ z : Fin (P + 1) → ℝ, ∑ a, z a = 0 ∧ ∀ k, X k i = ∑ a, z a * p a k := by
  set C : Matrix (Fin (P + 1)) (Fin D) ℝ := Matrix.of (centred p) with hC
  have h1 : X = Cᵀ * (Xᵀ * X) := by
    calc X = X * C * X := hX.xax.symm
      _ = (X * C)ᵀ * X := by rw [hX.xa]
      _ = _ := by rw [transpose_mul, Matrix.mul_assoc]
  set u : Fin (P + 1) → ℝ := fun a => (Xᵀ * X) a i with hu
  have hN : ((P + 1 : ℕ) : ℝ) ≠ 0 := by positivity
  refine ⟨fun a => u a - (∑ b, u b) / ((P + 1 : ℕ) : ℝ), ?_, fun k => ?_⟩
  · rw [Finset.sum_sub_distrib, Finset.sum_const, Finset.card_univ, Fintype.card_fin, nsmul_eq_mul]
    field_simp
    ring
  · have h2 := congrFun (congrFun h1 k) i
    rw [h2, mul_apply]
    have h3 : ∀ a, Cᵀ k a * (Xᵀ * X) a i = u a * p a k - u a * ((∑ b, p b k) / ((P + 1 : ℕ) : ℝ)) := by
      intro a
      simp only [hC, transpose_apply, of_apply, centred, hu]
      ring
    rw [Finset.sum_congr rfl fun a _ => h3 a, Finset.sum_sub_distrib, ← Finset.sum_mul]
    simp only [sub_mul, Finset.sum_sub_distrib, ← Finset.mul_sum]
    ring

/-- `h` is the height of corner `i` over the other corners of a simplex -/
structure CornerHeight (p : Fin (P + 1) → Fin D → ℝ) (i : Fin (P + 1)) (h : Fin D → ℝ) : Prop where
  flat : ∀ a b, a ≠ i → b ≠ i → innerProd h (p a - p b) = 0
  up : ∀ a, a ≠ i → innerProd h (p i - p a) = innerProd h h
  span : ∃ z : Fin (P + 1) → ℝ, ∑ a, z a = 0 ∧ ∀ k, h k = ∑ a, z a * p a k

theorem ip_sum {p : Fin (P + 1) → Fin D → ℝ} {v w : Fin D → ℝ} (h : ∀ a b, innerProd v (p a - p b) = 0)
    {z : Fin (P + 1) → ℝ} (hz : ∑ a, z a = 0) (hw : ∀ k, w k = ∑ a, z a * p a k) : innerProd v w = 0 := by
  have h1 : innerProd v w = ∑ a, z a * innerProd v (p a) := by
    simp only [innerProd, hw, Finset.mul_sum]
    rw [Finset.sum_comm]
    exact Finset.sum_congr rfl fun u _ => Finset.sum_congr rfl fun j _ => by ring
  have h2 : ∀ a, innerProd v (p a) = innerProd v (p 0) := by
    intro a
    have := h a 0
    rw [ip_comm, ip_sub_left, ip_comm _ v, ip_comm _ v] at this
    linarith
  rw [h1, Finset.sum_congr rfl fun a _ => by rw [h2 a], ← Finset.sum_mul, hz, zero_mul]

theorem ip_sub_right (a b c : Fin D → ℝ) : innerProd a (b - c) = innerProd a b - innerProd a c := by
  rw [ip_comm, ip_sub_left, ip_comm b, ip_comm c]

/-- the columns of the pseudoinverse are the heights, divided by the squares of their lengths -/
theorem pseudo_height {p : Fin (P + 1) → Fin D → ℝ} (hp : AffineIndependent ℝ p)
    {X : Matrix (Fin D) (Fin (P + 1)) ℝ} (hX : IsPseudoinverse (Matrix.of (centred p)) X) {i : Fin (P + 1)}
    {h : Fin D → ℝ} (hh : CornerHeight p i h) (k : Fin D) : innerProd h h * X k i = h k := by
  set g : Fin D → ℝ := fun k => X k i with hg
  have hprod : ∀ a b, innerProd g (p a - p b) = (if a = i then 1 else 0) - (if b = i then 1 else 0) := by
    intro a b
    rw [← centred_product hp hX a b i, mul_apply, mul_apply, ← Finset.sum_sub_distrib]
    unfold innerProd
    refine Finset.sum_congr rfl fun k _ => ?_
    simp only [hg, of_apply, centred, Pi.sub_apply]
    ring
  obtain ⟨z, hz1, hz2⟩ := pseudo_span hX i
  obtain ⟨y, hy1, hy2⟩ := hh.span
  set v : Fin D → ℝ := (fun k => innerProd h h * g k) - h with hv
  have horth : ∀ a b, innerProd v (p a - p b) = 0 := by
    intro a b
    rw [hv, ip_sub_left, ip_smul_left, hprod]
    by_cases ha : a = i <;> by_cases hb : b = i
    · subst ha; subst hb
      simp [innerProd]
    · subst ha
      rw [if_pos rfl, if_neg hb, hh.up b hb]
      ring
    · subst hb
      rw [if_neg ha, if_pos rfl]
      have := hh.up a ha
      rw [ip_sub_right] at this ⊢
      linarith
    · rw [if_neg ha, if_neg hb, hh.flat a b ha hb]
      ring
  have hvv : innerProd v v = 0 := by
    refine ip_sum horth (z := fun a => innerProd h h * z a - y a) ?_ (fun k => ?_)
    · rw [Finset.sum_sub_distrib, ← Finset.mul_sum, hz1, hy1]
      ring
    · simp only [hv, Pi.sub_apply, hg, hz2 k, hy2 k, sub_mul, Finset.sum_sub_distrib, Finset.mul_sum, mul_assoc]
  have := ip_eq_zero hvv k
  simp only [hv, Pi.sub_apply, hg] at this
  linarith

/-! ### Ranks -/

theorem edges_independent {p : Fin (P + 1) → Fin D → ℝ} (hp : AffineIndependent ℝ p) :
    LinearIndependent ℝ fun i : Fin P => (fun j => p i.succ j - p 0 j : Fin D → ℝ) := by
  rw [Fintype.linearIndependent_iff]
  intro c hc i
  have h0 := affine_zero hp (w := Fin.cons (-∑ i, c i) c) (by rw [Fin.sum_univ_succ]; simp) (fun j => by
    rw [Fin.sum_univ_succ]
    simp only [Fin.cons_zero, Fin.cons_succ]
    have := congrFun hc j
    simp only [Finset.sum_apply, Pi.smul_apply, smul_eq_mul, mul_sub, Finset.sum_sub_distrib, ← Finset.sum_mul,
      Pi.zero_apply] at this
    linarith) i.succ
  simpa using h0

theorem rank_centred {p : Fin (P + 1) → Fin D → ℝ} (hp : AffineIndependent ℝ p) :
    (Matrix.of (centred p)).rank = P := by
  set E : Matrix (Fin P) (Fin D) ℝ := Matrix.of fun i j => p i.succ j - p 0 j with hE
  have hr : E.rank = P := by
    have := LinearIndependent.rank_matrix (M := E) (edges_independent hp)
    simpa using this
  have hN : ((P + 1 : ℕ) : ℝ) ≠ 0 := by positivity
  apply le_antisymm
  · have h1 : Matrix.of (centred p) = (Matrix.of fun (l : Fin (P + 1)) (i : Fin P) =>
        (if l = i.succ then 1 else 0) - 1 / ((P + 1 : ℕ) : ℝ)) * E := by
      ext l j
      rw [mul_apply]
      simp only [of_apply, hE, sub_mul, Finset.sum_sub_distrib, centred]
      rw [← Finset.mul_sum, Finset.sum_sub_distrib, Finset.sum_const, Finset.card_univ, Fintype.card_fin,
        nsmul_eq_mul, Fin.sum_univ_succ]
      have h2 : ∑ i : Fin P, (if l = i.succ then (1 : ℝ) else 0) * (p i.succ j - p 0 j) = p l j - p 0 j := by
        refine Fin.cases ?_ (fun l => ?_) l
        · simp [Fin.succ_ne_zero, eq_comm (a := (0 : Fin (P + 1)))]
        · simp [Fin.succ_inj]
      rw [h2]
      push_cast at hN ⊢
      field_simp
      ring
    rw [h1]
    exact (rank_mul_le_right _ _).trans hr.le
  · have h1 : E = (Matrix.of fun (i : Fin P) (l : Fin (P + 1)) =>
        (if l = i.succ then (1 : ℝ) else 0) - (if l = 0 then 1 else 0)) * Matrix.of (centred p) := by
      ext i j
      rw [mul_apply]
      simp only [of_apply, hE, sub_mul, Finset.sum_sub_distrib, ite_mul, one_mul, zero_mul, Finset.sum_ite_eq',
        Finset.mem_univ, if_true, centred]
      ring
    have h2 : E.rank ≤ (Matrix.of (centred p)).rank := by
      conv_lhs => rw [h1]
      exact rank_mul_le_right _ _
    exact hr.symm.le.trans h2

theorem rank_pseudo {a b : Nat} {A : Matrix (Fin a) (Fin b) ℝ} {X : Matrix (Fin b) (Fin a) ℝ} (h : IsPseudoinverse A X) :
    X.rank = A.rank := by
  apply le_antisymm
  · calc X.rank = (X * A * X).rank := by rw [h.xax]
      _ ≤ (X * A).rank := rank_mul_le_left _ _
      _ ≤ A.rank := rank_mul_le_right _ _
  · calc A.rank = (A * X * A).rank := by rw [h.axa]
      _ ≤ (A * X).rank := rank_mul_le_left _ _
      _ ≤ X.rank := rank_mul_le_right _ _

/-- the rank is the number of singular values that are not zero; they come first -/
theorem svd_rank {a b : Nat} {A : Matrix (Fin a) (Fin b) ℝ} {u : Matrix (Fin a) (Fin a) ℝ} {s : Fin (min a b) → ℝ}
    {v : Matrix (Fin b) (Fin b) ℝ} (h : IsSvd A u s v) (j : Fin (min a b)) : s j ≠ 0 ↔ j.val < A.rank := by
  set U := u.submatrix id (Fin.castLE (Nat.min_le_left a b)) with hU
  set W := v.submatrix (Fin.castLE (Nat.min_le_right a b)) id with hW
  have hUU : Uᵀ * U = 1 := Props.left_orthonormal _ _ h.left
  have hWW : W * Wᵀ = 1 := Props.right_orthonormal _ _ h.right
  have hA : A = U * diagonal s * W := by
    ext i k
    rw [h.decomp, mul_apply]
    simp only [mul_diagonal, hU, hW, submatrix_apply, id]
  have hd : diagonal s = Uᵀ * A * Wᵀ := by
    calc diagonal s = Uᵀ * U * diagonal s * (W * Wᵀ) := by rw [hUU, hWW, Matrix.one_mul, Matrix.mul_one]
      _ = _ := by rw [hA]; simp only [Matrix.mul_assoc]
  have hrank : A.rank = Fintype.card {i // s i ≠ 0} := by
    classical
    rw [← rank_diagonal]
    apply le_antisymm
    · conv_lhs => rw [hA]
      exact (rank_mul_le_left _ _).trans (rank_mul_le_right _ _)
    · rw [hd]
      exact (rank_mul_le_left _ _).trans (rank_mul_le_right _ _)
  have hdown : ∀ x y : Fin (min a b), x ≤ y → s y ≠ 0 → s x ≠ 0 := by
    intro x y hxy hy hx
    have h1 := h.falling x y hxy
    have h2 := h.nonneg y
    exact hy (by linarith)
  classical
  rw [hrank, Fintype.card_subtype]
  constructor
  · intro hj
    have : Finset.Iic j ⊆ Finset.univ.filter fun i => s i ≠ 0 := by
      intro i hi
      simp only [Finset.mem_filter, Finset.mem_univ, true_and, Finset.mem_Iic] at hi ⊢
      exact hdown i j hi hj
    have hc := Finset.card_le_card this
    rw [Fin.card_Iic] at hc
    omega
  · intro hj hz
    have : (Finset.univ.filter fun i => s i ≠ 0) ⊆ Finset.Iio j := by
      intro i hi
      simp only [Finset.mem_filter, Finset.mem_univ, true_and, Finset.mem_Iio] at hi ⊢
      by_contra hlt
      exact hdown j i (not_lt.1 hlt) hi hz
    have hc := Finset.card_le_card this
    rw [Fin.card_Iio] at hc
    omega

/-- the inverse on the plane of the element is the pseudoinverse of a matrix of that rank -/
theorem planeInverse_ok {m d n : Nat} (hdm : d ≤ m) {A : Matrix (Fin (m + 1)) (Fin (d + 1)) ℝ}
    {f : Svd (m + 1) (d + 1) ℝ} (h : IsSvd A f.u f.s f.v) (hr : A.rank = n) :
    ∃ X, planeInverse n f = .ok X ∧ IsPseudoinverse A X := by
  unfold planeInverse
  simp only
  rw [if_pos hdm]
  refine ⟨_, rfl, ?_⟩
  have hA : A = f.u.submatrix id (Fin.castLE (Nat.min_le_left _ _)) * diagonal f.s *
      f.v.submatrix (Fin.castLE (Nat.min_le_right _ _)) id := by
    ext i k
    rw [h.decomp, mul_apply]
    simp only [mul_diagonal, submatrix_apply, id]
  have hX : (Matrix.of fun k i => ∑ j : Fin (min (m + 1) (d + 1)),
      f.u i (Fin.castLE (Nat.min_le_left _ _) j) * (if j.val < n then 1 / f.s j else 0) *
        f.v (Fin.castLE (Nat.min_le_right _ _) j) k) =
      (f.v.submatrix (Fin.castLE (Nat.min_le_right _ _)) id)ᵀ *
        diagonal (fun j : Fin (min (m + 1) (d + 1)) => if j.val < n then 1 / f.s j else 0) *
        (f.u.submatrix id (Fin.castLE (Nat.min_le_left _ _)))ᵀ := by
    ext k i
    rw [mul_apply]
    simp only [mul_diagonal, submatrix_apply, id, transpose_apply, of_apply]
    exact Finset.sum_congr rfl fun j _ => by ring
  have key := Props.pseudoinverse_of (f.u.submatrix id (Fin.castLE (Nat.min_le_left _ _)))
    (f.v.submatrix (Fin.castLE (Nat.min_le_right _ _)) id) f.s
    (fun j : Fin (min (m + 1) (d + 1)) => if j.val < n then 1 / f.s j else 0)
    (Props.left_orthonormal _ _ h.left) (Props.right_orthonormal _ _ h.right) (by
      intro j
      have := svd_rank h j
      rw [hr] at this
      refine ⟨fun hz => if_neg fun hl => this.2 hl hz, fun hz => if_pos (this.1 hz)⟩)
  rw [← hA, ← hX] at key
  exact key

theorem vol_pos_of {M : Nat} {p : Fin (M + 1) → Fin D → ℝ} (hp : AffineIndependent ℝ p) : 0 < vol p := by
  unfold vol
  refine div_pos (Real.sqrt_pos.2 (abs_pos.2 fun h0 => ?_)) (by positivity)
  set A := edgeRows (Matrix.of p) with hA
  obtain ⟨v, hv, h1⟩ := Matrix.exists_mulVec_eq_zero_iff.2 h0
  have h2 : (Aᵀ *ᵥ v) ⬝ᵥ (Aᵀ *ᵥ v) = 0 := by
    have h3 : v ⬝ᵥ ((A * Aᵀ) *ᵥ v) = 0 := by rw [h1, dotProduct_zero]
    rw [← mulVec_mulVec, dotProduct_mulVec, ← mulVec_transpose] at h3
    exact h3
  have h3 : Aᵀ *ᵥ v = 0 := dotProduct_self_eq_zero.1 h2
  apply hv
  have hi := edges_independent hp
  rw [Fintype.linearIndependent_iff] at hi
  funext i
  refine hi v ?_ i
  funext j
  have := congrFun h3 j
  simp only [mulVec, dotProduct, transpose_apply, Pi.zero_apply] at this
  simp only [Finset.sum_apply, Pi.smul_apply, smul_eq_mul, Pi.zero_apply]
  rw [← this]
  refine Finset.sum_congr rfl fun i _ => ?_
  rw [mul_comm]
  rfl

end Verif
