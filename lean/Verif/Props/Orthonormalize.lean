/-
C79: `orthonormalize`.
-/
import Verif.Model.Rotation
import Verif.Spec.Rotation
import Verif.Props.Pinv
import Verif.Lemmas.Svd
import Verif.Lemmas.Velocity

set_option linter.unusedSectionVars false

namespace Verif.Props

open Verif.Model Verif.Spec Matrix

section

variable {n m : Nat}

/-- the sum of the products of the entries -/
def entrywise (A B : Matrix (Fin n) (Fin m) ℝ) : ℝ := ∑ i, ∑ k, A i k * B i k

theorem distance_expand (A B : Matrix (Fin n) (Fin m) ℝ) :
    squaredDistance A B = entrywise A A + entrywise B B - 2 * entrywise A B := by
  unfold squaredDistance entrywise
  rw [Finset.mul_sum, ← Finset.sum_add_distrib, ← Finset.sum_sub_distrib]
  refine Finset.sum_congr rfl fun i _ => ?_
  rw [Finset.mul_sum, ← Finset.sum_add_distrib, ← Finset.sum_sub_distrib]
  exact Finset.sum_congr rfl fun k _ => by ring

theorem entrywise_orthonormal {Q : Matrix (Fin n) (Fin m) ℝ} (h : OrthonormalMatrix Q) :
    entrywise Q Q = ((min n m : ℕ) : ℝ) := by
  rcases Nat.le_total m n with hmn | hnm
  · rw [Nat.min_eq_right hmn]
    have := congrArg Matrix.trace (h.columns hmn)
    rw [trace_one, Fintype.card_fin] at this
    rw [← this, trace, entrywise, Finset.sum_comm]
    rfl
  · rw [Nat.min_eq_left hnm]
    have := congrArg Matrix.trace (h.rows hnm)
    rw [trace_one, Fintype.card_fin] at this
    rw [← this, trace, entrywise]
    rfl

theorem eye_product (u : Matrix (Fin n) (Fin n) ℝ) (v : Matrix (Fin m) (Fin m) ℝ) (i : Fin n) (k : Fin m) :
    (u * eyeOf n m * v) i k = ∑ j : Fin (min n m),
      u i (Fin.castLE (Nat.min_le_left n m) j) * v (Fin.castLE (Nat.min_le_right n m) j) k := by
  have h1 : ∀ b : Fin m, (u * eyeOf n m) i b = if hb : b.val < n then u i ⟨b.val, hb⟩ else 0 := by
    intro b
    rw [mul_apply]
    simp only [eyeOf, of_apply, mul_ite, mul_one, mul_zero]
    split
    · next hb =>
      rw [Finset.sum_eq_single ⟨b.val, hb⟩]
      · simp
      · intro a _ ha
        rw [if_neg]
        intro he
        exact ha (Fin.ext he)
      · simp
    · next hb =>
      refine Finset.sum_eq_zero fun a _ => ?_
      rw [if_neg]
      intro he
      exact hb (he ▸ a.2)
  rw [mul_apply]
  simp only [h1]
  have h2 : ∑ b : Fin m, (if hb : b.val < n then u i ⟨b.val, hb⟩ else 0) * v b k =
      ∑ b ∈ Finset.univ.image (Fin.castLE (Nat.min_le_right n m)),
        (if hb : b.val < n then u i ⟨b.val, hb⟩ else 0) * v b k := by
    symm
    refine Finset.sum_subset (Finset.subset_univ _) fun b _ hb => ?_
    rw [dif_neg, zero_mul]
    intro hbn
    exact hb (Finset.mem_image.2 ⟨⟨b.val, lt_min hbn b.2⟩, Finset.mem_univ _, rfl⟩)
  rw [h2, Finset.sum_image (fun a _ b _ hab => Fin.castLE_injective _ hab)]
  refine Finset.sum_congr rfl fun j _ => ?_
  have : j.val < n := by have := j.2; omega
  rw [dif_pos (show (Fin.castLE (Nat.min_le_right n m) j).val < n from this)]
  rfl

theorem orthonormal_product {u : Matrix (Fin n) (Fin n) ℝ} {v : Matrix (Fin m) (Fin m) ℝ}
    (hu : ∀ i k, ∑ j, u j i * u j k = if i = k then 1 else 0)
    (hv : ∀ i k, ∑ j, v i j * v k j = if i = k then 1 else 0) : OrthonormalMatrix (u * eyeOf n m * v) := by
  have hu1 : uᵀ * u = 1 := by
    ext i k
    rw [mul_apply, one_apply]
    exact hu i k
  have hv1 : v * vᵀ = 1 := by
    ext i k
    rw [mul_apply, one_apply]
    exact hv i k
  have hu2 := mul_eq_one_comm.1 hu1
  have hv2 := mul_eq_one_comm.1 hv1
  have e1 : m ≤ n → (eyeOf n m)ᵀ * eyeOf n m = 1 := by
    intro h
    ext i k
    rw [mul_apply, one_apply]
    simp only [eyeOf, transpose_apply, of_apply]
    rw [Finset.sum_eq_single ⟨i.val, by omega⟩]
    · simp only [if_true, one_mul, Fin.ext_iff]
    · intro a _ ha
      rw [if_neg (fun he => ha (Fin.ext he)), zero_mul]
    · simp
  have e2 : n ≤ m → eyeOf n m * (eyeOf n m)ᵀ = 1 := by
    intro h
    ext i k
    rw [mul_apply, one_apply]
    simp only [eyeOf, transpose_apply, of_apply]
    rw [Finset.sum_eq_single ⟨i.val, by omega⟩]
    · simp only [if_true, one_mul, Fin.ext_iff, eq_comm]
    · intro a _ ha
      rw [if_neg (fun he => ha (Fin.ext he.symm)), zero_mul]
    · simp
  constructor
  · intro h
    rw [transpose_mul, transpose_mul]
    calc vᵀ * ((eyeOf n m)ᵀ * uᵀ) * (u * eyeOf n m * v) = vᵀ * ((eyeOf n m)ᵀ * (uᵀ * u) * eyeOf n m) * v := by
          simp only [Matrix.mul_assoc]
      _ = 1 := by rw [hu1, Matrix.mul_one, e1 h, Matrix.mul_one, hv2]
  · intro h
    rw [transpose_mul, transpose_mul]
    calc u * eyeOf n m * v * (vᵀ * ((eyeOf n m)ᵀ * uᵀ)) = u * (eyeOf n m * (v * vᵀ) * (eyeOf n m)ᵀ) * uᵀ := by
          simp only [Matrix.mul_assoc]
      _ = 1 := by rw [hv1, Matrix.mul_one, e2 h, Matrix.mul_one, hu2]

/-- the component of `Q` along the singular vectors -/
def along (u : Matrix (Fin n) (Fin n) ℝ) (v : Matrix (Fin m) (Fin m) ℝ) (Q : Matrix (Fin n) (Fin m) ℝ)
    (j : Fin (min n m)) : ℝ :=
  ∑ i, ∑ k, u i (Fin.castLE (Nat.min_le_left n m) j) * v (Fin.castLE (Nat.min_le_right n m) j) k * Q i k

variable {A : Matrix (Fin n) (Fin m) ℝ} {u : Matrix (Fin n) (Fin n) ℝ} {s : Fin (min n m) → ℝ}
  {v : Matrix (Fin m) (Fin m) ℝ}

theorem entrywise_along (h : IsSvd A u s v) (Q : Matrix (Fin n) (Fin m) ℝ) :
    entrywise A Q = ∑ j, s j * along u v Q j := by
  unfold entrywise along
  simp only [h.decomp, Finset.sum_mul, Finset.mul_sum]
  calc _ = ∑ i, ∑ j : Fin (min n m), ∑ k, u i (Fin.castLE (Nat.min_le_left n m) j) * s j *
        v (Fin.castLE (Nat.min_le_right n m) j) k * Q i k := Finset.sum_congr rfl fun i _ => Finset.sum_comm
    _ = _ := by
      rw [Finset.sum_comm]
      exact Finset.sum_congr rfl fun j _ => Finset.sum_congr rfl fun i _ => Finset.sum_congr rfl fun k _ => by ring

/-- the image of a singular vector -/
theorem along_image (Q : Matrix (Fin n) (Fin m) ℝ) (j : Fin (min n m)) :
    along u v Q j = ∑ i, u i (Fin.castLE (Nat.min_le_left n m) j) *
      (Q *ᵥ v (Fin.castLE (Nat.min_le_right n m) j)) i := by
  unfold along
  refine Finset.sum_congr rfl fun i _ => ?_
  rw [mulVec, dotProduct, Finset.mul_sum]
  exact Finset.sum_congr rfl fun k _ => by ring

theorem along_le (h : IsSvd A u s v) {Q : Matrix (Fin n) (Fin m) ℝ} (hQ : OrthonormalMatrix Q) (j : Fin (min n m)) :
    along u v Q j ≤ 1 := by
  set a : Fin n → ℝ := fun i => u i (Fin.castLE (Nat.min_le_left n m) j) with ha
  set b : Fin m → ℝ := v (Fin.castLE (Nat.min_le_right n m) j) with hb
  have haa : a ⬝ᵥ a = 1 := by
    have := h.left (Fin.castLE (Nat.min_le_left n m) j) (Fin.castLE (Nat.min_le_left n m) j)
    rwa [if_pos rfl] at this
  have hbb : b ⬝ᵥ b = 1 := by
    have := h.right (Fin.castLE (Nat.min_le_right n m) j) (Fin.castLE (Nat.min_le_right n m) j)
    rwa [if_pos rfl] at this
  have key : ∀ (l : Nat) (x y : Fin l → ℝ), x ⬝ᵥ x = 1 → y ⬝ᵥ y = 1 → x ⬝ᵥ y ≤ 1 := by
    intro l x y hx hy
    have h0 : 0 ≤ (x - y) ⬝ᵥ (x - y) := Finset.sum_nonneg fun i _ => mul_self_nonneg _
    rw [sub_dotProduct, dotProduct_sub, dotProduct_sub, hx, hy, dotProduct_comm y x] at h0
    linarith
  have hal : along u v Q j = a ⬝ᵥ (Q *ᵥ b) := along_image Q j
  rw [hal]
  rcases Nat.le_total m n with hmn | hnm
  · refine key _ _ _ haa ?_
    rw [dotProduct_mulVec, vecMul_mulVec, hQ.columns hmn, ← dotProduct_mulVec, one_mulVec, hbb]
  · rw [dotProduct_mulVec]
    refine key _ _ _ ?_ hbb
    rw [← dotProduct_mulVec, ← mulVec_transpose Q a, mulVec_mulVec, hQ.rows hnm, one_mulVec, haa]

theorem along_product (h : IsSvd A u s v) (c : Fin (min n m) → ℝ) {R : Matrix (Fin n) (Fin m) ℝ}
    (hR : ∀ i k, R i k = ∑ l : Fin (min n m), u i (Fin.castLE (Nat.min_le_left n m) l) * c l *
      v (Fin.castLE (Nat.min_le_right n m) l) k) (j : Fin (min n m)) : along u v R j = c j := by
  unfold along
  simp only [hR, Finset.mul_sum]
  calc _ = ∑ i, ∑ l : Fin (min n m), ∑ k, u i (Fin.castLE (Nat.min_le_left n m) j) *
        v (Fin.castLE (Nat.min_le_right n m) j) k * (u i (Fin.castLE (Nat.min_le_left n m) l) * c l *
        v (Fin.castLE (Nat.min_le_right n m) l) k) := Finset.sum_congr rfl fun i _ => Finset.sum_comm
    _ = ∑ l : Fin (min n m), ∑ i, ∑ k, u i (Fin.castLE (Nat.min_le_left n m) j) *
        v (Fin.castLE (Nat.min_le_right n m) j) k * (u i (Fin.castLE (Nat.min_le_left n m) l) * c l *
        v (Fin.castLE (Nat.min_le_right n m) l) k) := Finset.sum_comm
    _ = ∑ l : Fin (min n m), c l * ((if j = l then 1 else 0) * (if j = l then 1 else 0)) := by
      refine Finset.sum_congr rfl fun l _ => ?_
      have e1 := h.left (Fin.castLE (Nat.min_le_left n m) j) (Fin.castLE (Nat.min_le_left n m) l)
      have e2 := h.right (Fin.castLE (Nat.min_le_right n m) j) (Fin.castLE (Nat.min_le_right n m) l)
      simp only [Fin.castLE_inj] at e1 e2
      have e3 : ((if j = l then 1 else 0) * (if j = l then 1 else 0) : ℝ) = _ := congrArg₂ (· * ·) e1.symm e2.symm
      rw [e3, Finset.sum_mul_sum, Finset.mul_sum]
      refine Finset.sum_congr rfl fun i _ => ?_
      rw [Finset.mul_sum]
      exact Finset.sum_congr rfl fun k _ => by ring
    _ = c j := by simp

theorem svd_product_entries (i : Fin n) (k : Fin m) : (u * eyeOf n m * v) i k =
    ∑ l : Fin (min n m), u i (Fin.castLE (Nat.min_le_left n m) l) * (fun _ => (1 : ℝ)) l *
      v (Fin.castLE (Nat.min_le_right n m) l) k := by
  rw [eye_product]
  simp

/-- no orthonormal matrix is closer than the product of the singular vectors -/
theorem closest_product (h : IsSvd A u s v) {Q : Matrix (Fin n) (Fin m) ℝ} (hQ : OrthonormalMatrix Q) :
    squaredDistance A (u * eyeOf n m * v) ≤ squaredDistance A Q := by
  rw [distance_expand, distance_expand, entrywise_orthonormal hQ,
    entrywise_orthonormal (orthonormal_product h.left h.right), entrywise_along h Q,
    entrywise_along h (u * eyeOf n m * v)]
  have : ∑ j, s j * along u v Q j ≤ ∑ j, s j * along u v (u * eyeOf n m * v) j := by
    refine Finset.sum_le_sum fun j _ => ?_
    rw [along_product h (fun _ => 1) svd_product_entries]
    exact mul_le_mul_of_nonneg_left (along_le h hQ j) (h.nonneg j)
  linarith

/-- with independent columns it is the only closest one -/
theorem closest_unique (h : IsSvd A u s v) (hmn : m ≤ n) (hs : ∀ j, s j ≠ 0) {Q : Matrix (Fin n) (Fin m) ℝ}
    (hQ : OrthonormalMatrix Q) (he : squaredDistance A Q ≤ squaredDistance A (u * eyeOf n m * v)) :
    Q = u * eyeOf n m * v := by
  rw [distance_expand, distance_expand, entrywise_orthonormal hQ,
    entrywise_orthonormal (orthonormal_product h.left h.right), entrywise_along h Q,
    entrywise_along h (u * eyeOf n m * v)] at he
  have hone := along_product h (fun _ => 1) svd_product_entries
  have h0 : ∑ j, s j * (1 - along u v Q j) = 0 := by
    refine le_antisymm ?_ (Finset.sum_nonneg fun j _ => mul_nonneg (h.nonneg j) (by linarith [along_le h hQ j]))
    simp only [hone] at he
    simp only [mul_sub, Finset.sum_sub_distrib]
    linarith
  have h1 : ∀ j, along u v Q j = 1 := by
    intro j
    have := (Finset.sum_eq_zero_iff_of_nonneg
      (fun j _ => mul_nonneg (h.nonneg j) (by linarith [along_le h hQ j]))).1 h0 j (Finset.mem_univ j)
    rcases mul_eq_zero.1 this with h2 | h2
    · exact absurd h2 (hs j)
    · linarith
  have h2 : ∀ (j : Fin (min n m)) (i : Fin n), (Q *ᵥ v (Fin.castLE (Nat.min_le_right n m) j)) i =
      u i (Fin.castLE (Nat.min_le_left n m) j) := by
    intro j
    set a : Fin n → ℝ := fun i => u i (Fin.castLE (Nat.min_le_left n m) j) with ha
    set b : Fin m → ℝ := v (Fin.castLE (Nat.min_le_right n m) j) with hb
    have haa : a ⬝ᵥ a = 1 := by
      have := h.left (Fin.castLE (Nat.min_le_left n m) j) (Fin.castLE (Nat.min_le_left n m) j)
      rwa [if_pos rfl] at this
    have hbb : b ⬝ᵥ b = 1 := by
      have := h.right (Fin.castLE (Nat.min_le_right n m) j) (Fin.castLE (Nat.min_le_right n m) j)
      rwa [if_pos rfl] at this
    have hab : a ⬝ᵥ (Q *ᵥ b) = 1 := (along_image Q j).symm.trans (h1 j)
    have hqq : (Q *ᵥ b) ⬝ᵥ (Q *ᵥ b) = 1 := by
      rw [dotProduct_mulVec, vecMul_mulVec, hQ.columns hmn, ← dotProduct_mulVec, one_mulVec, hbb]
    have hz : (Q *ᵥ b - a) ⬝ᵥ (Q *ᵥ b - a) = 0 := by
      rw [sub_dotProduct, dotProduct_sub, dotProduct_sub, hqq, haa, hab, dotProduct_comm, hab]
      ring
    intro i
    have := congrFun (dotProduct_self_eq_zero.1 hz) i
    simp only [Pi.sub_apply, Pi.zero_apply] at this
    linarith
  have hv2 : vᵀ * v = 1 := by
    rw [mul_eq_one_comm]
    ext i k
    rw [mul_apply, one_apply]
    exact h.right i k
  ext i k
  rw [eye_product]
  calc Q i k = (Q * (vᵀ * v)) i k := by rw [hv2, Matrix.mul_one]
    _ = ∑ b : Fin m, (Q *ᵥ v b) i * v b k := by
      rw [← Matrix.mul_assoc, mul_apply]
      rfl
    _ = _ := by
      have : min n m = m := Nat.min_eq_right hmn
      rw [← (finCongr this).sum_comp]
      refine Finset.sum_congr rfl fun j _ => ?_
      rw [← h2 j i]
      rfl

end

section

variable {svd : (a b : Nat) → Matrix (Fin a) (Fin b) ℝ → Svd a b ℝ}

/-- C79: without `demirror` the result is an orthonormal matrix, and none is closer to the given one; with
independent columns it is the only closest one -/
theorem C79_closest {n m : Nat} (A : Matrix (Fin n) (Fin m) ℝ)
    (h : IsSvd A (svd n m A).u (svd n m A).s (svd n m A).v) :
    ∃ R, orthonormalize svd A false = .ok R ∧ OrthonormalMatrix R ∧
      (∀ Q, OrthonormalMatrix Q → squaredDistance A R ≤ squaredDistance A Q) ∧
      (LinearIndependent ℝ Aᵀ.row → ∀ Q, OrthonormalMatrix Q → squaredDistance A Q ≤ squaredDistance A R → Q = R) := by
  refine ⟨_, rfl, orthonormal_product h.left h.right, fun Q hQ => closest_product h hQ, fun hi Q hQ he => ?_⟩
  have hr : A.rank = m := by
    rw [← rank_transpose, LinearIndependent.rank_matrix hi, Fintype.card_fin]
  have hmn : m ≤ n := by
    have := A.rank_le_height
    omega
  exact closest_unique h hmn (fun j => (svd_rank h j).2 (by have := j.2; omega)) hQ he

theorem svd_square {n : Nat} {A u v : Matrix (Fin n) (Fin n) ℝ} {s : Fin (min n n) → ℝ} (h : IsSvd A u s v) :
    A = u * diagonal (fun i : Fin n => s ⟨i.val, by simp⟩) * v := by
  ext i k
  rw [h.decomp, mul_apply, ← (finCongr (Nat.min_self n)).sum_comp]
  refine Finset.sum_congr rfl fun j _ => ?_
  rw [mul_diagonal]
  rfl

theorem svd_det {n : Nat} {A u v : Matrix (Fin n) (Fin n) ℝ} {s : Fin (min n n) → ℝ} (h : IsSvd A u s v) :
    A.det = u.det * (∏ j, s j) * v.det ∧ u.det * u.det = 1 ∧ v.det * v.det = 1 := by
  have hu1 : uᵀ * u = 1 := by
    ext i k
    rw [mul_apply, one_apply]
    exact h.left i k
  have hv1 : v * vᵀ = 1 := by
    ext i k
    rw [mul_apply, one_apply]
    exact h.right i k
  have hA := svd_square h
  refine ⟨?_, ?_, ?_⟩
  · rw [congrArg det hA, det_mul, det_mul, det_diagonal, ← (finCongr (Nat.min_self n)).prod_comp]
    rfl
  · have := congrArg det hu1
    rwa [det_mul, det_transpose, det_one] at this
  · have := congrArg det hv1
    rwa [det_mul, det_transpose, det_one] at this

theorem eyeOf_self (n : Nat) : eyeOf n n = 1 := by
  ext i j
  rw [one_apply]
  simp only [eyeOf, of_apply, Fin.ext_iff]

/-- the first row times `c` -/
theorem scaled_first {n : Nat} (v : Matrix (Fin (n + 1)) (Fin (n + 1)) ℝ) (c : ℝ) :
    (Matrix.of fun i j => if i.val = 0 then v i j * c else v i j) =
      diagonal (fun i : Fin (n + 1) => if i = 0 then c else 1) * v := by
  ext i j
  rw [diagonal_mul]
  simp only [of_apply, Fin.ext_iff, Fin.val_zero]
  split <;> ring

theorem orthonormalize_eq {n : Nat} (A : Matrix (Fin (n + 1)) (Fin (n + 1)) ℝ) :
    orthonormalize svd A true = .ok ((svd (n + 1) (n + 1) A).u *
      diagonal (fun i : Fin (n + 1) => if i = 0 then Real.sign A.det else 1) * (svd (n + 1) (n + 1) A).v) := by
  unfold orthonormalize
  simp only [if_true, dif_pos, Nat.succ_ne_zero, if_false]
  have : A.submatrix id (Fin.cast (Eq.refl (n + 1))) = A := rfl
  rw [this, eyeOf_self, Matrix.mul_one, scaled_first, ← Matrix.mul_assoc]

theorem orthonormal_signed {n : Nat} {u v : Matrix (Fin n) (Fin n) ℝ}
    (hu : ∀ i k, ∑ j, u j i * u j k = if i = k then 1 else 0)
    (hv : ∀ i k, ∑ j, v i j * v k j = if i = k then 1 else 0) {d : Fin n → ℝ} (hd : ∀ i, d i * d i = 1) :
    OrthonormalMatrix (u * diagonal d * v) := by
  have hDD : diagonal d * diagonal d = 1 := by
    rw [diagonal_mul_diagonal, ← diagonal_one]
    exact congrArg _ (funext hd)
  have hu1 : uᵀ * u = 1 := by
    ext i k
    rw [mul_apply, one_apply]
    exact hu i k
  have hv1 : v * vᵀ = 1 := by
    ext i k
    rw [mul_apply, one_apply]
    exact hv i k
  have hcol : (u * diagonal d * v)ᵀ * (u * diagonal d * v) = 1 := by
    rw [transpose_mul, transpose_mul, diagonal_transpose]
    calc vᵀ * (diagonal d * uᵀ) * (u * diagonal d * v) = vᵀ * (diagonal d * (uᵀ * u) * diagonal d) * v := by
          simp only [Matrix.mul_assoc]
      _ = 1 := by rw [hu1, Matrix.mul_one, hDD, Matrix.mul_one, mul_eq_one_comm.1 hv1]
  exact ⟨fun _ => hcol, fun _ => mul_eq_one_comm.1 hcol⟩

/-- C79: with `demirror` the result for an invertible matrix is a rotation: orthonormal, of determinant one -/
theorem C79_rotation {n : Nat} (A : Matrix (Fin (n + 1)) (Fin (n + 1)) ℝ)
    (h : IsSvd A (svd (n + 1) (n + 1) A).u (svd (n + 1) (n + 1) A).s (svd (n + 1) (n + 1) A).v) (hd : A.det ≠ 0) :
    ∃ R, orthonormalize svd A true = .ok R ∧ OrthonormalMatrix R ∧ R.det = 1 := by
  obtain ⟨h1, h2, h3⟩ := svd_det h
  set u := (svd (n + 1) (n + 1) A).u with hu
  set v := (svd (n + 1) (n + 1) A).v with hv
  set D : Matrix (Fin (n + 1)) (Fin (n + 1)) ℝ :=
    diagonal (fun i : Fin (n + 1) => if i = 0 then Real.sign A.det else 1) with hD
  have hsq : Real.sign A.det * Real.sign A.det = 1 := by
    rcases lt_or_gt_of_ne hd with h | h
    · rw [Real.sign_of_neg h]; norm_num
    · rw [Real.sign_of_pos h]; norm_num
  have ho : OrthonormalMatrix (u * D * v) := orthonormal_signed h.left h.right fun i => by
    split
    · exact hsq
    · norm_num
  refine ⟨_, orthonormalize_eq A, ho, ?_⟩
  have hdD : D.det = Real.sign A.det := by
    rw [hD, det_diagonal, Fin.prod_univ_succ]
    simp [Fin.succ_ne_zero]
  have hp : 0 ≤ ∏ j, (svd (n + 1) (n + 1) A).s j := Finset.prod_nonneg fun j _ => h.nonneg j
  rw [det_mul, det_mul, hdD]
  set a := u.det
  set b := v.det
  set p := ∏ j, (svd (n + 1) (n + 1) A).s j
  have hp0 : p ≠ 0 := fun h0 => hd (by rw [h1, h0]; ring)
  have hp1 : 0 < p := lt_of_le_of_ne hp (Ne.symm hp0)
  have hab : (a * b) * (a * b) = 1 := by linear_combination (b * b) * h2 + h3
  have hdet : A.det = p * (a * b) := by rw [h1]; ring
  rcases mul_self_eq_one_iff.1 hab with h4 | h4
  · rw [h4] at hdet
    rw [Real.sign_of_pos (by rw [hdet]; linarith)]
    linarith
  · rw [h4] at hdet
    rw [Real.sign_of_neg (by rw [hdet]; linarith)]
    linarith

/-- C79: for a positive determinant `demirror` changes nothing: no orthonormal matrix is closer -/
theorem C79_positive {n : Nat} (A : Matrix (Fin (n + 1)) (Fin (n + 1)) ℝ) (hd : 0 < A.det) :
    orthonormalize svd A true = orthonormalize svd A false := by
  rw [orthonormalize_eq]
  unfold orthonormalize
  simp only [Bool.false_eq_true, if_false]
  rw [eyeOf_self, Real.sign_of_pos hd]
  congr 3
  rw [← diagonal_one]
  congr 1
  funext i
  split <;> rfl

/-- C79: for a negative determinant the direction of the largest singular value is turned round, not that of the
smallest: unless all singular values are equal some rotation is closer -/
theorem C79_mirror_fails {n : Nat} (A : Matrix (Fin (n + 1)) (Fin (n + 1)) ℝ)
    (h : IsSvd A (svd (n + 1) (n + 1) A).u (svd (n + 1) (n + 1) A).s (svd (n + 1) (n + 1) A).v) (hd : A.det < 0)
    (hs : (svd (n + 1) (n + 1) A).s ⟨n, by simp⟩ ≠ (svd (n + 1) (n + 1) A).s ⟨0, by simp⟩) :
    ∃ R Q, orthonormalize svd A true = .ok R ∧ OrthonormalMatrix Q ∧ Q.det = 1 ∧
      squaredDistance A Q < squaredDistance A R := by
  obtain ⟨h1, h2, h3⟩ := svd_det h
  set u := (svd (n + 1) (n + 1) A).u with hu
  set v := (svd (n + 1) (n + 1) A).v with hv
  set s := (svd (n + 1) (n + 1) A).s with hsd
  have hp : 0 ≤ ∏ j, s j := Finset.prod_nonneg fun j _ => h.nonneg j
  have hneg : u.det * v.det = -1 := by
    have hab : (u.det * v.det) * (u.det * v.det) = 1 := by linear_combination (v.det * v.det) * h2 + h3
    rcases mul_self_eq_one_iff.1 hab with h4 | h4
    · have : A.det = ∏ j, s j := by rw [h1]; linear_combination (∏ j, s j) * h4
      linarith
    · exact h4
  have hn : n ≠ 0 := by
    rintro rfl
    exact hs rfl
  have hlt : s ⟨n, by simp⟩ < s ⟨0, by simp⟩ := lt_of_le_of_ne (h.falling _ _ (Fin.mk_le_mk.2 (Nat.zero_le n))) hs
  set d0 : Fin (n + 1) → ℝ := fun i => if i = 0 then -1 else 1 with hd0
  set d1 : Fin (n + 1) → ℝ := fun i => if i = Fin.last n then -1 else 1 with hd1
  have ho : ∀ d : Fin (n + 1) → ℝ, (∀ i, d i * d i = 1) → OrthonormalMatrix (u * diagonal d * v) :=
    fun d hdd => orthonormal_signed h.left h.right hdd
  have hent : ∀ d : Fin (n + 1) → ℝ, entrywise A (u * diagonal d * v) =
      ∑ i : Fin (n + 1), s ⟨i.val, by have := i.2; omega⟩ * d i := by
    intro d
    rw [entrywise_along h, ← (finCongr (Nat.min_self (n + 1))).sum_comp]
    refine Finset.sum_congr rfl fun j _ => ?_
    rw [along_product h (fun j => d (finCongr (Nat.min_self (n + 1)) j)) (fun i k => ?_) j]
    · rfl
    · rw [mul_apply, ← (finCongr (Nat.min_self (n + 1))).sum_comp]
      refine Finset.sum_congr rfl fun l _ => ?_
      rw [mul_diagonal]
      rfl
  have hs0 : ∀ i, d0 i * d0 i = 1 := fun i => by
    simp only [hd0]
    split <;> norm_num
  have hs1 : ∀ i, d1 i * d1 i = 1 := fun i => by
    simp only [hd1]
    split <;> norm_num
  refine ⟨u * diagonal d0 * v, u * diagonal d1 * v, ?_, ho d1 hs1, ?_, ?_⟩
  · rw [orthonormalize_eq, Real.sign_of_neg hd]
  · rw [det_mul, det_mul, det_diagonal, Fin.prod_univ_castSucc]
    have : ∏ i : Fin n, d1 i.castSucc = 1 := Finset.prod_eq_one fun i _ => if_neg (Fin.castSucc_lt_last i).ne
    rw [this]
    simp only [hd1, if_true]
    linarith
  · rw [distance_expand, distance_expand, entrywise_orthonormal (ho d0 hs0), entrywise_orthonormal (ho d1 hs1),
      hent d0, hent d1]
    have hdiff : ∑ i : Fin (n + 1), s ⟨i.val, by have := i.2; omega⟩ * d1 i - ∑ i : Fin (n + 1), s ⟨i.val, by have := i.2; omega⟩ * d0 i =
        2 * s ⟨0, by simp⟩ - 2 * s ⟨n, by simp⟩ := by
      rw [← Finset.sum_sub_distrib]
      have hterm : ∀ i : Fin (n + 1), s ⟨i.val, by have := i.2; omega⟩ * d1 i - s ⟨i.val, by have := i.2; omega⟩ * d0 i =
          (if i = 0 then 2 * s ⟨i.val, by have := i.2; omega⟩ else 0) - (if i = Fin.last n then 2 * s ⟨i.val, by have := i.2; omega⟩ else 0) := by
        intro i
        simp only [hd0, hd1]
        by_cases ha : i = 0
        · have hb : i ≠ Fin.last n := by
            rw [ha]
            intro he
            exact hn (by simpa using (congrArg Fin.val he).symm)
          rw [if_pos ha, if_neg hb, if_pos ha, if_neg hb]
          ring
        · rw [if_neg ha, if_neg ha]
          split <;> ring
      simp only [hterm]
      rw [Finset.sum_sub_distrib, Finset.sum_ite_eq' Finset.univ (0 : Fin (n + 1)),
        Finset.sum_ite_eq' Finset.univ (Fin.last n)]
      simp
    linarith

/-- C79: a singular matrix is mapped to a singular matrix, which is not orthonormal -/
theorem C79_singular {n : Nat} (A : Matrix (Fin (n + 1)) (Fin (n + 1)) ℝ) (hd : A.det = 0) :
    ∃ R, orthonormalize svd A true = .ok R ∧ R.det = 0 ∧ ¬ OrthonormalMatrix R := by
  refine ⟨_, orthonormalize_eq A, ?_⟩
  rw [hd, Real.sign_zero]
  have h0 : ((svd (n + 1) (n + 1) A).u * diagonal (fun i : Fin (n + 1) => if i = 0 then (0 : ℝ) else 1) *
      (svd (n + 1) (n + 1) A).v).det = 0 := by
    rw [det_mul, det_mul, det_diagonal, Fin.prod_univ_succ]
    simp
  refine ⟨h0, fun ho => ?_⟩
  have := congrArg det (ho.columns (le_refl _))
  rw [det_mul, h0, mul_zero, det_one] at this
  exact zero_ne_one this

/-- C79: by default a matrix that is not square is refused -/
theorem C79_not_square {n m : Nat} (A : Matrix (Fin n) (Fin m) ℝ) (hnm : n ≠ m) :
    orthonormalize svd A true = .error .valueError := by
  unfold orthonormalize
  simp only [if_true]
  rw [dif_neg hnm]

/-- example of C79: `diag(2, -1)` meets the hypotheses of `C79_mirror_fails` -/
example (h : SvdSpec svd) : (!![2, 0; 0, -1] : Matrix (Fin 2) (Fin 2) ℝ).det < 0 ∧
    (svd 2 2 !![2, 0; 0, -1]).s ⟨1, by simp⟩ ≠ (svd 2 2 !![2, 0; 0, -1]).s ⟨0, by simp⟩ := by
  refine ⟨by rw [det_fin_two]; simp, fun he => ?_⟩
  have hs := h 2 2 (!![2, 0; 0, -1] : Matrix (Fin 2) (Fin 2) ℝ) (le_refl 2)
  set A : Matrix (Fin 2) (Fin 2) ℝ := !![2, 0; 0, -1] with hA
  set u := (svd 2 2 A).u
  set v := (svd 2 2 A).v
  set c := (svd 2 2 A).s ⟨0, by simp⟩ with hc
  have h1 := svd_square hs
  have h2 : (diagonal (fun i : Fin 2 => (svd 2 2 A).s ⟨i.val, by have := i.2; omega⟩) : Matrix (Fin 2) (Fin 2) ℝ) = c • 1 := by
    rw [smul_one_eq_diagonal]
    congr 1
    funext i
    fin_cases i
    · rfl
    · exact he
  have hu1 : uᵀ * u = 1 := by
    ext i k
    rw [mul_apply, one_apply]
    exact hs.left i k
  have hv1 : v * vᵀ = 1 := by
    ext i k
    rw [mul_apply, one_apply]
    exact hs.right i k
  have h3 : A * Aᵀ = (c * c) • 1 := by
    rw [h2] at h1
    have h4 : A = c • (u * v) := by rw [h1, Matrix.mul_smul, Matrix.mul_one, Matrix.smul_mul]
    rw [h4, transpose_smul, transpose_mul, Matrix.smul_mul, Matrix.mul_smul, smul_smul]
    refine congrArg ((c * c) • ·) ?_
    calc u * v * (vᵀ * uᵀ) = u * (v * vᵀ) * uᵀ := by simp only [Matrix.mul_assoc]
      _ = 1 := by rw [hv1, Matrix.mul_one, mul_eq_one_comm.1 hu1]
  have e1 := congrFun (congrFun h3 0) 0
  have e2 := congrFun (congrFun h3 1) 1
  simp [hA, mul_apply, Fin.sum_univ_two] at e1 e2
  linarith

end

end Verif.Props
