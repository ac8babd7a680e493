/-
C79: `power` and `angle_from_rotation`.
-/
import Mathlib.Analysis.SpecialFunctions.Complex.Arg
import Verif.Model.Rotation
import Verif.Spec.Rotation
import Verif.Props.Linalg

set_option linter.unusedSectionVars false

namespace Verif.Props

open Verif.Model Verif.Spec Matrix ComplexConjugate

section

variable {n : Nat}

/-- a function of a matrix, through its eigenvalues -/
noncomputable def functionOf (w : Fin n → ℂ) (v : Matrix (Fin n) (Fin n) ℂ) (f : ℂ → ℂ) : Matrix (Fin n) (Fin n) ℂ :=
  v * diagonal (fun i => f (w i)) * v⁻¹

/-- it does not depend on the eigenvectors -/
theorem functionOf_unique {w w' : Fin n → ℂ} {v v' : Matrix (Fin n) (Fin n) ℂ} (hv : v.det ≠ 0) (hv' : v'.det ≠ 0)
    (h : functionOf w v id = functionOf w' v' id) (f : ℂ → ℂ) : functionOf w v f = functionOf w' v' f := by
  unfold functionOf at h ⊢
  have u1 : v⁻¹ * v = 1 := nonsing_inv_mul v (isUnit_iff_ne_zero.2 hv)
  have u2 : v * v⁻¹ = 1 := mul_nonsing_inv v (isUnit_iff_ne_zero.2 hv)
  have u3 : v'⁻¹ * v' = 1 := nonsing_inv_mul v' (isUnit_iff_ne_zero.2 hv')
  have u4 : v' * v'⁻¹ = 1 := mul_nonsing_inv v' (isUnit_iff_ne_zero.2 hv')
  set S := v⁻¹ * v' with hS
  have h1 : diagonal (fun i => id (w i)) * S = S * diagonal (fun i => id (w' i)) := by
    have := congrArg (fun X => v⁻¹ * X * v') h
    simp only [hS]
    calc diagonal (fun i => id (w i)) * (v⁻¹ * v') = (v⁻¹ * v) * diagonal (fun i => id (w i)) * (v⁻¹ * v') := by
          rw [u1, Matrix.one_mul]
      _ = v⁻¹ * (v * diagonal (fun i => id (w i)) * v⁻¹) * v' := by simp only [Matrix.mul_assoc]
      _ = v⁻¹ * (v' * diagonal (fun i => id (w' i)) * v'⁻¹) * v' := this
      _ = (v⁻¹ * v') * diagonal (fun i => id (w' i)) * (v'⁻¹ * v') := by simp only [Matrix.mul_assoc]
      _ = _ := by rw [u3, Matrix.mul_one]
  have h2 : diagonal (fun i => f (w i)) * S = S * diagonal (fun i => f (w' i)) := by
    ext i j
    have := congrFun (congrFun h1 i) j
    rw [diagonal_mul, mul_diagonal] at this ⊢
    by_cases h0 : S i j = 0
    · rw [h0]; ring
    · have : w i = w' j := by
        simp only [id] at this
        exact mul_right_cancel₀ h0 (by rw [this]; ring)
      rw [this]; ring
  calc v * diagonal (fun i => f (w i)) * v⁻¹ = v * diagonal (fun i => f (w i)) * v⁻¹ * (v' * v'⁻¹) := by
        rw [u4, Matrix.mul_one]
    _ = v * (diagonal (fun i => f (w i)) * (v⁻¹ * v')) * v'⁻¹ := by simp only [Matrix.mul_assoc]
    _ = v * ((v⁻¹ * v') * diagonal (fun i => f (w' i))) * v'⁻¹ := by rw [← hS, h2]
    _ = (v * v⁻¹) * v' * diagonal (fun i => f (w' i)) * v'⁻¹ := by simp only [Matrix.mul_assoc]
    _ = _ := by rw [u2, Matrix.one_mul]

theorem functionOf_mul {w : Fin n → ℂ} {v : Matrix (Fin n) (Fin n) ℂ} (hv : v.det ≠ 0) (f g : ℂ → ℂ) :
    functionOf w v f * functionOf w v g = functionOf w v fun z => f z * g z := by
  unfold functionOf
  have u1 : v⁻¹ * v = 1 := nonsing_inv_mul v (isUnit_iff_ne_zero.2 hv)
  calc v * diagonal (fun i => f (w i)) * v⁻¹ * (v * diagonal (fun i => g (w i)) * v⁻¹) =
        v * (diagonal (fun i => f (w i)) * (v⁻¹ * v) * diagonal (fun i => g (w i))) * v⁻¹ := by
        simp only [Matrix.mul_assoc]
    _ = _ := by rw [u1, Matrix.mul_one, diagonal_mul_diagonal]

theorem functionOf_one {w : Fin n → ℂ} {v : Matrix (Fin n) (Fin n) ℂ} (hv : v.det ≠ 0) :
    functionOf w v (fun _ => 1) = 1 := by
  unfold functionOf
  rw [diagonal_one, Matrix.mul_one, mul_nonsing_inv v (isUnit_iff_ne_zero.2 hv)]

theorem functionOf_pow {w : Fin n → ℂ} {v : Matrix (Fin n) (Fin n) ℂ} (hv : v.det ≠ 0) (f : ℂ → ℂ) (k : ℕ) :
    functionOf w v f ^ k = functionOf w v fun z => f z ^ k := by
  induction k with
  | zero => simpa using (functionOf_one hv).symm
  | succ k ih =>
    rw [pow_succ, ih, functionOf_mul hv]
    simp only [pow_succ]

variable {M : Matrix (Fin n) (Fin n) ℝ} {w : Fin n → ℂ} {v : Matrix (Fin n) (Fin n) ℂ}

theorem eig_matrix (h : IsEig M w v) : M.map Complex.ofReal * v = v * diagonal w := by
  ext i j
  rw [mul_apply, mul_diagonal]
  exact h i j

theorem eig_value (h : IsEig M w v) (hv : v.det ≠ 0) : functionOf w v id = M.map Complex.ofReal := by
  unfold functionOf
  simp only [id]
  rw [← eig_matrix h, Matrix.mul_assoc, mul_nonsing_inv v (isUnit_iff_ne_zero.2 hv), Matrix.mul_one]

theorem map_conj_mul (A B : Matrix (Fin n) (Fin n) ℂ) : (A * B).map conj = A.map conj * B.map conj :=
  Matrix.map_mul

theorem map_conj_inv (hv : v.det ≠ 0) : (v⁻¹).map conj = (v.map conj)⁻¹ := by
  symm
  apply inv_eq_right_inv
  rw [← map_conj_mul, mul_nonsing_inv v (isUnit_iff_ne_zero.2 hv)]
  ext i j
  simp only [map_apply, one_apply]
  split <;> simp

theorem det_conj (hv : v.det ≠ 0) : (v.map conj).det ≠ 0 := by
  have : (v.map conj).det = conj v.det := ((starRingEnd ℂ).map_det v).symm
  rw [this]
  simpa using hv

theorem functionOf_conj (hv : v.det ≠ 0) (f : ℂ → ℂ) :
    (functionOf w v f).map conj = functionOf (fun i => conj (w i)) (v.map conj) fun z => conj (f (conj z)) := by
  unfold functionOf
  rw [map_conj_mul, map_conj_mul, map_conj_inv hv]
  congr 2
  ext i j
  by_cases hij : i = j
  · subst hij
    simp
  · rw [diagonal_apply_ne _ hij, map_apply, diagonal_apply_ne _ hij, map_zero]

/-- a function that commutes with conjugation at the eigenvalues gives a real matrix -/
theorem functionOf_real (h : IsEig M w v) (hv : v.det ≠ 0) {f : ℂ → ℂ}
    (hf : ∀ i, conj (f (w i)) = f (conj (w i))) (i j : Fin n) : ((functionOf w v f i j).re : ℂ) = functionOf w v f i j := by
  have h1 : functionOf (fun i => conj (w i)) (v.map conj) id = functionOf w v id := by
    have := functionOf_conj (w := w) hv id
    simp only [id, Complex.conj_conj] at this
    change functionOf (fun i => conj (w i)) (v.map conj) (fun z => z) = _
    rw [← this]
    rw [eig_value h hv]
    ext i j
    simp
  have h2 := functionOf_unique (det_conj hv) hv h1 f
  have h3 := functionOf_conj (w := w) hv f
  have h4 : functionOf (fun i => conj (w i)) (v.map conj) (fun z => conj (f (conj z))) =
      functionOf (fun i => conj (w i)) (v.map conj) f := by
    unfold functionOf
    congr 2
    ext a b
    by_cases hab : a = b
    · subst hab
      simp only [diagonal_apply_eq, Complex.conj_conj, hf]
    · rw [diagonal_apply_ne _ hab, diagonal_apply_ne _ hab]
  rw [h4, h2] at h3
  have := congrFun (congrFun h3 i) j
  exact Complex.conj_eq_iff_re.1 this

end

section

variable {eig : (n : Nat) → Matrix (Fin n) (Fin n) ℝ → Eig n} {n : Nat} {M : Matrix (Fin n) (Fin n) ℝ}

/-- no negative number is an eigenvalue -/
def NoNegativeEigenvalue (M : Matrix (Fin n) (Fin n) ℝ) : Prop :=
  ∀ x : ℝ, x < 0 → ∀ y, M *ᵥ y = x • y → y = 0

/-- the columns are not zero -/
theorem column_ne {v : Matrix (Fin n) (Fin n) ℂ} (hv : v.det ≠ 0) (j : Fin n) : ∃ i, v i j ≠ 0 := by
  by_contra hne
  push Not at hne
  exact hv (det_eq_zero_of_column_eq_zero j hne)

theorem arg_of (hM : NoNegativeEigenvalue M) {w : Fin n → ℂ} {v : Matrix (Fin n) (Fin n) ℂ} (h : IsEig M w v)
    (hv : v.det ≠ 0) (j : Fin n) : (w j).arg ≠ Real.pi := by
  intro harg
  obtain ⟨hre, him⟩ := Complex.arg_eq_pi_iff.1 harg
  obtain ⟨i, hi⟩ := column_ne hv j
  have hw : w j = ((w j).re : ℂ) := by
    apply Complex.ext
    · rw [Complex.ofReal_re]
    · rw [Complex.ofReal_im, him]
  have h1 := hM (w j).re hre (fun i => (v i j).re) (by
    funext a
    have := congrArg Complex.re (h a j)
    rw [hw] at this
    simpa [mulVec, dotProduct, mul_comm] using this)
  have h2 := hM (w j).re hre (fun i => (v i j).im) (by
    funext a
    have := congrArg Complex.im (h a j)
    rw [hw] at this
    simpa [mulVec, dotProduct, mul_comm] using this)
  exact hi (Complex.ext (congrFun h1 i) (congrFun h2 i))

theorem power_value (h : IsEig M (eig n M).w (eig n M).v) (hv : (eig n M).v.det ≠ 0) {p : ℝ}
    (hp : NoNegativeEigenvalue M ∨ ∃ k : ℤ, p = k) :
    ∃ N, power eig M p = .ok (some N) ∧
      N.map Complex.ofReal = functionOf (eig n M).w (eig n M).v fun z => z ^ (p : ℂ) := by
  refine ⟨((eig n M).v * diagonal (fun i => (eig n M).w i ^ (p : ℂ)) * (eig n M).v⁻¹).map Complex.re, ?_, ?_⟩
  · unfold power
    simp only
    rw [if_neg hv, if_neg]
    rintro ⟨h1, ⟨i, h2⟩, h3⟩
    rcases hp with hp | hp
    · exact arg_of hp h hv i (Complex.arg_eq_pi_iff.2 ⟨h2, h1 i⟩)
    · exact h3 hp
  · ext i j
    rw [map_apply, map_apply]
    refine functionOf_real h hv (f := fun z => z ^ (p : ℂ)) (fun k => ?_) i j
    rcases hp with hp | ⟨l, hl⟩
    · rw [Complex.conj_cpow _ _ (arg_of hp h hv k), Complex.conj_ofReal]
    · rw [hl]
      push_cast
      rw [Complex.cpow_intCast, Complex.cpow_intCast, map_zpow₀]

theorem ofReal_injective {A B : Matrix (Fin n) (Fin n) ℝ} (h : A.map Complex.ofReal = B.map Complex.ofReal) :
    A = B := by
  ext i j
  have := congrFun (congrFun h i) j
  exact Complex.ofReal_injective this

theorem map_ofReal_mul (A B : Matrix (Fin n) (Fin n) ℝ) :
    (A * B).map Complex.ofReal = A.map Complex.ofReal * B.map Complex.ofReal :=
  Matrix.map_mul (f := Complex.ofRealHom)

theorem map_ofReal_pow (A : Matrix (Fin n) (Fin n) ℝ) (k : ℕ) :
    (A ^ k).map Complex.ofReal = A.map Complex.ofReal ^ k :=
  map_pow (Complex.ofRealHom.mapMatrix) A k

/-- C79: the powers of an invertible matrix without negative eigenvalues add up -/
theorem C79_power_add (h : IsEig M (eig n M).w (eig n M).v) (hv : (eig n M).v.det ≠ 0)
    (hM : NoNegativeEigenvalue M) (hd : M.det ≠ 0) (p q : ℝ) :
    ∃ P Q, power eig M p = .ok (some P) ∧ power eig M q = .ok (some Q) ∧
      power eig M (p + q) = .ok (some (P * Q)) := by
  obtain ⟨P, hP, hP'⟩ := power_value h hv (p := p) (Or.inl hM)
  obtain ⟨Q, hQ, hQ'⟩ := power_value h hv (p := q) (Or.inl hM)
  obtain ⟨R, hR, hR'⟩ := power_value h hv (p := p + q) (Or.inl hM)
  refine ⟨P, Q, hP, hQ, ?_⟩
  rw [hR]
  congr 2
  apply ofReal_injective
  rw [map_ofReal_mul, hR', hP', hQ', functionOf_mul hv]
  unfold functionOf
  congr 2
  congr 1
  funext i
  push_cast
  refine Complex.cpow_add _ _ fun h0 => ?_
  have hdet := congrArg det (eig_matrix h)
  rw [det_mul, det_mul, det_diagonal, Finset.prod_eq_zero (Finset.mem_univ i) h0, mul_zero] at hdet
  rcases mul_eq_zero.1 hdet with h1 | h1
  · have h2 : (M.map Complex.ofReal).det = (M.det : ℂ) := (Complex.ofRealHom.map_det M).symm
    rw [h2] at h1
    exact hd (by exact_mod_cast h1)
  · exact hv h1

/-- C79: a natural number as exponent gives the product -/
theorem C79_power_nat (h : IsEig M (eig n M).w (eig n M).v) (hv : (eig n M).v.det ≠ 0) (k : ℕ) :
    power eig M k = .ok (some (M ^ k)) := by
  obtain ⟨P, hP, hP'⟩ := power_value h hv (p := k) (Or.inr ⟨k, by simp⟩)
  rw [hP]
  congr 2
  apply ofReal_injective
  rw [hP', map_ofReal_pow, ← eig_value h hv, functionOf_pow hv]
  simp

/-- C79: the exponent minus one gives the inverse -/
theorem C79_power_inverse (h : IsEig M (eig n M).w (eig n M).v) (hv : (eig n M).v.det ≠ 0) (hd : M.det ≠ 0) :
    power eig M (-1) = .ok (some M⁻¹) := by
  obtain ⟨P, hP, hP'⟩ := power_value h hv (p := -1) (Or.inr ⟨-1, by simp⟩)
  rw [hP]
  congr 2
  symm
  apply inv_eq_right_inv
  apply ofReal_injective
  rw [map_ofReal_mul, hP', ← eig_value h hv, functionOf_mul hv]
  have hw : ∀ i, (eig n M).w i ≠ 0 := by
    intro i h0
    have hdet := congrArg det (eig_matrix h)
    rw [det_mul, det_mul, det_diagonal, Finset.prod_eq_zero (Finset.mem_univ i) h0, mul_zero] at hdet
    rcases mul_eq_zero.1 hdet with h1 | h1
    · have h2 : (M.map Complex.ofReal).det = (M.det : ℂ) := (Complex.ofRealHom.map_det M).symm
      rw [h2] at h1
      exact hd (by exact_mod_cast h1)
    · exact hv h1
  have h1 : (1 : Matrix (Fin n) (Fin n) ℝ).map Complex.ofReal = 1 := by
    ext i j
    simp only [map_apply, one_apply]
    split <;> simp
  rw [h1, ← functionOf_one (w := (eig n M).w) hv]
  unfold functionOf
  congr 2
  congr 1
  funext i
  push_cast
  rw [Complex.cpow_neg_one, id, mul_inv_cancel₀ (hw i)]

/-- C79: the `k`-th part of one as exponent gives a `k`-th root -/
theorem C79_root (h : IsEig M (eig n M).w (eig n M).v) (hv : (eig n M).v.det ≠ 0) (hM : NoNegativeEigenvalue M)
    (k : ℕ) (hk : k ≠ 0) : ∃ P, power eig M (1 / k) = .ok (some P) ∧ P ^ k = M := by
  obtain ⟨P, hP, hP'⟩ := power_value h hv (p := 1 / k) (Or.inl hM)
  refine ⟨P, hP, ?_⟩
  apply ofReal_injective
  rw [map_ofReal_pow, hP', functionOf_pow hv, ← eig_value h hv]
  unfold functionOf
  congr 2
  congr 1
  funext i
  push_cast
  rw [one_div, Complex.cpow_nat_inv_pow _ hk, id]

/-- C79: if all eigenvalues are real, a negative eigenvalue makes every power `nan` whose exponent is not an
integer -/
theorem C79_power_nan (h : IsEig M (eig n M).w (eig n M).v) (hv : (eig n M).v.det ≠ 0)
    (hreal : ∀ (z : ℂ) (y : Fin n → ℂ), y ≠ 0 → M.map Complex.ofReal *ᵥ y = z • y → z.im = 0)
    (hneg : ¬ NoNegativeEigenvalue M) (p : ℝ) (hp : ¬ ∃ k : ℤ, p = k) : power eig M p = .ok none := by
  unfold power
  simp only
  rw [if_neg hv, if_pos]
  have him : ∀ i, ((eig n M).w i).im = 0 := by
    intro j
    refine hreal _ (fun i => (eig n M).v i j) (fun h0 => ?_) ?_
    · obtain ⟨i, hi⟩ := column_ne hv j
      exact hi (congrFun h0 i)
    · funext i
      have := h i j
      simpa [mulVec, dotProduct, mul_comm] using this
  refine ⟨him, ?_, hp⟩
  by_contra hno
  push Not at hno
  apply hneg
  intro x hx y hy
  -- the coordinates in the basis of eigenvectors
  set V := (eig n M).v with hV
  set c : Fin n → ℂ := V⁻¹ *ᵥ (fun i => (y i : ℂ)) with hc
  have hVc : V *ᵥ c = fun i => (y i : ℂ) := by
    rw [hc, mulVec_mulVec, mul_nonsing_inv V (isUnit_iff_ne_zero.2 hv), one_mulVec]
  have h1 : V *ᵥ (diagonal (eig n M).w *ᵥ c) = V *ᵥ ((x : ℂ) • c) := by
    rw [mulVec_mulVec, ← eig_matrix h, ← mulVec_mulVec, hVc, mulVec_smul, hVc]
    funext i
    have := congrArg Complex.ofReal (congrFun hy i)
    simpa [mulVec, dotProduct] using this
  have h2 : diagonal (eig n M).w *ᵥ c = (x : ℂ) • c := by
    have := congrArg (fun z => V⁻¹ *ᵥ z) h1
    simpa [mulVec_mulVec, ← Matrix.mul_assoc, nonsing_inv_mul V (isUnit_iff_ne_zero.2 hv)] using this
  have h3 : c = 0 := by
    funext i
    have := congrFun h2 i
    rw [mulVec_diagonal] at this
    simp only [Pi.smul_apply, smul_eq_mul] at this
    rcases mul_eq_mul_right_iff.1 this with h4 | h4
    · have h5 := hno i
      rw [h4, Complex.ofReal_re] at h5
      linarith
    · exact h4
  rw [h3, mulVec_zero] at hVc
  funext i
  have := congrFun hVc i
  simp only [Pi.zero_apply] at this
  exact_mod_cast this.symm

end

section

variable {eig : (n : Nat) → Matrix (Fin n) (Fin n) ℝ → Eig n} {n : Nat} {u v : Fin n → ℝ}

theorem rotation_square (hu : u ⬝ᵥ u = 1) (hv : v ⬝ᵥ v = 1) (huv : u ⬝ᵥ v = 0) (x : Fin n → ℝ) :
    rotationFromPlane u v *ᵥ (rotationFromPlane u v *ᵥ x) = x - (2 * (u ⬝ᵥ x)) • u - (2 * (v ⬝ᵥ x)) • v := by
  have hvu : v ⬝ᵥ u = 0 := by rw [dotProduct_comm]; exact huv
  rw [rotation_mulVec u v x, rotation_mulVec u v]
  simp only [dotProduct_add, dotProduct_sub, dotProduct_smul, hu, hv, huv, hvu, smul_eq_mul]
  ext i
  simp only [Pi.add_apply, Pi.sub_apply, Pi.smul_apply, smul_eq_mul]
  ring

theorem rotation_cubic (hu : u ⬝ᵥ u = 1) (hv : v ⬝ᵥ v = 1) (huv : u ⬝ᵥ v = 0) :
    rotationFromPlane u v * rotationFromPlane u v * rotationFromPlane u v + rotationFromPlane u v =
      rotationFromPlane u v * rotationFromPlane u v + 1 := by
  have hvu : v ⬝ᵥ u = 0 := by rw [dotProduct_comm]; exact huv
  refine ext_of_mulVec_single fun i => ?_
  generalize (Pi.single i 1 : Fin n → ℝ) = x
  rw [add_mulVec, add_mulVec, ← mulVec_mulVec, ← mulVec_mulVec, ← mulVec_mulVec, one_mulVec,
    rotation_square hu hv huv, rotation_square hu hv huv, rotation_mulVec u v x]
  simp only [dotProduct_add, dotProduct_sub, dotProduct_smul, hu, hv, huv, hvu, smul_eq_mul]
  ext i
  simp only [Pi.add_apply, Pi.sub_apply, Pi.smul_apply, smul_eq_mul]
  ring

/-- the eigenvalues of a quarter turn -/
theorem rotation_eigenvalue (hu : u ⬝ᵥ u = 1) (hv : v ⬝ᵥ v = 1) (huv : u ⬝ᵥ v = 0) {w : Fin n → ℂ}
    {V : Matrix (Fin n) (Fin n) ℂ} (h : IsEig (rotationFromPlane u v) w V) (hV : V.det ≠ 0) (i : Fin n) :
    w i = 1 ∨ w i = Complex.I ∨ w i = -Complex.I := by
  have hc := congrArg (fun A => A.map Complex.ofReal) (rotation_cubic hu hv huv)
  have hadd : ∀ A B : Matrix (Fin n) (Fin n) ℝ,
      (A + B).map Complex.ofReal = A.map Complex.ofReal + B.map Complex.ofReal := fun A B => by
    ext a b; simp
  have h1 : (1 : Matrix (Fin n) (Fin n) ℝ).map Complex.ofReal = 1 := by
    ext i j
    simp only [map_apply, one_apply]
    split <;> simp
  simp only [hadd, map_ofReal_mul, h1] at hc
  set C := (rotationFromPlane u v).map Complex.ofReal with hC
  have e1 : C * V = V * diagonal w := eig_matrix h
  have e2 : C * C * V = V * (diagonal w * diagonal w) := by
    rw [Matrix.mul_assoc, e1, ← Matrix.mul_assoc, e1, Matrix.mul_assoc]
  have e3 : C * C * C * V = V * (diagonal w * diagonal w * diagonal w) := by
    rw [Matrix.mul_assoc, e1, ← Matrix.mul_assoc, e2]
    simp only [Matrix.mul_assoc]
  have e4 : V * (diagonal w * diagonal w * diagonal w + diagonal w) = V * (diagonal w * diagonal w + 1) := by
    rw [Matrix.mul_add, Matrix.mul_add, ← e1, ← e2, ← e3, Matrix.mul_one, ← Matrix.add_mul, hc, Matrix.add_mul,
      Matrix.one_mul]
  have e5 : diagonal w * diagonal w * diagonal w + diagonal w = diagonal w * diagonal w + 1 := by
    have := congrArg (fun X => V⁻¹ * X) e4
    simpa only [← Matrix.mul_assoc, nonsing_inv_mul V (isUnit_iff_ne_zero.2 hV), Matrix.one_mul] using this
  have e6 := congrFun (congrFun e5 i) i
  simp only [diagonal_mul_diagonal, Matrix.add_apply, diagonal_apply_eq, one_apply_eq] at e6
  have e7 : (w i - 1) * ((w i - Complex.I) * (w i + Complex.I)) = 0 := by
    linear_combination e6 + (1 - w i) * Complex.I_mul_I
  rcases mul_eq_zero.1 e7 with h8 | h8
  · exact Or.inl (sub_eq_zero.1 h8)
  · rcases mul_eq_zero.1 h8 with h9 | h9
    · exact Or.inr (Or.inl (sub_eq_zero.1 h9))
    · exact Or.inr (Or.inr (eq_neg_of_add_eq_zero_left h9))

theorem I_cpow (p : ℝ) : Complex.I ^ (p : ℂ) =
    (Real.cos (p * (Real.pi / 2)) : ℂ) + (Real.sin (p * (Real.pi / 2)) : ℂ) * Complex.I := by
  rw [Complex.cpow_def_of_ne_zero Complex.I_ne_zero, Complex.log_I, Complex.ofReal_cos, Complex.ofReal_sin,
    ← Complex.exp_mul_I]
  congr 1
  push_cast
  ring

theorem neg_I_cpow (p : ℝ) : (-Complex.I) ^ (p : ℂ) =
    (Real.cos (p * (Real.pi / 2)) : ℂ) - (Real.sin (p * (Real.pi / 2)) : ℂ) * Complex.I := by
  have h0 : -Complex.I ≠ 0 := neg_ne_zero.2 Complex.I_ne_zero
  have h1 : (Real.cos (p * (Real.pi / 2)) : ℂ) - (Real.sin (p * (Real.pi / 2)) : ℂ) * Complex.I =
      (Real.cos (-(p * (Real.pi / 2))) : ℂ) + (Real.sin (-(p * (Real.pi / 2))) : ℂ) * Complex.I := by
    rw [Real.cos_neg, Real.sin_neg]
    push_cast
    ring
  rw [h1, Complex.cpow_def_of_ne_zero h0, Complex.log_neg_I, Complex.ofReal_cos, Complex.ofReal_sin,
    ← Complex.exp_mul_I]
  congr 1
  push_cast
  ring

theorem rotation_noNegative (hu : u ⬝ᵥ u = 1) (hv : v ⬝ᵥ v = 1) (huv : u ⬝ᵥ v = 0) :
    NoNegativeEigenvalue (rotationFromPlane u v) := by
  intro x hx y hy
  have hc := congrArg (fun A => A *ᵥ y) (rotation_cubic hu hv huv)
  simp only [add_mulVec, ← mulVec_mulVec, one_mulVec, hy, mulVec_smul] at hc
  funext i
  have := congrFun hc i
  simp only [Pi.add_apply, Pi.smul_apply, smul_eq_mul] at this
  have h2 : ((x - 1) * (x * x + 1)) * y i = 0 := by linear_combination this
  rcases mul_eq_zero.1 h2 with h3 | h3
  · rcases mul_eq_zero.1 h3 with h4 | h4 <;> nlinarith
  · exact h3

/-- C79: the powers of the quarter turn of a plane turn the plane by that part of a right angle -/
theorem C79_turn (hu : u ⬝ᵥ u = 1) (hv : v ⬝ᵥ v = 1) (huv : u ⬝ᵥ v = 0)
    (h : IsEig (rotationFromPlane u v) (eig n (rotationFromPlane u v)).w (eig n (rotationFromPlane u v)).v)
    (hV : (eig n (rotationFromPlane u v)).v.det ≠ 0) (p : ℝ) :
    ∃ N, power eig (rotationFromPlane u v) p = .ok (some N) ∧ TurnsPlane u v (p * (Real.pi / 2)) N := by
  obtain ⟨N, hN, hN'⟩ := power_value h hV (p := p) (Or.inl (rotation_noNegative hu hv huv))
  refine ⟨N, hN, ?_⟩
  set R := rotationFromPlane u v with hR
  set c := Real.cos (p * (Real.pi / 2)) with hc
  set s := Real.sin (p * (Real.pi / 2)) with hs
  have hvu : v ⬝ᵥ u = 0 := by rw [dotProduct_comm]; exact huv
  have key : N = ((1 - s + c) / 2) • (1 : Matrix (Fin n) (Fin n) ℝ) + s • R + ((1 - s - c) / 2) • (R * R) := by
    apply ofReal_injective
    have e1 : (((1 - s + c) / 2) • (1 : Matrix (Fin n) (Fin n) ℝ) + s • R + ((1 - s - c) / 2) • (R * R)).map
        Complex.ofReal = ((1 - s + c) / 2 : ℂ) • functionOf (eig n R).w (eig n R).v (fun _ => 1) +
        (s : ℂ) • functionOf (eig n R).w (eig n R).v id +
        ((1 - s - c) / 2 : ℂ) • functionOf (eig n R).w (eig n R).v (fun z => id z * id z) := by
      rw [functionOf_one hV, ← functionOf_mul hV, eig_value h hV, ← map_ofReal_mul]
      ext i j
      simp only [map_apply, Matrix.add_apply, Matrix.smul_apply, smul_eq_mul, Complex.ofReal_add,
        Complex.ofReal_mul, one_apply]
      split <;> push_cast <;> ring
    rw [e1, hN']
    have lin : ∀ (a b c : ℂ) (f g k : ℂ → ℂ), a • functionOf (eig n R).w (eig n R).v f +
        b • functionOf (eig n R).w (eig n R).v g + c • functionOf (eig n R).w (eig n R).v k =
        (eig n R).v * (a • diagonal (fun i => f ((eig n R).w i)) + b • diagonal (fun i => g ((eig n R).w i)) +
          c • diagonal (fun i => k ((eig n R).w i))) * (eig n R).v⁻¹ := by
      intro a b c f g k
      unfold functionOf
      simp only [Matrix.mul_add, Matrix.add_mul, Matrix.mul_smul, Matrix.smul_mul]
    rw [lin]
    unfold functionOf
    congr 2
    ext i j
    by_cases hij : i = j
    · subst hij
      simp only [diagonal_apply_eq, Matrix.add_apply, Matrix.smul_apply, smul_eq_mul, id]
      rcases rotation_eigenvalue hu hv huv h hV i with h1 | h1 | h1
      · rw [h1, Complex.one_cpow]; ring
      · rw [h1, I_cpow, ← hc, ← hs, Complex.I_mul_I]; ring
      · rw [h1, neg_I_cpow, ← hc, ← hs, neg_mul_neg, Complex.I_mul_I]; ring
    · simp only [diagonal_apply_ne _ hij, Matrix.add_apply, Matrix.smul_apply, smul_zero, add_zero]
  have happ : ∀ x, N *ᵥ x = ((1 - s + c) / 2) • x + s • (R *ᵥ x) +
      ((1 - s - c) / 2) • (x - (2 * (u ⬝ᵥ x)) • u - (2 * (v ⬝ᵥ x)) • v) := by
    intro x
    rw [key, add_mulVec, add_mulVec, Matrix.smul_mulVec, Matrix.smul_mulVec, Matrix.smul_mulVec, one_mulVec, ← mulVec_mulVec,
      rotation_square hu hv huv]
  obtain ⟨r1, r2, r3, -⟩ := C51_rotation u v hu hv huv
  refine ⟨?_, ?_, fun x hx1 hx2 => ?_⟩
  · rw [happ, r1, hu, hvu]
    ext i
    simp only [Pi.add_apply, Pi.sub_apply, Pi.smul_apply, Pi.neg_apply, smul_eq_mul]
    ring
  · rw [happ, r2, hv, huv]
    ext i
    simp only [Pi.add_apply, Pi.sub_apply, Pi.smul_apply, smul_eq_mul]
    ring
  · rw [happ, r3 x hx1 hx2, hx1, hx2]
    ext i
    simp only [Pi.add_apply, Pi.sub_apply, Pi.smul_apply, smul_eq_mul]
    ring

/-- C79: the angle by which a plane is turned is found from the matrix alone -/
theorem C79_angle (hu : u ⬝ᵥ u = 1) (hv : v ⬝ᵥ v = 1) (huv : u ⬝ᵥ v = 0) {θ : ℝ} {R : Matrix (Fin n) (Fin n) ℝ}
    (h : TurnsPlane u v θ R) (hθ : |θ| ≤ Real.pi) : angleFromRotation R = .ok (some |θ|) := by
  have hvu : v ⬝ᵥ u = 0 := by rw [dotProduct_comm]; exact huv
  have hR : R = 1 + (Real.cos θ - 1) • (vecMulVec u u + vecMulVec v v) +
      Real.sin θ • (vecMulVec u v - vecMulVec v u) := by
    refine ext_of_mulVec_single fun i => ?_
    generalize (Pi.single i 1 : Fin n → ℝ) = x
    have hx : x = (u ⬝ᵥ x) • u + (v ⬝ᵥ x) • v + (x - (u ⬝ᵥ x) • u - (v ⬝ᵥ x) • v) := by
      ext i; simp only [Pi.add_apply, Pi.sub_apply, Pi.smul_apply, smul_eq_mul]; ring
    have h3 := h.fixed (x - (u ⬝ᵥ x) • u - (v ⬝ᵥ x) • v)
      (by simp only [dotProduct_sub, dotProduct_smul, hu, huv, smul_eq_mul]; ring)
      (by simp only [dotProduct_sub, dotProduct_smul, hv, hvu, smul_eq_mul]; ring)
    have h4 : R *ᵥ x = (u ⬝ᵥ x) • (R *ᵥ u) + (v ⬝ᵥ x) • (R *ᵥ v) + (x - (u ⬝ᵥ x) • u - (v ⬝ᵥ x) • v) := by
      conv_lhs => rw [hx]
      rw [mulVec_add, mulVec_add, mulVec_smul, mulVec_smul, h3]
    rw [h4, h.first, h.second, add_mulVec, add_mulVec, Matrix.smul_mulVec, Matrix.smul_mulVec, add_mulVec, sub_mulVec,
      one_mulVec, vecMulVec_mulVec, vecMulVec_mulVec, vecMulVec_mulVec, vecMulVec_mulVec]
    ext i
    simp only [Pi.add_apply, Pi.sub_apply, Pi.smul_apply, smul_eq_mul, MulOpposite.smul_eq_mul_unop, MulOpposite.unop_op]
    ring
  have htr : R.trace = n + 2 * (Real.cos θ - 1) := by
    rw [hR, trace_add, trace_add, trace_smul, trace_smul, trace_add, trace_sub, trace_vecMulVec, trace_vecMulVec,
      trace_vecMulVec, trace_vecMulVec, hu, hv, huv, hvu, trace_one]
    simp only [Fintype.card_fin, smul_eq_mul]
    ring
  have hval : 1 - ((n : ℝ) - R.trace) / 2 = Real.cos θ := by rw [htr]; ring
  unfold angleFromRotation
  rw [dif_pos rfl]
  have hsub : R.submatrix id (Fin.cast rfl) = R := rfl
  simp only [hsub, hval]
  rw [if_pos ⟨Real.neg_one_le_cos θ, Real.cos_le_one θ⟩, ← Real.cos_abs θ,
    Real.arccos_cos (abs_nonneg θ) hθ]

/-- C79: the angle of a power of a quarter turn -/
theorem C79_turned_angle (hu : u ⬝ᵥ u = 1) (hv : v ⬝ᵥ v = 1) (huv : u ⬝ᵥ v = 0)
    (h : IsEig (rotationFromPlane u v) (eig n (rotationFromPlane u v)).w (eig n (rotationFromPlane u v)).v)
    (hV : (eig n (rotationFromPlane u v)).v.det ≠ 0) (p : ℝ) (hp : |p| ≤ 2) :
    ∃ N, power eig (rotationFromPlane u v) p = .ok (some N) ∧
      angleFromRotation N = .ok (some (|p| * (Real.pi / 2))) := by
  obtain ⟨N, hN, hT⟩ := C79_turn hu hv huv h hV p
  have habs : |p * (Real.pi / 2)| = |p| * (Real.pi / 2) := by
    rw [abs_mul, abs_of_pos (by positivity : 0 < Real.pi / 2)]
  refine ⟨N, hN, ?_⟩
  rw [← habs]
  refine C79_angle hu hv huv hT ?_
  rw [habs]
  nlinarith [Real.pi_pos]

/-- C79: a rotation that turns two planes at once has no angle: for the point reflection of space with four
dimensions the result is `nan` -/
theorem C79_angle_nan :
    (-1 : Matrix (Fin 4) (Fin 4) ℝ)ᵀ * (-1) = 1 ∧ (-1 : Matrix (Fin 4) (Fin 4) ℝ).det = 1 ∧
      angleFromRotation (-1 : Matrix (Fin 4) (Fin 4) ℝ) = .ok none := by
  refine ⟨by simp, ?_, ?_⟩
  · rw [det_neg, det_one]
    norm_num
  · unfold angleFromRotation
    rw [dif_pos rfl]
    have hsub : (-1 : Matrix (Fin 4) (Fin 4) ℝ).submatrix id (Fin.cast rfl) = -1 := rfl
    simp only [hsub]
    rw [if_neg]
    rw [trace_neg, trace_one]
    simp only [Fintype.card_fin]
    norm_num

/-- C79: matrices that are not square are refused -/
theorem C79_angle_refused {m : Nat} (R : Matrix (Fin n) (Fin m) ℝ) (h : n ≠ m) :
    angleFromRotation R = .error .assertionError := by
  unfold angleFromRotation
  rw [dif_neg h]

end

/-! the eigenvalues of the quarter turn of the plane are `I` and `-I` -/

noncomputable def quarterEig : (n : Nat) → Matrix (Fin n) (Fin n) ℝ → Eig n
  | 2, _ => { w := ![Complex.I, -Complex.I], v := !![1, 1; Complex.I, -Complex.I] }
  | _, _ => { w := 0, v := 1 }

theorem quarterEig_spec : IsEig (rotationFromPlane ![(1 : ℝ), 0] ![0, 1])
    (quarterEig 2 (rotationFromPlane ![(1 : ℝ), 0] ![0, 1])).w
    (quarterEig 2 (rotationFromPlane ![(1 : ℝ), 0] ![0, 1])).v ∧
    (quarterEig 2 (rotationFromPlane ![(1 : ℝ), 0] ![0, 1])).v.det ≠ 0 := by
  constructor
  · intro i j
    rw [Fin.sum_univ_two, rotation_entry, rotation_entry]
    fin_cases i <;> fin_cases j <;> simp [quarterEig]
  · simp only [quarterEig, det_fin_two_of]
    intro h
    have := congrArg Complex.im h
    simp at this
    norm_num at this

/-- the ninetieth part of a quarter turn is the rotation by one degree -/
example : ∃ N, power quarterEig (rotationFromPlane ![(1 : ℝ), 0] ![0, 1]) (1 / 90) = .ok (some N) ∧
    angleFromRotation N = .ok (some (Real.pi / 180)) := by
  obtain ⟨N, h1, h2⟩ := C79_turned_angle (eig := quarterEig) (u := ![(1 : ℝ), 0]) (v := ![0, 1])
    (by simp) (by simp) (by simp) quarterEig_spec.1 quarterEig_spec.2 (1 / 90)
    (by rw [abs_of_pos (by norm_num)]; norm_num)
  refine ⟨N, h1, ?_⟩
  rw [h2, abs_of_pos (by norm_num)]
  congr 2
  ring

/-- the hypotheses of the theorems on powers hold for it -/
example : NoNegativeEigenvalue (rotationFromPlane ![(1 : ℝ), 0] ![0, 1]) ∧
    (rotationFromPlane ![(1 : ℝ), 0] ![0, 1]).det ≠ 0 :=
  ⟨rotation_noNegative (by simp) (by simp) (by simp), by
    rw [det_fin_two, rotation_entry, rotation_entry, rotation_entry, rotation_entry]; simp⟩

/-! the half turn of the plane has the eigenvalue minus one -/

noncomputable def halfEig (n : Nat) (_ : Matrix (Fin n) (Fin n) ℝ) : Eig n := { w := fun _ => -1, v := 1 }

/-- C79: a half turn has no half: the result is `nan`, although the quarter turn is a square root -/
theorem C79_half_turn_nan :
    rotationFromPlane ![(1 : ℝ), 0] ![0, 1] ^ 2 = (-1 : Matrix (Fin 2) (Fin 2) ℝ) ∧
    IsEig (-1 : Matrix (Fin 2) (Fin 2) ℝ) (halfEig 2 (-1)).w (halfEig 2 (-1)).v ∧
    (∀ eig : (n : Nat) → Matrix (Fin n) (Fin n) ℝ → Eig n, IsEig (-1) (eig 2 (-1)).w (eig 2 (-1)).v →
      (eig 2 (-1)).v.det ≠ 0 → power eig (-1 : Matrix (Fin 2) (Fin 2) ℝ) (1 / 2) = .ok none) := by
  refine ⟨?_, ?_, fun eig h hv => C79_power_nan h hv ?_ ?_ _ ?_⟩
  · ext i j
    rw [pow_two, mul_apply, Fin.sum_univ_two, rotation_entry, rotation_entry, rotation_entry, rotation_entry]
    fin_cases i <;> fin_cases j <;> simp
  · intro i j
    rw [Fin.sum_univ_two]
    fin_cases i <;> fin_cases j <;> simp [halfEig]
  · intro z y hy hz
    obtain ⟨i, hi⟩ := Function.ne_iff.1 hy
    have h1 : (-1 : Matrix (Fin 2) (Fin 2) ℝ).map Complex.ofReal = -1 := by
      ext a b
      fin_cases a <;> fin_cases b <;> simp
    rw [h1, neg_mulVec, one_mulVec] at hz
    have h2 := congrFun hz i
    simp only [Pi.neg_apply, Pi.smul_apply, smul_eq_mul] at h2
    have h3 : z = -1 := mul_right_cancel₀ hi (by rw [← h2]; ring)
    rw [h3]
    simp
  · intro hno
    have := hno (-1) (by norm_num) ![1, 0] (by rw [neg_mulVec, one_mulVec, neg_one_smul])
    have := congrFun this 0
    simp at this
  · rintro ⟨k, hk⟩
    have h1 : (1 : ℝ) = ((2 * k : ℤ) : ℝ) := by
      push_cast
      linarith
    have h2 : (1 : ℤ) = 2 * k := by exact_mod_cast h1
    omega

end Verif.Props
