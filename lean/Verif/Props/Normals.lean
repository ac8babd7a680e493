/-
C56: `segment_normals` are the normals of the segments, and the area enclosed by a curve.
-/
import Verif.Props.Volume

namespace Verif.Props

open Verif.Model Verif.Spec Matrix

section Field

variable {K : Type} [Field K]

theorem neg_iterate (c : Nat) : (Neg.neg)^[c] (1 : K) = (-1) ^ c := by
  induction c with
  | zero => simp
  | succ c ih => rw [Function.iterate_succ_apply', ih, pow_succ]; ring

/-- C56: `segment_normals` accepts `n` points of `n`-space, `n > 0`, and nothing else -/
theorem C56_shape {P N : Nat} (corners : Matrix (Fin P) (Fin N) K) :
    (P = N ∧ 0 < N → ∃ v, segmentNormals corners = .ok v) ∧
      (P ≠ N → segmentNormals corners = .error .assertionError) := by
  cases P with
  | zero =>
    cases N with
    | zero => exact ⟨fun h => absurd h.2 (by omega), fun h => absurd rfl h⟩
    | succ n => exact ⟨fun h => absurd h.1 (by omega), fun _ => rfl⟩
  | succ m =>
    cases N with
    | zero => exact ⟨fun h => absurd h.2 (by omega), fun _ => rfl⟩
    | succ n =>
      refine ⟨fun h => ?_, fun h => ?_⟩
      · have h' : m = n := by omega
        simp [segmentNormals, h']
      · have h' : m ≠ n := by omega
        simp [segmentNormals, h']

/-- the product of the normal with any vector is the determinant of the vector and the edges -/
theorem normal_dot {n : Nat} (corners : Matrix (Fin (n + 1)) (Fin (n + 1)) K) (v : Vec K (n + 1))
    (h : segmentNormals corners = .ok v) (x : Vec K (n + 1)) :
    v ⬝ᵥ x = (Matrix.of (Fin.cons x (fun i => edgeRows corners i) :
      Fin (n + 1) → Fin (n + 1) → K)).det := by
  simp only [segmentNormals, dite_true] at h
  cases h
  rw [det_succ_row_zero, dotProduct]
  refine Finset.sum_congr rfl fun c _ => ?_
  rw [neg_iterate]
  simp only [of_apply, Fin.cons_zero]
  have : (Matrix.of (Fin.cons x (fun i => edgeRows corners i) :
      Fin (n + 1) → Fin (n + 1) → K)).submatrix Fin.succ c.succAbove =
      (edgeRows corners).submatrix (Fin.cast rfl) c.succAbove := by
    ext i j
    simp
  rw [this]
  ring

/-- C56: the normal is orthogonal to the segment: to the difference of any two of its points -/
theorem C56_orthogonal {n : Nat} (corners : Matrix (Fin (n + 1)) (Fin (n + 1)) K)
    (v : Vec K (n + 1)) (h : segmentNormals corners = .ok v) (i j : Fin (n + 1)) :
    v ⬝ᵥ (corners i - corners j) = 0 := by
  have key : ∀ i, v ⬝ᵥ (corners i - corners 0) = 0 := by
    intro i
    refine Fin.cases ?_ (fun i => ?_) i
    · rw [sub_self, dotProduct_zero]
    · rw [normal_dot corners v h]
      refine det_zero_of_row_eq (i := 0) (j := i.succ) (Fin.succ_ne_zero i).symm ?_
      funext c
      simp [edgeRows]
  have : corners i - corners j = (corners i - corners 0) - (corners j - corners 0) := by abel
  rw [this, dotProduct_sub, key, key, sub_zero]

/-- C56: the product of the normal with the height over the segment is the volume of the simplex over
the segment: seen from an apex for which `signed_volume(apex, corners)` is positive the normal points
away -/
theorem C56_volume {n : Nat} (corners : Matrix (Fin (n + 1)) (Fin (n + 1)) K)
    (v : Vec K (n + 1)) (h : segmentNormals corners = .ok v) (q : Vec K (n + 1))
    (i : Fin (n + 1)) :
    signedVolume (Matrix.of (Fin.cons q (fun i => corners i) :
      Fin (n + 2) → Fin (n + 1) → K)) =
      .ok (v ⬝ᵥ (corners i - q) / ((n + 1).factorial : K)) := by
  rw [signedVolume_eq]
  congr 2
  have e : v ⬝ᵥ (corners i - q) = v ⬝ᵥ (corners 0 - q) := by
    have : corners i - q = (corners i - corners 0) + (corners 0 - q) := by abel
    rw [this, dotProduct_add, C56_orthogonal corners v h, zero_add]
  rw [e, normal_dot corners v h]
  refine det_eq_of_forall_row_eq_smul_add_const (fun i => if i = 0 then 0 else 1) 0 (by simp) ?_
  intro i j
  refine Fin.cases ?_ (fun i => ?_) i
  · simp [edgeRows]
  · simp [edgeRows]

/-- C56: exchanging corners multiplies the normal with the sign of the permutation -/
theorem C56_permute [CharZero K] {n : Nat} (corners : Matrix (Fin (n + 1)) (Fin (n + 1)) K)
    (v : Vec K (n + 1)) (h : segmentNormals corners = .ok v) (σ : Equiv.Perm (Fin (n + 1))) :
    segmentNormals (Matrix.of fun i => corners (σ i)) =
      .ok (((Equiv.Perm.sign σ : ℤ) : K) • v) := by
  obtain ⟨w, hw⟩ := (C56_shape (Matrix.of fun i => corners (σ i))).1 ⟨rfl, Nat.succ_pos n⟩
  rw [hw]
  congr 1
  have hf : ((n + 1).factorial : K) ≠ 0 := Nat.cast_ne_zero.2 (Nat.factorial_ne_zero _)
  have key : ∀ q : Vec K (n + 1), w ⬝ᵥ (corners (σ 0) - q) =
      ((Equiv.Perm.sign σ : ℤ) : K) * (v ⬝ᵥ (corners (σ 0) - q)) := by
    intro q
    have h1 := C56_volume _ w hw q 0
    have h2 := C56_volume corners v h q (σ 0)
    have h3 := C55_permute _ (Equiv.Perm.decomposeFin.symm (0, σ)) _ h2
    have e : (Matrix.of fun i => (Matrix.of (Fin.cons q (fun i => corners i) :
        Fin (n + 2) → Fin (n + 1) → K)) (Equiv.Perm.decomposeFin.symm (0, σ) i)) =
        Matrix.of (Fin.cons q (fun i => (Matrix.of fun i => corners (σ i)) i)) := by
      ext i j
      refine Fin.cases ?_ (fun i => ?_) i
      · simp
      · simp
    rw [e, h1, Equiv.Perm.decomposeFin.symm_sign] at h3
    have h4 := Except.ok.inj h3
    simp only [if_true, one_mul] at h4
    rw [← mul_div_assoc, div_left_inj' hf] at h4
    exact h4
  ext c
  have := key (corners (σ 0) - Pi.single c 1)
  rw [sub_sub_cancel, dotProduct_single, dotProduct_single, mul_one, mul_one] at this
  rw [this]
  rfl

end Field

/-- C56: the length of the normal is `n!` times the volume of the segment -/
theorem C56_length {n : Nat} (corners : Matrix (Fin (n + 1)) (Fin (n + 1)) ℝ) (v : Vec ℝ (n + 1))
    (h : segmentNormals corners = .ok v) :
    ∃ A, unsignedVolume corners = .ok A ∧
      Real.sqrt (v ⬝ᵥ v) = (n.factorial : ℝ) * A := by
  refine ⟨_, unsignedVolume_eq (Nat.le_succ n) corners, ?_⟩
  set E := edgeRows corners with hE
  have hf : (n.factorial : ℝ) ≠ 0 := Nat.cast_ne_zero.2 (Nat.factorial_ne_zero n)
  rw [mul_div_cancel₀ _ hf]
  congr 1
  have key : ∀ x : Vec ℝ (n + 1), E *ᵥ x = 0 →
      (v ⬝ᵥ x) * (v ⬝ᵥ x) = (x ⬝ᵥ x) * (E * Eᵀ).det := by
    intro x hx
    rw [normal_dot corners v h]
    set S : Matrix (Fin (n + 1)) (Fin (n + 1)) ℝ :=
      Matrix.of (Fin.cons x (fun i => E i) : Fin (n + 1) → Fin (n + 1) → ℝ) with hS
    have h1 : S.det * S.det = (S * Sᵀ).det := by rw [det_mul, det_transpose]
    rw [h1, det_succ_column_zero, Finset.sum_eq_single 0]
    · have e1 : (S * Sᵀ) 0 0 = x ⬝ᵥ x := by
        simp [mul_apply, hS, dotProduct]
      have e2 : (S * Sᵀ).submatrix (Fin.succAbove 0) Fin.succ = E * Eᵀ := by
        ext i j
        simp [mul_apply, hS]
      rw [e1, e2]
      simp
    · intro i _ hi
      obtain ⟨i, rfl⟩ := Fin.exists_succ_eq.2 hi
      have e3 : (S * Sᵀ) i.succ 0 = 0 := by
        have := congrFun hx i
        simpa [mul_apply, hS, mulVec, dotProduct] using this
      rw [e3]
      ring
    · simp
  have hv : E *ᵥ v = 0 := by
    funext i
    have := C56_orthogonal corners v h i.succ 0
    rw [dotProduct_comm] at this
    exact this
  have hvv : v ⬝ᵥ v = (E * Eᵀ).det := by
    by_cases h0 : v ⬝ᵥ v = 0
    · have hv0 : v = 0 := dotProduct_self_eq_zero.1 h0
      have hdet : (Matrix.of (Fin.cons 0 (fun i => E i) : Fin (n + 1) → Fin (n + 1) → ℝ)).det =
          0 := by
        refine det_eq_zero_of_row_eq_zero 0 fun j => ?_
        simp
      obtain ⟨x, hx0, hx⟩ := exists_mulVec_eq_zero_iff.2 hdet
      have hEx : E *ᵥ x = 0 := by
        funext i
        have := congrFun hx i.succ
        simpa [mulVec] using this
      have := key x hEx
      rw [hv0, zero_dotProduct, zero_mul] at this
      have hxx : x ⬝ᵥ x ≠ 0 := fun hc => hx0 (dotProduct_self_eq_zero.1 hc)
      rw [h0]
      exact ((mul_eq_zero.1 this.symm).resolve_left hxx).symm
    · exact mul_left_cancel₀ h0 (key v hv)
  rw [← hvv, abs_of_nonneg]
  exact Finset.sum_nonneg fun i _ => mul_self_nonneg _

section Curve

variable {K : Type} [Field K]

theorem segmentAt_ok (V : List (Vec K 2)) (a b : Nat) (x y : Vec K 2) (hx : V[a]? = some x)
    (hy : V[b]? = some y) : segmentAt V [a, b] = .ok (Matrix.of ![x, y]) := by
  simp [segmentAt, vertexAt, hx, hy]
  rfl

theorem segment_normal_two (x y : Vec K 2) :
    segmentNormals (Matrix.of ![x, y]) = .ok ![y 1 - x 1, x 0 - y 0] := by
  simp only [segmentNormals, dite_true]
  congr 1
  funext c
  fin_cases c
  · simp [edgeRows, Fin.succAbove]
  · simp [edgeRows, Fin.succAbove]

/-- C56: the volume of a closed curve, all of whose edges are directed alike, is the area it
encloses: the sum of the signed areas of the triangles that its edges span with any point -/
theorem C56_curve [CharZero K] (V : List (Vec K 2)) (edges : List (Nat × Nat))
    (hb : ∀ e ∈ edges, e.1 < V.length ∧ e.2 < V.length) (hc : NoEnds edges) (o : Vec K 2) :
    curveVolume V true (edges.map fun e => [e.1, e.2]) =
      .ok ((edges.map fun e => twiceArea o (V.getD e.1 0) (V.getD e.2 0)).sum / 2) := by
  have h2 : (2 : K) ≠ 0 := two_ne_zero
  have hs : (edges.map fun e => [e.1, e.2]).mapM (segmentAt V) =
      .ok (edges.map fun e => Matrix.of ![V.getD e.1 0, V.getD e.2 0]) := by
    have : ∀ l : List (Nat × Nat), (∀ e ∈ l, e.1 < V.length ∧ e.2 < V.length) →
        (l.map fun e => [e.1, e.2]).mapM (segmentAt V) =
          .ok (l.map fun e => Matrix.of ![V.getD e.1 0, V.getD e.2 0]) := by
      intro l
      induction l with
      | nil => intro _; rfl
      | cons e l ih =>
        intro hl
        obtain ⟨h1, h2⟩ := hl e List.mem_cons_self
        have := segmentAt_ok V e.1 e.2 (V.getD e.1 0) (V.getD e.2 0)
          (by simp [List.getD, h1]) (by simp [List.getD, h2])
        rw [List.map_cons, List.mapM_cons, this, ih fun e he => hl e (List.mem_cons_of_mem _ he)]
        rfl
    exact this edges hb
  have hn : ∀ l : List (Nat × Nat),
      (l.map fun e => Matrix.of ![V.getD e.1 0, V.getD e.2 0]).mapM segmentNormals =
        .ok (l.map fun e => ![(V.getD e.2 0) 1 - (V.getD e.1 0) 1,
          (V.getD e.1 0) 0 - (V.getD e.2 0) 0]) := by
    intro l
    induction l with
    | nil => rfl
    | cons e l ih =>
      rw [List.map_cons, List.mapM_cons, segment_normal_two, ih]
      rfl
  simp only [curveVolume, hs, Bool.not_true, Bool.false_eq_true, if_false]
  simp only [bind, Except.bind, hn]
  congr 2
  rw [List.map_map, List.zipWith_map, List.zipWith_self]
  have e1 : ∀ e : Nat × Nat, dot ![(V.getD e.2 0) 1 - (V.getD e.1 0) 1,
        (V.getD e.1 0) 0 - (V.getD e.2 0) 0]
      (((fun (s : Matrix (Fin 2) (Fin 2) K) j => (s 0 j + s 1 j) / 2) ∘
        fun e : Nat × Nat => Matrix.of ![V.getD e.1 0, V.getD e.2 0]) e) =
      twiceArea o (V.getD e.1 0) (V.getD e.2 0) +
        (o 0 * (V.getD e.2 0) 1 - o 1 * (V.getD e.2 0) 0) -
        (o 0 * (V.getD e.1 0) 1 - o 1 * (V.getD e.1 0) 0) := by
    intro e
    simp only [dot, Fin.sum_univ_two, Function.comp, twiceArea]
    simp only [of_apply, cons_val_zero, cons_val_one]
    field_simp
    ring
  simp only [e1]
  set f : Nat → K := fun a => o 0 * (V.getD a 0) 1 - o 1 * (V.getD a 0) 0
  have hp : (edges.map fun e => f e.1).sum = (edges.map fun e => f e.2).sum := by
    have := (hc.map f).sum_eq
    simpa [List.map_map, Function.comp_def] using this
  have : ∀ l : List (Nat × Nat), (l.map fun e => twiceArea o (V.getD e.1 0) (V.getD e.2 0) + f e.2 -
      f e.1).sum = (l.map fun e => twiceArea o (V.getD e.1 0) (V.getD e.2 0)).sum +
        (l.map fun e => f e.2).sum - (l.map fun e => f e.1).sum := by
    intro l
    induction l with
    | nil => simp
    | cons e l ih => simp only [List.map_cons, List.sum_cons, ih]; ring
  exact (this edges).trans (by rw [hp]; ring)

/-- C56: the triangles in `C56_curve` have half of `twiceArea` as their `signed_volume` -/
theorem C56_twiceArea (o a b : Vec K 2) :
    signedVolume (Matrix.of ![o, a, b]) = .ok (twiceArea o a b / 2) := by
  rw [signedVolume_eq, det_fin_two]
  simp [edgeRows, twiceArea, Nat.factorial]

/-- C56: if the edges of a closed curve are not directed alike the result is no area: it depends on
the position of the origin, although the topology is closed and `volume` does not raise -/
theorem C56_not_directed :
    curveVolume ([![0, 0], ![1, 0], ![0, 1]] : List (Vec ℚ 2)) true [[0, 1], [1, 2], [0, 2]] =
      .ok (1 / 2) ∧
    curveVolume ([![1, 0], ![2, 0], ![1, 1]] : List (Vec ℚ 2)) true [[0, 1], [1, 2], [0, 2]] =
      .ok (3 / 2) := by
  constructor <;>
  · simp [curveVolume, segmentAt, vertexAt, bind, Except.bind, segment_normal_two, dot,
      pure, Except.pure]
    all_goals norm_num

/-- a unit square, counterclockwise -/
example : NoEnds [(0, 1), (1, 2), (2, 3), (3, 0)] ∧
    curveVolume ([![0, 0], ![1, 0], ![1, 1], ![0, 1]] : List (Vec ℚ 2)) true
      [[0, 1], [1, 2], [2, 3], [3, 0]] = .ok 1 := by
  constructor
  · unfold NoEnds; decide
  · simp [curveVolume, segmentAt, vertexAt, bind, Except.bind, segment_normal_two, dot,
      pure, Except.pure]

/-- a triangle of 3-space and its normal -/
example : segmentNormals (!![1, 0, 0; 0, 2, 0; 0, 0, 3] : Matrix (Fin 3) (Fin 3) ℚ) =
    .ok ![6, 3, 2] := by
  simp only [segmentNormals, dite_true]
  congr 1
  funext c
  fin_cases c <;> simp [edgeRows, Fin.succAbove, det_fin_two, neg_iterate]; norm_num

end Curve

end Verif.Props
