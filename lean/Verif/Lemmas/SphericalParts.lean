/-
Splitting spherical triangles, and the parts of a triangle that are nearest to its corners.
-/
import Verif.Lemmas.Spherical

namespace Verif
open MeasureTheory Set Matrix Spec

theorem finite_part (S : Set E3) : volume (ball3 ∩ S) ≠ ⊤ :=
  ne_top_of_le_ne_top (by rw [volume_ball3]; exact ENNReal.ofReal_ne_top) (measure_mono inter_subset_left)

/-- a plane cuts a set of directions in two -/
theorem part_split (S : Set E3) {n : E3} (hn : n ≠ 0) :
    volume.real (ball3 ∩ S) = volume.real (ball3 ∩ (S ∩ half3 n)) + volume.real (ball3 ∩ (S ∩ half3 (-n))) := by
  unfold Measure.real
  rw [volume_split n (ball3 ∩ S) hn, inter_assoc, inter_assoc,
    ENNReal.toReal_add (finite_part _) (finite_part _)]

theorem mem_half_cross (d : ℝ) (u v x : E3) : x ∈ half3 (d • (u ⨯₃ v)) ↔ 0 ≤ d * det3 x u v := by
  have : det3 x u v = (u ⨯₃ v) ⬝ᵥ x := dotProduct_comm _ _
  rw [this]
  simp only [half3, mem_ofPred_eq, smul_dotProduct, smul_eq_mul]

theorem mem_half_neg_cross (d : ℝ) (u v x : E3) : x ∈ half3 (-(d • (u ⨯₃ v))) ↔ 0 ≤ -(d * det3 x u v) := by
  have : det3 x u v = (u ⨯₃ v) ⬝ᵥ x := dotProduct_comm _ _
  rw [this]
  simp only [half3, mem_ofPred_eq, neg_dotProduct, smul_dotProduct, smul_eq_mul]

theorem cross_ne_zero {x u v : E3} (h : det3 x u v ≠ 0) : u ⨯₃ v ≠ 0 :=
  fun h0 => h (by unfold det3; rw [h0]; simp)

/-- splitting a triangle at a point of an edge -/
theorem area_split_edge {a b c : E3} (hd : det3 a b c ≠ 0) {α β : ℝ} (hα : 0 < α) (hβ : 0 < β) :
    surfaceArea (sphericalTriangle a b c) = surfaceArea (sphericalTriangle a (α • a + β • b) c) +
      surfaceArea (sphericalTriangle (α • a + β • b) b c) := by
  set e := α • a + β • b with he
  have ei : ∀ i, e i = α * a i + β * b i := fun i => rfl
  have h1 : det3 a e c = β * det3 a b c := by simp only [det3_apply, ei]; ring
  have h2 : det3 e b c = α * det3 a b c := by simp only [det3_apply, ei]; ring
  have d1 : det3 a e c ≠ 0 := by rw [h1]; exact mul_ne_zero hβ.ne' hd
  have d2 : det3 e b c ≠ 0 := by rw [h2]; exact mul_ne_zero hα.ne' hd
  have g1 : ∀ x, det3 a e x = β * det3 a b x := fun x => by simp only [det3_apply, ei]; ring
  have g2 : ∀ x, det3 e b x = α * det3 a b x := fun x => by simp only [det3_apply, ei]; ring
  have g3 : ∀ x, det3 x e c = β * det3 x b c - α * det3 a x c := fun x => by simp only [det3_apply, ei]; ring
  have g4 : ∀ x, det3 e x c = α * det3 a x c - β * det3 x b c := fun x => by simp only [det3_apply, ei]; ring
  rw [sphericalTriangle_area hd, sphericalTriangle_area d1, sphericalTriangle_area d2, ← mul_add]
  congr 1
  have hn : det3 a b c • (e ⨯₃ c) ≠ 0 := smul_ne_zero hd (cross_ne_zero d1)
  rw [part_split (cone3 a b c) hn]
  have pos : ∀ {r y : ℝ}, 0 < r → (0 ≤ r * y ↔ 0 ≤ y) := fun h => mul_nonneg_iff_of_pos_left h
  have k1 : ∀ x, det3 a b c * det3 x e c = β * (det3 a b c * det3 x b c) - α * (det3 a b c * det3 a x c) :=
    fun x => by rw [g3]; ring
  congr 3
  · ext x
    rw [mem_inter_iff, mem_cone3 hd, mem_half_cross, mem_cone3 d1, h1, g1]
    have e1 : β * det3 a b c * det3 x e c = β * (det3 a b c * det3 x e c) := by ring
    have e2 : β * det3 a b c * det3 a x c = β * (det3 a b c * det3 a x c) := by ring
    have e3 : β * det3 a b c * (β * det3 a b x) = (β * β) * (det3 a b c * det3 a b x) := by ring
    rw [e1, e2, e3, pos hβ, pos hβ, pos (mul_pos hβ hβ)]
    refine ⟨fun ⟨⟨u, v, w⟩, y⟩ => ⟨y, v, w⟩, fun ⟨y, v, w⟩ => ⟨⟨?_, v, w⟩, y⟩⟩
    rw [k1] at y
    have := mul_nonneg hα.le v
    exact (pos hβ).1 (by linarith)
  · ext x
    rw [mem_inter_iff, mem_cone3 hd, mem_half_neg_cross, mem_cone3 d2, h2, g2]
    have e1 : α * det3 a b c * det3 x b c = α * (det3 a b c * det3 x b c) := by ring
    have e2 : α * det3 a b c * det3 e x c = α * (-(det3 a b c * det3 x e c)) := by rw [g4, g3]; ring
    have e3 : α * det3 a b c * (α * det3 a b x) = (α * α) * (det3 a b c * det3 a b x) := by ring
    rw [e1, e2, e3, pos hα, pos hα, pos (mul_pos hα hα)]
    refine ⟨fun ⟨⟨u, v, w⟩, y⟩ => ⟨u, y, w⟩, fun ⟨u, y, w⟩ => ⟨⟨u, ?_, w⟩, y⟩⟩
    rw [k1] at y
    have := mul_nonneg hβ.le u
    exact (pos hα).1 (by linarith)

theorem cone3_rotate (a b c : E3) : cone3 b c a = cone3 a b c := by
  ext x
  constructor
  · rintro ⟨s, t, u, hs, ht, hu, h⟩
    exact ⟨u, s, t, hu, hs, ht, fun i => by rw [h i]; ring⟩
  · rintro ⟨s, t, u, hs, ht, hu, h⟩
    exact ⟨t, u, s, ht, hu, hs, fun i => by rw [h i]; ring⟩

theorem cone3_swap (a b c : E3) : cone3 b a c = cone3 a b c := by
  ext x
  constructor
  · rintro ⟨s, t, u, hs, ht, hu, h⟩
    exact ⟨t, s, u, ht, hs, hu, fun i => by rw [h i]; ring⟩
  · rintro ⟨s, t, u, hs, ht, hu, h⟩
    exact ⟨t, s, u, ht, hs, hu, fun i => by rw [h i]; ring⟩

theorem triangle_rotate (a b c : E3) : sphericalTriangle b c a = sphericalTriangle a b c := by
  unfold sphericalTriangle; rw [cone3_rotate]

theorem triangle_swap (a b c : E3) : sphericalTriangle b a c = sphericalTriangle a b c := by
  unfold sphericalTriangle; rw [cone3_swap]

/-- longer corners span the same triangle -/
theorem cone3_smul (a b c : E3) {r : ℝ} (hr : 0 < r) : cone3 (r • a) b c = cone3 a b c := by
  ext x
  constructor
  · rintro ⟨s, t, u, hs, ht, hu, h⟩
    exact ⟨s * r, t, u, by positivity, ht, hu, fun i => by rw [h i]; simp; ring⟩
  · rintro ⟨s, t, u, hs, ht, hu, h⟩
    refine ⟨s / r, t, u, by positivity, ht, hu, fun i => ?_⟩
    rw [h i]
    simp only [Pi.smul_apply, smul_eq_mul]
    field_simp

theorem triangle_smul (a b c : E3) {r s t : ℝ} (hr : 0 < r) (hs : 0 < s) (ht : 0 < t) :
    sphericalTriangle (r • a) (s • b) (t • c) = sphericalTriangle a b c := by
  unfold sphericalTriangle
  rw [cone3_smul _ _ _ hr, ← cone3_rotate, cone3_smul _ _ _ hs, ← cone3_rotate, cone3_smul _ _ _ ht, ← cone3_rotate]

/-- splitting a triangle at a point inside -/
theorem area_split_inside {a b c : E3} (hd : det3 a b c ≠ 0) {α β γ : ℝ} (hα : 0 < α) (hβ : 0 < β) (hγ : 0 < γ) :
    surfaceArea (sphericalTriangle a b c) =
      surfaceArea (sphericalTriangle (α • a + β • b + γ • c) b c) +
      surfaceArea (sphericalTriangle a (α • a + β • b + γ • c) c) +
      surfaceArea (sphericalTriangle a b (α • a + β • b + γ • c)) := by
  set e := α • a + β • b with he
  set o := e + γ • c with ho
  have ei : ∀ i, e i = α * a i + β * b i := fun i => rfl
  have oi : ∀ i, o i = α * a i + β * b i + γ * c i := fun i => rfl
  have h1 : det3 a e c = β * det3 a b c := by simp only [det3_apply, ei]; ring
  have h2 : det3 e b c = α * det3 a b c := by simp only [det3_apply, ei]; ring
  have d1 : det3 a e c ≠ 0 := by rw [h1]; exact mul_ne_zero hβ.ne' hd
  have d2 : det3 e b c ≠ 0 := by rw [h2]; exact mul_ne_zero hα.ne' hd
  have h3 : det3 a b o = γ * det3 a b c := by simp only [det3_apply, oi]; ring
  have d3 : det3 a b o ≠ 0 := by rw [h3]; exact mul_ne_zero hγ.ne' hd
  have s1 := area_split_edge hd hα hβ
  rw [← he] at s1
  -- the triangle a e c, split at o on the edge from e to c
  have s2 : surfaceArea (sphericalTriangle a e c) = surfaceArea (sphericalTriangle a e o) +
      surfaceArea (sphericalTriangle a o c) := by
    have := area_split_edge (a := e) (b := c) (c := a) (by rwa [det3_rotate]) one_pos hγ
    rw [one_smul, ← ho] at this
    rw [triangle_rotate a e c, triangle_rotate a e o, triangle_rotate a o c] at this
    exact this
  have s3 : surfaceArea (sphericalTriangle e b c) = surfaceArea (sphericalTriangle e b o) +
      surfaceArea (sphericalTriangle o b c) := by
    have := area_split_edge (a := e) (b := c) (c := b) (by
      have : det3 e c b = -det3 e b c := by simp only [det3_apply]; ring
      rw [this]; exact neg_ne_zero.2 d2) one_pos hγ
    rw [one_smul, ← ho] at this
    have f : ∀ x y z : E3, sphericalTriangle x y z = sphericalTriangle x z y := fun x y z => by
      rw [← triangle_rotate x y z, ← triangle_swap y z x, triangle_rotate x z y |>.symm]
    rw [f e c b, f e o b, f o c b] at this
    exact this
  have s4 := area_split_edge d3 hα hβ
  rw [← he] at s4
  linarith

/-! ### Orthogonal maps -/

theorem cone3_orthogonal {Q : Matrix (Fin 3) (Fin 3) ℝ} (hQ : Q * Qᵀ = 1) (a b c : E3) :
    {x | Q *ᵥ x ∈ cone3 (Q *ᵥ a) (Q *ᵥ b) (Q *ᵥ c)} = cone3 a b c := by
  have h2 : Qᵀ * Q = 1 := mul_eq_one_comm.1 hQ
  have lin : ∀ s t u : ℝ, Q *ᵥ (s • a + t • b + u • c) = s • Q *ᵥ a + t • Q *ᵥ b + u • Q *ᵥ c := fun s t u => by
    rw [mulVec_add, mulVec_add, mulVec_smul, mulVec_smul, mulVec_smul]
  ext x
  constructor
  · rintro ⟨s, t, u, hs, ht, hu, h⟩
    have e : Q *ᵥ x = Q *ᵥ (s • a + t • b + u • c) := by
      rw [lin]; exact funext h
    have := congrArg (fun y => Qᵀ *ᵥ y) e
    simp only [mulVec_mulVec, h2, one_mulVec] at this
    exact ⟨s, t, u, hs, ht, hu, fun i => by rw [this]; rfl⟩
  · rintro ⟨s, t, u, hs, ht, hu, h⟩
    have e : x = s • a + t • b + u • c := funext h
    exact ⟨s, t, u, hs, ht, hu, fun i => by rw [e, lin]; rfl⟩

theorem det3_orthogonal {Q : Matrix (Fin 3) (Fin 3) ℝ} (hQ : Q * Qᵀ = 1) {a b c : E3} (hd : det3 a b c ≠ 0) :
    det3 (Q *ᵥ a) (Q *ᵥ b) (Q *ᵥ c) ≠ 0 := by
  have h2 : Qᵀ * Q = 1 := mul_eq_one_comm.1 hQ
  refine (independent_iff _ _ _).1 fun s t u h => (independent_iff _ _ _).2 hd s t u fun i => ?_
  have lin : Q *ᵥ (s • a + t • b + u • c) = 0 := by
    rw [mulVec_add, mulVec_add, mulVec_smul, mulVec_smul, mulVec_smul]; exact funext h
  have := congrArg (fun y => Qᵀ *ᵥ y) lin
  simp only [mulVec_mulVec, h2, one_mulVec, mulVec_zero] at this
  exact congrFun this i

theorem area_orthogonal {Q : Matrix (Fin 3) (Fin 3) ℝ} (hQ : Q * Qᵀ = 1) {a b c : E3} (hd : det3 a b c ≠ 0) :
    surfaceArea (sphericalTriangle (Q *ᵥ a) (Q *ᵥ b) (Q *ᵥ c)) = surfaceArea (sphericalTriangle a b c) := by
  have hd' := det3_orthogonal hQ hd
  rw [sphericalTriangle_area hd, sphericalTriangle_area hd']
  unfold Measure.real
  rw [← volume_orthogonal hQ (measurableSet_ball3.inter (measurableSet_cone3 hd'))]
  have : {x | Q *ᵥ x ∈ ball3 ∩ cone3 (Q *ᵥ a) (Q *ᵥ b) (Q *ᵥ c)} = ball3 ∩ cone3 a b c := by
    rw [← cone3_orthogonal hQ a b c]
    ext x
    simp only [mem_ofPred_eq, mem_inter_iff, ball3, orthogonal_dot hQ]
  rw [this]

/-! ### Mirror images -/

/-- the reflection that exchanges two vectors of equal length -/
noncomputable def mirror (u : E3) : Matrix (Fin 3) (Fin 3) ℝ := 1 - (2 / (u ⬝ᵥ u)) • vecMulVec u u

theorem mirror_mulVec (u x : E3) : mirror u *ᵥ x = x - (2 / (u ⬝ᵥ u) * (u ⬝ᵥ x)) • u := by
  unfold mirror
  rw [sub_mulVec, one_mulVec, smul_mulVec, vecMulVec_mulVec]
  funext k
  simp only [Pi.sub_apply, Pi.smul_apply, smul_eq_mul, MulOpposite.smul_eq_mul_unop, MulOpposite.unop_op]
  ring

theorem mirror_orthogonal {u : E3} (hu : u ≠ 0) : mirror u * (mirror u)ᵀ = 1 := by
  have h0 : u ⬝ᵥ u ≠ 0 := fun h => hu (dotProduct_self_eq_zero.1 h)
  have ht : (mirror u)ᵀ = mirror u := by
    unfold mirror
    rw [transpose_sub, transpose_one, transpose_smul, transpose_vecMulVec]
  rw [ht]
  refine ext_of_mulVec_single fun i => ?_
  rw [← mulVec_mulVec, mirror_mulVec, mirror_mulVec, one_mulVec]
  set x : E3 := Pi.single i 1
  rw [dotProduct_sub, dotProduct_smul, smul_eq_mul]
  funext k
  simp only [Pi.sub_apply, Pi.smul_apply, smul_eq_mul]
  field_simp
  ring

theorem mirror_fix {u x : E3} (h : u ⬝ᵥ x = 0) : mirror u *ᵥ x = x := by
  rw [mirror_mulVec, h]; simp

theorem mirror_swap {a b : E3} (hab : a ≠ b) (h : a ⬝ᵥ a = b ⬝ᵥ b) : mirror (a - b) *ᵥ a = b := by
  have h0 : (a - b) ⬝ᵥ (a - b) ≠ 0 := fun h => hab (sub_eq_zero.1 (dotProduct_self_eq_zero.1 h))
  have e : 2 * ((a - b) ⬝ᵥ a) = (a - b) ⬝ᵥ (a - b) := by
    simp only [dotProduct_sub, sub_dotProduct, dotProduct_comm b a]
    linarith
  rw [mirror_mulVec]
  have : 2 / ((a - b) ⬝ᵥ (a - b)) * ((a - b) ⬝ᵥ a) = 1 := by
    rw [← e] at h0 ⊢
    field_simp
    exact div_self (fun h => h0 (by rw [h]; ring))
  rw [this, one_smul]
  abel

/-- the two halves of an isosceles triangle -/
theorem area_isosceles {a b o : E3} (hd : det3 a b o ≠ 0) (h : a ⬝ᵥ a = b ⬝ᵥ b) (ho : o ⬝ᵥ a = o ⬝ᵥ b) :
    surfaceArea (sphericalTriangle a (a + b) o) = surfaceArea (sphericalTriangle (a + b) b o) := by
  have hab : a ≠ b := by
    rintro rfl
    exact hd (by simp only [det3_apply]; ring)
  have hu : a - b ≠ 0 := sub_ne_zero.2 hab
  have d1 : det3 a (a + b) o ≠ 0 := by
    have : det3 a (a + b) o = det3 a b o := by simp only [det3_apply, Pi.add_apply]; ring
    rwa [this]
  rw [← area_orthogonal (mirror_orthogonal hu) d1, mirror_swap hab h, mirror_fix, mirror_fix, triangle_swap]
  · rw [sub_dotProduct, dotProduct_comm a, dotProduct_comm b, ho, sub_self]
  · simp only [dotProduct_add, sub_dotProduct, dotProduct_comm b a]
    linarith


/-! ### The part of a triangle nearest to a corner -/

/-- the directions in a cone that are at least as near to `a` as to `b` and `c` -/
def nearPart (a b c : E3) : Set E3 := {x | x ∈ cone3 a b c ∧ x ⬝ᵥ b ≤ x ⬝ᵥ a ∧ x ⬝ᵥ c ≤ x ⬝ᵥ a}

/-- a plane of symmetry -/
theorem det_symmetry {a b o : E3} (h : a ⬝ᵥ a = b ⬝ᵥ b) (ho : o ⬝ᵥ a = o ⬝ᵥ b) (x : E3) :
    ((a - b) ⬝ᵥ (a - b)) * det3 x (a + b) o = 2 * det3 a b o * (x ⬝ᵥ a - x ⬝ᵥ b) := by
  have hm : (a - b) ⬝ᵥ (a + b) = 0 := by
    simp only [dotProduct_add, sub_dotProduct, dotProduct_comm b a]; linarith
  have ho' : (a - b) ⬝ᵥ o = 0 := by
    rw [sub_dotProduct, dotProduct_comm a, dotProduct_comm b, ho, sub_self]
  have key : ((a - b) ⬝ᵥ (a - b)) * det3 x (a + b) o - det3 (a - b) (a + b) o * ((a - b) ⬝ᵥ x) =
      (((a - b) ⨯₃ x) ⬝ᵥ (((a - b) ⬝ᵥ o) • (a + b) - ((a - b) ⬝ᵥ (a + b)) • o)) := by
    simp only [det3_apply, dot3, cross_apply, Pi.add_apply, Pi.sub_apply, Pi.smul_apply, smul_eq_mul]
    simp
    ring
  rw [hm, ho'] at key
  have e1 : det3 (a - b) (a + b) o = 2 * det3 a b o := by
    simp only [det3_apply, Pi.add_apply, Pi.sub_apply]; ring
  have e2 : (a - b) ⬝ᵥ x = x ⬝ᵥ a - x ⬝ᵥ b := by
    rw [sub_dotProduct, dotProduct_comm a, dotProduct_comm b]
  rw [e1, e2] at key
  simp only [zero_smul, sub_zero, dotProduct_zero] at key
  linarith

/-- equidistant points inside of a triangle exist only in acute ones -/
theorem acute_of_inside {p q r α β γ : ℝ} (hq : 0 < q) (hp : 0 < p) (hr : 0 < r) (hα : 0 < α) (hγ : 0 < γ)
    (e1 : β * p + γ * q = α * p + γ * r) (e2 : α * p + γ * r = α * q + β * r) : 0 < q + r - p := by
  have key : γ * r * (p + q - r) = α * p * (q + r - p) := by
    linear_combination r * e1 + p * e2
  by_contra hn
  push Not at hn
  have h1 : γ * r * (p + q - r) ≤ 0 := by
    rw [key]; exact mul_nonpos_of_nonneg_of_nonpos (by positivity) hn
  have h2 : p + q - r ≤ 0 := by
    by_contra h
    push Not at h
    exact absurd h1 (not_le.2 (by positivity))
  linarith

/-- a corner's part: two halves of isosceles triangles -/
theorem nearPart_area {a b c : E3} (hd : det3 a b c ≠ 0) (hab : a ⬝ᵥ a = b ⬝ᵥ b) (hac : a ⬝ᵥ a = c ⬝ᵥ c)
    {α β γ : ℝ} (hα : 0 < α) (hβ : 0 < β) (hγ : 0 < γ) {o : E3} (ho : o = α • a + β • b + γ • c)
    (h1 : o ⬝ᵥ a = o ⬝ᵥ b) (h2 : o ⬝ᵥ a = o ⬝ᵥ c) :
    surfaceArea (onSphere (nearPart a b c)) =
      surfaceArea (sphericalTriangle a (a + b) o) + surfaceArea (sphericalTriangle (c + a) a o) := by
  have oi : ∀ i, o i = α * a i + β * b i + γ * c i := fun i => by rw [ho]; rfl
  have ne : ∀ {u v : E3}, u ≠ v → 0 < (u - v) ⬝ᵥ (u - v) := fun {u v} h =>
    lt_of_le_of_ne (by rw [dot3]; nlinarith [mul_self_nonneg ((u - v) 0), mul_self_nonneg ((u - v) 1), mul_self_nonneg ((u - v) 2)])
      fun h0 => h (sub_eq_zero.1 (dotProduct_self_eq_zero.1 h0.symm))
  have nab : a ≠ b := by rintro rfl; exact hd (by simp only [det3_apply]; ring)
  have nac : c ≠ a := by rintro rfl; exact hd (by simp only [det3_apply]; ring)
  have nbc : b ≠ c := by rintro rfl; exact hd (by simp only [det3_apply]; ring)
  have hp := ne nab
  have hq := ne nac
  have hr := ne nbc
  have hs1 := det_symmetry hab h1
  have hs2 := det_symmetry (a := c) (b := a) hac.symm h2.symm
  have f1 : det3 a b o = γ * det3 a b c := by simp only [det3_apply, oi]; ring
  have f2 : det3 c a o = β * det3 a b c := by simp only [det3_apply, oi]; ring
  have g1 : det3 a (a + b) o = γ * det3 a b c := by simp only [det3_apply, oi, Pi.add_apply]; ring
  have g2 : det3 (c + a) a o = β * det3 a b c := by simp only [det3_apply, oi, Pi.add_apply]; ring
  have d1 : det3 a (a + b) o ≠ 0 := by rw [g1]; exact mul_ne_zero hγ.ne' hd
  have d2 : det3 (c + a) a o ≠ 0 := by rw [g2]; exact mul_ne_zero hβ.ne' hd
  -- the triangle is acute
  set P := (a - b) ⬝ᵥ (a - b) with hP
  set Q := (c - a) ⬝ᵥ (c - a) with hQ
  set R := (b - c) ⬝ᵥ (b - c) with hR
  have oa : o ⬝ᵥ a = α * (a ⬝ᵥ a) + β * (b ⬝ᵥ a) + γ * (c ⬝ᵥ a) := by rw [ho]; simp [add_dotProduct]
  have ob : o ⬝ᵥ b = α * (a ⬝ᵥ b) + β * (b ⬝ᵥ b) + γ * (c ⬝ᵥ b) := by rw [ho]; simp [add_dotProduct]
  have oc : o ⬝ᵥ c = α * (a ⬝ᵥ c) + β * (b ⬝ᵥ c) + γ * (c ⬝ᵥ c) := by rw [ho]; simp [add_dotProduct]
  have eP : P = 2 * (a ⬝ᵥ a) - 2 * (a ⬝ᵥ b) := by
    rw [hP]; simp only [dotProduct_sub, sub_dotProduct, dotProduct_comm b a]; linarith
  have eQ : Q = 2 * (a ⬝ᵥ a) - 2 * (c ⬝ᵥ a) := by
    rw [hQ]; simp only [dotProduct_sub, sub_dotProduct, dotProduct_comm a c]; linarith
  have eR : R = 2 * (a ⬝ᵥ a) - 2 * (b ⬝ᵥ c) := by
    rw [hR]; simp only [dotProduct_sub, sub_dotProduct, dotProduct_comm c b]; linarith
  rw [dotProduct_comm b a] at oa
  rw [dotProduct_comm c b, ← hab] at ob
  rw [dotProduct_comm a c, ← hac] at oc
  have E1 : β * P + γ * Q = α * P + γ * R := by rw [eP, eQ, eR]; linarith
  have E2 : α * P + γ * R = α * Q + β * R := by rw [eP, eQ, eR]; linarith
  have ac1 : 0 < Q + R - P := acute_of_inside hq hp hr hα hγ E1 E2
  have ac2 : 0 < P + R - Q := acute_of_inside (p := Q) (q := P) (r := R) (α := α) (β := γ) (γ := β) hp hq hr hα hβ
    (by linarith) (by linarith)
  have hcone : ∀ x, x ∈ nearPart a b c ↔ (0 ≤ det3 a b c * det3 x b c ∧ 0 ≤ det3 a b c * det3 a x c ∧
      0 ≤ det3 a b c * det3 a b x) ∧ x ⬝ᵥ b ≤ x ⬝ᵥ a ∧ x ⬝ᵥ c ≤ x ⬝ᵥ a := fun x => by
    show (_ ∧ _) ↔ _
    rw [mem_cone3 hd]
  have hmeas : MeasurableSet (nearPart a b c) := by
    have : nearPart a b c = cone3 a b c ∩ half3 (a - b) ∩ half3 (a - c) := by
      ext x
      simp only [nearPart, half3, mem_ofPred_eq, mem_inter_iff, sub_dotProduct, sub_nonneg, and_assoc,
        dotProduct_comm a x, dotProduct_comm b x, dotProduct_comm c x]
    rw [this]
    exact ((measurableSet_cone3 hd).inter (measurableSet_half3 _)).inter (measurableSet_half3 _)
  have hscale : ∀ (r : ℝ) (x : E3), 0 < r → (r • x ∈ nearPart a b c ↔ x ∈ nearPart a b c) := fun r x hr => by
    show (_ ∧ _) ↔ (_ ∧ _)
    rw [cone3_scale hr]
    simp only [smul_dotProduct, smul_eq_mul, mul_le_mul_iff_right₀ hr]
  rw [surfaceArea_cone hmeas hscale, sphericalTriangle_area d1, sphericalTriangle_area d2, ← mul_add]
  congr 1
  have da : det3 b o a ≠ 0 := by rw [det3_rotate a b o, f1]; exact mul_ne_zero hγ.ne' hd
  have hn : det3 a b c • (o ⨯₃ a) ≠ 0 := smul_ne_zero hd (cross_ne_zero da)
  rw [part_split (nearPart a b c) hn]
  have pos : ∀ {r y : ℝ}, 0 < r → (0 ≤ r * y ↔ 0 ≤ y) := fun h => mul_nonneg_iff_of_pos_left h
  have hdd : 0 < det3 a b c * det3 a b c := mul_self_pos.2 hd
  -- the conditions of the cones
  have c1 : ∀ x, 0 ≤ det3 a b c * det3 x (a + b) o ↔ x ⬝ᵥ b ≤ x ⬝ᵥ a := fun x => by
    have : P * (det3 a b c * det3 x (a + b) o) =
        (2 * γ * (det3 a b c * det3 a b c)) * (x ⬝ᵥ a - x ⬝ᵥ b) := by
      have := hs1 x
      rw [f1] at this
      linear_combination (det3 a b c) * this
    rw [← pos hp, this, pos (by positivity), sub_nonneg]
  have c2 : ∀ x, 0 ≤ -(det3 a b c * det3 x (c + a) o) ↔ x ⬝ᵥ c ≤ x ⬝ᵥ a := fun x => by
    have : Q * -(det3 a b c * det3 x (c + a) o) =
        (2 * β * (det3 a b c * det3 a b c)) * (x ⬝ᵥ a - x ⬝ᵥ c) := by
      have := hs2 x
      rw [f2] at this
      linear_combination (-det3 a b c) * this
    rw [← pos hq, this, pos (by positivity), sub_nonneg]
  congr 3
  · ext x
    rw [mem_inter_iff, hcone, mem_half_cross]
    constructor
    · rintro ⟨⟨⟨u, v, w⟩, n1, n2⟩, y⟩
      rw [mem_cone3 d1, g1]
      have k1 : γ * det3 a b c * det3 x (a + b) o = γ * (det3 a b c * det3 x (a + b) o) := by ring
      have k2 : γ * det3 a b c * det3 a x o = γ * (det3 a b c * det3 x o a) := by
        simp only [det3_apply]; ring
      have k3 : γ * det3 a b c * det3 a (a + b) x = γ * (det3 a b c * det3 a b x) := by
        simp only [det3_apply, Pi.add_apply]; ring
      rw [k1, k2, k3, pos hγ, pos hγ, pos hγ]
      exact ⟨(c1 x).2 n1, y, w⟩
    · rintro ⟨s, t, u, hs, ht, hu, hx⟩
      have xe : x = s • a + t • (a + b) + u • o := funext fun i => by rw [hx i]; rfl
      refine ⟨⟨?_, ?_, ?_⟩, ?_⟩
      · rw [← mem_cone3 hd]
        refine ⟨s + t + u * α, t + u * β, u * γ, by positivity, by positivity, by positivity, fun i => ?_⟩
        rw [hx i, oi]; simp only [Pi.add_apply]; ring
      · have : x ⬝ᵥ a - x ⬝ᵥ b = s * (P / 2) := by
          rw [xe]
          simp only [add_dotProduct, smul_dotProduct, smul_eq_mul, h1, eP, dotProduct_comm b a, hab]
          ring
        have := mul_nonneg hs (half_pos hp).le
        linarith
      · have : x ⬝ᵥ a - x ⬝ᵥ c = s * (Q / 2) + t * ((Q + R - P) / 2) := by
          rw [xe]
          simp only [add_dotProduct, smul_dotProduct, smul_eq_mul, h2, eP, eQ, eR, dotProduct_comm b a, dotProduct_comm a c]
          ring
        have := mul_nonneg hs (half_pos hq).le
        have := mul_nonneg ht (half_pos ac1).le
        linarith
      · have : det3 a b c * det3 x o a = t * γ * (det3 a b c * det3 a b c) := by
          rw [xe, ho]; simp only [det3_apply, Pi.add_apply, Pi.smul_apply, smul_eq_mul]; ring
        rw [this]; positivity
  · ext x
    rw [mem_inter_iff, hcone, mem_half_neg_cross]
    constructor
    · rintro ⟨⟨⟨u, v, w⟩, n1, n2⟩, y⟩
      rw [mem_cone3 d2, g2]
      have k1 : β * det3 a b c * det3 x a o = β * -(det3 a b c * det3 x o a) := by
        simp only [det3_apply]; ring
      have k2 : β * det3 a b c * det3 (c + a) x o = β * -(det3 a b c * det3 x (c + a) o) := by
        simp only [det3_apply]; ring
      have k3 : β * det3 a b c * det3 (c + a) a x = β * (det3 a b c * det3 a x c) := by
        simp only [det3_apply, Pi.add_apply]; ring
      rw [k1, k2, k3, pos hβ, pos hβ, pos hβ]
      exact ⟨y, (c2 x).2 n2, v⟩
    · rintro ⟨t, s, u, ht, hs, hu, hx⟩
      have xe : x = t • (c + a) + s • a + u • o := funext fun i => by rw [hx i]; rfl
      refine ⟨⟨?_, ?_, ?_⟩, ?_⟩
      · rw [← mem_cone3 hd]
        refine ⟨s + t + u * α, u * β, t + u * γ, by positivity, by positivity, by positivity, fun i => ?_⟩
        rw [hx i, oi]; simp only [Pi.add_apply]; ring
      · have : x ⬝ᵥ a - x ⬝ᵥ b = s * (P / 2) + t * ((P + R - Q) / 2) := by
          rw [xe]
          simp only [add_dotProduct, smul_dotProduct, smul_eq_mul, h1, eP, eQ, eR, dotProduct_comm c b]
          ring
        have := mul_nonneg hs (half_pos hp).le
        have := mul_nonneg ht (half_pos ac2).le
        linarith
      · have : x ⬝ᵥ a - x ⬝ᵥ c = s * (Q / 2) := by
          rw [xe]
          simp only [add_dotProduct, smul_dotProduct, smul_eq_mul, h2, eQ, dotProduct_comm a c, hac]
          ring
        have := mul_nonneg hs (half_pos hq).le
        linarith
      · have : -(det3 a b c * det3 x o a) = t * β * (det3 a b c * det3 a b c) := by
          rw [xe, ho]; simp only [det3_apply, Pi.add_apply, Pi.smul_apply, smul_eq_mul]; ring
        rw [this]; positivity

end Verif
