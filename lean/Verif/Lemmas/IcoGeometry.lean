/-
The icosahedron covers the sphere by twenty triangles of area `π / 5`.
-/
import Verif.Lemmas.IcoTopology
import Verif.Lemmas.SphereTiling

set_option linter.unusedSectionVars false

namespace Verif

open Model Spec Props Matrix

/-- the positions of the icosahedron -/
noncomputable def icoUnits : List (Fin 3 → ℝ) := (List.range 12).map fun v => unitOf (icoPoint v)

theorem icoPoint_sq {v : Nat} (h : v < 12) : dot (icoPoint v) (icoPoint v) = phi + 2 := by
  have hp := phi_sq
  simp only [dot, Fin.sum_univ_three, icoPoint]
  interval_cases v <;> simp [icoPair] <;> linear_combination hp

theorem icoPoint_ne {v : Nat} (h : v < 12) : icoPoint v ≠ 0 := by
  intro h0
  have := icoPoint_sq h
  rw [h0] at this
  simp [dot] at this
  have := phi_bounds.1
  linarith

theorem icoUnits_ok : withoutNan (icoVertices.map normalizedNan) = .ok icoUnits := by
  have : icoVertices.map normalizedNan = icoUnits.map some := by
    rw [icoVertices_eq, icoUnits, List.map_map, List.map_map]
    refine List.map_congr_left fun v hv => ?_
    exact (unitOf_spec (icoPoint_ne (List.mem_range.mp hv))).1
  rw [this]
  unfold withoutNan
  rw [mapM_id_some]

theorem icoUnits_position {v : Nat} (h : v < 12) : position icoUnits v = unitOf (icoPoint v) := by
  unfold position icoUnits
  rw [List.getElem?_map, List.getElem?_range h]
  rfl

/-- the factor of all corners -/
noncomputable def icoScale : ℝ := 1 / Real.sqrt (phi + 2)

theorem icoScale_pos : 0 < icoScale := by
  have := phi_bounds.1
  exact div_pos one_pos (Real.sqrt_pos.mpr (by linarith))

theorem icoScale_sq : icoScale ^ 2 * (phi + 2) = 1 := by
  have := phi_bounds.1
  unfold icoScale
  rw [div_pow, Real.sq_sqrt (by linarith)]
  field_simp

theorem icoUnits_scaled {v : Nat} (h : v < 12) : position icoUnits v = icoScale • icoPoint v := by
  rw [icoUnits_position h]
  funext k
  simp only [unitOf, icoPoint_sq h, icoScale, Pi.smul_apply, smul_eq_mul]
  ring

theorem sqrt_five : Real.sqrt 5 = 2 * phi - 1 := by unfold phi; ring

/-- the product of two neighbouring corners -/
theorem ico_neighbours {v w : Nat} (hv : v < 12) (hw : w < 12) (h : icoDist v w = (4, 0)) :
    innerProd (position icoUnits v) (position icoUnits w) = 1 / Real.sqrt 5 := by
  have hd := icoDist_eq v w
  rw [h] at hd
  have h1 := icoPoint_sq hv
  have h2 := icoPoint_sq hw
  have hs := icoScale_sq
  have hp := phi_sq
  have hb := phi_bounds.1
  have hprod : dot (icoPoint v) (icoPoint w) = phi := by
    simp only [dot, Fin.sum_univ_three, Pi.sub_apply] at hd h1 h2 ⊢
    push_cast at hd
    linarith
  rw [icoUnits_scaled hv, icoUnits_scaled hw]
  have : innerProd (icoScale • icoPoint v) (icoScale • icoPoint w) = icoScale ^ 2 * dot (icoPoint v) (icoPoint w) := by
    simp only [innerProd, dot, Fin.sum_univ_three, Pi.smul_apply, smul_eq_mul]; ring
  rw [this, hprod, sqrt_five, eq_div_iff (by linarith)]
  linear_combination (2 * icoScale ^ 2) * hp + hs

theorem ico_unit : ∀ p ∈ icoUnits, OnUnitSphere p := by
  intro p hp
  obtain ⟨v, hv, rfl⟩ := List.mem_map.mp hp
  exact (unitOf_spec (icoPoint_ne (List.mem_range.mp hv))).2.1

theorem ico_rows_near : ∀ l ∈ icoFaces, ∀ v ∈ l, v < 12 ∧ ∀ w ∈ l, v = w ∨ icoDist v w = (4, 0) := by
  decide +kernel

theorem ico_products {l : List Nat} (hl : l ∈ icoFaces) {v w : Nat} (hv : v ∈ l) (hw : w ∈ l) :
    innerProd (position icoUnits v) (position icoUnits w) = if v = w then 1 else 1 / Real.sqrt 5 := by
  obtain ⟨v12, h⟩ := ico_rows_near l hl v hv
  obtain ⟨w12, -⟩ := ico_rows_near l hl w hw
  split
  · next h0 =>
    subst h0
    exact ico_unit _ (position_mem (by simpa [icoUnits] using v12))
  · next h0 => exact ico_neighbours v12 w12 ((h w hw).resolve_left h0)

/-- the determinant of three vectors from their products -/
theorem det_sq (a b c : Fin 3 → ℝ) : det3 a b c ^ 2 =
    innerProd a a * (innerProd b b * innerProd c c - innerProd b c ^ 2) -
    innerProd a b * (innerProd a b * innerProd c c - innerProd b c * innerProd a c) +
    innerProd a c * (innerProd a b * innerProd b c - innerProd b b * innerProd a c) := by
  simp only [det3_apply, innerProd, Fin.sum_univ_three]; ring

theorem ico_row {l : List Nat} (hl : l ∈ icoFaces) : ∃ a b c, l = [a, b, c] ∧ a ≠ b ∧ a ≠ c ∧ b ≠ c := by
  obtain ⟨a, b, c, rfl⟩ := length_three (ico_simplices l hl).1
  have := (ico_simplices _ hl).2
  simp at this
  exact ⟨a, b, c, rfl, by omega, by omega, by omega⟩

theorem ico_det {a b c : Nat} {l : List Nat} (hl : l ∈ icoFaces) (hp : [a, b, c].Perm l) :
    det3 (position icoUnits a) (position icoUnits b) (position icoUnits c) ≠ 0 := by
  have hn := hp.nodup_iff.mpr (ico_simplices l hl).2
  simp at hn
  obtain ⟨⟨hab, hac⟩, hbc⟩ := hn
  have ma : a ∈ l := hp.subset (by simp)
  have mb : b ∈ l := hp.subset (by simp)
  have mc : c ∈ l := hp.subset (by simp)
  intro h0
  have := det_sq (position icoUnits a) (position icoUnits b) (position icoUnits c)
  rw [h0, ico_products hl ma ma, ico_products hl mb mb, ico_products hl mc mc, ico_products hl mb mc,
    ico_products hl ma mb, ico_products hl ma mc, if_pos rfl, if_pos rfl, if_pos rfl, if_neg hab, if_neg hac,
    if_neg hbc] at this
  have h5 : Real.sqrt 5 ^ 2 = 5 := Real.sq_sqrt (by norm_num)
  have hpos : 0 < Real.sqrt 5 := Real.sqrt_pos.mpr (by norm_num)
  have hinv : (1 / Real.sqrt 5) ^ 2 = 1 / 5 := by rw [div_pow, h5, one_pow]
  have hd : 0 < 1 / Real.sqrt 5 := by positivity
  nlinarith

theorem cos_two_fifths : Real.cos (2 * Real.pi / 5) = (Real.sqrt 5 - 1) / 4 := by
  have h := Real.cos_pi_div_five
  have h5 : Real.sqrt 5 ^ 2 = 5 := Real.sq_sqrt (by norm_num)
  rw [show 2 * Real.pi / 5 = 2 * (Real.pi / 5) by ring, Real.cos_two_mul, h]
  nlinarith

/-- the area of a triangle of unit vectors with the products of the icosahedron -/
theorem ico_triangle {a b c : Fin 3 → ℝ} (ha : innerProd a a = 1) (hb : innerProd b b = 1) (hc : innerProd c c = 1)
    (hab : innerProd a b = 1 / Real.sqrt 5) (hac : innerProd a c = 1 / Real.sqrt 5)
    (hbc : innerProd b c = 1 / Real.sqrt 5) (hd : det3 a b c ≠ 0) :
    surfaceArea (sphericalTriangle a b c) = Real.pi / 5 := by
  have h5 : Real.sqrt 5 ^ 2 = 5 := Real.sq_sqrt (by norm_num)
  have hpos : 0 < Real.sqrt 5 := Real.sqrt_pos.mpr (by norm_num)
  rw [← areaFromCorners_area hd, areaFromCorners_eq]
  have hba : innerProd b a = 1 / Real.sqrt 5 := by rw [← hab]; exact innerProd_comm _ _
  have hca : innerProd c a = 1 / Real.sqrt 5 := by rw [← hac]; exact innerProd_comm _ _
  have hcb : innerProd c b = 1 / Real.sqrt 5 := by rw [← hbc]; exact innerProd_comm _ _
  have angle : ∀ x y z : Fin 3 → ℝ, innerProd x x = 1 → innerProd y y = 1 → innerProd z z = 1 →
      innerProd x y = 1 / Real.sqrt 5 → innerProd y z = 1 / Real.sqrt 5 → innerProd x z = 1 / Real.sqrt 5 →
      Real.arccos (-(normalizedVec (x ⨯₃ y) ⬝ᵥ normalizedVec (y ⨯₃ z))) = 2 * Real.pi / 5 := by
    intro x y z hx hy hz hxy hyz hxz
    have e1 : innerProd (x ⨯₃ y) (x ⨯₃ y) = 4 / 5 := by
      have : innerProd (x ⨯₃ y) (x ⨯₃ y) = innerProd x x * innerProd y y - innerProd x y ^ 2 := by
        simp only [innerProd, Fin.sum_univ_three, cross_apply, Matrix.cons_val_zero, Matrix.cons_val_one,
          Matrix.cons_val_two, Matrix.head_cons, Matrix.tail_cons]
        ring
      rw [this, hx, hy, hxy, div_pow, h5]; norm_num
    have e2 : innerProd (y ⨯₃ z) (y ⨯₃ z) = 4 / 5 := by
      have : innerProd (y ⨯₃ z) (y ⨯₃ z) = innerProd y y * innerProd z z - innerProd y z ^ 2 := by
        simp only [innerProd, Fin.sum_univ_three, cross_apply, Matrix.cons_val_zero, Matrix.cons_val_one,
          Matrix.cons_val_two, Matrix.head_cons, Matrix.tail_cons]
        ring
      rw [this, hy, hz, hyz, div_pow, h5]; norm_num
    have e3 : innerProd (x ⨯₃ y) (y ⨯₃ z) = 1 / 5 - 1 / Real.sqrt 5 := by
      have : innerProd (x ⨯₃ y) (y ⨯₃ z) = innerProd x y * innerProd y z - innerProd x z * innerProd y y := by
        simp only [innerProd, Fin.sum_univ_three, cross_apply, Matrix.cons_val_zero, Matrix.cons_val_one,
          Matrix.cons_val_two, Matrix.head_cons, Matrix.tail_cons]
        ring
      rw [this, hxy, hyz, hxz, hy, div_mul_div_comm, Real.mul_self_sqrt (by norm_num)]; norm_num
    have hdot : normalizedVec (x ⨯₃ y) ⬝ᵥ normalizedVec (y ⨯₃ z) = -((Real.sqrt 5 - 1) / 4) := by
      have : normalizedVec (x ⨯₃ y) ⬝ᵥ normalizedVec (y ⨯₃ z) = innerProd (x ⨯₃ y) (y ⨯₃ z) / (4 / 5) := by
        rw [dot3]
        simp only [normalizedVec_scale, e1, e2]
        rw [div_mul_div_comm, div_mul_div_comm, div_mul_div_comm, ← add_div, ← add_div, Real.mul_self_sqrt (by norm_num)]
        simp only [innerProd, Fin.sum_univ_three]
      rw [this, e3]
      field_simp
      nlinarith
    rw [hdot, neg_neg, ← cos_two_fifths, Real.arccos_cos (by positivity) (by linarith [Real.pi_pos])]
  rw [angle b c a hb hc ha hbc hca hba, angle c a b hc ha hb hca hab hcb, angle a b c ha hb hc hab hbc hac]
  ring

theorem ico_area {l : List Nat} (hl : l ∈ icoFaces) :
    surfaceArea (onSphere (coneOf icoUnits l)) = Real.pi / 5 := by
  obtain ⟨a, b, c, rfl, hab, hac, hbc⟩ := ico_row hl
  rw [coneOf_row (ico_simplices _ hl).2]
  refine ico_triangle ?_ ?_ ?_ ?_ ?_ ?_ (ico_det hl (List.Perm.refl _))
  · rw [ico_products hl (by simp) (by simp), if_pos rfl]
  · rw [ico_products hl (by simp) (by simp), if_pos rfl]
  · rw [ico_products hl (by simp) (by simp), if_pos rfl]
  · rw [ico_products hl (by simp) (by simp), if_neg hab]
  · rw [ico_products hl (by simp) (by simp), if_neg hac]
  · rw [ico_products hl (by simp) (by simp), if_neg hbc]

/-! ### The triangles cover the sphere -/

/-- the sign of a bit -/
def icoSign (b : Bool) : ℝ := if b then 1 else -1

theorem icoSign_sq (b : Bool) : icoSign b * icoSign b = 1 := by cases b <;> simp [icoSign]

theorem icoSign_not (b : Bool) : icoSign (!b) = -icoSign b := by cases b <;> simp [icoSign]

/-- the corners of the three rectangles -/
def icoA (q r : Bool) : Nat := 2 * q.toNat + r.toNat
@[inherit_doc icoA] def icoB (r p : Bool) : Nat := 4 + 2 * r.toNat + p.toNat
@[inherit_doc icoA] def icoC (p q : Bool) : Nat := 8 + 2 * p.toNat + q.toNat

theorem icoPoint_A (q r : Bool) : icoPoint (icoA q r) 0 = 0 ∧ icoPoint (icoA q r) 1 = icoSign q ∧
    icoPoint (icoA q r) 2 = icoSign r * phi := by
  cases q <;> cases r <;> simp [icoA, icoPoint, icoPair, icoSign]

theorem icoPoint_B (r p : Bool) : icoPoint (icoB r p) 0 = icoSign p * phi ∧ icoPoint (icoB r p) 1 = 0 ∧
    icoPoint (icoB r p) 2 = icoSign r := by
  cases r <;> cases p <;> simp [icoB, icoPoint, icoPair, icoSign]

theorem icoPoint_C (p q : Bool) : icoPoint (icoC p q) 0 = icoSign p ∧ icoPoint (icoC p q) 1 = icoSign q * phi ∧
    icoPoint (icoC p q) 2 = 0 := by
  cases p <;> cases q <;> simp [icoC, icoPoint, icoPair, icoSign]

theorem ico_cone {a b c : Nat} (h : ∃ l ∈ icoFaces, [a, b, c].Perm l) {x : Fin 3 → ℝ} {α β γ : ℝ} (hα : 0 ≤ α)
    (hβ : 0 ≤ β) (hγ : 0 ≤ γ) (h0 : x 0 = α * icoPoint a 0 + β * icoPoint b 0 + γ * icoPoint c 0)
    (h1 : x 1 = α * icoPoint a 1 + β * icoPoint b 1 + γ * icoPoint c 1)
    (h2 : x 2 = α * icoPoint a 2 + β * icoPoint b 2 + γ * icoPoint c 2) :
    ∃ l ∈ icoFaces, x ∈ coneOf icoUnits l := by
  obtain ⟨l, hl, hp⟩ := h
  refine ⟨l, hl, ?_⟩
  rw [Props.coneOf_three (hp.nodup_iff.mpr (ico_simplices l hl).2) hp,
    icoUnits_scaled (ico_rows_near l hl a (hp.subset (by simp))).1,
    icoUnits_scaled (ico_rows_near l hl b (hp.subset (by simp))).1,
    icoUnits_scaled (ico_rows_near l hl c (hp.subset (by simp))).1]
  have hs := icoScale_pos
  refine ⟨α / icoScale, β / icoScale, γ / icoScale, by positivity, by positivity, by positivity, fun k => ?_⟩
  have hk : x k = α * icoPoint a k + β * icoPoint b k + γ * icoPoint c k := by
    fin_cases k
    · exact h0
    · exact h1
    · exact h2
  simp only [Pi.smul_apply, smul_eq_mul]
  rw [hk]
  field_simp

theorem ico_faces_in : ∀ p q r : Bool,
    (∃ l ∈ icoFaces, [icoA q r, icoB r p, icoC p q].Perm l) ∧
    (∃ l ∈ icoFaces, [icoB r p, icoB (!r) p, icoC p q].Perm l) ∧
    (∃ l ∈ icoFaces, [icoC p q, icoC (!p) q, icoA q r].Perm l) ∧
    (∃ l ∈ icoFaces, [icoA q r, icoA (!q) r, icoB r p].Perm l) := by decide +kernel

theorem ico_sign (x : ℝ) : ∃ p : Bool, 0 ≤ icoSign p * x := by
  rcases le_total 0 x with h | h
  · exact ⟨true, by simpa [icoSign] using h⟩
  · exact ⟨false, by simpa [icoSign] using h⟩

theorem ico_cover (x : Fin 3 → ℝ) : ∃ l ∈ icoFaces, x ∈ coneOf icoUnits l := by
  obtain ⟨p, hp⟩ := ico_sign (x 0)
  obtain ⟨q, hq⟩ := ico_sign (x 1)
  obtain ⟨r, hr⟩ := ico_sign (x 2)
  obtain ⟨f0, f1, f2, f3⟩ := ico_faces_in p q r
  have hf := phi_sq
  have hb := phi_bounds.1
  have sp := icoSign_sq p
  have sq := icoSign_sq q
  have sr := icoSign_sq r
  have e0 : x 0 = icoSign p * (icoSign p * x 0) := by rw [← mul_assoc, sp, one_mul]
  have e1 : x 1 = icoSign q * (icoSign q * x 1) := by rw [← mul_assoc, sq, one_mul]
  have e2 : x 2 = icoSign r * (icoSign r * x 2) := by rw [← mul_assoc, sr, one_mul]
  generalize icoSign p * x 0 = u at hp e0
  generalize icoSign q * x 1 = v at hq e1
  generalize icoSign r * x 2 = w at hr e2
  have hi : 0 < phi - 1 := by linarith
  have hm : (phi - 1) * phi = 1 := by linear_combination hf
  by_cases c1 : (phi - 1) * v + phi * w ≤ u
  · have hg : w ≤ (u - (phi - 1) * v) * (phi - 1) := by nlinarith
    refine ico_cone f1 (α := ((u - (phi - 1) * v) * (phi - 1) + w) / 2) (β := ((u - (phi - 1) * v) * (phi - 1) - w) / 2)
      (γ := (phi - 1) * v) (by linarith) (by linarith) (by positivity) ?_ ?_ ?_
    · rw [(icoPoint_B r p).1, (icoPoint_B (!r) p).1, (icoPoint_C p q).1, e0]
      linear_combination (-(icoSign p * (u - (phi - 1) * v))) * hm
    · rw [(icoPoint_B r p).2.1, (icoPoint_B (!r) p).2.1, (icoPoint_C p q).2.1, e1]
      linear_combination (-(icoSign q * v)) * hm
    · rw [(icoPoint_B r p).2.2, (icoPoint_B (!r) p).2.2, (icoPoint_C p q).2.2, e2, icoSign_not]
      ring
  by_cases c2 : (phi - 1) * w + phi * u ≤ v
  · have hg : u ≤ (v - (phi - 1) * w) * (phi - 1) := by nlinarith
    refine ico_cone f2 (α := ((v - (phi - 1) * w) * (phi - 1) + u) / 2) (β := ((v - (phi - 1) * w) * (phi - 1) - u) / 2)
      (γ := (phi - 1) * w) (by linarith) (by linarith) (by positivity) ?_ ?_ ?_
    · rw [(icoPoint_C p q).1, (icoPoint_C (!p) q).1, (icoPoint_A q r).1, e0, icoSign_not]
      ring
    · rw [(icoPoint_C p q).2.1, (icoPoint_C (!p) q).2.1, (icoPoint_A q r).2.1, e1]
      linear_combination (-(icoSign q * (v - (phi - 1) * w))) * hm
    · rw [(icoPoint_C p q).2.2, (icoPoint_C (!p) q).2.2, (icoPoint_A q r).2.2, e2]
      linear_combination (-(icoSign r * w)) * hm
  by_cases c3 : (phi - 1) * u + phi * v ≤ w
  · have hg : v ≤ (w - (phi - 1) * u) * (phi - 1) := by nlinarith
    refine ico_cone f3 (α := ((w - (phi - 1) * u) * (phi - 1) + v) / 2) (β := ((w - (phi - 1) * u) * (phi - 1) - v) / 2)
      (γ := (phi - 1) * u) (by linarith) (by linarith) (by positivity) ?_ ?_ ?_
    · rw [(icoPoint_A q r).1, (icoPoint_A (!q) r).1, (icoPoint_B r p).1, e0]
      linear_combination (-(icoSign p * u)) * hm
    · rw [(icoPoint_A q r).2.1, (icoPoint_A (!q) r).2.1, (icoPoint_B r p).2.1, e1, icoSign_not]
      ring
    · rw [(icoPoint_A q r).2.2, (icoPoint_A (!q) r).2.2, (icoPoint_B r p).2.2, e2]
      linear_combination (-(icoSign r * (w - (phi - 1) * u))) * hm
  push Not at c1 c2 c3
  refine ico_cone f0 (α := ((phi - 1) * v + phi * w - u) * (phi - 1) / 2)
    (β := ((phi - 1) * w + phi * u - v) * (phi - 1) / 2) (γ := ((phi - 1) * u + phi * v - w) * (phi - 1) / 2)
    (by nlinarith) (by nlinarith) (by nlinarith) ?_ ?_ ?_
  · rw [(icoPoint_A q r).1, (icoPoint_B r p).1, (icoPoint_C p q).1, e0]
    linear_combination (-(icoSign p * ((phi - 1) * w + phi * u + u)) / 2) * hm
  · rw [(icoPoint_A q r).2.1, (icoPoint_B r p).2.1, (icoPoint_C p q).2.1, e1]
    linear_combination (-(icoSign q * ((phi - 1) * u + phi * v + v)) / 2) * hm
  · rw [(icoPoint_A q r).2.2, (icoPoint_B r p).2.2, (icoPoint_C p q).2.2, e2]
    linear_combination (-(icoSign r * ((phi - 1) * v + phi * w + w)) / 2) * hm

theorem coneOf_perm {V : List (Fin 3 → ℝ)} {l l' : List Nat} (hp : l.Perm l') : coneOf V l = coneOf V l' := by
  ext x
  simp only [coneOf, Set.mem_setOf_eq, List.toFinset_eq_of_perm _ _ hp, hp.mem_iff]

theorem reorient_origin {flip : Nat → Bool} {T : List (List Nat)} {l : List Nat} (h : l ∈ reorient flip T) :
    ∃ l0 ∈ T, l.Perm l0 := by
  obtain ⟨j, hj⟩ := List.mem_iff_getElem?.mp h
  obtain ⟨l0, h0, hp⟩ := reorient_row' hj
  exact ⟨l0, List.mem_of_getElem? h0, hp⟩

/-- the icosahedron with its triangles in any orientation -/
theorem ico_round (flip : Nat → Bool) : RoundSurface icoUnits (reorient flip icoFaces) where
  unit := ico_unit
  corners := by
    intro l hl v hv
    obtain ⟨l0, h0, hp⟩ := reorient_origin hl
    simpa [icoUnits] using (ico_rows_near l0 h0 v (hp.subset hv)).1
  near := by
    intro l hl v hv w hw
    obtain ⟨l0, h0, hp⟩ := reorient_origin hl
    rw [ico_products h0 (hp.subset hv) (hp.subset hw)]
    split <;> positivity
  proper := by
    intro a b c hl
    obtain ⟨l0, h0, hp⟩ := reorient_origin hl
    exact ico_det h0 hp
  cover := by
    intro x
    obtain ⟨l, hl, hx⟩ := ico_cover fun i => x.1 i
    obtain ⟨j, hj⟩ := List.mem_iff_getElem?.mp hl
    obtain ⟨l', h', hp⟩ := reorient_row (flip := flip) hj
    exact ⟨l', List.mem_of_getElem? h', by rw [coneOf_perm hp]; exact hx⟩
  area := by
    have : ∀ l ∈ reorient flip icoFaces, surfaceArea (onSphere (coneOf icoUnits l)) = Real.pi / 5 := by
      intro l hl
      obtain ⟨l0, h0, hp⟩ := reorient_origin hl
      rw [coneOf_perm hp, ico_area h0]
    rw [List.map_congr_left this, List.map_const', List.sum_replicate, reorient_length]
    simp [icoFaces]
    ring

/-! ### Tiles from areas -/

/-- sets that cover the sphere and whose areas add up to its area overlap in sets without area -/
theorem apart_of_area {α : Type} (L : List α) (S : α → Set Sphere2) (hm : ∀ l ∈ L, MeasurableSet (S l))
    (h : (L.map fun l => surfaceArea (S l)).sum ≤ surfaceArea {x | ∃ l ∈ L, x ∈ S l}) :
    L.Pairwise fun l l' => surfaceArea (S l ∩ S l') = 0 := by
  have hle : ∀ M : List α, (∀ l ∈ M, MeasurableSet (S l)) →
      surfaceArea {x | ∃ l ∈ M, x ∈ S l} ≤ (M.map fun l => surfaceArea (S l)).sum := by
    intro M hM
    induction M with
    | nil => simp [surfaceArea]
    | cons a M ih =>
      have e : {x | ∃ l ∈ a :: M, x ∈ S l} = S a ∪ {x | ∃ l ∈ M, x ∈ S l} := by ext x; simp
      rw [e, List.map_cons, List.sum_cons]
      exact (MeasureTheory.measureReal_union_le _ _).trans
        (add_le_add le_rfl (ih fun l hl => hM l (List.mem_cons_of_mem _ hl)))
  induction L with
  | nil => exact List.Pairwise.nil
  | cons a L ih =>
    have hm' : ∀ l ∈ L, MeasurableSet (S l) := fun l hl => hm l (List.mem_cons_of_mem _ hl)
    have e : {x | ∃ l ∈ a :: L, x ∈ S l} = S a ∪ {x | ∃ l ∈ L, x ∈ S l} := by ext x; simp
    have hmu : MeasurableSet {x | ∃ l ∈ L, x ∈ S l} := by
      have : {x | ∃ l ∈ L, x ∈ S l} = ⋃ l ∈ {l | l ∈ L}, S l := by ext x; simp
      rw [this]
      exact MeasurableSet.biUnion (List.finite_toSet L).countable hm'
    have hadd : surfaceArea (S a ∪ {x | ∃ l ∈ L, x ∈ S l}) + surfaceArea (S a ∩ {x | ∃ l ∈ L, x ∈ S l}) =
        surfaceArea (S a) + surfaceArea {x | ∃ l ∈ L, x ∈ S l} :=
      MeasureTheory.measureReal_union_add_inter hmu
    have hl := hle L hm'
    have hnn : 0 ≤ surfaceArea (S a ∩ {x | ∃ l ∈ L, x ∈ S l}) := MeasureTheory.measureReal_nonneg
    rw [e, List.map_cons, List.sum_cons] at h
    refine List.Pairwise.cons (fun l hl' => ?_) (ih hm' (by linarith))
    have hz : surfaceArea (S a ∩ {x | ∃ l ∈ L, x ∈ S l}) = 0 := by linarith
    refine le_antisymm ?_ MeasureTheory.measureReal_nonneg
    rw [← hz]
    exact MeasureTheory.measureReal_mono (fun x hx => ⟨hx.1, l, hl', hx.2⟩)

theorem RoundSurface.tiles {V : List (Fin 3 → ℝ)} {T : List (List Nat)} (h : RoundSurface V T) (hs : Simplices 3 T) :
    TilesSphere V T where
  cover := h.cover
  apart := by
    refine apart_of_area T (fun l => onSphere (coneOf V l)) (fun l hl => ?_) ?_
    · obtain ⟨a, b, c, rfl⟩ := length_three (hs l hl).1
      rw [coneOf_row (hs _ hl).2]
      exact measurable_onSphere (measurableSet_cone3 (h.proper a b c hl))
    · rw [h.area, ← surfaceArea_univ]
      have : {x | ∃ l ∈ T, x ∈ onSphere (coneOf V l)} = Set.univ := Set.eq_univ_of_forall h.cover
      rw [this]

end Verif
