/-
C64: the octahedron on the sphere.
-/
import Verif.Props.SphericalTotal

set_option linter.unusedSectionVars false

namespace Verif.Props

open Verif.Model Verif.Spec Matrix MeasureTheory

/-- the ends of the three axes -/
def octaCorners : List (Vec ℝ 3) := [![1, 0, 0], ![-1, 0, 0], ![0, 1, 0], ![0, -1, 0], ![0, 0, 1], ![0, 0, -1]]

/-- the eight triangles between the axes, with one orientation -/
def octaFaces : List (List Nat) := [[0, 2, 4], [2, 0, 5], [3, 0, 4], [0, 3, 5], [2, 1, 4], [1, 2, 5], [1, 3, 4], [3, 1, 5]]

theorem octa_products : ∀ l ∈ octaFaces, ∀ u ∈ l, ∀ v ∈ l,
    innerProd (position octaCorners u) (position octaCorners v) = if u = v then 1 else 0 := by
  have key : ∀ u < 6, ∀ v < 6, innerProd (position octaCorners u) (position octaCorners v) =
      if u = v then 1 else if u / 2 = v / 2 then -1 else 0 := by
    intro u hu v hv
    interval_cases u <;> interval_cases v <;> simp [innerProd, position, octaCorners, Fin.sum_univ_three]
  intro l hl u hu v hv
  have hb : ∀ l ∈ octaFaces, ∀ u ∈ l, u < 6 ∧ ∀ v ∈ l, u ≠ v → u / 2 ≠ v / 2 := by decide
  rw [key u (hb l hl u hu).1 v (hb l hl v hv).1]
  by_cases h : u = v
  · rw [if_pos h, if_pos h]
  · rw [if_neg h, if_neg h, if_neg ((hb l hl u hu).2 v hv h)]

section

variable {D : Nat} {V : List (Vec ℝ D)} {top : List (List Nat)}

/-- coordinates with respect to orthonormal corners -/
theorem orthonormal_coord {S : Finset Nat}
    (ho : ∀ u ∈ S, ∀ v ∈ S, innerProd (position V u) (position V v) = if u = v then 1 else 0) {x : Fin D → ℝ}
    {c : Nat → ℝ} (hx : ∀ k, x k = ∑ v ∈ S, c v * position V v k) {u : Nat} (hu : u ∈ S) :
    innerProd x (position V u) = c u := by
  have : innerProd x (position V u) = ∑ v ∈ S, c v * innerProd (position V v) (position V u) := by
    unfold innerProd
    simp only [hx, Finset.sum_mul, Finset.mul_sum]
    rw [Finset.sum_comm]
    refine Finset.sum_congr rfl fun v _ => Finset.sum_congr rfl fun k _ => by ring
  rw [this, Finset.sum_congr rfl fun v hv => by rw [ho v hv u hu]]
  simp [hu]

theorem orthonormal_independent (ho : ∀ l ∈ top, ∀ u ∈ l, ∀ v ∈ l,
      innerProd (position V u) (position V v) = if u = v then 1 else 0) {l : List Nat} (hl : l ∈ top) :
    IndependentCorners V l := by
  intro c hc v hv
  have := orthonormal_coord (x := 0) (c := c) (S := l.toFinset) (fun u hu v hv =>
    ho l hl u (List.mem_toFinset.1 hu) v (List.mem_toFinset.1 hv)) (fun k => (hc k).symm) (List.mem_toFinset.2 hv)
  rw [← this]
  simp [innerProd]

/-- the circumcenter of orthonormal corners has equal coordinates -/
theorem orthonormal_inside {S : Finset Nat}
    (ho : ∀ u ∈ S, ∀ v ∈ S, innerProd (position V u) (position V v) = if u = v then 1 else 0)
    {y : Nat → ℝ} {c : Fin D → ℝ} (hc : CenterCoords V S y c) {v : Nat} (hv : v ∈ S) : y v = 1 / S.card := by
  have heq : ∀ u ∈ S, y u = y v := by
    intro u hu
    have h := hc.equidistant u hu v hv
    have e : ∀ w ∈ S, dist2 c (position V w) = innerProd c c - 2 * y w + 1 := by
      intro w hw
      have h1 := ho w hw w hw
      rw [if_pos rfl] at h1
      rw [← orthonormal_coord ho hc.point hw, ← h1]
      unfold dist2 innerProd
      rw [Finset.mul_sum, ← Finset.sum_sub_distrib, ← Finset.sum_add_distrib]
      exact Finset.sum_congr rfl fun k _ => by ring
    rw [e u hu, e v hv] at h
    linarith
  have h1 := hc.one
  rw [Finset.sum_congr rfl heq, Finset.sum_const, nsmul_eq_mul] at h1
  have : (S.card : ℝ) ≠ 0 := fun h0 => by rw [h0, zero_mul] at h1; exact zero_ne_one h1
  field_simp
  linarith

theorem orthonormal_cone {l : List Nat} (ho : ∀ u ∈ l, ∀ v ∈ l,
      innerProd (position V u) (position V v) = if u = v then 1 else 0) {x : Fin D → ℝ} (hx : x ∈ coneOf V l) {u : Nat}
    (hu : u ∈ l) : 0 ≤ innerProd x (position V u) := by
  obtain ⟨c, h0, hc⟩ := hx
  rw [orthonormal_coord (S := l.toFinset) (fun u hu v hv => ho u (List.mem_toFinset.1 hu) v (List.mem_toFinset.1 hv)) hc
    (List.mem_toFinset.2 hu)]
  exact h0 u hu

end

theorem octa_nondegenerate : NonDegenerate octaCorners 2 octaFaces := by
  intro l hl
  apply affineIndependent_of
  intro w h1 h2
  have a := h2 0
  have b := h2 1
  have c := h2 2
  simp only [octaFaces, List.mem_cons, List.not_mem_nil, or_false] at hl
  rcases hl with rfl | rfl | rfl | rfl | rfl | rfl | rfl | rfl <;>
  · simp [Fin.sum_univ_three, cornersOf, position, octaCorners] at h1 a b c
    intro i
    fin_cases i <;> simp <;> linarith

/-- the great circles have no area -/
theorem area_circle {n : Fin 3 → ℝ} (hn : n ≠ 0) : surfaceArea (onSphere {x | n ⬝ᵥ x = 0}) = 0 := by
  rw [surfaceArea_cone]
  · have : volume (ball3 ∩ {x : E3 | n ⬝ᵥ x = 0}) = 0 :=
      measure_mono_null Set.inter_subset_right (volume_plane hn)
    rw [Measure.real, this]
    simp
  · exact measurableSet_eq_fun (measurable_dot n) measurable_const
  · intro r x hr
    show n ⬝ᵥ (r • x) = 0 ↔ n ⬝ᵥ x = 0
    rw [dotProduct_smul, smul_eq_mul, mul_eq_zero, or_iff_right hr.ne']

theorem octa_tiles : TilesSphere octaCorners octaFaces where
  cover := by
    intro x
    have key : ∀ l ∈ octaFaces, (∀ u ∈ l, 0 ≤ (if u % 2 = 0 then 1 else -1) * x.1 (if u / 2 = 0 then 0 else if u / 2 = 1 then 1 else 2)) →
        x ∈ onSphere (coneOf octaCorners l) := by
      intro l hl h
      refine ⟨fun u => (if u % 2 = 0 then 1 else -1) * x.1 (if u / 2 = 0 then 0 else if u / 2 = 1 then 1 else 2), h, ?_⟩
      clear h
      intro k
      simp only [octaFaces, List.mem_cons, List.not_mem_nil, or_false] at hl
      rcases hl with rfl | rfl | rfl | rfl | rfl | rfl | rfl | rfl <;>
        fin_cases k <;> simp [position, octaCorners]
    rcases le_total 0 (x.1 0) with h0 | h0 <;> rcases le_total 0 (x.1 1) with h1 | h1 <;>
      rcases le_total 0 (x.1 2) with h2 | h2
    · exact ⟨[0, 2, 4], by decide, key _ (by decide) (by simp [h0, h1, h2])⟩
    · exact ⟨[2, 0, 5], by decide, key _ (by decide) (by simp [h0, h1, h2])⟩
    · exact ⟨[3, 0, 4], by decide, key _ (by decide) (by simp [h0, h1, h2])⟩
    · exact ⟨[0, 3, 5], by decide, key _ (by decide) (by simp [h0, h1, h2])⟩
    · exact ⟨[2, 1, 4], by decide, key _ (by decide) (by simp [h0, h1, h2])⟩
    · exact ⟨[1, 2, 5], by decide, key _ (by decide) (by simp [h0, h1, h2])⟩
    · exact ⟨[1, 3, 4], by decide, key _ (by decide) (by simp [h0, h1, h2])⟩
    · exact ⟨[3, 1, 5], by decide, key _ (by decide) (by simp [h0, h1, h2])⟩
  apart := by
    have hop : octaFaces.Pairwise fun l l' => ∃ u ∈ l, ∃ u' ∈ l', u < 6 ∧ u' < 6 ∧ u / 2 = u' / 2 ∧ u ≠ u' := by decide
    refine List.Pairwise.imp_of_mem ?_ hop
    rintro l l' hl hl' ⟨u, hu, u', hu', h6, h6', hdiv, hne⟩
    have hneg : ∀ u < 6, ∀ u' < 6, u / 2 = u' / 2 → u ≠ u' → position octaCorners u' = -position octaCorners u := by
      intro u hu v hv
      interval_cases u <;> interval_cases v <;> simp [position, octaCorners]
    have hn := hneg u h6 u' h6' hdiv hne
    have h1 := octa_products l hl u hu u hu
    rw [if_pos rfl] at h1
    have hu0 : position octaCorners u ≠ 0 := fun h0 => by
      rw [h0] at h1
      simp [innerProd] at h1
    have hsub : onSphere (coneOf octaCorners l) ∩ onSphere (coneOf octaCorners l') ⊆
        onSphere {x | position octaCorners u ⬝ᵥ x = 0} := by
      rintro x ⟨hx, hx'⟩
      have g1 := orthonormal_cone (octa_products l hl) hx hu
      have g2 := orthonormal_cone (octa_products l' hl') hx' hu'
      rw [hn, innerProd_eq_dotProduct, dotProduct_neg] at g2
      rw [innerProd_eq_dotProduct] at g1
      show position octaCorners u ⬝ᵥ (fun i => x.1 i) = 0
      rw [dotProduct_comm]
      linarith
    have hz := area_circle hu0
    unfold surfaceArea at hz ⊢
    rw [measureReal_eq_zero_iff] at hz ⊢
    exact measure_mono_null hsub hz

/-- an eighth of the sphere -/
theorem octa_area {l : List Nat} (hl : l ∈ octaFaces) : surfaceArea (onSphere (coneOf octaCorners l)) = Real.pi / 2 := by
  have hn : ∀ l ∈ octaFaces, l.Nodup ∧ l.length = 3 := by decide
  obtain ⟨a, b, c, rfl⟩ := List.length_eq_three.1 (hn l hl).2
  have hnd := (hn _ hl).1
  have hind := orthonormal_independent (V := octaCorners) octa_products hl
  have hd := independent_three hnd (List.Perm.refl _) hind
  rw [coneOf_three hnd (List.Perm.refl _)]
  show surfaceArea (sphericalTriangle _ _ _) = _
  rw [← areaFromCorners_area hd, areaFromCorners_eq]
  have hab : a ≠ b := by rintro rfl; simp at hnd
  have hac : a ≠ c := by rintro rfl; simp at hnd
  have hbc : b ≠ c := by rintro rfl; simp at hnd
  have pr := octa_products _ hl
  have p1 : position octaCorners a ⬝ᵥ position octaCorners b = 0 := by
    rw [← innerProd_eq_dotProduct, pr a (by simp) b (by simp), if_neg hab]
  have p2 : position octaCorners a ⬝ᵥ position octaCorners c = 0 := by
    rw [← innerProd_eq_dotProduct, pr a (by simp) c (by simp), if_neg hac]
  have p3 : position octaCorners b ⬝ᵥ position octaCorners c = 0 := by
    rw [← innerProd_eq_dotProduct, pr b (by simp) c (by simp), if_neg hbc]
  have h : ∀ u v : E3, u ⬝ᵥ v = 0 → normalizedVec u ⬝ᵥ normalizedVec v = 0 := fun u v huv => by
    rw [dot3] at huv ⊢
    simp only [normalizedVec_scale]
    rw [div_mul_div_comm, div_mul_div_comm, div_mul_div_comm, ← add_div, ← add_div, huv, zero_div]
  rw [h, h, h]
  · rw [neg_zero, Real.arccos_zero]; ring
  all_goals
    rw [cross_dot_cross]
    simp [p1, p2, p3, dotProduct_comm (position octaCorners b) (position octaCorners a),
      dotProduct_comm (position octaCorners c) (position octaCorners a),
      dotProduct_comm (position octaCorners c) (position octaCorners b)]

/-- C64: the octahedron meets all hypotheses, those of `C64_unweighted` about an edge between two triangles
included, for some solver, eigensolver and tolerance; on a sphere of radius `r` its triangles have area `π / 2 * r²`, an
eighth of the sphere -/
theorem C64_octahedron : ∃ (solve : List (List Int) → Option (List Int)) (t : Topo)
    (eigh : (n : Nat) → Matrix (Fin n) (Fin n) ℝ → Eigh n ℝ) (ratio : ℝ) (y : Finset Nat → Nat → ℝ)
    (ctr : Finset Nat → Fin 3 → ℝ),
    SatSpec solve ∧ SphereInput List.dedup solve eigh ratio 2 octaFaces t octaCorners none y ctr ∧
    TilesSphere octaCorners octaFaces ∧
    (∀ l ∈ octaFaces, ∀ v ∈ l, innerProd (position octaCorners v) (position octaCorners v) = 1) ∧
    (∃ x : Nat, (t.elements[1]?.getD [])[x]? = some [0, 2]) ∧
    octaFaces.filter (fun s => [0, 2] ⊆ s) = [[0, 2, 4], [2, 0, 5]] ∧
    (Matrix.of ![position octaCorners 0, position octaCorners 2, position octaCorners 4]).det *
      (Matrix.of ![position octaCorners 0, position octaCorners 2, position octaCorners 5]).det < 0 ∧
    ∀ r : ℝ, ∃ P D, sphericalMetric solve eigh ratio t octaCorners none r = .ok (P, D) ∧
      P[2]? = some (List.replicate 8 (some (Real.pi / 2 * r ^ 2))) := by
  have hs : Simplices 3 octaFaces := simplices_of_all (by decide)
  have hf : fromSimplices List.dedup 3 octaFaces = .ok (built 3 octaFaces) := by decide +kernel
  have hco : Coherent octaFaces := by
    rw [← reorient_false octaFaces, ← (wf_built hs hf).satisfies_iff_coherent hs (fun _ => false)]
    decide +kernel
  obtain ⟨solve, hsat, ho⟩ := C08_coherent_some_solver uniqSpec_dedup hs hf (by simp [octaFaces]) hco
  obtain ⟨eigh, ratio, y, ctr, h⟩ := C59_applies (V := octaCorners) uniqSpec_dedup hs hf (by simp [octaFaces]) ho
    (by omega) (by decide) octa_nondegenerate
  have hS : SphereInput List.dedup solve eigh ratio 2 octaFaces (built 3 octaFaces) octaCorners none y ctr := by
    refine ⟨h.center, ho, fun S hS v hv => ?_, fun l hl => orthonormal_independent octa_products hl⟩
    have hc := h.centers S hS
    obtain ⟨-, l, hl, hsub⟩ := hS
    rw [orthonormal_inside (fun u hu v hv => octa_products l hl u (List.mem_toFinset.1 (hsub hu)) v
      (List.mem_toFinset.1 (hsub hv))) hc hv]
    have : 0 < S.card := Finset.card_pos.2 ⟨v, hv⟩
    positivity
  refine ⟨solve, _, eigh, ratio, y, ctr, hsat, hS, octa_tiles, fun l hl v hv => by
    rw [octa_products l hl v hv v hv, if_pos rfl], ?_, by decide, ?_, fun r => ?_⟩
  · have : ∃ x : Nat, x < 12 ∧ ((built 3 octaFaces).elements[1]?.getD [])[x]? = some [0, 2] := by decide +kernel
    obtain ⟨x, -, hx⟩ := this
    exact ⟨x, hx⟩
  · simp [det_fin_three, position, octaCorners]
  · refine ⟨_, _, C64_sphere hS r, ?_⟩
    simp only [List.getElem?_cons_succ, List.getElem?_cons_zero]
    rw [List.map_congr_left fun l hl => by rw [octa_area hl], List.map_const']
    rfl

/-- the ends of two axes -/
def roundCorners : List (Vec ℝ 2) := [![1, 0], ![0, 1], ![-1, 0], ![0, -1]]

theorem round_products : ∀ l ∈ [[0, 1], [1, 2], [2, 3], [3, 0]], ∀ u ∈ l, ∀ v ∈ l,
    innerProd (position roundCorners u) (position roundCorners v) = if u = v then 1 else 0 := by
  intro l hl
  simp only [List.mem_cons, List.not_mem_nil, or_false] at hl
  rcases hl with rfl | rfl | rfl | rfl <;> simp [innerProd, position, roundCorners]

/-- C64: four quarters of a circle meet the hypotheses of `C64_circle` and `C64_circle_halves` -/
theorem C64_quarters : ∃ (solve : List (List Int) → Option (List Int)) (t : Topo)
    (eigh : (n : Nat) → Matrix (Fin n) (Fin n) ℝ → Eigh n ℝ) (ratio : ℝ) (y : Finset Nat → Nat → ℝ)
    (ctr : Finset Nat → Fin 2 → ℝ),
    SatSpec solve ∧
    SphereInput List.dedup solve eigh ratio 1 [[0, 1], [1, 2], [2, 3], [3, 0]] t roundCorners none y ctr ∧
    ∀ r : ℝ, ∃ D, sphericalMetric solve eigh ratio t roundCorners none r =
      .ok ([List.replicate 4 (some 1), List.replicate 4 (some (Real.pi / 2 * r))], D) := by
  have hs : Simplices 2 [[0, 1], [1, 2], [2, 3], [3, 0]] := simplices_of_all (by decide)
  have hf : fromSimplices List.dedup 2 [[0, 1], [1, 2], [2, 3], [3, 0]] =
    .ok (built 2 [[0, 1], [1, 2], [2, 3], [3, 0]]) := by decide +kernel
  obtain ⟨n, hn, -, wf⟩ := wf_of_ok uniqSpec_dedup hs hf
  obtain rfl : n = 1 := by omega
  have hco : Coherent [[0, 1], [1, 2], [2, 3], [3, 0]] := by
    rw [← reorient_false [[0, 1], [1, 2], [2, 3], [3, 0]],
      ← wf.satisfies_iff_coherent hs (fun _ => false)]
    decide +kernel
  have hnd : NonDegenerate roundCorners 1 [[0, 1], [1, 2], [2, 3], [3, 0]] := by
    intro l hl
    apply affineIndependent_of
    intro w h1 h2
    have a := h2 0
    have b := h2 1
    simp only [List.mem_cons, List.not_mem_nil, or_false] at hl
    rcases hl with rfl | rfl | rfl | rfl <;>
    · simp [cornersOf, position, roundCorners] at h1 a b
      intro i
      fin_cases i <;> simp <;> linarith
  obtain ⟨solve, hsat, ho⟩ := C08_coherent_some_solver uniqSpec_dedup hs hf (by simp) hco
  obtain ⟨eigh, ratio, y, ctr, h⟩ := C59_applies (V := roundCorners) uniqSpec_dedup hs hf (by simp) ho
    (by omega) (by decide) hnd
  have hS : SphereInput List.dedup solve eigh ratio 1 [[0, 1], [1, 2], [2, 3], [3, 0]]
      (built 2 [[0, 1], [1, 2], [2, 3], [3, 0]]) roundCorners none y ctr := by
    refine ⟨h.center, ho, fun S hS v hv => ?_, fun l hl => orthonormal_independent round_products hl⟩
    have hc := h.centers S hS
    obtain ⟨-, l, hl, hsub⟩ := hS
    rw [orthonormal_inside (fun u hu v hv => round_products l hl u (List.mem_toFinset.1 (hsub hu)) v
      (List.mem_toFinset.1 (hsub hv))) hc hv]
    have : 0 < S.card := Finset.card_pos.2 ⟨v, hv⟩
    positivity
  have hN : (built 2 [[0, 1], [1, 2], [2, 3], [3, 0]]).nElements 0 = 4 := by decide +kernel
  have harc : ∀ l ∈ [[0, 1], [1, 2], [2, 3], [3, 0]],
      arc (position roundCorners (l[0]?.getD 0)) (position roundCorners (l[1]?.getD 0)) = Real.pi / 2 := by
    intro l hl
    have h0 : innerProd (position roundCorners (l[0]?.getD 0)) (position roundCorners (l[1]?.getD 0)) = 0 := by
      simp only [List.mem_cons, List.not_mem_nil, or_false] at hl
      rcases hl with rfl | rfl | rfl | rfl <;> simp [innerProd, position, roundCorners]
    unfold arc InnerProductGeometry.angle
    rw [inner_eq_innerProd, h0, zero_div, Real.arccos_zero]
  refine ⟨solve, _, eigh, ratio, y, ctr, hsat, hS, fun r => ?_⟩
  have e := C64_circle hS r
  rw [hN, List.map_congr_left fun l hl => by rw [harc l hl], List.map_const'] at e
  exact ⟨_, e⟩

end Verif.Props
