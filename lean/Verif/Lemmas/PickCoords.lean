/-
Barycentric coordinates from inverted homogeneous corners, and what `pick_primal_precomp` prepares.
-/
import Verif.Lemmas.PickSystem
import Verif.Props.Sampling

set_option linter.unusedSectionVars false

namespace Verif

open Verif.Model Verif.Spec Verif.Props Matrix

section

variable {D : Nat}

/-- the homogeneous corners of a simplex that is not degenerate are a basis -/
theorem homog_det {x : Fin (D + 1) → Fin D → ℝ} (h : AffineIndependent ℝ x) :
    (Matrix.of fun i => homogenize (x i)).det ≠ 0 := by
  intro h0
  obtain ⟨v, hv, hz⟩ := Matrix.exists_vecMul_eq_zero_iff.2 h0
  apply hv
  have hc : ∀ c, ∑ i, v i * homogenize (x i) c = 0 := fun c => congrFun hz c
  have h1 : ∑ i, v i = 0 := by simpa [homogenize] using hc (Fin.last D)
  have h2 : ∑ i, v i • x i = 0 := by
    funext j
    simpa [homogenize, Finset.sum_apply] using hc j.castSucc
  funext i
  exact affineIndependent_iff.1 h Finset.univ v h1 h2 i (Finset.mem_univ i)

/-- the coordinates of a point with respect to that basis -/
theorem homog_coords {x : Fin (D + 1) → Fin D → ℝ} (h : AffineIndependent ℝ x) (p : Fin D → ℝ) :
    Combines x (fun v => ∑ c, (Matrix.of fun i => homogenize (x i))⁻¹ c v * homogenize p c) p := by
  set H : Matrix (Fin (D + 1)) (Fin (D + 1)) ℝ := Matrix.of fun i => homogenize (x i) with hH
  have hu : IsUnit H.det := (homog_det h).isUnit
  have e : (fun v => ∑ c, H⁻¹ c v * homogenize p c) = homogenize p ᵥ* H⁻¹ := by
    funext v
    simp only [Matrix.vecMul, dotProduct]
    exact Finset.sum_congr rfl fun c _ => mul_comm _ _
  rw [e]
  have hb : (homogenize p ᵥ* H⁻¹) ᵥ* H = homogenize p := by
    rw [Matrix.vecMul_vecMul, Matrix.nonsing_inv_mul H hu, Matrix.vecMul_one]
  generalize homogenize p ᵥ* H⁻¹ = b at hb
  have hc : ∀ c, ∑ i, b i * homogenize (x i) c = homogenize p c := fun c => congrFun hb c
  constructor
  · simpa [homogenize] using hc (Fin.last D)
  · intro j
    have := hc j.castSucc
    simp only [homogenize, Fin.snoc_castSucc] at this
    exact this.symm

/-- coordinates are unique -/
theorem Spec.Combines.unique {P : Nat} {x : Fin P → Fin D → ℝ} (h : AffineIndependent ℝ x) {b b' : Fin P → ℝ}
    {p : Fin D → ℝ} (hb : Combines x b p) (hb' : Combines x b' p) : b = b' := by
  funext i
  have h1 : ∑ i, (b i - b' i) = 0 := by rw [Finset.sum_sub_distrib, hb.1, hb'.1, sub_self]
  have h2 : ∑ i, (b i - b' i) • x i = 0 := by
    funext j
    simp only [Finset.sum_apply, Pi.smul_apply, smul_eq_mul, sub_mul, Pi.zero_apply]
    rw [Finset.sum_sub_distrib, ← hb.2 j, ← hb'.2 j, sub_self]
  linarith [affineIndependent_iff.1 h Finset.univ _ h1 h2 i (Finset.mem_univ i)]

/-- coordinates listed by corner, as coordinates listed by vertex -/
noncomputable def coordOf {P : Nat} (l : List Nat) (b : Fin P → ℝ) (v : Nat) : ℝ :=
  if h : l.idxOf v < P then b ⟨_, h⟩ else 0

theorem coordOf_get {P : Nat} {l : List Nat} (hl : l.length = P) (hn : l.Nodup) (b : Fin P → ℝ) (i : Fin P) :
    coordOf l b (l[i.val]?.getD 0) = b i := by
  have hi : i.val < l.length := by omega
  unfold coordOf
  rw [List.getElem?_eq_getElem hi, Option.getD_some]
  have : l.idxOf l[i.val] = i.val := hn.idxOf_getElem i.val hi
  rw [dif_pos (by omega)]
  congr 1
  exact Fin.ext this

variable {V : List (Fin D → ℝ)}

theorem Spec.Combines.coordinates {P : Nat} {l : List Nat} (hl : l.length = P) (hn : l.Nodup) {b : Fin P → ℝ}
    {p : Fin D → ℝ} (h : Combines (cornersOf V P l) b p) : Coordinates V l p (coordOf l b) := by
  constructor
  · rw [← sum_fin_list l hn hl, ← h.1]
    exact Finset.sum_congr rfl fun i _ => coordOf_get hl hn b i
  · intro j
    rw [← sum_fin_list l hn hl (fun v => coordOf l b v * position V v j), h.2 j]
    exact Finset.sum_congr rfl fun i _ => by rw [coordOf_get hl hn b i]; rfl

theorem Spec.Coordinates.combines {P : Nat} {l : List Nat} (hl : l.length = P) (hn : l.Nodup) {b : Nat → ℝ}
    {p : Fin D → ℝ} (h : Coordinates V l p b) : Combines (cornersOf V P l) (fun i => b (l[i.val]?.getD 0)) p := by
  constructor
  · rw [sum_fin_list l hn hl b]
    exact h.1
  · intro j
    rw [h.2 j, ← sum_fin_list l hn hl (fun v => b v * position V v j)]
    rfl

theorem mem_get {P : Nat} {l : List Nat} (hl : l.length = P) (i : Fin P) : l[i.val]?.getD 0 ∈ l := by
  have hi : i.val < l.length := by omega
  rw [List.getElem?_eq_getElem hi, Option.getD_some]
  exact List.getElem_mem hi

/-- a simplex contains a point if the coordinates of the point are not negative -/
theorem inSimplex_iff {P : Nat} {l : List Nat} (hl : l.length = P) (hn : l.Nodup)
    (ha : AffineIndependent ℝ (cornersOf V P l)) {b : Fin P → ℝ} {p : Fin D → ℝ}
    (h : Combines (cornersOf V P l) b p) : InSimplex V l p ↔ ∀ i, 0 ≤ b i := by
  constructor
  · rintro ⟨b', hb', h0⟩ i
    rw [h.unique ha (hb'.combines hl hn)]
    exact h0 _ (mem_get hl i)
  · intro h0
    refine ⟨coordOf l b, h.coordinates hl hn, fun v _ => ?_⟩
    unfold coordOf
    split
    · exact h0 _
    · exact le_refl 0

theorem sqDist_ofFn (c p : Fin D → ℝ) : sqDist (List.ofFn c) (List.ofFn p) = dist2 p c := by
  have : List.zipWith (fun x y : ℝ => (x - y) * (x - y)) (List.ofFn c) (List.ofFn p) =
      List.ofFn fun j => (c j - p j) * (c j - p j) := by
    apply List.ext_getElem
    · simp
    · intro i h1 h2
      simp
  unfold sqDist dist2
  rw [this, List.sum_ofFn]
  exact Finset.sum_congr rfl fun j _ => by ring

end

section

variable {m : Nat} {uniq : List (List Nat) → List (List Nat)}
  {solve : List (List Int) → Option (List Int)}
  {eigh : (n : Nat) → Matrix (Fin n) (Fin n) ℝ → Eigh n ℝ} {ratio : ℝ}
  {minres : Mat Int → List ℝ → List ℝ}
  {simplices : List (List Nat)} {t : Topo} {V : List (Vec ℝ (m + 2))} {W : Option (List ℝ)}
  {y : Finset Nat → Nat → ℝ} {ctr : Finset Nat → Fin (m + 2) → ℝ}

/-- the inverted homogeneous corners of a simplex -/
noncomputable def basisOf (V : List (Vec ℝ (m + 2))) (l : List Nat) :
    Matrix (Fin (m + 2 + 1)) (Fin (m + 2 + 1)) ℝ :=
  (Matrix.of fun i => homogenize (cornersOf V (m + 2 + 1) l i))⁻¹

theorem invertBasis_ok {l : List Nat} (h : AffineIndependent ℝ (cornersOf V (m + 2 + 1) l)) :
    invertBasis (Matrix.of (cornersOf V (m + 2 + 1) l)) = .ok (basisOf V l) := by
  unfold invertBasis
  rw [dif_pos rfl]
  exact if_neg (homog_det h)

/-- the weights of the sites, if there are any -/
noncomputable def siteList (dual : List (List ℝ)) (w : Option (List ℝ)) : Except PyErr (List (List ℝ)) :=
  match w with
  | none => .ok dual
  | some w => augmentWeights dual w

/-- what `pick_primal_precomp` prepares -/
theorem precomp_ok (h : CenterInput uniq eigh ratio (m + 2) simplices t V W y ctr)
    (hd : isPairwiseDelaunay eigh ratio t V W = .ok true) (weighted : Bool) {w : List ℝ}
    (hw : weighted = true → pickWeights solve uniq eigh ratio minres t V W = .ok w) {sites : List (List ℝ)}
    (hs : siteList (simplices.map fun l => List.ofFn (ctr l.toFinset)) (if weighted then some w else none) =
      .ok sites) :
    pickPrimalPrecomp solve uniq eigh ratio minres t V W weighted =
      .ok (sites, simplices.map (basisOf V)) := by
  obtain ⟨-, wf⟩ := fromSimplices_wf h.uniq_ok h.rows h.built
  have hlen : t.boundary.length = m + 2 := wf.lenB
  unfold pickPrimalPrecomp
  rw [hd]
  simp only [bind, Except.bind, Bool.not_true, Bool.false_eq_true, if_false]
  rw [hlen]
  have htop : lastOf t.elements = .ok simplices := by
    refine lastOf_eq (k := m + 2) wf.lenE ?_
    rw [wf.top_eq]
  have hb := (C61_centers h).1
  have hlast : lastOf ((List.range (m + 2 + 1)).map fun k =>
      (t.elements[k]?.getD []).map fun e => e.map (y e.toFinset)) =
      .ok (simplices.map fun e => e.map (y e.toFinset)) := by
    refine lastOf_eq (k := m + 2) (by simp) ?_
    rw [List.getElem?_map, List.getElem?_range (by omega)]
    simp only [Option.map_some, wf.top_eq, Option.getD_some]
  have hcb : cornerBatch V none (m + 2 + 1) simplices =
      .ok (simplices.map fun e => (Matrix.of (cornersOf V (m + 2 + 1) e), rowWeights none (m + 2 + 1) e)) :=
    cornerBatch_weights (fun e he => ⟨(h.rows e he).1, h.vertices e he⟩) (by simp)
  rw [htop]
  simp only
  rw [hcb]
  simp only
  rw [hb]
  simp only
  rw [hlast]
  simp only
  have hdual : List.zipWith
      (fun (c : Matrix (Fin (m + 2 + 1)) (Fin (m + 2)) ℝ × Option (Vec ℝ (m + 2 + 1))) (x : List ℝ) =>
        List.ofFn fun j => ∑ i, c.1 i j * x[i.val]?.getD 0)
      (simplices.map fun e => (Matrix.of (cornersOf V (m + 2 + 1) e), rowWeights none (m + 2 + 1) e))
      (simplices.map fun e => e.map (y e.toFinset)) = simplices.map fun l => List.ofFn (ctr l.toFinset) := by
    apply List.ext_getElem
    · simp
    · intro j h1 h2
      have hj : j < simplices.length := by simpa using h2
      simp only [List.getElem_zipWith, List.getElem_map]
      congr 1
      funext c
      have hl := List.getElem_mem hj
      obtain ⟨hll, hln⟩ := h.rows _ hl
      have hne : simplices[j] ≠ [] := by
        intro h0
        rw [h0] at hll
        simp at hll
      have hp := (h.centers _ (spansFace_of_subset hl (List.Subset.refl _) hne)).point c
      rw [hp, ← sum_fin_list simplices[j] hln hll (fun v => y simplices[j].toFinset v * position V v c)]
      refine Finset.sum_congr rfl fun i _ => ?_
      have hi : i.val < simplices[j].length := by rw [hll]; exact i.2
      simp only [Matrix.of_apply, cornersOf]
      rw [List.getElem?_map, List.getElem?_eq_getElem hi, Option.map_some, Option.getD_some, Option.getD_some, mul_comm]
  rw [hdual]
  have hbasis : (simplices.map fun e => (Matrix.of (cornersOf V (m + 2 + 1) e), rowWeights none (m + 2 + 1) e)).mapM
      (fun c => invertBasis c.1) = .ok (simplices.map (basisOf V)) :=
    mapM_map_ok _ _ _ _ fun l hl => invertBasis_ok (h.nondegenerate l hl)
  cases weighted with
  | false =>
    simp only [Bool.false_eq_true, if_false, siteList] at hs ⊢
    rw [Except.ok.inj hs]
    erw [hbasis]
  | true =>
    simp only [if_true, siteList] at hs ⊢
    rw [hw rfl]
    simp only
    rw [hs]
    simp only
    erw [hbasis]

theorem baryOf_ok {i : Nat} {l : List Nat} (hl : simplices[i]? = some l) (p : Vec ℝ (m + 2)) :
    baryOf (simplices.map (basisOf V)) i p = .ok fun v => ∑ c, basisOf V l c v * homogenize p c := by
  unfold baryOf itemAt
  rw [List.getElem?_map, hl]
  rfl

end

end Verif
