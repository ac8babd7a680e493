/-
C72: centre of mass, areas and edge lengths of triangle meshes.
-/
import Verif.Model.Mass
import Verif.Spec.Mass
import Verif.Props.Volume
import Verif.Props.Triangles
import Verif.Props.Simplicial
import Verif.Props.Orientation
import Verif.Lemmas.Relabel
import Verif.Lemmas.SmoothOperator

set_option linter.unusedSectionVars false

namespace Verif.Props

open Verif.Model Verif.Spec

variable {V : List (Vec ℝ 3)} {T : List (List Nat)}

/-- the determinant of three positions -/
noncomputable def det3 (V : List (Vec ℝ 3)) (a b c : Nat) : ℝ :=
  dot (pos V a) (cross (pos V b) (pos V c))

theorem det3_alternating (V : List (Vec ℝ 3)) : Alternating3 (det3 V) := by
  intro a b c
  constructor <;> simp [det3, dot, Fin.sum_univ_three, cross] <;> ring

theorem sumTriangles_eq (f : Nat → Nat → Nat → ℝ) (T : List (List Nat)) :
    sumTriangles f T = (T.map (onTriangle f)).sum := rfl

theorem tetVolume_eq (V : List (Vec ℝ 3)) (q : Nat × Nat × Nat × Nat) :
    tetVolume (pos V) q = (det3 V q.2.1 q.2.2.1 q.2.2.2 - det3 V q.1 q.2.2.1 q.2.2.2 +
      det3 V q.1 q.2.1 q.2.2.2 - det3 V q.1 q.2.1 q.2.2.1) / 6 := by
  obtain ⟨a, b, c, d⟩ := q
  simp only [tetVolume, det3]
  rw [Matrix.det_fin_three]
  simp [dot, Fin.sum_univ_three, cross]
  ring

theorem moment_alternating (V : List (Vec ℝ 3)) (i : Fin 3) :
    Alternating3 fun a b c => det3 V a b c * (pos V a i + pos V b i + pos V c i) := by
  intro a b c
  have h := det3_alternating V a b c
  simp only
  rw [h.1, h.2]
  constructor <;> ring

/-- four vectors of the space are dependent -/
theorem cramer4 (V : List (Vec ℝ 3)) (a b c d : Nat) (i : Fin 3) :
    det3 V b c d * pos V a i - det3 V a c d * pos V b i + det3 V a b d * pos V c i -
      det3 V a b c * pos V d i = 0 := by
  unfold det3
  simp only [dot, Fin.sum_univ_three, cross]
  fin_cases i <;> simp <;> ring

theorem volume_surface {Q : List (Nat × Nat × Nat × Nat)} (hQ : IsSurfaceOf T Q) :
    6 * (Q.map (tetVolume (pos V))).sum = sumTriangles (det3 V) T := by
  rw [← hQ _ (det3_alternating V), ← List.sum_map_mul_left]
  refine congrArg List.sum (List.map_congr_left fun q _ => ?_)
  rw [tetVolume_eq]
  ring

theorem moment_surface {Q : List (Nat × Nat × Nat × Nat)} (hQ : IsSurfaceOf T Q) (i : Fin 3) :
    24 * (Q.map fun q => tetVolume (pos V) q * tetCentroid (pos V) q i).sum =
      sumTriangles (fun a b c => det3 V a b c * (pos V a i + pos V b i + pos V c i)) T := by
  rw [← hQ _ (moment_alternating V i), ← List.sum_map_mul_left]
  refine congrArg List.sum (List.map_congr_left fun q _ => ?_)
  rw [tetVolume_eq]
  obtain ⟨a, b, c, d⟩ := q
  have := cramer4 V a b c d i
  simp only [tetCentroid]
  linear_combination this

/-- the volume of the tetrahedron over a triangle with its tip at the origin -/
theorem origin_volume (x y z : Vec ℝ 3) :
    unsignedVolume (Matrix.of ![x, y, z, 0]) = .ok (|dot x (cross y z)| / 6) := by
  rw [C55_unsigned_signed _ _ (signedVolume_eq _), abs_div]
  congr 2
  · rw [← abs_neg]
    congr 1
    rw [Matrix.det_fin_three]
    simp [edgeRows, dot, Fin.sum_univ_three, cross]
    ring
  · simp [Nat.factorial]

/-- what `center_of_mass` computes: the mean of the centroids weighted with absolute values -/
theorem centerOfMass_eq (h : Mesh V T) :
    centerOfMass V T = .ok (
      if sumTriangles (fun a b c => |det3 V a b c|) T = 0 then none
      else some fun i =>
        sumTriangles (fun a b c => |det3 V a b c| * (pos V a i + pos V b i + pos V c i)) T / 4 /
          sumTriangles (fun a b c => |det3 V a b c|) T) := by
  have h1 : T.mapM (cornersAt V) = .ok (T.map fun l =>
      (pos V (l[0]?.getD 0), pos V (l[1]?.getD 0), pos V (l[2]?.getD 0))) := by
    refine mapM_ok _ _ _ fun l hl => ?_
    obtain ⟨a, b, c, rfl⟩ := triple (h.simplices l hl).1
    have hr := h.inRange _ hl
    simp [cornersAt, vertexAt_ok (hr a (by simp)), vertexAt_ok (hr b (by simp)),
      vertexAt_ok (hr c (by simp)), bind, Except.bind]
  unfold centerOfMass
  rw [h1]
  simp only [bind, Except.bind]
  rw [mapM_ok (g := fun P : Matrix (Fin 4) (Fin 3) ℝ => |dot (P 0) (cross (P 1) (P 2))| / 6)]
  swap
  · intro P hP
    simp only [List.map_map, List.mem_map, Function.comp] at hP
    obtain ⟨l, -, rfl⟩ := hP
    exact origin_volume _ _ _
  simp only [List.map_map]
  have hvol : (T.map ((fun P : Matrix (Fin 4) (Fin 3) ℝ => |dot (P 0) (cross (P 1) (P 2))| / 6) ∘
      (fun p : Vec ℝ 3 × Vec ℝ 3 × Vec ℝ 3 => Matrix.of ![p.1, p.2.1, p.2.2, 0]) ∘ fun l : List Nat =>
      (pos V (l[0]?.getD 0), pos V (l[1]?.getD 0), pos V (l[2]?.getD 0)))).sum =
      sumTriangles (fun a b c => |det3 V a b c|) T / 6 := by
    rw [sumTriangles_eq, div_eq_mul_inv, ← List.sum_map_mul_right]
    refine congrArg List.sum (List.map_congr_left fun l hl => ?_)
    obtain ⟨a, b, c, rfl⟩ := triple (h.simplices l hl).1
    simp only [onTriangle, det3, div_eq_mul_inv]
    rfl
  rw [hvol]
  have h6 : sumTriangles (fun a b c => |det3 V a b c|) T / 6 = 0 ↔
      sumTriangles (fun a b c => |det3 V a b c|) T = 0 := by
    constructor
    · intro h; linarith
    · intro h; rw [h]; norm_num
  by_cases h0 : sumTriangles (fun a b c => |det3 V a b c|) T = 0
  · rw [if_pos (h6.2 h0), if_pos h0]
  · rw [if_neg fun h => h0 (h6.1 h), if_neg h0]
    congr 2
    funext i
    rw [List.zipWith_map, List.zipWith_self]
    have : (T.map fun l : List Nat => ((fun P : Matrix (Fin 4) (Fin 3) ℝ =>
        |dot (P 0) (cross (P 1) (P 2))| / 6) ∘
        (fun p : Vec ℝ 3 × Vec ℝ 3 × Vec ℝ 3 => Matrix.of ![p.1, p.2.1, p.2.2, 0]) ∘
        fun l : List Nat => (pos V (l[0]?.getD 0), pos V (l[1]?.getD 0), pos V (l[2]?.getD 0))) l *
        ((fun (P : Matrix (Fin 4) (Fin 3) ℝ) i => (P 0 i + P 1 i + P 2 i + P 3 i) / 4) ∘
        (fun p : Vec ℝ 3 × Vec ℝ 3 × Vec ℝ 3 => Matrix.of ![p.1, p.2.1, p.2.2, 0]) ∘
        fun l : List Nat => (pos V (l[0]?.getD 0), pos V (l[1]?.getD 0), pos V (l[2]?.getD 0))) l i).sum =
        sumTriangles (fun a b c => |det3 V a b c| * (pos V a i + pos V b i + pos V c i)) T / 4 / 6 := by
      rw [sumTriangles_eq, div_div, div_eq_mul_inv, ← List.sum_map_mul_right]
      refine congrArg List.sum (List.map_congr_left fun l hl => ?_)
      obtain ⟨a, b, c, rfl⟩ := triple (h.simplices l hl).1
      have e : ∀ x y z : Vec ℝ 3, |dot x (cross y z)| / 6 * ((x i + y i + z i + (0 : Vec ℝ 3) i) / 4) =
          |dot x (cross y z)| * (x i + y i + z i) * (4 * 6)⁻¹ := by
        intro x y z
        simp only [Pi.zero_apply]
        ring
      exact e _ _ _
    rw [this]
    field_simp

theorem sumTriangles_congr {f g : Nat → Nat → Nat → ℝ} (h : Simplices 3 T)
    (hfg : ∀ a b c, [a, b, c] ∈ T → f a b c = g a b c) : sumTriangles f T = sumTriangles g T := by
  refine congrArg List.sum (List.map_congr_left fun l hl => ?_)
  obtain ⟨a, b, c, rfl⟩ := triple (h l hl).1
  exact hfg a b c hl

theorem sumTriangles_neg (f : Nat → Nat → Nat → ℝ) (hs : Simplices 3 T) :
    sumTriangles (fun a b c => - f a b c) T = - sumTriangles f T := by
  rw [sumTriangles_eq, sumTriangles_eq, ← neg_one_mul, ← List.sum_map_mul_left]
  refine congrArg List.sum (List.map_congr_left fun l hl => ?_)
  obtain ⟨a, b, c, rfl⟩ := triple (hs l hl).1
  simp [onTriangle]

/-- C72: if the origin sees every triangle from the same side, `center_of_mass` is the centre of mass of
the solid enclosed by the surface, for every way of filling it with tetrahedra -/
theorem C72_center_of_mass (h : Mesh V T) {Q : List (Nat × Nat × Nat × Nat)} (hQ : IsSurfaceOf T Q)
    (hsame : (∀ a b c, [a, b, c] ∈ T → 0 ≤ Matrix.det (Matrix.of ![pos V a, pos V b, pos V c])) ∨
      ∀ a b c, [a, b, c] ∈ T → Matrix.det (Matrix.of ![pos V a, pos V b, pos V c]) ≤ 0)
    (h0 : (Q.map (tetVolume (pos V))).sum ≠ 0) :
    ∃ x, centerOfMass V T = .ok (some x) ∧ IsCenterOfMass (pos V) Q x := by
  have hdet : ∀ a b c, Matrix.det (Matrix.of ![pos V a, pos V b, pos V c]) = det3 V a b c := by
    intro a b c
    rw [Matrix.det_fin_three]
    simp [det3, dot, Fin.sum_univ_three, cross]
    ring
  simp only [hdet] at hsame
  have hv := volume_surface (V := V) hQ
  have hm := moment_surface (V := V) hQ
  rw [centerOfMass_eq h]
  rcases hsame with hp | hp
  · have e1 : sumTriangles (fun a b c => |det3 V a b c|) T = sumTriangles (det3 V) T :=
      sumTriangles_congr h.simplices fun a b c hl => abs_of_nonneg (hp a b c hl)
    have e2 : ∀ i, sumTriangles (fun a b c => |det3 V a b c| * (pos V a i + pos V b i + pos V c i)) T =
        sumTriangles (fun a b c => det3 V a b c * (pos V a i + pos V b i + pos V c i)) T := fun i =>
      sumTriangles_congr h.simplices fun a b c hl => by rw [abs_of_nonneg (hp a b c hl)]
    simp only [e1, e2, ← hv, ← hm]
    rw [if_neg fun h => h0 (by linarith)]
    refine ⟨_, rfl, h0, fun i => ?_⟩
    field_simp
    ring
  · have e1 : sumTriangles (fun a b c => |det3 V a b c|) T = - sumTriangles (det3 V) T := by
      rw [← sumTriangles_neg _ h.simplices]
      exact sumTriangles_congr h.simplices fun a b c hl => abs_of_nonpos (hp a b c hl)
    have e2 : ∀ i, sumTriangles (fun a b c => |det3 V a b c| * (pos V a i + pos V b i + pos V c i)) T =
        - sumTriangles (fun a b c => det3 V a b c * (pos V a i + pos V b i + pos V c i)) T := fun i => by
      rw [← sumTriangles_neg _ h.simplices]
      exact sumTriangles_congr h.simplices fun a b c hl => by
        rw [abs_of_nonpos (hp a b c hl)]; ring
    simp only [e1, e2, ← hv, ← hm]
    rw [if_neg fun h => h0 (by linarith)]
    refine ⟨_, rfl, h0, fun i => ?_⟩
    field_simp
    ring

/-! ### a tetrahedron away from the origin -/

/-- a tetrahedron whose tip is at `(1, 1, 1)` -/
noncomputable def awayV : List (Vec ℝ 3) := [![1, 1, 1], ![2, 1, 1], ![1, 2, 1], ![1, 1, 2]]

/-- a tetrahedron whose tip is at the origin -/
noncomputable def homeV : List (Vec ℝ 3) := [![0, 0, 0], ![1, 0, 0], ![0, 1, 0], ![0, 0, 1]]

theorem tetra_surface_of : IsSurfaceOf tetraSurface [(0, 1, 2, 3)] := by
  intro f hf
  simp only [List.map_cons, List.map_nil, List.sum_cons, List.sum_nil, sumTriangles, tetraSurface]
  have h1 := (hf 0 2 1)
  have h2 := (hf 0 3 2)
  have h3 := hf 0 1 2
  have h4 := hf 2 0 1
  have h5 := hf 0 2 3
  have h6 := hf 3 0 2
  have a1 : f 0 2 1 = - f 0 1 2 := by
    have := (hf 0 1 2).2
    have := (hf 1 2 0).1
    have := (hf 2 1 0).2
    have := (hf 1 0 2).2
    linarith
  have a2 : f 0 3 2 = - f 0 2 3 := by
    have := (hf 0 2 3).2
    have := (hf 2 3 0).1
    have := (hf 3 2 0).2
    have := (hf 2 0 3).2
    linarith
  rw [a1, a2]
  ring

theorem homeV_mesh : Mesh homeV tetraSurface := ⟨simplices_of_all (by decide), by decide⟩

theorem awayV_mesh : Mesh awayV tetraSurface := ⟨simplices_of_all (by decide), by decide⟩

/-- example for C72: the tetrahedron at the origin meets the hypotheses -/
example : ∃ x, centerOfMass homeV tetraSurface = .ok (some x) ∧
    IsCenterOfMass (pos homeV) [(0, 1, 2, 3)] x := by
  refine C72_center_of_mass homeV_mesh tetra_surface_of (Or.inl ?_) ?_
  · intro a b c hl
    simp only [tetraSurface, List.mem_cons, List.cons.injEq, and_true, List.not_mem_nil, or_false]
      at hl
    rw [Matrix.det_fin_three]
    rcases hl with ⟨rfl, rfl, rfl⟩ | ⟨rfl, rfl, rfl⟩ | ⟨rfl, rfl, rfl⟩ | ⟨rfl, rfl, rfl⟩ <;>
      simp [pos, homeV]
  · simp [tetVolume, Matrix.det_fin_three, pos, homeV]

/-- C72, negated without the hypothesis on the origin: for a tetrahedron with all corners at `x ≥ 1`,
`center_of_mass` returns a point with `x = 27/28`, outside of it; the centre of mass has `x = 5/4` -/
theorem C72_away_negated : ∃ x y, centerOfMass awayV tetraSurface = .ok (some x) ∧ x 0 = 27 / 28 ∧
    IsCenterOfMass (pos awayV) [(0, 1, 2, 3)] y ∧ y 0 = 5 / 4 ∧ ∀ v ∈ awayV, 1 ≤ v 0 := by
  have d1 : |det3 awayV 0 2 1| = 1 := by
    have : det3 awayV 0 2 1 = -1 := by
      simp [det3, dot, Fin.sum_univ_three, cross, pos, awayV]; norm_num
    rw [this]; norm_num
  have d2 : |det3 awayV 0 1 3| = 1 := by
    have : det3 awayV 0 1 3 = -1 := by
      simp [det3, dot, Fin.sum_univ_three, cross, pos, awayV]; norm_num
    rw [this]; norm_num
  have d3 : |det3 awayV 0 3 2| = 1 := by
    have : det3 awayV 0 3 2 = -1 := by
      simp [det3, dot, Fin.sum_univ_three, cross, pos, awayV]; norm_num
    rw [this]; norm_num
  have d4 : |det3 awayV 1 2 3| = 4 := by
    have : det3 awayV 1 2 3 = 4 := by
      simp [det3, dot, Fin.sum_univ_three, cross, pos, awayV]; norm_num
    rw [this]; norm_num
  have hs : sumTriangles (fun a b c => |det3 awayV a b c|) tetraSurface = 7 := by
    simp only [sumTriangles, tetraSurface, List.map_cons, List.map_nil, List.sum_cons, List.sum_nil,
      d1, d2, d3, d4]
    norm_num
  refine ⟨_, fun _ => 5 / 4, by rw [centerOfMass_eq awayV_mesh, hs, if_neg (by norm_num)], ?_, ⟨?_, ?_⟩,
    rfl, ?_⟩
  · simp only [sumTriangles, tetraSurface, List.map_cons, List.map_nil, List.sum_cons, List.sum_nil,
      d1, d2, d3, d4]
    simp [pos, awayV]
    norm_num
  · simp [tetVolume, Matrix.det_fin_three, pos, awayV]
    norm_num
  · intro i
    fin_cases i <;> simp [tetVolume, tetCentroid, Matrix.det_fin_three, pos, awayV] <;> norm_num
  · intro v hv
    simp only [awayV, List.mem_cons, List.not_mem_nil, or_false] at hv
    rcases hv with rfl | rfl | rfl | rfl <;> norm_num

/-- C72: `center_of_mass` is `nan` exactly if the origin lies in the planes of all triangles -/
theorem C72_nan (h : Mesh V T) : centerOfMass V T = .ok none ↔
    ∀ a b c, [a, b, c] ∈ T → Matrix.det (Matrix.of ![pos V a, pos V b, pos V c]) = 0 := by
  have hdet : ∀ a b c, Matrix.det (Matrix.of ![pos V a, pos V b, pos V c]) = det3 V a b c := by
    intro a b c
    rw [Matrix.det_fin_three]
    simp [det3, dot, Fin.sum_univ_three, cross]
    ring
  simp only [hdet]
  have hsum : sumTriangles (fun a b c => |det3 V a b c|) T = 0 ↔
      ∀ a b c, [a, b, c] ∈ T → det3 V a b c = 0 := by
    rw [sumTriangles_eq]
    have key : ∀ L : List (List Nat), (∀ l ∈ L, l.length = 3) →
        0 ≤ (L.map (onTriangle fun a b c => |det3 V a b c|)).sum ∧
        ((L.map (onTriangle fun a b c => |det3 V a b c|)).sum = 0 ↔
          ∀ a b c, [a, b, c] ∈ L → det3 V a b c = 0) := by
      intro L
      induction L with
      | nil => simp
      | cons l L ih =>
        intro hL
        obtain ⟨i1, i2⟩ := ih fun l hl => hL l (by simp [hl])
        obtain ⟨a, b, c, rfl⟩ := triple (hL l (by simp))
        rw [List.map_cons, List.sum_cons]
        have h0 : 0 ≤ |det3 V a b c| := abs_nonneg _
        have e : onTriangle (fun a b c => |det3 V a b c|) [a, b, c] = |det3 V a b c| := rfl
        rw [e]
        refine ⟨by linarith, fun hs a' b' c' hm => ?_, fun hs => ?_⟩
        · rcases List.mem_cons.1 hm with hm | hm
          · simp only [List.cons.injEq, and_true] at hm
            obtain ⟨rfl, rfl, rfl⟩ := hm
            exact abs_eq_zero.1 (by linarith)
          · exact i2.1 (by linarith) a' b' c' hm
        · rw [hs a b c (by simp), i2.2 fun a b c hm => hs a b c (by simp [hm])]
          simp
    exact (key T fun l hl => (h.simplices l hl).1).2
  rw [centerOfMass_eq h, ← hsum]
  split <;> simp_all

/-- example for C72: a triangle in a plane through the origin -/
example : centerOfMass [![0, 0, 0], ![1, 0, 0], ![0, 1, 0]] [[0, 1, 2]] = .ok none := by
  rw [C72_nan ⟨simplices_of_all (by decide), by decide⟩]
  intro a b c hl
  simp only [List.mem_singleton, List.cons.injEq, and_true] at hl
  obtain ⟨rfl, rfl, rfl⟩ := hl
  rw [Matrix.det_fin_three]
  simp [pos]

/-! ### areas -/

/-- the area of a triangle -/
theorem triangle_area (x y z : Vec ℝ 3) :
    unsignedVolume (Matrix.of ![x, y, z]) = .ok (norm2 (cross (y - x) (z - y)) / 2) := by
  rw [unsignedVolume_eq (by norm_num)]
  congr 2
  · unfold norm2
    congr 1
    have : (edgeRows (Matrix.of ![x, y, z]) * (edgeRows (Matrix.of ![x, y, z])).transpose).det =
        dot (cross (y - x) (z - y)) (cross (y - x) (z - y)) := by
      rw [Matrix.det_fin_two]
      simp [Matrix.mul_apply, edgeRows, dot, Fin.sum_univ_three, cross]
      ring
    rw [this]
    refine abs_of_nonneg ?_
    unfold dot
    exact Finset.sum_nonneg fun i _ => mul_self_nonneg _

/-- C72: `area()` is the sum of the areas of the triangles -/
theorem C72_area (h : Mesh V T) : ∃ (A : ℝ) (as : List ℝ), area V T = .ok A ∧ A = as.sum ∧ as.length = T.length ∧
    ∀ (j a b c : Nat), T[j]? = some [a, b, c] → ∃ v, as[j]? = some v ∧
      unsignedVolume (Matrix.of ![pos V a, pos V b, pos V c]) = .ok v := by
  refine ⟨_, T.map (onTriangle fun a b c => norm2 (cross (pos V b - pos V a) (pos V c - pos V b)) / 2),
    by rw [area, normals_ok h]; rfl, ?_, by simp, ?_⟩
  · rw [List.map_map, div_eq_mul_inv, ← List.sum_map_mul_right]
    refine congrArg List.sum (List.map_congr_left fun l hl => ?_)
    obtain ⟨a, b, c, rfl⟩ := triple (h.simplices l hl).1
    simp [onTriangle, div_eq_mul_inv]
  · intro j a b c hj
    exact ⟨_, by rw [List.getElem?_map, hj]; rfl, triangle_area _ _ _⟩

theorem group_sum_real (N : List Nat → ℝ) (i : Nat) {T : List (List Nat)} (hT : Simplices 3 T) :
    (((T.flatten.zip ((T.map N).flatMap fun n => List.replicate 3 n)).filter
      fun p => p.1 = i).map Prod.snd).sum = (T.map fun l => if i ∈ l then N l else 0).sum := by
  induction T with
  | nil => rfl
  | cons l T ih =>
    obtain ⟨hl, hnd⟩ := hT l (by simp)
    have := ih fun l hl => hT l (by simp [hl])
    obtain ⟨a, b, c, rfl⟩ := triple hl
    rw [List.map_cons, List.flatMap_cons, List.flatten_cons, List.zip_append (by simp),
      List.filter_append, List.map_append, List.sum_append, this, List.map_cons, List.sum_cons]
    congr 1
    simp only [List.nodup_cons, List.mem_cons, List.not_mem_nil, or_false, not_or] at hnd
    obtain ⟨⟨h1, h2⟩, h3, _⟩ := hnd
    simp only [List.replicate, List.zip_cons_cons, List.zip_nil_right, List.filter_cons,
      List.filter_nil, decide_eq_true_eq, List.mem_cons, List.not_mem_nil, or_false]
    by_cases ha : a = i
    · subst ha
      simp [Ne.symm h1, Ne.symm h2]
    · by_cases hb : b = i
      · subst hb
        simp [ha, Ne.symm h3]
      · by_cases hc : c = i
        · subst hc
          simp [ha, hb]
        · simp [ha, hb, hc, Ne.symm ha, Ne.symm hb, Ne.symm hc]

theorem vertexAreas_ok (h : Mesh V T) : vertexAreas V T = .ok ((npUnique T.flatten).map fun i =>
    (T.map fun l => if i ∈ l then onTriangle (fun a b c =>
      norm2 (cross (pos V b - pos V a) (pos V c - pos V b))) l else 0).sum / 3) := by
  rw [vertexAreas, normals_ok h]
  simp only [bind, Except.bind]
  congr 1
  refine List.map_congr_left fun i _ => ?_
  rw [List.map_map, group_sum_real _ i h.simplices]
  congr 2
  refine List.map_congr_left fun l hl => ?_
  obtain ⟨a, b, c, rfl⟩ := triple (h.simplices l hl).1
  rfl

/-- C72: the entry of `vertex_areas()` for the vertex `i` of a mesh that uses the vertices `0 ... n-1` is
two thirds of the area of the triangles around it, and all of them together are twice `area()` -/
theorem C72_vertex_areas (h : Mesh V T) {n : Nat} (hn : ∀ v, (∃ l ∈ T, v ∈ l) ↔ v < n) :
    ∃ (A : ℝ) (va as : List ℝ), area V T = .ok A ∧ vertexAreas V T = .ok va ∧ va.length = n ∧ va.sum = 2 * A ∧
      as.length = T.length ∧
      (∀ (j a b c : Nat), T[j]? = some [a, b, c] → ∃ v, as[j]? = some v ∧
        unsignedVolume (Matrix.of ![pos V a, pos V b, pos V c]) = .ok v) ∧
      ∀ i < n, va[i]? = some (2 / 3 * (List.zipWith (fun l v => if i ∈ l then v else 0) T as).sum) := by
  have hu : npUnique T.flatten = List.range n := npUnique_range fun v => by
    rw [List.mem_flatten]; exact hn v
  obtain ⟨A, as, hA, hsum, hlen, has⟩ := C72_area h
  have hasv : as = T.map (onTriangle fun a b c =>
      norm2 (cross (pos V b - pos V a) (pos V c - pos V b)) / 2) := by
    apply List.ext_getElem
    · simp [hlen]
    · intro j h1 h2
      have hj : j < T.length := by omega
      obtain ⟨a, b, c, hl⟩ := triple (h.simplices T[j] (List.getElem_mem hj)).1
      obtain ⟨v, hv1, hv2⟩ := has j a b c (by rw [List.getElem?_eq_getElem hj, hl])
      rw [triangle_area] at hv2
      rw [List.getElem?_eq_getElem h1] at hv1
      rw [Option.some.inj hv1, ← Except.ok.inj hv2, List.getElem_map, hl]
      rfl
  refine ⟨A, _, as, hA, vertexAreas_ok h, by simp [hu], ?_, hlen, has, ?_⟩
  · rw [hu, hsum, hasv]
    simp only [div_eq_mul_inv (_ : ℝ) 3]
    rw [List.sum_map_mul_right]
    have hswap : ((List.range n).map fun i => (T.map fun l => if i ∈ l then onTriangle (fun a b c =>
        norm2 (cross (pos V b - pos V a) (pos V c - pos V b))) l else 0).sum).sum =
        (T.map fun l => 3 * onTriangle (fun a b c =>
        norm2 (cross (pos V b - pos V a) (pos V c - pos V b))) l).sum := by
      have hcomm : ∀ (R : List Nat) (L : List (List Nat)) (g : Nat → List Nat → ℝ),
          (R.map fun i => (L.map fun l => g i l).sum).sum =
            (L.map fun l => (R.map fun i => g i l).sum).sum := by
        intro R L g
        induction R with
        | nil => simp
        | cons r R ih => simp [ih, List.sum_map_add]
      rw [hcomm]
      refine congrArg List.sum (List.map_congr_left fun l hl => ?_)
      have hcount : ((List.range n).filter fun i => i ∈ l).length = 3 := by
        have hp : ((List.range n).filter fun i => i ∈ l).Perm l := by
          rw [List.perm_ext_iff_of_nodup (List.nodup_range.filter _) (h.simplices l hl).2]
          intro v
          rw [List.mem_filter, List.mem_range]
          simp only [decide_eq_true_eq]
          exact ⟨fun h => h.2, fun hv => ⟨(hn v).1 ⟨l, hl, hv⟩, hv⟩⟩
        rw [hp.length_eq, (h.simplices l hl).1]
      have : ∀ (R : List Nat) (x : ℝ), (R.map fun i => if i ∈ l then x else 0).sum =
          ((R.filter fun i => i ∈ l).length : ℝ) * x := by
        intro R x
        induction R with
        | nil => simp
        | cons r R ih =>
          rw [List.map_cons, List.sum_cons, ih, List.filter_cons]
          by_cases hr : r ∈ l
          · simp [hr]; ring
          · simp [hr]
      rw [this, hcount]
      norm_num
    rw [hswap, List.sum_map_mul_left]
    have : (T.map (onTriangle fun a b c =>
        norm2 (cross (pos V b - pos V a) (pos V c - pos V b)) / 2)).sum =
        (T.map fun l => onTriangle (fun a b c =>
        norm2 (cross (pos V b - pos V a) (pos V c - pos V b))) l).sum * (2 : ℝ)⁻¹ := by
      rw [← List.sum_map_mul_right]
      refine congrArg List.sum (List.map_congr_left fun l hl => ?_)
      obtain ⟨a, b, c, rfl⟩ := triple (h.simplices l hl).1
      simp [onTriangle, div_eq_mul_inv]
    rw [this]
    ring
  · intro i hi
    rw [hu, List.getElem?_map, List.getElem?_range hi, hasv]
    simp only [Option.map_some]
    congr 1
    rw [List.zipWith_map_right, List.zipWith_self, ← List.sum_map_mul_left, div_eq_mul_inv,
      ← List.sum_map_mul_right]
    refine congrArg List.sum (List.map_congr_left fun l hl => ?_)
    obtain ⟨a, b, c, rfl⟩ := triple (h.simplices l hl).1
    simp only [onTriangle]
    split
    · ring
    · ring

/-- example for C72: a right triangle has area 1/2, and its corners together have area 1 -/
example : area [![0, 0, 0], ![1, 0, 0], ![0, 1, 0]] [[0, 1, 2]] = .ok (1 / 2) ∧
    ∃ va, vertexAreas [![0, 0, 0], ![1, 0, 0], ![0, 1, 0]] [[0, 1, 2]] = .ok va ∧ va.sum = 1 := by
  have hm : Mesh (K := ℝ) [![0, 0, 0], ![1, 0, 0], ![0, 1, 0]] [[0, 1, 2]] :=
    ⟨simplices_of_all (by decide), by decide⟩
  have hA : area [![0, 0, 0], ![1, 0, 0], ![0, 1, 0]] [[0, 1, 2]] = .ok (1 / 2) := by
    rw [area, normals_ok hm]
    simp [bind, Except.bind, onTriangle, pos, cross, norm2, dot, Fin.sum_univ_three]
  refine ⟨hA, ?_⟩
  obtain ⟨A, va, -, h1, h2, -, h3, -⟩ := C72_vertex_areas hm (n := 3) (by
    intro v
    simp only [exists_eq_left, List.mem_cons, List.not_mem_nil, or_false]
    omega)
  refine ⟨va, h2, ?_⟩
  rw [h3, ← Except.ok.inj (hA.symm.trans h1)]
  norm_num

/-! ### edge lengths -/

/-- C72: `edge_lengths()` are the distances between the ends of the edges, in their order, for every
simplicial complex of two or more dimensions or a mesh of edges -/
theorem C72_edge_lengths {uniq : List (List Nat) → List (List Nat)} {nCorners d : Nat}
    {simplices : List (List Nat)} {t : Topo} (hu : UniqSpec uniq) (hs : Simplices nCorners simplices)
    (h : fromSimplices uniq nCorners simplices = .ok t) (W : List (Vec ℝ d))
    (hW : W.length = t.nElements 0) :
    ∃ ls, edgeLengths t W = .ok ls ∧ ls.length = t.nElements 1 ∧
      ∀ (j a b : Nat), (t.elements[1]?.getD [])[j]? = some [a, b] →
        ls[j]? = some (Real.sqrt (∑ k, (W[a]?.getD 0 k - W[b]?.getD 0 k) ^ 2)) := by
  obtain ⟨n, hn, hpos, wf⟩ := wf_of_ok hu hs h
  have hsh := wf.shape (k := 0) (by omega)
  refine ⟨_, by rw [edgeLengths]; simp only [hsh.1, hW]; rw [if_neg (by simp)], by simp [hsh.2], ?_⟩
  intro j a b hj
  have hjlt : j < t.nElements 1 := (List.getElem?_eq_some_iff.1 hj).1
  rw [hsh.2, List.getElem?_map, List.getElem?_range hjlt, Option.map_some]
  congr 1
  have hnd : a ≠ b := by
    have := ((wf.get (k := 0) (by omega)).2.1 _ (List.mem_of_getElem? hj)).2
    simpa using this
  have hv : ∀ v e, (t.elements[0]?.getD [])[v]? = some e → e = [v] := fun v e => wf.vertex hpos
  have hrel : ∀ i x : Nat, relSign [i] [x] = if i = x then 1 else 0 := by
    intro i x
    by_cases h : i = x
    · subst h
      have h0 : sgn [0] = 1 := by decide
      simp [relSign, List.isPerm, h0]
    · simp [relSign, List.isPerm, h]
  have hent : ∀ i < t.nElements 0, ((t.matrix 0).entry i j : ℝ) =
      levelSign 0 * ((if i = b then 1 else 0) - if i = a then 1 else 0) := by
    intro i hi
    have e := wf.entry (k := 0) (by omega) hi hjlt
    rw [hj, Option.getD_some, ← inducedSign_eq_cob] at e
    have hi' := List.getElem?_eq_getElem (l := t.elements[0]?.getD []) hi
    rw [hi', Option.getD_some, hv i _ hi'] at e
    rw [e]
    have : inducedSign [i] [a, b] = (if i = b then 1 else 0) - if i = a then 1 else 0 := by
      have h2 : List.range 2 = [0, 1] := rfl
      simp only [inducedSign, List.length_cons, List.length_nil, zero_add, Nat.reduceAdd, h2,
        List.map_cons, List.map_nil, List.sum_cons, List.sum_nil, pow_zero, pow_one, one_mul,
        List.eraseIdx_cons_zero, List.eraseIdx_cons_succ, add_zero, hrel]
      ring
    rw [this]
    push_cast
    rfl
  have hface : ∀ c x, c < 2 → [a, b].eraseIdx c = [x] → x < t.nElements 0 := by
    intro c x hc hx
    obtain ⟨e, he, hp⟩ := (wf.get (k := 0) (by omega)).2.2.2.1.1 _ (List.mem_of_getElem? hj) c hc
    obtain ⟨p, hp'⟩ := List.mem_iff_getElem?.1 he
    rw [hx, hv p e hp'] at hp
    have : p = x := by simpa using hp
    rw [← this]
    exact (List.getElem?_eq_some_iff.1 hp').1
  have ha : a < t.nElements 0 := hface 1 a (by norm_num) rfl
  have hb : b < t.nElements 0 := hface 0 b (by norm_num) rfl
  unfold norm2
  congr 1
  unfold dot
  refine Finset.sum_congr rfl fun k _ => ?_
  have hsum : ((List.range (t.nElements 0)).map fun i =>
      ((t.matrix 0).entry i j : ℝ) * W[i]?.getD 0 k).sum =
      levelSign 0 * (W[b]?.getD 0 k - W[a]?.getD 0 k) := by
    rw [sum_range_list]
    have : ∀ i ∈ Finset.range (t.nElements 0), ((t.matrix 0).entry i j : ℝ) * W[i]?.getD 0 k =
        levelSign 0 * ((if i = b then W[i]?.getD 0 k else 0) - if i = a then W[i]?.getD 0 k else 0) := by
      intro i hi
      rw [hent i (Finset.mem_range.1 hi)]
      have e1 : (if i = b then W[i]?.getD 0 k else 0) = (if i = b then 1 else 0) * W[i]?.getD 0 k := by
        split <;> simp
      have e2 : (if i = a then W[i]?.getD 0 k else 0) = (if i = a then 1 else 0) * W[i]?.getD 0 k := by
        split <;> simp
      rw [e1, e2]
      ring
    rw [Finset.sum_congr rfl this, ← Finset.mul_sum, Finset.sum_sub_distrib, Finset.sum_ite_eq',
      Finset.sum_ite_eq', if_pos (Finset.mem_range.2 hb), if_pos (Finset.mem_range.2 ha)]
  simp only [hsum]
  rcases WF.levelSign_ne 0 with h | h <;> rw [h] <;> push_cast <;> ring

/-- C72: `edge_lengths()` is rejected if the number of positions is not the number of vertices -/
theorem C72_edge_lengths_rejects {uniq : List (List Nat) → List (List Nat)} {nCorners d : Nat}
    {simplices : List (List Nat)} {t : Topo} (hu : UniqSpec uniq) (hs : Simplices nCorners simplices)
    (h : fromSimplices uniq nCorners simplices = .ok t) (W : List (Vec ℝ d))
    (hW : W.length ≠ t.nElements 0) : edgeLengths t W = .error .valueError := by
  obtain ⟨n, hn, hpos, wf⟩ := wf_of_ok hu hs h
  rw [edgeLengths]
  simp only [(wf.shape (k := 0) (by omega)).1]
  rw [if_pos hW]

/-- example for C72: the edges of the tetrahedron -/
example : ∃ ls, edgeLengths (built 3 tetraSurface) homeV = .ok ls ∧ ls.length = 6 ∧
    ∀ (j a b : Nat), ((built 3 tetraSurface).elements[1]?.getD [])[j]? = some [a, b] →
      ls[j]? = some (Real.sqrt (∑ k, (homeV[a]?.getD 0 k - homeV[b]?.getD 0 k) ^ 2)) := by
  have hb : fromSimplices List.dedup 3 tetraSurface = .ok (built 3 tetraSurface) := by decide +kernel
  have h6 : (built 3 tetraSurface).nElements 1 = 6 := by decide +kernel
  have h4 : (built 3 tetraSurface).nElements 0 = 4 := by decide +kernel
  have := C72_edge_lengths uniqSpec_dedup (simplices_of_all (by decide)) hb homeV (by rw [h4]; rfl)
  rwa [h6] at this

end Verif.Props
