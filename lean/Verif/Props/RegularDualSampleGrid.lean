/-
C84 for grids: cases and limits.
-/
import Verif.Props.RegularDualSample

set_option linter.unusedSectionVars false

namespace Verif.Props

open Verif Verif.Model Verif.Spec

variable {K : Type} [Field K] [LinearOrder K] [IsStrictOrderedRing K]
variable {uniq : List (List Nat) → List (List Nat)} {solve : List (List Int) → Option (List Int)}
variable {t : Topo} {s : Sub} {shape : List Nat}

theorem boxVertices_inj {o h : Vec K shape.length} (hh : ∀ q, 0 < h q) {v w : Nat}
    (hv : v < (gridVertices (K := K) shape false).length) (hw : w < (gridVertices (K := K) shape false).length)
    (he : (boxVertices shape o h)[v]?.getD 0 = (boxVertices shape o h)[w]?.getD 0) : v = w := by
  unfold boxVertices at he
  rw [List.getElem?_map, List.getElem?_map, List.getElem?_eq_getElem hv, List.getElem?_eq_getElem hw, Option.map_some,
    Option.map_some, Option.getD_some, Option.getD_some] at he
  have hlen : ∀ x ∈ gridVertices (K := K) shape false, x.length = shape.length := by
    intro x hx
    simp only [gridVertices, Bool.false_eq_true, if_false] at hx
    obtain ⟨y, hy, rfl⟩ := List.mem_map.1 hx
    have := (mem_gridIndices.1 hy).length_eq
    simpa [vshape] using this
  have hnd : (gridVertices (K := K) shape false).Nodup := by
    simp only [gridVertices, Bool.false_eq_true, if_false]
    exact (gridIndices_nodup _).map (List.map_injective_iff.2 Nat.cast_injective)
  suffices hvw : (gridVertices (K := K) shape false)[v] = (gridVertices (K := K) shape false)[w] from hnd.getElem_inj_iff.1 hvw
  refine List.ext_getElem ?_ fun q hq hq' => ?_
  · rw [hlen _ (List.getElem_mem hv), hlen _ (List.getElem_mem hw)]
  · have hqs : q < shape.length := by rwa [hlen _ (List.getElem_mem hv)] at hq
    have := congrFun he ⟨q, hqs⟩
    simp only [List.getElem?_eq_getElem hq, List.getElem?_eq_getElem hq', Option.getD_some] at this
    exact mul_right_cancel₀ (hh ⟨q, hqs⟩).ne' (add_left_cancel this)

theorem grid_separate {o h : Vec K shape.length} (hh : ∀ q, 0 < h q) (hs : ∀ m ∈ shape, 1 ≤ m) :
    Separate (boxVertices shape o h) (gridCubes shape) := by
  refine ⟨fun l hl l' hl' v hv w hw he => boxVertices_inj hh ((C22_vertices hs v).1 ⟨l, hl, hv⟩)
    ((C22_vertices hs w).1 ⟨l', hl', hw⟩) he, fun i j l l' hi hj hp => ?_⟩
  have hle : ∀ (i j : Nat) (l l' c c' : List Nat), (gridCubes shape)[i]? = some l → (gridCubes shape)[j]? = some l' → l.Perm l' →
      Spec.IsCell shape c → Spec.IsCell shape c' →
      (∀ s : List Bool, s.length = shape.length → (gridVertices (K := K) shape false)[cubeAt l s]? =
        some ((cellCorner c s).map fun (x : Nat) => (x : K))) →
      (∀ s : List Bool, s.length = shape.length → (gridVertices (K := K) shape false)[cubeAt l' s]? =
        some ((cellCorner c' s).map fun (x : Nat) => (x : K))) → ∀ q : Fin shape.length, c'[q.val]?.getD 0 ≤ c[q.val]?.getD 0 := by
    intro i j l l' c c' hi hj hp hc hc' hco hco' q
    have hll := (gridCubes_cubes shape l (List.mem_of_getElem? hi)).1
    have hll' := (gridCubes_cubes shape l' (List.mem_of_getElem? hj)).1
    have hv : cubeAt l (List.replicate shape.length false) ∈ l' := hp.mem_iff.1 (cubeAt_mem hll (by simp))
    obtain ⟨x, hx⟩ := List.mem_iff_getElem?.1 hv
    have hxl := (List.getElem?_eq_some_iff.1 hx).1
    rw [hll'] at hxl
    obtain ⟨s', hs', rfl⟩ := exists_ravel hxl
    have hx' : cubeAt l' s' = cubeAt l (List.replicate shape.length false) := by
      unfold cubeAt
      rw [hx]
      rfl
    have e1 := grid_cell_coord (o := o) (h := h) hc hco (List.replicate shape.length false) (by simp) q
    have e2 := grid_cell_coord (o := o) (h := h) hc' hco' s' hs' q
    rw [hx', e1] at e2
    have e3 := mul_right_cancel₀ (hh q).ne' (add_left_cancel e2)
    rw [if_neg (by rw [List.getElem?_replicate]; split <;> simp), add_zero] at e3
    have : ((c'[q.val]?.getD 0 : Nat) : K) ≤ ((c[q.val]?.getD 0 : Nat) : K) := by
      rw [e3]
      split <;> simp
    exact_mod_cast this
  obtain ⟨c, hc, hco⟩ := C22_corners (K := K) i l hi
  obtain ⟨c', hc', hco'⟩ := C22_corners (K := K) j l' hj
  have hcc : c = c' := by
    refine List.ext_getElem (by rw [hc.length_eq, hc'.length_eq]) fun q hq hq' => ?_
    have hqs : q < shape.length := by rwa [← hc.length_eq]
    have h1 := hle i j l l' c c' hi hj hp hc hc' hco hco' ⟨q, hqs⟩
    have h2 := hle j i l' l c' c hj hi hp.symm hc' hc hco' hco ⟨q, hqs⟩
    simp only [List.getElem?_eq_getElem hq, List.getElem?_eq_getElem hq', Option.getD_some] at h1 h2
    omega
  subst hcc
  exact (C22_cells (K := K) c hc).unique ⟨l, hi, hco⟩ ⟨l', hj, hco'⟩

theorem grid_wellInside {o h : Vec K shape.length} (hh : ∀ q, 0 < h q) (hs : ∀ m ∈ shape, 1 ≤ m) {p : Vec K shape.length}
    (hp : ∀ q : Fin shape.length, o q + h q / 2 < p q ∧ p q < o q + (shape[q] - 1 / 2) * h q) :
    WellInside (boxVertices shape o h) (gridCubes shape) h p := by
  refine ⟨fun q => min (p q - o q) (o q + shape[q] * h q - p q), fun q => lt_min ?_ ?_, fun y hy => grid_covers hh hs fun q => ?_⟩
  · linarith [(hp q).1]
  · have := (hp q).2
    linarith
  · have h1 := abs_le.1 ((hy q).trans (min_le_left _ _))
    have h2 := abs_le.1 ((hy q).trans (min_le_right _ _))
    constructor
    · linarith [h1.1]
    · linarith [h2.2]

/-- C84 for grids: on `n_cube_grid`, scaled by any positive spacings and moved anywhere, functions that are affine in each
coordinate are recovered from their values at the middles of the cells, at all points more than half a cell away from the
ends of the grid -/
theorem C84_grid {a b : Nat} {rest : List Nat} (hu : UniqSpec uniq) (hsat : SatSpec solve) (hn : rest.length + 2 ≤ 5)
    (hs : ∀ m ∈ a :: b :: rest, 1 ≤ m) (ht : nCubeGrid uniq (a :: b :: rest) true = .ok t)
    (hb : cubicalBoundary solve uniq t = .ok (some s)) {ms : List (Mat Int)} (hd : cubicalDual solve uniq t = .ok ms)
    (hord : InOrder s.parentIdx) {o h : Vec K (rest.length + 2)} (hh : ∀ q, 0 < h q)
    {nearest : List (Vec K (rest.length + 2)) → Vec K (rest.length + 2) → Nat} (hnear : NearestSite nearest) :
    ∃ m, ∀ (f : Vec K (rest.length + 2) → K) (edge : List K) (points : List (Vec K (rest.length + 2))), AffineInEach f →
      edge.length = m →
      (∀ p ∈ points, ∀ q : Fin (rest.length + 2), o q + h q / 2 < p q ∧ p q < o q + ((a :: b :: rest)[q] - 1 / 2) * h q) →
      sampleDualRegular solve uniq nearest t (boxVertices (a :: b :: rest) o h)
        (((gridCubes (a :: b :: rest)).map fun l => f (cubeCenter (n := rest.length + 2) (boxVertices (a :: b :: rest) o h) l)) ++ edge)
        points = .ok (points.map f) := by
  have hne : gridCubes (a :: b :: rest) ≠ [] := by
    intro h0
    have hc := C22_count (a :: b :: rest)
    rw [h0, List.length_nil] at hc
    exact (List.prod_pos fun m hm => hs m hm).ne hc
  obtain ⟨m, hm⟩ := C84_exact (n := rest.length) (V := boxVertices (a :: b :: rest) o h) hu (gridCubes_cubes (a :: b :: rest)) hsat ht
    hn hb hd hord hne (grid_is_boxes (shape := a :: b :: rest) hh) (grid_upright (shape := a :: b :: rest))
    (grid_onGrid (shape := a :: b :: rest) (o := o) hh) (grid_separate (shape := a :: b :: rest) hh hs) hnear
  exact ⟨m, fun f edge points hf he hp => hm f edge points hf he fun p hpp =>
    grid_wellInside (shape := a :: b :: rest) hh hs (hp p hpp)⟩

/-! ### cases and limits -/

/-- cubes on a path are connected -/
theorem cubesConnected_of_path {k : Nat} {cubes : List (List Nat)} (path : List Nat) (es : List (List Nat))
    (hall : ∀ j < cubes.length, j ∈ path)
    (hstep : ∀ i < path.length - 1, (path[i]?.getD 0 ≠ path[i + 1]?.getD 0 ∧ path[i]?.getD 0 < cubes.length ∧
      path[i + 1]?.getD 0 < cubes.length) ∧ ∀ j < cubes.length, IsCubeSide k (es[i]?.getD []) (cubes[j]?.getD []) ↔
        j = path[i]?.getD 0 ∨ j = path[i + 1]?.getD 0) : CubesConnected k cubes := by
  have hsym : ∀ {e : List Nat} {a b : Nat}, SharedSide k cubes e a b → SharedSide k cubes e b a := by
    rintro e a b ⟨h1, h2, h3, h4⟩
    exact ⟨h1.symm, h3, h2, fun j l hj => (h4 j l hj).trans or_comm⟩
  have hreach : ∀ i < path.length, Relation.ReflTransGen (fun a b => ∃ e, SharedSide k cubes e a b) (path[0]?.getD 0) (path[i]?.getD 0) ∧
      Relation.ReflTransGen (fun a b => ∃ e, SharedSide k cubes e a b) (path[i]?.getD 0) (path[0]?.getD 0) := by
    intro i
    induction i with
    | zero => intro _; exact ⟨.refl, .refl⟩
    | succ i ih =>
      intro hi
      obtain ⟨h1, h2⟩ := ih (by omega)
      obtain ⟨h3, h4⟩ := hstep i (by omega)
      have h5 := sharedSide_of_check h3 h4
      exact ⟨h1.trans (.single ⟨_, h5⟩), (Relation.ReflTransGen.single ⟨_, hsym h5⟩).trans h2⟩
  intro j1 h1 j2 h2
  obtain ⟨i1, e1⟩ := List.mem_iff_getElem?.1 (hall j1 h1)
  obtain ⟨i2, e2⟩ := List.mem_iff_getElem?.1 (hall j2 h2)
  have r1 := (hreach i1 (List.getElem?_eq_some_iff.1 e1).1).2
  have r2 := (hreach i2 (List.getElem?_eq_some_iff.1 e2).1).1
  rw [e1, Option.getD_some] at r1
  rw [e2, Option.getD_some] at r2
  exact r1.trans r2

/-- a grid of squares -/
def squaresGrid (a b : Nat) : Topo := (nCubeGrid List.dedup [a, b] true).toOption.getD ⟨[], [], []⟩

/-- the boundary of a grid of squares -/
def squaresEdge (a b : Nat) : Sub := (subCubes List.dedup 1 (squaresGrid a b) (bRows (squaresGrid a b))).toOption.getD ⟨⟨[], [], []⟩, []⟩

/-- the matrices of the dual of a grid of squares -/
def squaresDual (a b : Nat) : List (Mat Int) :=
  (((List.range 2).mapM (gluedMatrix (squaresGrid a b) (squaresEdge a b))).toOption.getD []).reverse

theorem squares_dual {a b : Nat} (hsat : SatSpec solve) (hs : ∀ m ∈ [a, b], 1 ≤ m)
    (ht : nCubeGrid List.dedup [a, b] true = .ok (squaresGrid a b))
    (hl : (squaresGrid a b).boundary.length = 2)
    (hbe : (bIdx (squaresGrid a b)).length ≠ 0 ∧
      subCubes List.dedup 1 (squaresGrid a b) (bRows (squaresGrid a b)) = .ok (squaresEdge a b))
    (hcon : CubesConnected 0 ((squaresEdge a b).topo.elements[1]?.getD []))
    (hm : ((List.range 2).mapM (gluedMatrix (squaresGrid a b) (squaresEdge a b))).toBool = true) :
    cubicalBoundary solve List.dedup (squaresGrid a b) = .ok (some (squaresEdge a b)) ∧
      InOrder (squaresEdge a b).parentIdx ∧ cubicalDual solve List.dedup (squaresGrid a b) = .ok (squaresDual a b) := by
  have hor := C22_oriented uniqSpec_dedup hsat (shape := [a, b]) (by simp) ht
  have hc : Cubes 2 (gridCubes [a, b]) := gridCubes_cubes [a, b]
  have hb : cubicalBoundary solve List.dedup (squaresGrid a b) = .ok (some (squaresEdge a b)) := by
    rw [cubicalBoundary_eq hor, hl, if_neg hbe.1, hbe.2]
    rfl
  have h2 : SidesAtMostTwo 1 (gridCubes [a, b]) := by
    have hh : ∀ q : Fin [a, b].length, (0 : ℚ) < (fun _ => 1 : Vec ℚ [a, b].length) q := fun _ => one_pos
    exact sides_two (n := 2) (k := 1) (V := boxVertices [a, b] (fun _ => 0) fun _ => 1) (o := fun _ => 0) (h := fun _ => 1)
      (fun l hl => (hc l hl).1) (fun l hl => (hc l hl).2) (grid_is_boxes (shape := [a, b]) hh) (grid_upright (shape := [a, b]))
      (grid_onGrid (shape := [a, b]) hh) (grid_separate (shape := [a, b]) hh hs) rfl
  have hor' := (C76_boundary_coherent_and_closed (n := 0) uniqSpec_dedup hc hsat ht h2 hor hb).2.2.2 hcon
  refine ⟨hb, C83_in_order_squares uniqSpec_dedup hc ht hb, ?_⟩
  unfold cubicalDual
  rw [hb]
  simp only [bind, Except.bind, dualMatrices, hor', hl]
  unfold squaresDual
  cases hms : (List.range 2).mapM (gluedMatrix (squaresGrid a b) (squaresEdge a b)) with
  | error e => rw [hms] at hm; simp [Except.toBool] at hm
  | ok ms => rfl

/-- C84, a case: a grid of 3 by 3 squares meets the hypotheses, and `x * y` is recovered at a point of the middle square from
its values at the middles of the squares, with zeros at the boundary -/
theorem C84_case (hsat : SatSpec solve) :
    nCubeGrid List.dedup [3, 3] true = .ok (squaresGrid 3 3) ∧
    cubicalBoundary solve List.dedup (squaresGrid 3 3) = .ok (some (squaresEdge 3 3)) ∧ InOrder (squaresEdge 3 3).parentIdx ∧
    cubicalDual solve List.dedup (squaresGrid 3 3) = .ok (squaresDual 3 3) ∧
    ∃ m, ∀ points : List (Vec ℚ 2), (∀ p ∈ points, ∀ q, 1 < p q ∧ p q < 5) →
      sampleDualRegular solve List.dedup firstNearest (squaresGrid 3 3) (boxVertices [3, 3] (fun _ => 0) fun _ => 2)
        ((gridCubes [3, 3]).map (fun l => cubeCenter (n := 2) (boxVertices [3, 3] (fun _ => (0 : ℚ)) fun _ => 2) l 0 *
          cubeCenter (n := 2) (boxVertices [3, 3] (fun _ => (0 : ℚ)) fun _ => 2) l 1) ++ List.replicate m 0) points =
        .ok (points.map fun p => p 0 * p 1) := by
  have ht : nCubeGrid List.dedup [3, 3] true = .ok (squaresGrid 3 3) := by decide +kernel
  have hE : (squaresEdge 3 3).topo.elements[1]?.getD [] =
      [[0, 1], [4, 0], [1, 2], [2, 3], [3, 5], [6, 4], [5, 7], [9, 8], [8, 6], [10, 9], [11, 10], [7, 11]] := by decide +kernel
  obtain ⟨h1, h2, h3⟩ := squares_dual hsat (a := 3) (b := 3) (by decide) ht (by decide +kernel) (by decide +kernel) (by
    rw [hE]
    exact cubesConnected_of_path [0, 2, 3, 4, 6, 11, 10, 9, 7, 8, 5, 1]
      [[1], [2], [3], [5], [7], [11], [10], [9], [8], [6], [4]] (by decide) (by decide +kernel)) (by decide +kernel)
  refine ⟨ht, h1, h2, h3, ?_⟩
  obtain ⟨m, hm⟩ := C84_grid (K := ℚ) (a := 3) (b := 3) (rest := []) (o := fun _ => 0) (h := fun _ => 2) uniqSpec_dedup hsat (by decide)
    (by decide) ht h1 h3 h2 (fun _ => by norm_num) firstNearest_spec
  refine ⟨m, fun points hp => hm (fun p => p 0 * p 1) (List.replicate m 0) points ?_ (by simp) fun p hpp q => ?_⟩
  · intro x q a b s
    fin_cases q <;> simp [Function.update] <;> ring
  · have := hp p hpp q
    fin_cases q <;> norm_num <;> exact this

/-- C84, limit: at the boundary the values there are not kept but averaged with others.  On one square with the values of
`x` at its middle and at the middles of its sides, the value at the corner `(0, 0)` is `1/3` and not `0`, and the value at
the middle `(0, 1/2)` of a side is `1/4` and not the value `0` that was given for it -/
theorem C84_at_boundary (hsat : SatSpec solve) :
    ((squaresGrid 1 1).elements[1]?.getD []).map (fun e => centerOf (boxVertices (K := ℚ) [1, 1] (fun _ => 0) fun _ => 1) e 0) =
      [0, 1, 1 / 2, 1 / 2] ∧
    sampleDualRegular solve List.dedup firstNearest (squaresGrid 1 1) (boxVertices [1, 1] (fun _ => 0) fun _ => 1)
      ([1 / 2, 0, 1, 1 / 2, 1 / 2] : List ℚ) [![0, 0], ![0, 1 / 2], ![1 / 2, 1 / 2]] = .ok [1 / 3, 1 / 4, 1 / 2] := by
  have hE : (squaresEdge 1 1).topo.elements[1]?.getD [] = [[0, 1], [3, 2], [2, 0], [1, 3]] := by decide +kernel
  obtain ⟨-, -, h3⟩ := squares_dual hsat (a := 1) (b := 1) (by decide) (by decide +kernel) (by decide +kernel) (by decide +kernel) (by
    rw [hE]
    exact cubesConnected_of_path [0, 3, 1, 2] [[1], [3], [2]] (by decide) (by decide +kernel)) (by decide +kernel)
  refine ⟨by decide +kernel, ?_⟩
  unfold sampleDualRegular
  rw [h3, regular_bind]
  decide +kernel

end Verif.Props
