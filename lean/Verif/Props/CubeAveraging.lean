/-
C68: averaging operators and degrees of cubical topologies.
-/
import Verif.Lemmas.CubeAveraging
import Verif.Props.Averaging
import Verif.Props.CubicalComplex

set_option linter.unusedSectionVars false

namespace Verif.Props

open Verif.Model Verif.Spec

variable {K : Type} [Field K] [CharZero K]
variable {uniq : List (List Nat) → List (List Nat)} {cubes : List (List Nat)} {t : Topo} {n : Nat}

theorem cubeAveraging0 (hu : UniqSpec uniq) (hc : Cubes n cubes) (hn : 1 ≤ n) (h : fromCubes uniq true n cubes = .ok t) :
    ∃ L : List (Mat K), averagingOperators0 t.matrices = .ok L ∧ L.length = n + 1 ∧
      ∀ k ≤ n, ∃ A, L[k]? = some A ∧ A.rows = t.nElements k ∧ A.cols = t.nElements 0 ∧
        ∀ E, t.elements[k]? = some E → ∀ j l, E[j]? = some l → ∀ x : Nat → K,
          ((List.range A.cols).map fun v => A.entry j v * x v).sum =
            ((wrap8 (k.factorial : ℤ) : ℤ) : K) / ((wrap8 (wrap8 (k.factorial : ℤ)).natAbs : ℤ) : K) *
              mean (l.map x) := by
  have w := fromCubes_wf hu hc h
  obtain ⟨L, h1, h2, h3⟩ := w.accumulated0 (by omega)
  refine ⟨L.map fun a => normalizeL1 a.transpose, ?_, by rw [List.length_map, h2], fun k hk => ?_⟩
  · unfold averagingOperators0
    rw [h1]
    rfl
  · obtain ⟨A, g1, g2, g3, g4⟩ := h3 k hk
    refine ⟨_, by rw [List.getElem?_map, g1]; rfl, g3, g2, fun E hE j l hl x => ?_⟩
    obtain ⟨hco, hj⟩ := corners_eq hE hl
    have hst : (t.elements[k]?.getD [])[j]? = some l := by rw [hE]; exact hl
    have hnd := (w.cube hn hk hst).2
    show ((List.range A.rows).map _).sum = _
    rw [normalize_row (fun v => l.contains v) (k.factorial : ℤ)]
    · congr 1
      have hp := filter_contains_perm hnd (N := A.rows) (by
        rw [g2]; exact fun v hv => corners_lt w hn hk hst hv)
      unfold mean
      rw [(hp.map x).sum_eq, (hp.map x).length_eq]
    · intro v hv
      rw [g4 v (by omega) j hj, hco]
      simp only [List.contains_iff_mem]

theorem hasFace_corners (w : CWF n cubes t) (hn : 1 ≤ n) {k i j : Nat} (hk : k ≤ n) (hi : i < t.nElements k)
    (hj : j < t.nElements n) :
    hasFace (n - k) k (cubes[j]?.getD []) (WF.corners t k i) = true ↔ FaceOf n (WF.corners t k i) (WF.corners t n j) := by
  have hcn : WF.corners t n j = cubes[j]?.getD [] := by
    unfold WF.corners; rw [w.top_eq, Option.getD_some]
  have := w.cube hn (le_refl n) (CWF.stored_corners hj)
  have h2 := hasFace_iff (w.corners_length hk hi) (d := n - k) (l := WF.corners t n j)
    (by rw [show k + (n - k) = n by omega]; exact this.1) this.2
  rw [show k + (n - k) = n by omega] at h2
  rw [← hcn]
  exact h2

theorem cubeAveragingN (hu : UniqSpec uniq) (hc : Cubes n cubes) (hn : 1 ≤ n) (h : fromCubes uniq true n cubes = .ok t) :
    ∃ L : List (Mat K), averagingOperatorsN t.matrices = .ok L ∧ L.length = n + 1 ∧
      (∃ A, L[n]? = some A ∧ A.rows = cubes.length ∧ A.cols = cubes.length ∧
        ∀ i < cubes.length, ∀ x : Nat → K,
          ((List.range A.cols).map fun j => A.entry i j * x j).sum = x i) ∧
      ∀ k < n, ∃ A, L[k]? = some A ∧ A.rows = t.nElements k ∧ A.cols = cubes.length ∧
        ∀ E, t.elements[k]? = some E → ∀ i e, E[i]? = some e → ∀ x : Nat → K,
          ((List.range A.cols).map fun j => A.entry i j * x j).sum =
            ((wrap8 ((n - k).factorial : ℤ) : ℤ) : K) /
              ((wrap8 (wrap8 ((n - k).factorial : ℤ)).natAbs : ℤ) : K) *
              mean ((cubesAround n k cubes e).map x) := by
  have w := fromCubes_wf hu hc h
  obtain ⟨L, h1, h2, ⟨A, a1, a2, a3, a4⟩, h3⟩ := w.accumulatedN (by omega)
  have hN : t.nElements n = cubes.length := by
    unfold Topo.nElements; rw [w.top_eq]; rfl
  refine ⟨L.map fun a => normalizeL1 a.transpose, ?_, by rw [List.length_map, h2], ?_, fun k hk => ?_⟩
  · unfold averagingOperatorsN
    rw [h1]
    rfl
  · refine ⟨_, by rw [List.getElem?_map, a1]; rfl, a3.trans hN, a2.trans hN, fun i hi x => ?_⟩
    show ((List.range A.rows).map _).sum = _
    rw [normalize_row (fun j => j == i) 1]
    · have : (List.range A.rows).filter (fun j => j == i) = [i] := by
        rw [List.filter_beq, List.count_eq_one_of_mem List.nodup_range
          (List.mem_range.2 (by omega)), List.replicate_one]
      rw [this]
      unfold mean
      rw [show wrap8 1 = 1 from rfl, show wrap8 ((1 : ℤ).natAbs : ℤ) = 1 from rfl]
      simp
    · intro j _
      rw [a4]
      simp only [beq_iff_eq]
      split <;> rfl
  · obtain ⟨A, g1, g2, g3, g4⟩ := h3 k hk
    refine ⟨_, by rw [List.getElem?_map, g1]; rfl, g3, g2.trans hN, fun E hE i e he x => ?_⟩
    obtain ⟨hco, hi⟩ := corners_eq hE he
    show ((List.range A.rows).map _).sum = _
    rw [normalize_row (fun j => hasFace (n - k) k (cubes[j]?.getD []) e) ((n - k).factorial : ℤ), g2, hN]
    · rfl
    · intro j hj
      rw [g4 j (by omega) i hi, ← hco]
      have hb := hasFace_corners w hn hk.le hi (show j < t.nElements n by omega)
      by_cases hsub : FaceOf n (WF.corners t k i) (WF.corners t n j)
      · rw [if_pos hsub, if_pos (hb.2 hsub)]
      · rw [if_neg hsub, if_neg fun h => hsub (hb.1 h)]

/-- every element is a face of some cube -/
theorem cubesAround_ne_nil (hu : UniqSpec uniq) (hc : Cubes n cubes) (hn : 1 ≤ n) (h : fromCubes uniq true n cubes = .ok t)
    {k : Nat} (hk : k ≤ n) {E : List (List Nat)} (hE : t.elements[k]? = some E) {e : List Nat} (he : e ∈ E) :
    cubesAround n k cubes e ≠ [] := by
  have w := fromCubes_wf hu hc h
  have hN : t.nElements n = cubes.length := by
    unfold Topo.nElements; rw [w.top_eq]; rfl
  obtain ⟨i, hi⟩ := List.mem_iff_getElem?.1 he
  have hst : Stored t k i e := by show (t.elements[k]?.getD [])[i]? = _; rw [hE]; exact hi
  obtain ⟨j, hj, hf⟩ : ∃ j < t.nElements n, FaceOf n e (WF.corners t n j) := by
    obtain ⟨j, l, h1, h2⟩ := faceOf_top w hn (d := n - k) (by omega) hst (faceOf_self (w.cube hn hk hst).1)
    refine ⟨j, h1.lt, ?_⟩
    have : WF.corners t n j = l := by
      have h1 : (t.elements[n]?.getD [])[j]? = some l := h1
      unfold WF.corners
      rw [h1, Option.getD_some]
    rw [this]
    exact h2
  obtain ⟨hco, hi'⟩ := corners_eq hE hi
  refine List.ne_nil_of_mem (a := j) ?_
  unfold cubesAround
  rw [List.mem_filter, List.mem_range]
  refine ⟨by omega, ?_⟩
  rw [← hco]
  exact (hasFace_corners w hn hk hi' hj).2 (by rw [hco]; exact hf)

/-- C68: applied to values on the vertices, `averaging_operators_0[k]` gives on every `k`-cube the mean of the values on
its corners, up to level 5. -/
theorem C68_vertices (hu : UniqSpec uniq) (hc : Cubes n cubes) (hn : 1 ≤ n) (h : fromCubes uniq true n cubes = .ok t) :
    ∃ L : List (Mat K), averagingOperators0 t.matrices = .ok L ∧ L.length = n + 1 ∧
      ∀ k ≤ n, k ≤ 5 → ∃ A, L[k]? = some A ∧ A.rows = t.nElements k ∧ A.cols = t.nElements 0 ∧
        ∀ E, t.elements[k]? = some E → ∀ j l, E[j]? = some l → ∀ x : Nat → K,
          ((List.range A.cols).map fun v => A.entry j v * x v).sum = mean (l.map x) := by
  obtain ⟨L, h1, h2, h3⟩ := cubeAveraging0 (K := K) hu hc hn h
  refine ⟨L, h1, h2, fun k hk hk' => ?_⟩
  obtain ⟨A, g1, g2, g3, g4⟩ := h3 k hk
  refine ⟨A, g1, g2, g3, fun E hE j l hl x => ?_⟩
  rw [g4 E hE j l hl x, weights_pos (Or.inl hk'), one_mul]

theorem cubes_dim (hu : UniqSpec uniq) (hc : Cubes n cubes) (hn : 1 ≤ n) (h : fromCubes uniq true n cubes = .ok t) : n ≤ 7 := by
  obtain ⟨m, rfl⟩ : ∃ m, n = m + 1 := ⟨n - 1, by omega⟩
  obtain ⟨h1, -⟩ := (C19_accepts_iff hu hc).1 ⟨t, h⟩
  by_contra hlt
  have := h1 (by omega)
  have : 2 ^ 7 ≤ 2 ^ m := Nat.pow_le_pow_right (by omega) (by omega)
  omega

/-- C68 fails on levels 6 and 7, the only others there are: the operator gives minus the mean. -/
theorem C68_vertices_negated (hu : UniqSpec uniq) (hc : Cubes n cubes) (hn : 1 ≤ n) (h : fromCubes uniq true n cubes = .ok t) :
    n ≤ 7 ∧ ∃ L : List (Mat K), averagingOperators0 t.matrices = .ok L ∧
      ∀ k ≤ n, 6 ≤ k → ∃ A, L[k]? = some A ∧ A.rows = t.nElements k ∧ A.cols = t.nElements 0 ∧
        ∀ E, t.elements[k]? = some E → ∀ j l, E[j]? = some l → ∀ x : Nat → K,
          ((List.range A.cols).map fun v => A.entry j v * x v).sum = - mean (l.map x) := by
  have h7 := cubes_dim hu hc hn h
  obtain ⟨L, h1, h2, h3⟩ := cubeAveraging0 (K := K) hu hc hn h
  refine ⟨h7, L, h1, fun k hk hk' => ?_⟩
  obtain ⟨A, g1, g2, g3, g4⟩ := h3 k hk
  refine ⟨A, g1, g2, g3, fun E hE j l hl x => ?_⟩
  rw [g4 E hE j l hl x, weights_neg (by omega), neg_one_mul]

/-- C68: applied to values on the `n`-cubes, `averaging_operators_N[k]` gives on every `k`-cube the mean of the values on the
`n`-cubes it is a face of, of which there is at least one, up to five levels below the top.  On the top level it changes
nothing. -/
theorem C68_tops (hu : UniqSpec uniq) (hc : Cubes n cubes) (hn : 1 ≤ n) (h : fromCubes uniq true n cubes = .ok t) :
    ∃ L : List (Mat K), averagingOperatorsN t.matrices = .ok L ∧ L.length = n + 1 ∧
      (∃ A, L[n]? = some A ∧ A.rows = cubes.length ∧ A.cols = cubes.length ∧
        ∀ i < cubes.length, ∀ x : Nat → K,
          ((List.range A.cols).map fun j => A.entry i j * x j).sum = x i) ∧
      ∀ k < n, n - k ≤ 5 → ∃ A, L[k]? = some A ∧ A.rows = t.nElements k ∧ A.cols = cubes.length ∧
        ∀ E, t.elements[k]? = some E → ∀ i e, E[i]? = some e → cubesAround n k cubes e ≠ [] ∧
          ∀ x : Nat → K, ((List.range A.cols).map fun j => A.entry i j * x j).sum =
            mean ((cubesAround n k cubes e).map x) := by
  obtain ⟨L, h1, h2, h0, h3⟩ := cubeAveragingN (K := K) hu hc hn h
  refine ⟨L, h1, h2, h0, fun k hk hk' => ?_⟩
  obtain ⟨A, g1, g2, g3, g4⟩ := h3 k hk
  refine ⟨A, g1, g2, g3, fun E hE i e he =>
    ⟨cubesAround_ne_nil hu hc hn h hk.le hE (List.mem_of_getElem? he), fun x => ?_⟩⟩
  rw [g4 E hE i e he x, weights_pos (Or.inl hk'), one_mul]

/-- C68 fails six and seven levels below the top in the same way. -/
theorem C68_tops_negated (hu : UniqSpec uniq) (hc : Cubes n cubes) (hn : 1 ≤ n) (h : fromCubes uniq true n cubes = .ok t) :
    ∃ L : List (Mat K), averagingOperatorsN t.matrices = .ok L ∧
      ∀ k < n, 6 ≤ n - k → ∃ A, L[k]? = some A ∧ A.rows = t.nElements k ∧ A.cols = cubes.length ∧
        ∀ E, t.elements[k]? = some E → ∀ i e, E[i]? = some e →
          ∀ x : Nat → K, ((List.range A.cols).map fun j => A.entry i j * x j).sum =
            - mean ((cubesAround n k cubes e).map x) := by
  have h7 := cubes_dim hu hc hn h
  obtain ⟨L, h1, h2, h0, h3⟩ := cubeAveragingN (K := K) hu hc hn h
  refine ⟨L, h1, fun k hk hk' => ?_⟩
  obtain ⟨A, g1, g2, g3, g4⟩ := h3 k hk
  refine ⟨A, g1, g2, g3, fun E hE i e he x => ?_⟩
  rw [g4 E hE i e he x, weights_neg (by omega), neg_one_mul]

/-- C68: `degree[k]` holds for every `k`-cube the number of `n`-cubes it is a face of, reduced to `int8`. -/
theorem C68_degree_wraps (hu : UniqSpec uniq) (hc : Cubes n cubes) (hn : 1 ≤ n) (h : fromCubes uniq true n cubes = .ok t) :
    ∃ D, degree t.matrices = .ok D ∧ D.length = n + 1 ∧ D[n]? = some (List.replicate cubes.length 1) ∧
      ∀ k < n, ∀ E, t.elements[k]? = some E → D[k]? = some (E.map fun e => wrap8 (cubesAround n k cubes e).length) := by
  have h7 := cubes_dim hu hc hn h
  have w := fromCubes_wf hu hc h
  obtain ⟨L, h1, h2, ⟨A, a1, a2, a3, a4⟩, h3⟩ := w.accumulatedN (by omega)
  have hN : t.nElements n = cubes.length := by
    unfold Topo.nElements; rw [w.top_eq]; rfl
  refine ⟨L.map countRows, by unfold degree; rw [h1]; rfl, by rw [List.length_map, h2], ?_, ?_⟩
  · rw [List.getElem?_map, a1, Option.map_some]
    congr 1
    apply List.ext_getElem?
    intro i
    unfold countRows Mat.transpose
    simp only
    rw [List.getElem?_map, List.getElem?_replicate, a2, a3, hN]
    rcases Nat.lt_or_ge i cubes.length with hi | hi
    · rw [List.getElem?_range hi, Option.map_some, if_pos hi]
      congr 1
      have : ∀ j ∈ List.range cubes.length, (if A.entry j i = 0 then (0 : ℤ) else 1 * 1) =
          if (j == i) then 1 else 0 := by
        intro j _
        rw [a4]
        by_cases hji : j = i
        · simp [hji]
        · simp [hji]
      rw [List.map_congr_left this, sum_filter_int, List.filter_beq, List.length_replicate,
        List.count_eq_one_of_mem List.nodup_range (List.mem_range.2 hi)]
      rfl
    · rw [List.getElem?_eq_none (by simpa using hi), if_neg (by omega)]
      rfl
  · intro k hk E hE
    obtain ⟨A, g1, g2, g3, g4⟩ := h3 k hk
    rw [List.getElem?_map, g1, Option.map_some]
    congr 1
    have hEl : t.nElements k = E.length := by unfold Topo.nElements; rw [hE]; rfl
    have hf : wrap8 ((n - k).factorial : ℤ) ≠ 0 := by
      have : ∀ m < 10, wrap8 (m.factorial : ℤ) ≠ 0 := by decide
      exact this _ (by omega)
    apply List.ext_getElem?
    intro i
    unfold countRows Mat.transpose
    simp only
    rw [List.getElem?_map, List.getElem?_map, g2, g3, hEl, hN]
    rcases Nat.lt_or_ge i E.length with hi | hi
    · rw [List.getElem?_range hi, List.getElem?_eq_getElem hi, Option.map_some, Option.map_some]
      congr 2
      obtain ⟨hco, hi'⟩ := corners_eq hE (List.getElem?_eq_getElem hi)
      have : ∀ j ∈ List.range cubes.length, (if A.entry j i = 0 then (0 : ℤ) else 1 * 1) =
          if hasFace (n - k) k (cubes[j]?.getD []) E[i] then 1 else 0 := by
        intro j hj
        have hj := List.mem_range.1 hj
        rw [g4 j (by omega) i hi', ← hco]
        have hb := hasFace_corners w hn hk.le hi' (show j < t.nElements n by omega)
        by_cases hsub : FaceOf n (WF.corners t k i) (WF.corners t n j)
        · rw [if_pos hsub, if_pos (hb.2 hsub), if_neg hf, one_mul]
        · rw [if_neg hsub, if_neg fun h => hsub (hb.1 h)]
          rfl
      rw [List.map_congr_left this, sum_filter_int, mul_one]
      rfl
    · rw [List.getElem?_eq_none (by simpa using hi), List.getElem?_eq_none hi]
      rfl

/-- C68: as long as no element has 128 or more cubes around it, `degree` counts them. -/
theorem C68_degree (hu : UniqSpec uniq) (hc : Cubes n cubes) (hn : 1 ≤ n) (h : fromCubes uniq true n cubes = .ok t) :
    ∃ D, degree t.matrices = .ok D ∧ ∀ k < n, ∀ E, t.elements[k]? = some E →
        (∀ e ∈ E, (cubesAround n k cubes e).length < 128) →
        D[k]? = some (E.map fun e => ((cubesAround n k cubes e).length : ℤ)) := by
  obtain ⟨D, h1, -, -, h2⟩ := C68_degree_wraps hu hc hn h
  refine ⟨D, h1, fun k hk E hE hsmall => ?_⟩
  rw [h2 k hk E hE]
  congr 1
  refine List.map_congr_left fun e he => wrap8_small (by omega) ?_
  exact_mod_cast hsmall e he

/-! ### examples -/

/-- two squares that share an edge -/
example : ∃ t, fromCubes List.dedup true 2 [[0, 1, 2, 3], [2, 3, 4, 5]] = .ok t ∧
    degree t.matrices = .ok [[1, 1, 2, 2, 1, 1], t.elements[1]!.map fun e => (cubesAround 2 1 [[0, 1, 2, 3], [2, 3, 4, 5]] e).length,
      [1, 1]] ∧ (cubesAround 2 1 [[0, 1, 2, 3], [2, 3, 4, 5]] [3, 2]) = [0, 1] ∧
      (cubesAround 2 1 [[0, 1, 2, 3], [2, 3, 4, 5]] [0, 3]) = [] := by
  refine ⟨_, rfl, ?_⟩
  decide +kernel

/-- the mean over the corners of each of two squares -/
example : ∃ t, fromCubes List.dedup true 2 [[0, 1, 2, 3], [2, 3, 4, 5]] = .ok t ∧
    ((averagingOperators0 t.matrices : Except PyErr (List (Mat ℚ))).map fun L => L.map fun A =>
      (List.range A.rows).map fun i => (List.range A.cols).map fun j => A.entry i j).toOption.map
        (fun L => L[2]?) = some (some [[1/4, 1/4, 1/4, 1/4, 0, 0], [0, 0, 1/4, 1/4, 1/4, 1/4]]) := by
  refine ⟨_, rfl, ?_⟩
  decide +kernel

end Verif.Props
