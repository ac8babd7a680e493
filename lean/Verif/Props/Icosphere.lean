/-
C75: `icosphere`, for every number of refinements.
-/
import Verif.Lemmas.SphereMesh
import Verif.Props.Euler

set_option linter.unusedSectionVars false

namespace Verif.Props

open Model Spec Matrix

variable {uniq : List (List Nat) → List (List Nat)} {solve : List (List Int) → Option (List Int)}
  {eigh : (n : Nat) → Matrix (Fin n) (Fin n) ℝ → Eigh n ℝ} {ratio : ℝ}

/-- what holds for the sphere after `n` refinements -/
structure Refined (uniq : List (List Nat) → List (List Nat)) (n : Nat) (V : List (Fin 3 → ℝ)) (t : Topo)
    (T : List (List Nat)) : Prop where
  built : fromSimplices uniq 3 T = .ok t
  surface : OrientedSurface T
  round : RoundSurface V T
  positions : V.length = t.nElements 0
  faces : T.length = 20 * 4 ^ n
  vertices : t.nElements 0 = 10 * 4 ^ n + 2
  fine : Fine (fineness n) V T

theorem icosahedron_refined (hq : UniqSpec uniq) (hsat : SatSpec solve) :
    ∃ V t T, icosahedron solve uniq = .ok (V, t) ∧ Refined uniq 0 V t T := by
  obtain ⟨t, t', flip, h1, h2, h3, h4⟩ := ico_topology hq hsat
  have wf := (fromSimplices_wf hq (n := 2) h4.simplices h3).2
  have hv : t'.nElements 0 = 12 := wf.nVertices_eq (n := 1) h4.simplices (ico_used' flip)
  refine ⟨icoUnits, t', _, ?_, h3, h4, ico_round flip, ?_, ?_, hv, ico_fine flip⟩
  · unfold icosahedron
    rw [icoTriangles_eq, icoUnits_ok]
    simp only [bind, Except.bind, h1, h2]
  · rw [hv]; simp [icoUnits]
  · rw [reorient_length]; rfl

theorem icosphere_refined (hq : UniqSpec uniq) (hsat : SatSpec solve)
    (hE : ∀ k M, M.transpose = M → IsEigh M (eigh k M).v (eigh k M).w) (hr : 12 ≤ ratio) (n : Nat) :
    ∃ V t T, icosphere eigh ratio solve uniq n = .ok (V, t) ∧ Refined uniq n V t T := by
  induction n with
  | zero => exact icosahedron_refined hq hsat
  | succ n ih =>
    obtain ⟨V, t, T, h, r⟩ := ih
    have hs := r.surface.simplices
    have wf := (fromSimplices_wf hq (n := 2) hs r.built).2
    have hne : T ≠ [] := by
      intro h0
      have := r.faces
      rw [h0] at this
      simp at this
    obtain ⟨t', h1, h2, wf'⟩ := sphericalLoop_ok hq wf hs hne r.positions r.round.unit r.round.near hE hr
    have hv' : t'.nElements 0 = t.nElements 0 + t.nElements 1 :=
      wf'.nVertices_eq (n := 1) (wf.loop_simplices hs) (wf.loop_used hs)
    have he := surface_edges wf r.surface
    have hf := r.faces
    have hvv := r.vertices
    obtain ⟨f1, f2⟩ := fineness_bound n
    have f3 : fineness n ≤ 1 := (fineness_le n).trans (by
      rw [div_le_one (by positivity)]; exact one_le_pow₀ (by norm_num))
    refine ⟨loopVertices V t, t', _, ?_, ?_, loop_surface wf r.surface, loop_round wf hs r.positions r.round, ?_, ?_, ?_,
      fine_step f3 f1 wf hs r.positions r.round r.fine⟩
    · simp only [icosphere, bind, Except.bind, h]
      exact h1
    · unfold subdivideLoop at h2
      rwa [wf.loopRows_eq hs] at h2
    · rw [hv', ← r.positions]
      simp [loopVertices, Topo.nElements]
    · obtain ⟨t'', rows, k1, k2, -, k4, k5, -⟩ := C16_counts_and_orientation hq hs r.built
      rw [h2] at k1
      obtain rfl := Except.ok.inj k1
      rw [wf'.top_eq] at k2
      obtain rfl := Option.some.inj k2
      rw [k5, hf, pow_succ]; ring
    · rw [hv', hvv, pow_succ]; omega

/-- C75: every refinement of the icosahedron succeeds and is a connected closed oriented surface of the genus of the
sphere -/
theorem C75_topology (hq : UniqSpec uniq) (hsat : SatSpec solve)
    (hE : ∀ k M, M.transpose = M → IsEigh M (eigh k M).v (eigh k M).w) (hr : 12 ≤ ratio) (n : Nat) :
    ∃ V t T, icosphere eigh ratio solve uniq n = .ok (V, t) ∧ t.elements[2]? = some T ∧ OrientedSurface T ∧
      V.length = 10 * 4 ^ n + 2 ∧ t.nElements 0 = 10 * 4 ^ n + 2 ∧ t.nElements 1 = 30 * 4 ^ n ∧
      t.nElements 2 = 20 * 4 ^ n ∧ euler t = 2 ∧ isOriented solve t = .ok true ∧
      boundary solve uniq t = .ok none := by
  obtain ⟨V, t, T, h, r⟩ := icosphere_refined hq hsat hE hr n
  have hs := r.surface.simplices
  have wf := (fromSimplices_wf hq (n := 2) hs r.built).2
  have he := surface_edges wf r.surface
  have hf := r.faces
  have hf' : t.nElements 2 = T.length := by unfold Topo.nElements; rw [wf.top_eq]; rfl
  have h1 : t.nElements 1 = 30 * 4 ^ n := by omega
  have hne : T ≠ [] := by
    intro h0
    rw [h0] at hf
    simp at hf
  have hor : isOriented solve t = .ok true :=
    (C08_connected_exact hq hs hsat r.built hne r.surface.connected).mpr (closedSurface_coherent hs r.surface.closed)
  refine ⟨V, t, T, h, wf.top_eq, r.surface, r.positions.trans r.vertices, r.vertices, h1, hf'.trans hf, ?_, hor,
    closed_no_boundary wf hs r.surface.closed hor⟩
  unfold euler
  rw [r.vertices, h1, hf', hf]
  push_cast
  ring

/-- C75: the triangles tile the unit sphere, and none is degenerate -/
theorem C75_tiles (hq : UniqSpec uniq) (hsat : SatSpec solve)
    (hE : ∀ k M, M.transpose = M → IsEigh M (eigh k M).v (eigh k M).w) (hr : 12 ≤ ratio) (n : Nat) :
    ∃ V t T, icosphere eigh ratio solve uniq n = .ok (V, t) ∧ t.elements[2]? = some T ∧
      (∀ p ∈ V, OnUnitSphere p) ∧ TilesSphere V T ∧
      (T.map fun l => surfaceArea (onSphere (coneOf V l))).sum = 4 * Real.pi ∧
      ∀ a b c, [a, b, c] ∈ T → Independent3 (position V a) (position V b) (position V c) := by
  obtain ⟨V, t, T, h, r⟩ := icosphere_refined hq hsat hE hr n
  have hs := r.surface.simplices
  have wf := (fromSimplices_wf hq (n := 2) hs r.built).2
  exact ⟨V, t, T, h, wf.top_eq, r.round.unit, r.round.tiles hs, r.round.area,
    fun a b c hl => (independent_iff _ _ _).mpr (r.round.proper a b c hl)⟩

/-- C75: every edge of the `n`-th refinement is at most `√2 / 2 ^ n` long, so the refinements converge -/
theorem C75_edge_lengths (hq : UniqSpec uniq) (hsat : SatSpec solve)
    (hE : ∀ k M, M.transpose = M → IsEigh M (eigh k M).v (eigh k M).w) (hr : 12 ≤ ratio) (n : Nat) :
    ∃ V t, icosphere eigh ratio solve uniq n = .ok (V, t) ∧
      ∀ a b, [a, b] ∈ t.elements[1]?.getD [] → chordSq (position V a) (position V b) ≤ 2 / 4 ^ n := by
  obtain ⟨V, t, T, h, r⟩ := icosphere_refined hq hsat hE hr n
  have hs := r.surface.simplices
  have wf := (fromSimplices_wf hq (n := 2) hs r.built).2
  refine ⟨V, t, h, fun a b hab => ?_⟩
  obtain ⟨-, -, l, hl, hsub⟩ := wf.element_face hs (k := 1) (by omega) hab
  have ma : a ∈ l := hsub (by simp)
  have mb : b ∈ l := hsub (by simp)
  have ua : innerProd (position V a) (position V a) = 1 := r.round.unit _ (position_mem (r.round.corners l hl a ma))
  have ub : innerProd (position V b) (position V b) = 1 := r.round.unit _ (position_mem (r.round.corners l hl b mb))
  have hf := r.fine l hl a ma b mb
  have hb := fineness_le n
  have : chordSq (position V a) (position V b) = innerProd (position V a) (position V a) +
      innerProd (position V b) (position V b) - 2 * innerProd (position V a) (position V b) := by
    simp only [chordSq, innerProd, Fin.sum_univ_three]; ring
  rw [this, ua, ub]
  have h2 : (2 : ℝ) / 4 ^ n = 2 * (1 / 4 ^ n) := by ring
  rw [h2]
  linarith

/-- C75: one more refinement keeps the points in front and adds for every edge the point of the sphere above its
middle -/
theorem C75_refinement (hq : UniqSpec uniq) (hsat : SatSpec solve)
    (hE : ∀ k M, M.transpose = M → IsEigh M (eigh k M).v (eigh k M).w) (hr : 12 ≤ ratio) (n : Nat) :
    ∃ V t V' t', icosphere eigh ratio solve uniq n = .ok (V, t) ∧
      icosphere eigh ratio solve uniq (n + 1) = .ok (V', t') ∧ subdivideLoop uniq t = .ok t' ∧
      ∃ new, V' = V ++ new ∧ new.length = t.nElements 1 ∧
      ∀ (i : Nat) a b, (t.elements[1]?.getD [])[i]? = some [a, b] → ∃ p, new[i]? = some p ∧ OnUnitSphere p ∧
        ∃ s : ℝ, 0 < s ∧ ∀ k, p k = s * (position V a k + position V b k) := by
  obtain ⟨V, t, T, h, r⟩ := icosphere_refined hq hsat hE hr n
  have hs := r.surface.simplices
  have wf := (fromSimplices_wf hq (n := 2) hs r.built).2
  have hne : T ≠ [] := by
    intro h0
    have := r.faces
    rw [h0] at this
    simp at this
  obtain ⟨t', h1, h2, wf'⟩ := sphericalLoop_ok hq wf hs hne r.positions r.round.unit r.round.near hE hr
  refine ⟨V, t, loopVertices V t, t', h, ?_, h2, _, rfl, by simp [Topo.nElements], fun i a b hi => ?_⟩
  · simp only [icosphere, bind, Except.bind, h]
    exact h1
  · obtain ⟨-, -, l, hl, hsub⟩ := wf.element_face hs (k := 1) (by omega) (List.mem_of_getElem? hi)
    have ma : a ∈ l := hsub (by simp)
    have mb : b ∈ l := hsub (by simp)
    have hz := sum_ne_zero (r.round.unit _ (position_mem (r.round.corners l hl a ma)))
      (r.round.unit _ (position_mem (r.round.corners l hl b mb))) (by linarith [r.round.near l hl a ma b mb])
    obtain ⟨s, hs0, es⟩ := unitOf_pos hz
    refine ⟨_, by rw [List.getElem?_map, hi]; rfl, ?_, s, hs0, fun k => ?_⟩
    · exact (unitOf_spec hz).2.1
    · simp only [List.getElem?_cons_zero, List.getElem?_cons_succ, Option.getD_some]
      rw [es]; rfl

/-- C75: the icosahedron is regular: twelve points, all edges with angle `arccos (1 / √5)`, and twenty triangles of
equal area -/
theorem C75_icosahedron (hq : UniqSpec uniq) (hsat : SatSpec solve) :
    ∃ V t T, icosahedron solve uniq = .ok (V, t) ∧ t.elements[2]? = some T ∧ V.length = 12 ∧ T.length = 20 ∧
      (∀ a b, [a, b] ∈ t.elements[1]?.getD [] → innerProd (position V a) (position V b) = 1 / Real.sqrt 5) ∧
      ∀ l ∈ T, surfaceArea (onSphere (coneOf V l)) = Real.pi / 5 := by
  obtain ⟨t, t', flip, h1, h2, h3, h4⟩ := ico_topology hq hsat
  have wf := (fromSimplices_wf hq (n := 2) h4.simplices h3).2
  refine ⟨icoUnits, t', _, ?_, wf.top_eq, by simp [icoUnits], by rw [reorient_length]; rfl, fun a b hab => ?_,
    fun l hl => ?_⟩
  · unfold icosahedron
    rw [icoTriangles_eq, icoUnits_ok]
    simp only [bind, Except.bind, h1, h2]
  · obtain ⟨-, hn, l, hl, hsub⟩ := wf.element_face h4.simplices (k := 1) (by omega) hab
    obtain ⟨l0, h0, hp⟩ := reorient_origin hl
    rw [ico_products h0 (hp.subset (hsub (by simp))) (hp.subset (hsub (by simp))), if_neg]
    simpa using hn
  · obtain ⟨l0, h0, hp⟩ := reorient_origin hl
    rw [coneOf_perm hp, ico_area h0]

/-- C75: there are a solver, an eigensolver and a tolerance that meet the hypotheses; with them the third refinement
has 642 points, 1920 edges and 1280 triangles -/
theorem C75_case : ∃ (solve : List (List Int) → Option (List Int))
    (eigh : (n : Nat) → Matrix (Fin n) (Fin n) ℝ → Eigh n ℝ), UniqSpec List.dedup ∧ SatSpec solve ∧
    (∀ k M, M.transpose = M → IsEigh M (eigh k M).v (eigh k M).w) ∧
    ∃ V t, icosphere eigh (10 ^ 6) solve List.dedup 3 = .ok (V, t) ∧ t.nElements 0 = 642 ∧ t.nElements 1 = 1920 ∧
      t.nElements 2 = 1280 := by
  obtain ⟨solve, hsat⟩ := exists_satSolver
  choose eigh hE using exists_eigh_function
  refine ⟨solve, eigh, uniqSpec_dedup, hsat, hE, ?_⟩
  obtain ⟨V, t, T, h, -, -, -, h0, h1, h2, -⟩ :=
    C75_topology uniqSpec_dedup hsat hE (ratio := 10 ^ 6) (by norm_num) 3
  exact ⟨V, t, h, h0, h1, h2⟩

end Verif.Props
