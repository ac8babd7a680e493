/-
C62: meshes that meet the hypotheses, and meshes over which `pick_primal` misses the simplex of a point.
-/
import Mathlib.Analysis.InnerProductSpace.Projection.Submodule
import Mathlib.Analysis.InnerProductSpace.PiL2
import Verif.Props.Picking
import Verif.Props.Boundary

set_option linter.unusedSectionVars false

namespace Verif.Props

open Verif.Model Verif.Spec Matrix

instance (e l : List Nat) : Decidable (IsFace e l) :=
  inferInstanceAs (Decidable (∃ c < l.length, e.Perm (l.eraseIdx c)))

theorem sharedFace_of_check {rows : List (List Nat)} {e : List Nat} {j1 j2 : Nat}
    (h : j1 ≠ j2 ∧ j1 < rows.length ∧ j2 < rows.length ∧
      ∀ j < rows.length, (IsFace e (rows[j]?.getD []) ↔ j = j1 ∨ j = j2)) : SharedFace rows e j1 j2 := by
  refine ⟨h.1, h.2.1, h.2.2.1, fun j l hl => ?_⟩
  have := h.2.2.2 j (List.getElem?_eq_some_iff.1 hl).1
  rwa [hl, Option.getD_some] at this

/-- a chain of simplices, each sharing a face with the next -/
theorem connected_of_chain {rows : List (List Nat)}
    (h : ∀ j, j + 1 < rows.length → Adjacent rows j (j + 1)) : Connected rows := by
  have hs : ∀ j, j + 1 < rows.length → Adjacent rows (j + 1) j := fun j hj => by
    obtain ⟨e, he⟩ := h j hj
    exact ⟨e, sharedFace_symm he⟩
  have up : ∀ d j, j + d < rows.length → Relation.ReflTransGen (Adjacent rows) j (j + d) ∧
      Relation.ReflTransGen (Adjacent rows) (j + d) j := by
    intro d
    induction d with
    | zero => exact fun j _ => ⟨.refl, .refl⟩
    | succ d ih =>
      intro j hj
      obtain ⟨h1, h2⟩ := ih j (by omega)
      exact ⟨h1.tail (h (j + d) (by omega)), .head (hs (j + d) (by omega)) h2⟩
  intro j1 h1 j2 h2
  rcases Nat.le_total j1 j2 with hle | hle
  · obtain ⟨d, rfl⟩ := Nat.exists_eq_add_of_le hle
    exact (up d j1 h2).1
  · obtain ⟨d, rfl⟩ := Nat.exists_eq_add_of_le hle
    exact (up d j2 h1).2

/-- a solver of linear systems exists -/
theorem solves_ofFn {L : Mat Int} (x : Fin L.cols → ℝ) (b : List ℝ) (hb : b.length = L.rows) :
    Solves L (List.ofFn x) b ↔ ∀ i < L.rows, ∑ j : Fin L.cols, (L.entry i j : ℝ) * x j = b[i]?.getD 0 := by
  unfold Solves
  simp only [List.length_ofFn, true_and, hb]
  refine forall₂_congr fun i _ => ?_
  rw [Finset.sum_range]
  have : ∀ j : Fin L.cols, (List.ofFn x)[(j : Nat)]?.getD 0 = x j := by intro j; simp
  simp only [this]

theorem exists_leastNorm : ∃ minres, MinresSpec minres ∧ LeastNorm minres := by
  classical
  have key : ∀ (L : Mat Int) (b : List ℝ), ∃ x, (∃ x, Solves L x b) → Solves L x b ∧
      ∀ z, Solves L z (List.replicate L.rows 0) →
        ∑ j ∈ Finset.range L.cols, x[j]?.getD 0 * z[j]?.getD 0 = 0 := by
    intro L b
    by_cases h : ∃ x, Solves L x b
    · obtain ⟨x, hx⟩ := h
      obtain ⟨f, rfl⟩ : ∃ f : Fin L.cols → ℝ, x = List.ofFn f :=
        ⟨fun j => x[(j : Nat)]'(by rw [hx.1]; exact j.2), by
          apply List.ext_getElem
          · simp [hx.1]
          · intro i h1 h2
            simp⟩
      let K : Submodule ℝ (EuclideanSpace ℝ (Fin L.cols)) :=
        { carrier := {z | ∀ i < L.rows, ∑ j : Fin L.cols, (L.entry i j : ℝ) * z j = 0}
          add_mem' := fun {a c} ha hc i hi => by
            simp only [PiLp.add_apply, mul_add, Finset.sum_add_distrib, ha i hi, hc i hi, add_zero]
          zero_mem' := fun i hi => by simp
          smul_mem' := fun r a ha i hi => by
            have := ha i hi
            simp only [PiLp.smul_apply, smul_eq_mul]
            rw [← mul_zero r, ← this, Finset.mul_sum]
            exact Finset.sum_congr rfl fun j _ => by ring }
      obtain ⟨y, hy, u, hu, e⟩ := K.exists_add_mem_mem_orthogonal (WithLp.toLp 2 f)
      have e' : ∀ j, f j = y j + u j := fun j => congrArg (fun v : EuclideanSpace ℝ (Fin L.cols) => v j) e
      refine ⟨List.ofFn fun j => u j, fun _ => ⟨?_, fun z hz => ?_⟩⟩
      · have hb := hx.2.1
        rw [solves_ofFn _ _ hb] at hx ⊢
        intro i hi
        rw [← hx i hi]
        have := hy i hi
        simp only [e', mul_add, Finset.sum_add_distrib, this, zero_add]
      · have hz' : WithLp.toLp 2 (fun j : Fin L.cols => z[(j : Nat)]?.getD 0) ∈ K := by
          intro i hi
          have := hz.2.2 i hi
          rw [Finset.sum_range] at this
          simpa [hi] using this
        have := (Submodule.mem_orthogonal K u).1 hu _ hz'
        rw [Finset.sum_range]
        refine Eq.trans ?_ this
        simp [PiLp.inner_apply]
    · exact ⟨[], fun h' => absurd h' h⟩
  choose f hf using key
  exact ⟨f, fun L b _ _ h => (hf L b h).1, fun L b _ _ h => (hf L b h).2⟩
theorem exists_minres : ∃ minres, MinresSpec minres :=
  exists_leastNorm.imp fun _ h => h.1

theorem exists_nearest : ∃ nearest, NearestSpec nearest := by
  have h : ∀ (sites : List (List ℝ)) (point : List ℝ), ∃ i, sites ≠ [] → i < sites.length ∧
      ∀ (s s' : List ℝ), sites[i]? = some s → s' ∈ sites → sqDist s point ≤ sqDist s' point := by
    intro sites point
    by_cases hne : sites = []
    · exact ⟨0, fun h => absurd hne h⟩
    · obtain ⟨s, hs, hmin⟩ := sites.toFinset.exists_min_image (fun s => sqDist s point)
        (by simpa [List.toFinset_nonempty_iff] using hne)
      obtain ⟨i, hi, rfl⟩ := List.mem_iff_getElem.1 (List.mem_toFinset.1 hs)
      refine ⟨i, fun _ => ⟨hi, fun s s' h1 h2 => ?_⟩⟩
      rw [List.getElem?_eq_getElem hi] at h1
      rw [← Option.some.inj h1]
      exact hmin s' (by simpa using h2)
  choose f hf using h
  exact ⟨f, hf⟩

/-- C62: two acute triangles meet the hypotheses of the theorems -/
theorem C62_instance : ∃ (solve : List (List Int) → Option (List Int)) (t : Topo)
    (eigh : (n : Nat) → Matrix (Fin n) (Fin n) ℝ → Eigh n ℝ) (ratio : ℝ)
    (minres : Mat Int → List ℝ → List ℝ) (nearest : List (List ℝ) → List ℝ → Nat)
    (y : Finset Nat → Nat → ℝ) (ctr : Finset Nat → Fin 2 → ℝ),
    PickInput solve List.dedup eigh ratio minres nearest [[0, 1, 2], [1, 3, 2]] t acuteCorners none y ctr ∧
    Delaunay acuteCorners (weightAt none) ctr [[0, 1, 2], [1, 3, 2]] ∧
    InSimplex acuteCorners [1, 3, 2] ![2, 1] ∧
    AwayFrom acuteCorners [[0, 1, 2], [1, 3, 2]] ![2, 1] [1, 3, 2] [0, 1, 2] := by
  obtain ⟨solve, t, eigh, ratio, y, ctr, hsat, h, -, -, -, hw⟩ := C61_acute
  obtain ⟨minres, hmin⟩ := exists_minres
  obtain ⟨nearest, hnear⟩ := exists_nearest
  refine ⟨solve, t, eigh, ratio, minres, nearest, y, ctr, ⟨h.center, hsat, h.oriented, ?_, ?_, hmin, hnear,
    C61_wellcentered_delaunay h.center (le_refl 2) hw⟩, ?_, ?_, ?_⟩
  · exact atMostTwo_of_check (by decide)
  · refine connected_of_chain fun j hj => ?_
    simp only [List.length_cons, List.length_nil] at hj
    obtain rfl : j = 0 := by omega
    exact ⟨[1, 2], sharedFace_of_check (by decide)⟩
  · have hc : ∀ l ∈ [[0, 1, 2], [1, 3, 2]], ctr l.toFinset = if l = [0, 1, 2] then ![1, 3 / 4] else ![2, 5 / 4] := by
      intro l hl
      have hcc := h.centers l.toFinset ⟨⟨1, by
        simp only [List.mem_cons, List.not_mem_nil, or_false] at hl
        rcases hl with rfl | rfl <;> simp⟩, l, hl, fun _ h => h⟩
      simp only [List.mem_cons, List.not_mem_nil, or_false] at hl
      rcases hl with rfl | rfl
      · have h5 := hcc.equidistant 0 (by simp) 1 (by simp)
        have h6 := hcc.equidistant 0 (by simp) 2 (by simp)
        rw [if_pos rfl]
        generalize [0, 1, 2].toFinset = T at h5 h6 ⊢
        simp [dist2, position, acuteCorners] at h5 h6
        have h7 : ctr T 0 = 1 := by linarith
        have h8 : ctr T 1 = 3 / 4 := by rw [h7] at h6; linarith
        funext j
        fin_cases j <;> simp [h7, h8]
      · have h5 := hcc.equidistant 1 (by simp) 3 (by simp)
        have h6 := hcc.equidistant 1 (by simp) 2 (by simp)
        rw [if_neg (by simp)]
        generalize [1, 3, 2].toFinset = T at h5 h6 ⊢
        simp [dist2, position, acuteCorners] at h5 h6
        have h7 : ctr T 0 = 2 := by linarith
        have h8 : ctr T 1 = 5 / 4 := by rw [h7] at h6; linarith
        funext j
        fin_cases j <;> simp [h7, h8]
    intro l hl l' hl' v hv hvl u hu
    rw [hc l hl]
    simp only [List.mem_cons, List.not_mem_nil, or_false] at hl hl'
    rcases hl with rfl | rfl <;> rcases hl' with rfl | rfl <;>
      simp only [List.mem_cons, List.not_mem_nil, or_false] at hv hu hvl <;>
      rcases hv with rfl | rfl | rfl <;> first | (exfalso; revert hvl; decide) | skip
    · rcases hu with rfl | rfl | rfl <;> simp [power, position, acuteCorners, weightAt] <;> norm_num
    · rcases hu with rfl | rfl | rfl <;> simp [power, position, acuteCorners, weightAt] <;> norm_num
  · refine ⟨fun v => if v = 1 then 1 / 2 else 1 / 4, ⟨?_, fun j => ?_⟩, fun v _ => ?_⟩
    · simp; norm_num
    · fin_cases j <;> simp [position, acuteCorners] <;> norm_num
    · dsimp only; split <;> norm_num
  · refine .step (l' := [0, 1, 2]) (e := [1, 2]) (b := fun v => if v = 1 then 1 / 2 else 1 / 4) (by simp) (by simp)
      (by simp) (by decide) (by decide) ⟨?_, fun j => ?_⟩ ?_ (.refl _)
    · simp; norm_num
    · fin_cases j <;> simp [position, acuteCorners] <;> norm_num
    · split <;> norm_num

/-! ### A mesh with a notch -/

/-- four triangles around the origin, with a gap between the first and the last -/
def fanCorners : List (Vec ℝ 2) := [![0, 0], ![1, 0], ![1, 2], ![-3, 2], ![-1, -1], ![2, -3]]

def fanSimplices : List (List Nat) := [[0, 1, 2], [0, 2, 3], [0, 3, 4], [0, 4, 5]]

theorem fanCorners_nondegenerate : NonDegenerate fanCorners 2 fanSimplices := by
  intro l hl
  apply affineIndependent_of
  intro w h1 h2
  have a := h2 0
  have b := h2 1
  simp only [fanSimplices, List.mem_cons, List.not_mem_nil, or_false] at hl
  rcases hl with rfl | rfl | rfl | rfl <;>
  · simp [Fin.sum_univ_three, cornersOf, position, fanCorners] at h1 a b
    intro i
    fin_cases i <;> simp <;> linarith

/-- the circumcenters of the four triangles and their coordinates -/
theorem fan_centers {y : Finset Nat → Nat → ℝ} {ctr : Finset Nat → Fin 2 → ℝ}
    (h : PowerCenters fanCorners (weightAt none) fanSimplices y ctr) :
    (ctr [0, 1, 2].toFinset = ![1 / 2, 1] ∧ 0 < y [0, 1, 2].toFinset 0 ∧ 0 < y [0, 1, 2].toFinset 2) ∧
    (ctr [0, 2, 3].toFinset = ![-1, 7 / 4] ∧ 0 < y [0, 2, 3].toFinset 0) ∧
    (ctr [0, 3, 4].toFinset = ![-17 / 10, 7 / 10] ∧ 0 < y [0, 3, 4].toFinset 0) ∧
    (ctr [0, 4, 5].toFinset = ![7 / 10, -17 / 10] ∧ 0 < y [0, 4, 5].toFinset 0 ∧ 0 < y [0, 4, 5].toFinset 4) := by
  have key : ∀ l ∈ fanSimplices, PowerCoords fanCorners (weightAt none) l.toFinset (y l.toFinset) (ctr l.toFinset) := by
    intro l hl
    refine h _ ⟨⟨0, ?_⟩, l, hl, fun _ h => h⟩
    simp only [fanSimplices, List.mem_cons, List.not_mem_nil, or_false] at hl
    rcases hl with rfl | rfl | rfl | rfl <;> simp
  have hnd : ∀ l ∈ fanSimplices, l.Nodup := by decide
  have one := fun l hl => (key l hl).one
  have point := fun l hl => (key l hl).point
  refine ⟨?_, ?_, ?_, ?_⟩
  · have hl : [0, 1, 2] ∈ fanSimplices := by decide
    have h2 := one _ hl
    have h3 := point _ hl 0
    have h4 := point _ hl 1
    have h5 := (key _ hl).equal 0 (by simp) 1 (by simp)
    have h6 := (key _ hl).equal 0 (by simp) 2 (by simp)
    rw [List.sum_toFinset _ (hnd _ hl)] at h2 h3 h4
    generalize [0, 1, 2].toFinset = T at h2 h3 h4 h5 h6 ⊢
    simp [power, weightAt, position, fanCorners] at h2 h3 h4 h5 h6
    have h7 : ctr T 0 = 1 / 2 := by linarith
    have h8 : ctr T 1 = 1 := by rw [h7] at h6; linarith
    refine ⟨?_, by linarith, by linarith⟩
    funext j
    fin_cases j <;> simp [h7, h8]
  · have hl : [0, 2, 3] ∈ fanSimplices := by decide
    have h2 := one _ hl
    have h3 := point _ hl 0
    have h4 := point _ hl 1
    have h5 := (key _ hl).equal 0 (by simp) 2 (by simp)
    have h6 := (key _ hl).equal 0 (by simp) 3 (by simp)
    rw [List.sum_toFinset _ (hnd _ hl)] at h2 h3 h4
    generalize [0, 2, 3].toFinset = T at h2 h3 h4 h5 h6 ⊢
    simp [power, weightAt, position, fanCorners] at h2 h3 h4 h5 h6
    have h7 : ctr T 0 = -1 := by linarith
    have h8 : ctr T 1 = 7 / 4 := by rw [h7] at h6; linarith
    refine ⟨?_, by linarith⟩
    funext j
    fin_cases j <;> simp [h7, h8]
  · have hl : [0, 3, 4] ∈ fanSimplices := by decide
    have h2 := one _ hl
    have h3 := point _ hl 0
    have h4 := point _ hl 1
    have h5 := (key _ hl).equal 0 (by simp) 3 (by simp)
    have h6 := (key _ hl).equal 0 (by simp) 4 (by simp)
    rw [List.sum_toFinset _ (hnd _ hl)] at h2 h3 h4
    generalize [0, 3, 4].toFinset = T at h2 h3 h4 h5 h6 ⊢
    simp [power, weightAt, position, fanCorners] at h2 h3 h4 h5 h6
    have h7 : ctr T 0 = -17 / 10 := by linarith
    have h8 : ctr T 1 = 7 / 10 := by rw [h7] at h6; linarith
    refine ⟨?_, by linarith⟩
    funext j
    fin_cases j <;> simp [h7, h8]
  · have hl : [0, 4, 5] ∈ fanSimplices := by decide
    have h2 := one _ hl
    have h3 := point _ hl 0
    have h4 := point _ hl 1
    have h5 := (key _ hl).equal 0 (by simp) 4 (by simp)
    have h6 := (key _ hl).equal 0 (by simp) 5 (by simp)
    rw [List.sum_toFinset _ (hnd _ hl)] at h2 h3 h4
    generalize [0, 4, 5].toFinset = T at h2 h3 h4 h5 h6 ⊢
    simp [power, weightAt, position, fanCorners] at h2 h3 h4 h5 h6
    have h7 : ctr T 0 = 7 / 10 := by linarith
    have h8 : ctr T 1 = -17 / 10 := by rw [h7] at h6; linarith
    refine ⟨?_, by linarith, by linarith⟩
    funext j
    fin_cases j <;> simp [h7, h8]

theorem fan_opposite : OppositeSide fanCorners [2, 0].toFinset (position fanCorners 1) (position fanCorners 3) ∧
    OppositeSide fanCorners [3, 0].toFinset (position fanCorners 2) (position fanCorners 4) ∧
    OppositeSide fanCorners [4, 0].toFinset (position fanCorners 3) (position fanCorners 5) := by
  refine ⟨⟨fun v => if v = 0 then 4 else 1, -4, by norm_num, ?_, fun j => ?_⟩,
    ⟨fun v => if v = 0 then 3 / 2 else 1 / 8, -5 / 8, by norm_num, ?_, fun j => ?_⟩,
    ⟨fun v => if v = 0 then 1 else 1, -1, by norm_num, ?_, fun j => ?_⟩⟩
  · simp
  · fin_cases j <;> simp [position, fanCorners] <;> norm_num
  · simp; norm_num
  · fin_cases j <;> simp [position, fanCorners] <;> norm_num
  · simp; norm_num
  · fin_cases j <;> simp [position, fanCorners] <;> norm_num

/-- the fan meets the hypotheses of C62_pick, with every solver and every search -/
theorem fan_input : ∃ (solve : List (List Int) → Option (List Int)) (t : Topo)
    (eigh : (n : Nat) → Matrix (Fin n) (Fin n) ℝ → Eigh n ℝ) (ratio : ℝ)
    (y : Finset Nat → Nat → ℝ) (ctr : Finset Nat → Fin 2 → ℝ),
    ∀ minres nearest, MinresSpec minres → NearestSpec nearest →
    PickInput solve List.dedup eigh ratio minres nearest fanSimplices t fanCorners none y ctr := by
  have hs : Simplices 3 fanSimplices := simplices_of_all (by decide)
  have hf : fromSimplices List.dedup 3 fanSimplices = .ok (built 3 fanSimplices) := by decide +kernel
  have hco : Coherent fanSimplices := by
    rw [← reorient_false fanSimplices, ← (wf_built hs hf).satisfies_iff_coherent hs (fun _ => false)]
    decide +kernel
  obtain ⟨solve, hsat, ho⟩ := C08_coherent_some_solver uniqSpec_dedup hs hf (by simp [fanSimplices]) hco
  obtain ⟨eigh, ratio, y, ctr, h⟩ := C61_applies (V := fanCorners) (W := none) uniqSpec_dedup hs hf
    (by simp [fanSimplices]) (by decide) (by simp) fanCorners_nondegenerate
  have hel : (built 3 fanSimplices).elements[1]?.getD [] =
      [[1, 2], [0, 1], [2, 3], [2, 0], [3, 4], [3, 0], [4, 5], [5, 0], [4, 0]] := by
    decide +kernel
  obtain ⟨⟨c1, y10, y12⟩, ⟨c2, y20⟩, ⟨c3, y30⟩, ⟨c4, y40, y44⟩⟩ := fan_centers h.centers
  obtain ⟨o1, o2, o3⟩ := fan_opposite
  refine ⟨solve, _, eigh, ratio, y, ctr, fun minres nearest hmin hnear =>
    ⟨h, hsat, ho, atMostTwo_of_check (by decide), ?_, hmin, hnear, ?_⟩⟩
  · refine connected_of_chain fun j hj => ?_
    have hj : j < 3 := by
      simp [fanSimplices] at hj
      omega
    interval_cases j
    · exact ⟨[0, 2], sharedFace_of_check (by decide)⟩
    · exact ⟨[0, 3], sharedFace_of_check (by decide)⟩
    · exact ⟨[0, 4], sharedFace_of_check (by decide)⟩
  · obtain ⟨b, hb, hiff⟩ := C61_delaunay h (le_refl 2) (by rw [hel]; decide) (by
      rw [hel]
      intro e he l l' hi
      simp only [List.mem_cons, List.not_mem_nil, or_false] at he
      rcases he with rfl | rfl | rfl | rfl | rfl | rfl | rfl | rfl | rfl <;>
        simp [incident, fanSimplices] at hi <;> obtain ⟨rfl, rfl⟩ := hi
      · exact o1
      · exact o2
      · exact o3)
    rw [hb]
    congr 1
    rw [hiff, hel]
    intro e he
    simp only [List.mem_cons, List.not_mem_nil, or_false] at he
    rcases he with rfl | rfl | rfl | rfl | rfl | rfl | rfl | rfl | rfl <;>
      refine ⟨fun l hi => ?_, fun l l' hi u hu => ?_⟩ <;> simp [incident, fanSimplices] at hi
    · subst hi; exact y10
    · subst hi; exact y12
    · subst hi; exact y20
    · obtain ⟨rfl, rfl⟩ := hi
      rw [c1]
      simp only [List.mem_cons, List.not_mem_nil, or_false] at hu
      rcases hu with rfl | rfl <;> simp [power, weightAt, position, fanCorners, missing] <;> norm_num
    · subst hi; exact y30
    · obtain ⟨rfl, rfl⟩ := hi
      rw [c2]
      simp only [List.mem_cons, List.not_mem_nil, or_false] at hu
      rcases hu with rfl | rfl <;> simp [power, weightAt, position, fanCorners, missing] <;> norm_num
    · subst hi; exact y40
    · subst hi; exact y44
    · obtain ⟨rfl, rfl⟩ := hi
      rw [c3]
      simp only [List.mem_cons, List.not_mem_nil, or_false] at hu
      rcases hu with rfl | rfl <;> simp [power, weightAt, position, fanCorners, missing] <;> norm_num

/-- C62: without convexity pairwise Delaunay is not enough: here `pick_primal` is asked for a point inside
of the first triangle, and returns another one, with a negative coordinate -/
theorem C62_notch : ∃ (solve : List (List Int) → Option (List Int)) (t : Topo)
    (eigh : (n : Nat) → Matrix (Fin n) (Fin n) ℝ → Eigh n ℝ) (ratio : ℝ)
    (y : Finset Nat → Nat → ℝ) (ctr : Finset Nat → Fin 2 → ℝ),
    InSimplex fanCorners [0, 1, 2] ![1 / 2, 1 / 40] ∧
    ∀ minres nearest, MinresSpec minres → NearestSpec nearest →
    PickInput solve List.dedup eigh ratio minres nearest fanSimplices t fanCorners none y ctr ∧
    ∃ i b, pickPrimal solve List.dedup eigh ratio minres nearest t fanCorners none [![1 / 2, 1 / 40]] none true =
      .ok [(i, b)] ∧ ∃ v, b v < 0 := by
  obtain ⟨solve, t, eigh, ratio, y, ctr, h⟩ := fan_input
  refine ⟨solve, t, eigh, ratio, y, ctr, ?_, fun minres nearest hmin hnear => ⟨h _ _ hmin hnear, ?_⟩⟩
  · refine ⟨fun v => if v = 0 then 1 / 2 else if v = 1 then 1 / 2 - 1 / 80 else 1 / 80, ⟨?_, fun j => ?_⟩,
      fun v _ => ?_⟩
    · simp; norm_num
    · fin_cases j <;> simp [position, fanCorners] <;> norm_num
    · dsimp only
      split
      · norm_num
      · split <;> norm_num
  · have hin := h _ _ hmin hnear
    obtain ⟨R, hR, hlen, hk⟩ := C62_pick hin [![1 / 2, 1 / 40]]
    obtain ⟨i, l, b, h1, h2, h3, h4⟩ := hk 0 _ rfl
    refine ⟨i, b, ?_, ?_⟩
    · rw [hR]
      congr 1
      obtain ⟨r, rfl⟩ := List.length_eq_one_iff.1 hlen
      simpa using h1
    · have hl := List.mem_of_getElem? h2
      obtain ⟨⟨c1, -⟩, -, -, ⟨c4, -⟩⟩ := fan_centers hin.mesh.centers
      have hb1 := h3.1
      have hb2 := h3.2 0
      have hb3 := h3.2 1
      have h5 := h4 [0, 4, 5] (by decide)
      by_contra hno
      push Not at hno
      have n0 := hno 0
      have n1 := hno 1
      have n2 := hno 2
      simp only [fanSimplices, List.mem_cons, List.not_mem_nil, or_false] at hl
      rcases hl with rfl | rfl | rfl | rfl
      · unfold spherePower sphereRadius at h5
        rw [c1, c4] at h5
        simp [power, weightAt, position, fanCorners] at h5
        norm_num at h5
      all_goals
        simp [Fin.sum_univ_three, cornersOf, position, fanCorners] at hb1 hb2 hb3
        linarith

/-! ### A mesh of two parts -/

/-- a large triangle, and a small one beside it -/
def partCorners : List (Vec ℝ 2) := [![0, 0], ![8, 0], ![4, 6], ![9, 0], ![11, 0], ![10, 2]]

def partSimplices : List (List Nat) := [[0, 1, 2], [3, 4, 5]]

theorem partCorners_nondegenerate : NonDegenerate partCorners 2 partSimplices := by
  intro l hl
  apply affineIndependent_of
  intro w h1 h2
  have a := h2 0
  have b := h2 1
  simp only [partSimplices, List.mem_cons, List.not_mem_nil, or_false] at hl
  rcases hl with rfl | rfl <;>
  · simp [Fin.sum_univ_three, cornersOf, position, partCorners] at h1 a b
    intro i
    fin_cases i <;> simp <;> linarith

theorem part_centers {y : Finset Nat → Nat → ℝ} {ctr : Finset Nat → Fin 2 → ℝ}
    (h : PowerCenters partCorners (weightAt none) partSimplices y ctr) :
    (ctr [0, 1, 2].toFinset = ![4, 5 / 3] ∧ ∀ v ∈ [0, 1, 2], 0 < y [0, 1, 2].toFinset v) ∧
    (ctr [3, 4, 5].toFinset = ![10, 3 / 4] ∧ ∀ v ∈ [3, 4, 5], 0 < y [3, 4, 5].toFinset v) := by
  have hnd : ∀ l ∈ partSimplices, l.Nodup := by decide
  constructor
  · have hl : [0, 1, 2] ∈ partSimplices := by decide
    have hc := h _ ⟨⟨0, by simp⟩, _, hl, fun _ h => h⟩
    have h2 := hc.one
    have h3 := hc.point 0
    have h4 := hc.point 1
    have h5 := hc.equal 0 (by simp) 1 (by simp)
    have h6 := hc.equal 0 (by simp) 2 (by simp)
    rw [List.sum_toFinset _ (hnd _ hl)] at h2 h3 h4
    generalize [0, 1, 2].toFinset = T at h2 h3 h4 h5 h6 ⊢
    simp [power, weightAt, position, partCorners] at h2 h3 h4 h5 h6
    have h7 : ctr T 0 = 4 := by linarith
    have h8 : ctr T 1 = 5 / 3 := by rw [h7] at h6; linarith
    refine ⟨?_, fun v hv => ?_⟩
    · funext j
      fin_cases j <;> simp [h7, h8]
    · simp only [List.mem_cons, List.not_mem_nil, or_false] at hv
      rcases hv with rfl | rfl | rfl <;> linarith
  · have hl : [3, 4, 5] ∈ partSimplices := by decide
    have hc := h _ ⟨⟨3, by simp⟩, _, hl, fun _ h => h⟩
    have h2 := hc.one
    have h3 := hc.point 0
    have h4 := hc.point 1
    have h5 := hc.equal 3 (by simp) 4 (by simp)
    have h6 := hc.equal 3 (by simp) 5 (by simp)
    rw [List.sum_toFinset _ (hnd _ hl)] at h2 h3 h4
    generalize [3, 4, 5].toFinset = T at h2 h3 h4 h5 h6 ⊢
    simp [power, weightAt, position, partCorners] at h2 h3 h4 h5 h6
    have h7 : ctr T 0 = 10 := by linarith
    have h8 : ctr T 1 = 3 / 4 := by rw [h7] at h6; linarith
    refine ⟨?_, fun v hv => ?_⟩
    · funext j
      fin_cases j <;> simp [h7, h8]
    · simp only [List.mem_cons, List.not_mem_nil, or_false] at hv
      rcases hv with rfl | rfl | rfl <;> linarith

/-- C62: over a mesh of several parts the weights of the parts have nothing to do with each other.  This mesh
is Delaunay and meets all hypotheses but connectedness; `pick_primal` is asked for a point inside of the large
triangle and returns the small one. -/
theorem C62_parts : ∃ (solve : List (List Int) → Option (List Int)) (t : Topo)
    (eigh : (n : Nat) → Matrix (Fin n) (Fin n) ℝ → Eigh n ℝ) (ratio : ℝ)
    (y : Finset Nat → Nat → ℝ) (ctr : Finset Nat → Fin 2 → ℝ),
    CenterInput List.dedup eigh ratio 2 partSimplices t partCorners none y ctr ∧
    SatSpec solve ∧ isOriented solve t = .ok true ∧ AtMostTwo partSimplices ∧
    isPairwiseDelaunay eigh ratio t partCorners none = .ok true ∧
    Delaunay partCorners (weightAt none) ctr partSimplices ∧
    InSimplex partCorners [0, 1, 2] ![7, 1 / 2] ∧
    ∀ minres nearest, MinresSpec minres → LeastNorm minres → NearestSpec nearest →
    ∃ b, pickPrimal solve List.dedup eigh ratio minres nearest t partCorners none [![7, 1 / 2]] none true =
      .ok [(1, b)] ∧ ∃ v, b v < 0 := by
  have hs : Simplices 3 partSimplices := simplices_of_all (by decide)
  have hf : fromSimplices List.dedup 3 partSimplices = .ok (built 3 partSimplices) := by decide +kernel
  have hco : Coherent partSimplices := by
    rw [← reorient_false partSimplices, ← (wf_built hs hf).satisfies_iff_coherent hs (fun _ => false)]
    decide +kernel
  obtain ⟨solve, hsat, ho⟩ := C08_coherent_some_solver uniqSpec_dedup hs hf (by simp [partSimplices]) hco
  obtain ⟨eigh, ratio, y, ctr, h⟩ := C61_applies (V := partCorners) (W := none) uniqSpec_dedup hs hf
    (by simp [partSimplices]) (by decide) (by simp) partCorners_nondegenerate
  have hel : (built 3 partSimplices).elements[1]?.getD [] =
      [[1, 2], [2, 0], [0, 1], [4, 5], [5, 3], [3, 4]] := by
    decide +kernel
  have h2 : AtMostTwo partSimplices := atMostTwo_of_check (by decide)
  obtain ⟨⟨c1, y1⟩, ⟨c2, y2⟩⟩ := part_centers h.centers
  have hd : isPairwiseDelaunay eigh ratio (built 3 partSimplices) partCorners none = .ok true := by
    obtain ⟨b, hb, hiff⟩ := C61_delaunay h (le_refl 2) (by rw [hel]; decide) (by
      rw [hel]
      intro e he l l' hi
      simp only [List.mem_cons, List.not_mem_nil, or_false] at he
      rcases he with rfl | rfl | rfl | rfl | rfl | rfl <;> simp [incident, partSimplices] at hi)
    rw [hb]
    congr 1
    rw [hiff, hel]
    intro e he
    simp only [List.mem_cons, List.not_mem_nil, or_false] at he
    rcases he with rfl | rfl | rfl | rfl | rfl | rfl <;>
      refine ⟨fun l hi => ?_, fun l l' hi => ?_⟩ <;> simp [incident, partSimplices] at hi <;> subst hi
    · exact y1 _ (by decide)
    · exact y1 _ (by decide)
    · exact y1 _ (by decide)
    · exact y2 _ (by decide)
    · exact y2 _ (by decide)
    · exact y2 _ (by decide)
  refine ⟨solve, _, eigh, ratio, y, ctr, h, hsat, ho, h2, hd, ?_, ?_, fun minres nearest hmin hnorm hnear => ?_⟩
  · intro l hl l' hl' v hv hvl u hu
    simp only [partSimplices, List.mem_cons, List.not_mem_nil, or_false] at hl hl'
    rcases hl with rfl | rfl <;> rcases hl' with rfl | rfl
    · exact absurd hv hvl
    · rw [c1]
      simp only [List.mem_cons, List.not_mem_nil, or_false] at hv hu
      rcases hv with rfl | rfl | rfl <;> rcases hu with rfl | rfl | rfl <;>
        simp [power, position, partCorners, weightAt] <;> norm_num
    · rw [c2]
      simp only [List.mem_cons, List.not_mem_nil, or_false] at hv hu
      rcases hv with rfl | rfl | rfl <;> rcases hu with rfl | rfl | rfl <;>
        simp [power, position, partCorners, weightAt] <;> norm_num
    · exact absurd hv hvl
  · refine ⟨fun v => if v = 1 then 5 / 6 else 1 / 12, ⟨?_, fun j => ?_⟩, fun v _ => ?_⟩
    · simp; norm_num
    · fin_cases j <;> simp [position, partCorners] <;> norm_num
    · dsimp only; split <;> norm_num
  · -- there is no inner face, so the weights vanish
    obtain ⟨w, L, rhs, hw, hwl, hwm, hsq, hcols, hsym, hex, hnull, -⟩ := weights_rows h hsat ho h2 hmin
    have hrow : ∀ x < (built 3 partSimplices).nElements 1, rowSum (built 3 partSimplices) 1 x ≠ 0 := by
      decide +kernel
    have hz : ∀ z : Nat → ℝ, ∑ j ∈ Finset.range 2, w[j]?.getD 0 * z j = 0 := by
      intro z
      have := hnorm L rhs hsq hsym hex _ (hnull z fun x hx h0 => absurd h0 (hrow x hx))
      rw [← hwm, hcols] at this
      refine Eq.trans ?_ this
      refine Finset.sum_congr rfl fun j hj => ?_
      have hj : j < partSimplices.length := Finset.mem_range.1 hj
      simp [hj]
    have hw0 : w = [0, 0] := by
      obtain ⟨a, b, rfl⟩ := List.length_eq_two.1 (hwl : w.length = 2)
      have e0 := hz fun j => if j = 0 then 1 else 0
      have e1 := hz fun j => if j = 0 then 0 else 1
      simp [Finset.sum_range_succ] at e0 e1
      rw [e0, e1]
    obtain ⟨sites, hs⟩ : ∃ sites, augmentWeights (partSimplices.map fun l => List.ofFn (ctr l.toFinset)) w =
        .ok sites := by
      rw [hw0]
      exact ⟨_, rfl⟩
    obtain ⟨M, -, -, hl, -, key⟩ := C45_lifting _ w sites hs
    rw [List.length_map] at hl
    have hpre := precomp_ok (solve := solve) (minres := minres) h hd true (fun _ => hw) hs
    have hfinds : Finds nearest true partSimplices sites (fun l p => dist2 p (ctr l.toFinset)) := by
      refine finds_of_dist hnear h.nonempty true (c := M) hl fun j l s p hj hsj => ?_
      have hjl : j < 2 := (List.getElem?_eq_some_iff.1 hj).1
      rw [if_pos rfl, key j (List.ofFn (ctr l.toFinset)) 0 s (List.ofFn p) (by rw [List.getElem?_map, hj]; rfl)
        (by rw [hw0]; interval_cases j <;> rfl) hsj (by simp)]
      unfold powerDist
      rw [sqDist_ofFn, sub_zero]
    obtain ⟨R, hR, hlen, hk⟩ := pick_found h hd true hpre hfinds [![7, 1 / 2]]
    obtain ⟨i, l, b, h1, h2, h3, h4⟩ := hk 0 _ rfl
    have hi : i < 2 := (List.getElem?_eq_some_iff.1 h2).1
    have hi1 : i = 1 := by
      by_contra hne
      obtain rfl : i = 0 := by omega
      have hl0 : l = [0, 1, 2] := (Option.some.inj h2).symm
      subst hl0
      have h5 := h4 [3, 4, 5] (by decide)
      simp only [c1, c2] at h5
      simp [dist2] at h5
      norm_num at h5
    subst hi1
    have hl1 : l = [3, 4, 5] := (Option.some.inj h2).symm
    subst hl1
    refine ⟨b, ?_, ?_⟩
    · rw [hR]
      congr 1
      obtain ⟨r, rfl⟩ := List.length_eq_one_iff.1 hlen
      simpa using h1
    · have hb1 := h3.1
      have hb2 := h3.2 0
      by_contra hno
      push Not at hno
      have n0 := hno 0
      have n1 := hno 1
      have n2 := hno 2
      simp [Fin.sum_univ_three, cornersOf, position, partCorners] at hb1 hb2
      linarith

end Verif.Props
