/-
The boundary of the square, with which `circle` starts.
-/
import Verif.Lemmas.CircleStep
import Verif.Props.Grid

namespace Verif

open Verif.Model Verif.Spec Verif.Props

variable {uniq : List (List Nat) → List (List Nat)} {n : Nat} {cubes : List (List Nat)} {t : Topo}
  {solve : List (List Int) → Option (List Int)}

/-- the boundary is what `from_cubes` makes of its cubes -/
theorem cubicalBoundary_built (hu : UniqSpec uniq) (hc : Cubes (n + 2) cubes) (h : fromCubes uniq true (n + 2) cubes = .ok t)
    (hor : isOriented solve t = .ok true) {s : Sub} (hb : cubicalBoundary solve uniq t = .ok (some s)) {new : List (List Nat)}
    (hnew : s.topo.elements[n + 1]? = some new) : fromCubes uniq true (n + 1) new = .ok s.topo := by
  have wf := fromCubes_wf hu hc h
  obtain ⟨hsn, s', hsub, hok⟩ := bRows_cubes hu hc h
  rw [cubicalBoundary_eq hor, wf.lenB, show n + 2 - 1 = n + 1 from rfl, hsub] at hb
  split at hb
  · simp at hb
  · have : s' = s := by simpa [Except.map] using hb
    subst this
    rw [hok.wf.top_eq] at hnew
    rw [← Option.some.inj hnew]
    exact hok.built

/-- the way around the square -/
def squareRound (k : Nat) : Nat := [0, 1, 3, 2][k % 4]?.getD 0

theorem square_symmetric {e l : List Nat} {σ : ℤ} (he : e.length = 2) (h : SymmetricCube 1 e l σ) :
    (σ = 1 ∧ l = e) ∨ (σ = -1 ∧ l = e.reverse) := by
  obtain ⟨axes, flips, ⟨h1, h2⟩, h3, h4⟩ := h
  obtain rfl : axes = [0] := by simpa using h1
  obtain ⟨f, rfl⟩ := List.length_eq_one_iff.1 h2
  obtain ⟨a, b, rfl⟩ := List.length_eq_two.1 he
  cases f
  · left; exact ⟨by rw [h4]; decide, h3⟩
  · right; exact ⟨by rw [h4]; decide, h3⟩

theorem square_edges (hu : UniqSpec uniq) (h : fromCubes uniq true 2 [[0, 1, 2, 3]] = .ok t) :
    (t.elements[1]?.getD []).Perm [[0, 1], [1, 3], [3, 2], [2, 0]] := by
  have hc : Cubes 2 [[0, 1, 2, 3]] := by intro l hl; revert l; decide
  have wf := fromCubes_wf hu hc h
  obtain ⟨hE, -, hd, -⟩ := wf.get (k := 1) (by omega)
  have hcE := wf.cubes hc (k := 1) (by omega)
  have hfirst : ∀ e ∈ t.elements[1]?.getD [], e ∈ [[0, 1], [1, 3], [3, 2], [2, 0]] := by
    intro e he
    obtain ⟨l, hl, i, hi, s, σ, hσ, hτ⟩ := stored_first (n := 1) hu hc (le_refl 1) h e he
    obtain rfl : l = [0, 1, 2, 3] := by simpa using hl
    have hi : i = 0 ∨ i = 1 := by omega
    have s1 : side 1 0 false [0, 1, 2, 3] = [0, 1] := by decide
    have s2 : side 1 0 true [0, 1, 2, 3] = [2, 3] := by decide
    have s3 : side 1 1 false [0, 1, 2, 3] = [0, 2] := by decide
    have s4 : side 1 1 true [0, 1, 2, 3] = [1, 3] := by decide
    rcases hi with rfl | rfl <;> cases s <;> rcases square_symmetric (hcE e he).1 hσ with ⟨rfl, hl'⟩ | ⟨rfl, hl'⟩ <;>
      first
      | (simp at hτ; done)
      | (simp only [s1, s2, s3, s4] at hl'
         first
         | (rw [← hl']; decide)
         | (rw [← List.reverse_reverse e, ← hl']; decide))
  have hnd : (t.elements[1]?.getD []).Nodup := by
    have hd' := hd
    unfold DistinctElements at hd'
    exact hd'.imp fun hp e => hp (by rw [e])
  rw [List.perm_ext_iff_of_nodup hnd (by decide)]
  intro e
  refine ⟨hfirst e, fun he => ?_⟩
  have hs : IsCubeSide 1 e [0, 1, 2, 3] := by
    revert e
    decide
  obtain ⟨x, e', he', hp⟩ := stored_of_isSide hu hc h (l := [0, 1, 2, 3]) (by simp) hs
  have hm' := List.mem_of_getElem? he'
  have : e = e' := by
    have h2 := hfirst e' hm'
    have key : ∀ e ∈ [[0, 1], [1, 3], [3, 2], [2, 0]], ∀ e' ∈ [[0, 1], [1, 3], [3, 2], [2, 0]], e.Perm e' → e = e' := by decide
    exact key e he e' h2 hp
  rw [this]
  exact hm'

theorem squareRound_polygon {edges : List (List Nat)} (h : edges.Perm [[0, 1], [1, 3], [3, 2], [2, 0]]) :
    ClosedPolygon 4 edges squareRound := by
  have hmod : ∀ k, squareRound k = squareRound (k % 4) := fun k => by simp [squareRound]
  refine ⟨fun k => ?_, fun k l => ?_, ?_⟩
  · rw [hmod]
    have : k % 4 < 4 := Nat.mod_lt _ (by norm_num)
    generalize k % 4 = m at this
    revert m
    decide
  · rw [hmod k, hmod l]
    unfold Nat.ModEq
    have h1 : k % 4 < 4 := Nat.mod_lt _ (by norm_num)
    have h2 : l % 4 < 4 := Nat.mod_lt _ (by norm_num)
    generalize k % 4 = m at h1
    generalize l % 4 = m' at h2
    revert m m'
    decide
  · exact h.trans (.of_eq (by decide))

/-- the vertices of the centered square -/
theorem square_vertices : ((gridVertices (K := ℝ) [1, 1] true).map fun r (q : Fin 2) => r[q.val]?.getD 0) =
    [![-(1 / 2), -(1 / 2)], ![-(1 / 2), 1 / 2], ![1 / 2, -(1 / 2)], ![1 / 2, 1 / 2]] := by
  have h0 : gridVertices (K := ℝ) [1, 1] false = [[0, 0], [0, 1], [1, 0], [1, 1]] := by
    simp [gridVertices, gridIndices, vshape, List.range_succ]
  have h1 : gridVertices (K := ℝ) [1, 1] true =
      [[-(1 / 2), -(1 / 2)], [-(1 / 2), 1 / 2], [1 / 2, -(1 / 2)], [1 / 2, 1 / 2]] := by
    apply List.ext_getElem?
    intro v
    have hlen : (gridVertices (K := ℝ) [1, 1] true).length = 4 := by
      simp [gridVertices, gridIndices, vshape, List.range_succ]
    by_cases hv : v < 4
    · have := C22_centering (K := ℝ) (shape := [1, 1]) v _ (List.getElem?_eq_getElem (l := gridVertices (K := ℝ) [1, 1] false)
        (by rw [h0]; exact hv))
      rw [this]
      simp only [h0]
      have : v = 0 ∨ v = 1 ∨ v = 2 ∨ v = 3 := by omega
      rcases this with rfl | rfl | rfl | rfl <;> norm_num
    · rw [List.getElem?_eq_none (by omega), List.getElem?_eq_none (by simp; omega)]
  rw [h1]
  simp only [List.map_cons, List.map_nil]
  congr 1
  · funext q; fin_cases q <;> rfl
  · congr 1
    · funext q; fin_cases q <;> rfl
    · congr 1
      · funext q; fin_cases q <;> rfl
      · congr 1
        funext q; fin_cases q <;> rfl

theorem square_positions (k : Nat) :
    [![-(1 / 2), -(1 / 2)], ![-(1 / 2), 1 / 2], ![1 / 2, -(1 / 2)], ![1 / 2, 1 / 2]][squareRound k]? =
      some (onCircle (1 / Real.sqrt 2) (5 * Real.pi / 4 - 2 * Real.pi * k / (4 : ℕ))) := by
  have hs : Real.sqrt 2 ≠ 0 := by positivity
  have hsq : 1 / Real.sqrt 2 * (Real.sqrt 2 / 2) = 1 / 2 := by field_simp
  have hsplit : (5 * Real.pi / 4 - 2 * Real.pi * (k : ℝ) / (4 : ℕ)) =
      (5 * Real.pi / 4 - (k % 4 : ℕ) * (Real.pi / 2)) - (k / 4 : ℕ) * (2 * Real.pi) := by
    have : (k : ℝ) = (k % 4 : ℕ) + 4 * (k / 4 : ℕ) := by exact_mod_cast (Nat.mod_add_div k 4).symm
    rw [this]
    push_cast
    ring
  have hround : squareRound k = squareRound (k % 4) := by simp [squareRound]
  have hang : onCircle (1 / Real.sqrt 2) (5 * Real.pi / 4 - 2 * Real.pi * (k : ℝ) / (4 : ℕ)) =
      onCircle (1 / Real.sqrt 2) (5 * Real.pi / 4 - (k % 4 : ℕ) * (Real.pi / 2)) := by
    rw [hsplit]
    unfold onCircle
    rw [Real.cos_sub_nat_mul_two_pi, Real.sin_sub_nat_mul_two_pi]
  rw [hang, hround]
  have h4 : k % 4 < 4 := Nat.mod_lt _ (by norm_num)
  generalize k % 4 = m at h4
  have hm : m = 0 ∨ m = 1 ∨ m = 2 ∨ m = 3 := by omega
  have c1 := Real.cos_pi_div_four
  have c2 := Real.sin_pi_div_four
  rcases hm with rfl | rfl | rfl | rfl
  · have e : 5 * Real.pi / 4 - ((0 : ℕ) : ℝ) * (Real.pi / 2) = Real.pi / 4 + Real.pi := by push_cast; ring
    rw [e]
    unfold onCircle
    rw [Real.cos_add_pi, Real.sin_add_pi, c1, c2]
    simp only [mul_neg, hsq]
    rfl
  · have e : 5 * Real.pi / 4 - ((1 : ℕ) : ℝ) * (Real.pi / 2) = Real.pi - Real.pi / 4 := by push_cast; ring
    rw [e]
    unfold onCircle
    rw [Real.cos_pi_sub, Real.sin_pi_sub, c1, c2]
    simp only [mul_neg, hsq]
    rfl
  · have e : 5 * Real.pi / 4 - ((2 : ℕ) : ℝ) * (Real.pi / 2) = Real.pi / 4 := by push_cast; ring
    rw [e]
    unfold onCircle
    rw [c1, c2, hsq]
    rfl
  · have e : 5 * Real.pi / 4 - ((3 : ℕ) : ℝ) * (Real.pi / 2) = -(Real.pi / 4) := by push_cast; ring
    rw [e]
    unfold onCircle
    rw [Real.cos_neg, Real.sin_neg, c1, c2]
    simp only [mul_neg, hsq]
    rfl

/-- the start of `circle` -/
theorem circleLoop_zero (hu : UniqSpec uniq) (hsat : SatSpec solve) :
    ∃ t V edges, circleLoop solve uniq 0 = .ok (t, V) ∧ fromCubes uniq true 1 edges = .ok t ∧
      ClosedPolygon 4 edges squareRound ∧ V.length = 4 ∧
      ∀ k : Nat, V[squareRound k]? = some (onCircle (1 / Real.sqrt 2) (5 * Real.pi / 4 - 2 * Real.pi * k / (4 : ℕ))) := by
  have hg : gridCubes [1, 1] = [[0, 1, 2, 3]] := by decide
  obtain ⟨q, hq⟩ := C22_accepted (shape := [1, 1]) hu (by simp) (by simp) (by simp)
  have hor := C22_oriented hu hsat (by simp) hq
  have hq' := hq
  unfold nCubeGrid at hq'
  rw [hg] at hq'
  change fromCubes uniq true 2 [[0, 1, 2, 3]] = .ok q at hq'
  have hc : Cubes 2 [[0, 1, 2, 3]] := by intro l hl; revert l; decide
  have h2 : SidesAtMostTwo 1 [[0, 1, 2, 3]] := sidesAtMostTwo_of_length (by decide)
  have hE := square_edges hu hq'
  have hbs : ∀ e ∈ q.elements[1]?.getD [], BoundarySide 1 [[0, 1, 2, 3]] e := by
    intro e he
    refine ⟨0, _, rfl, ?_, ?_⟩
    · have key : ∀ e ∈ [[0, 1], [1, 3], [3, 2], [2, 0]], IsCubeSide 1 e [0, 1, 2, 3] := by decide
      exact key e (hE.mem_iff.1 he)
    · intro j' l' hj' _
      have := (List.getElem?_eq_some_iff.1 hj').1
      simp only [List.length_cons, List.length_nil] at this
      omega
  obtain ⟨⟨b, hb⟩, hnone⟩ := C76_closed_iff hu hc hsat hq' h2 hor
  have hbs' : b ≠ none := by
    rintro rfl
    exact hnone.1 hb [0, 1] (hbs _ (hE.mem_iff.2 (by decide)))
  obtain ⟨s, rfl⟩ := Option.ne_none_iff_exists'.1 hbs'
  obtain ⟨P0, new, sides, hP0, hnew, hmap, hsl, hsm, hsort, hused, -⟩ := C76_boundary_elements hu hc hsat hq' h2 hor hb
  have hbuilt := cubicalBoundary_built hu hc hq' hor hb hnew
  have hall : sides = q.elements[1]?.getD [] := by
    refine hsl.eq_of_length_le ?_
    have hnd : (q.elements[1]?.getD []).Nodup := hE.nodup_iff.2 (by decide)
    exact (hnd.subperm fun e he => (hsm e he).2 (hbs e he)).length_le
  rw [hall] at hmap
  have hPmem : ∀ x, x ∈ P0 ↔ x < 4 := by
    have hsq : ∀ x : Nat, (∃ e ∈ q.elements[1]?.getD [], x ∈ e) ↔ x < 4 := by
      intro x
      have : (∃ e ∈ q.elements[1]?.getD [], x ∈ e) ↔ ∃ e ∈ [[0, 1], [1, 3], [3, 2], [2, 0]], x ∈ e :=
        exists_congr fun e => and_congr_left fun _ => hE.mem_iff
      rw [this]
      simp
      omega
    intro x
    rw [← hsq, ← hmap]
    constructor
    · intro hx
      obtain ⟨v, hv⟩ := List.mem_iff_getElem?.1 hx
      obtain ⟨r, hr, hvr⟩ := (hused v).2 (List.getElem?_eq_some_iff.1 hv).1
      exact ⟨_, List.mem_map.2 ⟨r, hr, rfl⟩, List.mem_map.2 ⟨v, hvr, by rw [hv]; rfl⟩⟩
    · rintro ⟨e, he, hx⟩
      obtain ⟨r, hr, rfl⟩ := List.mem_map.1 he
      obtain ⟨v, hv, rfl⟩ := List.mem_map.1 hx
      have := (hused v).1 ⟨r, hr, hv⟩
      rw [List.getElem?_eq_getElem this]
      exact List.getElem_mem _
  have hP : P0 = [0, 1, 2, 3] := by
    have hp : P0.Perm [0, 1, 2, 3] := by
      rw [List.perm_ext_iff_of_nodup (hsort.imp fun h => Nat.ne_of_lt h) (by decide)]
      intro x
      rw [hPmem]
      simp
      omega
    refine hp.eq_of_pairwise (le := (· < ·)) ?_ hsort (by decide)
    intro a b _ _ h1 h2
    omega
  subst hP
  have hnewE : new = q.elements[1]?.getD [] := by
    rw [← hmap]
    conv_lhs => rw [← List.map_id new]
    apply List.map_congr_left
    intro r hr
    conv_lhs => rw [id, ← List.map_id r]
    apply List.map_congr_left
    intro v hv
    have : v < 4 := (hused v).1 ⟨r, hr, hv⟩
    have : v = 0 ∨ v = 1 ∨ v = 2 ∨ v = 3 := by omega
    rcases this with rfl | rfl | rfl | rfl <;> rfl
  rw [hnewE] at hbuilt
  refine ⟨s.topo, [![-(1 / 2), -(1 / 2)], ![-(1 / 2), 1 / 2], ![1 / 2, -(1 / 2)], ![1 / 2, 1 / 2]], _, ?_, hbuilt,
    squareRound_polygon hE, rfl, square_positions⟩
  unfold circleLoop complexBoundary
  simp only [hq, bind, Except.bind, hb, hP0, square_vertices]
  rfl

end Verif
