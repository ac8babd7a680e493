/-
C77: circles and cylinders.
-/
import Verif.Lemmas.CircleStart
import Verif.Lemmas.Cylinder
import Verif.Props.Normals

namespace Verif.Props

open Verif.Model Verif.Spec

variable {uniq : List (List Nat) → List (List Nat)} {solve : List (List Int) → Option (List Int)}

theorem two_pow_ge (n : Nat) : 3 ≤ 2 ^ (n + 2) := by
  have := Nat.one_le_two_pow (n := n)
  rw [pow_add]
  omega

/-- the positions in front of the ones of a finer circle, and the edges -/
theorem circleLoop_ok (hu : UniqSpec uniq) (hsat : SatSpec solve) (n : Nat) :
    ∃ t V edges c, circleLoop solve uniq n = .ok (t, V) ∧ fromCubes uniq true 1 edges = .ok t ∧
      ClosedPolygon (2 ^ (n + 2)) edges c ∧ V.length = 2 ^ (n + 2) ∧
      ∀ k : Nat, V[c k]? = some (onCircle (if n = 0 then 1 / Real.sqrt 2 else 1)
        (5 * Real.pi / 4 - 2 * Real.pi * k / (2 ^ (n + 2) : ℕ))) := by
  induction n with
  | zero =>
    obtain ⟨t, V, edges, h1, h2, h3, h4, h5⟩ := circleLoop_zero hu hsat
    exact ⟨t, V, edges, squareRound, h1, h2, h3, h4, h5⟩
  | succ n ih =>
    obtain ⟨t, V, edges, c, h1, h2, h3, h4, h5⟩ := ih
    obtain ⟨s, W, g1, g2, g3, g4, g5⟩ := circleStep_ok hu h3 (two_pow_ge n) h2 h4 (by split <;> positivity) h5
    have e : 2 ^ (n + 1 + 2) = 2 * 2 ^ (n + 2) := by ring
    refine ⟨s, W, _, _, ?_, g2, e ▸ g3, e ▸ g4, ?_⟩
    · unfold circleLoop
      simp only [h1, bind, Except.bind]
      exact g1
    · rw [e]; simpa using g5

theorem circle_eq (hu : UniqSpec uniq) {n N : Nat} {t : Topo} {V : List (Vec ℝ 2)} {edges : List (List Nat)} {c : Nat → Nat}
    (h1 : circleLoop solve uniq n = .ok (t, V)) (h2 : fromCubes uniq true 1 edges = .ok t) (h3 : ClosedPolygon N edges c)
    (hN : 2 ≤ N) : circle solve uniq n = .ok (t, V) := by
  unfold circle
  simp only [h1, bind, Except.bind, (fromCubes_wf hu (h3.cubes hN) h2).lenB, if_true]

/-- C77: `circle(n)` succeeds for every number of subdivisions and gives one closed polygon with `4 * 2 ^ n` edges.  Its edges
follow one another clockwise, and its vertices divide a circle about the origin evenly, beginning with the angle `5π/4`.  The
radius is one except without subdivisions: then it is `1/√2`.  The topology is oriented and has no boundary. -/
theorem C77_circle (hu : UniqSpec uniq) (hsat : SatSpec solve) (n : Nat) :
    ∃ t V edges c, circle solve uniq n = .ok (t, V) ∧ t.elements[1]? = some edges ∧
      ClosedPolygon (4 * 2 ^ n) edges c ∧ t.nElements 0 = 4 * 2 ^ n ∧ V.length = 4 * 2 ^ n ∧
      (∀ k : Nat, V[c k]? = some (onCircle (if n = 0 then 1 / Real.sqrt 2 else 1)
        (5 * Real.pi / 4 - 2 * Real.pi * k / (4 * 2 ^ n)))) ∧
      isOriented solve t = .ok true ∧ cubicalBoundary solve uniq t = .ok none := by
  obtain ⟨t, V, edges, c, h1, h2, h3, h4, h5⟩ := circleLoop_ok hu hsat n
  have hN := two_pow_ge n
  have e : 2 ^ (n + 2) = 4 * 2 ^ n := by ring
  refine ⟨t, V, edges, c, circle_eq hu h1 h2 h3 (by omega), (fromCubes_wf hu (h3.cubes (by omega)) h2).top_eq, e ▸ h3,
    e ▸ h3.nVertices (by omega) hu h2, e ▸ h4, fun k => ?_, h3.isOriented hN hu hsat h2, h3.closed hN hu hsat h2⟩
  rw [h5, e]
  push_cast
  rfl

/-- C77: from the first subdivision on, every further one keeps all positions: the ones of the coarse circle come first. -/
theorem C77_refines (hu : UniqSpec uniq) (hsat : SatSpec solve) {n : Nat} (hn : 1 ≤ n) {t t' : Topo} {V V' : List (Vec ℝ 2)}
    (h : circle solve uniq n = .ok (t, V)) (h' : circle solve uniq (n + 1) = .ok (t', V')) : V'.take V.length = V := by
  obtain ⟨t0, V0, edges, c, h1, h2, h3, h4, h5⟩ := circleLoop_ok hu hsat n
  have hN := two_pow_ge n
  obtain ⟨s, W, g1, g2, g3, g4, g5⟩ := circleStep_ok hu h3 hN h2 h4 (by split <;> positivity) h5
  rw [circle_eq hu h1 h2 h3 (by omega)] at h
  have hl : circleLoop solve uniq (n + 1) = .ok (s, W) := by
    conv_lhs => unfold circleLoop
    simp only [h1, bind, Except.bind]
    exact g1
  rw [circle_eq hu hl g2 g3 (by omega)] at h'
  obtain ⟨rfl, rfl⟩ := Prod.mk.inj (Except.ok.inj h)
  obtain ⟨rfl, rfl⟩ := Prod.mk.inj (Except.ok.inj h')
  apply List.ext_getElem?
  intro v
  rw [List.getElem?_take]
  split
  · rename_i hv
    obtain ⟨k, -, rfl⟩ := h3.surj (h4 ▸ hv)
    have := g5 (2 * k)
    rw [fineRound_even] at this
    rw [this, h5, if_neg (by omega)]
    congr 3
    push_cast
    have : (2 : ℝ) ^ (n + 2) ≠ 0 := by positivity
    field_simp
  · rename_i hv
    rw [List.getElem?_eq_none (by omega)]

/-- C77: all edges have the length `2 r sin (π / N)` -/
theorem C77_edge_length (hu : UniqSpec uniq) (hsat : SatSpec solve) (n : Nat) {t : Topo} {V : List (Vec ℝ 2)}
    (h : circle solve uniq n = .ok (t, V)) {edges : List (List Nat)} (he : t.elements[1]? = some edges) :
    ∀ l ∈ edges, ∃ a b x y, l = [a, b] ∧ V[a]? = some x ∧ V[b]? = some y ∧
      Real.sqrt ((x 0 - y 0) ^ 2 + (x 1 - y 1) ^ 2) =
        2 * (if n = 0 then 1 / Real.sqrt 2 else 1) * Real.sin (Real.pi / (4 * 2 ^ n)) := by
  obtain ⟨t0, V0, edges0, c, h1, h2, h3, -, -, h5, -⟩ := C77_circle hu hsat n
  rw [h1] at h
  obtain ⟨rfl, rfl⟩ := Prod.mk.inj (Except.ok.inj h)
  obtain rfl := Option.some.inj (h2.symm.trans he)
  intro l hl
  obtain ⟨k, -, rfl⟩ := h3.exists_of_mem hl
  refine ⟨_, _, _, _, rfl, h5 k, h5 (k + 1), ?_⟩
  have hr : (0 : ℝ) ≤ if n = 0 then 1 / Real.sqrt 2 else 1 := by split <;> positivity
  generalize (if n = 0 then 1 / Real.sqrt 2 else 1 : ℝ) = r at hr
  have hx : (1 : ℝ) ≤ 4 * 2 ^ n := by
    have := one_le_pow₀ (M₀ := ℝ) (a := 2) (n := n) (by norm_num)
    linarith
  have hs : 0 ≤ Real.sin (Real.pi / (4 * 2 ^ n)) := by
    refine Real.sin_nonneg_of_nonneg_of_le_pi (by positivity) ?_
    exact div_le_self Real.pi_pos.le hx
  have hangle : (5 * Real.pi / 4 - 2 * Real.pi * ((k + 1 : ℕ) : ℝ) / (4 * 2 ^ n)) =
      (5 * Real.pi / 4 - 2 * Real.pi * k / (4 * 2 ^ n)) - 2 * (Real.pi / (4 * 2 ^ n)) := by
    push_cast; ring
  rw [hangle]
  generalize (5 * Real.pi / 4 - 2 * Real.pi * k / (4 * 2 ^ n)) = θ
  generalize Real.pi / (4 * 2 ^ n) = δ at *
  have hsq : (onCircle r θ 0 - onCircle r (θ - 2 * δ) 0) ^ 2 + (onCircle r θ 1 - onCircle r (θ - 2 * δ) 1) ^ 2 =
      (2 * r * Real.sin δ) ^ 2 := by
    simp only [onCircle, Matrix.cons_val_zero, Matrix.cons_val_one]
    rw [Real.cos_sub, Real.sin_sub, Real.cos_two_mul, Real.sin_two_mul]
    have e1 := Real.sin_sq_add_cos_sq θ
    have e2 := Real.sin_sq_add_cos_sq δ
    have e3 : Real.cos δ ^ 2 = 1 - Real.sin δ ^ 2 := by linarith
    have e4 : Real.cos θ ^ 2 = 1 - Real.sin θ ^ 2 := by linarith
    ring_nf
    rw [show Real.cos δ ^ 4 = (Real.cos δ ^ 2) ^ 2 by ring, e3, e4]
    ring
  rw [hsq, Real.sqrt_sq (by positivity)]

theorem twiceArea_onCircle (r θ δ : ℝ) : twiceArea 0 (onCircle r θ) (onCircle r (θ - δ)) = -(r ^ 2 * Real.sin δ) := by
  simp only [twiceArea, onCircle, Matrix.cons_val_zero, Matrix.cons_val_one, Pi.zero_apply, sub_zero]
  rw [Real.cos_sub, Real.sin_sub]
  have e1 := Real.sin_sq_add_cos_sq θ
  linear_combination (-(r ^ 2 * Real.sin δ)) * e1

/-- C77: `volume()` of a circle is minus the area of the regular polygon, since the edges run clockwise; it is never positive. -/
theorem C77_volume (hu : UniqSpec uniq) (hsat : SatSpec solve) (n : Nat) {t : Topo} {V : List (Vec ℝ 2)}
    (h : circle solve uniq n = .ok (t, V)) {edges : List (List Nat)} (he : t.elements[1]? = some edges) :
    curveVolume V true edges = .ok (-((4 * 2 ^ n) / 2 * (if n = 0 then 1 / Real.sqrt 2 else 1) ^ 2 *
      Real.sin (2 * Real.pi / (4 * 2 ^ n)))) ∧
    -((4 * 2 ^ n) / 2 * (if n = 0 then 1 / Real.sqrt 2 else 1) ^ 2 * Real.sin (2 * Real.pi / (4 * 2 ^ n))) < 0 := by
  obtain ⟨t0, V0, edges0, c, h1, h2, h3, -, h4, h5, -⟩ := C77_circle hu hsat n
  rw [h1] at h
  obtain ⟨rfl, rfl⟩ := Prod.mk.inj (Except.ok.inj h)
  obtain rfl := Option.some.inj (h2.symm.trans he)
  have hr : (0 : ℝ) < if n = 0 then 1 / Real.sqrt 2 else 1 := by split <;> positivity
  generalize (if n = 0 then 1 / Real.sqrt 2 else 1 : ℝ) = r at hr h5
  constructor
  · set pairs : List (Nat × Nat) := edges0.map fun l => (l[0]?.getD 0, l[1]?.getD 0) with hpairs
    have hedges : edges0 = pairs.map fun e => [e.1, e.2] := by
      rw [hpairs, List.map_map]
      conv_lhs => rw [← List.map_id edges0]
      apply List.map_congr_left
      intro l hl
      obtain ⟨k, -, rfl⟩ := h3.exists_of_mem hl
      rfl
    have hperm : pairs.Perm ((List.range (4 * 2 ^ n)).map fun k => (c k, c (k + 1))) := by
      refine (h3.edges.map _).trans (.of_eq ?_)
      rw [List.map_map]
      rfl
    have hmem : ∀ e ∈ pairs, ∃ k, e = (c k, c (k + 1)) := by
      intro e he
      obtain ⟨k, -, rfl⟩ := List.mem_map.1 (hperm.mem_iff.1 he)
      exact ⟨k, rfl⟩
    rw [hedges, C56_curve V0 pairs ?_ ?_ 0]
    · congr 1
      have hs : (pairs.map fun e => twiceArea 0 (V0.getD e.1 0) (V0.getD e.2 0)) =
          pairs.map fun _ => -(r ^ 2 * Real.sin (2 * Real.pi / (4 * 2 ^ n))) := by
        apply List.map_congr_left
        intro e he
        obtain ⟨k, rfl⟩ := hmem e he
        simp only [List.getD_eq_getElem?_getD, h5, Option.getD_some]
        rw [← twiceArea_onCircle r (5 * Real.pi / 4 - 2 * Real.pi * k / (4 * 2 ^ n))]
        congr 2
        push_cast
        ring
      rw [hs, List.map_const', List.sum_replicate, hpairs, List.length_map, h3.length]
      simp only [nsmul_eq_mul]
      push_cast
      ring
    · intro e he
      obtain ⟨k, rfl⟩ := hmem e he
      rw [h4]
      exact ⟨h3.lt _, h3.lt _⟩
    · unfold NoEnds
      refine (hperm.map _).trans (List.Perm.trans ?_ (hperm.map _).symm)
      rw [List.map_map, List.map_map]
      have := range_shift (N := 4 * 2 ^ n) (g := c) h3.next 1
      simpa [Function.comp_def, Nat.add_comm] using this.symm
  · have hx : (1 : ℝ) ≤ 2 ^ n := one_le_pow₀ (by norm_num)
    have hs : 0 < Real.sin (2 * Real.pi / (4 * 2 ^ n)) := by
      refine Real.sin_pos_of_pos_of_lt_pi (by positivity) ?_
      rw [div_lt_iff₀ (by positivity)]
      nlinarith [Real.pi_pos]
    have : 0 < (4 * 2 ^ n : ℝ) / 2 * r ^ 2 * Real.sin (2 * Real.pi / (4 * 2 ^ n)) := by positivity
    linarith

/-! ### cylinders -/

theorem cylinder_ok (hu : UniqSpec uniq) (hsat : SatSpec solve) (L R : ℝ) (d : Nat) :
    ∃ t X edges c, cylinder solve uniq L R d = .ok (t, X) ∧ ClosedPolygon (4 * 2 ^ d) edges c ∧
      fromCubes uniq true 2 (productCubes (2 ^ d + 1) (gridCubes [2 ^ d]) edges) = .ok t ∧
      isOriented solve t = .ok true ∧ X.length = (2 ^ d + 1) * (4 * 2 ^ d) ∧
      t.nElements 0 = (2 ^ d + 1) * (4 * 2 ^ d) ∧
      t.nElements 1 = 2 ^ d * (4 * 2 ^ d) + (2 ^ d + 1) * (4 * 2 ^ d) ∧
      t.nElements 2 = 2 ^ d * (4 * 2 ^ d) ∧
      ∀ i : Nat, i ≤ 2 ^ d → ∀ k : Nat, X[i + c k * (2 ^ d + 1)]? = some [L * (i / 2 ^ d - 1 / 2),
        R * (if d = 0 then 1 / Real.sqrt 2 else 1) * Real.cos (5 * Real.pi / 4 - 2 * Real.pi * k / (4 * 2 ^ d)),
        R * (if d = 0 then 1 / Real.sqrt 2 else 1) * Real.sin (5 * Real.pi / 4 - 2 * Real.pi * k / (4 * 2 ^ d))] := by
  obtain ⟨b, W, edges, c, hcirc, hE, hpoly, hb0, hW, hpos, hob, -⟩ := C77_circle hu hsat d
  have hone : 1 ≤ 2 ^ d := Nat.one_le_two_pow
  have hN : 3 ≤ 4 * 2 ^ d := by omega
  obtain ⟨t0, V0, edges0, c0, hc0, hbuilt, hp0, -, -⟩ := circleLoop_ok hu hsat d
  rw [circle_eq hu hc0 hbuilt hp0 (by have := two_pow_ge d; omega)] at hcirc
  obtain ⟨rfl, rfl⟩ := Prod.mk.inj (Except.ok.inj hcirc)
  have hcirc := circle_eq hu hc0 hbuilt hp0 (by have := two_pow_ge d; omega)
  have : edges0 = edges := by
    have := (fromCubes_wf hu (hp0.cubes (by have := two_pow_ge d; omega)) hbuilt).top_eq
    exact Option.some.inj (this.symm.trans hE)
  subst this
  generalize hn : 2 ^ d = n at *
  obtain ⟨a, ha⟩ := C22_accepted (shape := [n]) hu (by simp) (by simp) (by simpa using hone)
  have hoa := C22_oriented hu hsat (by simp) ha
  have ha0 : a.nElements 0 = n + 1 := by
    rw [C22_counts hu (by simpa using hone) ha 0 (by simp)]; simp [boxCount]
  have ha1 : a.nElements 1 = n := by
    rw [C22_counts hu (by simpa using hone) ha 1 (by simp)]; simp [boxCount]
  have ha' : fromCubes uniq true 1 (gridCubes [n]) = .ok a := ha
  have hF : Cubes 1 (gridCubes [n]) := gridCubes_cubes [n]
  have hG := hpoly.cubes (by omega)
  have wa := fromCubes_wf hu hF ha'
  have wb := fromCubes_wf hu hG hbuilt
  have hdF := line_distinct n
  have hdG := hpoly.distinct hN
  obtain ⟨t, ht⟩ := C21_accepted hu hF hG hdF hdG ha' hbuilt (by omega) (by omega)
  have ht' := ht
  rw [productTopology_eq hu hF hG ha' hbuilt, ha0] at ht'
  have hor := C21_oriented hsat hu hF hG hdF hdG ha' hbuilt ht (linked_of_connected hu hF ha' (line_connected n))
    (linked_of_connected hu hG hbuilt (hpoly.connected hN)) hoa hob
  have hb1 : t0.nElements 1 = 4 * n := by
    unfold Topo.nElements; rw [hE]; exact hpoly.length
  have hz : a.nElements 2 = 0 ∧ t0.nElements 2 = 0 := by
    unfold Topo.nElements
    rw [nElements_zero_of_lt hu hF ha' (by omega), nElements_zero_of_lt hu hG hbuilt (by omega)]
    exact ⟨rfl, rfl⟩
  have hcount := C21_counts hu hF hG hdF hdG ha' hbuilt ht
  set VL := (gridVertices (K := ℝ) [n] true).map fun r => r.map (· * (L / (n : ℕ))) with hVL
  set WL := V0.map fun x => (List.ofFn x).map (· * R) with hWL
  have hVlen : VL.length = n + 1 := by rw [hVL, List.length_map, line_vertices]
  have hWlen : WL.length = 4 * n := by rw [hWL, List.length_map, hW]
  refine ⟨t, productVertices VL WL, edges0, c, ?_, hpoly, ht', hor, ?_, ?_, ?_, ?_, ?_⟩
  · unfold cylinder
    rw [hn]
    simp only [ha, bind, Except.bind, wa.lenB, if_true, hcirc, ht]
    rfl
  · rw [(C21_vertices VL WL).1, hVlen, hWlen]
  · rw [hcount 0 (by omega)]; simp [ha0, hb0]
  · rw [hcount 1 (by omega)]; simp [Finset.sum_range_succ, ha0, ha1, hb0, hb1]; ring
  · rw [hcount 2 (by omega)]; simp [Finset.sum_range_succ, ha1, hb1, hz]
  · intro i hi k
    have h1 : VL[i]? = some [((i : ℝ) - n / 2) * (L / n)] := by
      rw [hVL, List.getElem?_map, line_positions hi]; rfl
    have h2 := hpos k
    have h3 : WL[c k]? = some ((List.ofFn (onCircle (if d = 0 then 1 / Real.sqrt 2 else 1)
        (5 * Real.pi / 4 - 2 * Real.pi * k / (4 * 2 ^ d)))).map (· * R)) := by
      rw [hWL, List.getElem?_map, h2]; rfl
    have := (C21_vertices VL WL).2 i (c k) _ _ h1 h3
    rw [hVlen] at this
    rw [this]
    have hn0 : (n : ℝ) ≠ 0 := by positivity
    have hn' : ((2 : ℝ) ^ d) = n := by rw [← hn]; push_cast; rfl
    simp only [onCircle, List.singleton_append, List.ofFn_succ, List.ofFn_zero, List.map_cons, List.map_nil, Matrix.cons_val_zero, Matrix.cons_val_succ, Matrix.cons_val_fin_one,
      Option.some.injEq, List.cons.injEq, and_true, hn']
    refine ⟨?_, ?_, ?_⟩
    · field_simp
    · ring
    · ring

/-- C77: `cylinder(length, radius, divisions)` succeeds.  Its vertices are `2 ^ divisions + 1` equally spaced copies of the circle
along the first axis, centered at the origin and multiplied by `radius` (by `radius / √2` if `divisions` is zero); its
quadrilaterals are exactly those between consecutive copies of the edges of the circle; it is oriented. -/
theorem C77_cylinder (hu : UniqSpec uniq) (hsat : SatSpec solve) (L R : ℝ) (d : Nat) :
    ∃ t X c, cylinder solve uniq L R d = .ok (t, X) ∧ (∀ k, c k < 4 * 2 ^ d) ∧
      (∀ k l, c k = c l ↔ k ≡ l [MOD 4 * 2 ^ d]) ∧ X.length = (2 ^ d + 1) * (4 * 2 ^ d) ∧
      (∀ i : Nat, i ≤ 2 ^ d → ∀ k : Nat, X[i + c k * (2 ^ d + 1)]? = some [L * (i / 2 ^ d - 1 / 2),
        R * (if d = 0 then 1 / Real.sqrt 2 else 1) * Real.cos (5 * Real.pi / 4 - 2 * Real.pi * k / (4 * 2 ^ d)),
        R * (if d = 0 then 1 / Real.sqrt 2 else 1) * Real.sin (5 * Real.pi / 4 - 2 * Real.pi * k / (4 * 2 ^ d))]) ∧
      (t.elements[2]?.getD []).Nodup ∧
      (∀ q, q ∈ t.elements[2]?.getD [] ↔ ∃ i < 2 ^ d, ∃ k < 4 * 2 ^ d, q = patch (2 ^ d + 1) c i k) ∧
      t.nElements 0 = (2 ^ d + 1) * (4 * 2 ^ d) ∧
      t.nElements 1 = 2 ^ d * (4 * 2 ^ d) + (2 ^ d + 1) * (4 * 2 ^ d) ∧
      t.nElements 2 = 2 ^ d * (4 * 2 ^ d) ∧ isOriented solve t = .ok true := by
  obtain ⟨t, X, edges, c, h1, h2, h3, h4, h5, h6, h7, h8, h9⟩ := cylinder_ok hu hsat L R d
  have hone : 1 ≤ 2 ^ d := Nat.one_le_two_pow
  have hP : Cubes 2 (productCubes (2 ^ d + 1) (gridCubes [2 ^ d]) edges) := by
    refine productCubes_cubes (n := 1) (m := 1) (gridCubes_cubes [2 ^ d]) (h2.cubes (by omega)) ?_
    intro l hl v hv
    obtain ⟨i, hi, rfl⟩ := line_mem.1 hl
    simp at hv
    omega
  have htop := (fromCubes_wf hu hP h3).top_eq
  refine ⟨t, X, c, h1, h2.lt, h2.period, h5, h9, ?_, fun q => ?_, h6, h7, h8, h4⟩
  · rw [htop]; exact h2.patches_nodup
  · rw [htop]; exact mem_patches h2

/-- C77: the boundary of a cylinder consists of its first and its last ring, with all their edges. -/
theorem C77_cylinder_boundary (hu : UniqSpec uniq) (hsat : SatSpec solve) (L R : ℝ) (d : Nat) {t : Topo} {X : List (List ℝ)}
    (h : cylinder solve uniq L R d = .ok (t, X)) :
    ∃ c s P0 new, (∀ k l, c k = c l ↔ k ≡ l [MOD 4 * 2 ^ d]) ∧
      (∀ q, q ∈ t.elements[2]?.getD [] ↔ ∃ i < 2 ^ d, ∃ k < 4 * 2 ^ d, q = patch (2 ^ d + 1) c i k) ∧
      cubicalBoundary solve uniq t = .ok (some s) ∧ s.parentIdx[0]? = some P0 ∧ s.topo.elements[1]? = some new ∧
      new.length = 2 * (4 * 2 ^ d) ∧
      (∀ r ∈ new, ∃ k < 4 * 2 ^ d, (r.map fun v => P0[v]?.getD 0).Perm (ring (2 ^ d + 1) c 0 k) ∨
        (r.map fun v => P0[v]?.getD 0).Perm (ring (2 ^ d + 1) c (2 ^ d) k)) ∧
      ∀ k < 4 * 2 ^ d, (∃ r ∈ new, (r.map fun v => P0[v]?.getD 0).Perm (ring (2 ^ d + 1) c 0 k)) ∧
        ∃ r ∈ new, (r.map fun v => P0[v]?.getD 0).Perm (ring (2 ^ d + 1) c (2 ^ d) k) := by
  obtain ⟨t', X', edges, c, h1, h2, h3, h4, -⟩ := cylinder_ok hu hsat L R d
  rw [h1] at h
  obtain ⟨rfl, rfl⟩ := Prod.mk.inj (Except.ok.inj h)
  have hone : 1 ≤ 2 ^ d := Nat.one_le_two_pow
  have hN : 3 ≤ 4 * 2 ^ d := by omega
  generalize 2 ^ d = n at *
  have hP : Cubes 2 (productCubes (n + 1) (gridCubes [n]) edges) := by
    refine productCubes_cubes (n := 1) (m := 1) (gridCubes_cubes [n]) (h2.cubes (by omega)) ?_
    intro l hl v hv
    obtain ⟨i, hi, rfl⟩ := line_mem.1 hl
    simp at hv
    omega
  have wf := fromCubes_wf hu hP h3
  have hs2 := h2.sides_two hN (n := n)
  obtain ⟨⟨b, hb⟩, hnone⟩ := C76_closed_iff hu hP hsat h3 hs2 h4
  have hne : b ≠ none := by
    rintro rfl
    exact hnone.1 hb _ ((h2.boundary_rings hN hone).2 ⟨0, by omega, Or.inl (.refl _)⟩)
  obtain ⟨s, rfl⟩ := Option.ne_none_iff_exists'.1 hne
  obtain ⟨P0, new, sides, hP0, hnew, hmap, hsl, hsm, hsort, hused, -⟩ := C76_boundary_elements hu hP hsat h3 hs2 h4 hb
  have hring : ∀ e ∈ sides, ∃ k < 4 * n, e.Perm (ring (n + 1) c 0 k) ∨ e.Perm (ring (n + 1) c n k) := fun e he =>
    (h2.boundary_rings hN hone).1 ((hsm e (hsl.subset he)).1 he)
  have hex : ∀ e, BoundarySide 1 (productCubes (n + 1) (gridCubes [n]) edges) e → ∃ e' ∈ sides, e'.Perm e := by
    intro e he
    obtain ⟨j, l, hl, hs, hun⟩ := he
    obtain ⟨x, e', he', hp⟩ := stored_of_isSide hu hP h3 (List.mem_of_getElem? hl) hs
    refine ⟨e', (hsm e' (List.mem_of_getElem? he')).2 ?_, hp.symm⟩
    exact ⟨j, l, hl, (isSide_perm hp).1 hs, fun j' l' hl' hs' => hun j' l' hl' ((isSide_perm hp).2 hs')⟩
  refine ⟨c, s, P0, new, h2.period, fun q => by rw [wf.top_eq]; exact mem_patches h2, hb, hP0, hnew, ?_, ?_, ?_⟩
  · have hlen : new.length = sides.length := by rw [← hmap, List.length_map]
    have hd : DistinctElements sides := (wf.get (k := 1) (by omega)).2.2.1.sublist hsl
    have hA : (sides.map fun e : List Nat => (e : Multiset Nat)).Nodup := by
      rw [List.Nodup, List.pairwise_map]
      exact hd.imp fun hp e => hp (Multiset.coe_eq_coe.1 e)
    have hB : (((List.range (4 * n)).map fun k => (ring (n + 1) c 0 k : Multiset Nat)) ++
        ((List.range (4 * n)).map fun k => (ring (n + 1) c n k : Multiset Nat))).Nodup := by
      refine List.Nodup.append ?_ ?_ ?_
      · rw [List.nodup_map_iff_inj_on List.nodup_range]
        intro x hx y hy e
        exact Nat.ModEq.eq_of_lt_of_lt (h2.ring_inj hN (by omega) (by omega) (Multiset.coe_eq_coe.1 e)).2
          (List.mem_range.1 hx) (List.mem_range.1 hy)
      · rw [List.nodup_map_iff_inj_on List.nodup_range]
        intro x hx y hy e
        exact Nat.ModEq.eq_of_lt_of_lt (h2.ring_inj hN (by omega) (by omega) (Multiset.coe_eq_coe.1 e)).2
          (List.mem_range.1 hx) (List.mem_range.1 hy)
      · intro z hz hz'
        obtain ⟨x, -, rfl⟩ := List.mem_map.1 hz
        obtain ⟨y, -, e⟩ := List.mem_map.1 hz'
        have := (h2.ring_inj hN (n := n) (by omega) (by omega) (Multiset.coe_eq_coe.1 e)).1
        omega
    have hperm := (List.perm_ext_iff_of_nodup hA hB).2 fun z => by
      simp only [List.mem_append, List.mem_map, List.mem_range]
      constructor
      · rintro ⟨e, he, rfl⟩
        obtain ⟨k, hk, hp | hp⟩ := hring e he
        · exact Or.inl ⟨k, hk, (Multiset.coe_eq_coe.2 hp).symm⟩
        · exact Or.inr ⟨k, hk, (Multiset.coe_eq_coe.2 hp).symm⟩
      · rintro (⟨k, hk, rfl⟩ | ⟨k, hk, rfl⟩)
        · obtain ⟨e', he', hp⟩ := hex _ ((h2.boundary_rings hN hone).2 ⟨k, hk, Or.inl (.refl _)⟩)
          exact ⟨e', he', Multiset.coe_eq_coe.2 hp⟩
        · obtain ⟨e', he', hp⟩ := hex _ ((h2.boundary_rings hN hone).2 ⟨k, hk, Or.inr (.refl _)⟩)
          exact ⟨e', he', Multiset.coe_eq_coe.2 hp⟩
    have := hperm.length_eq
    simp only [List.length_append, List.length_map, List.length_range] at this
    omega
  · intro r hr
    exact hring _ (hmap ▸ List.mem_map.2 ⟨r, hr, rfl⟩)
  · intro k hk
    constructor
    · obtain ⟨e', he', hp⟩ := hex _ ((h2.boundary_rings hN hone).2 ⟨k, hk, Or.inl (.refl _)⟩)
      obtain ⟨r, hr, rfl⟩ := List.mem_map.1 (hmap ▸ he')
      exact ⟨r, hr, hp⟩
    · obtain ⟨e', he', hp⟩ := hex _ ((h2.boundary_rings hN hone).2 ⟨k, hk, Or.inr (.refl _)⟩)
      obtain ⟨r, hr, rfl⟩ := List.mem_map.1 (hmap ▸ he')
      exact ⟨r, hr, hp⟩

/-- C77: without divisions no vertex of a cylinder of positive radius has the distance `radius` from the axis. -/
theorem C77_cylinder_radius (hu : UniqSpec uniq) (hsat : SatSpec solve) (L R : ℝ) (hR : 0 < R) {t : Topo} {X : List (List ℝ)}
    (h : cylinder solve uniq L R 0 = .ok (t, X)) :
    ∀ x ∈ X, ∃ a b c, x = [a, b, c] ∧ Real.sqrt (b ^ 2 + c ^ 2) = R / Real.sqrt 2 ∧ R / Real.sqrt 2 < R := by
  obtain ⟨t', X', edges, c, h1, h2, -, -, h5, -, -, -, h9⟩ := cylinder_ok hu hsat L R 0
  rw [h1] at h
  obtain ⟨rfl, rfl⟩ := Prod.mk.inj (Except.ok.inj h)
  intro x hx
  obtain ⟨v, hv⟩ := List.mem_iff_getElem?.1 hx
  have hvl := (List.getElem?_eq_some_iff.1 hv).1
  simp only [pow_zero] at h5 h2 h9
  obtain ⟨k, hk, hck⟩ := h2.surj (v := v / 2) (by omega)
  have := h9 (v % 2) (by omega) k
  rw [hck, show v % 2 + v / 2 * (1 + 1) = v by omega, hv] at this
  refine ⟨_, _, _, Option.some.inj this, ?_, ?_⟩
  · rw [if_pos trivial, mul_one_div]
    have e := Real.sin_sq_add_cos_sq (5 * Real.pi / 4 - 2 * Real.pi * k / (4 * 1))
    refine Eq.trans (congrArg Real.sqrt ?_) (Real.sqrt_sq (show 0 ≤ R / Real.sqrt 2 by positivity))
    linear_combination (R / Real.sqrt 2) ^ 2 * e
  · refine div_lt_self hR ?_
    rw [Real.lt_sqrt] <;> norm_num

-- a solver and `unique` exist: the hypotheses can be met, and `circle(3)` has 32 edges
example : ∃ solve t V edges c, SatSpec solve ∧ circle solve List.dedup 3 = .ok (t, V) ∧ t.elements[1]? = some edges ∧
    ClosedPolygon 32 edges c := by
  obtain ⟨solve, hsat⟩ := exists_satSolver
  obtain ⟨t, V, edges, c, h1, h2, h3, -⟩ := C77_circle uniqSpec_dedup hsat 3
  exact ⟨solve, t, V, edges, c, hsat, h1, h2, h3⟩

-- a cylinder with three rings of eight vertices and the boundary of sixteen edges
example : ∃ solve t X s new, SatSpec solve ∧ cylinder solve List.dedup 3 2 1 = .ok (t, X) ∧ t.nElements 0 = 24 ∧
    t.nElements 2 = 16 ∧ cubicalBoundary solve List.dedup t = .ok (some s) ∧ s.topo.elements[1]? = some new ∧ new.length = 16 := by
  obtain ⟨solve, hsat⟩ := exists_satSolver
  obtain ⟨t, X, c, h1, -, -, -, -, -, -, h2, -, h3, -⟩ := C77_cylinder uniqSpec_dedup hsat 3 2 1
  obtain ⟨c', s, P0, new, -, -, hb, -, hnew, hl, -⟩ := C77_cylinder_boundary uniqSpec_dedup hsat 3 2 1 h1
  exact ⟨solve, t, X, s, new, hsat, h1, h2, h3, hb, hnew, hl⟩

end Verif.Props
