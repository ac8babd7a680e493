/-
Loop subdivision keeps a tiling of the sphere.
-/
import Verif.Lemmas.SphereLoop
import Verif.Props.SphericalTotal

set_option linter.unusedSectionVars false

namespace Verif

open Model Spec MeasureTheory

variable {T : List (List Nat)} {t : Topo} {V : List (Fin 3 → ℝ)}

section

variable {a b c : E3}

/-- the four parts have together the area of the triangle -/
theorem area_four (hd : det3 a b c ≠ 0) :
    surfaceArea (sphericalTriangle a b c) =
      surfaceArea (sphericalTriangle (b + c) (c + a) (a + b)) +
      (surfaceArea (sphericalTriangle a (a + b) (c + a)) +
      (surfaceArea (sphericalTriangle b (b + c) (a + b)) +
      surfaceArea (sphericalTriangle c (c + a) (b + c)))) := by
  have split : ∀ x y z e : E3, ∀ p q : ℝ, 0 < p → 0 < q → e = p • x + q • y → det3 x y z ≠ 0 →
      surfaceArea (sphericalTriangle x y z) = surfaceArea (sphericalTriangle x e z) +
        surfaceArea (sphericalTriangle e y z) := by
    rintro x y z e p q hp hq rfl h
    exact area_split_edge h hp hq
  have d : ∀ x y z : E3, ∀ k : ℝ, k ≠ 0 → det3 x y z = k * det3 a b c → det3 x y z ≠ 0 := by
    intro x y z k hk h
    rw [h]
    exact mul_ne_zero hk hd
  have rot : ∀ x y z : E3, surfaceArea (sphericalTriangle y z x) = surfaceArea (sphericalTriangle x y z) :=
    fun x y z => by rw [triangle_rotate]
  have swp : ∀ x y z : E3, surfaceArea (sphericalTriangle y x z) = surfaceArea (sphericalTriangle x y z) :=
    fun x y z => by rw [triangle_swap]
  set m := a + b with hm
  set n := c + a with hn
  set k := b + c with hk
  set e := n + k with he
  have mi : ∀ i, m i = a i + b i := fun i => rfl
  have ni : ∀ i, n i = c i + a i := fun i => rfl
  have ki : ∀ i, k i = b i + c i := fun i => rfl
  have s1 := split a b c m 1 1 one_pos one_pos (by rw [one_smul, one_smul]) hd
  have s2 := split c a m n 1 1 one_pos one_pos (by rw [one_smul, one_smul])
    (d c a m 1 one_ne_zero (by simp only [det3_apply, mi]; ring))
  have s3 := split b c m k 1 1 one_pos one_pos (by rw [one_smul, one_smul])
    (d b c m 1 one_ne_zero (by simp only [det3_apply, mi]; ring))
  have ee : e = (1 : ℝ) • m + (2 : ℝ) • c := by
    funext i
    simp only [he, hm, hn, hk, Pi.add_apply, Pi.smul_apply, smul_eq_mul]; ring
  have s4 := split m c n e 1 2 one_pos two_pos ee
    (d m c n 1 one_ne_zero (by simp only [det3_apply, mi, ni]; ring))
  have s5 := split m c k e 1 2 one_pos two_pos ee
    (d m c k (-1) (by norm_num) (by simp only [det3_apply, mi, ki]; ring))
  have ee' : e = (1 : ℝ) • n + (1 : ℝ) • k := by rw [one_smul, one_smul]
  have s6 := split n k c e 1 1 one_pos one_pos ee'
    (d n k c 1 one_ne_zero (by simp only [det3_apply, ki, ni]; ring))
  have s7 := split n k m e 1 1 one_pos one_pos ee'
    (d n k m (-2) (by norm_num) (by simp only [det3_apply, ki, ni, mi]; ring))
  -- names of the same triangles
  have r1 : surfaceArea (sphericalTriangle a m c) = surfaceArea (sphericalTriangle c a m) := rot _ _ _
  have r2 : surfaceArea (sphericalTriangle m b c) = surfaceArea (sphericalTriangle b c m) := by rw [← rot m b c]
  have r3 : surfaceArea (sphericalTriangle m c n) = surfaceArea (sphericalTriangle c n m) := by rw [← rot m c n]
  have r4 : surfaceArea (sphericalTriangle m c k) = surfaceArea (sphericalTriangle k c m) := by
    rw [← swp, rot]
  have r5 : surfaceArea (sphericalTriangle k n m) = surfaceArea (sphericalTriangle n k m) := swp _ _ _
  have r6 : surfaceArea (sphericalTriangle n a m) = surfaceArea (sphericalTriangle a m n) := by rw [← rot n a m]
  have r7 : surfaceArea (sphericalTriangle c n k) = surfaceArea (sphericalTriangle n k c) := by rw [← rot c n k]
  have r8 : surfaceArea (sphericalTriangle n e c) = surfaceArea (sphericalTriangle e c n) := by rw [← rot n e c]
  have r9 : surfaceArea (sphericalTriangle e k c) = surfaceArea (sphericalTriangle e c k) := by
    rw [← rot e c k, ← swp, rot c k e]
  have r10 : surfaceArea (sphericalTriangle n e m) = surfaceArea (sphericalTriangle m e n) := by
    rw [← rot m e n, ← swp]
  have r11 : surfaceArea (sphericalTriangle e k m) = surfaceArea (sphericalTriangle m e k) := by
    rw [← rot m e k]
  linarith

/-- the four parts cover the triangle -/
theorem cone_four {x : E3} (h : x ∈ cone3 a b c) :
    x ∈ cone3 (b + c) (c + a) (a + b) ∨ x ∈ cone3 a (a + b) (c + a) ∨ x ∈ cone3 b (b + c) (a + b) ∨
      x ∈ cone3 c (c + a) (b + c) := by
  obtain ⟨s, t, u, hs, ht, hu, hx⟩ := h
  by_cases h1 : t + u ≤ s
  · refine Or.inr (Or.inl ⟨s - t - u, t, u, by linarith, ht, hu, fun i => ?_⟩)
    rw [hx i]; simp only [Pi.add_apply]; ring
  by_cases h2 : s + u ≤ t
  · refine Or.inr (Or.inr (Or.inl ⟨t - s - u, u, s, by linarith, hu, hs, fun i => ?_⟩))
    rw [hx i]; simp only [Pi.add_apply]; ring
  by_cases h3 : s + t ≤ u
  · refine Or.inr (Or.inr (Or.inr ⟨u - s - t, s, t, by linarith, hs, ht, fun i => ?_⟩))
    rw [hx i]; simp only [Pi.add_apply]; ring
  push Not at h1 h2 h3
  refine Or.inl ⟨(t + u - s) / 2, (s + u - t) / 2, (s + t - u) / 2, by linarith, by linarith, by linarith, fun i => ?_⟩
  rw [hx i]; simp only [Pi.add_apply]; ring

theorem unitOf_pos {x : E3} (h : x ≠ 0) : ∃ s : ℝ, 0 < s ∧ unitOf x = s • x := by
  obtain ⟨-, -, h3⟩ := unitOf_spec h
  exact h3

end

/-- what holds for every refinement: the corners of a triangle are at most a right angle apart, no triangle is
degenerate, they cover the sphere, and their areas add up to that of the sphere -/
structure RoundSurface (V : List (Fin 3 → ℝ)) (T : List (List Nat)) : Prop where
  unit : ∀ p ∈ V, OnUnitSphere p
  corners : ∀ l ∈ T, ∀ v ∈ l, v < V.length
  near : ∀ l ∈ T, ∀ v ∈ l, ∀ w ∈ l, 0 ≤ innerProd (position V v) (position V w)
  proper : ∀ a b c, [a, b, c] ∈ T → det3 (position V a) (position V b) (position V c) ≠ 0
  cover : ∀ x : Sphere2, ∃ l ∈ T, x ∈ onSphere (coneOf V l)
  area : (T.map fun l => surfaceArea (onSphere (coneOf V l))).sum = 4 * Real.pi

theorem coneOf_row {a b c : Nat} (hn : [a, b, c].Nodup) :
    coneOf V [a, b, c] = cone3 (position V a) (position V b) (position V c) :=
  Props.coneOf_three hn (List.Perm.refl _)

/-- the corners of the parts of a triangle -/
theorem loop_row_positions (wf : WF 2 T t) (hs : Simplices 3 T) (hV : V.length = t.nElements 0)
    {a b c : Nat} (hl : [a, b, c] ∈ T) :
    let W := loopVertices V t
    position W a = position V a ∧ position W b = position V b ∧ position W c = position V c ∧
    position W (mid t a b) = unitOf (position V a + position V b) ∧
    position W (mid t b c) = unitOf (position V b + position V c) ∧
    position W (mid t c a) = unitOf (position V c + position V a) := by
  obtain ⟨⟨n1, n2, n3⟩, ⟨l1, l2, l3⟩, -⟩ := mids_ne wf hs hl
  exact ⟨loop_position_old hV l1, loop_position_old hV l2, loop_position_old hV l3,
    loop_position_mid wf hs hV hl (by simp) (by simp) n1, loop_position_mid wf hs hV hl (by simp) (by simp) n2,
    loop_position_mid wf hs hV hl (by simp) (by simp) n3⟩

/-- the cones of the parts of a triangle -/
theorem loop_cones (wf : WF 2 T t) (hs : Simplices 3 T) (hV : V.length = t.nElements 0)
    (h : RoundSurface V T) {a b c : Nat} (hl : [a, b, c] ∈ T) :
    (kidsOf t [a, b, c]).map (coneOf (loopVertices V t)) =
      [cone3 (position V b + position V c) (position V c + position V a) (position V a + position V b),
       cone3 (position V a) (position V a + position V b) (position V c + position V a),
       cone3 (position V b) (position V b + position V c) (position V a + position V b),
       cone3 (position V c) (position V c + position V a) (position V b + position V c)] := by
  obtain ⟨p1, p2, p3, p4, p5, p6⟩ := loop_row_positions wf hs hV hl
  have hks := wf.loop_simplices hs
  have hk : ∀ r ∈ kidsOf t [a, b, c], r.Nodup := fun r hr =>
    (hks r (List.mem_flatten.mpr ⟨_, List.mem_map.mpr ⟨_, hl, rfl⟩, hr⟩)).2
  have u : ∀ v ∈ [a, b, c], OnUnitSphere (position V v) := fun v hv =>
    h.unit _ (position_mem (h.corners _ hl v hv))
  have nz : ∀ v ∈ [a, b, c], ∀ w ∈ [a, b, c], position V v + position V w ≠ 0 := fun v hv w hw =>
    sum_ne_zero (u v hv) (u w hw) (by linarith [h.near _ hl v hv w hw])
  obtain ⟨q1, hq1, e1⟩ := unitOf_pos (nz a (by simp) b (by simp))
  obtain ⟨q2, hq2, e2⟩ := unitOf_pos (nz b (by simp) c (by simp))
  obtain ⟨q3, hq3, e3⟩ := unitOf_pos (nz c (by simp) a (by simp))
  have sc : ∀ x y z : E3, ∀ p q r : ℝ, 0 < p → 0 < q → 0 < r → cone3 (p • x) (q • y) (r • z) = cone3 x y z := by
    intro x y z p q r hp hq hr
    rw [cone3_smul _ _ _ hp, ← cone3_rotate, cone3_smul _ _ _ hq, ← cone3_rotate, cone3_smul _ _ _ hr, ← cone3_rotate]
  have hkd : kidsOf t [a, b, c] = [[mid t b c, mid t c a, mid t a b], [a, mid t a b, mid t c a],
    [b, mid t b c, mid t a b], [c, mid t c a, mid t b c]] := rfl
  rw [hkd] at hk ⊢
  simp only [List.map_cons, List.map_nil]
  rw [coneOf_row (hk _ (by simp)), coneOf_row (hk _ (by simp)), coneOf_row (hk _ (by simp)),
    coneOf_row (hk _ (by simp)), p1, p2, p3, p4, p5, p6, e1, e2, e3, sc _ _ _ _ _ _ hq2 hq3 hq1]
  have o : ∀ x y z : E3, ∀ q r : ℝ, 0 < q → 0 < r → cone3 x (q • y) (r • z) = cone3 x y z := by
    intro x y z q r hq hr
    have := sc x y z 1 q r one_pos hq hr
    rwa [one_smul] at this
  rw [o _ _ _ _ _ hq1 hq3, o _ _ _ _ _ hq2 hq1, o _ _ _ _ _ hq3 hq2]

/-- one step keeps the surface round -/
theorem loop_round (wf : WF 2 T t) (hs : Simplices 3 T) (hV : V.length = t.nElements 0)
    (h : RoundSurface V T) : RoundSurface (loopVertices V t) (T.map (kidsOf t)).flatten := by
  have hrow : ∀ l ∈ T, ∃ a b c, l = [a, b, c] := fun l hl => length_three (hs l hl).1
  have hu : ∀ l ∈ T, ∀ v ∈ l, OnUnitSphere (position V v) := fun l hl v hv =>
    h.unit _ (position_mem (h.corners _ hl v hv))
  have nz : ∀ l ∈ T, ∀ v ∈ l, ∀ w ∈ l, position V v + position V w ≠ 0 := fun l hl v hv w hw =>
    sum_ne_zero (hu l hl v hv) (hu l hl w hw) (by linarith [h.near _ hl v hv w hw])
  have hlen : (loopVertices V t).length = t.nElements 0 + t.nElements 1 := by
    simp [loopVertices, hV, Topo.nElements]
  have hkid : ∀ r ∈ (T.map (kidsOf t)).flatten, ∃ a b c, [a, b, c] ∈ T ∧ r ∈ kidsOf t [a, b, c] := by
    intro r hr
    obtain ⟨ks, hks, hr⟩ := List.mem_flatten.mp hr
    obtain ⟨l, hl, rfl⟩ := List.mem_map.mp hks
    obtain ⟨a, b, c, rfl⟩ := hrow l hl
    exact ⟨a, b, c, hl, hr⟩
  have hkd : ∀ a b c, kidsOf t [a, b, c] = [[mid t b c, mid t c a, mid t a b], [a, mid t a b, mid t c a],
    [b, mid t b c, mid t a b], [c, mid t c a, mid t b c]] := fun _ _ _ => rfl
  refine ⟨?_, ?_, ?_, ?_, ?_, ?_⟩
  · intro p hp
    rcases List.mem_append.mp hp with hp | hp
    · exact h.unit p hp
    · obtain ⟨e, he, rfl⟩ := List.mem_map.mp hp
      obtain ⟨h1, -, l, hl, h3⟩ := wf.element_face hs (k := 1) (by omega) he
      obtain ⟨a, b, rfl⟩ : ∃ a b, e = [a, b] := List.length_eq_two.mp h1
      exact (unitOf_spec (nz l hl a (h3 (by simp)) b (h3 (by simp)))).2.1
  · intro r hr v hv
    rw [hlen]
    exact (wf.loop_used hs v).mp ⟨r, hr, hv⟩
  · intro r hr v hv w hw
    obtain ⟨a, b, c, hl, hr⟩ := hkid r hr
    obtain ⟨p1, p2, p3, p4, p5, p6⟩ := loop_row_positions wf hs hV hl
    obtain ⟨q1, hq1, e1⟩ := unitOf_pos (nz _ hl a (by simp) b (by simp))
    obtain ⟨q2, hq2, e2⟩ := unitOf_pos (nz _ hl b (by simp) c (by simp))
    obtain ⟨q3, hq3, e3⟩ := unitOf_pos (nz _ hl c (by simp) a (by simp))
    -- every corner is a nonnegative combination of the old ones
    have hcomb : ∀ v ∈ r, ∃ s t u : ℝ, 0 ≤ s ∧ 0 ≤ t ∧ 0 ≤ u ∧ position (loopVertices V ‹Topo›) v =
        s • position V a + t • position V b + u • position V c := by
      intro v hv
      have hv' : v = a ∨ v = b ∨ v = c ∨ v = mid ‹Topo› a b ∨ v = mid ‹Topo› b c ∨ v = mid ‹Topo› c a := by
        rw [hkd] at hr
        simp only [List.mem_cons, List.not_mem_nil, or_false] at hr
        rcases hr with rfl | rfl | rfl | rfl <;> simp at hv <;> tauto
      rcases hv' with rfl | rfl | rfl | rfl | rfl | rfl
      · exact ⟨1, 0, 0, by norm_num, le_rfl, le_rfl, by rw [p1]; simp⟩
      · exact ⟨0, 1, 0, le_rfl, by norm_num, le_rfl, by rw [p2]; simp⟩
      · exact ⟨0, 0, 1, le_rfl, le_rfl, by norm_num, by rw [p3]; simp⟩
      · exact ⟨q1, q1, 0, hq1.le, hq1.le, le_rfl, by rw [p4, e1]; simp⟩
      · exact ⟨0, q2, q2, le_rfl, hq2.le, hq2.le, by rw [p5, e2]; simp⟩
      · exact ⟨q3, 0, q3, hq3.le, le_rfl, hq3.le, by rw [p6, e3]; simp [add_comm]⟩
    obtain ⟨s, t', u, hs', ht', hu', ev⟩ := hcomb v hv
    obtain ⟨s2, t2, u2, hs2, ht2, hu2, ew⟩ := hcomb w hw
    rw [ev, ew]
    have nn := fun x hx y hy => h.near _ hl x hx y hy
    have expand : innerProd (s • position V a + t' • position V b + u • position V c)
        (s2 • position V a + t2 • position V b + u2 • position V c) =
        s * s2 * innerProd (position V a) (position V a) + s * t2 * innerProd (position V a) (position V b) +
        s * u2 * innerProd (position V a) (position V c) + t' * s2 * innerProd (position V b) (position V a) +
        t' * t2 * innerProd (position V b) (position V b) + t' * u2 * innerProd (position V b) (position V c) +
        u * s2 * innerProd (position V c) (position V a) + u * t2 * innerProd (position V c) (position V b) +
        u * u2 * innerProd (position V c) (position V c) := by
      simp only [innerProd, Fin.sum_univ_three, Pi.add_apply, Pi.smul_apply, smul_eq_mul]; ring
    rw [expand]
    have aa := nn a (by simp) a (by simp)
    have ab := nn a (by simp) b (by simp)
    have ac := nn a (by simp) c (by simp)
    have ba := nn b (by simp) a (by simp)
    have bb := nn b (by simp) b (by simp)
    have bc := nn b (by simp) c (by simp)
    have ca := nn c (by simp) a (by simp)
    have cb := nn c (by simp) b (by simp)
    have cc := nn c (by simp) c (by simp)
    positivity
  · intro x y z hr
    obtain ⟨a, b, c, hl, hr⟩ := hkid _ hr
    obtain ⟨p1, p2, p3, p4, p5, p6⟩ := loop_row_positions wf hs hV hl
    obtain ⟨q1, hq1, e1⟩ := unitOf_pos (nz _ hl a (by simp) b (by simp))
    obtain ⟨q2, hq2, e2⟩ := unitOf_pos (nz _ hl b (by simp) c (by simp))
    obtain ⟨q3, hq3, e3⟩ := unitOf_pos (nz _ hl c (by simp) a (by simp))
    have hd := h.proper a b c hl
    rw [hkd] at hr
    simp only [List.mem_cons, List.not_mem_nil, or_false, List.cons.injEq, and_true] at hr
    have det : ∀ x y z : E3, ∀ k : ℝ, k ≠ 0 →
        det3 x y z = k * det3 (position V a) (position V b) (position V c) → det3 x y z ≠ 0 := by
      intro x y z k hk h
      rw [h]
      exact mul_ne_zero hk hd
    rcases hr with ⟨rfl, rfl, rfl⟩ | ⟨rfl, rfl, rfl⟩ | ⟨rfl, rfl, rfl⟩ | ⟨rfl, rfl, rfl⟩
    · rw [p4, p5, p6, e1, e2, e3]
      refine det _ _ _ (2 * (q1 * q2 * q3)) (by positivity) ?_
      simp only [det3_apply, Pi.add_apply, Pi.smul_apply, smul_eq_mul]; ring
    · rw [p1, p4, p6, e1, e3]
      refine det _ _ _ (q1 * q3) (by positivity) ?_
      simp only [det3_apply, Pi.add_apply, Pi.smul_apply, smul_eq_mul]; ring
    · rw [p2, p5, p4, e1, e2]
      refine det _ _ _ (q1 * q2) (by positivity) ?_
      simp only [det3_apply, Pi.add_apply, Pi.smul_apply, smul_eq_mul]; ring
    · rw [p3, p6, p5, e2, e3]
      refine det _ _ _ (q2 * q3) (by positivity) ?_
      simp only [det3_apply, Pi.add_apply, Pi.smul_apply, smul_eq_mul]; ring
  · intro x
    obtain ⟨l, hl, hx⟩ := h.cover x
    obtain ⟨a, b, c, rfl⟩ := hrow l hl
    have hx' : (fun i => x.1 i) ∈ coneOf V [a, b, c] := hx
    rw [coneOf_row (hs _ hl).2] at hx'
    have hc := loop_cones wf hs hV h hl
    have hmem : ∃ C ∈ (kidsOf t [a, b, c]).map (coneOf (loopVertices V t)), (fun i => x.1 i) ∈ C := by
      rw [hc]
      rcases cone_four hx' with h' | h' | h' | h'
      · exact ⟨_, by simp, h'⟩
      · exact ⟨_, List.mem_cons_of_mem _ (by simp), h'⟩
      · exact ⟨_, List.mem_cons_of_mem _ (List.mem_cons_of_mem _ (by simp)), h'⟩
      · exact ⟨_, List.mem_cons_of_mem _ (List.mem_cons_of_mem _ (List.mem_cons_of_mem _ (by simp))), h'⟩
    obtain ⟨C, hC, hxC⟩ := hmem
    obtain ⟨r, hr, rfl⟩ := List.mem_map.mp hC
    exact ⟨r, List.mem_flatten.mpr ⟨_, List.mem_map.mpr ⟨_, hl, rfl⟩, hr⟩, hxC⟩
  · rw [← h.area, List.map_flatten, List.sum_flatten, List.map_map, List.map_map]
    congr 1
    refine List.map_congr_left fun l hl => ?_
    obtain ⟨a, b, c, rfl⟩ := hrow l hl
    have hc := loop_cones wf hs hV h hl
    have : (kidsOf t [a, b, c]).map (fun l => surfaceArea (onSphere (coneOf (loopVertices V t) l))) =
        ((kidsOf t [a, b, c]).map (coneOf (loopVertices V t))).map fun C => surfaceArea (onSphere C) := by
      rw [List.map_map]; rfl
    simp only [Function.comp_apply]
    rw [this, hc, coneOf_row (hs _ hl).2]
    simp only [List.map_cons, List.map_nil, List.sum_cons, List.sum_nil, add_zero]
    exact (area_four (h.proper a b c hl)).symm

end Verif
