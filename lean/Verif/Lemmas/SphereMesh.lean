/-
The edges of a refined sphere become short.
-/
import Verif.Lemmas.IcoGeometry

set_option linter.unusedSectionVars false

namespace Verif

open Model Spec Props Matrix

variable {T : List (List Nat)} {t : Topo} {V : List (Fin 3 → ℝ)}

/-- corners of the same triangle have products of at least `1 - e` -/
def Fine (e : ℝ) (V : List (Fin 3 → ℝ)) (T : List (List Nat)) : Prop :=
  ∀ l ∈ T, ∀ v ∈ l, ∀ w ∈ l, 1 - e ≤ innerProd (position V v) (position V w)

section
variable {a b c : Fin 3 → ℝ}

theorem unitOf_factor (ha : OnUnitSphere a) (hb : OnUnitSphere b) (h : 0 ≤ innerProd a b) :
    ∃ q : ℝ, 0 < q ∧ unitOf (a + b) = q • (a + b) ∧ q ^ 2 * (2 + 2 * innerProd a b) = 1 := by
  have hne := sum_ne_zero ha hb (by linarith)
  obtain ⟨q, hq, e⟩ := unitOf_pos hne
  refine ⟨q, hq, e, ?_⟩
  have h1 : innerProd (unitOf (a + b)) (unitOf (a + b)) = 1 := (unitOf_spec hne).2.1
  rw [e] at h1
  have h2 : innerProd (q • (a + b)) (q • (a + b)) = q ^ 2 * innerProd (a + b) (a + b) := by
    simp only [innerProd, Fin.sum_univ_three, Pi.smul_apply, smul_eq_mul]; ring
  have ha' : innerProd a a = 1 := ha
  have hb' : innerProd b b = 1 := hb
  rw [h2, innerProd_add_self, ha', hb'] at h1
  linarith

/-- half of an edge -/
theorem half_edge (ha : OnUnitSphere a) (hb : OnUnitSphere b) {e : ℝ} (he : e ≤ 1)
    (h0 : 0 ≤ e) (hab : 1 - e ≤ innerProd a b) : 1 - e / (4 - 2 * e) ≤ innerProd a (unitOf (a + b)) := by
  obtain ⟨q, hq, e1, e2⟩ := unitOf_factor ha hb (by linarith)
  have hs : innerProd a (q • (a + b)) = q * (innerProd a a + innerProd a b) := by
    simp only [innerProd, Fin.sum_univ_three, Pi.smul_apply, Pi.add_apply, smul_eq_mul]; ring
  have ha' : innerProd a a = 1 := ha
  rw [e1, hs, ha']
  generalize innerProd a b = d at *
  have hh : 0 < q * (1 + d) := mul_pos hq (by linarith)
  have hsq : (q * (1 + d)) ^ 2 = (1 + d) / 2 := by
    have : (q * (1 + d)) ^ 2 = q ^ 2 * (2 + 2 * d) * ((1 + d) / 2) := by ring
    rw [this, e2, one_mul]
  generalize q * (1 + d) = h at *
  rw [sub_le_comm, le_div_iff₀ (by linarith)]
  by_cases h1 : 1 ≤ h
  · nlinarith [mul_nonneg (sub_nonneg.mpr h1) (by linarith : (0 : ℝ) ≤ 4 - 2 * e)]
  · push Not at h1
    have : 1 - e / 2 ≤ h := by nlinarith
    nlinarith

/-- the edge between the middles of two edges -/
theorem middle_edge (ha : OnUnitSphere a) (hb : OnUnitSphere b) (hc : OnUnitSphere c) {e : ℝ} (he : e ≤ 1)
    (h0 : 0 ≤ e) (hab : 1 - e ≤ innerProd a b) (hbc : 1 - e ≤ innerProd b c) (hac : 1 - e ≤ innerProd a c) :
    1 - e / (4 - 2 * e) ≤ innerProd (unitOf (a + b)) (unitOf (b + c)) := by
  obtain ⟨q, hq, e1, e2⟩ := unitOf_factor ha hb (by linarith)
  obtain ⟨r, hr, f1, f2⟩ := unitOf_factor hb hc (by linarith)
  have hs : innerProd (q • (a + b)) (r • (b + c)) =
      q * r * (innerProd a b + innerProd a c + innerProd b b + innerProd b c) := by
    simp only [innerProd, Fin.sum_univ_three, Pi.smul_apply, Pi.add_apply, smul_eq_mul]; ring
  have hb' : innerProd b b = 1 := hb
  rw [e1, f1, hs, hb']
  generalize innerProd a b = x at *
  generalize innerProd b c = y at *
  generalize innerProd a c = z at *
  have hk : 1 ≤ q * r * (2 + x + y) := by
    have p1 : 0 < q * r * (2 + 2 * x) := mul_pos (mul_pos hq hr) (by linarith)
    have p2 : 0 < q * r * (2 + 2 * y) := mul_pos (mul_pos hq hr) (by linarith)
    have p3 : (q * r * (2 + 2 * x)) * (q * r * (2 + 2 * y)) = 1 := by
      calc _ = (q ^ 2 * (2 + 2 * x)) * (r ^ 2 * (2 + 2 * y)) := by ring
        _ = 1 := by rw [e2, f2, one_mul]
    have p4 : q * r * (2 + x + y) = (q * r * (2 + 2 * x) + q * r * (2 + 2 * y)) / 2 := by ring
    rw [p4]
    generalize q * r * (2 + 2 * x) = A at *
    generalize q * r * (2 + 2 * y) = B at *
    nlinarith [sq_nonneg (A - B)]
  have hpos : 0 < q * r := mul_pos hq hr
  generalize q * r = k at *
  rw [sub_le_comm, le_div_iff₀ (by linarith)]
  have hm : (1 - k * (x + z + 1 + y)) * (2 + x + y) ≤ e := by
    have hx : 0 ≤ x + z + 1 + y := by linarith
    nlinarith [mul_le_mul_of_nonneg_right hk hx]
  by_cases h1 : 1 ≤ k * (x + z + 1 + y)
  · nlinarith [mul_nonneg (sub_nonneg.mpr h1) (by linarith : (0 : ℝ) ≤ 4 - 2 * e)]
  · push Not at h1
    nlinarith

end

theorem fine_step {e : ℝ} (he : e ≤ 1) (h0 : 0 ≤ e) (wf : WF 2 T t) (hs : Simplices 3 T)
    (hV : V.length = t.nElements 0) (h : RoundSurface V T) (hf : Fine e V T) :
    Fine (e / (4 - 2 * e)) (loopVertices V t) (T.map (kidsOf t)).flatten := by
  have hround := loop_round wf hs hV h
  intro r hr v hv w hw
  have hself : ∀ v ∈ r, 1 - e / (4 - 2 * e) ≤
      innerProd (position (loopVertices V t) v) (position (loopVertices V t) v) := by
    intro v hv
    have : innerProd (position (loopVertices V t) v) (position (loopVertices V t) v) = 1 :=
      hround.unit _ (position_mem (hround.corners r hr v hv))
    rw [this]
    have : 0 ≤ e / (4 - 2 * e) := div_nonneg h0 (by linarith)
    linarith
  obtain ⟨ks, hks, hr'⟩ := List.mem_flatten.mp hr
  obtain ⟨l, hl, rfl⟩ := List.mem_map.mp hks
  obtain ⟨a, b, c, rfl⟩ := length_three (hs l hl).1
  obtain ⟨p1, p2, p3, p4, p5, p6⟩ := loop_row_positions wf hs hV hl
  have u : ∀ v ∈ [a, b, c], OnUnitSphere (position V v) := fun v hv =>
    h.unit _ (position_mem (h.corners _ hl v hv))
  have ua := u a (by simp)
  have ub := u b (by simp)
  have uc := u c (by simp)
  have nab := hf _ hl a (by simp) b (by simp)
  have nba := hf _ hl b (by simp) a (by simp)
  have nbc := hf _ hl b (by simp) c (by simp)
  have ncb := hf _ hl c (by simp) b (by simp)
  have nca := hf _ hl c (by simp) a (by simp)
  have nac := hf _ hl a (by simp) c (by simp)
  have h1 := half_edge ua ub he h0 nab
  have h2 := half_edge ub ua he h0 nba
  have h3 := half_edge ub uc he h0 nbc
  have h4 := half_edge uc ub he h0 ncb
  have h5 := half_edge uc ua he h0 nca
  have h6 := half_edge ua uc he h0 nac
  have m1 := middle_edge ua ub uc he h0 nab nbc nac
  have m2 := middle_edge ub uc ua he h0 nbc nca nba
  have m3 := middle_edge uc ua ub he h0 nca nab ncb
  rw [add_comm (position V b) (position V a)] at h2
  rw [add_comm (position V c) (position V b)] at h4
  rw [add_comm (position V a) (position V c)] at h6
  rw [← p4, ← p1] at h1
  rw [← p4, ← p2] at h2
  rw [← p5, ← p2] at h3
  rw [← p5, ← p3] at h4
  rw [← p6, ← p3] at h5
  rw [← p6, ← p1] at h6
  rw [← p4, ← p5] at m1
  rw [← p5, ← p6] at m2
  rw [← p6, ← p4] at m3
  have sym : ∀ x y : Nat, 1 - e / (4 - 2 * e) ≤
      innerProd (position (loopVertices V t) x) (position (loopVertices V t) y) → 1 - e / (4 - 2 * e) ≤
      innerProd (position (loopVertices V t) y) (position (loopVertices V t) x) := by
    intro x y hxy
    rwa [innerProd_comm]
  have hkd : kidsOf t [a, b, c] = [[mid t b c, mid t c a, mid t a b], [a, mid t a b, mid t c a],
    [b, mid t b c, mid t a b], [c, mid t c a, mid t b c]] := rfl
  rw [hkd] at hr'
  by_cases hvw : v = w
  · subst hvw
    exact hself v hv
  simp only [List.mem_cons, List.not_mem_nil, or_false] at hr'
  rcases hr' with rfl | rfl | rfl | rfl <;> simp only [List.mem_cons, List.not_mem_nil, or_false] at hv hw <;>
    rcases hv with rfl | rfl | rfl <;> rcases hw with rfl | rfl | rfl <;>
    first | assumption | exact absurd rfl hvw | (apply sym; assumption)

theorem ico_fine (flip : Nat → Bool) : Fine (1 - 1 / Real.sqrt 5) icoUnits (reorient flip icoFaces) := by
  intro l hl v hv w hw
  obtain ⟨l0, h0, hp⟩ := reorient_origin hl
  rw [ico_products h0 (hp.subset hv) (hp.subset hw)]
  split
  · have hpos : 0 < Real.sqrt 5 := Real.sqrt_pos.mpr (by norm_num)
    have h1 : 1 ≤ Real.sqrt 5 := Real.one_le_sqrt.mpr (by norm_num)
    have : 1 / Real.sqrt 5 ≤ 1 := by rw [div_le_one hpos]; exact h1
    linarith
  · linarith

/-- the bound after `n` steps -/
noncomputable def fineness : Nat → ℝ
  | 0 => 1 - 1 / Real.sqrt 5
  | n + 1 => fineness n / (4 - 2 * fineness n)

theorem fineness_bound (n : Nat) : 0 ≤ fineness n ∧ fineness n * (2 / 3 + 11 / 10 * 4 ^ n) ≤ 1 := by
  induction n with
  | zero =>
    have hpos : 0 < Real.sqrt 5 := Real.sqrt_pos.mpr (by norm_num)
    have h5 : Real.sqrt 5 ^ 2 = 5 := Real.sq_sqrt (by norm_num)
    have hlt : Real.sqrt 5 < 2.24 := by nlinarith
    have hgt : 1 < Real.sqrt 5 := by nlinarith
    have h1 : 1 / Real.sqrt 5 ≤ 1 := by rw [div_le_one hpos]; exact hgt.le
    have h2 : 0.446 ≤ 1 / Real.sqrt 5 := by rw [le_div_iff₀ hpos]; nlinarith
    simp only [fineness, pow_zero]
    exact ⟨by linarith, by linarith⟩
  | succ n ih =>
    obtain ⟨h1, h2⟩ := ih
    have hp : (1 : ℝ) ≤ 4 ^ n := one_le_pow₀ (by norm_num)
    have hle : fineness n ≤ 1 := by nlinarith
    have hd : 0 < 4 - 2 * fineness n := by linarith
    simp only [fineness]
    refine ⟨div_nonneg h1 hd.le, ?_⟩
    rw [div_mul_eq_mul_div, div_le_one hd, pow_succ]
    nlinarith

theorem fineness_le (n : Nat) : fineness n ≤ 1 / 4 ^ n := by
  obtain ⟨h1, h2⟩ := fineness_bound n
  have hp : (0 : ℝ) < 4 ^ n := by positivity
  rw [le_div_iff₀ hp]
  nlinarith [mul_nonneg h1 hp.le]

end Verif
