/-
Heights over a face and the distances of weighted circumcenters from it.
-/
import Verif.Lemmas.PowerCenters

set_option linter.unusedSectionVars false

namespace Verif

open Verif.Model Verif.Spec

variable {D : Nat} {V : List (Vec ℝ D)}

theorem ip_sub_left (a b c : Fin D → ℝ) : innerProd (a - b) c = innerProd a c - innerProd b c := by
  simp only [innerProd, Pi.sub_apply, sub_mul, Finset.sum_sub_distrib]

theorem ip_smul_left (s : ℝ) (a c : Fin D → ℝ) : innerProd (fun j => s * a j) c = s * innerProd a c := by
  simp only [innerProd, Finset.mul_sum, mul_assoc]

theorem ip_comm (a b : Fin D → ℝ) : innerProd a b = innerProd b a := by
  simp only [innerProd, mul_comm]

theorem ip_eq_zero {a : Fin D → ℝ} (h : innerProd a a = 0) (j : Fin D) : a j = 0 := by
  have := (Finset.sum_eq_zero_iff_of_nonneg (fun j _ => mul_self_nonneg (a j))).1 h j (Finset.mem_univ j)
  exact mul_self_eq_zero.1 this

/-- a vector that is orthogonal to a face is orthogonal to all differences of its points -/
theorem ip_face {F : Finset Nat} {g : Fin D → ℝ}
    (h : ∀ u ∈ F, ∀ v ∈ F, innerProd g (position V u - position V v) = 0) {z : Nat → ℝ} (hz : ∑ u ∈ F, z u = 0)
    {r : Fin D → ℝ} (hr : ∀ j, r j = ∑ u ∈ F, z u * position V u j) : innerProd g r = 0 := by
  rcases F.eq_empty_or_nonempty with rfl | ⟨u0, hu0⟩
  · have : ∀ j, r j = 0 := fun j => by rw [hr j]; simp
    simp [innerProd, this]
  · have h1 : innerProd g r = ∑ u ∈ F, z u * innerProd g (position V u) := by
      simp only [innerProd, hr, Finset.mul_sum]
      rw [Finset.sum_comm]
      exact Finset.sum_congr rfl fun u _ => Finset.sum_congr rfl fun j _ => by ring
    have h2 : ∀ u ∈ F, innerProd g (position V u) = innerProd g (position V u0) := by
      intro u hu
      have := h u hu u0 hu0
      rw [ip_comm, ip_sub_left, ip_comm _ g, ip_comm _ g] at this
      linarith
    rw [h1, Finset.sum_congr rfl fun u hu => by rw [h2 u hu], ← Finset.sum_mul, hz, zero_mul]

theorem power_sub {c c' x x' : Fin D → ℝ} {w w' : ℝ} :
    (power c x w - power c x' w') - (power c' x w - power c' x' w') = -2 * innerProd (c - c') (x - x') := by
  simp only [power, innerProd, Pi.sub_apply, Finset.mul_sum]
  rw [show ∀ a b e f : ℝ, (a - w - (b - w')) - (e - w - (f - w')) = (a - b) - (e - f) from
    fun a b e f => by ring]
  simp only [← Finset.sum_sub_distrib]
  exact Finset.sum_congr rfl fun j _ => by ring

/-- the way between two points with equal powers from the vertices of a face is orthogonal to the face -/
theorem equal_orthogonal {w : Nat → ℝ} {F : Finset Nat} {c c' : Fin D → ℝ}
    (h : ∀ u ∈ F, ∀ v ∈ F, power c (position V u) (w u) = power c (position V v) (w v))
    (h' : ∀ u ∈ F, ∀ v ∈ F, power c' (position V u) (w u) = power c' (position V v) (w v)) :
    ∀ u ∈ F, ∀ v ∈ F, innerProd (c - c') (position V u - position V v) = 0 := by
  intro u hu v hv
  have h1 := power_sub (c := c) (c' := c') (x := position V u) (x' := position V v) (w := w u) (w' := w v)
  rw [h u hu v hv, h' u hu v hv] at h1
  linarith

/-- the way from the center of a face to the center of a simplex with one more corner -/
theorem Spec.IsHeight.center {w : Nat → ℝ} {F : Finset Nat} {v : Nat} (hv : v ∉ F) {y z : Nat → ℝ}
    {c c' g : Fin D → ℝ} (hc : PowerCoords V w (insert v F) y c) (hc' : PowerCoords V w F z c')
    (hg : IsHeight V F (position V v) g) : c - c' = fun j => y v * g j := by
  obtain ⟨b, hb1, hb2⟩ := hg.foot
  have hone := hc.one
  rw [Finset.sum_insert hv] at hone
  have horth := equal_orthogonal (V := V) (w := w) (F := F) (c := c) (c' := c')
    (fun u hu x hx => hc.equal u (Finset.mem_insert_of_mem hu) x (Finset.mem_insert_of_mem hx)) hc'.equal
  set r : Fin D → ℝ := (c - c') - fun j => y v * g j with hr
  have hrc : ∀ j, r j = ∑ u ∈ F, (y u - z u + y v * b u) * position V u j := by
    intro j
    have h1 := hc.point j
    rw [Finset.sum_insert hv] at h1
    simp only [hr, Pi.sub_apply, h1, hc'.point j, hb2 j, add_mul, sub_mul, Finset.sum_add_distrib,
      Finset.sum_sub_distrib, mul_assoc, ← Finset.mul_sum]
    ring
  have hz : ∑ u ∈ F, (y u - z u + y v * b u) = 0 := by
    rw [Finset.sum_add_distrib, Finset.sum_sub_distrib, ← Finset.mul_sum, hb1, hc'.one]
    linarith
  have hro : ∀ u ∈ F, ∀ x ∈ F, innerProd r (position V u - position V x) = 0 := by
    intro u hu x hx
    rw [hr, ip_sub_left, ip_smul_left, horth u hu x hx, hg.orthogonal u hu x hx]
    ring
  have h0 := ip_face hro hz hrc
  funext j
  have := ip_eq_zero h0 j
  simp only [hr, Pi.sub_apply] at this
  simp only [Pi.sub_apply]
  linarith

/-- the height of a point beyond a face -/
theorem Spec.IsHeight.opposite {F : Finset Nat} {p q g : Fin D → ℝ} (hg : IsHeight V F p g) {a : Nat → ℝ} {s : ℝ}
    (hs : ∑ u ∈ F, a u + s = 1) (hq : ∀ j, q j = ∑ u ∈ F, a u * position V u j + s * p j) :
    IsHeight V F q fun j => s * g j := by
  obtain ⟨b, hb1, hb2⟩ := hg.foot
  refine ⟨⟨fun u => a u + s * b u, ?_, fun j => ?_⟩, fun u hu v hv => ?_⟩
  · rw [Finset.sum_add_distrib, ← Finset.mul_sum, hb1]
    linarith
  · simp only [hb2 j, hq j, add_mul, Finset.sum_add_distrib, mul_assoc, ← Finset.mul_sum]
    ring
  · rw [ip_smul_left, hg.orthogonal u hu v hv, mul_zero]

theorem Spec.IsHeight.product {F : Finset Nat} {p g : Fin D → ℝ} (hg : IsHeight V F p g) {u : Nat} (hu : u ∈ F) :
    innerProd g (p - position V u) = innerProd g g := by
  obtain ⟨b, hb1, hb2⟩ := hg.foot
  have : innerProd g (p - position V u - g) = 0 := by
    refine ip_face hg.orthogonal (z := fun x => b x - if x = u then 1 else 0) ?_ (fun j => ?_)
    · rw [Finset.sum_sub_distrib, hb1, Finset.sum_ite_eq' F u, if_pos hu, sub_self]
    · simp only [Pi.sub_apply, sub_mul, Finset.sum_sub_distrib, hb2 j, ite_mul, one_mul, zero_mul,
        Finset.sum_ite_eq', if_pos hu]
      ring
  rw [ip_comm, ip_sub_left, ip_comm _ g] at this
  linarith

/-- how far a vertex beyond a face lies outside the sphere around the center of a simplex -/
theorem power_beyond {w : Nat → ℝ} {F : Finset Nat} {v v' : Nat} (hv : v ∉ F) (hv' : v' ∉ F)
    {y y' z : Nat → ℝ} {c c' m g : Fin D → ℝ} (hc : PowerCoords V w (insert v F) y c)
    (hc' : PowerCoords V w (insert v' F) y' c') (hm : PowerCoords V w F z m)
    (hg : IsHeight V F (position V v) g) {a : Nat → ℝ} {s : ℝ} (hs : ∑ u ∈ F, a u + s = 1)
    (hq : ∀ j, position V v' j = ∑ u ∈ F, a u * position V u j + s * position V v j) {u : Nat} (hu : u ∈ F) :
    power c (position V v') (w v') - power c (position V u) (w u) =
      -2 * s * (y v - s * y' v') * innerProd g g := by
  have hg' := hg.opposite hs hq
  have h1 := hg.center hv hc hm
  have h2 := hg'.center hv' hc' hm
  have h3 := power_sub (c := c) (c' := c') (x := position V v') (x' := position V u) (w := w v') (w' := w u)
  rw [hc'.equal v' (Finset.mem_insert_self _ _) u (Finset.mem_insert_of_mem hu), sub_self, sub_zero] at h3
  have h4 : c - c' = fun j => (y v - s * y' v') * g j := by
    funext j
    have e1 := congrFun h1 j
    have e2 := congrFun h2 j
    simp only [Pi.sub_apply] at e1 e2 ⊢
    linarith
  have h5 := hg'.product hu
  rw [ip_smul_left, ip_smul_left, ip_comm g fun j => s * g j, ip_smul_left] at h5
  rw [h3, h4, ip_smul_left]
  rcases eq_or_ne s 0 with h0 | h0
  · subst h0
    have hz := hg'.product hu
    have : innerProd g (position V v' - position V u) = 0 := by
      refine ip_face hg.orthogonal (z := fun x => a x - if x = u then 1 else 0) ?_ (fun j => ?_)
      · rw [Finset.sum_sub_distrib, Finset.sum_ite_eq' F u, if_pos hu]
        linarith
      · simp only [Pi.sub_apply, sub_mul, Finset.sum_sub_distrib, hq j, ite_mul, one_mul, zero_mul,
          Finset.sum_ite_eq', if_pos hu, add_zero]
    rw [this]
    ring
  · have h6 : innerProd g (position V v' - position V u) = s * innerProd g g := mul_left_cancel₀ h0 h5
    rw [h6]
    ring

section

variable {n : Nat} {top : List (List Nat)}

/-- the vertices of a face of a simplex that is not degenerate are independent -/
theorem Spec.NonDegenerate.zero (hnd : NonDegenerate V n top) (htop : Simplices (n + 1) top) {S : Finset Nat}
    (hS : SpansFace top S) {z : Nat → ℝ} (hz : ∑ u ∈ S, z u = 0)
    (hp : ∀ j, ∑ u ∈ S, z u * position V u j = 0) : ∀ u ∈ S, z u = 0 := by
  obtain ⟨h0, l, hl, hs⟩ := hS
  have hen : S.toList.Nodup := S.nodup_toList
  have hes : S.toList.toFinset = S := S.toList_toFinset
  have haff := hnd.face htop hl (e := S.toList)
    (fun v hv => List.mem_toFinset.1 (hs (Finset.mem_toList.1 hv))) hen rfl
  rw [affineIndependent_iff] at haff
  intro u hu
  obtain ⟨i, hi, hiu⟩ := List.getElem_of_mem (Finset.mem_toList.2 hu)
  have := haff Finset.univ (fun i => z (S.toList[i.val]?.getD 0)) (by
      rw [sum_fin_list _ hen rfl z, hes]; exact hz) (by
      funext j
      have := hp j
      rw [← hes, ← sum_fin_list _ hen rfl (fun v => z v * position V v j)] at this
      simpa [cornersOf] using this) ⟨i, hi⟩ (Finset.mem_univ _)
  simpa [List.getElem?_eq_getElem hi, hiu] using this

/-- every corner of a simplex that is not degenerate has a height over the other corners -/
theorem Spec.NonDegenerate.height (hnd : NonDegenerate V n top) (htop : Simplices (n + 1) top) {F : Finset Nat}
    {v : Nat} (hv : v ∉ F) (hF : F.Nonempty) (hS : SpansFace top (insert v F)) :
    ∃ g, IsHeight V F (position V v) g ∧ 0 < innerProd g g := by
  have hSF : SpansFace top F := by
    obtain ⟨-, l, hl, hs⟩ := hS
    exact ⟨hF, l, hl, (Finset.subset_insert v F).trans hs⟩
  obtain ⟨u0, hu0⟩ := hF
  obtain ⟨z, m, hm⟩ := exists_power_center hnd htop (fun _ => 0) hSF
  set w : Nat → ℝ := fun u => if u = v then power m (position V v) 0 - power m (position V u0) 0 - 1 else 0 with hw
  have hwF : ∀ u ∈ F, w u = 0 := by
    intro u hu
    simp only [hw]
    exact if_neg fun h : u = v => hv (h ▸ hu)
  obtain ⟨y, c, hc⟩ := exists_power_center hnd htop w hS
  have horth := equal_orthogonal (V := V) (w := w) (F := F) (c := c) (c' := m)
    (fun u hu x hx => hc.equal u (Finset.mem_insert_of_mem hu) x (Finset.mem_insert_of_mem hx))
    (fun u hu x hx => by rw [hwF u hu, hwF x hx]; exact hm.equal u hu x hx)
  have hone := hc.one
  rw [Finset.sum_insert hv] at hone
  have hrc : ∀ j, (c - m) j = y v * position V v j + ∑ u ∈ F, (y u - z u) * position V u j := by
    intro j
    have h1 := hc.point j
    rw [Finset.sum_insert hv] at h1
    simp only [Pi.sub_apply, h1, hm.point j, sub_mul, Finset.sum_sub_distrib]
    ring
  have hy : y v ≠ 0 := by
    intro h0
    have h1 : innerProd (c - m) (c - m) = 0 := by
      refine ip_face horth (z := fun u => y u - z u) ?_ (fun j => ?_)
      · rw [Finset.sum_sub_distrib, hm.one]
        linarith
      · rw [hrc j, h0, zero_mul, zero_add]
    have h2 : c = m := by
      funext j
      have := ip_eq_zero h1 j
      simp only [Pi.sub_apply] at this
      linarith
    have h3 := hc.equal v (Finset.mem_insert_self _ _) u0 (Finset.mem_insert_of_mem hu0)
    rw [hwF u0 hu0, h2] at h3
    simp only [hw, if_true, power] at h3
    linarith
  refine ⟨fun j => (y v)⁻¹ * (c - m) j, ⟨⟨fun u => (y v)⁻¹ * (z u - y u), ?_, fun j => ?_⟩, fun u hu x hx => ?_⟩, ?_⟩
  · rw [← Finset.mul_sum, Finset.sum_sub_distrib, hm.one]
    rw [show (1 : ℝ) - ∑ u ∈ F, y u = y v by linarith]
    exact inv_mul_cancel₀ hy
  · rw [hrc j, mul_add, ← mul_assoc, inv_mul_cancel₀ hy, one_mul, sub_eq_add_neg, Finset.mul_sum,
      ← Finset.sum_neg_distrib]
    congr 1
    exact Finset.sum_congr rfl fun u _ => by ring
  · rw [ip_smul_left, horth u hu x hx, mul_zero]
  · rw [ip_smul_left, ip_comm, ip_smul_left, ← mul_assoc]
    have h0 : 0 ≤ innerProd (c - m) (c - m) := Finset.sum_nonneg fun j _ => mul_self_nonneg _
    have hne : innerProd (c - m) (c - m) ≠ 0 := by
      intro h1
      refine hy (hnd.zero htop hS (z := fun u => if u = v then y v else y u - z u) ?_ (fun j => ?_) v
        (Finset.mem_insert_self _ _) |> fun h => by simpa using h)
      · rw [Finset.sum_insert hv, if_pos rfl, Finset.sum_congr rfl fun u hu =>
          if_neg (fun h : u = v => hv (h ▸ hu)), Finset.sum_sub_distrib, hm.one]
        linarith
      · rw [Finset.sum_insert hv, if_pos rfl, Finset.sum_congr rfl fun u hu => by
          rw [if_neg (fun h : u = v => hv (h ▸ hu))], ← hrc j]
        exact ip_eq_zero h1 j
    exact mul_pos (mul_self_pos.2 (inv_ne_zero hy)) (lt_of_le_of_ne h0 (Ne.symm hne))

end

end Verif
