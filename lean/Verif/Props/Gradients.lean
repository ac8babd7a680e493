/-
C78: `simplex_gradients`, and two triangles that `dual_flux_to_dual_velocity` applies to.
-/
import Verif.Props.Velocity

set_option linter.unusedSectionVars false

namespace Verif.Props

open Verif.Model Verif.Spec Matrix

section

variable {d m : Nat} {svd : (a b : Nat) → Matrix (Fin a) (Fin b) ℝ → Svd a b ℝ} {r : ℝ}

/-- the heights of a simplex, and its volume -/
theorem exists_heights {p : Fin (m + 2) → Fin (d + 1) → ℝ} (hp : AffineIndependent ℝ p) :
    ∃ h : Fin (m + 2) → Fin (d + 1) → ℝ, ∀ i, CornerHeight p i (h i) ∧ 0 < innerProd (h i) (h i) ∧
      vol p * ((m + 1 : ℕ) : ℝ) = vol (rolledFace (Matrix.of p) i) * Real.sqrt (innerProd (h i) (h i)) := by
  set V : List (Vec ℝ (d + 1)) := List.ofFn p with hV
  set l := List.range (m + 2) with hl
  have hll : l.length = m + 2 := List.length_range
  have hln : l.Nodup := List.nodup_range
  have hc : cornersOf V (m + 2) l = p := by
    funext i
    unfold cornersOf
    rw [hl, List.getElem?_range i.2, Option.getD_some]
    unfold position
    rw [hV, List.getElem?_ofFn, dif_pos i.2]
    rfl
  have hs : Simplices (m + 2) [l] := by
    intro x hx
    obtain rfl := List.mem_singleton.1 hx
    exact ⟨hll, hln⟩
  have hnd : NonDegenerate V (m + 1) [l] := by
    intro x hx
    obtain rfl := List.mem_singleton.1 hx
    rw [hc]
    exact hp
  have key : ∀ i : Fin (m + 2), ∃ g, CornerHeight p i g ∧ 0 < innerProd g g ∧
      vol p * ((m + 1 : ℕ) : ℝ) = vol (rolledFace (Matrix.of p) i) * Real.sqrt (innerProd g g) := by
    intro i
    set e := l.eraseIdx i with he
    have hel : e.length = m + 1 := by rw [he, List.length_eraseIdx_of_lt (by omega)]; omega
    have hi : i.val < l.length := by rw [hll]; exact i.2
    have hnot : l[i.val] ∉ e.toFinset := by
      rw [List.mem_toFinset, he, List.mem_eraseIdx_iff_getElem]
      rintro ⟨a, ha, hne, hEq⟩
      exact hne ((List.Nodup.getElem_inj_iff hln).1 hEq)
    obtain ⟨g, hg, hg0⟩ := hnd.height hs (v := l[i.val]) hnot ⟨e[0]'(by omega), List.mem_toFinset.2 (List.getElem_mem _)⟩
      ⟨⟨l[i.val], Finset.mem_insert_self _ _⟩, l, by simp, by
        intro v hv
        rw [List.mem_toFinset]
        rcases Finset.mem_insert.1 hv with rfl | hv
        · exact List.getElem_mem _
        · exact List.mem_of_mem_eraseIdx (List.mem_toFinset.1 hv)⟩
    have h1 := cornerHeight_of hll hln i.2 (List.Perm.refl e) hg
    have h2 := vol_rolled (V := V) hll hln i.2 (List.Perm.refl e)
    have h3 := vol_height hll hln i.2 (List.Perm.refl e) hg
    rw [hc] at h1 h2 h3
    exact ⟨g, h1, hg0, by rw [h3, ← h2]⟩
  choose h hh using key
  exact ⟨h, hh⟩

/-- C78: the gradient at a corner is at a right angle to the opposite face and as long as the face is large.  It
points to the corner: along an edge to the corner it has `n` times the volume of the simplex as a product, so it
is `n` times the gradient of the volume.  The gradients add up to zero. -/
theorem C78_gradients (hsvd : SvdSpec svd) (hr : 0 < r) {p : Fin (m + 2) → Fin (d + 1) → ℝ}
    (hp : AffineIndependent ℝ p) (hd : d ≤ m + 1)
    (hcut : ∀ j, (svd (m + 2) (d + 1) (Matrix.of (centred p))).s j = 0 ∨
      r * (svd (m + 2) (d + 1) (Matrix.of (centred p))).s ⟨0, by omega⟩ ≤
        (svd (m + 2) (d + 1) (Matrix.of (centred p))).s j) :
    ∃ (g : Fin (m + 2) → Fin (d + 1) → ℝ) (v : ℝ), simplexGradients svd r (Matrix.of p) = .ok (fun i => some (g i)) ∧
      unsignedVolume (Matrix.of p) = .ok v ∧ 0 < v ∧ (∀ k, ∑ i, g i k = 0) ∧
      ∀ i, (∀ a b, a ≠ i → b ≠ i → innerProd (g i) (p a - p b) = 0) ∧
        (∃ area, unsignedVolume (rolledFace (Matrix.of p) i) = .ok area ∧ innerProd (g i) (g i) = area ^ 2) ∧
        ∀ a, a ≠ i → innerProd (g i) (p i - p a) = ((m + 1 : ℕ) : ℝ) * v := by
  have hmd : m + 1 ≤ d + 1 := by
    have := (edges_independent hp).fintype_card_le_finrank
    simpa using this
  obtain ⟨h, hh⟩ := exists_heights hp
  have hv0 := vol_pos_of hp
  set A : Fin (m + 2) → ℝ := fun i => vol (rolledFace (Matrix.of p) i) with hA
  set s : Fin (m + 2) → ℝ := fun i => Real.sqrt (innerProd (h i) (h i)) with hs
  have hs0 : ∀ i, 0 < s i := fun i => Real.sqrt_pos.2 (hh i).2.1
  have hss : ∀ i, innerProd (h i) (h i) = s i * s i := fun i => (Real.mul_self_sqrt (hh i).2.1.le).symm
  have hκ : ∀ i, vol p * ((m + 1 : ℕ) : ℝ) = A i * s i := fun i => (hh i).2.2
  set g : Fin (m + 2) → Fin (d + 1) → ℝ := fun i k => A i / s i * h i k with hg
  have hip : ∀ i w, innerProd (g i) w = A i / s i * innerProd (h i) w := fun i w => ip_smul_left _ _ _
  refine ⟨g, vol p, ?_, volume_eq_vol (by omega) p, hv0, ?_, fun i => ⟨fun a b ha hb => ?_, ?_, fun a ha => ?_⟩⟩
  · rw [simplexGradients_ok hsvd hr hp (by omega) hd hcut (fun i => (hh i).1) fun i => (hh i).2.1]
    congr 1
    funext i
    congr 1
    funext k
    simp only [hg, hA, hs]
    ring
  · -- the sum is at a right angle to itself
    set w : Fin (d + 1) → ℝ := fun k => ∑ i, g i k with hw
    have hwp : ∀ x, innerProd w x = ∑ i, innerProd (g i) x := by
      intro x
      simp only [innerProd, hw, Finset.sum_mul]
      exact Finset.sum_comm
    have hedge : ∀ a b, innerProd w (p a - p b) = 0 := by
      have h0 : ∀ a b i, innerProd (g i) (p a - p b) =
          vol p * ((m + 1 : ℕ) : ℝ) * ((if a = i then 1 else 0) - (if b = i then 1 else 0)) := by
        intro a b i
        rw [hip, hκ i]
        have hsi := (hs0 i).ne'
        by_cases ha : a = i
        · by_cases hb : b = i
          · rw [ha, hb, sub_self, ip_comm]
            simp [innerProd]
          · rw [if_pos ha, if_neg hb, ha, (hh i).1.up b hb, hss]
            field_simp
            ring
        · by_cases hb : b = i
          · rw [if_neg ha, if_pos hb, hb, ip_sub_right]
            have := (hh i).1.up a ha
            rw [ip_sub_right, hss] at this
            have e : innerProd (h i) (p a) - innerProd (h i) (p i) = - (s i * s i) := by linarith
            rw [e]
            field_simp
            ring
          · rw [if_neg ha, if_neg hb, (hh i).1.flat a b ha hb]
            ring
      intro a b
      rw [hwp]
      simp only [h0]
      rw [← Finset.mul_sum, Finset.sum_sub_distrib, Finset.sum_ite_eq, Finset.sum_ite_eq]
      simp
    choose z hz1 hz2 using fun i => (hh i).1.span
    have hww : innerProd w w = 0 := by
      refine ip_sum hedge (z := fun a => ∑ i, A i / s i * z i a) ?_ fun k => ?_
      · rw [Finset.sum_comm]
        refine Finset.sum_eq_zero fun i _ => ?_
        rw [← Finset.mul_sum, hz1, mul_zero]
      · simp only [hw, hg, Finset.sum_mul]
        rw [Finset.sum_comm]
        refine Finset.sum_congr rfl fun i _ => ?_
        rw [hz2 i k, Finset.mul_sum]
        exact Finset.sum_congr rfl fun a _ => by ring
    intro k
    have := (Finset.sum_eq_zero_iff_of_nonneg (fun k _ => mul_self_nonneg (w k))).1 hww k (Finset.mem_univ k)
    exact mul_self_eq_zero.1 this
  · rw [hip, (hh i).1.flat a b ha hb, mul_zero]
  · refine ⟨A i, volume_eq_vol (by omega) (rolledFace (Matrix.of p) i), ?_⟩
    rw [hip, ip_comm, hip, hss]
    have := (hs0 i).ne'
    field_simp
  · rw [hip, (hh i).1.up a ha, hss]
    have := (hs0 i).ne'
    have e := hκ i
    field_simp
    linarith

end

theorem connected_from_first {rows : List (List Nat)}
    (h : ∀ j < rows.length, Relation.ReflTransGen (Adjacent rows) 0 j) : Connected rows := by
  have hsym : ∀ a b, Adjacent rows a b → Adjacent rows b a := fun a b ⟨e, he⟩ => ⟨e, sharedFace_symm he⟩
  intro j1 h1 j2 h2
  refine Relation.ReflTransGen.trans ?_ (h j2 h2)
  induction h j1 h1 with
  | refl => exact .refl
  | tail _ hab ih =>
    exact .head (hsym _ _ hab) (ih (by obtain ⟨e, he⟩ := hab; exact he.2.1))

/-- C78: two acute triangles meet all hypotheses; they have nine dual edges and six dual vertices, and each
velocity of the plane is recovered from its fluxes -/
theorem C78_acute : ∃ (solve : List (List Int) → Option (List Int)) (t : Topo)
    (eigh : (n : Nat) → Matrix (Fin n) (Fin n) ℝ → Eigh n ℝ) (ratio : ℝ) (y : Finset Nat → Nat → ℝ)
    (ctr : Finset Nat → Fin 2 → ℝ) (svd : (a b : Nat) → Matrix (Fin a) (Fin b) ℝ → Svd a b ℝ) (r : ℝ),
    FlowInput List.dedup solve eigh ratio 2 [[0, 1, 2], [1, 3, 2]] t acuteCorners y ctr svd r 9 6 ∧
    ∀ u : Fin 2 → ℝ, ∃ flux : List ℝ, flux.length = 9 ∧
      dualFluxToDualVelocity solve List.dedup eigh ratio svd r t acuteCorners none flux =
        .ok ([u, u] ++ [0, 0, 0, 0]) := by
  obtain ⟨solve, t, eigh, ratio, y, ctr, hsat, h, -, hopp, -, hw⟩ := C61_acute
  have hs := h.rows
  have hf : fromSimplices List.dedup 3 [[0, 1, 2], [1, 3, 2]] =
    .ok (built 3 [[0, 1, 2], [1, 3, 2]]) := by decide +kernel
  obtain rfl : built 3 [[0, 1, 2], [1, 3, 2]] = t := Except.ok.inj (hf.symm.trans h.built)
  have hel : (built 3 [[0, 1, 2], [1, 3, 2]]).elements[1]?.getD [] = [[2, 0], [0, 1], [3, 2], [1, 2], [1, 3]] := by
    decide +kernel
  have h2 : AtMostTwo [[0, 1, 2], [1, 3, 2]] := atMostTwo_of_check (by decide +kernel)
  have hco : Coherent [[0, 1, 2], [1, 3, 2]] := C08_true_sound uniqSpec_dedup hs hsat hf h.oriented
  -- the boundary is a cycle of four edges
  set rows : List (List Nat) := [[2, 0], [0, 1], [3, 2], [1, 3]] with hrows
  have hsr : Simplices 2 rows := simplices_of_all (by decide)
  have hfr : fromSimplices List.dedup 2 rows = .ok (built 2 rows) := by decide +kernel
  have hcr : Coherent rows := by
    obtain ⟨n, hn, -, wf⟩ := wf_of_ok uniqSpec_dedup hsr hfr
    obtain rfl : n = 1 := by omega
    rw [← reorient_false rows, ← wf.satisfies_iff_coherent hsr (fun _ => false)]
    decide +kernel
  have hcon : Connected rows := by
    have a01 : Adjacent rows 0 1 := ⟨[0], sharedFace_of_check (by decide)⟩
    have a02 : Adjacent rows 0 2 := ⟨[2], sharedFace_of_check (by decide)⟩
    have a13 : Adjacent rows 1 3 := ⟨[1], sharedFace_of_check (by decide)⟩
    refine connected_from_first fun j hj => ?_
    have hj : j < 4 := hj
    interval_cases j
    · exact .refl
    · exact .single a01
    · exact .single a02
    · exact .tail (.single a01) a13
  have hor := (C08_connected_exact uniqSpec_dedup hsr hsat hfr (by simp [hrows]) hcon).2 hcr
  obtain ⟨s, hb, hst⟩ : ∃ s : Sub, boundary solve List.dedup (built 3 [[0, 1, 2], [1, 3, 2]]) = .ok (some s) ∧
      s.topo = built 2 rows := by
    refine ⟨(match subTopology List.dedup 2 (built 3 [[0, 1, 2], [1, 3, 2]])
      (bRows (built 3 [[0, 1, 2], [1, 3, 2]])) with | .ok s => s | .error _ => ⟨⟨[], [], []⟩, []⟩), ?_, by decide +kernel⟩
    rw [boundary_eq h.oriented]
    decide +kernel
  have hde : ∀ k, dualElements solve List.dedup (built 3 [[0, 1, 2], [1, 3, 2]]) k =
      .ok ((built 3 [[0, 1, 2], [1, 3, 2]]).nElements k + if k = 0 then 0 else (built 2 rows).nElements (k - 1)) := by
    intro k
    unfold dualElements
    rw [hb]
    simp only [bind, Except.bind]
    rw [hst, hor]
    rfl
  obtain ⟨svd, -, r, hr, hin⟩ := C78_applies (N1 := 9) (N0 := 6) h (le_refl 2) (by omega) hsat h2 (Or.inl (le_refl 2))
    (C61_wellcentered_delaunay h.center (le_refl 2) hw) (by rw [hde]; decide +kernel) (by rw [hde]; decide +kernel)
  have hF := hin r hr (le_refl r)
  refine ⟨solve, _, eigh, ratio, y, ctr, svd, r, hF, fun u => ?_⟩
  set fl : Nat → ℝ := fun x => ∑ j ∈ Finset.range 2,
    (((built 3 [[0, 1, 2], [1, 3, 2]]).matrix 1).entry x j : ℝ) *
      innerProd u (ctr (([[0, 1, 2], [1, 3, 2]] : List (List Nat))[j]?.getD []).toFinset -
        ctr (((built 3 [[0, 1, 2], [1, 3, 2]]).elements[1]?.getD [])[x]?.getD []).toFinset) with hfl
  refine ⟨(List.range 9).map fl, by simp, ?_⟩
  have key := C78_uniform hF ?_ u ((List.range 9).map fl) (by simp) ?_
  · rw [key]
    rfl
  · intro e j1 j2 l1 l2 h1 h2 hne f1 f2
    have hlt := fun j (l : List Nat) (hj : ([[0, 1, 2], [1, 3, 2]] : List (List Nat))[j]? = some l) =>
      (List.getElem?_eq_some_iff.1 hj).1
    have b1 : j1 < 2 := hlt _ _ h1
    have b2 : j2 < 2 := hlt _ _ h2
    have common : IsFace e [0, 1, 2] → IsFace e [1, 3, 2] → e.Perm [1, 2] := by
      rintro ⟨c, hc, hp⟩ ⟨c', hc', hp'⟩
      have hc : c < 3 := hc
      have hc' : c' < 3 := hc'
      have hpp := hp.symm.trans hp'
      interval_cases c <;> interval_cases c' <;> first | exact hp | exact absurd hpp (by decide)
    have put : e.Perm [1, 2] → e.toFinset = {1, 2} ∧ ∀ l, missing l e = missing l [1, 2] := fun hp => by
      refine ⟨by rw [List.toFinset_eq_of_perm _ _ hp]; rfl, fun l => ?_⟩
      unfold missing
      rw [hp.diff_left]
    have m1 : missing [0, 1, 2] [1, 2] = 0 := rfl
    have m2 : missing [1, 3, 2] [1, 2] = 3 := rfl
    interval_cases j1 <;> interval_cases j2
    · exact absurd rfl hne
    · obtain rfl := Option.some.inj h1
      obtain rfl := Option.some.inj h2
      obtain ⟨q1, q2⟩ := put (common f1 f2)
      rw [q1, q2, q2, m1, m2]
      refine ⟨fun _ => 1, -1, by norm_num, ?_, fun j => ?_⟩
      · rw [Finset.sum_pair (by decide)]
        norm_num
      · rw [Finset.sum_pair (by decide)]
        fin_cases j <;> simp [position, acuteCorners] <;> norm_num
    · obtain rfl := Option.some.inj h1
      obtain rfl := Option.some.inj h2
      obtain ⟨q1, q2⟩ := put (common f2 f1)
      rw [q1, q2, q2, m1, m2]
      refine ⟨fun _ => 1, -1, by norm_num, ?_, fun j => ?_⟩
      · rw [Finset.sum_pair (by decide)]
        norm_num
      · rw [Finset.sum_pair (by decide)]
        fin_cases j <;> simp [position, acuteCorners] <;> norm_num
    · exact absurd rfl hne
  · intro x e hx
    have hx5 : x < 5 := by
      have := (List.getElem?_eq_some_iff.1 hx).1
      rw [hel] at this
      exact this
    rw [List.getElem?_map, List.getElem?_range (by omega), Option.map_some]
    simp only [hfl]
    rw [hx]
    rfl

end Verif.Props
