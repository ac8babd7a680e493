/-
The domains of a simplex: their volumes are products of barycentric coordinates, and add up.
-/
import Verif.Lemmas.SimplexVolume
import Verif.Lemmas.Subdivide
import Mathlib.Data.Real.Sign

set_option linter.unusedSectionVars false

namespace Verif

open Verif.Model Verif.Spec Matrix

theorem sum_take_fin (w : List Nat) (f : Nat → ℝ) (m : Nat) :
    ((w.take m).map f).sum = ∑ j : Fin w.length, if j.val < m then f w[j] else 0 := by
  have h : w.map f = List.ofFn fun j : Fin w.length => f w[j] := by
    apply List.ext_getElem
    · simp
    · intro i h1 h2
      simp
  rw [List.map_take, h, List.sum_take_ofFn, Finset.sum_filter]

/-- the product of the coordinates of the centers of the initial segments, each at the corner added
last -/
noncomputable def flagProd (β : List Nat → Nat → ℝ) (w : List Nat) : ℝ :=
  ((List.range w.length).map fun k => |β (w.take (k + 1)) (w[k]?.getD 0)|).prod

theorem flagProd_append (β : List Nat → Nat → ℝ) (w : List Nat) (x : Nat) :
    flagProd β (w ++ [x]) = flagProd β w * |β (w ++ [x]) x| := by
  unfold flagProd
  rw [List.length_append, List.length_singleton, List.range_succ, List.map_append, List.prod_append]
  congr 1
  · congr 1
    apply List.map_congr_left
    intro k hk
    have hk := List.mem_range.1 hk
    rw [List.take_append_of_le_length (by omega), List.getElem?_append_left hk]
  · simp [List.take_of_length_le]

theorem flagProd_eq (β : List Nat → Nat → ℝ) (w : List Nat) {M : Nat} (h : w.length = M + 1) :
    flagProd β w = ∏ k : Fin (M + 1), |β (w.take (k + 1)) w[k]| := by
  unfold flagProd
  rw [show List.range w.length = List.range (M + 1) by rw [h], ← List.prod_ofFn]
  congr 1
  apply List.ext_getElem
  · simp
  · intro i h1 h2
    have hi : i < M + 1 := by simpa using h1
    rw [List.getElem_ofFn, List.getElem_map, List.getElem_range,
      List.getElem?_eq_getElem (show i < w.length by omega)]
    rfl

/-- the volume of a domain -/
theorem vol_flag {M D : Nat} (P : Nat → Vec ℝ D) (β : List Nat → Nat → ℝ) (ctr : List Nat → Vec ℝ D)
    (w : List Nat) (hw : w.length = M + 1)
    (hone : ∀ k ≤ M, ((w.take (k + 1)).map fun v => β (w.take (k + 1)) v).sum = 1)
    (hctr : ∀ k ≤ M, ∀ c, ctr (w.take (k + 1)) c =
      ((w.take (k + 1)).map fun v => β (w.take (k + 1)) v * P v c).sum) :
    vol (fun k : Fin (M + 1) => ctr (w.take (k + 1))) =
      flagProd β w * vol (fun k : Fin (M + 1) => P w[k]) := by
  set B : Matrix (Fin (M + 1)) (Fin (M + 1)) ℝ := Matrix.of fun k j =>
    if j.val < k.val + 1 then β (w.take (k + 1)) w[j] else 0 with hB
  have hfin : ∀ f : Fin w.length → ℝ, ∑ j, f j = ∑ j : Fin (M + 1), f (Fin.cast hw.symm j) :=
    fun f => (Equiv.sum_comp (finCongr hw.symm) f).symm
  rw [vol_combine B ?_ (fun k : Fin (M + 1) => P w[k]) _ ?_]
  · congr 1
    have ht : B.BlockTriangular OrderDual.toDual := by
      intro i j hij
      have hij' : i.val < j.val := hij
      simp [hB]
      omega
    rw [det_of_isLowerTriangular B ht, flagProd_eq β w hw, Finset.abs_prod]
    refine Finset.prod_congr rfl fun k _ => ?_
    simp [hB]
  · intro k
    have := hone k (by omega)
    rw [sum_take_fin, hfin] at this
    simpa [hB] using this
  · intro k c
    rw [hctr k (by omega) c, sum_take_fin, hfin]
    refine Finset.sum_congr rfl fun j _ => ?_
    simp only [hB, of_apply, Fin.val_cast, ite_mul, zero_mul]
    rfl

/-- the order of the points does not matter -/
theorem vol_perm {M D : Nat} (P : Nat → Vec ℝ D) (w e : List Nat) (hw : w.length = M + 1)
    (he : e.length = M + 1) (hp : w.Perm e) (hnd : e.Nodup) :
    vol (fun k : Fin (M + 1) => P w[k]) = vol (fun k : Fin (M + 1) => P e[k]) := by
  have hwn : w.Nodup := hp.nodup_iff.2 hnd
  set B : Matrix (Fin (M + 1)) (Fin (M + 1)) ℝ := Matrix.of fun k j =>
    if w[k] = e[j] then 1 else 0 with hB
  have hex : ∀ k : Fin (M + 1), ∃ j : Fin (M + 1), w[k] = e[j] ∧
      ∀ i : Fin (M + 1), w[k] = e[i] → i = j := by
    intro k
    obtain ⟨j, hj, h⟩ := List.getElem_of_mem (hp.mem_iff.1 (List.getElem_mem (show k.val < w.length by omega)))
    refine ⟨⟨j, by omega⟩, h.symm, fun i hi => ?_⟩
    have h2 : e[i.val]'(by omega) = e[j] := by rw [h]; exact hi.symm
    exact Fin.ext ((List.Nodup.getElem_inj_iff hnd).1 h2)
  choose σ hσ huniq using hex
  have hBe : ∀ k j, B k j = if j = σ k then 1 else 0 := by
    intro k j
    simp only [hB, of_apply]
    by_cases h : j = σ k
    · rw [if_pos h, if_pos (by rw [h]; exact hσ k)]
    · rw [if_neg h, if_neg (fun h' => h (huniq k j h'))]
  have hinj : Function.Injective σ := by
    intro k k' h
    have h1 : w[k.val]'(by omega) = w[k'.val]'(by omega) := by
      have e1 := hσ k
      have e2 := hσ k'
      rw [h] at e1
      exact e1.trans e2.symm
    exact Fin.ext ((List.Nodup.getElem_inj_iff hwn).1 h1)
  have hdet : |B.det| = 1 := by
    have hBB : B * Bᵀ = 1 := by
      ext k k'
      rw [mul_apply, one_apply]
      simp only [transpose_apply, hBe, mul_ite, mul_one, mul_zero]
      rw [Finset.sum_ite_eq' Finset.univ (σ k')]
      simp [hinj.eq_iff, eq_comm]
    have h2 : B.det * B.det = 1 := by
      have := congrArg det hBB
      rwa [det_mul, det_transpose, det_one] at this
    have h3 : |B.det| * |B.det| = 1 := by rw [abs_mul_abs_self]; exact h2
    nlinarith [abs_nonneg B.det]
  rw [vol_combine B ?_ (fun k : Fin (M + 1) => P e[k]) _ ?_, hdet, one_mul]
  · intro i
    simp [hBe]
  · intro k c
    simp only [hBe, ite_mul, one_mul, zero_mul, Finset.sum_ite_eq', Finset.mem_univ, if_true]
    rw [hσ k]

/-- what the coordinates of the centers satisfy -/
structure Barycentric (β : List Nat → Nat → ℝ) (row : List Nat) : Prop where
  perm : ∀ s s' v, s.Subperm row → s.Perm s' → β s v = β s' v
  one : ∀ s, s.Subperm row → s ≠ [] → (s.map fun v => β s v).sum = 1

theorem Barycentric.sub {β : List Nat → Nat → ℝ} {row row' : List Nat} (h : Barycentric β row)
    (hs : row'.Subperm row) : Barycentric β row' :=
  ⟨fun s s' v h1 h2 => h.perm s s' v (h1.trans hs) h2, fun s h1 h2 => h.one s (h1.trans hs) h2⟩

theorem simplexFace_subperm {row : List Nat} {c : Nat} (hc : c < row.length) :
    (simplexFace row c).Subperm row :=
  (simplexFace_perm hc).subperm.trans (List.eraseIdx_sublist _ _).subperm

theorem map_range_getElem (row : List Nat) (f : Nat → ℝ) :
    (List.range row.length).map (fun c => f (row[c]?.getD 0)) = row.map f := by
  apply List.ext_getElem
  · simp
  · intro i h1 h2
    simp at h1
    simp [List.getElem?_eq_getElem h1]

theorem sum_flatten_map {α : Type} (L : List (List α)) (f : α → ℝ) :
    (L.flatten.map f).sum = (L.map fun l => (l.map f).sum).sum := by
  induction L with
  | nil => simp
  | cons a L ih => rw [List.flatten_cons, List.map_append, List.sum_append, ih]; rfl

theorem sum_map_mul_right' {α : Type} (L : List α) (f : α → ℝ) (c : ℝ) :
    (L.map fun x => f x * c).sum = (L.map f).sum * c := by
  induction L with
  | nil => simp
  | cons a L ih => simp [ih, add_mul]

/-- sums over the orderings of a row of three or more corners -/
theorem sum_wRows_succ (β : List Nat → Nat → ℝ) (g : Nat → ℝ) (k : Nat) (row : List Nat)
    (hl : row.length = k + 3) (hnd : row.Nodup) (hb : Barycentric β row) :
    ((wRows (k + 1) row).map fun w => flagProd β w * g (w.getLast?.getD 0)).sum =
      ((List.range row.length).map fun c =>
        ((wRows k (simplexFace row c)).map (flagProd β)).sum *
          (|β row (row[c]?.getD 0)| * g (row[c]?.getD 0))).sum := by
  simp only [wRows]
  rw [sum_flatten_map, List.map_map]
  congr 1
  apply List.map_congr_left
  intro c hc
  have hc := List.mem_range.1 hc
  simp only [Function.comp, List.map_map]
  rw [← sum_map_mul_right']
  congr 1
  apply List.map_congr_left
  intro w hw
  have hp := (mem_wRows k _ (by rw [simplexFace_length hc]; omega) (simplexFace_nodup hnd hc) w).1 hw
  simp only [Function.comp, flagProd_append, List.getLast?_concat, Option.getD_some]
  have hp2 : (w ++ [row[c]?.getD 0]).Perm row := by
    rw [List.getElem?_eq_getElem hc, Option.getD_some]
    exact ((hp.trans (simplexFace_perm hc)).append_right _).trans (eraseIdx_append_perm hc)
  rw [hb.perm _ row _ hp2.subperm hp2]
  ring

/-- if the centers of all faces lie inside them, the products add up to one -/
theorem sum_flagProd (β : List Nat → Nat → ℝ) : ∀ (k : Nat) (row : List Nat), row.length = k + 2 →
    row.Nodup → Barycentric β row →
    (∀ s v, s.Subperm row → 2 ≤ s.length → v ∈ s → 0 ≤ β s v) →
    ((wRows k row).map (flagProd β)).sum = 1 := by
  intro k
  induction k with
  | zero =>
    intro row hl hnd hb hpos
    obtain ⟨a, b, rfl⟩ := length_two hl
    have ha : β [a] a = 1 := by simpa using hb.one [a] (by simp) (by simp)
    have hb' : β [b] b = 1 := by simpa using hb.one [b] (by simp) (by simp)
    have hab := hb.one [a, b] (List.Subperm.refl _) (by simp)
    have hsw : β [b, a] a = β [a, b] a := (hb.perm _ _ _ (List.Subperm.refl _) (List.Perm.swap b a [])).symm
    have h1 := hpos [a, b] a (List.Subperm.refl _) (by simp) (by simp)
    have h2 := hpos [a, b] b (List.Subperm.refl _) (by simp) (by simp)
    simp only [List.map_cons, List.map_nil, List.sum_cons, List.sum_nil, add_zero] at hab
    simp [wRows, flagProd, List.range_succ, ha, hb', hsw, abs_of_nonneg h1, abs_of_nonneg h2]
    linarith
  | succ k ih =>
    intro row hl hnd hb hpos
    have h := sum_wRows_succ β (fun _ => 1) k row hl hnd hb
    simp only [mul_one] at h
    change ((wRows (k + 1) row).map fun w => flagProd β w).sum = 1
    rw [h]
    have : ∀ c ∈ List.range row.length, ((wRows k (simplexFace row c)).map (flagProd β)).sum *
        |β row (row[c]?.getD 0)| = β row (row[c]?.getD 0) := by
      intro c hc
      have hc := List.mem_range.1 hc
      have hs := simplexFace_subperm hc
      rw [ih _ (by rw [simplexFace_length hc]; omega) (simplexFace_nodup hnd hc) (hb.sub hs)
        (fun s v h1 => hpos s v (h1.trans hs)), one_mul, abs_of_nonneg]
      refine hpos row _ (List.Subperm.refl _) (by omega) ?_
      rw [List.getElem?_eq_getElem hc]
      exact List.getElem_mem hc
    rw [List.map_congr_left this, map_range_getElem row (fun v => β row v)]
    exact hb.one row (List.Subperm.refl _) (by intro h0; rw [h0] at hl; simp at hl)

theorem sign_mul_abs' (r : ℝ) : |r| * Real.sign r = r := by
  rcases lt_trichotomy r 0 with h | h | h
  · rw [Real.sign_of_neg h, abs_of_neg h]; ring
  · rw [h]; simp
  · rw [Real.sign_of_pos h, abs_of_pos h]; ring

/-- with the sign of the last coordinate the center may lie outside, as long as the centers of the
faces lie inside them -/
theorem sum_flagProd_sign (β : List Nat → Nat → ℝ) (k : Nat) (row : List Nat)
    (hl : row.length = k + 3) (hnd : row.Nodup) (hb : Barycentric β row)
    (hpos : ∀ s v, s.Subperm row → 2 ≤ s.length → s.length ≤ k + 2 → v ∈ s → 0 ≤ β s v) :
    ((wRows (k + 1) row).map fun w => flagProd β w * Real.sign (β row (w.getLast?.getD 0))).sum = 1 := by
  rw [sum_wRows_succ β (fun v => Real.sign (β row v)) k row hl hnd hb]
  have : ∀ c ∈ List.range row.length, ((wRows k (simplexFace row c)).map (flagProd β)).sum *
      (|β row (row[c]?.getD 0)| * Real.sign (β row (row[c]?.getD 0))) = β row (row[c]?.getD 0) := by
    intro c hc
    have hc := List.mem_range.1 hc
    have hs := simplexFace_subperm hc
    rw [sign_mul_abs', sum_flagProd β k _ (by rw [simplexFace_length hc]; omega)
      (simplexFace_nodup hnd hc) (hb.sub hs), one_mul]
    intro s v h1 h2 h3
    refine hpos s v (h1.trans hs) h2 ?_ h3
    have := h1.length_le
    rw [simplexFace_length hc] at this
    omega
  rw [List.map_congr_left this, map_range_getElem row (fun v => β row v)]
  exact hb.one row (List.Subperm.refl _) (by intro h0; rw [h0] at hl; simp at hl)

end Verif
