/-
C74: `n_simplex` generates a regular simplex.
-/
import Verif.Model.Synthetic
import Verif.Spec.Euclid
import Verif.Props.Volume
import Verif.Props.Simplicial
import Mathlib.Data.Finset.Powerset

set_option linter.unusedSectionVars false

namespace Verif.Props

open Verif.Model Verif.Spec

/-! ### positions -/

theorem dot_cons {n : Nat} (a b : ℝ) (x y : Vec ℝ n) :
    dot (Fin.cons a x : Vec ℝ (n + 1)) (Fin.cons b y) = a * b + dot x y := by
  simp [dot, Fin.sum_univ_succ]

theorem depth_bound (n : Nat) : 0 ≤ 1 - (1 / ((n + 2 : Nat) : ℝ)) ^ 2 := by
  have : (1 / ((n + 2 : Nat) : ℝ)) ≤ 1 := by
    rw [div_le_one (by positivity)]; push_cast; linarith [Nat.cast_nonneg (α := ℝ) n]
  have h0 : 0 ≤ (1 / ((n + 2 : Nat) : ℝ)) := by positivity
  nlinarith

theorem top_eq_cons (n : Nat) : (fun j : Fin (n + 2) => if j = 0 then (1 : ℝ) else 0) =
    Fin.cons 1 0 := by
  funext j
  refine Fin.cases ?_ (fun j => ?_) j
  · simp
  · simp

theorem simplexVertices_zero (n : Nat) : simplexVertices (n + 1) 0 = Fin.cons 1 0 := by
  rw [← top_eq_cons]
  rfl

theorem simplexVertices_succ (n : Nat) (i : Fin (n + 2)) : simplexVertices (n + 1) i.succ =
    Fin.cons (-(1 / ((n + 2 : Nat) : ℝ)))
      fun j => simplexVertices n i j * Real.sqrt (1 - (1 / ((n + 2 : Nat) : ℝ)) ^ 2) := rfl

/-- C74: the vertices of `n_simplex(N)` have length one, and any two of them the inner product `-1/N` -/
theorem C74_regular (n : Nat) (i j : Fin (n + 2)) :
    dot (simplexVertices n i) (simplexVertices n j) = if i = j then 1 else -(1 / ((n + 1 : Nat) : ℝ)) := by
  induction n with
  | zero => fin_cases i <;> fin_cases j <;> simp [simplexVertices, dot]
  | succ n ih =>
    have hs := Real.mul_self_sqrt (depth_bound n)
    have hN : ((n + 2 : Nat) : ℝ) ≠ 0 := by positivity
    have hN1 : ((n + 1 : Nat) : ℝ) ≠ 0 := by positivity
    have hscale : ∀ (x y : Vec ℝ (n + 1)) (s : ℝ), dot (fun j => x j * s) (fun j => y j * s) =
        s * s * dot x y := by
      intro x y s
      simp only [dot, Finset.mul_sum]
      exact Finset.sum_congr rfl fun k _ => by ring
    refine Fin.cases ?_ (fun i => ?_) i <;> refine Fin.cases ?_ (fun j => ?_) j
    · rw [simplexVertices_zero, dot_cons]
      simp [dot]
    · rw [simplexVertices_zero, simplexVertices_succ, dot_cons, if_neg (Fin.succ_ne_zero j).symm]
      simp [dot]
      ring
    · rw [simplexVertices_zero, simplexVertices_succ, dot_cons, if_neg (Fin.succ_ne_zero i)]
      simp [dot]
      ring
    · rw [simplexVertices_succ, simplexVertices_succ, dot_cons, hscale, hs, ih]
      by_cases h : i = j
      · subst h
        rw [if_pos rfl, if_pos rfl]
        generalize (1 / ((n + 2 : Nat) : ℝ)) = x
        ring
      · rw [if_neg h, if_neg fun e => h (Fin.succ_injective _ e)]
        field_simp
        push_cast
        ring

/-- C74: the center of the vertices is the origin -/
theorem C74_center (n : Nat) (k : Fin (n + 1)) : ∑ i, simplexVertices n i k = 0 := by
  induction n with
  | zero => fin_cases k; simp [simplexVertices]
  | succ n ih =>
    have hN : ((n : ℝ) + 2) ≠ 0 := by positivity
    rw [Fin.sum_univ_succ, simplexVertices_zero]
    simp only [simplexVertices_succ]
    refine Fin.cases ?_ (fun k => ?_) k
    · simp [hN]
    · simp [← Finset.sum_mul, ih k]

/-- C74: all edges have the same length, `sqrt(2 (N + 1) / N)` -/
theorem C74_equilateral (n : Nat) {i j : Fin (n + 2)} (h : i ≠ j) :
    dist2 (simplexVertices n i) (simplexVertices n j) = 2 * ((n + 2 : Nat) : ℝ) / ((n + 1 : Nat) : ℝ) := by
  have e : dist2 (simplexVertices n i) (simplexVertices n j) =
      dot (simplexVertices n i) (simplexVertices n i) - 2 * dot (simplexVertices n i) (simplexVertices n j) +
      dot (simplexVertices n j) (simplexVertices n j) := by
    simp only [dist2, dot, Finset.mul_sum, ← Finset.sum_sub_distrib, ← Finset.sum_add_distrib]
    exact Finset.sum_congr rfl fun k _ => by ring
  rw [e, C74_regular, C74_regular, C74_regular, if_pos rfl, if_pos rfl, if_neg h]
  have hN1 : ((n + 1 : Nat) : ℝ) ≠ 0 := by positivity
  field_simp
  push_cast
  ring

/-! ### volume -/

theorem edge_det_succ (n : Nat) : (edgeRows (simplexVertices (n + 1))).det =
    -((1 + 1 / ((n + 2 : Nat) : ℝ)) *
      Real.sqrt (1 - (1 / ((n + 2 : Nat) : ℝ)) ^ 2) ^ (n + 1) * (edgeRows (simplexVertices n)).det) := by
  rw [← det_bordered (simplexVertices n)]
  have e : edgeRows (simplexVertices (n + 1)) = Matrix.of fun (i j : Fin (n + 2)) =>
      (Fin.cons (-(1 + 1 / ((n + 2 : Nat) : ℝ))) (fun _ => Real.sqrt (1 - (1 / ((n + 2 : Nat) : ℝ)) ^ 2)) :
        Fin (n + 2) → ℝ) j *
      (Matrix.of fun (i : Fin (n + 2)) (j : Fin (n + 2)) =>
        (Fin.cons 1 (simplexVertices n i) : Fin (n + 2) → ℝ) j) i j := by
    ext i j
    simp only [edgeRows, Matrix.of_apply, simplexVertices_succ, simplexVertices_zero]
    refine Fin.cases ?_ (fun j => ?_) j
    · simp; ring
    · simp [mul_comm]
  rw [e, Matrix.det_mul_row, Fin.prod_univ_succ]
  simp only [Fin.cons_zero, Fin.cons_succ, Finset.prod_const, Finset.card_univ, Fintype.card_fin]
  ring

theorem edge_det (n : Nat) : 0 < (-1) ^ n * (edgeRows (simplexVertices n)).det ∧
    (edgeRows (simplexVertices n)).det ^ 2 =
      ((n + 2 : Nat) : ℝ) * (((n + 2 : Nat) : ℝ) / ((n + 1 : Nat) : ℝ)) ^ (n + 1) := by
  induction n with
  | zero =>
    have : (edgeRows (simplexVertices 0)).det = 2 := by
      simp [edgeRows, simplexVertices]
      norm_num
    rw [this]
    norm_num
  | succ n ih =>
    have hN : (0 : ℝ) < ((n + 2 : Nat) : ℝ) := by positivity
    have hN1 : (0 : ℝ) < ((n + 1 : Nat) : ℝ) := by positivity
    have hpos : 0 < 1 - (1 / ((n + 2 : Nat) : ℝ)) ^ 2 := by
      have : (1 / ((n + 2 : Nat) : ℝ)) < 1 := by
        rw [div_lt_one hN]; push_cast; linarith [Nat.cast_nonneg (α := ℝ) n]
      have h0 : 0 < (1 / ((n + 2 : Nat) : ℝ)) := by positivity
      nlinarith
    have hsq := Real.sqrt_pos.2 hpos
    rw [edge_det_succ]
    constructor
    · have e : (-1 : ℝ) ^ (n + 1) * -((1 + 1 / ((n + 2 : Nat) : ℝ)) *
          Real.sqrt (1 - (1 / ((n + 2 : Nat) : ℝ)) ^ 2) ^ (n + 1) * (edgeRows (simplexVertices n)).det) =
          (1 + 1 / ((n + 2 : Nat) : ℝ)) * Real.sqrt (1 - (1 / ((n + 2 : Nat) : ℝ)) ^ 2) ^ (n + 1) *
            ((-1) ^ n * (edgeRows (simplexVertices n)).det) := by
        rw [pow_succ]; ring
      rw [e]
      have := ih.1
      positivity
    · have e1 : (Real.sqrt (1 - (1 / ((n + 2 : Nat) : ℝ)) ^ 2) ^ (n + 1)) ^ 2 =
          (1 - (1 / ((n + 2 : Nat) : ℝ)) ^ 2) ^ (n + 1) := by
        rw [← pow_mul, mul_comm, pow_mul, Real.sq_sqrt hpos.le]
      rw [neg_sq, mul_pow, mul_pow, e1, ih.2]
      have e2 : (1 - (1 / ((n + 2 : Nat) : ℝ)) ^ 2) =
          (((n + 3 : Nat) : ℝ) / ((n + 2 : Nat) : ℝ)) * (((n + 1 : Nat) : ℝ) / ((n + 2 : Nat) : ℝ)) := by
        field_simp
        push_cast
        ring
      have e3 : (((n + 1 : Nat) : ℝ) / ((n + 2 : Nat) : ℝ)) ^ (n + 1) *
          (((n + 2 : Nat) : ℝ) / ((n + 1 : Nat) : ℝ)) ^ (n + 1) = 1 := by
        rw [← mul_pow]
        field_simp
        simp
      have e4 : 1 + 1 / ((n + 2 : Nat) : ℝ) = ((n + 3 : Nat) : ℝ) / ((n + 2 : Nat) : ℝ) := by
        field_simp
        push_cast
        ring
      rw [e2, mul_pow, e4]
      have e5 : (((n + 3 : Nat) : ℝ) / ((n + 2 : Nat) : ℝ)) ^ (n + 1 + 1) =
          (((n + 3 : Nat) : ℝ) / ((n + 2 : Nat) : ℝ)) ^ (n + 1) * (((n + 3 : Nat) : ℝ) / ((n + 2 : Nat) : ℝ)) :=
        pow_succ _ _
      have e6 : (((n + 3 : Nat) : ℝ) / ((n + 2 : Nat) : ℝ)) ^ 2 * ((n + 2 : Nat) : ℝ) =
          ((n + 3 : Nat) : ℝ) * (((n + 3 : Nat) : ℝ) / ((n + 2 : Nat) : ℝ)) := by
        field_simp
      change _ = ((n + 3 : Nat) : ℝ) * (((n + 3 : Nat) : ℝ) / ((n + 2 : Nat) : ℝ)) ^ (n + 1 + 1)
      rw [e5]
      linear_combination (((n + 3 : Nat) : ℝ) / ((n + 2 : Nat) : ℝ)) ^ (n + 1) * e6 +
        (((n + 3 : Nat) : ℝ) / ((n + 2 : Nat) : ℝ)) ^ 2 * ((n + 2 : Nat) : ℝ) *
        (((n + 3 : Nat) : ℝ) / ((n + 2 : Nat) : ℝ)) ^ (n + 1) * e3

/-- C74: the signed volume of `n_simplex(N)` is `sqrt((N + 1) ((N + 1) / N)^N) / N!`, positive in odd
dimensions and negative in even ones -/
theorem C74_volume (n : Nat) : signedVolume (simplexVertices n) = .ok ((-1) ^ n *
    Real.sqrt (((n + 2 : Nat) : ℝ) * (((n + 2 : Nat) : ℝ) / ((n + 1 : Nat) : ℝ)) ^ (n + 1)) /
      ((n + 1).factorial : ℝ)) := by
  rw [signedVolume_eq]
  obtain ⟨h1, h2⟩ := edge_det n
  congr 2
  rw [← h2]
  rcases neg_one_pow_eq_or ℝ n with h | h
  · rw [h, one_mul] at h1 ⊢
    rw [Real.sqrt_sq h1.le]
  · rw [h] at h1 ⊢
    rw [← neg_sq, Real.sqrt_sq (by linarith)]
    ring

/-- C74: the canonical simplex has the origin and the unit vectors as vertices, and a positive volume -/
theorem C74_canonical (n : Nat) : canonicalVertices n 0 = 0 ∧
    (∀ i : Fin (n + 1), canonicalVertices n i.succ = Pi.single i 1) ∧
    signedVolume (canonicalVertices n) = .ok (1 / ((n + 1).factorial : ℝ)) := by
  have h0 : canonicalVertices n 0 = 0 := by
    funext j
    simp [canonicalVertices, (Fin.succ_ne_zero j).symm]
  have h1 : ∀ i : Fin (n + 1), canonicalVertices n i.succ = Pi.single i 1 := by
    intro i
    funext j
    simp [canonicalVertices, Pi.single_apply, eq_comm]
  refine ⟨h0, h1, ?_⟩
  rw [← C55_corner (K := ℝ) (n + 1)]
  congr 1
  funext i
  refine Fin.cases ?_ (fun i => ?_) i
  · exact h0
  · exact h1 i

/-! ### topology -/

/-- C74: `n_simplex(N)` is accepted, and it has one `N`-simplex, with all the vertices in order, and
`binomial(N + 1, k + 1)` elements on level `k`; the flag decides on the positions only -/
theorem C74_topology {uniq : List (List Nat) → List (List Nat)} (hu : UniqSpec uniq) (n : Nat) (eq : Bool) :
    ∃ t, nSimplex uniq n eq = .ok (t, if eq then simplexVertices n else canonicalVertices n) ∧
      t.elements[n + 1]? = some [List.range (n + 2)] ∧
      ∀ k ≤ n + 1, t.nElements k = (n + 2).choose (k + 1) := by
  have hs : Simplices (n + 2) [List.range (n + 2)] := by
    intro e he
    rw [List.mem_singleton.1 he]
    exact ⟨List.length_range, List.nodup_range⟩
  obtain ⟨t, ht⟩ := (C03_accepts_iff (nCorners := n) hu hs).2 ⟨n + 2, fun v => by simp⟩
  refine ⟨t, by simp [nSimplex, ht, bind, Except.bind], (C04_top_level hu hs ht).2, fun k hk => ?_⟩
  have htop := (C04_top_level hu hs ht).2
  have hf := C04_elements_are_faces hu hs ht k (by omega)
  have hd : ∀ (i j : Nat) (a b : List Nat), (t.elements[k]?.getD [])[i]? = some a →
      (t.elements[k]?.getD [])[j]? = some b → a.Perm b → i = j := by
    rcases Nat.lt_or_ge k (n + 1) with h | h
    · exact C04_elements_distinct hu hs ht k (by omega)
    · have : k = n + 1 := by omega
      subst this
      intro i j a b hi hj _
      simp only [show n + 2 - 1 = n + 1 from rfl] at htop
      rw [htop, Option.getD_some] at hi hj
      have hi := (List.getElem?_eq_some_iff.1 hi).1
      have hj := (List.getElem?_eq_some_iff.1 hj).1
      simp at hi hj
      omega
  have hmem : ∀ e ∈ t.elements[k]?.getD [], e.length = k + 1 ∧ e.Nodup ∧ ∀ v ∈ e, v < n + 2 := by
    intro e he
    obtain ⟨h1, l, hl, hsub⟩ := (hf e).1 ⟨e, he, List.Perm.refl _⟩
    rw [List.mem_singleton.1 hl] at hsub
    exact ⟨h1, (let ⟨_, hp, hsl⟩ := hsub; hp.nodup_iff.1 (hsl.nodup List.nodup_range)), fun v hv => List.mem_range.1 (hsub.subset hv)⟩
  have hcard : t.nElements k = (Finset.powersetCard (k + 1) (Finset.range (n + 2))).card := by
    unfold Topo.nElements
    rw [← Fintype.card_fin (t.elements[k]?.getD []).length, ← Finset.card_univ]
    refine Finset.card_bij (fun i _ => ((t.elements[k]?.getD []).get i).toFinset) ?_ ?_ ?_
    · intro i _
      obtain ⟨h1, h2, h3⟩ := hmem _ (List.get_mem (t.elements[k]?.getD []) i)
      rw [Finset.mem_powersetCard, List.toFinset_card_of_nodup h2, h1]
      exact ⟨fun v hv => Finset.mem_range.2 (h3 v (List.mem_toFinset.1 hv)), rfl⟩
    · intro i _ j _ hij
      apply Fin.ext
      refine hd i j _ _ (List.getElem?_eq_getElem i.2) (List.getElem?_eq_getElem j.2) ?_
      exact (List.perm_of_nodup_nodup_toFinset_eq (hmem _ (List.get_mem _ i)).2.1
        (hmem _ (List.get_mem _ j)).2.1 hij)
    · intro S hS
      obtain ⟨h1, h2⟩ := Finset.mem_powersetCard.1 hS
      obtain ⟨e, he, hp⟩ := (hf S.toList).2 ⟨by rw [Finset.length_toList, h2], _,
        List.mem_singleton_self _, List.subperm_of_subset S.nodup_toList fun v hv =>
          List.mem_range.2 (Finset.mem_range.1 (h1 (Finset.mem_toList.1 hv)))⟩
      obtain ⟨i, hi⟩ := List.get_of_mem he
      refine ⟨i, Finset.mem_univ _, ?_⟩
      rw [hi, List.toFinset_eq_of_perm _ _ hp, Finset.toList_toFinset]
  rw [hcard, Finset.card_powersetCard, Finset.card_range]

/-- example for C74: the triangle of `n_simplex(2)` has three edges and is turned clockwise -/
example : ∃ t v, nSimplex List.dedup 1 true = .ok (t, simplexVertices 1) ∧ t.nElements 1 = 3 ∧
    signedVolume (simplexVertices 1) = .ok v ∧ v < 0 := by
  obtain ⟨t, h1, -, h2⟩ := C74_topology uniqSpec_dedup 1 true
  refine ⟨t, _, h1, h2 1 (by norm_num), C74_volume 1, ?_⟩
  have : 0 < Real.sqrt (((1 + 2 : Nat) : ℝ) * (((1 + 2 : Nat) : ℝ) / ((1 + 1 : Nat) : ℝ)) ^ (1 + 1)) :=
    Real.sqrt_pos.2 (by positivity)
  rw [pow_one, neg_one_mul, neg_div]
  exact neg_neg_of_pos (div_pos this (by positivity))

end Verif.Props
