/-
The hypotheses about circumcenters and tolerances can be met for every complex without degenerate
simplices.
-/
import Verif.Lemmas.MetricValues
import Mathlib.LinearAlgebra.Eigenspace.Minpoly

set_option linter.unusedSectionVars false

namespace Verif

open Verif.Model Verif.Spec Matrix

/-- the matrix whose eigenvalues `BorderedEigenvalue` speaks of -/
def borderedMatrix {P D : Nat} (pts : Fin P → Fin D → ℝ) : Matrix (Fin P ⊕ Unit) (Fin P ⊕ Unit) ℝ :=
  Matrix.fromBlocks (Matrix.of fun i k => 2 * ∑ c, pts i c * pts k c) (Matrix.of fun _ _ => 1)
    (Matrix.of fun _ _ => 1) 0

theorem borderedEigenvalue_finite {P D : Nat} (pts : Fin P → Fin D → ℝ) :
    {μ | BorderedEigenvalue pts μ}.Finite := by
  refine (Module.End.finite_hasEigenvalue (Matrix.toLin' (borderedMatrix pts))).subset ?_
  rintro μ ⟨y, l, hne, hrow, hlast⟩
  refine Module.End.hasEigenvalue_of_hasEigenvector (x := Sum.elim y (fun _ => l)) ⟨?_, ?_⟩
  · rw [Module.End.mem_eigenspace_iff, Matrix.toLin'_apply]
    funext i
    rcases i with i | i
    · simp only [mulVec, dotProduct, Fintype.sum_sum_type, borderedMatrix, fromBlocks_apply₁₁,
        fromBlocks_apply₁₂, of_apply, Sum.elim_inl, Sum.elim_inr, Finset.univ_unique,
        Finset.sum_singleton, one_mul, Pi.smul_apply, smul_eq_mul]
      exact hrow i
    · simp only [mulVec, dotProduct, Fintype.sum_sum_type, borderedMatrix, fromBlocks_apply₂₁,
        fromBlocks_apply₂₂, of_apply, Sum.elim_inl, Sum.elim_inr, Finset.univ_unique,
        Finset.sum_singleton, one_mul, Pi.smul_apply, smul_eq_mul, Matrix.zero_apply, zero_mul, add_zero]
      exact hlast
  · intro h0
    rcases hne with h | h
    · apply h
      funext i
      exact congrFun h0 (Sum.inl i)
    · exact h (congrFun h0 (Sum.inr ()))

/-- a tolerance that keeps all eigenvalues of a list of simplices -/
theorem exists_within {P D : Nat} (batch : List (Fin P → Fin D → ℝ)) :
    ∃ r : ℝ, ∀ ratio, r ≤ ratio → EigenvaluesWithin ratio batch := by
  set A : Set ℝ := ⋃ p ∈ {p | p ∈ batch}, {μ | BorderedEigenvalue p μ} with hA
  have hfin : A.Finite := by
    refine Set.Finite.biUnion (List.finite_toSet batch) ?_
    intro p _
    exact borderedEigenvalue_finite p
  obtain ⟨B, hB⟩ : ∃ B : ℝ, ∀ ν ∈ A, |ν| ≤ B := by
    obtain ⟨B, hB⟩ := (hfin.image (fun ν => |ν|)).bddAbove
    exact ⟨B, fun ν hν => hB ⟨ν, hν, rfl⟩⟩
  obtain ⟨b, hb, hb'⟩ : ∃ b : ℝ, 0 < b ∧ ∀ μ ∈ A, μ ≠ 0 → b ≤ |μ| := by
    obtain ⟨C, hC⟩ := (hfin.image (fun μ => |μ|⁻¹)).bddAbove
    refine ⟨(max C 1)⁻¹, by positivity, ?_⟩
    intro μ hμ h0
    have h1 : |μ|⁻¹ ≤ max C 1 := (hC ⟨μ, hμ, rfl⟩).trans (le_max_left _ _)
    have h2 : 0 < |μ| := abs_pos.2 h0
    exact inv_le_of_inv_le₀ h2 h1
  refine ⟨max B 0 / b, ?_⟩
  intro ratio hr p hp q hq μ ν hμ hν h0
  have hμA : μ ∈ A := Set.mem_biUnion (show p ∈ {p | p ∈ batch} from hp) hμ
  have hνA : ν ∈ A := Set.mem_biUnion (show q ∈ {p | p ∈ batch} from hq) hν
  have h1 := hb' μ hμA h0
  have h3 : max B 0 / b * b = max B 0 := div_mul_cancel₀ _ hb.ne'
  calc |ν| ≤ max B 0 := (hB ν hνA).trans (le_max_left _ _)
    _ = max B 0 / b * b := h3.symm
    _ ≤ ratio * |μ| := mul_le_mul hr h1 hb.le ((div_nonneg (le_max_right _ _) hb.le).trans hr)

theorem exists_tolerance {D : Nat} (V : List (Fin D → ℝ)) (E : List (List (List Nat))) (n : Nat) :
    ∃ r : ℝ, ∀ ratio, r ≤ ratio → WithinTolerance ratio V E n := by
  have hk : ∀ N, ∃ r : ℝ, ∀ ratio, r ≤ ratio → ∀ k ≤ N,
      EigenvaluesWithin ratio ((E[k]?.getD []).map (cornersOf V (k + 1))) := by
    intro N
    induction N with
    | zero =>
      obtain ⟨r, hr⟩ := exists_within ((E[0]?.getD []).map (cornersOf V (0 + 1)))
      refine ⟨r, fun ratio h k hk => ?_⟩
      obtain rfl : k = 0 := by omega
      exact hr ratio h
    | succ N ih =>
      obtain ⟨r1, h1⟩ := ih
      obtain ⟨r2, h2⟩ := exists_within ((E[N + 1]?.getD []).map (cornersOf V (N + 1 + 1)))
      refine ⟨max r1 r2, fun ratio h k hk => ?_⟩
      rcases Nat.eq_or_lt_of_le hk with rfl | hk
      · exact h2 ratio ((le_max_right _ _).trans h)
      · exact h1 ratio ((le_max_left _ _).trans h) k (by omega)
  obtain ⟨r1, h1⟩ := hk n
  obtain ⟨r2, h2⟩ := exists_within ((E[n]?.getD []).map fun l => centred (cornersOf V (n + 1) l))
  exact ⟨max r1 r2, fun ratio h => ⟨fun k hk => h1 ratio ((le_max_left _ _).trans h) k hk,
    h2 ratio ((le_max_right _ _).trans h)⟩⟩

/-- every face of a simplex that is not degenerate has a circumcenter -/
theorem exists_center {D n : Nat} {V : List (Fin D → ℝ)} {top : List (List Nat)} (hnd : NonDegenerate V n top)
    (htop : Simplices (n + 1) top) {S : Finset Nat} (hS : SpansFace top S) :
    ∃ (y : Nat → ℝ) (c : Fin D → ℝ), CenterCoords V S y c := by
  obtain ⟨h0, l, hl, hs⟩ := hS
  obtain ⟨hll, hln⟩ := htop l hl
  set e := S.toList with he
  have hen : e.Nodup := S.nodup_toList
  have hes : e.toFinset = S := S.toList_toFinset
  have hel : e.length = S.card := S.length_toList
  obtain ⟨P, hP⟩ : ∃ P, S.card = P + 1 := ⟨S.card - 1, by have := h0.card_pos; omega⟩
  have hmem : ∀ i : Fin (P + 1), e[i.val]?.getD 0 ∈ e := by
    intro i
    have hi : i.val < e.length := by omega
    rw [List.getElem?_eq_getElem hi, Option.getD_some]
    exact List.getElem_mem hi
  have hml : ∀ i : Fin (P + 1), e[i.val]?.getD 0 ∈ l := by
    intro i
    have := hmem i
    rw [← List.mem_toFinset, hes] at this
    exact List.mem_toFinset.1 (hs this)
  set σ : Fin (P + 1) → Fin (n + 1) := fun i => ⟨l.idxOf (e[i.val]?.getD 0), by
    rw [← hll]; exact List.idxOf_lt_length_of_mem (hml i)⟩ with hσ
  have hval : ∀ i, l[(σ i).val]?.getD 0 = e[i.val]?.getD 0 := by
    intro i
    have h1 : (σ i).val < l.length := by rw [hll]; exact (σ i).2
    rw [List.getElem?_eq_getElem h1, Option.getD_some]
    exact List.getElem_idxOf h1
  have hinj : Function.Injective σ := by
    intro i j hij
    have h1 := hval i
    rw [hij, hval j] at h1
    have hi : i.val < e.length := by omega
    have hj : j.val < e.length := by omega
    rw [List.getElem?_eq_getElem hi, List.getElem?_eq_getElem hj, Option.getD_some, Option.getD_some] at h1
    exact (Fin.ext ((List.Nodup.getElem_inj_iff hen).1 h1)).symm
  have haff : AffineIndependent ℝ (cornersOf V (P + 1) e) := by
    have := (hnd l hl).comp_embedding ⟨σ, hinj⟩
    refine (Eq.mp (congrArg (AffineIndependent ℝ) ?_) this)
    funext i
    simp only [Function.comp_apply, Function.Embedding.coeFn_mk, cornersOf, hval]
  obtain ⟨⟨c, ⟨⟨z, hz1, hz2⟩, hc2⟩, -⟩, -⟩ := Props.C57_exists (cornersOf V (P + 1) e) haff 0
  set y : Nat → ℝ := fun v => if h : e.idxOf v < P + 1 then z ⟨e.idxOf v, h⟩ else 0 with hy
  have hyz : ∀ i : Fin (P + 1), y (e[i.val]?.getD 0) = z i := by
    intro i
    have hi : i.val < e.length := by omega
    rw [List.getElem?_eq_getElem hi, Option.getD_some]
    simp only [hy, List.Nodup.idxOf_getElem hen _ hi]
    rw [dif_pos i.2]
  have hidx : ∀ v ∈ S, ∃ i : Fin (P + 1), e[i.val]?.getD 0 = v := by
    intro v hv
    rw [← hes, List.mem_toFinset] at hv
    obtain ⟨i, hi, rfl⟩ := List.getElem_of_mem hv
    exact ⟨⟨i, by omega⟩, by simp [List.getElem?_eq_getElem hi]⟩
  refine ⟨y, c, ?_, ?_, ?_⟩
  · rw [← hes, ← sum_fin_list e hen (hel.trans hP) y, ← hz1]
    exact Finset.sum_congr rfl fun i _ => hyz i
  · intro j
    rw [← hes, ← sum_fin_list e hen (hel.trans hP) (fun v => y v * position V v j), hz2 j]
    exact Finset.sum_congr rfl fun i _ => by rw [hyz i]; rfl
  · intro u hu v hv
    obtain ⟨i, rfl⟩ := hidx u hu
    obtain ⟨j, rfl⟩ := hidx v hv
    have := hc2 i j
    simp only [power, Pi.zero_apply, sub_zero] at this
    exact this

theorem exists_centers {D n : Nat} {V : List (Fin D → ℝ)} {top : List (List Nat)} (hnd : NonDegenerate V n top)
    (htop : Simplices (n + 1) top) : ∃ y ctr, Centers V top y ctr := by
  have : ∀ S : Finset Nat, ∃ yc : (Nat → ℝ) × (Fin D → ℝ), SpansFace top S → CenterCoords V S yc.1 yc.2 := by
    intro S
    by_cases hS : SpansFace top S
    · obtain ⟨y, c, h⟩ := exists_center hnd htop hS
      exact ⟨(y, c), fun _ => h⟩
    · exact ⟨(0, 0), fun h => absurd h hS⟩
  choose f hf using this
  exact ⟨fun S => (f S).1, fun S => (f S).2, hf⟩

end Verif
