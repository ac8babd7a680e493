/-
C57: the circumcenters of `pycomplex/geometry/euclidian.py`.
-/
import Verif.Lemmas.Circumcenter
import Verif.Lemmas.Spectral
import Mathlib.LinearAlgebra.AffineSpace.Independent
import Mathlib.LinearAlgebra.Matrix.ToLinearEquiv
import Mathlib.Tactic.FinCases

set_option linter.unusedSectionVars false

namespace Verif.Props

open Verif.Model Verif.Spec Matrix

section

variable {K : Type} [Field K] [LinearOrder K] [IsStrictOrderedRing K]

theorem mem_absInverses {n : Nat} {es : List (Eigh n K)} {a : K} :
    a ∈ absInverses es ↔ ∃ e ∈ es, ∃ j, e.v j ≠ 0 ∧ a = |1 / e.v j| := by
  unfold absInverses
  simp only [List.mem_filterMap, List.mem_flatMap, List.mem_map, List.mem_finRange, true_and]
  constructor
  · rintro ⟨v, ⟨e, he, j, rfl⟩, h⟩
    by_cases h0 : e.v j = 0
    · simp [h0] at h
    · rw [if_neg h0] at h
      exact ⟨e, he, j, h0, (Option.some.inj h).symm⟩
  · rintro ⟨e, he, j, h0, rfl⟩
    exact ⟨e.v j, ⟨e, he, j, rfl⟩, by rw [if_neg h0]⟩

/-- the eigenvalues that `eigh` returns are eigenvalues in the sense of the specification -/
theorem bordered_of_eigh {P D : Nat} (pts : Matrix (Fin P) (Fin D) K) (v : Fin (P + 1) → K)
    (w : Matrix (Fin (P + 1)) (Fin (P + 1)) K) (h : IsEigh (productMatrix pts) v w)
    (j : Fin (P + 1)) : BorderedEigenvalue (fun i => pts i) (v j) := by
  obtain ⟨h1, h2, h3, h4⟩ := productMatrix_entries pts
  obtain ⟨hc, i, hi⟩ := h.column j
  refine ⟨fun k => w k.castSucc j, w (Fin.last P) j, ?_, fun i => ?_, ?_⟩
  · revert hi
    refine Fin.lastCases (fun hi => Or.inr hi) (fun i hi => Or.inl fun h0 => hi (congrFun h0 i)) i
  · have := hc i.castSucc
    rw [sum_castSucc_split] at this
    simpa only [h1, h2, one_mul] using this
  · have := hc (Fin.last P)
    rw [sum_castSucc_split] at this
    simpa only [h3, h4, one_mul, zero_mul, add_zero] using this

theorem exists_eigenvalue {P D : Nat} (pts : Matrix (Fin (P + 1)) (Fin D) K) (v : Fin (P + 2) → K)
    (w : Matrix (Fin (P + 2)) (Fin (P + 2)) K) (h : IsEigh (productMatrix pts) v w) :
    ∃ j, v j ≠ 0 := by
  by_contra hc
  push Not at hc
  have h1 := h.decomp (Fin.castSucc 0) (Fin.last (P + 1))
  rw [(productMatrix_entries pts).2.1] at h1
  simp [hc] at h1

/-- C57: as long as the eigenvalues of the simplices of a call do not differ by more than `ratio`,
`circumcenter_barycentric` returns for every simplex that has a circumcenter (weighted if weights are
given) coordinates that add up to one and combine the corners to the circumcenter -/
theorem C57_center {P D : Nat}
    (eigh : Matrix (Fin (P + 2)) (Fin (P + 2)) K → Eigh (P + 2) K) (ratio : K)
    (hE : ∀ M, Mᵀ = M → IsEigh M (eigh M).v (eigh M).w)
    (batch : List (Matrix (Fin (P + 1)) (Fin D) K × Option (Vec K (P + 1)))) (hne : batch ≠ [])
    (hw : EigenvaluesWithin ratio (batch.map fun b => fun i => b.1 i)) :
    ∃ out, circumcenterBarycentric eigh ratio batch = .ok out ∧ out.length = batch.length ∧
      ∀ (i : Nat) b x, batch[i]? = some b → out[i]? = some x →
        ∀ c, IsCenter (fun i => b.1 i) (weightsOf b.2) c → Combines (fun i => b.1 i) x c := by
  unfold circumcenterBarycentric
  have hEb : ∀ b : Matrix (Fin (P + 1)) (Fin D) K × Option (Vec K (P + 1)),
      IsEigh (productMatrix b.1) (eigh (productMatrix b.1)).v (eigh (productMatrix b.1)).w :=
    fun b => hE _ (productMatrix_symm b.1)
  cases hm : (absInverses (batch.map fun b => eigh (productMatrix b.1))).min? with
  | none =>
    exfalso
    rw [List.min?_eq_none_iff] at hm
    obtain ⟨b, hb⟩ := List.exists_mem_of_ne_nil _ hne
    obtain ⟨j, hj⟩ := exists_eigenvalue b.1 _ _ (hEb b)
    have : |1 / (eigh (productMatrix b.1)).v j| ∈
        absInverses (batch.map fun b => eigh (productMatrix b.1)) :=
      mem_absInverses.2 ⟨_, List.mem_map_of_mem hb, j, hj, rfl⟩
    rw [hm] at this
    exact absurd this List.not_mem_nil
  | some least =>
    refine ⟨_, rfl, by rw [List.length_map], ?_⟩
    intro i b x hb hx c hc
    have hmem := List.mem_of_getElem? hb
    rw [List.getElem?_map, hb] at hx
    have hx' := (Option.some.inj hx).symm
    obtain ⟨e0, he0, j0, hj0, hl⟩ := mem_absInverses.1 (List.min?_mem hm)
    obtain ⟨b0, hb0, rfl⟩ := List.mem_map.1 he0
    -- nothing but the eigenvalues zero is dropped
    have hkeep : ∀ j, (eigh (productMatrix b.1)).v j ≠ 0 →
        ¬ |1 / (eigh (productMatrix b.1)).v j| > least * ratio := by
      intro j hj
      have h1 := hw _ (List.mem_map_of_mem hmem) _ (List.mem_map_of_mem hb0) _ _
        (bordered_of_eigh b.1 _ _ (hEb b) j) (bordered_of_eigh b0.1 _ _ (hEb b0) j0) hj
      rw [hl, not_lt, abs_div, abs_div, abs_one]
      have p1 : 0 < |(eigh (productMatrix b.1)).v j| := abs_pos.2 hj
      have p2 : 0 < |(eigh (productMatrix b0.1)).v j0| := abs_pos.2 hj0
      rw [one_div_mul_eq_div, div_le_div_iff₀ p1 p2]
      linarith
    obtain ⟨⟨y, hy⟩, hp⟩ := hc
    obtain ⟨z, hz, -⟩ := solution_of_center b.1 b.2 c y hy hp
    have hsol := (hEb b).solve
      (fun j => if (eigh (productMatrix b.1)).v j = 0 ∨
        |1 / (eigh (productMatrix b.1)).v j| > least * ratio then 0
        else 1 / (eigh (productMatrix b.1)).v j)
      (fun j => ⟨fun h0 => if_pos (Or.inl h0),
        fun h0 => if_neg (not_or.2 ⟨h0, hkeep j h0⟩)⟩) z _ hz
    obtain ⟨hcomb, hcen⟩ := center_of_solution b.1 b.2 _ hsol
    have := center_unique _ _ _ _ hcen ⟨⟨y, hy⟩, hp⟩
    rw [← this, hx']
    exact hcomb

/-- C57: points in general position have a circumcenter, for all weights, and its coordinates are
unique; there is never more than one -/
theorem C57_exists {P D : Nat} (pts : Fin (P + 1) → Fin D → K) (h : AffineIndependent K pts)
    (w : Fin (P + 1) → K) :
    (∃ c, IsCenter pts w c ∧ ∀ d, IsCenter pts w d → d = c) ∧
      ∀ y z c, Combines pts y c → Combines pts z c → y = z := by
  rw [affineIndependent_iff] at h
  have hzero : ∀ u : Fin (P + 1) → K, ∑ i, u i = 0 → (∀ j, ∑ i, u i * pts i j = 0) → u = 0 := by
    intro u hu1 hu2
    funext i
    refine h Finset.univ u hu1 ?_ i (Finset.mem_univ i)
    funext j
    simpa using hu2 j
  constructor
  · have hdet : (productMatrix (Matrix.of pts)).det ≠ 0 := by
      intro h0
      obtain ⟨z, hz0, hz⟩ := exists_mulVec_eq_zero_iff.2 h0
      apply hz0
      obtain ⟨h1, h2, h3, h4⟩ := productMatrix_entries (Matrix.of pts)
      have hl : ∑ k : Fin (P + 1), z k.castSucc = 0 := by
        have := congrFun hz (Fin.last (P + 1))
        rw [mulVec, dotProduct, sum_castSucc_split] at this
        simpa only [h3, h4, one_mul, zero_mul, add_zero, Pi.zero_apply] using this
      have hi : ∀ i, 2 * ∑ j, pts i j * (∑ k : Fin (P + 1), z k.castSucc * pts k j) +
          z (Fin.last (P + 1)) = 0 := by
        intro i
        have := congrFun hz i.castSucc
        rw [mulVec, dotProduct, sum_castSucc_split] at this
        simp only [h1, h2, one_mul, Pi.zero_apply] at this
        have e := dot_combination (Matrix.of pts) (fun k => z k.castSucc)
          (fun j => ∑ k : Fin (P + 1), z k.castSucc * pts k j) (fun j => rfl)
        have := (congrArg (· + z (Fin.last (P + 1))) (e (pts i))).symm.trans this
        exact this
      set Y : Fin D → K := fun j => ∑ k : Fin (P + 1), z k.castSucc * pts k j with hY
      have hYY : ∑ j, Y j * Y j = 0 := by
        have e : ∑ j, Y j * Y j = ∑ k : Fin (P + 1), z k.castSucc * ∑ j, pts k j * Y j := by
          simp only [Finset.mul_sum]
          rw [Finset.sum_comm]
          refine Finset.sum_congr rfl fun j _ => ?_
          conv_lhs => rw [hY]
          simp only [Finset.sum_mul]
          exact Finset.sum_congr rfl fun k _ => by ring
        have e2 : ∀ k : Fin (P + 1), ∑ j, pts k j * Y j = - z (Fin.last (P + 1)) / 2 := by
          intro k
          have := hi k
          rw [eq_div_iff two_ne_zero]
          linarith
        rw [e]
        simp only [e2]
        rw [← Finset.sum_mul, hl, zero_mul]
      have hY0 : ∀ j, Y j = 0 := by
        intro j
        have := (Finset.sum_eq_zero_iff_of_nonneg fun j _ => mul_self_nonneg (Y j)).1 hYY j
          (Finset.mem_univ j)
        exact mul_self_eq_zero.1 this
      have hu := hzero (fun k => z k.castSucc) hl hY0
      have hlast : z (Fin.last (P + 1)) = 0 := by
        have := hi 0
        have e : ∑ j, pts 0 j * Y j = 0 := Finset.sum_eq_zero fun j _ => by rw [hY0, mul_zero]
        have this : 2 * ∑ j, pts 0 j * Y j + z (Fin.last (P + 1)) = 0 := this
        rw [e, mul_zero, zero_add] at this
        exact this
      funext i
      refine Fin.lastCases hlast (fun i => congrFun hu i) i
    have hunit := (isUnit_iff_ne_zero.2 hdet)
    have hs : productMatrix (Matrix.of pts) *ᵥ
        ((productMatrix (Matrix.of pts))⁻¹ *ᵥ productRhs (Matrix.of pts) (some w)) =
        productRhs (Matrix.of pts) (some w) := by
      rw [mulVec_mulVec, mul_nonsing_inv _ hunit, one_mulVec]
    have := (center_of_solution (Matrix.of pts) (some w) _ hs).2
    exact ⟨_, this, fun d hd => center_unique _ _ _ _ hd this⟩
  · intro y z c hy hz
    have := hzero (fun i => y i - z i) (by rw [Finset.sum_sub_distrib, hy.1, hz.1, sub_self])
      (fun j => by
        simp only [sub_mul, Finset.sum_sub_distrib]
        rw [← hy.2, ← hz.2, sub_self])
    funext i
    exact sub_eq_zero.1 (congrFun this i)

theorem power_translate {D : Nat} (x p t : Fin D → K) (w : K) :
    power (fun j => x j - t j) (fun j => p j - t j) w = power x p w := by
  unfold power
  congr 1
  exact Finset.sum_congr rfl fun j _ => by ring

/-- C57: under the same condition on the eigenvalues, for the points moved to have their mean at the
origin, `circumcenter` returns the circumcenter of every simplex that has one -/
theorem C57_circumcenter {P D : Nat}
    (eigh : Matrix (Fin (P + 2)) (Fin (P + 2)) K → Eigh (P + 2) K) (ratio : K)
    (hE : ∀ M, Mᵀ = M → IsEigh M (eigh M).v (eigh M).w)
    (batch : List (Matrix (Fin (P + 1)) (Fin D) K)) (hne : batch ≠ [])
    (hw : EigenvaluesWithin ratio (batch.map fun b => centred fun i => b i)) :
    ∃ out, circumcenter eigh ratio batch = .ok out ∧ out.length = batch.length ∧
      ∀ (i : Nat) pts x, batch[i]? = some pts → out[i]? = some x →
        ∀ c, IsCenter (fun i => pts i) 0 c → x = c := by
  set cen : Matrix (Fin (P + 1)) (Fin D) K → Matrix (Fin (P + 1)) (Fin D) K :=
    fun pts => Matrix.of fun i j => pts i j - (∑ i, pts i j) / ((P + 1 : ℕ) : K) with hcen
  set inp : List (Matrix (Fin (P + 1)) (Fin D) K × Option (Vec K (P + 1))) :=
    (batch.map cen).map fun pts => (pts, none) with hinp
  have hw' : EigenvaluesWithin ratio (inp.map fun b => fun i => b.1 i) := by
    have : (inp.map fun b => fun i => b.1 i) = batch.map fun b => centred fun i => b i := by
      rw [hinp, List.map_map, List.map_map]
      rfl
    rw [this]
    exact hw
  obtain ⟨bary, hb, hlen, hprop⟩ := C57_center eigh ratio hE inp
    (by rw [hinp]; simpa using hne) hw'
  refine ⟨List.zipWith (fun (pts : Matrix (Fin (P + 1)) (Fin D) K × Matrix (Fin (P + 1)) (Fin D) K)
    b j => ∑ i, pts.2 i j * b i + (∑ i, pts.1 i j) / ((P + 1 : ℕ) : K))
    (batch.zip (batch.map cen)) bary, ?_, ?_, ?_⟩
  · show (circumcenterBarycentric eigh ratio inp >>= fun bary => _) = _
    rw [hb]
    rfl
  · simp [hlen, hinp]
  · intro i pts x hpts hx c hc
    rw [List.getElem?_zipWith, List.zip, List.getElem?_zipWith, List.getElem?_map, hpts] at hx
    cases hbi : bary[i]? with
    | none => rw [hbi] at hx; simp at hx
    | some b =>
      rw [hbi] at hx
      have hx' := (Option.some.inj hx).symm
      have hin : inp[i]? = some (cen pts, none) := by
        rw [hinp, List.getElem?_map, List.getElem?_map, hpts]
        rfl
      set t : Fin D → K := fun j => (∑ i, pts i j) / ((P + 1 : ℕ) : K) with ht
      have hcc : IsCenter (fun i => cen pts i) (weightsOf none) (fun j => c j - t j) := by
        obtain ⟨⟨y, hy1, hy2⟩, hp⟩ := hc
        refine ⟨⟨y, hy1, fun j => ?_⟩, fun a b => ?_⟩
        · show c j - t j = ∑ i, y i * (pts i j - t j)
          simp only [mul_sub, Finset.sum_sub_distrib, ← Finset.sum_mul]
          rw [hy1, one_mul, ← hy2]
        · have := hp a b
          rw [← power_translate c (pts a) t, ← power_translate c (pts b) t] at this
          exact this
      obtain ⟨h1, h2⟩ := hprop i (cen pts, none) b hin hbi _ hcc
      rw [hx']
      funext j
      have := h2 j
      show ∑ i, cen pts i j * b i + t j = c j
      have e : ∑ i, cen pts i j * b i = ∑ i, b i * cen pts i j :=
        Finset.sum_congr rfl fun i _ => mul_comm _ _
      rw [e, ← this]
      ring

theorem distanceMatrix_entries {P D : Nat} (pts : Matrix (Fin P) (Fin D) K)
    (w : Option (Vec K P)) :
    (∀ i k, distanceMatrix pts w i.castSucc k.castSucc =
      (∑ c, pts i c * pts i c - weightsOf w i) + (∑ c, pts k c * pts k c - weightsOf w k) -
        2 * ∑ c, pts i c * pts k c) ∧
    (∀ i : Fin P, distanceMatrix pts w i.castSucc (Fin.last P) = 1) ∧
    (∀ k : Fin P, distanceMatrix pts w (Fin.last P) k.castSucc = 1) ∧
    distanceMatrix pts w (Fin.last P) (Fin.last P) = 0 := by
  refine ⟨fun i k => ?_, fun i => ?_, fun k => ?_, ?_⟩
  · have e : ∑ c, (pts i c - pts k c) * (pts i c - pts k c) =
        ∑ c, pts i c * pts i c + ∑ c, pts k c * pts k c - 2 * ∑ c, pts i c * pts k c := by
      simp only [Finset.mul_sum, ← Finset.sum_add_distrib, ← Finset.sum_sub_distrib]
      exact Finset.sum_congr rfl fun c _ => by ring
    cases w with
    | none =>
      simp only [distanceMatrix, of_apply, Fin.val_castSucc, Fin.is_lt, dite_true, dot, Fin.eta,
        weightsOf, Pi.zero_apply, e]
      ring
    | some w =>
      simp only [distanceMatrix, of_apply, Fin.val_castSucc, Fin.is_lt, dite_true, dot, Fin.eta,
        weightsOf, e]
      ring
  · simp [distanceMatrix]
  · simp [distanceMatrix]
  · simp [distanceMatrix]

theorem distanceMatrix_symm {P D : Nat} (pts : Matrix (Fin P) (Fin D) K) (w : Option (Vec K P)) :
    (distanceMatrix pts w)ᵀ = distanceMatrix pts w := by
  obtain ⟨h1, h2, h3, h4⟩ := distanceMatrix_entries pts w
  ext i k
  rw [transpose_apply]
  refine Fin.lastCases ?_ (fun i => ?_) i <;> refine Fin.lastCases ?_ (fun k => ?_) k
  · rfl
  · rw [h2, h3]
  · rw [h2, h3]
  · rw [h1, h1]
    have : ∑ c, pts k c * pts i c = ∑ c, pts i c * pts k c :=
      Finset.sum_congr rfl fun c _ => mul_comm _ _
    rw [this]
    ring

/-- C57: for points in general position `circumcenter_barycentric_weighted` returns the coordinates
of the circumcenter, whatever the size of the simplex: its matrix has no eigenvalue zero -/
theorem C57_weighted {P D : Nat}
    (eigh : Matrix (Fin (P + 2)) (Fin (P + 2)) K → Eigh (P + 2) K)
    (hE : ∀ M, Mᵀ = M → IsEigh M (eigh M).v (eigh M).w)
    (pts : Matrix (Fin (P + 1)) (Fin D) K) (w : Option (Vec K (P + 1)))
    (h : AffineIndependent K (fun i => pts i)) :
    (∀ j, (eigh (distanceMatrix pts w)).v j ≠ 0) ∧
    ∀ c, IsCenter (fun i => pts i) (weightsOf w) c →
      Combines (fun i => pts i) (circumcenterBarycentricWeighted eigh pts w) c := by
  obtain ⟨h1, h2, h3, h4⟩ := distanceMatrix_entries pts w
  have he := hE _ (distanceMatrix_symm pts w)
  constructor
  · intro j hj
    obtain ⟨hcol, i0, hi0⟩ := he.column j
    simp only [hj, zero_mul] at hcol
    apply hi0
    have hl : ∑ k : Fin (P + 1), (eigh (distanceMatrix pts w)).w k.castSucc j = 0 := by
      have := hcol (Fin.last (P + 1))
      rw [sum_castSucc_split] at this
      simpa only [h3, h4, one_mul, zero_mul, add_zero] using this
    set z : Fin (P + 1) → K := fun k => (eigh (distanceMatrix pts w)).w k.castSucc j with hz
    set q : Fin (P + 1) → K := fun k => ∑ c, pts k c * pts k c - weightsOf w k with hq
    set lam := (eigh (distanceMatrix pts w)).w (Fin.last (P + 1)) j with hlam
    set Y : Fin D → K := fun c => ∑ k, z k * pts k c with hY
    have hi : ∀ i, ∑ k, q k * z k - 2 * ∑ c, pts i c * Y c + lam = 0 := by
      intro i
      have := hcol i.castSucc
      rw [sum_castSucc_split] at this
      simp only [h1, h2, one_mul] at this
      have e : ∑ k : Fin (P + 1), ((q i + q k) - 2 * ∑ c, pts i c * pts k c) * z k =
          q i * ∑ k, z k + ∑ k, q k * z k - 2 * ∑ c, pts i c * Y c := by
        rw [← dot_combination pts z Y (fun j => rfl), Finset.mul_sum, ← Finset.sum_add_distrib,
          ← Finset.sum_sub_distrib]
        exact Finset.sum_congr rfl fun k _ => by ring
      rw [← this]
      rw [hl, mul_zero, zero_add] at e
      rw [← e]
    have hYY : ∑ c, Y c * Y c = 0 := by
      have e : ∑ c, Y c * Y c = ∑ k, z k * ∑ c, pts k c * Y c := by
        simp only [Finset.mul_sum]
        rw [Finset.sum_comm]
        refine Finset.sum_congr rfl fun j _ => ?_
        conv_lhs => rw [hY]
        simp only [Finset.sum_mul]
        exact Finset.sum_congr rfl fun k _ => by ring
      have e2 : ∀ k, ∑ c, pts k c * Y c = (∑ k, q k * z k + lam) / 2 := by
        intro k
        have := hi k
        rw [eq_div_iff two_ne_zero]
        linarith
      rw [e]
      simp only [e2]
      rw [← Finset.sum_mul, hl, zero_mul]
    have hY0 : ∀ c, Y c = 0 := fun c => mul_self_eq_zero.1
      ((Finset.sum_eq_zero_iff_of_nonneg fun c _ => mul_self_nonneg (Y c)).1 hYY c
        (Finset.mem_univ c))
    rw [affineIndependent_iff] at h
    have hz0 : ∀ k, z k = 0 := fun k => h Finset.univ z hl
      (by funext c; simpa using hY0 c) k (Finset.mem_univ k)
    have hlast : lam = 0 := by
      have := hi 0
      simpa [hz0, hY0] using this
    revert hi0
    exact fun _ => Fin.lastCases hlast (fun i => hz0 i) i0
  · rintro c ⟨⟨y, hy⟩, hp⟩
    set q : Fin (P + 1) → K := fun k => ∑ c, pts k c * pts k c - weightsOf w k with hq
    have row : ∀ (x : Vec K (P + 2)) (i : Fin (P + 1)),
        (distanceMatrix pts w *ᵥ x) i.castSucc = q i * ∑ k : Fin (P + 1), x k.castSucc +
          ∑ k : Fin (P + 1), q k * x k.castSucc -
          2 * ∑ c, pts i c * (∑ k : Fin (P + 1), x k.castSucc * pts k c) + x (Fin.last (P + 1)) := by
      intro x i
      rw [mulVec, dotProduct, sum_castSucc_split]
      simp only [h1, h2, one_mul]
      congr 1
      rw [← dot_combination pts (fun k => x k.castSucc) _ (fun j => rfl), Finset.mul_sum,
        ← Finset.sum_add_distrib, ← Finset.sum_sub_distrib]
      exact Finset.sum_congr rfl fun k _ => by ring
    have last : ∀ x : Vec K (P + 2), (distanceMatrix pts w *ᵥ x) (Fin.last (P + 1)) =
        ∑ k : Fin (P + 1), x k.castSucc := by
      intro x
      rw [mulVec, dotProduct, sum_castSucc_split]
      simp only [h3, h4, one_mul, zero_mul, add_zero]
    set b : Vec K (P + 2) := fun i => if i.val < P + 1 then 0 else 1 with hb
    have hb1 : ∀ i : Fin (P + 1), b i.castSucc = 0 := fun i => by
      simp only [hb, Fin.val_castSucc, i.isLt, if_true]
    have hb2 : b (Fin.last (P + 1)) = 1 := by simp [hb]
    -- the center gives a solution
    have hz : distanceMatrix pts w *ᵥ (Fin.snoc (α := fun _ => K) y
        (∑ c', c c' * c c' - power c (pts 0) (weightsOf w 0) - ∑ k, q k * y k)) = b := by
      funext i
      refine Fin.lastCases ?_ (fun i => ?_) i
      · rw [last, hb2]
        simpa using hy.1
      · rw [row, hb1]
        simp only [Fin.snoc_castSucc, Fin.snoc_last]
        rw [hy.1]
        have e : ∑ c', pts i c' * (∑ k, y k * pts k c') = ∑ c', pts i c' * c c' :=
          Finset.sum_congr rfl fun c' _ => by rw [hy.2]
        rw [e, hp 0 i, power_expand]
        ring
    have hsol := he.solve (fun j => 1 / (eigh (distanceMatrix pts w)).v j)
      (fun j => ⟨fun h0 => by rw [h0, div_zero], fun _ => rfl⟩) _ b hz
    set x : Vec K (P + 2) := (Matrix.of fun i k => ∑ j, (eigh (distanceMatrix pts w)).w i j *
      (1 / (eigh (distanceMatrix pts w)).v j) * (eigh (distanceMatrix pts w)).w k j) *ᵥ b with hx
    have hbary : circumcenterBarycentricWeighted eigh pts w = fun i => x i.castSucc := rfl
    have hsum : ∑ k : Fin (P + 1), x k.castSucc = 1 := by
      rw [← last, hsol, hb2]
    have hcen : IsCenter (fun i => pts i) (weightsOf w)
        (fun j => ∑ i : Fin (P + 1), x i.castSucc * pts i j) := by
      refine ⟨⟨fun i => x i.castSucc, hsum, fun j => rfl⟩, fun i j => ?_⟩
      have key : ∀ i, power (fun j => ∑ i : Fin (P + 1), x i.castSucc * pts i j) (pts i)
          (weightsOf w i) = (∑ c, (∑ i : Fin (P + 1), x i.castSucc * pts i c) *
            (∑ i : Fin (P + 1), x i.castSucc * pts i c)) -
            ∑ k : Fin (P + 1), q k * x k.castSucc - x (Fin.last (P + 1)) := by
        intro i
        have hr := row x i
        rw [hsol, hb1, hsum] at hr
        rw [power_expand]
        have hqi : q i = ∑ c, pts i c * pts i c - weightsOf w i := rfl
        linear_combination -hr + hqi
      exact (key i).trans (key j).symm
    have := center_unique _ _ _ _ hcen ⟨⟨y, hy⟩, hp⟩
    rw [hbary, ← this]
    exact ⟨hsum, fun j => rfl⟩

/-! ### What the tolerance does to the coordinates -/

theorem least_spec {n : Nat} {es : List (Eigh n K)} {least : K}
    (h : (absInverses es).min? = some least) :
    (∀ e ∈ es, ∀ j, e.v j ≠ 0 → least ≤ |1 / e.v j|) ∧
      ∃ e ∈ es, ∃ j, e.v j ≠ 0 ∧ least = |1 / e.v j| := by
  rw [List.min?_eq_some_iff] at h
  exact ⟨fun e he j hj => h.2 _ (mem_absInverses.2 ⟨e, he, j, hj, rfl⟩), mem_absInverses.1 h.1⟩

theorem least_some {P D : Nat}
    (eigh : Matrix (Fin (P + 2)) (Fin (P + 2)) K → Eigh (P + 2) K)
    (hE : ∀ M, Mᵀ = M → IsEigh M (eigh M).v (eigh M).w)
    (batch : List (Matrix (Fin (P + 1)) (Fin D) K × Option (Vec K (P + 1)))) (hne : batch ≠ []) :
    ∃ least, (absInverses (batch.map fun b => eigh (productMatrix b.1))).min? = some least := by
  cases hm : (absInverses (batch.map fun b => eigh (productMatrix b.1))).min? with
  | some least => exact ⟨least, rfl⟩
  | none =>
    exfalso
    rw [List.min?_eq_none_iff] at hm
    obtain ⟨b, hb⟩ := List.exists_mem_of_ne_nil _ hne
    obtain ⟨j, hj⟩ := exists_eigenvalue b.1 _ _ (hE _ (productMatrix_symm b.1))
    have : |1 / (eigh (productMatrix b.1)).v j| ∈
        absInverses (batch.map fun b => eigh (productMatrix b.1)) :=
      mem_absInverses.2 ⟨_, List.mem_map_of_mem hb, j, hj, rfl⟩
    rw [hm] at this
    exact absurd this List.not_mem_nil

/-- the coordinates returned for one simplex, in terms of the eigenvectors that are kept -/
theorem barycentric_entry {P D : Nat}
    (eigh : Matrix (Fin (P + 2)) (Fin (P + 2)) K → Eigh (P + 2) K) (ratio least : K)
    (batch : List (Matrix (Fin (P + 1)) (Fin D) K × Option (Vec K (P + 1))))
    (hl : (absInverses (batch.map fun b => eigh (productMatrix b.1))).min? = some least) :
    circumcenterBarycentric eigh ratio batch = .ok (batch.map fun b i =>
      ∑ j, (eigh (productMatrix b.1)).w i.castSucc j *
        (if (eigh (productMatrix b.1)).v j = 0 ∨
          |1 / (eigh (productMatrix b.1)).v j| > least * ratio then 0
          else 1 / (eigh (productMatrix b.1)).v j) *
        ∑ k, (eigh (productMatrix b.1)).w k j * productRhs b.1 b.2 k) := by
  unfold circumcenterBarycentric
  rw [hl]
  simp only [of_apply]
  congr 1
  refine List.map_congr_left fun b _ => ?_
  funext i
  simp only [Finset.mul_sum, Finset.sum_mul]
  rw [Finset.sum_comm]
  exact Finset.sum_congr rfl fun j _ => Finset.sum_congr rfl fun k _ => by ring

/-- one point: the two eigenvalues multiply to `-1` and add up to twice the square of the distance
from the origin, and each eigenvector contributes one half -/
theorem point_eigen {D : Nat} (p : Matrix (Fin 1) (Fin D) K) (v : Fin 2 → K)
    (w : Matrix (Fin 2) (Fin 2) K) (h : IsEigh (productMatrix p) v w) :
    (∀ j, v j * v j = 2 * (∑ c, p 0 c * p 0 c) * v j + 1) ∧
      v 0 + v 1 = 2 * ∑ c, p 0 c * p 0 c ∧
      ∀ j, w 0 j * (1 / v j) * (w 0 j * (∑ c, p 0 c * p 0 c) + w 1 j) = 1 / 2 := by
  obtain ⟨h1, h2, h3, h4⟩ := productMatrix_entries p
  set s := ∑ c, p 0 c * p 0 c with hs
  have a00 : productMatrix p 0 0 = 2 * s := h1 0 0
  have a01 : productMatrix p 0 1 = 1 := h2 0
  have a10 : productMatrix p 1 0 = 1 := h3 0
  have a11 : productMatrix p 1 1 = 0 := h4
  have col : ∀ j, 2 * s * w 0 j + w 1 j = v j * w 0 j ∧ w 0 j = v j * w 1 j := by
    intro j
    have hc := (h.column j).1
    constructor
    · have := hc 0
      rw [Fin.sum_univ_two, a00, a01, one_mul] at this
      exact this
    · have := hc 1
      rw [Fin.sum_univ_two, a10, a11, one_mul, zero_mul, add_zero] at this
      exact this
  have unit : ∀ j, w 0 j * w 0 j + w 1 j * w 1 j = 1 := by
    intro j
    have := h.cols j j
    rw [Fin.sum_univ_two, if_pos rfl] at this
    exact this
  have w1 : ∀ j, w 1 j ≠ 0 := by
    intro j h0
    have := (col j).2
    rw [h0, mul_zero] at this
    have u := unit j
    rw [h0, this] at u
    simp at u
  have root : ∀ j, v j * v j = 2 * s * v j + 1 := by
    intro j
    obtain ⟨c1, c2⟩ := col j
    have : w 1 j * (v j * v j - (2 * s * v j + 1)) = 0 := by
      rw [c2] at c1
      linear_combination -c1
    have := (mul_eq_zero.1 this).resolve_left (w1 j)
    linear_combination this
  have vne : ∀ j, v j ≠ 0 := by
    intro j h0
    have := root j
    rw [h0] at this
    simp at this
  refine ⟨root, ?_, fun j => ?_⟩
  · have d00 := h.decomp 0 0
    have d11 := h.decomp 1 1
    rw [Fin.sum_univ_two, a00] at d00
    rw [Fin.sum_univ_two, a11] at d11
    have u0 := unit 0
    have u1 := unit 1
    linear_combination -d00 - d11 - v 0 * u0 - v 1 * u1
  · obtain ⟨c1, c2⟩ := col j
    have u := unit j
    have r := root j
    have e : w 0 j * (1 / v j) = w 1 j := by
      rw [c2]
      field_simp [vne j]
    rw [e]
    rw [c2] at u
    have : w 1 j * (w 0 j * s + w 1 j) = w 1 j * w 1 j * (v j * s + 1) := by
      rw [c2]
      ring
    rw [this]
    linear_combination (1 / 2 : K) * u - (1 / 2) * w 1 j * w 1 j * r

/-- the larger eigenvalue of a point -/
theorem point_large {D : Nat} (p : Matrix (Fin 1) (Fin D) K) (v : Fin 2 → K)
    (w : Matrix (Fin 2) (Fin 2) K) (h : IsEigh (productMatrix p) v w) :
    ∃ j k : Fin 2, j ≠ k ∧ 0 < v j ∧ 2 * (∑ c, p 0 c * p 0 c) < v j ∧ v j * v k = -1 := by
  obtain ⟨root, hsum, -⟩ := point_eigen p v w h
  have hprod : v 0 * v 1 = -1 := by
    have := root 0
    rw [← hsum] at this
    linear_combination -this
  have hs : 0 ≤ ∑ c, p 0 c * p 0 c := Finset.sum_nonneg fun c _ => mul_self_nonneg _
  rcases lt_trichotomy (v 0) 0 with h0 | h0 | h0
  · refine ⟨1, 0, by decide, ?_, ?_, by linear_combination hprod⟩
    · by_contra hc
      nlinarith
    · linarith
  · rw [h0] at hprod
    simp at hprod
  · refine ⟨0, 1, by decide, h0, ?_, hprod⟩
    have : v 1 < 0 := by
      by_contra hc
      nlinarith
    linarith

theorem productRhs_point {D : Nat} (p : Matrix (Fin 1) (Fin D) K) (w : Matrix (Fin 2) (Fin 2) K)
    (j : Fin 2) :
    ∑ k, w k j * productRhs p none k = w 0 j * (∑ c, p 0 c * p 0 c) + w 1 j := by
  rw [Fin.sum_univ_two]
  have e0 : productRhs p none 0 = ∑ c, p 0 c * p 0 c := by
    simp [productRhs, dot]
  have e1 : productRhs p none 1 = 1 := by
    simp [productRhs]
  rw [e0, e1, mul_one]

theorem abs_one_div {a : K} : |1 / a| = 1 / |a| := by rw [abs_div, abs_one]

/-- C57, negation: a vertex whose squared distance from the origin is at least half a thousand is not
its own circumcenter: its smaller eigenvalue is taken for zero, its coordinate is one half, and
`primal_position` puts it halfway to the origin -/
theorem C57_far {D : Nat} (eigh : Matrix (Fin 2) (Fin 2) K → Eigh 2 K)
    (hE : ∀ M, Mᵀ = M → IsEigh M (eigh M).v (eigh M).w) (p : Matrix (Fin 1) (Fin D) K)
    (hp : 500 ≤ ∑ c, p 0 c * p 0 c) :
    circumcenterBarycentric eigh (10 ^ 6) [(p, none)] = .ok [fun _ => 1 / 2] ∧
      primalPosition eigh (10 ^ 6) [(p, none)] = .ok [fun j => p 0 j / 2] := by
  have hA := hE _ (productMatrix_symm p)
  obtain ⟨least, hl⟩ := least_some eigh hE [(p, none)] (by simp)
  obtain ⟨hmin, e0, he0, j0, hj0, hleast⟩ := least_spec hl
  simp only [List.map_cons, List.map_nil, List.mem_singleton] at he0
  subst he0
  set v := (eigh (productMatrix p)).v with hv
  set w := (eigh (productMatrix p)).w with hw
  obtain ⟨root, hsum, half⟩ := point_eigen p v w hA
  obtain ⟨j, k, hjk, hpos, hbig, hprod⟩ := point_large p v w hA
  have hvj : 1000 < v j := by linarith
  have hvk : v k = -(1 / v j) := by
    field_simp
    linear_combination hprod
  have hk0 : v k ≠ 0 := by
    intro h0
    rw [h0] at hprod
    simp at hprod
  have ak : |1 / v k| = v j := by
    rw [hvk, abs_one_div, abs_neg, abs_one_div, one_div_one_div, abs_of_pos hpos]
  have aj : |1 / v j| = 1 / v j := by rw [abs_one_div, abs_of_pos hpos]
  have hle : least ≤ 1 / v j := by
    rw [← aj]
    exact hmin _ (by simp) j hpos.ne'
  have hall : ∀ i, i = j ∨ i = k := by
    intro i
    revert hjk
    fin_cases i <;> fin_cases j <;> fin_cases k <;> simp
  have hge : 1 / v j ≤ least := by
    rw [hleast]
    show 1 / v j ≤ |1 / v j0|
    rcases hall j0 with rfl | rfl
    · rw [aj]
    · rw [ak, div_le_iff₀ hpos]
      nlinarith
  have hdrop : |1 / v k| > least * 10 ^ 6 := by
    rw [ak]
    refine lt_of_le_of_lt (mul_le_mul_of_nonneg_right hle (by norm_num)) ?_
    rw [one_div_mul_eq_div, div_lt_iff₀ hpos]
    nlinarith
  have hkeep : ¬ (v j = 0 ∨ |1 / v j| > least * 10 ^ 6) := by
    rintro (h0 | h0)
    · exact hpos.ne' h0
    · rw [aj] at h0
      have : (0 : K) < least := lt_of_lt_of_le (by positivity) hge
      nlinarith
  have hbary : circumcenterBarycentric eigh (10 ^ 6) [(p, none)] = .ok [fun _ => 1 / 2] := by
    rw [barycentric_entry eigh (10 ^ 6) least _ hl]
    simp only [List.map_cons, List.map_nil]
    congr 2
    funext i
    have hi : i = 0 := Fin.ext (by omega)
    subst hi
    have e : ∀ f : Fin 2 → K, ∑ i, f i = f j + f k := by
      intro f
      rw [Fin.sum_univ_two]
      revert hjk
      fin_cases j <;> fin_cases k <;> simp [add_comm]
    rw [e]
    have hj := half j
    rw [if_neg hkeep, if_pos (Or.inr hdrop), productRhs_point]
    rw [mul_zero, zero_mul, add_zero]
    exact hj
  refine ⟨hbary, ?_⟩
  unfold primalPosition
  rw [hbary]
  show Except.ok _ = _
  congr 1
  simp only [List.zipWith_cons_cons, List.zipWith_nil_left]
  congr 1
  funext j
  rw [Fin.sum_univ_one]
  ring

/-- C57, negation: what is returned for a simplex depends on the others of the call.  A vertex at the
origin has the coordinate one, but beside a vertex that is far enough away it has the coordinate
zero. -/
theorem C57_batch {D : Nat} (eigh : Matrix (Fin 2) (Fin 2) K → Eigh 2 K)
    (hE : ∀ M, Mᵀ = M → IsEigh M (eigh M).v (eigh M).w) (p : Matrix (Fin 1) (Fin D) K)
    (hp : 500000 ≤ ∑ c, p 0 c * p 0 c) :
    circumcenterBarycentric (D := D) eigh (10 ^ 6) [(0, none)] = .ok [fun _ => 1] ∧
      ∃ x, circumcenterBarycentric eigh (10 ^ 6) [(p, none), (0, none)] = .ok [x, fun _ => 0] := by
  have hA := hE _ (productMatrix_symm p)
  have hB := hE _ (productMatrix_symm (0 : Matrix (Fin 1) (Fin D) K))
  set v := (eigh (productMatrix p)).v with hv
  set v' := (eigh (productMatrix (0 : Matrix (Fin 1) (Fin D) K))).v with hv'
  obtain ⟨root, hsum, half⟩ := point_eigen 0 _ _ hB
  have hone : ∀ j, |1 / v' j| = 1 ∧ v' j ≠ 0 := by
    intro j
    have := root j
    simp at this
    have h1 : |v' j| = 1 := by
      have : |v' j| * |v' j| = 1 := by rw [abs_mul_abs_self]; exact this
      nlinarith [abs_nonneg (v' j)]
    refine ⟨by rw [abs_one_div, h1, one_div_one], fun h0 => ?_⟩
    rw [h0] at h1
    simp at h1
  constructor
  · obtain ⟨least, hl⟩ := least_some eigh hE [((0 : Matrix (Fin 1) (Fin D) K), none)] (by simp)
    obtain ⟨hmin, e0, he0, j0, hj0, hleast⟩ := least_spec hl
    simp only [List.map_cons, List.map_nil, List.mem_singleton] at he0
    subst he0
    have hleast : least = 1 := hleast.trans (hone j0).1
    rw [barycentric_entry eigh (10 ^ 6) least _ hl]
    simp only [List.map_cons, List.map_nil]
    congr 2
    funext i
    have hi : i = 0 := Fin.ext (by omega)
    subst hi
    have hk : ∀ j, ¬ (v' j = 0 ∨ |1 / v' j| > least * 10 ^ 6) := by
      rintro j (h0 | h0)
      · exact (hone j).2 h0
      · rw [(hone j).1, hleast] at h0
        norm_num at h0
    rw [Fin.sum_univ_two, if_neg (hk 0), if_neg (hk 1), productRhs_point, productRhs_point]
    have h0 := half 0
    have h1 := half 1
    have : (1 / 2 : K) + 1 / 2 = 1 := by norm_num
    exact (congrArg₂ (· + ·) h0 h1).trans this
  · obtain ⟨least, hl⟩ := least_some eigh hE [(p, none), ((0 : Matrix (Fin 1) (Fin D) K), none)]
      (by simp)
    obtain ⟨hmin, -⟩ := least_spec hl
    obtain ⟨j, k, hjk, hpos, hbig, hprod⟩ := point_large p v _ hA
    have hle : least ≤ 1 / v j := by
      have := hmin _ (List.mem_cons_self) j hpos.ne'
      rwa [abs_one_div, abs_of_pos hpos] at this
    have hvj : 1000000 < v j := by linarith
    have hd : ∀ j, |1 / v' j| > least * 10 ^ 6 := by
      intro i
      rw [(hone i).1]
      refine lt_of_le_of_lt (mul_le_mul_of_nonneg_right hle (by norm_num)) ?_
      rw [one_div_mul_eq_div, div_lt_one hpos]
      linarith
    have e := barycentric_entry eigh (10 ^ 6) least _ hl
    simp only [List.map_cons, List.map_nil] at e
    have hz : (fun i : Fin 1 => ∑ j, (eigh (productMatrix (0 : Matrix (Fin 1) (Fin D) K))).w
        i.castSucc j *
        (if (eigh (productMatrix (0 : Matrix (Fin 1) (Fin D) K))).v j = 0 ∨
          |1 / (eigh (productMatrix (0 : Matrix (Fin 1) (Fin D) K))).v j| > least * 10 ^ 6 then 0
          else 1 / (eigh (productMatrix (0 : Matrix (Fin 1) (Fin D) K))).v j) *
        ∑ k, (eigh (productMatrix (0 : Matrix (Fin 1) (Fin D) K))).w k j *
          productRhs (0 : Matrix (Fin 1) (Fin D) K) none k) = fun _ => 0 := by
      funext i
      refine Finset.sum_eq_zero fun j _ => ?_
      rw [if_pos (Or.inr (hd j)), mul_zero, zero_mul]
    exact ⟨_, e.trans (congrArg (fun y => Except.ok [_, y]) hz)⟩

/-- the eigenvectors of a simplex whose corners have the mean zero: either the last entry and the sum
of the others vanish and the eigenvalue is one of the products of the corners, or the square of the
eigenvalue is the number of corners -/
theorem centred_eigen {P D : Nat} (pts : Matrix (Fin (P + 1)) (Fin D) K)
    (h0 : ∀ j, ∑ i, pts i j = 0) (v : Fin (P + 2) → K)
    (w : Matrix (Fin (P + 2)) (Fin (P + 2)) K) (h : IsEigh (productMatrix pts) v w)
    (j : Fin (P + 2)) :
    (∀ i : Fin (P + 1), 2 * (∑ c, pts i c * ∑ k : Fin (P + 1), w k.castSucc j * pts k c) +
        w (Fin.last (P + 1)) j = v j * w i.castSucc j) ∧
      ∑ k : Fin (P + 1), w k.castSucc j = v j * w (Fin.last (P + 1)) j ∧
      (w (Fin.last (P + 1)) j ≠ 0 → v j * v j = (P + 1 : ℕ)) := by
  obtain ⟨h1, h2, h3, h4⟩ := productMatrix_entries pts
  have hc := (h.column j).1
  have row : ∀ i : Fin (P + 1),
      2 * (∑ c, pts i c * ∑ k : Fin (P + 1), w k.castSucc j * pts k c) +
        w (Fin.last (P + 1)) j = v j * w i.castSucc j := by
    intro i
    have := hc i.castSucc
    rw [sum_castSucc_split] at this
    simp only [h1, h2, one_mul] at this
    rw [← this, dot_combination pts (fun k => w k.castSucc j) _ (fun j => rfl)]
  have last : ∑ k : Fin (P + 1), w k.castSucc j = v j * w (Fin.last (P + 1)) j := by
    have := hc (Fin.last (P + 1))
    rw [sum_castSucc_split] at this
    simpa only [h3, h4, one_mul, zero_mul, add_zero] using this
  refine ⟨row, last, fun hl => ?_⟩
  have hs : ∑ i : Fin (P + 1), (2 * (∑ c, pts i c * ∑ k : Fin (P + 1), w k.castSucc j * pts k c) +
      w (Fin.last (P + 1)) j) = ∑ i : Fin (P + 1), v j * w i.castSucc j :=
    Finset.sum_congr rfl fun i _ => row i
  rw [Finset.sum_add_distrib, ← Finset.mul_sum, ← Finset.mul_sum, last, Finset.sum_comm] at hs
  simp only [← Finset.sum_mul, h0, zero_mul, Finset.sum_const_zero, mul_zero, zero_add,
    Finset.sum_const, Finset.card_univ, Fintype.card_fin, nsmul_eq_mul] at hs
  have : w (Fin.last (P + 1)) j * (v j * v j - (P + 1 : ℕ)) = 0 := by
    linear_combination -hs
  exact sub_eq_zero.1 ((mul_eq_zero.1 this).resolve_left hl)

/-- an eigenvalue of the products of the corners is no larger than the sum of their squares -/
theorem eigenvalue_le {P D : Nat} (pts : Matrix (Fin P) (Fin D) K) (y : Fin P → K) (hy : y ≠ 0)
    (μ : K) (h : ∀ i, 2 * (∑ c, pts i c * ∑ k, y k * pts k c) = μ * y i) :
    0 ≤ μ ∧ μ ≤ 2 * ∑ i, ∑ c, pts i c * pts i c := by
  have hn : 0 < ∑ i, y i * y i := by
    obtain ⟨i, hi⟩ := Function.ne_iff.1 hy
    exact Finset.sum_pos' (fun i _ => mul_self_nonneg _)
      ⟨i, Finset.mem_univ i, mul_self_pos.2 hi⟩
  set Y : Fin D → K := fun c => ∑ k, y k * pts k c with hY
  have e : 2 * ∑ c, Y c * Y c = μ * ∑ i, y i * y i := by
    have e1 : ∑ c, Y c * Y c = ∑ i, y i * ∑ c, pts i c * Y c := by
      simp only [Finset.mul_sum]
      rw [Finset.sum_comm]
      refine Finset.sum_congr rfl fun c _ => ?_
      conv_lhs => rw [hY]
      simp only [Finset.sum_mul]
      exact Finset.sum_congr rfl fun k _ => by ring
    rw [e1, Finset.mul_sum, Finset.mul_sum]
    refine Finset.sum_congr rfl fun i _ => ?_
    have := h i
    linear_combination y i * this
  have hYY : 0 ≤ ∑ c, Y c * Y c := Finset.sum_nonneg fun c _ => mul_self_nonneg _
  have hcs : ∑ c, Y c * Y c ≤ (∑ i, y i * y i) * ∑ i, ∑ c, pts i c * pts i c := by
    rw [Finset.sum_comm, Finset.mul_sum]
    refine Finset.sum_le_sum fun c _ => ?_
    have := Finset.sum_mul_sq_le_sq_mul_sq Finset.univ y (fun k => pts k c)
    simp only [sq] at this
    exact this
  constructor
  · by_contra hc
    push Not at hc
    nlinarith [mul_neg_of_neg_of_pos hc hn]
  · have : μ * ∑ i, y i * y i ≤ (2 * ∑ i, ∑ c, pts i c * pts i c) * ∑ i, y i * y i := by
      rw [← e]
      linarith
    exact le_of_mul_le_mul_right this hn

/-- an eigenvector of a small simplex that is kept is constant on the corners -/
theorem centred_big {P D : Nat} (pts : Matrix (Fin (P + 1)) (Fin D) K)
    (h0 : ∀ j, ∑ i, pts i j = 0) (v : Fin (P + 2) → K)
    (w : Matrix (Fin (P + 2)) (Fin (P + 2)) K) (h : IsEigh (productMatrix pts) v w)
    (hs : (2 * ∑ i, ∑ c, pts i c * pts i c) ^ 2 < (P + 1 : ℕ)) (j : Fin (P + 2))
    (hl : w (Fin.last (P + 1)) j ≠ 0) (i : Fin (P + 1)) :
    w i.castSucc j = v j * w (Fin.last (P + 1)) j / (P + 1 : ℕ) := by
  obtain ⟨row, last, hsq⟩ := centred_eigen pts h0 v w h j
  have hsq := hsq hl
  have hn : ((P + 1 : ℕ) : K) ≠ 0 := Nat.cast_ne_zero.2 (Nat.succ_ne_zero P)
  set t : K := v j * w (Fin.last (P + 1)) j / (P + 1 : ℕ) with ht
  by_contra hne
  -- the part of the eigenvector that is not constant
  have hy : (fun i : Fin (P + 1) => w i.castSucc j - t) ≠ 0 := by
    intro hc
    exact hne (sub_eq_zero.1 (congrFun hc i))
  have hyc : ∀ c, ∑ k : Fin (P + 1), (w k.castSucc j - t) * pts k c =
      ∑ k : Fin (P + 1), w k.castSucc j * pts k c := by
    intro c
    simp only [sub_mul, Finset.sum_sub_distrib, ← Finset.mul_sum, h0, mul_zero, sub_zero]
  obtain ⟨hp, hle⟩ := eigenvalue_le pts _ hy (v j) (fun i => by
    simp only [hyc]
    have := row i
    have e : v j * t = w (Fin.last (P + 1)) j := by
      rw [ht, ← hsq]
      have : v j ≠ 0 := by
        intro hv
        rw [hv, mul_zero] at hsq
        exact hn hsq.symm
      field_simp
    linear_combination this + e)
  have : v j * v j ≤ (2 * ∑ i, ∑ c, pts i c * pts i c) ^ 2 := by
    rw [sq]
    exact mul_le_mul hle hle hp (hp.trans hle)
  rw [hsq] at this
  exact absurd hs (not_lt.2 this)

/-- C57, negation: a simplex that is small enough is given its mean, whatever its weights, in place of
its circumcenter -/
theorem C57_small_weights {P D : Nat}
    (eigh : Matrix (Fin (P + 2)) (Fin (P + 2)) K → Eigh (P + 2) K) (ratio : K) (hr : 1 ≤ ratio)
    (hE : ∀ M, Mᵀ = M → IsEigh M (eigh M).v (eigh M).w)
    (batch : List (Matrix (Fin (P + 1)) (Fin D) K × Option (Vec K (P + 1)))) (hne : batch ≠ [])
    (h0 : ∀ b ∈ batch, ∀ j, ∑ i, b.1 i j = 0)
    (hw : ∀ b ∈ batch, 2 * ∑ i, ∑ c, b.1 i c ^ 2 ≤ ratio) :
    ∃ out, circumcenterBarycentric eigh ratio batch = .ok out ∧ out.length = batch.length ∧
      ∀ (i : Nat) b x, batch[i]? = some b → out[i]? = some x →
        (2 * (∑ i, ∑ c, b.1 i c ^ 2) * ratio) ^ 2 < (P + 1 : ℕ) →
        x = fun _ => 1 / ((P + 1 : ℕ) : K) := by
  obtain ⟨least, hl⟩ := least_some eigh hE batch hne
  obtain ⟨hmin, e1, he1, j1, hj1, hleast⟩ := least_spec hl
  obtain ⟨b1, hb1, rfl⟩ := List.mem_map.1 he1
  have hEb : ∀ b : Matrix (Fin (P + 1)) (Fin D) K × Option (Vec K (P + 1)),
      IsEigh (productMatrix b.1) (eigh (productMatrix b.1)).v (eigh (productMatrix b.1)).w :=
    fun b => hE _ (productMatrix_symm b.1)
  refine ⟨_, barycentric_entry eigh ratio least batch hl, by rw [List.length_map], ?_⟩
  intro i b x hb hx hsmall
  have hmem := List.mem_of_getElem? hb
  rw [List.getElem?_map, hb] at hx
  have hx' := (Option.some.inj hx).symm
  have hn : (0 : K) < (P + 1 : ℕ) := Nat.cast_pos.2 (Nat.succ_pos P)
  have hn1 : (1 : K) ≤ (P + 1 : ℕ) := by
    rw [Nat.cast_add, Nat.cast_one]
    exact le_add_of_nonneg_left (Nat.cast_nonneg P)
  simp only [sq (b.1 _ _)] at hsmall
  set S : K := ∑ i, ∑ c, b.1 i c * b.1 i c with hS
  have hSp : 0 ≤ S := Finset.sum_nonneg fun i _ => Finset.sum_nonneg fun c _ => mul_self_nonneg _
  have hS2 : (2 * S) ^ 2 < (P + 1 : ℕ) := by
    refine lt_of_le_of_lt ?_ hsmall
    exact pow_le_pow_left₀ (by positivity) (le_mul_of_one_le_right (by positivity) hr) 2
  set v := (eigh (productMatrix b.1)).v with hv
  set w := (eigh (productMatrix b.1)).w with hwd
  have hA : IsEigh (productMatrix b.1) v w := hEb b
  have hll : ∑ j, w (Fin.last (P + 1)) j * w (Fin.last (P + 1)) j = 1 := by
    rw [hA.rows, if_pos rfl]
  have hvv : ∑ j, w (Fin.last (P + 1)) j * v j * w (Fin.last (P + 1)) j = 0 := by
    rw [← hA.decomp, (productMatrix_entries b.1).2.2.2]
  -- an eigenvalue of size `√n`
  obtain ⟨j0, hj0⟩ : ∃ j, w (Fin.last (P + 1)) j ≠ 0 := by
    by_contra hc
    push Not at hc
    simp [hc] at hll
  have hb0 := (centred_eigen b.1 (h0 b hmem) v w hA j0).2.2 hj0
  have hv0 : v j0 ≠ 0 := by
    intro hz
    rw [hz, mul_zero] at hb0
    exact hn.ne hb0
  have hle0 : least ≤ 1 / |v j0| := by
    rw [← abs_one_div]
    exact hmin _ (List.mem_map_of_mem hmem) j0 hv0
  -- eigenvectors with last entry zero are dropped
  have hdrop : ∀ j, w (Fin.last (P + 1)) j = 0 → v j = 0 ∨ |1 / v j| > least * ratio := by
    intro j hj
    by_cases hz : v j = 0
    · exact Or.inl hz
    right
    obtain ⟨row, -, -⟩ := centred_eigen b.1 (h0 b hmem) v w hA j
    have hy : (fun k : Fin (P + 1) => w k.castSucc j) ≠ 0 := by
      intro hc
      obtain ⟨-, i, hi⟩ := hA.column j
      exact hi (Fin.lastCases hj (fun i => congrFun hc i) i)
    obtain ⟨hp, hle⟩ := eigenvalue_le b.1 _ hy (v j) (fun i => by
      have := row i
      rw [hj, add_zero] at this
      exact this)
    have hp : 0 < v j := lt_of_le_of_ne hp (Ne.symm hz)
    have hlt : v j * ratio < |v j0| := by
      have h1 : v j * ratio ≤ 2 * S * ratio :=
        mul_le_mul_of_nonneg_right hle (zero_le_one.trans hr)
      refine lt_of_le_of_lt h1 ?_
      rw [← abs_mul_abs_self, ← sq] at hb0
      rw [← hb0] at hsmall
      exact lt_of_pow_lt_pow_left₀ 2 (abs_nonneg _) hsmall
    rw [abs_one_div, abs_of_pos hp]
    refine lt_of_le_of_lt (mul_le_mul_of_nonneg_right hle0 (zero_le_one.trans hr)) ?_
    rw [one_div_mul_eq_div, div_lt_div_iff₀ (abs_pos.2 hv0) hp]
    linarith
  -- the others are kept
  have hkeep : ∀ j, w (Fin.last (P + 1)) j ≠ 0 →
      v j ≠ 0 ∧ ¬ (v j = 0 ∨ |1 / v j| > least * ratio) := by
    intro j hj
    have hb := (centred_eigen b.1 (h0 b hmem) v w hA j).2.2 hj
    have hz : v j ≠ 0 := by
      intro hz
      rw [hz, mul_zero] at hb
      exact hn.ne hb
    refine ⟨hz, ?_⟩
    rintro (hc | hc)
    · exact hz hc
    have habs : |v j| * |v j| = (P + 1 : ℕ) := by rw [abs_mul_abs_self]; exact hb
    have h1 : 1 ≤ |v j| := by
      by_contra hlt
      push Not at hlt
      nlinarith [abs_nonneg (v j)]
    have hle : |(eigh (productMatrix b1.1)).v j1| ≤ ratio * |v j| := by
      by_cases hl1 : (eigh (productMatrix b1.1)).w (Fin.last (P + 1)) j1 = 0
      · obtain ⟨row, -, -⟩ := centred_eigen b1.1 (h0 b1 hb1) _ _ (hEb b1) j1
        have hy : (fun k : Fin (P + 1) => (eigh (productMatrix b1.1)).w k.castSucc j1) ≠ 0 := by
          intro hc
          obtain ⟨-, i, hi⟩ := (hEb b1).column j1
          exact hi (Fin.lastCases hl1 (fun i => congrFun hc i) i)
        obtain ⟨hp, hle⟩ := eigenvalue_le b1.1 _ hy ((eigh (productMatrix b1.1)).v j1) (fun i => by
          have := row i
          rw [hl1, add_zero] at this
          exact this)
        rw [abs_of_nonneg hp]
        have h2 := hw b1 hb1
        simp only [sq] at h2
        nlinarith
      · have h2 := (centred_eigen b1.1 (h0 b1 hb1) _ _ (hEb b1) j1).2.2 hl1
        rw [← abs_mul_abs_self, ← habs] at h2
        have h3 : |(eigh (productMatrix b1.1)).v j1| = |v j| :=
          (mul_self_inj (abs_nonneg _) (abs_nonneg _)).1 h2
        rw [h3]
        nlinarith
    rw [hleast, abs_one_div, abs_one_div, one_div_mul_eq_div, gt_iff_lt,
      div_lt_div_iff₀ (abs_pos.2 hj1) (abs_pos.2 hz)] at hc
    linarith
  rw [hx']
  funext i
  show ∑ j, w i.castSucc j * (if v j = 0 ∨ |1 / v j| > least * ratio then 0 else 1 / v j) *
    ∑ k, w k j * productRhs b.1 b.2 k = _
  set B : K := ∑ k : Fin (P + 1), productRhs b.1 b.2 k.castSucc with hB
  have hone : productRhs b.1 b.2 (Fin.last (P + 1)) = 1 := by simp [productRhs]
  have hterm : ∀ j, w i.castSucc j *
      (if v j = 0 ∨ |1 / v j| > least * ratio then 0 else 1 / v j) *
      ∑ k, w k j * productRhs b.1 b.2 k =
      (w (Fin.last (P + 1)) j * v j * w (Fin.last (P + 1)) j) * (B / (P + 1 : ℕ) ^ 2) +
        (w (Fin.last (P + 1)) j * w (Fin.last (P + 1)) j) * (1 / (P + 1 : ℕ)) := by
    intro j
    by_cases hj : w (Fin.last (P + 1)) j = 0
    · rw [if_pos (hdrop j hj), hj]
      ring
    · obtain ⟨hz, hk⟩ := hkeep j hj
      rw [if_neg hk, sum_castSucc_split, hone, mul_one]
      simp only [centred_big b.1 (h0 b hmem) v w hA hS2 j hj, ← Finset.mul_sum]
      rw [← hB]
      field_simp
  rw [Finset.sum_congr rfl fun j _ => hterm j, Finset.sum_add_distrib, ← Finset.sum_mul,
    ← Finset.sum_mul, hvv, hll]
  ring

/-- C57, negation: `circumcenter` returns the mean of the corners of a simplex that is small enough.
`ratio` is `1e6`: this is the case for triangles whose corners have a distance of about half a
thousandth from each other, whatever their shape. -/
theorem C57_small {P D : Nat}
    (eigh : Matrix (Fin (P + 2)) (Fin (P + 2)) K → Eigh (P + 2) K) (ratio : K) (hr : 1 ≤ ratio)
    (hE : ∀ M, Mᵀ = M → IsEigh M (eigh M).v (eigh M).w)
    (batch : List (Matrix (Fin (P + 1)) (Fin D) K)) (hne : batch ≠ [])
    (hw : ∀ pts ∈ batch, 2 * ∑ i, ∑ c, centred (fun i => pts i) i c ^ 2 ≤ ratio) :
    ∃ out, circumcenter eigh ratio batch = .ok out ∧ out.length = batch.length ∧
      ∀ (i : Nat) pts x, batch[i]? = some pts → out[i]? = some x →
        (2 * (∑ i, ∑ c, centred (fun i => pts i) i c ^ 2) * ratio) ^ 2 < (P + 1 : ℕ) →
        x = fun j => (∑ k, pts k j) / (P + 1 : ℕ) := by
  have hn : ((P + 1 : ℕ) : K) ≠ 0 := Nat.cast_ne_zero.2 (Nat.succ_ne_zero P)
  set cen : Matrix (Fin (P + 1)) (Fin D) K → Matrix (Fin (P + 1)) (Fin D) K :=
    fun pts => Matrix.of fun i j => pts i j - (∑ i, pts i j) / ((P + 1 : ℕ) : K) with hcen
  set inp : List (Matrix (Fin (P + 1)) (Fin D) K × Option (Vec K (P + 1))) :=
    (batch.map cen).map fun pts => (pts, none) with hinp
  have hsum : ∀ pts j, ∑ i, cen pts i j = 0 := by
    intro pts j
    show ∑ i, (pts i j - (∑ i, pts i j) / ((P + 1 : ℕ) : K)) = 0
    rw [Finset.sum_sub_distrib, Finset.sum_const, Finset.card_univ, Fintype.card_fin, nsmul_eq_mul,
      mul_div_cancel₀ _ hn, sub_self]
  obtain ⟨bary, hb, hlen, hprop⟩ := C57_small_weights eigh ratio hr hE inp
    (by rw [hinp]; simpa using hne)
    (by
      intro b hb j
      rw [hinp, List.map_map] at hb
      obtain ⟨pts, -, rfl⟩ := List.mem_map.1 hb
      exact hsum pts j)
    (by
      intro b hb
      rw [hinp, List.map_map] at hb
      obtain ⟨pts, hp, rfl⟩ := List.mem_map.1 hb
      exact hw pts hp)
  refine ⟨List.zipWith (fun (pts : Matrix (Fin (P + 1)) (Fin D) K × Matrix (Fin (P + 1)) (Fin D) K)
    b j => ∑ i, pts.2 i j * b i + (∑ i, pts.1 i j) / ((P + 1 : ℕ) : K))
    (batch.zip (batch.map cen)) bary, ?_, ?_, ?_⟩
  · show (circumcenterBarycentric eigh ratio inp >>= fun bary => _) = _
    rw [hb]
    rfl
  · simp [hlen, hinp]
  · intro i pts x hpts hx hsmall
    rw [List.getElem?_zipWith, List.zip, List.getElem?_zipWith, List.getElem?_map, hpts] at hx
    cases hbi : bary[i]? with
    | none => rw [hbi] at hx; simp at hx
    | some b =>
      rw [hbi] at hx
      have hx' := (Option.some.inj hx).symm
      have hin : inp[i]? = some (cen pts, none) := by
        rw [hinp, List.getElem?_map, List.getElem?_map, hpts]
        rfl
      have := hprop i (cen pts, none) b hin hbi hsmall
      rw [hx', this]
      funext j
      show ∑ i, cen pts i j * (1 / ((P + 1 : ℕ) : K)) + _ = _
      rw [← Finset.sum_mul, hsum, zero_mul, zero_add]

end

/-! ### Instances -/

/-- the contract of `np.linalg.eigh` can be met -/
theorem exists_eigh_function (n : Nat) : ∃ eigh : Matrix (Fin n) (Fin n) ℝ → Eigh n ℝ,
    ∀ M, Mᵀ = M → IsEigh M (eigh M).v (eigh M).w := by
  have : ∀ M : Matrix (Fin n) (Fin n) ℝ, ∃ e : Eigh n ℝ, Mᵀ = M → IsEigh M e.v e.w := by
    intro M
    by_cases h : Mᵀ = M
    · obtain ⟨v, w, h1, h2, h3⟩ := exists_eigh M h
      exact ⟨⟨v, w⟩, fun _ => IsEigh.of h1 h2 h3⟩
    · exact ⟨⟨0, 0⟩, fun h' => absurd h' h⟩
  choose f hf using this
  exact ⟨f, hf⟩

/-- the edge from -1 to 1 -/
def edgeExample : Matrix (Fin 2) (Fin 1) ℝ := !![-1; 1]

theorem edgeExample_within : EigenvaluesWithin (10 ^ 6) [fun i => edgeExample i] := by
  have key : ∀ μ : ℝ, BorderedEigenvalue (fun i => edgeExample i) μ → 1 ≤ |μ| ∧ |μ| ≤ 4 := by
    rintro μ ⟨y, l, hne, hrow, hlast⟩
    have h0 := hrow 0
    have h1 := hrow 1
    simp [Fin.sum_univ_two, edgeExample] at h0 h1 hlast
    have hd : (μ - 4) * (y 0 - y 1) = 0 := by linear_combination h1 - h0
    rcases mul_eq_zero.1 hd with h | h
    · rw [sub_eq_zero.1 h]
      norm_num
    · have e : y 0 = y 1 := sub_eq_zero.1 h
      have hs : l * (μ * μ - 2) = 0 := by linear_combination -h0 - h1 - μ * hlast
      rcases mul_eq_zero.1 hs with h' | h'
      · exfalso
        rw [h', mul_zero] at hlast
        have : y 1 = 0 := by linarith
        rcases hne with hn | hn
        · apply hn
          funext i
          fin_cases i
          · exact e.trans this
          · exact this
        · exact hn h'
      · have : |μ| * |μ| = 2 := by rw [abs_mul_abs_self]; linarith
        constructor <;> nlinarith [abs_nonneg μ]
  intro p hp q hq μ ν hμ hν _
  rw [List.mem_singleton] at hp hq
  subst hp
  subst hq
  have := (key μ hμ).1
  have := (key ν hν).2
  nlinarith

/-- the weighted edge from -1 to 1: with weights 0 and 2 the point of equal power is -1/2, and it has
the coordinates 3/4 and 1/4 -/
example : ∃ eigh out, circumcenterBarycentric eigh (10 ^ 6) [(edgeExample, some ![0, 2])] = .ok out ∧
    ∀ x, out[0]? = some x → x = ![3 / 4, 1 / 4] := by
  obtain ⟨eigh, hE⟩ := exists_eigh_function 3
  obtain ⟨out, h, -, hp⟩ := C57_center eigh (10 ^ 6) hE [(edgeExample, some ![0, 2])] (by simp)
    edgeExample_within
  refine ⟨eigh, out, h, fun x hx => ?_⟩
  obtain ⟨h1, h2⟩ := hp 0 _ x rfl hx (fun _ => -1 / 2) ⟨⟨![3 / 4, 1 / 4], by
    simp [Fin.sum_univ_two]; norm_num, fun j => by
    fin_cases j; simp [Fin.sum_univ_two, edgeExample]; norm_num⟩, fun i j => by
    fin_cases i <;> fin_cases j <;> simp [power, edgeExample, weightsOf] <;> norm_num⟩
  have h2 := h2 0
  simp [Fin.sum_univ_two, edgeExample] at h1 h2
  funext i
  fin_cases i
  · show x 0 = 3 / 4
    linarith
  · show x 1 = 1 / 4
    linarith

/-- a right triangle with legs of half a thousandth: its circumcenter is the middle of the longest
side, but `circumcenter` returns its centroid -/
theorem C57_small_witness : ∃ (eigh : Matrix (Fin 4) (Fin 4) ℝ → Eigh 4 ℝ)
    (pts : Matrix (Fin 3) (Fin 2) ℝ) (c : Vec ℝ 2),
    (∀ M, Mᵀ = M → IsEigh M (eigh M).v (eigh M).w) ∧ IsCenter (fun i => pts i) 0 c ∧
      ∃ x, circumcenter eigh (10 ^ 6) [pts] = .ok [x] ∧ x ≠ c := by
  obtain ⟨eigh, hE⟩ := exists_eigh_function 4
  refine ⟨eigh, !![0, 0; 1 / 2000, 0; 0, 1 / 2000], ![1 / 4000, 1 / 4000], hE, ?_, ?_⟩
  · refine ⟨⟨![0, 1 / 2, 1 / 2], by simp [Fin.sum_univ_three]; norm_num, fun j => ?_⟩,
      fun i j => ?_⟩
    · fin_cases j <;> simp [Fin.sum_univ_three] <;> norm_num
    · fin_cases i <;> fin_cases j <;> simp [power] <;> norm_num
  · have hs : (∑ i, ∑ c, centred (fun i => (!![0, 0; 1 / 2000, 0; 0, 1 / 2000] :
        Matrix (Fin 3) (Fin 2) ℝ) i) i c ^ 2) = 4 / 3 / 4000000 := by
      simp [centred, Fin.sum_univ_three]
      norm_num
    obtain ⟨out, h, hl, hp⟩ := C57_small eigh (10 ^ 6) (by norm_num) hE
      [!![0, 0; 1 / 2000, 0; 0, 1 / 2000]] (by simp) (by
        intro pts hpts
        rw [List.mem_singleton] at hpts
        subst hpts
        rw [hs]
        norm_num)
    obtain ⟨x, rfl⟩ : ∃ x, out = [x] := List.length_eq_one_iff.1 hl
    refine ⟨x, h, fun hc => ?_⟩
    have := hp 0 _ x rfl rfl (by rw [hs]; norm_num)
    rw [hc] at this
    have := congrFun this 0
    simp [Fin.sum_univ_three] at this
    norm_num at this

end Verif.Props
