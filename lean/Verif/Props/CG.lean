/-
C42: the conjugate gradient solver.
-/
import Verif.Model.CG
import Mathlib.Algebra.Module.LinearMap.Defs
import Mathlib.Algebra.Module.LinearMap.Basic
import Mathlib.LinearAlgebra.BilinearMap
import Mathlib.Algebra.Order.Ring.Rat
import Mathlib.Algebra.Order.Field.Rat
import Mathlib.Tactic.Ring
import Mathlib.Tactic.FieldSimp
import Mathlib.Tactic.Linarith
import Mathlib.Tactic.Positivity
import Mathlib.Tactic.Module
import Mathlib.LinearAlgebra.SesquilinearForm.Basic
import Mathlib.LinearAlgebra.Dimension.Finite
import Mathlib.LinearAlgebra.FiniteDimensional.Defs
import Mathlib.LinearAlgebra.FiniteDimensional.Lemmas

set_option linter.unusedSectionVars false

namespace Verif.Props

open Verif.Model

section

variable {K V : Type} [Field K] [LinearOrder K] [IsStrictOrderedRing K] [AddCommGroup V] [Module K V]

theorem cgEps_pos : (0 : K) < cgEps K := by unfold cgEps; positivity

/-- a property of states that the loop preserves -/
theorem cgLoop_induct {dot : V → V → K} {P A : V → V} {rhs x0 : V} {delta0 : K}
    (I J : CG K V → Prop) (hJ : ∀ s, I s → J s)
    (step : ∀ i s, I s → (cgIter dot P A rhs x0 delta0 i s).2 = false →
      I (cgIter dot P A rhs x0 delta0 i s).1)
    (stop : ∀ i s, I s → (cgIter dot P A rhs x0 delta0 i s).2 = true →
      J (cgIter dot P A rhs x0 delta0 i s).1) :
    ∀ (is : List Nat) (s : CG K V), I s → J (cgLoop dot P A rhs x0 delta0 is s) := by
  intro is
  induction is with
  | nil => intro s h; exact hJ s h
  | cons i is ih =>
    intro s h
    rw [cgLoop]
    by_cases hb : (cgIter dot P A rhs x0 delta0 i s).2 = true
    · simp only [hb, if_true]; exact stop i s h hb
    · simp only [hb]; exact ih _ (step i s h (by simpa using hb))

/-- C42: for every linear operator, every linear projection `deflate` (the identity in particular),
every right-hand side, start vector and iteration count, whatever way the loop ends: the returned
`x` satisfies the constraint and the tracked residual is the projected true residual `rhs - A x` -/
theorem C42_residual (dot : V → V → K) (P A : V →ₗ[K] V) (hP : ∀ v, P (P v) = P v)
    (rhs x0 : V) (maxIter : Nat) :
    let s := solveCG dot P A rhs x0 maxIter
    P s.x = s.x ∧ s.r = P (rhs - A s.x) := by
  intro s
  have key : ∀ (i : Nat) (t : CG K V) (δ : K), (P t.x = t.x ∧ t.r = P (rhs - A t.x)) →
      (P (cgIter dot P A rhs x0 δ i t).1.x = (cgIter dot P A rhs x0 δ i t).1.x ∧
        (cgIter dot P A rhs x0 δ i t).1.r =
          P (rhs - A (cgIter dot P A rhs x0 δ i t).1.x)) := by
    intro i t δ ⟨h1, h2⟩
    have hx : ∀ (a : K), P (t.x + a • P t.d) = t.x + a • P t.d := by
      intro a; rw [map_add, map_smul, hP, h1]
    have hr : ∀ (a : K), P (if i % 50 = 49 then rhs - A (P (t.x + a • P t.d))
        else t.r - a • P (A (P t.d))) = P (rhs - A (P (t.x + a • P t.d))) := by
      intro a
      by_cases h : i % 50 = 49
      · rw [if_pos h]
      · rw [if_neg h, h2, hx]
        simp only [map_sub, map_smul, map_add, hP]
        module
    unfold cgIter
    simp only []
    split
    · exact ⟨h1, h2⟩
    · split
      · exact ⟨by rw [hP], hr _⟩
      · split
        · exact ⟨by rw [hP], hr _⟩
        · exact ⟨by rw [hP], hr _⟩
  exact cgLoop_induct (dot := dot) (P := P) (A := A) (rhs := rhs) (x0 := x0)
    (fun t => P t.x = t.x ∧ t.r = P (rhs - A t.x)) (fun t => P t.x = t.x ∧ t.r = P (rhs - A t.x))
    (fun t h => h) (fun i t h _ => key i t _ h) (fun i t h _ => key i t _ h) _ _
    ⟨by simp [cgInit, hP], by simp [cgInit]⟩

/-- C42: without deflation a vanishing tracked residual certifies an exact solution -/
theorem C42_zero_residual (dot : V → V → K) (A : V →ₗ[K] V) (rhs x0 : V) (maxIter : Nat)
    (h : (solveCG dot (LinearMap.id : V →ₗ[K] V) A rhs x0 maxIter).r = 0) :
    A (solveCG dot (LinearMap.id : V →ₗ[K] V) A rhs x0 maxIter).x = rhs := by
  have := (C42_residual dot (LinearMap.id : V →ₗ[K] V) A (fun _ => rfl) rhs x0 maxIter).2
  rw [h] at this
  exact (sub_eq_zero.1 this.symm).symm

/-- C42: for every symmetric positive semidefinite operator and orthogonal projection the energy
`<x, A x> - 2 <rhs, x>` of the returned vector is at most that of the (projected) start vector:
no iteration, restarted residual or early exit makes it worse -/
theorem C42_energy (dot : V →ₗ[K] V →ₗ[K] K) (hs : ∀ u v, dot u v = dot v u)
    (P A : V →ₗ[K] V) (hP : ∀ v, P (P v) = P v) (hPs : ∀ u v, dot (P u) v = dot u (P v))
    (hA : ∀ u v, dot (A u) v = dot u (A v)) (hpos : ∀ v, 0 ≤ dot v (A v))
    (rhs x0 : V) (maxIter : Nat) :
    let energy : V → K := fun x => dot x (A x) - 2 * dot rhs x
    energy (solveCG (fun u v => dot u v) P A rhs x0 maxIter).x ≤ energy (P x0) := by
  intro energy
  let I : CG K V → Prop := fun t => P t.x = t.x ∧ t.r = P (rhs - A t.x) ∧ P t.d = t.d ∧
    t.deltaNew = dot t.r t.r ∧ dot t.d t.r = dot t.r t.r ∧ energy t.x ≤ energy (P x0)
  let J : CG K V → Prop := fun t => energy t.x ≤ energy (P x0)
  have key : ∀ (i : Nat) (t : CG K V) (δ : K), I t →
      J (cgIter (fun u v => dot u v) P A rhs x0 δ i t).1 ∧
      ((cgIter (fun u v => dot u v) P A rhs x0 δ i t).2 = false →
        I (cgIter (fun u v => dot u v) P A rhs x0 δ i t).1) := by
    rintro i t δ ⟨h1, h2, h3, h4, h5, h6⟩
    unfold cgIter
    simp only [h3]
    split
    · exact ⟨h6, by simp⟩
    rename_i hdq
    have hdq0 : dot t.d (P (A t.d)) ≠ 0 := by
      intro h
      rw [h, abs_zero] at hdq
      exact hdq cgEps_pos
    set α := t.deltaNew / dot t.d (P (A t.d)) with hα
    have hx : P (t.x + α • t.d) = t.x + α • t.d := by rw [map_add, map_smul, h3, h1]
    have hr : P (if i % 50 = 49 then rhs - A (P (t.x + α • t.d)) else t.r - α • P (A t.d)) =
        t.r - α • P (A t.d) := by
      by_cases h : i % 50 = 49
      · rw [if_pos h, hx, h2]
        simp only [map_sub, map_smul, map_add]
        module
      · rw [if_neg h, h2]
        simp only [map_sub, map_smul, hP]
    rw [hr, hx]
    have hαdq : α * dot t.d (P (A t.d)) = dot t.r t.r := by
      rw [hα, div_mul_cancel₀ _ hdq0, h4]
    have hdA : dot t.d (A t.d) = dot t.d (P (A t.d)) := by
      rw [← hPs, h3]
    have hdq' : 0 ≤ dot t.d (P (A t.d)) := hdA ▸ hpos t.d
    have hdr : dot t.d (rhs - A t.x) = dot t.r t.r := by
      rw [← h5, h2, ← hPs, h3]
    have he : energy (t.x + α • t.d) ≤ energy (P x0) := by
      have e1 : energy (t.x + α • t.d) =
          energy t.x - 2 * (α * dot t.d (rhs - A t.x)) + α * (α * dot t.d (A t.d)) := by
        have sw : dot t.x (A t.d) = dot t.d (A t.x) := by rw [← hA, hs]
        have sw2 : dot rhs t.d = dot t.d rhs := hs _ _
        simp only [energy, map_add, map_sub, map_smul, LinearMap.add_apply, LinearMap.smul_apply,
          smul_eq_mul, sw, sw2]
        ring
      rw [e1, hdA, hdr, hαdq]
      have : 0 ≤ α * dot t.r t.r := by
        rw [← hαdq, ← mul_assoc]
        exact mul_nonneg (mul_self_nonneg α) hdq'
      linarith
    have hdr' : dot t.d (t.r - α • P (A t.d)) = 0 := by
      rw [map_sub, map_smul, smul_eq_mul, hαdq, h5, sub_self]
    split
    · exact ⟨he, by simp⟩
    split
    · exact ⟨he, by simp⟩
    refine ⟨he, fun _ => ⟨hx, ?_, ?_, rfl, ?_, he⟩⟩
    · rw [h2]
      simp only [map_sub, map_smul, map_add]
      module
    · have : P t.r = t.r := by rw [h2, hP]
      simp only [map_add, map_sub, map_smul, hP, h3, this]
    · simp only [map_add, map_smul, LinearMap.add_apply, LinearMap.smul_apply, hdr', smul_zero,
        add_zero]
  exact cgLoop_induct (dot := fun u v => dot u v) (P := P) (A := A) (rhs := rhs) (x0 := x0) I J
    (fun t h => h.2.2.2.2.2) (fun i t h hb => (key i t _ h).2 hb) (fun i t h _ => (key i t _ h).1)
    _ _ ⟨by simp [cgInit, hP], by simp [cgInit], by simp [cgInit, hP], rfl, rfl, le_refl _⟩

/-- what holds between iterations, given the residuals `Sr` and directions `Sd` of all earlier
iterations -/
structure CGHistory (dot : V →ₗ[K] V →ₗ[K] K) (P A : V →ₗ[K] V) (rhs : V) (Sr Sd : List V)
    (t : CG K V) : Prop where
  x : P t.x = t.x
  r : t.r = P (rhs - A t.x)
  d : P t.d = t.d
  delta : t.deltaNew = dot t.r t.r
  prev : ∀ v ∈ Sr, P v = v
  orth : Sr.Pairwise fun u v => dot u v = 0
  nonzero : ∀ v ∈ Sr, dot v v ≠ 0
  orth_r : ∀ v ∈ Sr, dot v t.r = 0
  conj_d : ∀ v ∈ Sd, dot v (A t.d) = 0
  span_prev : ∀ v ∈ Sr, v ∈ Submodule.span K {w | w ∈ Sd}
  span_r : t.r - t.d ∈ Submodule.span K {w | w ∈ Sd}
  image : ∀ v ∈ Sd, P (A v) ∈ Submodule.span K {w | w ∈ t.r :: Sr}

/-- a vector orthogonal to a set is orthogonal to its span -/
theorem dot_span {dot : V →ₗ[K] V →ₗ[K] K} {S : Set V} {y : V} (h : ∀ v ∈ S, dot v y = 0) {v : V}
    (hv : v ∈ Submodule.span K S) : dot v y = 0 := by
  have : Submodule.span K S ≤ LinearMap.ker (dot.flip y) :=
    Submodule.span_le.mpr fun v hv => LinearMap.mem_ker.mpr (h v hv)
  exact LinearMap.mem_ker.mp (this hv)

/-- one iteration without `break` extends the history -/
theorem cg_history_step {dot : V →ₗ[K] V →ₗ[K] K} (hs : ∀ u v, dot u v = dot v u)
    (hdef : ∀ v, dot v v = 0 → v = 0)
    {P A : V →ₗ[K] V} (hP : ∀ v, P (P v) = P v) (hPs : ∀ u v, dot (P u) v = dot u (P v))
    (hA : ∀ u v, dot (A u) v = dot u (A v)) {rhs x0 : V} {δ : K} {i : Nat} {Sr Sd : List V}
    {t : CG K V} (h : CGHistory dot P A rhs Sr Sd t) (hr0 : t.r = 0 → t.d = 0)
    (hb : (cgIter (fun u v => dot u v) P A rhs x0 δ i t).2 = false) :
    let t' := (cgIter (fun u v => dot u v) P A rhs x0 δ i t).1
    CGHistory dot P A rhs (t.r :: Sr) (t.d :: Sd) t' ∧ (t'.r = 0 → t'.d = 0) := by
  intro t'
  have hPr : P t.r = t.r := by rw [h.r, hP]
  unfold cgIter at hb
  simp only [h.d] at hb
  have hdq0 : dot t.d (P (A t.d)) ≠ 0 := by
    intro h0
    rw [if_pos (by rw [h0, abs_zero]; exact cgEps_pos)] at hb
    cases hb
  set α := t.deltaNew / dot t.d (P (A t.d)) with hα
  have hx : P (t.x + α • t.d) = t.x + α • t.d := by rw [map_add, map_smul, h.d, h.x]
  have hr : P (if i % 50 = 49 then rhs - A (P (t.x + α • t.d)) else t.r - α • P (A t.d)) =
      t.r - α • P (A t.d) := by
    by_cases hi : i % 50 = 49
    · rw [if_pos hi, hx, h.r]
      simp only [map_sub, map_smul, map_add]
      module
    · rw [if_neg hi]
      simp only [map_sub, map_smul, hP, hPr]
  set r' := t.r - α • P (A t.d) with hr'
  set β := dot r' r' / t.deltaNew with hβ
  have ht' : t' = ⟨t.x + α • t.d, r', r' + β • t.d, dot r' r'⟩ := by
    simp only [t']
    unfold cgIter
    simp only [h.d]
    rw [hr, hx]
    rw [hr, hx] at hb
    split at hb
    · cases hb
    split at hb
    · cases hb
    split at hb
    · cases hb
    rename_i h1 h2 h3
    rw [if_neg h1, if_neg h2, if_neg h3]
  clear_value t'
  subst ht'
  have hdA : dot t.d (P (A t.d)) = dot t.d (A t.d) := by rw [← hPs, h.d]
  have hδ0 : t.deltaNew ≠ 0 := by
    intro h0
    apply hdq0
    rw [hr0 (hdef _ (by rw [← h.delta, h0]))]
    simp
  have hα0 : α ≠ 0 := div_ne_zero hδ0 hdq0
  have hαdq : α * dot t.d (A t.d) = t.deltaNew := by
    rw [← hdA, hα, div_mul_cancel₀ _ hdq0]
  -- `r` against `A d`
  have hrd : ∀ v ∈ Submodule.span K {w | w ∈ Sd}, dot v (A t.d) = 0 := fun v hv =>
    dot_span h.conj_d hv
  have hrAd : dot t.r (A t.d) = dot t.d (A t.d) := by
    have := hrd _ h.span_r
    rw [map_sub, LinearMap.sub_apply, sub_eq_zero] at this
    exact this
  have hPA : ∀ v, P v = v → dot v (P (A t.d)) = dot v (A t.d) := fun v hv => by rw [← hPs, hv]
  have hPr' : P r' = r' := by simp only [hr', map_sub, map_smul, hP, hPr]
  -- the new residual is orthogonal to the old ones
  have ho : ∀ v ∈ t.r :: Sr, dot v r' = 0 := by
    intro v hv
    rcases List.mem_cons.mp hv with rfl | hv
    · rw [hr', map_sub, map_smul, smul_eq_mul, hPA _ hPr, hrAd, hαdq, h.delta, sub_self]
    · rw [hr', map_sub, map_smul, smul_eq_mul, hPA _ (h.prev v hv), hrd v (h.span_prev v hv),
        h.orth_r v hv, mul_zero, sub_zero]
  -- the image of the direction
  have him : P (A t.d) = α⁻¹ • (t.r - r') := by
    rw [hr', sub_sub_cancel, smul_smul, inv_mul_cancel₀ hα0, one_smul]
  have hsub : ({w | w ∈ Sd} : Set V) ⊆ {w | w ∈ t.d :: Sd} := fun w hw => List.mem_cons_of_mem _ hw
  have hmd : t.d ∈ Submodule.span K {w | w ∈ t.d :: Sd} :=
    Submodule.subset_span List.mem_cons_self
  refine ⟨⟨hx, ?_, ?_, rfl, ?_, ?_, ?_, ho, ?_, ?_, ?_, ?_⟩, ?_⟩
  · show r' = _
    rw [hr', h.r]
    simp only [map_sub, map_smul, map_add]
    module
  · show P (r' + β • t.d) = r' + β • t.d
    rw [map_add, map_smul, hPr', h.d]
  · intro v hv
    rcases List.mem_cons.mp hv with rfl | hv
    · exact hPr
    · exact h.prev v hv
  · exact List.pairwise_cons.mpr ⟨fun v hv => by rw [hs]; exact h.orth_r v hv, h.orth⟩
  · intro v hv
    rcases List.mem_cons.mp hv with rfl | hv
    · rw [← h.delta]; exact hδ0
    · exact h.nonzero v hv
  · -- conjugacy
    intro v hv
    show dot v (A (r' + β • t.d)) = 0
    have hv' : dot v (A r') = dot (P (A v)) r' := by rw [hPs, hPr', hA]
    rcases List.mem_cons.mp hv with rfl | hv
    · have hd : dot (t.r - r') r' = -dot r' r' := by
        rw [LinearMap.map_sub₂, ho t.r List.mem_cons_self, zero_sub]
      rw [map_add, map_add, map_smul, map_smul, smul_eq_mul, hv', him, map_smul,
        LinearMap.smul_apply, hd, smul_eq_mul, hβ]
      have : t.deltaNew = α * dot t.d (A t.d) := hαdq.symm
      have hq : dot t.d (A t.d) ≠ 0 := by rw [← hdA]; exact hdq0
      rw [this]
      field_simp
      ring
    · rw [map_add, map_add, map_smul, map_smul, smul_eq_mul, h.conj_d v hv, mul_zero, add_zero,
        hv']
      exact dot_span ho (h.image v hv)
  · intro v hv
    rcases List.mem_cons.mp hv with rfl | hv
    · have : t.r = (t.r - t.d) + t.d := by abel
      rw [this]
      exact Submodule.add_mem _ (Submodule.span_mono hsub h.span_r) hmd
    · exact Submodule.span_mono hsub (h.span_prev v hv)
  · show r' - (r' + β • t.d) ∈ _
    have : r' - (r' + β • t.d) = (-β) • t.d := by module
    rw [this]
    exact Submodule.smul_mem _ _ hmd
  · intro v hv
    have hsub' : ({w | w ∈ t.r :: Sr} : Set V) ⊆ {w | w ∈ r' :: t.r :: Sr} :=
      fun w hw => List.mem_cons_of_mem _ hw
    rcases List.mem_cons.mp hv with rfl | hv
    · rw [him]
      refine Submodule.smul_mem _ _ (Submodule.sub_mem _ (Submodule.subset_span ?_)
        (Submodule.subset_span ?_))
      · exact List.mem_cons_of_mem _ List.mem_cons_self
      · exact List.mem_cons_self
    · exact Submodule.span_mono hsub' (h.image v hv)
  · intro h0
    show r' + β • t.d = 0
    have h0' : r' = 0 := h0
    rw [hβ, h0']
    simp

/-- orthogonal nonzero vectors are not more than the dimension -/
theorem orthogonal_le_finrank [FiniteDimensional K V] {dot : V →ₗ[K] V →ₗ[K] K}
    (hs : ∀ u v, dot u v = dot v u) {L : List V} (ho : L.Pairwise fun u v => dot u v = 0)
    (hn : ∀ v ∈ L, dot v v ≠ 0) : L.length ≤ Module.finrank K V := by
  have hli : LinearIndependent K (fun i : Fin L.length => L[i]) := by
    refine LinearMap.linearIndependent_of_isOrthoᵢ (B := dot) ?_ ?_
    · intro i j hij
      rw [List.pairwise_iff_getElem] at ho
      show dot L[i] L[j] = 0
      rcases lt_or_gt_of_ne hij with h | h
      · exact ho i j i.2 j.2 h
      · rw [hs]; exact ho j i j.2 i.2 h
    · intro i
      exact hn _ (List.getElem_mem _)
  have := hli.fintype_card_le_finrank
  simpa using this

/-- the loop ends by itself after as many iterations as there are dimensions, plus one -/
theorem cgLoop_ends [FiniteDimensional K V] {dot : V →ₗ[K] V →ₗ[K] K}
    (hs : ∀ u v, dot u v = dot v u) (hdef : ∀ v, dot v v = 0 → v = 0)
    {P A : V →ₗ[K] V} (hP : ∀ v, P (P v) = P v) (hPs : ∀ u v, dot (P u) v = dot u (P v))
    (hA : ∀ u v, dot (A u) v = dot u (A v)) {rhs x0 : V} {δ : K} (js : List Nat) :
    ∀ (is : List Nat) (Sr Sd : List V) (t : CG K V), CGHistory dot P A rhs Sr Sd t →
      (t.r = 0 → t.d = 0) → Module.finrank K V < Sr.length + is.length →
      cgLoop (fun u v => dot u v) P A rhs x0 δ (is ++ js) t =
        cgLoop (fun u v => dot u v) P A rhs x0 δ is t := by
  intro is
  induction is with
  | nil =>
    intro Sr Sd t h _ hlen
    have := orthogonal_le_finrank hs h.orth h.nonzero
    simp at hlen
    omega
  | cons i is ih =>
    intro Sr Sd t h h0 hlen
    rw [List.cons_append, cgLoop, cgLoop]
    by_cases hb : (cgIter (fun u v => dot u v) P A rhs x0 δ i t).2 = true
    · simp only [hb, if_true]
    · simp only [hb]
      obtain ⟨k1, k2⟩ := cg_history_step hs hdef hP hPs hA h h0 (by simpa using hb)
      exact ih _ _ _ k1 k2 (by simp only [List.length_cons] at hlen ⊢; omega)

/-- C42: for a symmetric operator on a space of finite dimension `n` the loop ends by itself within
`n + 1` iterations: a larger iteration limit does not change the result -/
theorem C42_terminates [FiniteDimensional K V] (dot : V →ₗ[K] V →ₗ[K] K)
    (hs : ∀ u v, dot u v = dot v u) (hdef : ∀ v, dot v v = 0 → v = 0)
    (P A : V →ₗ[K] V) (hP : ∀ v, P (P v) = P v) (hPs : ∀ u v, dot (P u) v = dot u (P v))
    (hA : ∀ u v, dot (A u) v = dot u (A v)) (rhs x0 : V) (maxIter : Nat)
    (hm : Module.finrank K V < maxIter) :
    solveCG (fun u v => dot u v) P A rhs x0 maxIter =
      solveCG (fun u v => dot u v) P A rhs x0 (Module.finrank K V + 1) := by
  obtain ⟨k, rfl⟩ : ∃ k, maxIter = Module.finrank K V + 1 + k := ⟨maxIter - Module.finrank K V - 1, by omega⟩
  unfold solveCG
  simp only []
  rw [List.range_add]
  refine cgLoop_ends hs hdef hP hPs hA _ _ [] [] _ ?_ (fun h => h) (by simp)
  refine ⟨by simp [cgInit, hP], by simp [cgInit], by simp [cgInit, hP], rfl, ?_, ?_, ?_, ?_, ?_, ?_,
    ?_, ?_⟩ <;> simp [cgInit]

end

/-- one step solves a one-dimensional problem: `2 x = 6` from `x0 = 1` -/
example : (solveCG (fun u v : ℚ => u * v) (LinearMap.id : ℚ →ₗ[ℚ] ℚ)
    ((2 : ℚ) • (LinearMap.id : ℚ →ₗ[ℚ] ℚ)) 6 1 1).x = 3 := by
  simp [solveCG, cgLoop, cgIter, cgInit, cgEps, List.range_succ]
  norm_num

/-- the hypotheses of `C42_terminates` for `3 x = rhs`: two iterations are enough -/
example (rhs x0 : ℚ) : solveCG (fun u v => LinearMap.mul ℚ ℚ u v) (LinearMap.id : ℚ →ₗ[ℚ] ℚ)
    ((3 : ℚ) • (LinearMap.id : ℚ →ₗ[ℚ] ℚ)) rhs x0 3000 =
    solveCG (fun u v => LinearMap.mul ℚ ℚ u v) (LinearMap.id : ℚ →ₗ[ℚ] ℚ)
    ((3 : ℚ) • (LinearMap.id : ℚ →ₗ[ℚ] ℚ)) rhs x0 2 := by
  have h := C42_terminates (LinearMap.mul ℚ ℚ) (fun u v => mul_comm u v)
    (fun v h => mul_self_eq_zero.mp h) LinearMap.id ((3 : ℚ) • LinearMap.id) (fun _ => rfl)
    (fun _ _ => rfl) (fun u v => by simp [mul_left_comm, mul_assoc]) rhs x0 3000
    (by rw [Module.finrank_self]; norm_num)
  rwa [Module.finrank_self] at h

end Verif.Props
