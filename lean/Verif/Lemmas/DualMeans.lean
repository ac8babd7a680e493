/-
Averages over the dual vertices of the cells of a dual that has been closed along the boundary.
-/
import Verif.Lemmas.DualAveraging
import Verif.Props.Averaging

set_option linter.unusedSectionVars false

namespace Verif.Glued

open Verif.Model Verif.Spec Verif.Props

variable {m : Nat} {t : Topo} {s : Sub}
variable {K : Type} [Field K] [CharZero K]

/-- the factor that the wrap-around of the number of chains puts before a mean: one up to five levels -/
def weight (K : Type) [Field K] (d : Nat) : K :=
  ((wrap8 (d.factorial : ℤ) : ℤ) : K) / ((wrap8 (wrap8 (d.factorial : ℤ)).natAbs : ℤ) : K)

theorem filter_range_add (a b : Nat) (p : Nat → Bool) :
    (List.range (a + b)).filter p = (List.range a).filter p ++ ((List.range b).filter fun r => p (a + r)).map (a + ·) := by
  rw [List.range_add, List.filter_append, List.filter_map]
  rfl

/-- rows of the averaging operators of the dual: `U k c r` says that the `k`-element `c` is a face of the top element `r`,
`V k c r` that it lies in the boundary face `r` -/
theorem average (g : Glued (m + 1) t s) {LX LW : List (Mat Int)} (U V : Nat → Nat → Nat → Bool)
    (hX : accumulatedOperators0 ((List.range (m + 2)).map (closedDualMatrix t)).reverse = .ok LX)
    (hW : accumulatedOperators0 ((List.range (m + 1)).map (closedDualMatrix s.topo)).reverse = .ok LW)
    (hXc : ∀ d k, d + 1 + k = m + 2 → ∀ X, LX[d + 1]? = some X → ∀ r < t.nElements (m + 2), ∀ c < t.nElements k,
      X.entry r c = wrap8 (if U k c r then ((d + 1).factorial : ℤ) else 0))
    (hWc : ∀ d k, d + k = m + 1 → ∀ W, LW[d]? = some W → ∀ r < s.topo.nElements (m + 1), ∀ (q p : Nat),
      (s.parentIdx[k]?.getD [])[q]? = some p → W.entry r q = wrap8 (if V k p r then (d.factorial : ℤ) else 0))
    (hV : ∀ k ≤ m + 1, ∀ c < t.nElements k, ∀ r < s.topo.nElements (m + 1), V k c r → c ∈ s.parentIdx[k]?.getD []) :
    ∃ L : List (Mat K), averagingOperators0 ((List.range (m + 2)).map (block t s)).reverse = .ok L ∧ L.length = m + 3 ∧
      (∃ A, L[0]? = some A ∧ A.rows = t.nElements (m + 2) + s.topo.nElements (m + 1) ∧ A.cols = A.rows ∧
        ∀ i < A.rows, ∀ x : Nat → K, ((List.range A.cols).map fun j => A.entry i j * x j).sum = x i) ∧
      ∀ d k, d + 1 + k = m + 2 → ∃ A, L[d + 1]? = some A ∧ A.rows = t.nElements k + nB s k ∧
        A.cols = t.nElements (m + 2) + s.topo.nElements (m + 1) ∧
        (∀ c < t.nElements k, ∀ x : Nat → K, ((List.range A.cols).map fun j => A.entry c j * x j).sum =
          weight K (d + 1) * mean (((List.range (t.nElements (m + 2))).filter (U k c)).map x ++
            ((List.range (s.topo.nElements (m + 1))).filter (V k c)).map fun r => x (t.nElements (m + 2) + r))) ∧
        (∀ j q p : Nat, k = j + 1 → (s.parentIdx[j]?.getD [])[q]? = some p → ∀ x : Nat → K,
          ((List.range A.cols).map fun j => A.entry (t.nElements k + q) j * x j).sum =
          weight K (d + 1) * mean (((List.range (s.topo.nElements (m + 1))).filter (V j p)).map
            fun r => x (t.nElements (m + 2) + r))) := by
  obtain ⟨L, l1, l2, lx, lw, l3⟩ := g.accumulated hX hW
  refine ⟨L.map fun a => normalizeL1 a.transpose, ?_, by rw [List.length_map, l2], ?_, ?_⟩
  · unfold averagingOperators0
    rw [l1]
    rfl
  · obtain ⟨A, X, a1, a2, a3, a4, b1, b2, b3, b4, b5⟩ := l3 0 (m + 2) (by omega)
    have hn : nB s (m + 2) = s.topo.nElements (m + 1) := rfl
    obtain ⟨L', g1, -, g3, -⟩ := accumulated_chain (blocks_chained t s (m + 1)) (by simp)
    rw [l1] at g1
    obtain rfl := Except.ok.inj g1
    obtain rfl := Option.some.inj (a1.symm.trans g3)
    refine ⟨_, by rw [List.getElem?_map, a1]; rfl, a4, rfl, fun i hi x => ?_⟩
    show ((List.range (t.nElements (m + 1 + 1) + s.topo.nElements (m + 1))).map _).sum = _
    have := normalize_row (K := K) (A := identity8 (t.nElements (m + 1 + 1) + s.topo.nElements (m + 1)))
      (i := i) (fun j => j == i) 1 (by
        intro j _
        simp only [identity8, beq_iff_eq]
        split <;> rfl) x
    refine this.trans ?_
    have hi : i < t.nElements (m + 1 + 1) + s.topo.nElements (m + 1) := hi
    have hf : (List.range (t.nElements (m + 1 + 1) + s.topo.nElements (m + 1))).filter (fun j => j == i) = [i] := by
      rw [List.filter_beq, List.count_eq_one_of_mem List.nodup_range (List.mem_range.2 hi), List.replicate_one]
    show _ * mean (((List.range (t.nElements (m + 1 + 1) + s.topo.nElements (m + 1))).filter _).map x) = _
    rw [hf]
    unfold mean
    rw [show wrap8 1 = 1 from rfl, show wrap8 ((1 : ℤ).natAbs : ℤ) = 1 from rfl]
    simp
  · intro d k hk
    obtain ⟨A, X, a1, a2, a3, a4, b1, b2, b3, b4, -⟩ := l3 (d + 1) k (by omega)
    refine ⟨_, by rw [List.getElem?_map, a1]; rfl, a4, a3, fun c hc x => ?_, fun j q p hj hq x => ?_⟩
    · have := normalize_row (K := K) (A := A) (i := c)
        (fun r => if r < t.nElements (m + 2) then U k c r else V k c (r - t.nElements (m + 2))) ((d + 1).factorial : ℤ) (by
          intro r hr
          rw [a3] at hr
          by_cases hlt : r < t.nElements (m + 2)
          · simp only [hlt, if_true]
            rw [b1 r hlt c hc, hXc d k hk X a2 r hlt c hc, wrap8_wrap8]
          · obtain ⟨r', rfl⟩ : ∃ r', r = t.nElements (m + 2) + r' := ⟨r - t.nElements (m + 2), by omega⟩
            have hr' : r' < s.topo.nElements (m + 1) := by omega
            simp only [hlt, if_false, Nat.add_sub_cancel_left]
            obtain ⟨W, W1, W2⟩ := b3 r' hr' c hc d rfl
            rw [W2]
            apply wrap8_eq
            have hp := g.picks k (by omega)
            have hcount := g.count k (by omega)
            by_cases hm : c ∈ s.parentIdx[k]?.getD []
            · obtain ⟨q, hq⟩ := List.mem_iff_getElem?.1 hm
              have hql := (List.getElem?_eq_some_iff.1 hq).1
              rw [Finset.sum_eq_single q]
              · rw [if_pos hq, one_mul, hWc d k (by omega) W W1 r' hr' q c hq]
                refine ((wrap8_modEq _).mul_left _).trans ?_
                rw [Nat.factorial_succ]
                split
                · push_cast; rfl
                · rw [mul_zero]
              · intro q' hq' hne
                rw [if_neg, zero_mul]
                intro h
                obtain ⟨h1, h2⟩ := List.getElem?_eq_some_iff.1 h
                obtain ⟨h3, h4⟩ := List.getElem?_eq_some_iff.1 hq
                exact hne ((List.Nodup.getElem_inj_iff hp.1).1 (h2.trans h4.symm))
              · intro h
                rw [Finset.mem_range] at h
                omega
            · rw [Finset.sum_eq_zero, mul_zero, if_neg]
              · exact fun h => hm (hV k (by omega) c hc r' hr' h)
              · intro q _
                rw [if_neg, zero_mul]
                exact fun h => hm (List.mem_of_getElem? h)) x
      refine this.trans ?_
      congr 2
      rw [a3, filter_range_add, List.map_append, List.map_map]
      congr 1
      · congr 1
        apply List.filter_congr
        intro r hr
        rw [if_pos (List.mem_range.1 hr)]
      · have e : ((List.range (s.topo.nElements (m + 1))).filter fun r =>
            if t.nElements (m + 2) + r < t.nElements (m + 2) then U k c (t.nElements (m + 2) + r)
              else V k c (t.nElements (m + 2) + r - t.nElements (m + 2))) =
            (List.range (s.topo.nElements (m + 1))).filter (V k c) := by
          apply List.filter_congr
          intro r _
          rw [if_neg (by omega), Nat.add_sub_cancel_left]
        rw [e]
        rfl
    · subst hj
      have hn : nB s (j + 1) = s.topo.nElements j := rfl
      have hql : q < nB s (j + 1) := by
        rw [hn, ← g.count j (by omega)]
        exact (List.getElem?_eq_some_iff.1 hq).1
      have := normalize_row (K := K) (A := A) (i := t.nElements (j + 1) + q)
        (fun r => if r < t.nElements (m + 2) then false else V j p (r - t.nElements (m + 2))) ((d + 1).factorial : ℤ) (by
          intro r hr
          rw [a3] at hr
          by_cases hlt : r < t.nElements (m + 2)
          · simp only [hlt, if_true]
            rw [b2 r hlt q hql]
            rfl
          · obtain ⟨r', rfl⟩ : ∃ r', r = t.nElements (m + 2) + r' := ⟨r - t.nElements (m + 2), by omega⟩
            have hr' : r' < s.topo.nElements (m + 1) := by omega
            simp only [hlt, if_false, Nat.add_sub_cancel_left]
            obtain ⟨W, W1, W2⟩ := b4 r' hr' q hql
            rw [W2, hWc (d + 1) j (by omega) W W1 r' hr' q p hq, wrap8_wrap8]) x
      refine this.trans ?_
      congr 2
      rw [a3, filter_range_add, List.map_append, List.map_map]
      have e0 : ((List.range (t.nElements (m + 2))).filter fun r =>
          if r < t.nElements (m + 2) then false else V j p (r - t.nElements (m + 2))) = [] := by
        rw [List.filter_eq_nil_iff]
        intro r hr
        rw [if_pos (List.mem_range.1 hr)]
        exact Bool.false_ne_true
      have e : ((List.range (s.topo.nElements (m + 1))).filter fun r =>
          if t.nElements (m + 2) + r < t.nElements (m + 2) then false
            else V j p (t.nElements (m + 2) + r - t.nElements (m + 2))) =
          (List.range (s.topo.nElements (m + 1))).filter (V j p) := by
        apply List.filter_congr
        intro r _
        rw [if_neg (by omega), Nat.add_sub_cancel_left]
      rw [e0, e]
      rfl

end Verif.Glued
