/-
The weighted circumcenter of a simplex whose edges from corner to corner are at right angles to each
other (an orthoscheme), when only the first corner has a weight.
-/
import Verif.Spec.Delaunay
import Verif.Lemmas.PowerCenters
import Verif.Lemmas.PickCoords
import Mathlib.Tactic.LinearCombination
import Mathlib.Tactic.FieldSimp

set_option linter.unusedSectionVars false

namespace Verif

open Spec

variable {D : Nat} {V : List (Fin D → ℝ)}

/-- the coordinates of a weighted circumcenter are unique -/
theorem Spec.PowerCoords.unique {w : Nat → ℝ} {l : List Nat} (hn : l.Nodup) {P : Nat} (hl : l.length = P)
    (ha : AffineIndependent ℝ (cornersOf V P l)) {y y' : Nat → ℝ} {c c' : Fin D → ℝ}
    (h : PowerCoords V w l.toFinset y c) (h' : PowerCoords V w l.toFinset y' c') :
    c = c' ∧ ∀ v ∈ l, y v = y' v := by
  have hc : c = c' := center_unique (cornersOf V P l) (fun i => w (l[i.val]?.getD 0)) _ _
    ⟨⟨_, (h.isCenter hn hl).1⟩, (h.isCenter hn hl).2⟩ ⟨⟨_, (h'.isCenter hn hl).1⟩, (h'.isCenter hn hl).2⟩
  subst hc
  refine ⟨rfl, fun v hv => ?_⟩
  have h1 : Coordinates V l c y := ⟨h.one, h.point⟩
  have h2 : Coordinates V l c y' := ⟨h'.one, h'.point⟩
  have := (h1.combines hl hn).unique ha (h2.combines hl hn)
  obtain ⟨i, hi, rfl⟩ := List.mem_iff_getElem.1 hv
  have := congrFun this ⟨i, by omega⟩
  simpa [List.getElem?_eq_getElem hi] using this

/-- the coordinates of the center of an orthoscheme -/
noncomputable def schemeCoords (n : Nat) (q : Nat → Nat) (α : ℝ) (v : Nat) : ℝ :=
  if v = q 0 then α else if v = q 1 then 1 / 2 - α else if v = q n then 1 / 2 else 0

theorem scheme_coords {w : Nat → ℝ} {n : Nat} (hn : 2 ≤ n) {q : Nat → Nat} {l : List Nat}
    (hl : ∀ v, v ∈ l ↔ ∃ k ≤ n, q k = v) (hinj : ∀ i ≤ n, ∀ j ≤ n, q i = q j → i = j)
    (horth : ∀ i j k, i ≤ j → j ≤ k → k ≤ n →
      ∑ c, (position V (q i) c - position V (q j) c) * (position V (q k) c - position V (q j) c) = 0)
    (hw : ∀ k, 1 ≤ k → k ≤ n → w (q k) = 0)
    (he : dist2 (position V (q 0)) (position V (q 1)) ≠ 0) :
    PowerCoords V w l.toFinset
      (schemeCoords n q (1 / 2 - w (q 0) / (2 * dist2 (position V (q 0)) (position V (q 1)))))
      (fun c => (1 / 2 - w (q 0) / (2 * dist2 (position V (q 0)) (position V (q 1)))) * position V (q 0) c +
        (1 / 2 - (1 / 2 - w (q 0) / (2 * dist2 (position V (q 0)) (position V (q 1))))) * position V (q 1) c +
        1 / 2 * position V (q n) c) := by
  set e2 := dist2 (position V (q 0)) (position V (q 1)) with he2
  set α := 1 / 2 - w (q 0) / (2 * e2) with hα
  have h01 : q 0 ≠ q 1 := fun h => absurd (hinj 0 (by omega) 1 (by omega) h) (by omega)
  have h0n : q 0 ≠ q n := fun h => absurd (hinj 0 (by omega) n (le_refl n) h) (by omega)
  have h1n : q 1 ≠ q n := fun h => absurd (hinj 1 (by omega) n (le_refl n) h) (by omega)
  have hmem : ∀ k ≤ n, q k ∈ l.toFinset := fun k hk => List.mem_toFinset.2 ((hl _).2 ⟨k, hk, rfl⟩)
  have hsum : ∀ f : Nat → ℝ, ∑ v ∈ l.toFinset, schemeCoords n q α v * f v =
      α * f (q 0) + (1 / 2 - α) * f (q 1) + 1 / 2 * f (q n) := by
    intro f
    have hs : ∀ v, schemeCoords n q α v * f v = (if v = q 0 then α * f v else 0) +
        (if v = q 1 then (1 / 2 - α) * f v else 0) + (if v = q n then 1 / 2 * f v else 0) := by
      intro v
      unfold schemeCoords
      by_cases a : v = q 0
      · subst a
        simp [h01, h0n]
      · by_cases b : v = q 1
        · subst b
          simp [h01.symm, h1n]
        · by_cases c : v = q n
          · subst c
            simp [h0n.symm, h1n.symm]
          · simp [a, b, c]
    simp only [hs, Finset.sum_add_distrib, Finset.sum_ite_eq', hmem 0 (by omega), hmem 1 (by omega),
      hmem n (le_refl n), if_true]
  refine ⟨?_, fun j => (hsum fun v => position V v j).symm, ?_⟩
  · have := hsum fun _ => 1
    simp only [mul_one] at this
    rw [this]
    ring
  · have hw0 : e2 * (1 - 2 * α) = w (q 0) := by
      rw [hα]
      field_simp
      ring
    have key : ∀ v ∈ l.toFinset, power (fun c => α * position V (q 0) c + (1 / 2 - α) * position V (q 1) c +
        1 / 2 * position V (q n) c) (position V v) (w v) =
        α ^ 2 * e2 + 1 / 4 * ∑ c, (position V (q n) c - position V (q 1) c) ^ 2 := by
      intro v hv
      obtain ⟨k, hk, rfl⟩ := (hl v).1 (List.mem_toFinset.1 hv)
      have o2 := horth 0 1 n (by omega) (by omega) (le_refl n)
      rcases Nat.eq_zero_or_pos k with rfl | hk0
      · have e : ∀ c : Fin D, (α * position V (q 0) c + (1 / 2 - α) * position V (q 1) c +
            1 / 2 * position V (q n) c - position V (q 0) c) ^ 2 =
            (α - 1) ^ 2 * (position V (q 0) c - position V (q 1) c) ^ 2 +
            1 / 4 * (position V (q n) c - position V (q 1) c) ^ 2 +
            (α - 1) * ((position V (q 0) c - position V (q 1) c) * (position V (q n) c - position V (q 1) c)) :=
          fun c => by ring
        unfold power
        simp only [e, Finset.sum_add_distrib, ← Finset.mul_sum, o2]
        have : ∑ c, (position V (q 0) c - position V (q 1) c) ^ 2 = e2 := by rw [he2]; rfl
        rw [this, ← hw0]
        ring
      · have o1 := horth 0 1 k (by omega) (by omega) hk
        have o3 := horth 1 k n (by omega) hk (le_refl n)
        have e : ∀ c : Fin D, (α * position V (q 0) c + (1 / 2 - α) * position V (q 1) c +
            1 / 2 * position V (q n) c - position V (q k) c) ^ 2 =
            α ^ 2 * (position V (q 0) c - position V (q 1) c) ^ 2 +
            1 / 4 * (position V (q n) c - position V (q 1) c) ^ 2 +
            (position V (q 1) c - position V (q k) c) * (position V (q n) c - position V (q k) c) +
            α * ((position V (q 0) c - position V (q 1) c) * (position V (q n) c - position V (q 1) c)) +
            (-2 * α) * ((position V (q 0) c - position V (q 1) c) * (position V (q k) c - position V (q 1) c)) :=
          fun c => by ring
        unfold power
        simp only [e, Finset.sum_add_distrib, ← Finset.mul_sum, o1, o2, o3]
        have : ∑ c, (position V (q 0) c - position V (q 1) c) ^ 2 = e2 := by rw [he2]; rfl
        rw [this, hw k hk0 hk]
        ring
    intro u hu v hv
    rw [key u hu, key v hv]

end Verif
