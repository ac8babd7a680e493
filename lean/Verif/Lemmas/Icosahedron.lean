/-
The corners and the triangles of the icosahedron.
-/
import Verif.Model.Icosphere
import Verif.Lemmas.Reorient

set_option linter.unusedSectionVars false

namespace Verif

open Model Spec Props

/-! ### Numbers `m + n φ` -/

theorem phi_sq : phi ^ 2 = phi + 1 := Real.goldenRatio_sq

theorem phi_bounds : 1.618 < phi ∧ phi < 1.6181 := by
  have h5 : Real.sqrt 5 ^ 2 = 5 := Real.sq_sqrt (by norm_num)
  have hn := Real.sqrt_nonneg 5
  unfold phi
  constructor <;> nlinarith

/-- coordinate `k` of corner `v` is `m + n φ` -/
def icoPair (v : Nat) (k : Fin 3) : Int × Int :=
  if (k.val + 2 * (v / 4)) % 3 = 0 then (0, 0)
  else if (k.val + 2 * (v / 4)) % 3 = 1 then (if v / 2 % 2 = 1 then 1 else -1, 0)
  else (0, if v % 2 = 1 then 1 else -1)

noncomputable def icoPoint (v : Nat) : Fin 3 → ℝ := fun k => (icoPair v k).1 + (icoPair v k).2 * phi

theorem icoVertices_eq : icoVertices = (List.range 12).map icoPoint := by
  simp only [icoVertices, icoQ, List.finRange_succ, List.finRange_zero, List.map_cons, List.map_nil,
    List.flatMap_cons, List.flatMap_nil, List.append_nil, List.cons_append, List.nil_append, List.range_succ,
    List.range_zero, List.cons.injEq, and_true]
  refine ⟨?_, ?_, ?_, ?_, ?_, ?_, ?_, ?_, ?_, ?_, ?_, ?_⟩ <;> funext k <;> fin_cases k <;>
    simp [rollRow, icoPoint, icoPair]

/-- the square of a distance -/
def icoDist (v w : Nat) : Int × Int :=
  (((List.finRange 3).map fun k => ((icoPair v k).1 - (icoPair w k).1) ^ 2 + ((icoPair v k).2 - (icoPair w k).2) ^ 2).sum,
   ((List.finRange 3).map fun k => 2 * ((icoPair v k).1 - (icoPair w k).1) * ((icoPair v k).2 - (icoPair w k).2) +
      ((icoPair v k).2 - (icoPair w k).2) ^ 2).sum)

theorem icoDist_eq (v w : Nat) : dot (icoPoint v - icoPoint w) (icoPoint v - icoPoint w) =
    (icoDist v w).1 + (icoDist v w).2 * phi := by
  have h := phi_sq
  simp only [icoDist, dot, Fin.sum_univ_three, Pi.sub_apply, icoPoint, List.finRange_succ, List.finRange_zero,
    List.map_cons, List.map_nil, List.sum_cons, List.sum_nil]
  push_cast
  linear_combination (exp := 1) (((icoPair v 0).2 - (icoPair w 0).2 : ℝ) ^ 2 + ((icoPair v 1).2 - (icoPair w 1).2 : ℝ) ^ 2 +
    ((icoPair v 2).2 - (icoPair w 2).2 : ℝ) ^ 2) * h

/-! ### The triangles -/

/-- the twenty triangles -/
def icoFaces : List (List Nat) :=
  [[0, 2, 4], [0, 2, 5], [0, 4, 8], [0, 5, 10], [0, 8, 10], [1, 3, 6], [1, 3, 7], [1, 6, 8], [1, 7, 10], [1, 8, 10],
   [2, 4, 9], [2, 5, 11], [2, 9, 11], [3, 6, 9], [3, 7, 11], [3, 9, 11], [4, 6, 8], [4, 6, 9], [5, 7, 10], [5, 7, 11]]

theorem spread_three (a b c : Fin 3 → ℝ) : spread [a, b, c] =
    Real.sqrt ((2 * dot (a - b) (a - b) + 2 * dot (a - c) (a - c) - dot (b - c) (b - c)) / 9) +
    Real.sqrt ((2 * dot (a - b) (a - b) + 2 * dot (b - c) (b - c) - dot (a - c) (a - c)) / 9) +
    Real.sqrt ((2 * dot (a - c) (a - c) + 2 * dot (b - c) (b - c) - dot (a - b) (a - b)) / 9) := by
  simp only [spread, List.map_cons, List.map_nil, List.sum_cons, List.sum_nil, List.length_cons, List.length_nil,
    add_zero]
  rw [← add_assoc]
  congr 1
  · congr 1
    · congr 1
      simp only [dot, Fin.sum_univ_three, Pi.sub_apply]
      push_cast
      ring
    · congr 1
      simp only [dot, Fin.sum_univ_three, Pi.sub_apply]
      push_cast
      ring
  · congr 1
    simp only [dot, Fin.sum_univ_three, Pi.sub_apply]
    push_cast
    ring

/-- how far apart the corners of three numbers are -/
def icoKinds (i j k : Nat) : (Int × Int) × (Int × Int) × (Int × Int) := (icoDist i j, icoDist i k, icoDist j k)

def icoShapes : List ((Int × Int) × (Int × Int) × (Int × Int)) :=
  let A := (4, 0)
  let B := (4, 4)
  let C := (8, 4)
  [(A, A, B), (A, B, A), (B, A, A), (A, B, B), (B, A, B), (B, B, A), (B, B, B),
   (A, B, C), (A, C, B), (B, A, C), (B, C, A), (C, A, B), (C, B, A)]

theorem ico_rows : ∀ row ∈ combinations3 12, ∃ i j k, row = [i, j, k] ∧ i < 12 ∧ j < 12 ∧ k < 12 ∧
    ((row ∈ icoFaces ∧ icoKinds i j k = ((4, 0), (4, 0), (4, 0))) ∨ (row ∉ icoFaces ∧ icoKinds i j k ∈ icoShapes)) := by
  have h : ∀ row ∈ combinations3 12, row = [row[0]?.getD 0, row[1]?.getD 0, row[2]?.getD 0] ∧
      row[0]?.getD 0 < 12 ∧ row[1]?.getD 0 < 12 ∧ row[2]?.getD 0 < 12 ∧
    ((row ∈ icoFaces ∧ icoKinds (row[0]?.getD 0) (row[1]?.getD 0) (row[2]?.getD 0) = ((4, 0), (4, 0), (4, 0))) ∨
      (row ∉ icoFaces ∧ icoKinds (row[0]?.getD 0) (row[1]?.getD 0) (row[2]?.getD 0) ∈ icoShapes)) := by
    decide +kernel
  intro row hr
  exact ⟨_, _, _, h row hr⟩

theorem ico_filter : (combinations3 12).filter (fun row => decide (row ∈ icoFaces)) = icoFaces := by
  decide +kernel

/-- the triangles with a small spread are the twenty -/
theorem ico_spread {i j k : Nat} (h : icoKinds i j k = ((4, 0), (4, 0), (4, 0)) ∨ icoKinds i j k ∈ icoShapes) :
    spread [icoPoint i, icoPoint j, icoPoint k] < 4 ↔ icoKinds i j k = ((4, 0), (4, 0), (4, 0)) := by
  obtain ⟨p1, p2⟩ := phi_bounds
  rw [spread_three, icoDist_eq, icoDist_eq, icoDist_eq]
  have hk : icoKinds i j k = (icoDist i j, icoDist i k, icoDist j k) := rfl
  rw [hk] at h ⊢
  generalize icoDist i j = x at *
  generalize icoDist i k = y at *
  generalize icoDist j k = z at *
  constructor
  · intro hlt
    rcases h with h | h
    · exact h
    exfalso
    have lb : ∀ (r X : ℝ), 0 ≤ r → r ^ 2 ≤ X → r ≤ Real.sqrt X := fun r X hr hX => Real.le_sqrt_of_sq_le hX
    -- lower bounds for the distances from the mean
    have s1 := lb 0.78 ((2 * 4 + 2 * 4 - (4 + 4 * phi)) / 9) (by norm_num) (by linarith)
    have s2 := lb 1.66 ((2 * 4 + 2 * (4 + 4 * phi) - 4) / 9) (by norm_num) (by linarith)
    have s2' := lb 1.66 ((2 * (4 + 4 * phi) + 2 * 4 - 4) / 9) (by norm_num) (by linarith)
    have s3 := lb 1.43 ((2 * 4 + 2 * (4 + 4 * phi) - (4 + 4 * phi)) / 9) (by norm_num) (by linarith)
    have s3' := lb 1.43 ((2 * (4 + 4 * phi) + 2 * 4 - (4 + 4 * phi)) / 9) (by norm_num) (by linarith)
    have s4 := lb 2.05 ((2 * (4 + 4 * phi) + 2 * (4 + 4 * phi) - 4) / 9) (by norm_num) (by linarith)
    have s5 := lb 1.86 ((2 * (4 + 4 * phi) + 2 * (4 + 4 * phi) - (4 + 4 * phi)) / 9) (by norm_num) (by linarith)
    have s6 := lb 1.26 ((2 * 4 + 2 * (4 + 4 * phi) - (8 + 4 * phi)) / 9) (by norm_num) (by linarith)
    have s6' := lb 1.26 ((2 * (4 + 4 * phi) + 2 * 4 - (8 + 4 * phi)) / 9) (by norm_num) (by linarith)
    have s7 := lb 1.71 ((2 * 4 + 2 * (8 + 4 * phi) - (4 + 4 * phi)) / 9) (by norm_num) (by linarith)
    have s7' := lb 1.71 ((2 * (8 + 4 * phi) + 2 * 4 - (4 + 4 * phi)) / 9) (by norm_num) (by linarith)
    have s8 := lb 2.25 ((2 * (4 + 4 * phi) + 2 * (8 + 4 * phi) - 4) / 9) (by norm_num) (by linarith)
    have s8' := lb 2.25 ((2 * (8 + 4 * phi) + 2 * (4 + 4 * phi) - 4) / 9) (by norm_num) (by linarith)
    simp only [icoShapes, List.mem_cons, List.not_mem_nil, or_false, Prod.mk.injEq] at h
    rcases h with h | h | h | h | h | h | h | h | h | h | h | h | h <;> obtain ⟨rfl, rfl, rfl⟩ := h <;>
      (push_cast at hlt; try simp only [zero_mul, add_zero] at hlt
       linarith)
  · intro h
    simp only [Prod.mk.injEq] at h
    obtain ⟨rfl, rfl, rfl⟩ := h
    push_cast
    simp only [zero_mul, add_zero]
    have : Real.sqrt ((2 * 4 + 2 * 4 - 4) / 9) ≤ 1.16 := by
      rw [Real.sqrt_le_left (by norm_num)]; norm_num
    linarith

theorem vertexAt_ico {v : Nat} (h : v < 12) : vertexAt icoVertices v = .ok (icoPoint v) := by
  unfold vertexAt
  rw [icoVertices_eq, List.getElem?_map, List.getElem?_range h]
  rfl

theorem filter_zip {α β : Type} (L : List α) (g : α → β) (P : β → Bool) :
    ((L.zip (L.map g)).filter fun tc => P tc.2).map Prod.fst = L.filter fun x => P (g x) := by
  induction L with
  | nil => rfl
  | cons a L ih =>
    simp only [List.map_cons, List.zip_cons_cons, List.filter_cons]
    split
    · rw [List.map_cons, ih]
    · exact ih

/-- the triangles that `icosahedron` finds -/
theorem icoTriangles_eq : icoTriangles = .ok icoFaces := by
  classical
  unfold icoTriangles
  have hrows := ico_rows
  have hf := ico_filter
  generalize combinations3 12 = L at *
  have hm : L.mapM (fun row => row.mapM (vertexAt icoVertices)) = .ok (L.map fun row => row.map icoPoint) := by
    refine mapM_ok _ _ _ fun row hr => ?_
    obtain ⟨i, j, k, rfl, hi, hj, hk, -⟩ := hrows row hr
    refine mapM_ok _ _ _ fun v hv => vertexAt_ico ?_
    simp at hv
    omega
  simp only [hm, bind, Except.bind]
  congr 1
  rw [filter_zip L (fun row => row.map icoPoint) fun c => decide (spread c < 4)]
  rw [← hf]
  refine List.filter_congr fun row hr => ?_
  obtain ⟨i, j, k, rfl, hi, hj, hk, h⟩ := hrows row hr
  have hs := ico_spread (i := i) (j := j) (k := k) (by rcases h with h | h <;> tauto)
  have hn : ((4, 0), (4, 0), (4, 0)) ∉ icoShapes := by decide
  rw [decide_eq_decide]
  show spread [icoPoint i, icoPoint j, icoPoint k] < 4 ↔ _
  rw [hs]
  constructor
  · intro h0
    rcases h with h | h
    · exact h.1
    · exact absurd (h0 ▸ h.2) hn
  · intro h0
    rcases h with h | h
    · exact h.2
    · exact absurd h0 h.1

end Verif
