/-
Orientation and counts of grids.
-/
import Verif.Lemmas.Grid
import Verif.Spec.Grid
import Verif.Props.Cubical
import Verif.Props.Orientation

set_option linter.unusedSectionVars false

namespace Verif

open Verif.Model Verif.Spec Verif.Props

/-- `is_oriented` in terms of the entries of the matrix -/
theorem isOriented_of_matrix {solve : List (List Int) → Option (List Int)} (hsat : SatSpec solve) {t : Topo} {n : Nat}
    (hB : t.boundary.length = n + 1)
    (hrows : ∀ i < (t.matrix n).rows, ∀ j1 j2, nonzeroCols (t.matrix n) i = [j1, j2] →
      ((t.matrix n).entry i j1 = 1 ∨ (t.matrix n).entry i j1 = -1) ∧
      (t.matrix n).entry i j1 + (t.matrix n).entry i j2 = 0)
    (hcon : ∀ f : Nat → Bool,
      (∀ i < (t.matrix n).rows, ∀ j1 j2, nonzeroCols (t.matrix n) i = [j1, j2] → f j1 = f j2) →
      ∀ j1 < (t.matrix n).cols, ∀ j2 < (t.matrix n).cols, f j1 = f j2) :
    isOriented solve t = .ok true := by
  set M := t.matrix n with hM
  by_cases hc : interiorClauses M = []
  · have : relativeParity solve t = .ok (List.replicate (t.nElements (n + 1)) false) := by
      unfold relativeParity
      simp [hB, ← hM, hc]
    rw [isOriented_of this]
    congr 1
    cases t.nElements (n + 1) with
    | zero => rfl
    | succ k => simp [List.replicate_succ, allEqual]
  · have hrp : relativeParity solve t = match solve (allClauses M) with
        | none => .error .valueError
        | some m => .ok (m.map orientationToParity) := by
      unfold relativeParity allClauses
      simp only [hB, hc, Nat.add_sub_cancel, if_false, Nat.add_one_ne_zero, ← hM]
      rfl
    -- literals
    have hlit : ∀ c ∈ allClauses M, ∃ i < M.rows, ∃ j1 j2, nonzeroCols M i = [j1, j2] ∧
        (c = [((j1 : Int) + 1) * M.entry i j1, ((j2 : Int) + 1) * M.entry i j2] ∨
         c = [-(((j1 : Int) + 1) * M.entry i j1), -(((j2 : Int) + 1) * M.entry i j2)]) := by
      intro c hcm
      rcases List.mem_append.1 hcm with h | h
      · obtain ⟨i, hi, j1, j2, hz, rfl⟩ := mem_interiorClauses.1 h
        exact ⟨i, hi, j1, j2, hz, Or.inl rfl⟩
      · obtain ⟨c', hc', rfl⟩ := List.mem_map.1 h
        obtain ⟨i, hi, j1, j2, hz, rfl⟩ := mem_interiorClauses.1 hc'
        exact ⟨i, hi, j1, j2, hz, Or.inr rfl⟩
    have hpm : ∀ i < M.rows, ∀ j1 j2, nonzeroCols M i = [j1, j2] →
        (M.entry i j1 = 1 ∨ M.entry i j1 = -1) ∧ (M.entry i j2 = 1 ∨ M.entry i j2 = -1) := by
      intro i hi j1 j2 hz
      obtain ⟨h1, h2⟩ := hrows i hi j1 j2 hz
      exact ⟨h1, by omega⟩
    have hcols : ∀ i j1 j2, nonzeroCols M i = [j1, j2] → j1 < M.cols ∧ j2 < M.cols := by
      intro i j1 j2 hz
      have : ∀ j ∈ nonzeroCols M i, j < M.cols := fun j hj => List.mem_range.1 (List.mem_filter.1 hj).1
      rw [hz] at this
      exact ⟨this j1 (by simp), this j2 (by simp)⟩
    have hvar : ∀ c ∈ allClauses M, ∀ v ∈ c, v ≠ 0 ∧ v.natAbs ≤ M.cols := by
      intro c hcm v hv
      obtain ⟨i, hi, j1, j2, hz, hcc⟩ := hlit c hcm
      obtain ⟨h1, h2⟩ := hpm i hi j1 j2 hz
      obtain ⟨g1, g2⟩ := hcols i j1 j2 hz
      rcases hcc with rfl | rfl <;> simp only [List.mem_cons, List.not_mem_nil, or_false] at hv <;>
        rcases hv with rfl | rfl <;> rcases h1 with h1 | h1 <;> rcases h2 with h2 | h2 <;>
        simp only [h1, h2, mul_one, mul_neg] <;> omega
    obtain ⟨hok, hno⟩ := hsat (allClauses M) fun c hcm v hv => (hvar c hcm v hv).1
    cases hs : solve (allClauses M) with
    | none =>
      exfalso
      apply hno hs
      refine ⟨fun _ => true, ?_⟩
      intro c hcm
      obtain ⟨i, hi, j1, j2, hz, hcc⟩ := hlit c hcm
      obtain ⟨h1, h2⟩ := hpm i hi j1 j2 hz
      have := (satisfies_pair (fun _ => true) j1 j2 h1 h2).2 (by
        have := (hrows i hi j1 j2 hz).2
        simpa [sg] using this)
      rcases hcc with rfl | rfl
      · exact this.1
      · exact this.2
    | some m =>
      obtain ⟨σ, hm, hσ⟩ := hok m hs
      have hp : relativeParity solve t = .ok (m.map orientationToParity) := by rw [hrp, hs]
      rw [isOriented_of hp, hm, List.map_map]
      congr 1
      have hle : ((allClauses M).flatten.map Int.natAbs).foldl max 0 ≤ M.cols := by
        apply foldl_max_le (by omega)
        intro x hx
        obtain ⟨v, hv, rfl⟩ := List.mem_map.1 hx
        obtain ⟨c, hcm, hvc⟩ := List.mem_flatten.1 hv
        exact (hvar c hcm v hvc).2
      rw [show (orientationToParity ∘ fun (v : Nat) => if σ (v + 1) = true then (v : Int) + 1 else -((v : Int) + 1)) =
        fun v => !σ (v + 1) from ?_]
      · rw [allEqual_map]
        have := hcon (fun j => !σ (j + 1)) (by
          intro i hi j1 j2 hz
          obtain ⟨h1, h2⟩ := hpm i hi j1 j2 hz
          have hin := mem_interiorClauses.2 ⟨i, hi, j1, j2, hz, rfl⟩
          have := (satisfies_pair σ j1 j2 h1 h2).1 ⟨hσ _ (List.mem_append_left _ hin),
            hσ _ (List.mem_append_right _ (List.mem_map.2 ⟨_, hin, rfl⟩))⟩
          have h3 := (hrows i hi j1 j2 hz).2
          unfold sg at this
          congr 1
          cases hb1 : σ (j1 + 1) <;> cases hb2 : σ (j2 + 1) <;> simp [hb1, hb2] at this ⊢ <;> omega)
        intro i hi j hj
        exact this i (by omega) j (by omega)
      · funext v
        simp only [Function.comp, orientationToParity]
        by_cases hb : σ (v + 1) = true
        · simp [hb]; omega
        · simp [hb]; omega

/-! ### sides of cells -/

theorem cut_cellBox_inj : ∀ {c c' : List Nat} {i i' : Nat} {s s' : Bool}, i < c.length → i' < c'.length →
    cut (cellBox c) i s = cut (cellBox c') i' s' → i = i' ∧ (s = s' → c = c') := by
  intro c
  induction c with
  | nil => intro c' i i' s s' h; simp at h
  | cons a c ih =>
    intro c' i i' s s' h h' e
    cases c' with
    | nil => simp at h'
    | cons a' c' =>
      have hb : ∀ {c c' : List Nat}, cellBox c = cellBox c' → c = c' := by
        intro c c' h
        exact List.map_injective_iff.2 (fun x y h => by simpa using h) h
      simp only [cellBox, List.map_cons] at e
      cases i with
      | zero =>
        cases i' with
        | zero =>
          simp only [cut, List.cons.injEq, Prod.mk.injEq, and_true] at e
          refine ⟨rfl, ?_⟩
          rintro rfl
          rw [hb e.2, show a = a' by omega]
        | succ i' => simp [cut] at e
      | succ i =>
        cases i' with
        | zero => simp [cut] at e
        | succ i' =>
          simp only [cut, List.cons.injEq, Prod.mk.injEq, and_true] at e
          obtain ⟨h1, h2⟩ := ih (by simpa using h) (by simpa using h') e.2
          exact ⟨by rw [h1], fun hs => by rw [e.1, h2 hs]⟩

theorem cut_cellBox_next : ∀ {c : List Nat} {i : Nat}, i < c.length →
    cut (cellBox c) i true = cut (cellBox (c.modify i (· + 1))) i false := by
  intro c
  induction c with
  | nil => intro i h; simp at h
  | cons a c ih =>
    intro i h
    cases i with
    | zero => simp [cellBox, cut]
    | succ i =>
      have := ih (i := i) (by simpa using h)
      simp only [cellBox] at this ⊢
      simp [cut, this]

/-- a choice for each cell that does not change from cell to cell is constant -/
theorem cells_connected : ∀ {shape : List Nat} (f : List Nat → Bool),
    (∀ c i, IsCell shape c → i < c.length → IsCell shape (c.modify i (· + 1)) → f c = f (c.modify i (· + 1))) →
    ∀ c c', IsCell shape c → IsCell shape c' → f c = f c' := by
  intro shape
  induction shape with
  | nil =>
    intro f _ c c' h h'
    cases h; cases h'; rfl
  | cons m shape ih =>
    intro f hf c c' h h'
    obtain ⟨a, y, ha, hy, rfl⟩ := List.forall₂_cons_right_iff.1 h
    obtain ⟨a', y', ha', hy', rfl⟩ := List.forall₂_cons_right_iff.1 h'
    have h1 : f (a :: y) = f (a :: y') := by
      refine ih (fun y => f (a :: y)) ?_ y y' hy hy'
      intro c i hc hi hc'
      have := hf (a :: c) (i + 1) (List.Forall₂.cons ha hc) (by simpa using hi) (by
        exact List.Forall₂.cons ha hc')
      simpa using this
    have h2 : ∀ b, b < m → f (b :: y') = f (0 :: y') := by
      intro b
      induction b with
      | zero => intro _; rfl
      | succ b ihb =>
        intro hb
        rw [← ihb (by omega)]
        have := hf (b :: y') 0 (List.Forall₂.cons (by omega) hy') (by simp) (by
          exact List.Forall₂.cons hb hy')
        simpa using this.symm
    rw [h1, h2 a ha, h2 a' ha']

/-! ### counting boxes -/

/-- all boxes of a dimension -/
def boxes : List Nat → Nat → List Box
  | [], 0 => [[]]
  | [], _ + 1 => []
  | m :: shape, 0 => (List.range (m + 1)).flatMap fun a => (boxes shape 0).map ((a, false) :: ·)
  | m :: shape, k + 1 => ((List.range (m + 1)).flatMap fun a => (boxes shape (k + 1)).map ((a, false) :: ·)) ++
      (List.range m).flatMap fun a => (boxes shape k).map ((a, true) :: ·)

theorem boxes_length : ∀ (shape : List Nat) (k : Nat), (boxes shape k).length = boxCount shape k := by
  intro shape
  induction shape with
  | nil => intro k; cases k <;> rfl
  | cons m shape ih =>
    intro k
    cases k <;> simp [boxes, boxCount, List.length_flatMap, ih]

theorem mem_boxes : ∀ {shape : List Nat} {k : Nat} {B : Box}, B ∈ boxes shape k ↔
    Within B (vshape shape) ∧ free B = k := by
  intro shape
  induction shape with
  | nil =>
    intro k B
    cases k <;> cases B <;> simp [boxes, Within, vshape, free]
  | cons m shape ih =>
    intro k B
    have key : ∀ (x : Nat) (s : Bool) (B : Box) (L : Nat) (T : List Box),
        (x, s) :: B ∈ (List.range L).flatMap (fun a => T.map ((a, s) :: ·)) ↔ x < L ∧ B ∈ T := by
      intro x s B L T
      simp only [List.mem_flatMap, List.mem_range, List.mem_map, List.cons.injEq, Prod.mk.injEq, and_true]
      constructor
      · rintro ⟨a, ha, B', hB', rfl, rfl⟩
        exact ⟨ha, hB'⟩
      · rintro ⟨ha, hB⟩
        exact ⟨x, ha, B, hB, rfl, rfl⟩
    have key' : ∀ (x : Nat) (s s' : Bool) (B : Box) (L : Nat) (T : List Box), s ≠ s' →
        (x, s) :: B ∉ (List.range L).flatMap (fun a => T.map ((a, s') :: ·)) := by
      intro x s s' B L T hne h
      simp only [List.mem_flatMap, List.mem_range, List.mem_map, List.cons.injEq, Prod.mk.injEq] at h
      obtain ⟨a, -, B', -, ⟨-, h⟩, -⟩ := h
      exact hne h.symm
    have hnil : ∀ (L : Nat) (s : Bool) (T : List Box), [] ∉ (List.range L).flatMap (fun a => T.map ((a, s) :: ·)) := by
      intro L s T h
      simp at h
    cases B with
    | nil =>
      have h1 : ¬ Within [] (vshape (m :: shape)) := by simp [Within, vshape]
      cases k with
      | zero => simp only [boxes, h1, false_and, iff_false]; exact hnil _ _ _
      | succ k =>
        simp only [boxes, h1, false_and, iff_false, List.mem_append, not_or]
        exact ⟨hnil _ _ _, hnil _ _ _⟩
    | cons p B =>
      obtain ⟨x, s⟩ := p
      have hw : Within ((x, s) :: B) (vshape (m :: shape)) ↔ x + s.toNat < m + 1 ∧ Within B (vshape shape) := by
        simp [Within, vshape]
      rw [hw]
      cases k with
      | zero =>
        rw [boxes]
        cases s with
        | false => rw [key, ih]; simp [free, and_assoc]
        | true =>
          simp only [free, Nat.add_one_ne_zero, and_false, iff_false]
          exact key' _ _ _ _ _ _ (by simp)
      | succ k =>
        rw [boxes, List.mem_append]
        cases s with
        | false =>
          rw [key, ih, or_iff_left (key' _ _ _ _ _ _ (by simp))]
          simp [free, and_assoc]
        | true =>
          rw [key, ih, or_iff_right (key' _ _ _ _ _ _ (by simp))]
          simp [free, and_assoc]

theorem flatMap_cons_nodup (s : Bool) (L : Nat) {T : List Box} (hT : T.Nodup) :
    ((List.range L).flatMap fun a => T.map ((a, s) :: ·)).Nodup := by
  rw [List.nodup_flatMap]
  constructor
  · intro x _
    exact hT.map fun a b h => by simpa using h
  · refine List.Pairwise.imp ?_ List.nodup_range
    intro a b hab y h1 h2
    obtain ⟨z, -, rfl⟩ := List.mem_map.1 h1
    obtain ⟨w, -, h⟩ := List.mem_map.1 h2
    exact hab (by simpa using (List.cons.inj h).1.symm)

theorem boxes_nodup : ∀ (shape : List Nat) (k : Nat), (boxes shape k).Nodup := by
  intro shape
  induction shape with
  | nil => intro k; cases k <;> simp [boxes]
  | cons m shape ih =>
    intro k
    cases k with
    | zero => rw [boxes]; exact flatMap_cons_nodup _ _ (ih 0)
    | succ k =>
      rw [boxes, List.nodup_append]
      refine ⟨flatMap_cons_nodup _ _ (ih _), flatMap_cons_nodup _ _ (ih _), ?_⟩
      intro a ha b hb hab
      subst hab
      simp only [List.mem_flatMap, List.mem_map] at ha hb
      obtain ⟨x, -, y, -, rfl⟩ := ha
      obtain ⟨z, -, w, -, h⟩ := hb
      simp at h

/-- a box that is not a cell is a side of a larger box -/
theorem exists_cut : ∀ {shape : List Nat} {B : Box}, (∀ m ∈ shape, 1 ≤ m) → Within B (vshape shape) →
    free B < shape.length → ∃ B' i s, Within B' (vshape shape) ∧ free B' = free B + 1 ∧ i ≤ free B ∧ B = cut B' i s := by
  intro shape
  induction shape with
  | nil => intro B _ _ h; simp at h
  | cons m shape ih =>
    intro B hm h hf
    obtain ⟨p, C, hp, hC, rfl⟩ := List.forall₂_cons_right_iff.1 h
    obtain ⟨a, s⟩ := p
    have hm1 := hm m List.mem_cons_self
    cases s with
    | true =>
      obtain ⟨B', i, s, h1, h2, h3, h4⟩ := ih (fun k hk => hm k (List.mem_cons_of_mem _ hk)) hC (by simpa [free] using hf)
      exact ⟨(a, true) :: B', i + 1, s, List.Forall₂.cons hp h1, by simp [free, h2], by simp [free, h3],
        by rw [h4]; rfl⟩
    | false =>
      have hp : a < m + 1 := by simpa using hp
      by_cases hlt : a < m
      · exact ⟨(a, true) :: C, 0, false, List.Forall₂.cons (by simpa using hlt) hC, by simp [free], by omega,
          by simp [cut]⟩
      · refine ⟨(a - 1, true) :: C, 0, true, List.Forall₂.cons ?_ hC, by simp [free], by omega, ?_⟩
        · simp
          omega
        · simp [cut]
          omega

/-- every box is a face of a cell -/
theorem box_isFace {shape : List Nat} (hm : ∀ m ∈ shape, 1 ≤ m) : ∀ (d k : Nat) (B : Box), k + d = shape.length →
    Within B (vshape shape) → free B = k →
    ∃ c, IsCell shape c ∧ IsCubeFace d k (boxCorners (vshape shape) (cellBox c)) (boxCorners (vshape shape) B) := by
  intro d
  induction d with
  | zero =>
    intro k B hk hB hf
    have : ∀ {shape : List Nat} {B : Box}, Within B (vshape shape) → free B = shape.length → ∃ c, IsCell shape c ∧ B = cellBox c := by
      intro shape
      induction shape with
      | nil => intro B h _; cases h; exact ⟨[], List.Forall₂.nil, rfl⟩
      | cons m shape ih =>
        intro B h hf
        obtain ⟨p, C, hp, hC, rfl⟩ := List.forall₂_cons_right_iff.1 h
        obtain ⟨a, s⟩ := p
        cases s with
        | true =>
          obtain ⟨c, h1, rfl⟩ := ih hC (by simpa [free] using hf)
          exact ⟨a :: c, List.Forall₂.cons (by simpa using hp) h1, rfl⟩
        | false =>
          have hle : ∀ {B : Box} {vs : List Nat}, Within B vs → free B ≤ vs.length := by
            intro B
            induction B with
            | nil => intro vs _; simp [free]
            | cons p B ih =>
              intro vs h
              obtain ⟨m, vs', h1, h2, rfl⟩ := List.forall₂_cons_left_iff.1 h
              have := ih h2
              obtain ⟨a, s⟩ := p
              cases s <;> simp [free] <;> omega
          have := hle hC
          simp [free] at hf this
          omega
    obtain ⟨c, hc, rfl⟩ := this hB (by omega)
    exact ⟨c, hc, rfl⟩
  | succ d ih =>
    intro k B hk hB hf
    obtain ⟨B', i, s, h1, h2, h3, rfl⟩ := exists_cut hm hB (by omega)
    obtain ⟨c, hc, hface⟩ := ih (k + 1) B' (by omega) h1 (by omega)
    refine ⟨c, hc, (isCubeFace_succ d k _ _).2 ⟨_, hface, i, by omega, s, ?_⟩⟩
    rw [side_boxCorners s (by omega) (by omega)]

theorem boxCount_zero_of_lt : ∀ (shape : List Nat) (k : Nat), shape.length < k → boxCount shape k = 0 := by
  intro shape
  induction shape with
  | nil => intro k hk; cases k with
    | zero => simp at hk
    | succ k => rfl
  | cons m shape ih =>
    intro k hk
    cases k with
    | zero => simp at hk
    | succ k =>
      simp only [List.length_cons] at hk
      rw [boxCount, ih _ (by omega), ih _ (by omega)]
      simp

/-- alternating sum of the numbers of boxes -/
theorem boxCount_alternating : ∀ (shape : List Nat) (N : Nat), shape.length ≤ N →
    ∑ k ∈ Finset.range (N + 1), (-1 : ℤ) ^ k * (boxCount shape k : ℤ) = 1 := by
  intro shape
  induction shape with
  | nil =>
    intro N _
    rw [Finset.sum_range_succ']
    simp [boxCount]
  | cons m shape ih =>
    intro N hN
    simp only [List.length_cons] at hN
    obtain ⟨N, rfl⟩ : ∃ N', N = N' + 1 := ⟨N - 1, by omega⟩
    have h1 := ih (N + 1) (by omega)
    have h2 := ih N (by omega)
    rw [Finset.sum_range_succ'] at h1 ⊢
    simp only [boxCount]
    have : ∀ k, (-1 : ℤ) ^ (k + 1) * (((m + 1) * boxCount shape (k + 1) + m * boxCount shape k : Nat) : ℤ) =
        (m + 1) * ((-1 : ℤ) ^ (k + 1) * (boxCount shape (k + 1) : ℤ)) - m * ((-1 : ℤ) ^ k * (boxCount shape k : ℤ)) := by
      intro k
      push_cast
      ring
    simp only [this]
    rw [Finset.sum_sub_distrib, ← Finset.mul_sum, ← Finset.mul_sum, h2]
    push_cast
    simp only [pow_zero, one_mul] at h1 ⊢
    linear_combination ((m : ℤ) + 1) * h1

end Verif
