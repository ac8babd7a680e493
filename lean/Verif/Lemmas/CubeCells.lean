/-
Boxes of grid points in a cube, numbered by the faces of the cube that they stand for.
-/
import Verif.Lemmas.CubeGrid

set_option linter.unusedSectionVars false

namespace Verif

open Verif.Model Verif.Spec

/-! ### boxes in the grid of a cube -/

/-- the box lies in the grid with three points along every axis -/
def InCube (B : Box) : Prop := ∀ p ∈ B, p.1 + p.2.toNat ≤ 2

/-- the box does not lie in a side of the cube -/
def OpenBox (B : Box) : Prop := ∀ p ∈ B, p.2 = true ∨ p.1 = 1

theorem InCube.cons {p : Nat × Bool} {B : Box} : InCube (p :: B) ↔ p.1 + p.2.toNat ≤ 2 ∧ InCube B := by
  simp [InCube]

theorem point_length : ∀ (B : Box) (b : List Bool), (point B b).length = B.length
  | [], _ => rfl
  | (_, false) :: B, b => by simp [point, point_length B b]
  | (_, true) :: B, b => by simp [point, point_length B b.tail]

theorem point_isPoint : ∀ {B : Box} (b : List Bool), InCube B → IsPoint (point B b)
  | [], _, _ => by simp [point, IsPoint]
  | (a, false) :: B, b, h => by
    obtain ⟨h1, h2⟩ := InCube.cons.1 h
    exact IsPoint.cons.2 ⟨by simpa using h1, point_isPoint b h2⟩
  | (a, true) :: B, b, h => by
    obtain ⟨h1, h2⟩ := InCube.cons.1 h
    refine IsPoint.cons.2 ⟨?_, point_isPoint b.tail h2⟩
    simp at h1
    cases b.headD false <;> simp <;> omega

theorem free_le (B : Box) : free B ≤ B.length := by
  induction B with
  | nil => simp [free]
  | cons p B ih => rcases p with ⟨a, u⟩; cases u <;> simp [free] <;> omega

/-- the box seen from the other end of axis `i` -/
def reflect (i : Nat) (B : Box) : Box := B.modify i fun p => (2 - p.1 - p.2.toNat, p.2)

theorem reflect_length (i : Nat) (B : Box) : (reflect i B).length = B.length := List.length_modify _ _ _

theorem free_reflect : ∀ (i : Nat) (B : Box), free (reflect i B) = free B
  | _, [] => by simp [reflect, free]
  | 0, (a, u) :: B => by cases u <;> simp [reflect, free]
  | i + 1, (a, u) :: B => by
    have := free_reflect i B
    cases u <;> simp_all [reflect, free]

theorem reflect_inCube : ∀ {i : Nat} {B : Box}, InCube B → InCube (reflect i B)
  | _, [], h => by simpa [reflect] using h
  | 0, (a, u) :: B, h => by
    obtain ⟨h1, h2⟩ := InCube.cons.1 h
    refine InCube.cons.2 ⟨?_, h2⟩
    cases u <;> simp at h1 ⊢
  | i + 1, (a, u) :: B, h => by
    obtain ⟨h1, h2⟩ := InCube.cons.1 h
    exact InCube.cons.2 ⟨h1, reflect_inCube (i := i) h2⟩

theorem reflect_open : ∀ {i : Nat} {B : Box}, OpenBox B → OpenBox (reflect i B)
  | _, [], h => by simpa [reflect] using h
  | 0, (a, u) :: B, h => by
    intro p hp
    rcases List.mem_cons.1 hp with rfl | hp
    · have := h (a, u) List.mem_cons_self
      cases u
      · right
        simp at this
        simp [this]
      · left; rfl
    · exact h p (List.mem_cons_of_mem _ hp)
  | i + 1, (a, u) :: B, h => by
    intro p hp
    rcases List.mem_cons.1 hp with rfl | hp
    · exact h _ List.mem_cons_self
    · exact reflect_open (i := i) (fun q hq => h q (List.mem_cons_of_mem _ hq)) p hp

theorem reflect_reflect : ∀ {i : Nat} {B : Box}, InCube B → reflect i (reflect i B) = B
  | _, [], _ => by simp [reflect]
  | 0, (a, u) :: B, h => by
    have := (InCube.cons.1 h).1
    simp [reflect]
    simp at this
    omega
  | i + 1, (a, u) :: B, h => by
    have := reflect_reflect (i := i) (InCube.cons.1 h).2
    simp only [reflect] at this ⊢
    simp [this]

theorem swapAt_inCube {i : Nat} {B : Box} (h : InCube B) : InCube (swapAt i B) :=
  fun p hp => h p ((swapAt_perm i B).mem_iff.1 hp)

theorem swapAt_open {i : Nat} {B : Box} (h : OpenBox B) : OpenBox (swapAt i B) :=
  fun p hp => h p ((swapAt_perm i B).mem_iff.1 hp)

theorem free_swapAt : ∀ (i : Nat) (B : Box), free (swapAt i B) = free B
  | 0, [] => rfl
  | 0, [_] => rfl
  | 0, (a, u) :: (a', u') :: B => by cases u <;> cases u' <;> simp [swapAt, free]
  | _ + 1, [] => rfl
  | i + 1, (a, u) :: B => by
    have := free_swapAt i B
    cases u <;> simp [swapAt, free, this]

theorem point_reflect_fixed : ∀ {i : Nat} {B : Box} {b : List Bool} {a : Nat}, B[i]? = some (a, false) →
    point (reflect i B) b = (point B b).modify i (2 - ·)
  | _, [], _, _, h => by simp at h
  | 0, (a, u) :: B, b, a', h => by
    simp at h
    obtain ⟨rfl, rfl⟩ := h
    simp [reflect, point]
  | i + 1, (a, false) :: B, b, a', h => by
    have := point_reflect_fixed (i := i) (B := B) (b := b) (by simpa using h)
    simp only [reflect] at this
    simp [reflect, point, this]
  | i + 1, (a, true) :: B, b, a', h => by
    have := point_reflect_fixed (i := i) (B := B) (b := b.tail) (by simpa using h)
    simp only [reflect] at this
    simp [reflect, point, this]

theorem point_reflect_free : ∀ {i : Nat} {B : Box} {b : List Bool} {a : Nat}, B[i]? = some (a, true) → InCube B →
    b.length = free B → point (reflect i B) (b.modify (free (B.take i)) not) = (point B b).modify i (2 - ·)
  | _, [], _, _, h, _, _ => by simp at h
  | 0, (a, u) :: B, b, a', h, hB, hb => by
    simp at h
    obtain ⟨rfl, rfl⟩ := h
    have h1 := (InCube.cons.1 hB).1
    rcases b with _ | ⟨s, b⟩
    · simp [free] at hb
    simp [free] at hb h1
    cases s <;> simp [reflect, point, free] <;> omega
  | i + 1, (a, false) :: B, b, a', h, hB, hb => by
    have := point_reflect_free (i := i) (B := B) (b := b) (by simpa using h) (InCube.cons.1 hB).2 (by simpa [free] using hb)
    simp only [reflect] at this
    simp [reflect, point, free, this]
  | i + 1, (a, true) :: B, b, a', h, hB, hb => by
    rcases b with _ | ⟨s, b⟩
    · simp [free] at hb
    have := point_reflect_free (i := i) (B := B) (b := b) (by simpa using h) (InCube.cons.1 hB).2 (by simpa [free] using hb)
    simp only [reflect] at this
    simp [reflect, point, free, this]

/-- exchange of two axes of a box, not both free -/
theorem point_swap_fixed : ∀ {i : Nat} {B : Box} {b : List Bool}
    (_ : ∀ a a', ¬ (B[i]? = some (a, true) ∧ B[i + 1]? = some (a', true))),
    point (swapAt i B) b = swapAt i (point B b)
  | 0, [], _, _ => rfl
  | 0, [(a, u)], b, _ => by cases u <;> simp [swapAt, point]
  | 0, (a, u) :: (a', u') :: B, b, h => by
    have := h a a'
    cases u <;> cases u' <;> simp at this <;> simp [swapAt, point]
  | _ + 1, [], _, _ => by simp [swapAt, point]
  | i + 1, (a, false) :: B, b, h => by
    simp only [swapAt, point]
    rw [point_swap_fixed (i := i) (by simpa using h)]
  | i + 1, (a, true) :: B, b, h => by
    simp only [swapAt, point]
    rw [point_swap_fixed (i := i) (by simpa using h)]

/-- exchange of two free axes of a box -/
theorem point_swap_free : ∀ {i : Nat} {B : Box} {b : List Bool} {a a' : Nat}, B[i]? = some (a, true) →
    B[i + 1]? = some (a', true) → b.length = free B →
    point (swapAt i B) (swapAt (free (B.take i)) b) = swapAt i (point B b)
  | 0, [], _, _, _, h, _, _ => by simp at h
  | 0, [_], _, _, _, _, h, _ => by simp at h
  | 0, (a, u) :: (a', u') :: B, b, _, _, h, h', hb => by
    simp at h h'
    obtain ⟨rfl, rfl⟩ := h
    obtain ⟨rfl, rfl⟩ := h'
    rcases b with _ | ⟨s, _ | ⟨s', b⟩⟩
    · simp [free] at hb
    · simp [free] at hb
    simp [swapAt, point, free]
  | _ + 1, [], _, _, _, h, _, _ => by simp at h
  | i + 1, (a, false) :: B, b, _, _, h, h', hb => by
    simp only [swapAt, point, List.take_succ_cons, free]
    rw [point_swap_free (i := i) (by simpa using h) (by simpa using h') (by simpa [free] using hb)]
  | i + 1, (a, true) :: B, b, _, _, h, h', hb => by
    rcases b with _ | ⟨s, b⟩
    · simp [free] at hb
    simp only [swapAt, point, List.take_succ_cons, free, List.headD_cons, List.tail_cons]
    rw [point_swap_free (i := i) (by simpa using h) (by simpa using h') (by simpa [free] using hb)]

theorem free_take_lt : ∀ {i : Nat} {B : Box} {a : Nat}, B[i]? = some (a, true) → free (B.take i) < free B
  | _, [], _, h => by simp at h
  | 0, (a, u) :: B, _, h => by
    simp at h
    obtain ⟨rfl, rfl⟩ := h
    simp [free]
  | i + 1, (a, u) :: B, _, h => by
    have := free_take_lt (i := i) (B := B) (by simpa using h)
    cases u <;> simp [free, this]

theorem free_take_succ_lt {i : Nat} {B : Box} {a a' : Nat} (h : B[i]? = some (a, true))
    (h' : B[i + 1]? = some (a', true)) : free (B.take i) + 1 < free B := by
  have h1 := free_take_lt h'
  have : free (B.take (i + 1)) = free (B.take i) + 1 := by
    clear h1 h'
    induction B generalizing i with
    | nil => simp at h
    | cons p B ih =>
      rcases p with ⟨c, u⟩
      cases i with
      | zero =>
        simp at h
        obtain ⟨rfl, rfl⟩ := h
        simp [free]
      | succ i =>
        have := ih (i := i) (by simpa using h)
        cases u
        · simpa [free] using this
        · simp only [List.take_succ_cons, free] at this ⊢
          omega
  omega

theorem free_insertIdx (a : Nat) : ∀ (i : Nat) (B : Box), free (B.insertIdx i (a, false)) = free B
  | 0, B => by simp [free]
  | i + 1, [] => by simp
  | i + 1, (_, u) :: B => by
    rw [List.insertIdx_succ_cons]
    cases u <;> simp [free, free_insertIdx a i B]

theorem point_insertIdx (a : Nat) : ∀ (i : Nat) (B : Box) (b : List Bool),
    point (B.insertIdx i (a, false)) b = (point B b).insertIdx i a
  | 0, B, b => by simp [point]
  | i + 1, [], b => by simp [point]
  | i + 1, (_, u) :: B, b => by
    rw [List.insertIdx_succ_cons]
    cases u <;> simp [point, point_insertIdx a i B]

/-! ### cells -/

/-- the vertices of a box of grid points of the cube `l`, where `W` numbers the faces -/
def cell (W : List Nat → Nat) (l : List Nat) (B : Box) : List Nat :=
  cubeOf (free B) fun b => W (gridFace l (point B b))

theorem cell_length (W : List Nat → Nat) (l : List Nat) (B : Box) : (cell W l B).length = 2 ^ free B := cubeOf_length _ _

/-- a numbering of faces that does not depend on the order of the corners -/
def PermInv (W : List Nat → Nat) : Prop := ∀ f f' : List Nat, f.Perm f' → W f = W f'

variable {W : List Nat → Nat} {n : Nat} {l : List Nat} {B : Box}

theorem mem_cell {v : Nat} : v ∈ cell W l B ↔ ∃ b : List Bool, b.length = free B ∧ W (gridFace l (point B b)) = v := by
  unfold cell cubeOf
  simp [mem_cubeIndices]

theorem cell_flip_fixed (hW : PermInv W) (hl : l.length = 2 ^ n) (hn : l.Nodup) (hB : InCube B) (hlen : B.length = n)
    {i a : Nat} (h : B[i]? = some (a, false)) : cell W (flipAxis n i l) B = cell W l (reflect i B) := by
  unfold cell
  rw [free_reflect]
  refine cubeOf_congr fun b _ => ?_
  rw [point_reflect_fixed h]
  exact hW _ _ (gridFace_flip hl hn (point_isPoint b hB) (by rw [point_length, hlen]))

theorem cell_flip_free (hW : PermInv W) (hl : l.length = 2 ^ n) (hn : l.Nodup) (hB : InCube B) (hlen : B.length = n)
    {i a : Nat} (h : B[i]? = some (a, true)) :
    cell W (flipAxis n i l) B = flipAxis (free B) (free (B.take i)) (cell W l (reflect i B)) := by
  unfold cell
  rw [free_reflect, flipAxis_cubeOf]
  refine cubeOf_congr fun b hb => ?_
  rw [point_reflect_free h hB hb]
  exact hW _ _ (gridFace_flip hl hn (point_isPoint b hB) (by rw [point_length, hlen]))

theorem cell_swap_fixed (hW : PermInv W) (hl : l.length = 2 ^ n) (hn : l.Nodup) (hlen : B.length = n)
    {i : Nat} (h : ∀ a a', ¬ (B[i]? = some (a, true) ∧ B[i + 1]? = some (a', true))) :
    cell W (swapAxes n i l) B = cell W l (swapAt i B) := by
  unfold cell
  rw [free_swapAt]
  refine cubeOf_congr fun b _ => ?_
  rw [point_swap_fixed h]
  exact hW _ _ (gridFace_swap hl hn (by rw [point_length, hlen]))

theorem cell_swap_free (hW : PermInv W) (hl : l.length = 2 ^ n) (hn : l.Nodup) (hlen : B.length = n)
    {i a a' : Nat} (h : B[i]? = some (a, true)) (h' : B[i + 1]? = some (a', true)) :
    cell W (swapAxes n i l) B = swapAxes (free B) (free (B.take i)) (cell W l (swapAt i B)) := by
  unfold cell
  rw [free_swapAt, swapAxes_cubeOf]
  refine cubeOf_congr fun b hb => ?_
  rw [point_swap_free h h' hb]
  exact hW _ _ (gridFace_swap hl hn (by rw [point_length, hlen]))

theorem cell_slice (hW : PermInv W) (hl : l.length = 2 ^ (n + 1)) (hn : l.Nodup) (hlen : B.length = n) {i : Nat}
    (hi : i ≤ n) (s : Bool) :
    cell W (sliceAxis n i s l) B = cell W l (B.insertIdx i (2 * s.toNat, false)) := by
  unfold cell
  rw [free_insertIdx]
  refine cubeOf_congr fun b _ => ?_
  rw [point_insertIdx]
  exact hW _ _ (gridFace_slice s hi hl hn (by rw [point_length, hlen]))

theorem cell_side {k i : Nat} (s : Bool) (hk : free B = k + 1) (hi : i ≤ k) :
    side k i s (cell W l B) = cell W l (cut B i s) := by
  have hc := cut_free B i s (by omega)
  unfold cell
  rw [side_eq hi, hk, sliceAxis_cubeOf hi, show free (cut B i s) = k by omega]
  refine cubeOf_congr fun b hb => ?_
  rw [point_cut B i s b (by omega) (by omega)]

/-- the cells of a cube listed along other axes are its cells listed along other axes -/
theorem cell_symmetric (hW : PermInv W) {e l : List Nat} {σ : ℤ} (he : e.length = 2 ^ n) (hn : e.Nodup)
    (h : SymmetricCube n e l σ) (hlen : B.length = n) (hB : InCube B) :
    ∃ B', B'.length = n ∧ InCube B' ∧ free B' = free B ∧ (OpenBox B → OpenBox B') ∧
      ∃ τ, SymmetricCube (free B) (cell W e B') (cell W l B) τ := by
  have key := symmetric_induction (n := n) (P := fun l => l.Nodup ∧ ∀ B : Box, B.length = n → InCube B →
    ∃ B', B'.length = n ∧ InCube B' ∧ free B' = free B ∧ (OpenBox B → OpenBox B') ∧
      ∃ τ, SymmetricCube (free B) (cell W e B') (cell W l B) τ) ?_ ?_ he hn h
    ⟨hn, fun B hlen hB => ⟨B, hlen, hB, rfl, id, 1, SymmetricCube.refl (cell_length _ _ _)⟩⟩
  · exact key.2 B hlen hB
  · rintro i hi l hl ⟨hnl, hP⟩
    constructor
    · refine cubeOf_nodup hl hnl _ (fun b hb => by rw [List.length_modify, hb]) ?_
      intro b b' _ _ h
      rw [← modify_modify_not i b, h, modify_modify_not]
    · intro B hlen hB
      obtain ⟨B', h1, h2, h3, h4, τ, hτ⟩ := hP (reflect i B) (by rw [reflect_length, hlen]) (reflect_inCube hB)
      rw [free_reflect] at h3 hτ
      rcases hp : B[i]? with _ | ⟨a, u⟩
      · rw [List.getElem?_eq_none_iff] at hp; omega
      cases u
      · exact ⟨B', h1, h2, h3, fun h => h4 (reflect_open h), τ, by rwa [cell_flip_fixed hW hl hnl hB hlen hp]⟩
      · refine ⟨B', h1, h2, h3, fun h => h4 (reflect_open h), -τ, ?_⟩
        rw [cell_flip_free hW hl hnl hB hlen hp]
        exact hτ.flip (free_take_lt hp)
  · rintro i hi l hl ⟨hnl, hP⟩
    constructor
    · refine cubeOf_nodup hl hnl _ (fun b hb => by rw [swapAt_length, hb]) ?_
      intro b b' _ _ h
      rw [← swapAt_swapAt i b, h, swapAt_swapAt]
    · intro B hlen hB
      obtain ⟨B', h1, h2, h3, h4, τ, hτ⟩ := hP (swapAt i B) (by rw [swapAt_length, hlen]) (swapAt_inCube hB)
      rw [free_swapAt] at h3 hτ
      by_cases hp : ∃ a a', B[i]? = some (a, true) ∧ B[i + 1]? = some (a', true)
      · obtain ⟨a, a', hp, hp'⟩ := hp
        refine ⟨B', h1, h2, h3, fun h => h4 (swapAt_open h), -τ, ?_⟩
        rw [cell_swap_free hW hl hnl hlen hp hp']
        exact hτ.swap (free_take_succ_lt hp hp')
      · push Not at hp
        refine ⟨B', h1, h2, h3, fun h => h4 (swapAt_open h), τ, ?_⟩
        rwa [cell_swap_fixed hW hl hnl hlen (fun a a' h => hp a a' h.1 h.2)]

end Verif
