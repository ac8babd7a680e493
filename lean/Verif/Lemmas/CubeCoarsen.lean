/-
A function of fine cubes summed over the parts of a coarse cube: it alternates, and summing commutes with the
coboundary because the sides in the middle of a cube cancel.
-/
import Verif.Lemmas.CubeFine

set_option linter.unusedSectionVars false

namespace Verif

open Verif.Model Verif.Spec

theorem cellBox_get {p : List Bool} {i : Nat} (hi : i < p.length) :
    (cellBox (p.map Bool.toNat))[i]? = some ((p[i]'hi).toNat, true) := by
  simp [cellBox, List.getElem?_eq_getElem hi]

theorem free_cellBox_take (c : List Nat) {i : Nat} (hi : i ≤ c.length) : free ((cellBox c).take i) = i := by
  unfold cellBox
  rw [← List.map_take]
  have := cellBox_free (c.take i)
  unfold cellBox at this
  rw [this, List.length_take]
  omega

theorem reflect_cellBox : ∀ (i : Nat) (p : List Bool),
    reflect i (cellBox (p.map Bool.toNat)) = cellBox ((p.modify i not).map Bool.toNat)
  | _, [] => by simp [reflect, cellBox]
  | 0, a :: p => by cases a <;> simp [reflect, cellBox]
  | i + 1, a :: p => by
    have ih := reflect_cellBox i p
    unfold reflect cellBox at ih ⊢
    simp only [List.map_cons, List.modify_succ_cons, ih]

theorem swapAt_map {α β : Type} (f : α → β) : ∀ (i : Nat) (l : List α), swapAt i (l.map f) = (swapAt i l).map f
  | 0, [] => rfl
  | 0, [_] => rfl
  | 0, _ :: _ :: _ => rfl
  | _ + 1, [] => rfl
  | i + 1, a :: l => by
    show f a :: swapAt i (l.map f) = _
    rw [swapAt_map f i l]
    rfl

theorem swap_cellBox (i : Nat) (p : List Bool) :
    swapAt i (cellBox (p.map Bool.toNat)) = cellBox ((swapAt i p).map Bool.toNat) := by
  unfold cellBox
  rw [swapAt_map, swapAt_map]

theorem cut_cellBox_insert (a s : Bool) : ∀ (i : Nat) (p : List Bool), i ≤ p.length →
    cut (cellBox ((p.insertIdx i a).map Bool.toNat)) i s =
      (cellBox (p.map Bool.toNat)).insertIdx i (a.toNat + s.toNat, false)
  | 0, p, _ => by simp [cellBox, cut]
  | i + 1, [], h => by simp at h
  | i + 1, b :: p, h => by
    have ih := cut_cellBox_insert a s i p (by simpa using h)
    unfold cellBox at ih ⊢
    simp only [List.insertIdx_succ_cons, List.map_cons, cut, ih]

/-- the indices of a cube, along one axis after the others -/
theorem cubeIndices_insert {k i : Nat} (hi : i ≤ k) :
    (cubeIndices (k + 1)).Perm
      ((cubeIndices k).map (fun p => p.insertIdx i false) ++ (cubeIndices k).map fun p => p.insertIdx i true) := by
  have hinj : ∀ s : Bool, Function.Injective fun p : List Bool => p.insertIdx i s := by
    intro s p q h
    have := congrArg (fun x => x.eraseIdx i) h
    simpa [List.eraseIdx_insertIdx_self] using this
  rw [List.perm_ext_iff_of_nodup (cubeIndices_nodup _)]
  · intro b
    rw [mem_cubeIndices, List.mem_append, List.mem_map, List.mem_map]
    constructor
    · intro hb
      have hib : i < b.length := by omega
      have he : (b.eraseIdx i).insertIdx i b[i] = b := List.insertIdx_eraseIdx_getElem hib
      have hm : b.eraseIdx i ∈ cubeIndices k := by
        rw [mem_cubeIndices, List.length_eraseIdx, if_pos hib]
        omega
      cases hbi : b[i] with
      | false => exact Or.inl ⟨_, hm, by rw [hbi] at he; exact he⟩
      | true => exact Or.inr ⟨_, hm, by rw [hbi] at he; exact he⟩
    · rintro (⟨p, hp, rfl⟩ | ⟨p, hp, rfl⟩) <;> rw [mem_cubeIndices] at hp <;>
        rw [List.length_insertIdx, if_pos (by omega)] <;> omega
  · rw [List.nodup_append]
    refine ⟨(cubeIndices_nodup k).map (hinj false), (cubeIndices_nodup k).map (hinj true), ?_⟩
    intro a ha b hb hab
    obtain ⟨p, hp, rfl⟩ := List.mem_map.1 ha
    obtain ⟨q, hq, rfl⟩ := List.mem_map.1 hb
    rw [mem_cubeIndices] at hp hq
    have := congrArg (fun x : List Bool => x[i]?) hab
    simp [List.getElem?_insertIdx_self, hp, hq, hi] at this

theorem cubeIndices_modify {k i : Nat} : ((cubeIndices k).map fun p => p.modify i not).Perm (cubeIndices k) := by
  have hinv : ∀ p : List Bool, (p.modify i not).modify i not = p := by
    intro p
    apply List.ext_getElem?
    intro j
    rw [List.getElem?_modify, List.getElem?_modify]
    split <;> simp [Option.map_map, Function.comp_def]
  rw [List.perm_ext_iff_of_nodup ((cubeIndices_nodup k).map (Function.LeftInverse.injective hinv)) (cubeIndices_nodup k)]
  intro b
  rw [List.mem_map, mem_cubeIndices]
  constructor
  · rintro ⟨p, hp, rfl⟩
    rw [List.length_modify]
    exact mem_cubeIndices.1 hp
  · intro hb
    exact ⟨b.modify i not, by rw [mem_cubeIndices, List.length_modify, hb], hinv b⟩

theorem swapAt_swapAt' {α : Type} : ∀ (i : Nat) (l : List α), swapAt i (swapAt i l) = l
  | 0, [] => rfl
  | 0, [_] => rfl
  | 0, _ :: _ :: _ => rfl
  | _ + 1, [] => rfl
  | i + 1, a :: l => by
    show a :: swapAt i (swapAt i l) = _
    rw [swapAt_swapAt' i l]

theorem cubeIndices_swap {k i : Nat} : ((cubeIndices k).map (swapAt i)).Perm (cubeIndices k) := by
  rw [List.perm_ext_iff_of_nodup ((cubeIndices_nodup k).map (Function.LeftInverse.injective (swapAt_swapAt' i)))
    (cubeIndices_nodup k)]
  intro b
  rw [List.mem_map, mem_cubeIndices]
  constructor
  · rintro ⟨p, hp, rfl⟩
    rw [swapAt_length]
    exact mem_cubeIndices.1 hp
  · intro hb
    exact ⟨swapAt i b, by rw [mem_cubeIndices, swapAt_length, hb], swapAt_swapAt' i b⟩

/-- sum of a function of fine cubes over the parts of a coarse cube -/
noncomputable def coarsen (W : List Nat → Nat) (k : Nat) (φ : List Nat → ℤ) (l : List Nat) : ℤ :=
  open Classical in
  if l.Nodup then ((cubeIndices k).map fun p => φ (cell W l (cellBox (p.map Bool.toNat)))).sum else 0

section

variable {W : List Nat → Nat} {k : Nat} {φ : List Nat → ℤ}

theorem coarsen_of_nodup {l : List Nat} (hn : l.Nodup) :
    coarsen W k φ l = ((cubeIndices k).map fun p => φ (cell W l (cellBox (p.map Bool.toNat)))).sum := by
  unfold coarsen
  rw [if_pos hn]

theorem flip_nodup_iff {n i : Nat} {l : List Nat} (hi : i < n) (hl : l.length = 2 ^ n) :
    (flipAxis n i l).Nodup ↔ l.Nodup := (((SymmetricCube.refl hl).flip hi).perm hl).nodup_iff

theorem swap_nodup_iff {n i : Nat} {l : List Nat} (hi : i + 1 < n) (hl : l.length = 2 ^ n) :
    (swapAxes n i l).Nodup ↔ l.Nodup := (((SymmetricCube.refl hl).swap hi).perm hl).nodup_iff

theorem list_sum_map_neg {ι : Type} (l : List ι) (f : ι → ℤ) : (l.map fun i => - f i).sum = - (l.map f).sum := by
  rw [← neg_one_mul, list_mul_sum]
  simp

theorem list_sum_map_sub {ι : Type} (l : List ι) (f g : ι → ℤ) :
    (l.map fun i => f i - g i).sum = (l.map f).sum - (l.map g).sum := by
  induction l with
  | nil => rfl
  | cons a l ih =>
    simp only [List.map_cons, List.sum_cons, ih]
    ring

theorem coarsen_calt (hW : PermInv W) (hφ : CAlt k φ) : CAlt k (coarsen W k φ) := by
  constructor
  · intro i hi l hl
    by_cases hn : l.Nodup
    · rw [coarsen_of_nodup hn, coarsen_of_nodup ((flip_nodup_iff hi hl).2 hn),
        ← ((cubeIndices_modify (k := k) (i := i)).map fun p => φ (cell W l (cellBox (p.map Bool.toNat)))).sum_eq,
        List.map_map, ← list_sum_map_neg]
      congr 1
      refine List.map_congr_left fun p hp => ?_
      have hp := mem_cubeIndices.1 hp
      rw [Function.comp_apply, cell_flip_free hW hl hn (inCube_cellBox p) (by simp [cellBox, hp])
        (cellBox_get (by omega)), reflect_cellBox, cellBox_free, free_cellBox_take _ (by simp; omega), List.length_map, hp]
      refine hφ.flip i hi _ ?_
      rw [cell_length, cellBox_free, List.length_map, List.length_modify, hp]
    · unfold coarsen
      rw [if_neg hn, if_neg (fun h => hn ((flip_nodup_iff hi hl).1 h)), neg_zero]
  · intro i hi l hl
    by_cases hn : l.Nodup
    · rw [coarsen_of_nodup hn, coarsen_of_nodup ((swap_nodup_iff hi hl).2 hn),
        ← ((cubeIndices_swap (k := k) (i := i)).map fun p => φ (cell W l (cellBox (p.map Bool.toNat)))).sum_eq,
        List.map_map, ← list_sum_map_neg]
      congr 1
      refine List.map_congr_left fun p hp => ?_
      have hp := mem_cubeIndices.1 hp
      rw [Function.comp_apply, cell_swap_free hW hl hn (by simp [cellBox, hp])
        (cellBox_get (by omega)) (cellBox_get (by omega)), swap_cellBox, cellBox_free,
        free_cellBox_take _ (by simp; omega), List.length_map, hp]
      refine hφ.swap i hi _ ?_
      rw [cell_length, cellBox_free, List.length_map, swapAt_length, hp]
    · unfold coarsen
      rw [if_neg hn, if_neg (fun h => hn ((swap_nodup_iff hi hl).1 h)), neg_zero]

/-- summing over the parts commutes with the coboundary -/
theorem coarsen_ccob (hW : PermInv W) {l : List Nat} (hl : l.length = 2 ^ (k + 1)) (hn : l.Nodup) :
    ccob k (coarsen W k φ) l = coarsen W (k + 1) (ccob k φ) l := by
  rw [coarsen_of_nodup hn]
  unfold ccob
  simp only [← list_range_sum]
  rw [sum_sum_comm]
  congr 1
  refine List.map_congr_left fun i hi => ?_
  have hi : i ≤ k := by have := List.mem_range.1 hi; omega
  rw [← list_mul_sum]
  congr 1
  rw [((cubeIndices_insert hi).map _).sum_eq, List.map_append, List.sum_append, List.map_map, List.map_map]
  have hc : ∀ (a s : Bool) (p : List Bool), p ∈ cubeIndices k →
      sliceAxis k i s (cell W l (cellBox ((p.insertIdx i a).map Bool.toNat))) =
        cell W l ((cellBox (p.map Bool.toNat)).insertIdx i (a.toNat + s.toNat, false)) := by
    intro a s p hp
    have hp := mem_cubeIndices.1 hp
    rw [← side_eq hi, cell_side s _ hi, cut_cellBox_insert a s i p (by omega)]
    rw [cellBox_free, List.length_map, List.length_insertIdx, if_pos (by omega), hp]
  have hs : ∀ s : Bool, coarsen W k φ (sliceAxis k i s l) =
      ((cubeIndices k).map fun p => φ (cell W l ((cellBox (p.map Bool.toNat)).insertIdx i (2 * s.toNat, false)))).sum := by
    intro s
    rw [coarsen_of_nodup (sliceAxis_nodup hi s hl hn)]
    congr 1
    refine List.map_congr_left fun p hp => ?_
    have hp := mem_cubeIndices.1 hp
    rw [cell_slice hW hl hn (by simp [cellBox, hp]) hi]
  unfold sideDiff
  rw [hs, hs]
  have h1 : ∀ a : Bool, ((cubeIndices k).map ((fun p' => φ (sliceAxis k i false (cell W l (cellBox (p'.map Bool.toNat)))) -
      φ (sliceAxis k i true (cell W l (cellBox (p'.map Bool.toNat))))) ∘ fun p => p.insertIdx i a)).sum =
      ((cubeIndices k).map fun p => φ (cell W l ((cellBox (p.map Bool.toNat)).insertIdx i (a.toNat, false)))).sum -
      ((cubeIndices k).map fun p => φ (cell W l ((cellBox (p.map Bool.toNat)).insertIdx i (a.toNat + 1, false)))).sum := by
    intro a
    rw [← list_sum_map_sub]
    congr 1
    refine List.map_congr_left fun p hp => ?_
    rw [Function.comp_apply, hc a false p hp, hc a true p hp]
    rfl
  rw [h1 false, h1 true]
  simp only [Bool.toNat_false, Bool.toNat_true]
  ring

end

end Verif
