/-
Counting the elements of the fine topology.
-/
import Verif.Lemmas.CubeFine
import Mathlib.Data.Nat.Choose.Sum

set_option linter.unusedSectionVars false

namespace Verif

open Verif.Model Verif.Spec

/-- the open boxes of dimension `k` in a cube of dimension `K` -/
def openBoxes : (K k : Nat) → List Box
  | 0, 0 => [[]]
  | 0, _ + 1 => []
  | K + 1, 0 => (openBoxes K 0).map ((1, false) :: ·)
  | K + 1, k + 1 => (openBoxes K (k + 1)).map ((1, false) :: ·) ++
      ((openBoxes K k).map ((0, true) :: ·) ++ (openBoxes K k).map ((1, true) :: ·))

theorem openBoxes_length : ∀ (K k : Nat), (openBoxes K k).length = K.choose k * 2 ^ k
  | 0, 0 => rfl
  | 0, k + 1 => by simp [openBoxes]
  | K + 1, 0 => by simp [openBoxes, openBoxes_length K 0]
  | K + 1, k + 1 => by
    simp only [openBoxes, List.length_append, List.length_map, openBoxes_length K k, openBoxes_length K (k + 1),
      Nat.choose_succ_succ, pow_succ]
    ring

theorem OpenBox.cons {p : Nat × Bool} {B : Box} : OpenBox (p :: B) ↔ (p.2 = true ∨ p.1 = 1) ∧ OpenBox B := by
  simp [OpenBox]

theorem mem_openBoxes : ∀ {K k : Nat} {B : Box}, B ∈ openBoxes K k ↔
    B.length = K ∧ InCube B ∧ OpenBox B ∧ free B = k
  | 0, 0, B => by
    simp only [openBoxes, List.mem_singleton]
    constructor
    · rintro rfl; simp [InCube, OpenBox, free]
    · rintro ⟨h, -⟩; exact List.length_eq_zero_iff.1 h
  | 0, k + 1, B => by
    simp only [openBoxes, List.not_mem_nil, false_iff]
    rintro ⟨h, -, -, hf⟩
    obtain rfl := List.length_eq_zero_iff.1 h
    simp [free] at hf
  | K + 1, 0, B => by
    have ih := fun B => mem_openBoxes (K := K) (k := 0) (B := B)
    simp only [openBoxes, List.mem_map, ih]
    constructor
    · rintro ⟨C, ⟨h1, h2, h3, h4⟩, rfl⟩
      exact ⟨by simp [h1], InCube.cons.2 ⟨by simp, h2⟩, OpenBox.cons.2 ⟨by simp, h3⟩, by simpa [free] using h4⟩
    · rintro ⟨h1, h2, h3, h4⟩
      rcases B with _ | ⟨⟨a, u⟩, B⟩
      · simp at h1
      · obtain ⟨h2, h2'⟩ := InCube.cons.1 h2
        obtain ⟨h3, h3'⟩ := OpenBox.cons.1 h3
        cases u
        · simp at h3
          exact ⟨B, ⟨by simpa using h1, h2', h3', by simpa [free] using h4⟩, by rw [h3]⟩
        · simp [free] at h4
  | K + 1, k + 1, B => by
    have ih := fun B => mem_openBoxes (K := K) (k := k) (B := B)
    have ih' := fun B => mem_openBoxes (K := K) (k := k + 1) (B := B)
    simp only [openBoxes, List.mem_append, List.mem_map, ih, ih']
    constructor
    · rintro (⟨C, ⟨h1, h2, h3, h4⟩, rfl⟩ | ⟨C, ⟨h1, h2, h3, h4⟩, rfl⟩ | ⟨C, ⟨h1, h2, h3, h4⟩, rfl⟩)
      · exact ⟨by simp [h1], InCube.cons.2 ⟨by simp, h2⟩, OpenBox.cons.2 ⟨by simp, h3⟩, by simpa [free] using h4⟩
      · exact ⟨by simp [h1], InCube.cons.2 ⟨by simp, h2⟩, OpenBox.cons.2 ⟨by simp, h3⟩, by simpa [free] using h4⟩
      · exact ⟨by simp [h1], InCube.cons.2 ⟨by simp, h2⟩, OpenBox.cons.2 ⟨by simp, h3⟩, by simpa [free] using h4⟩
    · rintro ⟨h1, h2, h3, h4⟩
      rcases B with _ | ⟨⟨a, u⟩, B⟩
      · simp at h1
      · obtain ⟨h2, h2'⟩ := InCube.cons.1 h2
        obtain ⟨h3, h3'⟩ := OpenBox.cons.1 h3
        cases u
        · simp at h3
          exact Or.inl ⟨B, ⟨by simpa using h1, h2', h3', by simpa [free] using h4⟩, by rw [h3]⟩
        · right
          simp at h2
          interval_cases a
          · exact Or.inl ⟨B, ⟨by simpa using h1, h2', h3', by simpa [free] using h4⟩, rfl⟩
          · exact Or.inr ⟨B, ⟨by simpa using h1, h2', h3', by simpa [free] using h4⟩, rfl⟩

theorem openBoxes_nodup : ∀ (K k : Nat), (openBoxes K k).Nodup
  | 0, 0 => by simp [openBoxes]
  | 0, k + 1 => by simp [openBoxes]
  | K + 1, 0 => (openBoxes_nodup K 0).map (List.cons_injective)
  | K + 1, k + 1 => by
    have inj : ∀ p : Nat × Bool, Function.Injective (p :: · : Box → Box) := fun p => List.cons_injective
    refine List.Nodup.append ((openBoxes_nodup K (k + 1)).map (inj _))
      (List.Nodup.append ((openBoxes_nodup K k).map (inj _)) ((openBoxes_nodup K k).map (inj _)) ?_) ?_
    · intro B h1 h2
      obtain ⟨C, -, rfl⟩ := List.mem_map.1 h1
      obtain ⟨D, -, h⟩ := List.mem_map.1 h2
      simp at h
    · intro B h1 h2
      obtain ⟨C, -, rfl⟩ := List.mem_map.1 h1
      rcases List.mem_append.1 h2 with h2 | h2
      · obtain ⟨D, -, h⟩ := List.mem_map.1 h2
        simp at h
      · obtain ⟨D, -, h⟩ := List.mem_map.1 h2
        simp at h

/-- all open cells of dimension `k` -/
def openCells (t : Topo) (n k : Nat) : List (Nat × Nat × Box) :=
  (List.range (n + 1)).flatMap fun K => (List.range (t.nElements K)).flatMap fun i => (openBoxes K k).map fun B => (K, i, B)

theorem mem_openCells {t : Topo} {n k K i : Nat} {B : Box} : (K, i, B) ∈ openCells t n k ↔
    K ≤ n ∧ i < t.nElements K ∧ B ∈ openBoxes K k := by
  simp only [openCells, List.mem_flatMap, List.mem_range, List.mem_map, Prod.mk.injEq]
  constructor
  · rintro ⟨K', h1, i', h2, B', h3, rfl, rfl, rfl⟩
    exact ⟨by omega, h2, h3⟩
  · rintro ⟨h1, h2, h3⟩
    exact ⟨K, by omega, i, h2, B, h3, rfl, rfl, rfl⟩

theorem openCells_nodup (t : Topo) (n k : Nat) : (openCells t n k).Nodup := by
  unfold openCells
  rw [List.nodup_flatMap]
  constructor
  · intro K _
    rw [List.nodup_flatMap]
    constructor
    · intro i _
      exact (openBoxes_nodup K k).map (fun B B' h => by simpa using h)
    · refine List.nodup_range.imp ?_
      intro i i' hne x h1 h2
      obtain ⟨B, -, rfl⟩ := List.mem_map.1 h1
      obtain ⟨B', -, h⟩ := List.mem_map.1 h2
      simp at h
      exact hne h.1.symm
  · refine List.nodup_range.imp ?_
    intro K K' hne x h1 h2
    obtain ⟨i, -, h1⟩ := List.mem_flatMap.1 h1
    obtain ⟨i', -, h2⟩ := List.mem_flatMap.1 h2
    obtain ⟨B, -, rfl⟩ := List.mem_map.1 h1
    obtain ⟨B', -, h⟩ := List.mem_map.1 h2
    simp at h
    exact hne h.1.symm

theorem openCells_length (t : Topo) (n k : Nat) : (openCells t n k).length =
    ((List.range (n + 1)).map fun K => t.nElements K * (K.choose k * 2 ^ k)).sum := by
  unfold openCells
  rw [List.length_flatMap]
  congr 1
  refine List.map_congr_left fun K _ => ?_
  rw [List.length_flatMap, List.map_congr_left (g := fun _ => K.choose k * 2 ^ k)
    (fun i _ => by rw [List.length_map, openBoxes_length])]
  simp

section

variable {n : Nat} {top : List (List Nat)} {t : Topo} {uniq : List (List Nat) → List (List Nat)} {s : Topo}

theorem isCell_mem {k K i : Nat} {B : Box} {e : List Nat} (hK : K ≤ n) (h : IsCell t e k K i B) :
    (K, i, B) ∈ openCells t n k := by
  obtain ⟨f, h1, h2, h3, h4, h5, -⟩ := h
  exact mem_openCells.2 ⟨hK, h1.lt, mem_openBoxes.2 ⟨h2, h3, h4, h5⟩⟩

/-- the number of elements of every level -/
theorem fine_count (hu : UniqSpec uniq) (w : CWF n top t) (hn : 1 ≤ n) (hs : fromCubes uniq true n (allFine t n top) = .ok s)
    {k : Nat} (hk : k ≤ n) :
    s.nElements k = ((List.range (n + 1)).map fun K => t.nElements K * (K.choose k * 2 ^ k)).sum := by
  have ws := fromCubes_wf hu (allFine_cubes w hn) hs
  classical
  have hex : ∀ x, x < s.nElements k → ∃ q : Nat × Nat × Box, q.1 ≤ n ∧
      IsCell t ((s.elements[k]?.getD [])[x]?.getD []) k q.1 q.2.1 q.2.2 := by
    intro x hx
    have hst : Stored s k x ((s.elements[k]?.getD [])[x]?.getD []) := by
      unfold Stored
      rw [List.getElem?_eq_getElem hx, Option.getD_some]
    obtain ⟨K, hK, i, B, h⟩ := fine_isCell hu w hn hs hk hst
    exact ⟨(K, i, B), hK, h⟩
  let g : Nat → Nat × Nat × Box := fun x => if h : x < s.nElements k then (hex x h).choose else (0, 0, [])
  have hg : ∀ x, x < s.nElements k → (g x).1 ≤ n ∧ IsCell t ((s.elements[k]?.getD [])[x]?.getD []) k (g x).1 (g x).2.1 (g x).2.2 := by
    intro x hx
    simp only [g, dif_pos hx]
    exact (hex x hx).choose_spec
  rw [← openCells_length t n k]
  have hperm : ((List.range (s.nElements k)).map g).Perm (openCells t n k) := by
    rw [List.perm_ext_iff_of_nodup _ (openCells_nodup t n k)]
    · rintro ⟨K, i, B⟩
      rw [List.mem_map]
      constructor
      · rintro ⟨x, hx, hq⟩
        obtain ⟨h1, h2⟩ := hg x (List.mem_range.1 hx)
        rw [hq] at h1 h2
        exact isCell_mem h1 h2
      · intro hm
        obtain ⟨h1, h2, h3⟩ := mem_openCells.1 hm
        obtain ⟨b1, b2, b3, b4⟩ := mem_openBoxes.1 h3
        obtain ⟨x, e', h4, h5⟩ := fine_exists hu w hn hs h1 (show Stored t K i _ from List.getElem?_eq_getElem h2) b2 b1 b3 b4
        refine ⟨x, List.mem_range.2 h4.lt, ?_⟩
        obtain ⟨g1, g2⟩ := hg x h4.lt
        have he : (s.elements[k]?.getD [])[x]?.getD [] = e' := by
          rw [show (s.elements[k]?.getD [])[x]? = some e' from h4]
          rfl
        rw [he] at g2
        have hc := (ws.cube hn hk h4).1
        obtain ⟨q1, q2, q3⟩ := IsCell.unique w hn g1 h1 hc hc (List.Perm.refl _) g2 h5
        exact Prod.ext q1 (Prod.ext q2 q3)
    · refine List.Nodup.map_on ?_ List.nodup_range
      intro x hx y hy hxy
      rw [List.mem_range] at hx hy
      obtain ⟨-, g2⟩ := hg x hx
      obtain ⟨-, g4⟩ := hg y hy
      rw [← hxy] at g4
      have hx' : Stored s k x ((s.elements[k]?.getD [])[x]?.getD []) := by
        unfold Stored
        rw [List.getElem?_eq_getElem hx, Option.getD_some]
      have hy' : Stored s k y ((s.elements[k]?.getD [])[y]?.getD []) := by
        unfold Stored
        rw [List.getElem?_eq_getElem hy, Option.getD_some]
      exact distinct_index (fine_distinct hu w hn hs hk) hx' hy'
        (IsCell.perm (ws.cube hn hk hx').1 (ws.cube hn hk hy').1 g2 g4)
  have := hperm.length_eq
  simpa using this

theorem alternating_choose (m : Nat) : ∑ k ∈ Finset.range (m + 1), (-1 : ℤ) ^ k * (m.choose k * 2 ^ k : ℕ) = (-1) ^ m := by
  have h := add_pow (-2 : ℤ) 1 m
  rw [show (-2 : ℤ) + 1 = -1 by norm_num] at h
  rw [h]
  refine Finset.sum_congr rfl fun k _ => ?_
  rw [show (-2 : ℤ) = -1 * 2 by norm_num, mul_pow]
  push_cast
  ring

/-- the alternating sum over the levels does not change -/
theorem fine_euler (N N' : Nat → Nat) (n : Nat)
    (h : ∀ k ≤ n, N' k = ((List.range (n + 1)).map fun K => N K * (K.choose k * 2 ^ k)).sum) :
    ∑ k ∈ Finset.range (n + 1), (-1 : ℤ) ^ k * N' k = ∑ k ∈ Finset.range (n + 1), (-1 : ℤ) ^ k * N k := by
  have h1 : ∀ k ∈ Finset.range (n + 1), (-1 : ℤ) ^ k * N' k =
      ∑ K ∈ Finset.range (n + 1), (N K : ℤ) * ((-1 : ℤ) ^ k * (K.choose k * 2 ^ k : ℕ)) := by
    intro k hk
    rw [h k (by have := Finset.mem_range.1 hk; omega)]
    have : (((List.range (n + 1)).map fun K => N K * (K.choose k * 2 ^ k)).sum : ℤ) =
        ∑ K ∈ Finset.range (n + 1), (N K : ℤ) * (K.choose k * 2 ^ k : ℕ) := by
      rw [← list_range_sum]
      push_cast
      rw [List.map_map]
      rfl
    rw [this, Finset.mul_sum]
    exact Finset.sum_congr rfl fun K _ => by ring
  rw [Finset.sum_congr rfl h1, Finset.sum_comm]
  refine Finset.sum_congr rfl fun K hK => ?_
  rw [← Finset.mul_sum]
  have hK : K + 1 ≤ n + 1 := Finset.mem_range.1 hK
  have h2 : ∑ k ∈ Finset.range (n + 1), (-1 : ℤ) ^ k * (K.choose k * 2 ^ k : ℕ) =
      ∑ k ∈ Finset.range (K + 1), (-1 : ℤ) ^ k * (K.choose k * 2 ^ k : ℕ) := by
    symm
    apply Finset.sum_subset (Finset.range_mono hK)
    intro k _ hk
    rw [Nat.choose_eq_zero_of_lt (by simpa using hk)]
    simp
  rw [h2, alternating_choose]
  ring

end

end Verif
