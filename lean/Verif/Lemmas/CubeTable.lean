/-
The lookup table of cube symmetries.
-/
import Verif.Lemmas.CubeSym
import Verif.Props.Combinatorial

set_option linter.unusedSectionVars false

namespace Verif

open Verif.Model Verif.Spec Verif.Props

variable {n : Nat}

theorem transposeAxes_eq_turn (axes : List Nat) (l : List Nat) :
    transposeAxes n axes l = turn n axes (List.replicate n false) l := by
  refine cubeOf_congr fun b hb => congrArg _ (List.map_congr_left fun j _ => ?_)
  rw [List.getElem?_replicate]
  split <;> simp

theorem foldl_modify_get (L : List Nat) : ∀ (f : List Bool), L.Nodup → ∀ k < f.length,
    (L.foldl (fun f i => f.modify i not) f)[k]? = some (xor (f[k]?.getD false) (decide (k ∈ L))) := by
  induction L with
  | nil =>
    intro f _ k hk
    simp [List.getElem?_eq_getElem hk]
  | cons i L ih =>
    intro f hn k hk
    rw [List.nodup_cons] at hn
    rw [List.foldl_cons, ih _ hn.2 k (by simpa using hk), List.getElem?_modify, List.getElem?_eq_getElem hk]
    congr 1
    by_cases hik : i = k
    · subst hik
      simp [hn.1]
    · have : k ≠ i := fun e => hik e.symm
      simp [hik, this]

theorem foldl_modify_length (L : List Nat) : ∀ (f : List Bool),
    (L.foldl (fun f i => f.modify i not) f).length = f.length := by
  induction L with
  | nil => intro f; rfl
  | cons i L ih => intro f; rw [List.foldl_cons, ih, List.length_modify]

/-- the loop over flipped axes -/
theorem flipAxes_eq_turn {axes : List Nat} (ha : axes.Perm (List.range n)) {c : List Bool}
    (hc : c.length = n) (l : List Nat) :
    flipAxes n c (transposeAxes n axes l) = turn n axes c l := by
  unfold flipAxes
  rw [transposeAxes_eq_turn]
  have hfold : ∀ (L : List Nat) (f : List Bool), IsSymmetry n axes f →
      L.foldl (fun arr i => flipAxis n i arr) (turn n axes f l) =
        turn n axes (L.foldl (fun f i => f.modify i not) f) l := by
    intro L
    induction L with
    | nil => intro f _; rfl
    | cons i L ih =>
      intro f hf
      rw [List.foldl_cons, List.foldl_cons, flipAxis_turn hf, ih _ (hf.modified i)]
  rw [hfold _ _ ⟨ha, by simp⟩]
  congr 1
  apply List.ext_getElem?
  intro k
  rcases Nat.lt_or_ge k n with hk | hk
  · rw [foldl_modify_get _ _ (List.nodup_range.filter _) k (by simpa using hk), List.getElem?_replicate,
      if_pos hk, List.getElem?_eq_getElem (by omega)]
    simp only [List.mem_filter, List.mem_range, hk, true_and, Option.getD_some,
      List.getElem?_eq_getElem (show k < c.length by omega)]
    simp
  · rw [List.getElem?_eq_none (by rw [foldl_modify_length]; simpa using hk),
      List.getElem?_eq_none (by omega)]

/-- the entries of the table -/
theorem mem_cubePermutationMap (hn : 1 ≤ n) {p : Nat} {row : List Nat} :
    (p, row) ∈ cubePermutationMap n true ↔ ∃ axes flips, IsSymmetry n axes flips ∧
      row = turn n axes flips (List.range (2 ^ n)) ∧ p = (inversions axes + flips.count true) % 2 := by
  have hne : List.range n ≠ [] := by
    rw [Ne, List.range_eq_nil]; omega
  have hid : ∀ axes : List Nat, axes.Perm (List.range n) →
      axes.map (fun x => (List.range n).idxOf x) = axes := by
    intro axes ha
    have : ∀ x ∈ axes, (List.range n).idxOf x = x := by
      intro x hx
      have hx := List.mem_range.1 (ha.mem_iff.mp hx)
      have := (List.nodup_range (n := n)).idxOf_getElem x (by simpa using hx)
      simpa using this
    rw [List.map_congr_left this, List.map_id']
  unfold cubePermutationMap
  simp only [if_true, List.mem_flatMap, List.mem_map, Prod.mk.injEq]
  constructor
  · rintro ⟨⟨q, axes⟩, hq, c, hc, h1, h2⟩
    have hx := (C01_permutations_exact (List.range n) hne List.nodup_range q axes).1 hq
    rw [mem_cubeIndices] at hc
    rw [hid axes hx.1] at hx
    refine ⟨axes, c, ⟨hx.1, hc⟩, ?_, ?_⟩
    · rw [← h2, flipAxes_eq_turn hx.1 hc]
    · rw [← h1, hx.2]
      simp
  · rintro ⟨axes, flips, hs, rfl, rfl⟩
    refine ⟨(inversions axes % 2, axes), ?_, flips, mem_cubeIndices.2 hs.2, ?_, flipAxes_eq_turn hs.1 hs.2 _⟩
    · rw [C01_permutations_exact (List.range n) hne List.nodup_range]
      exact ⟨hs.1, by rw [hid axes hs.1]⟩
    · simp

/-- reading a cube through a turned range -/
theorem turn_range_map {l : List Nat} {axes : List Nat} {flips : List Bool} :
    (turn n axes flips (List.range (2 ^ n))).map (fun x => l[x]?.getD 0) = turn n axes flips l := by
  unfold turn cubeOf
  rw [List.map_map]
  refine List.map_congr_left fun b _ => ?_
  have hlt := ravel_lt (turnIndex n axes flips b)
  rw [turnIndex_length] at hlt
  simp [cubeAt, hlt]

/-- an entry of the relative permutation is determined by the corners -/
theorem relativePermutation_turn {b : List Nat} (hb : b.length = 2 ^ n) (hn : b.Nodup) {axes : List Nat}
    {flips : List Bool} (h : IsSymmetry n axes flips) :
    relativePermutation (argsort b) (argsort (turn n axes flips b)) = turn n axes flips (List.range (2 ^ n)) := by
  have hp := turn_perm hb h
  have hmap := relativePermutation_map hp.symm
  rw [← turn_range_map] at hmap
  have hlt1 := relativePermutation_lt hp.symm
  have hlt2 : ∀ x ∈ turn n axes flips (List.range (2 ^ n)), x < b.length := by
    intro x hx
    rw [hb]
    exact List.mem_range.1 ((turn_perm (by simp) h).mem_iff.mp hx)
  have hlen : (relativePermutation (argsort b) (argsort (turn n axes flips b))).length =
      (turn n axes flips (List.range (2 ^ n))).length := by
    rw [relativePermutation_length, hb, turn_length]
  rw [turn_range_map] at hmap
  rw [← turn_range_map (l := b)] at hmap
  rw [turn_range_map (l := b)] at hmap
  apply List.ext_getElem hlen
  intro i h1 h2
  have e : ((relativePermutation (argsort b) (argsort (turn n axes flips b))).map fun x => b[x]?.getD 0)[i]? =
      ((turn n axes flips (List.range (2 ^ n))).map fun x => b[x]?.getD 0)[i]? := by
    rw [hmap, turn_range_map]
  rw [List.getElem?_map, List.getElem?_map, List.getElem?_eq_getElem h1, List.getElem?_eq_getElem h2] at e
  have g1 := hlt1 _ (List.getElem_mem h1)
  have g2 := hlt2 _ (List.getElem_mem h2)
  simp only [Option.map_some, List.getElem?_eq_getElem g1, List.getElem?_eq_getElem g2, Option.getD_some,
    Option.some.injEq] at e
  exact hn.getElem_inj_iff.mp e

/-- what the lookup returns for two cubes with the same corners -/
theorem relativeCubeParity_iff (h1n : 1 ≤ n) {b c : List Nat} (hb : b.length = 2 ^ n) (hn : b.Nodup)
    (hp : b.Perm c) {p : Nat} :
    relativeCubeParity n (relativePermutation (argsort b) (argsort c)) = .ok p ↔
      p < 2 ∧ SymmetricCube n b c ((-1) ^ p) := by
  set rel := relativePermutation (argsort b) (argsort c) with hrel
  have hmap := relativePermutation_map hp
  have hentry : ∀ q, (q, rel) ∈ cubePermutationMap n true → q < 2 ∧ SymmetricCube n b c ((-1) ^ q) := by
    intro q hq
    obtain ⟨axes, flips, hs, hrow, rfl⟩ := (mem_cubePermutationMap h1n).1 hq
    refine ⟨Nat.mod_lt _ (by omega), axes, flips, hs, ?_, ?_⟩
    · rw [← hmap, ← hrel, hrow, turn_range_map]
    · rw [symmetrySign_eq hs, ← neg_one_pow_eq_pow_mod_two]
  have hfound : ∀ q, (q, rel) ∈ cubePermutationMap n true → ∀ s, SymmetricCube n b c s → s = (-1) ^ q :=
    fun q hq s hs => SymmetricCube.unique hb hn hs (hentry q hq).2
  unfold relativeCubeParity
  cases hf : (cubePermutationMap n true).find? (fun pc => pc.2 == rel) with
  | none =>
    simp only [reduceCtorEq, false_iff]
    rintro ⟨-, axes, flips, hs, hc, -⟩
    have hrow : rel = turn n axes flips (List.range (2 ^ n)) := by
      rw [hrel, hc, relativePermutation_turn hb hn hs]
    have := List.find?_eq_none.1 hf ((inversions axes + flips.count true) % 2, rel)
      ((mem_cubePermutationMap h1n).2 ⟨axes, flips, hs, hrow, rfl⟩)
    simp at this
  | some pc =>
    have hm := List.mem_of_find?_eq_some hf
    have he := List.find?_some hf
    simp only [beq_iff_eq] at he
    obtain ⟨q, r⟩ := pc
    simp only at he
    subst he
    have hq := hentry q hm
    simp only [Except.ok.injEq]
    constructor
    · rintro rfl
      exact hq
    · rintro ⟨hp2, hs⟩
      have := hfound q hm _ hs
      have h1 : p = 0 ∨ p = 1 := by omega
      have h2 : q = 0 ∨ q = 1 := by omega
      rcases h1 with rfl | rfl <;> rcases h2 with rfl | rfl <;> simp at this ⊢

end Verif
