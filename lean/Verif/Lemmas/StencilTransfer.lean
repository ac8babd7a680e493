/-
Sums over blocks of a grid.
-/
import Verif.Lemmas.Stencil
import Mathlib.Algebra.CharZero.Defs
import Mathlib.Data.Fintype.BigOperators
import Mathlib.Tactic.FieldSimp
import Mathlib.Algebra.Field.Basic
import Mathlib.Algebra.BigOperators.Field
import Mathlib.Data.Nat.Cast.Field
import Mathlib.Algebra.BigOperators.Fin
import Mathlib.Tactic.NormNum

set_option linter.unusedSectionVars false

namespace Verif.Props

open Verif.Model Verif.Spec

section

variable {N : Nat} {K : Type} [Field K] [CharZero K]

/-- a grid is made of blocks -/
theorem sum_blocks {M : Type} [AddCommMonoid M] (steps sh : Fin N → Nat) (hs : ∀ b, 0 < steps b)
    (F : (Fin N → Nat) → M) :
    ∑ i ∈ gridDom (fun b => steps b * sh b), F i =
      ∑ j ∈ gridDom sh, ∑ o ∈ gridDom steps, F fun b => steps b * j b + o b := by
  rw [← Finset.sum_product']
  symm
  refine Finset.sum_bij' (fun p _ => fun b => steps b * p.1 b + p.2 b)
    (fun i _ => (fun b => i b / steps b, fun b => i b % steps b)) ?_ ?_ ?_ ?_ ?_
  · rintro ⟨j, o⟩ h
    obtain ⟨h1, h2⟩ := Finset.mem_product.mp h
    rw [mem_gridDom] at h1 h2 ⊢
    intro b
    have a1 : j b < sh b := h1 b
    have a2 : o b < steps b := h2 b
    calc steps b * j b + o b < steps b * j b + steps b := by omega
      _ = steps b * (j b + 1) := by ring
      _ ≤ steps b * sh b := Nat.mul_le_mul_left _ a1
  · intro i hi
    rw [mem_gridDom] at hi
    refine Finset.mem_product.mpr ⟨mem_gridDom.mpr fun b => ?_, mem_gridDom.mpr fun b => ?_⟩
    · exact Nat.div_lt_of_lt_mul (hi b)
    · exact Nat.mod_lt _ (hs b)
  · rintro ⟨j, o⟩ h
    obtain ⟨_, h2⟩ := Finset.mem_product.mp h
    rw [mem_gridDom] at h2
    refine Prod.ext ?_ ?_
    · funext b
      show (steps b * j b + o b) / steps b = j b
      rw [Nat.mul_add_div (hs b), Nat.div_eq_of_lt (h2 b), add_zero]
    · funext b
      show (steps b * j b + o b) % steps b = o b
      rw [Nat.mul_add_mod, Nat.mod_eq_of_lt (h2 b)]
  · intro i _
    funext b
    exact Nat.div_add_mod _ _
  · intro p _
    rfl

theorem card_gridDom (sh : Fin N → Nat) : (gridDom sh).card = ∏ b, sh b := by
  simp [gridDom]

theorem binsOf_pos (s : List Nat) (b : Nat) : 0 < binsOf s b := by unfold binsOf; split <;> omega

theorem skipOf_pos (s : List Nat) (b : Nat) : 0 < skipOf s b := by unfold skipOf; split <;> omega

theorem skip_mul_bins (s : List Nat) (b : Nat) : skipOf s b * binsOf s b = 2 := by
  unfold skipOf binsOf; split <;> rfl

/-- the number of cells that are averaged -/
theorem prod_binsOf {s : List Nat} {n : Nat} (hs : AxisSet N n s) :
    ∏ b : Fin N, binsOf s b = 2 ^ n := by
  have h1 : ∏ b : Fin N, binsOf s b = ∏ x ∈ Finset.range N, binsOf s x :=
    (Finset.prod_range fun x => binsOf s x).symm
  have h2 : ∏ x ∈ Finset.range N, binsOf s x = ∏ x ∈ s.toFinset, 2 := by
    have : s.toFinset ⊆ Finset.range N := fun x hx =>
      Finset.mem_range.mpr (hs.2.2 x (List.mem_toFinset.mp hx))
    rw [← Finset.prod_subset this]
    · refine Finset.prod_congr rfl fun x hx => ?_
      unfold binsOf
      rw [if_pos (by simpa using hx)]
    · intro x _ hx
      unfold binsOf
      rw [if_neg (by simpa using hx)]
  rw [h1, h2, Finset.prod_const,
    List.toFinset_card_of_nodup (hs.1.imp fun h => Nat.ne_of_lt h), hs.2.1]

/-- strided selection and averaging visit the cells `2 j + o` -/
theorem binComponent_eq (s : List Nat) (G : (Fin N → Nat) → K) (j : Fin N → Nat) :
    binComponent s G j = (∑ o ∈ gridDom (fun b : Fin N => binsOf s b), G fun b => 2 * j b + o b) /
      ((∏ b : Fin N, binsOf s b : Nat) : K) := by
  unfold binComponent binning
  congr 1
  refine Finset.sum_congr rfl fun o ho => ?_
  refine congrArg G ?_
  funext b
  have := mem_gridDom.mp ho b
  unfold binsOf at this
  unfold skipOf binsOf
  by_cases h : s.contains (b : Nat) = true
  · simp only [h, if_true]
    omega
  · rw [if_neg h] at this
    have : o b = 0 := by omega
    simp only [h, this]
    simp

/-- averaging what was tiled gives back the coarse values -/
theorem bin_tile (s : List Nat) (c : (Fin N → Nat) → K) (j : Fin N → Nat) :
    binComponent s (tileComponent s c) j = c j := by
  unfold binComponent binning
  have h : ∀ o ∈ gridDom (fun b : Fin N => binsOf s b),
      tileComponent s c (fun b => skipOf s b * (binsOf s b * j b + o b)) = c j := by
    intro o ho
    unfold tileComponent
    rw [if_pos fun b => Nat.dvd_mul_right _ _]
    congr 1
    funext b
    rw [Nat.mul_div_cancel_left _ (skipOf_pos s b), Nat.mul_add_div (binsOf_pos s b),
      Nat.div_eq_of_lt (mem_gridDom.mp ho b), add_zero]
  rw [Finset.sum_congr rfl h, Finset.sum_const, card_gridDom, nsmul_eq_mul]
  have : ((∏ b : Fin N, binsOf s b : Nat) : K) ≠ 0 :=
    Nat.cast_ne_zero.mpr (Finset.prod_ne_zero_iff.mpr fun b _ => (binsOf_pos s b).ne')
  field_simp

/-- averaging is adjoint to tiling, up to the number of cells averaged -/
theorem bin_adjoint (s : List Nat) (sh : Fin N → Nat) (f c : (Fin N → Nat) → K) :
    ((∏ b : Fin N, binsOf s b : Nat) : K) * ∑ j ∈ gridDom sh, binComponent s f j * c j =
      ∑ i ∈ gridDom (fun b => 2 * sh b), f i * tileComponent s c i := by
  have hne : ((∏ b : Fin N, binsOf s b : Nat) : K) ≠ 0 :=
    Nat.cast_ne_zero.mpr (Finset.prod_ne_zero_iff.mpr fun b _ => (binsOf_pos s b).ne')
  have h2 : (fun b : Fin N => 2 * sh b) = fun b : Fin N => skipOf s b * (binsOf s b * sh b) := by
    funext b; rw [← mul_assoc, skip_mul_bins]
  rw [h2, sum_blocks (fun b : Fin N => skipOf s b) _ (fun b => skipOf_pos s b),
    sum_blocks (fun b : Fin N => binsOf s b) sh (fun b => binsOf_pos s b), Finset.mul_sum]
  refine Finset.sum_congr rfl fun j _ => ?_
  unfold binComponent binning
  rw [div_mul_eq_mul_div, mul_div_cancel₀ _ hne, Finset.sum_mul]
  refine Finset.sum_congr rfl fun o ho => ?_
  rw [Finset.sum_eq_single (fun _ => 0)]
  · have : tileComponent s c (fun b => skipOf s b * (binsOf s b * j b + o b) + 0) = c j := by
      unfold tileComponent
      simp only [add_zero]
      rw [if_pos fun b => Nat.dvd_mul_right _ _]
      congr 1
      funext b
      rw [ Nat.mul_div_cancel_left _ (skipOf_pos s b), Nat.mul_add_div (binsOf_pos s b),
        Nat.div_eq_of_lt (mem_gridDom.mp ho b), add_zero]
    rw [this]
    rfl
  · intro r hr hne'
    unfold tileComponent
    rw [if_neg, mul_zero]
    intro hdvd
    apply hne'
    funext b
    have h3 : skipOf s b ∣ r b := (Nat.dvd_add_right (Nat.dvd_mul_right _ _)).mp (hdvd b)
    exact Nat.eq_zero_of_dvd_of_lt h3 (mem_gridDom.mp hr b)
  · intro h
    exact absurd (mem_gridDom.mpr fun b => skipOf_pos s b) h

/-- the mean over the grid of the block means is the mean of the array -/
theorem binning_mean (steps sh : Fin N → Nat) (hs : ∀ b, 0 < steps b) (f : (Fin N → Nat) → K) :
    (∑ j ∈ gridDom sh, binning steps f j) / ((gridDom sh).card : K) =
      (∑ i ∈ gridDom (fun b => steps b * sh b), f i) /
        ((gridDom fun b => steps b * sh b).card : K) := by
  rw [sum_blocks steps sh hs, card_gridDom, card_gridDom, Finset.prod_mul_distrib]
  unfold binning
  rw [← Finset.sum_div, div_div, Nat.cast_mul]

/-! ### the derivative -/

/-- splitting off one of the averaged axes -/
theorem sum_bins_split {M : Type} [AddCommMonoid M] (s : List Nat) (d : Fin N) (hd : (d : Nat) ∈ s)
    (hnd : s.Nodup) (F : (Fin N → Nat) → M) :
    ∑ o ∈ gridDom (fun b : Fin N => binsOf s b), F o =
      ∑ o ∈ gridDom (fun b : Fin N => binsOf (s.erase d) b),
        (F o + F (Function.update o d 1)) := by
  have hmem : ∀ b : Fin N, b ≠ d → (s.erase (d : Nat)).contains (b : Nat) = s.contains (b : Nat) := by
    intro b hb
    rw [Bool.eq_iff_iff]
    simp only [List.contains_iff_mem]
    rw [hnd.mem_erase_iff]
    constructor
    · exact fun h => h.2
    · exact fun h => ⟨fun h' => hb (Fin.ext h'), h⟩
  have hb : ∀ b : Fin N, b ≠ d → binsOf (s.erase d) b = binsOf s b := by
    intro b h; unfold binsOf; rw [hmem b h]
  have h1 : binsOf (s.erase d) d = 1 := by
    unfold binsOf; rw [if_neg]; simpa using hnd.not_mem_erase
  have h2 : binsOf s d = 2 := by
    unfold binsOf; rw [if_pos]; simpa using hd
  have hsplit : ∑ o ∈ gridDom (fun b : Fin N => binsOf s b), F o =
      ∑ p ∈ gridDom (fun b : Fin N => binsOf (s.erase d) b) ×ˢ Finset.range 2,
        F (Function.update p.1 d p.2) := by
    symm
    refine Finset.sum_bij' (fun p _ => Function.update p.1 d p.2)
      (fun o _ => (Function.update o d 0, o d)) ?_ ?_ ?_ ?_ ?_
    · rintro ⟨o, k⟩ hp
      obtain ⟨ho, hk⟩ := Finset.mem_product.mp hp
      refine mem_gridDom.mpr fun b => ?_
      by_cases hbd : b = d
      · subst hbd
        rw [Function.update_self, h2]
        exact Finset.mem_range.mp hk
      · rw [Function.update_of_ne hbd, ← hb b hbd]
        exact mem_gridDom.mp ho b
    · intro o ho
      refine Finset.mem_product.mpr ⟨mem_gridDom.mpr fun b => ?_, ?_⟩
      · show Function.update o d 0 b < binsOf (s.erase d) b
        by_cases hbd : b = d
        · subst hbd; rw [Function.update_self, h1]; omega
        · rw [Function.update_of_ne hbd, hb b hbd]; exact mem_gridDom.mp ho b
      · have := mem_gridDom.mp ho d
        rw [h2] at this
        exact Finset.mem_range.mpr this
    · rintro ⟨o, k⟩ hp
      obtain ⟨ho, _⟩ := Finset.mem_product.mp hp
      have h0 : o d = 0 := by
        have : o d < binsOf (s.erase d) d := mem_gridDom.mp ho d
        rw [h1] at this
        omega
      simp only [Function.update_idem, Function.update_self]
      rw [← h0, Function.update_eq_self]
    · intro o _
      simp only [Function.update_idem, Function.update_eq_self]
    · intro p _
      rfl
  rw [hsplit, Finset.sum_product]
  refine Finset.sum_congr rfl fun o ho => ?_
  have h0 : o d = 0 := by
    have : o d < binsOf (s.erase d) d := mem_gridDom.mp ho d
    rw [h1] at this
    omega
  rw [Finset.sum_range_succ, Finset.sum_range_one]
  congr 2
  rw [← h0, Function.update_eq_self]

/-- averaging the differences along one of the averaged axes telescopes -/
theorem bin_difference {s : List Nat} {n : Nat} (hs : AxisSet N (n + 1) s) {d : Nat} (hd : d ∈ s)
    {sh j : Fin N → Nat} (hj : j ∈ gridDom sh) (G : (Fin N → Nat) → K) :
    2 * binComponent s (fun i => G (next (fun b => 2 * sh b) d i) - G i) j =
      binComponent (s.erase d) G (next sh d j) - binComponent (s.erase d) G j := by
  obtain ⟨hs', _, hdN, _⟩ := axisSet_erase hs hd
  have hnd : s.Nodup := hs.1.imp fun h => Nat.ne_of_lt h
  have h2 : (2 : K) ≠ 0 := by norm_num
  rw [binComponent_eq, binComponent_eq, binComponent_eq, prod_binsOf hs, prod_binsOf hs',
    sum_bins_split s ⟨d, hdN⟩ hd hnd, ← sub_div, ← Finset.sum_sub_distrib]
  push_cast
  rw [pow_succ, mul_comm (2 ^ n : K) 2, ← div_div, mul_div_assoc', mul_div_cancel₀ _ h2]
  congr 1
  refine Finset.sum_congr rfl fun o ho => ?_
  have h0 : o ⟨d, hdN⟩ = 0 := by
    have : o ⟨d, hdN⟩ < binsOf (s.erase d) d := mem_gridDom.mp ho ⟨d, hdN⟩
    unfold binsOf at this
    rw [if_neg (by simpa using hnd.not_mem_erase)] at this
    omega
  have e1 : next (fun b => 2 * sh b) d (fun b => 2 * j b + o b) =
      fun b => 2 * j b + Function.update o ⟨d, hdN⟩ 1 b := by
    funext b
    unfold next
    by_cases hb : (b : Nat) = d
    · have hb' : b = ⟨d, hdN⟩ := Fin.ext hb
      subst hb'
      simp only [if_true, Function.update_self, h0]
      rw [if_neg (by omega)]
    · have hb' : b ≠ ⟨d, hdN⟩ := fun h => hb (congrArg Fin.val h)
      rw [if_neg hb, Function.update_of_ne hb']
  have e2 : next (fun b => 2 * sh b) d (fun b => 2 * j b + Function.update o ⟨d, hdN⟩ 1 b) =
      fun b => 2 * next sh d j b + o b := by
    funext b
    unfold next
    by_cases hb : (b : Nat) = d
    · have hb' : b = ⟨d, hdN⟩ := Fin.ext hb
      subst hb'
      have := mem_gridDom.mp hj ⟨d, hdN⟩
      simp only [if_true, Function.update_self, h0]
      by_cases hw : j ⟨d, hdN⟩ + 1 = sh ⟨d, hdN⟩
      · rw [if_pos (by omega), if_pos hw]
      · rw [if_neg (by omega), if_neg hw]; ring
    · have hb' : b ≠ ⟨d, hdN⟩ := fun h => hb (congrArg Fin.val h)
      simp only [if_neg hb, Function.update_of_ne hb']
  rw [e1, e2]
  ring

/-! ### averaging -/

/-- a periodic grid moved by a vector -/
theorem sum_move {M : Type} [AddCommMonoid M] (sh : Fin N → Nat) (v : Fin N → Int)
    (F : (Fin N → Nat) → M) :
    ∑ i ∈ gridDom sh, F (fun b => (((i b : Int) + v b) % (sh b : Int)).toNat) =
      ∑ i ∈ gridDom sh, F i := by
  have hmem : ∀ (v : Fin N → Int), ∀ i ∈ gridDom sh,
      (fun b => (((i b : Int) + v b) % (sh b : Int)).toNat) ∈ gridDom sh := by
    intro v i hi
    rw [mem_gridDom] at hi ⊢
    intro b
    have h0 : (0 : Int) < sh b := by have := hi b; omega
    have h1 := Int.emod_nonneg ((i b : Int) + v b) h0.ne'
    have h2 := Int.emod_lt_of_pos ((i b : Int) + v b) h0
    omega
  have hinv : ∀ (v w : Fin N → Int), (∀ b, v b + w b = 0) → ∀ i ∈ gridDom sh,
      (fun b => ((((fun b => (((i b : Int) + v b) % (sh b : Int)).toNat) b : Nat) : Int) + w b) %
        (sh b : Int) |>.toNat) = i := by
    intro v w hvw i hi
    rw [mem_gridDom] at hi
    funext b
    have h0 : (0 : Int) < sh b := by have := hi b; omega
    have h1 := Int.emod_nonneg ((i b : Int) + v b) h0.ne'
    show (((((((i b : Int) + v b) % (sh b : Int)).toNat : Nat) : Int) + w b) %
        (sh b : Int)).toNat = i b
    rw [Int.toNat_of_nonneg h1, Int.emod_add_emod, add_assoc, hvw, add_zero,
      Int.emod_eq_of_lt (by omega) (by have := hi b; omega)]
    simp
  refine Finset.sum_bij' (fun i _ => fun b => (((i b : Int) + v b) % (sh b : Int)).toNat)
    (fun i _ => fun b => (((i b : Int) + (-v b)) % (sh b : Int)).toNat)
    (fun i hi => hmem v i hi) (fun i hi => hmem (fun b => -v b) i hi) ?_ ?_ ?_
  · intro i hi; exact hinv v (fun b => -v b) (fun b => by ring) i hi
  · intro i hi; exact hinv (fun b => -v b) v (fun b => by ring) i hi
  · intro i _; rfl

end

end Verif.Props
