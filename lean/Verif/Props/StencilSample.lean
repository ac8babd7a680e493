/-
C81: sampling of 0-forms on periodic grids.
-/
import Verif.Model.StencilSample
import Verif.Lemmas.Simplicial
import Mathlib.Data.Rat.Floor
import Mathlib.Tactic.Linarith
import Mathlib.Tactic.Ring
import Mathlib.Tactic.FieldSimp

set_option linter.unusedSectionVars false

namespace Verif.Props

open Verif.Model

variable {K : Type} [Field K] [LinearOrder K] [IsStrictOrderedRing K] [FloorRing K]

/-- the value at the position `u`, in units of the spacing -/
def periodicValue : List Nat → (List Nat → K) → List K → K
  | m :: shape, entry, u :: us =>
    (1 - Int.fract u) * periodicValue shape (fun i => entry ((⌊u⌋ % (m : ℤ)).toNat :: i)) us +
      Int.fract u * periodicValue shape (fun i => entry (((⌊u⌋ + 1) % (m : ℤ)).toNat :: i)) us
  | _, entry, _ => entry []

theorem remainder_floor {u : K} {m : Nat} (hm : 1 ≤ m) : 0 ≤ npRemainder u m ∧ npRemainder u m < m ∧
    ⌊npRemainder u m⌋ = ⌊u⌋ % (m : ℤ) ∧ Int.fract (npRemainder u m) = Int.fract u := by
  have hm' : (0 : K) < m := by exact_mod_cast hm
  have h1 := Int.floor_le (u / m)
  have h2 := Int.lt_floor_add_one (u / (m : K))
  rw [le_div_iff₀ hm'] at h1
  rw [div_lt_iff₀ hm'] at h2
  have e : npRemainder u m = u - ((m * ⌊u / m⌋ : ℤ) : K) := by
    unfold npRemainder
    push_cast
    ring
  have h0 : 0 ≤ npRemainder u m := by unfold npRemainder; linarith
  have h3 : npRemainder u m < m := by unfold npRemainder; linarith
  refine ⟨h0, h3, ?_, by rw [e, Int.fract_sub_intCast]⟩
  have h4 : ⌊npRemainder u m⌋ = ⌊u⌋ - m * ⌊u / m⌋ := by rw [e, Int.floor_sub_intCast]
  have h5 : 0 ≤ ⌊npRemainder u m⌋ := Int.floor_nonneg.2 h0
  have h6 : ⌊npRemainder u m⌋ < m := by rw [Int.floor_lt]; exact_mod_cast h3
  rw [h4] at h5 h6 ⊢
  rw [eq_comm, ← Int.emod_eq_of_lt h5 h6, Int.sub_mul_emod_self_left]

theorem interpolation_periodic : ∀ (shape : List Nat) (entry : List Nat → K) (u : List K), (∀ m ∈ shape, 1 ≤ m) →
    u.length = shape.length →
    linearInterpolation (shape.map (· + 1)) (fun i => entry (List.zipWith (· % ·) i shape)) (List.zipWith npRemainder u shape) =
      periodicValue shape entry u
  | [], entry, [], _, _ => rfl
  | m :: shape, entry, u :: us, hs, hl => by
    have hm := hs m (by simp)
    obtain ⟨h1, h2, h3, h4⟩ := remainder_floor (u := u) hm
    have h5 : ⌊npRemainder u m⌋ < m := by rw [Int.floor_lt]; exact_mod_cast h2
    have h6 : 0 ≤ ⌊npRemainder u m⌋ := Int.floor_nonneg.2 h1
    have h7 : ((⌊npRemainder u m⌋.toNat : Nat) : K) = (⌊npRemainder u m⌋ : K) := by
      have := Int.toNat_of_nonneg h6
      exact_mod_cast congrArg (Int.cast (R := K)) this
    have h8 : npRemainder u m - (⌊npRemainder u m⌋.toNat : Nat) = Int.fract u := by rw [h7, ← h4]; rfl
    have ih := fun entry => interpolation_periodic shape entry us (fun m h => hs m (by simp [h])) (by simpa using hl)
    simp only [List.map_cons, List.zipWith_cons_cons, linearInterpolation, periodicValue]
    rw [h8, ih fun i => entry (⌊npRemainder u m⌋.toNat % m :: i),
      ih fun i => entry (min (⌊npRemainder u m⌋.toNat + 1) (m + 1 - 1) % m :: i)]
    have e1 : ⌊npRemainder u m⌋.toNat % m = (⌊u⌋ % (m : ℤ)).toNat := by
      rw [Nat.mod_eq_of_lt (by omega), h3]
    have e2 : min (⌊npRemainder u m⌋.toNat + 1) (m + 1 - 1) % m = ((⌊u⌋ + 1) % (m : ℤ)).toNat := by
      have h9 : (⌊u⌋ + 1) % (m : ℤ) = (⌊npRemainder u m⌋ + 1) % (m : ℤ) := by rw [h3, Int.emod_add_emod]
      rw [h9, Nat.min_eq_left (by omega)]
      obtain ⟨k, hk⟩ := Int.eq_ofNat_of_zero_le h6
      rw [hk, Int.toNat_natCast]
      norm_cast
    rw [e1, e2]

theorem remainders_inside : ∀ (shape : List Nat) (u : List K), (∀ m ∈ shape, 1 ≤ m) →
    (List.zipWith (fun (x : K) (m : Nat) => decide (0 ≤ x ∧ x ≤ (m : K) - 1)) (List.zipWith npRemainder u shape)
      (shape.map (· + 1))).all id = true
  | [], [], _ => rfl
  | [], _ :: _, _ => rfl
  | _ :: _, [], _ => rfl
  | m :: shape, u :: us, hs => by
    obtain ⟨h1, h2, -, -⟩ := remainder_floor (u := u) (hs m (by simp))
    simp only [List.zipWith_cons_cons, List.map_cons, List.all_cons, id_eq, Bool.and_eq_true, decide_eq_true_eq]
    refine ⟨⟨h1, ?_⟩, remainders_inside shape us fun m h => hs m (by simp [h])⟩
    push_cast
    linarith

theorem periodicValue_int : ∀ (shape : List Nat) (entry : List Nat → K) (z : List ℤ), z.length = shape.length →
    periodicValue shape entry (z.map fun k : ℤ => (k : K)) = entry (List.zipWith (fun (k : ℤ) (m : Nat) => (k % (m : ℤ)).toNat) z shape)
  | [], _, [], _ => rfl
  | m :: shape, entry, k :: z, h => by
    simp only [List.map_cons, periodicValue, Int.fract_intCast, Int.floor_intCast, sub_zero, one_mul, zero_mul, add_zero,
      List.zipWith_cons_cons]
    exact periodicValue_int shape _ z (by simpa using h)

theorem periodicValue_shift : ∀ (shape : List Nat) (entry : List Nat → K) (p r : List K) (u : K) (m : Nat) (k : ℤ),
    shape[p.length]? = some m → periodicValue shape entry (p ++ (u + (k * m : ℤ)) :: r) = periodicValue shape entry (p ++ u :: r)
  | [], _, p, _, _, _, _, h => by simp at h
  | m :: shape, entry, [], r, u, m', k, h => by
    obtain rfl := Option.some.inj h
    have e : ∀ x : ℤ, (x + k * m) % (m : ℤ) = x % (m : ℤ) := fun x => Int.add_mul_emod_self_right x k m
    have e' : (⌊u⌋ + k * m + 1) % (m : ℤ) = (⌊u⌋ + 1) % (m : ℤ) := by rw [add_right_comm, e]
    simp only [List.nil_append, periodicValue, Int.floor_add_intCast, Int.fract_add_intCast, e, e']
  | m :: shape, entry, a :: p, r, u, m', k, h => by
    simp only [List.cons_append, periodicValue]
    rw [periodicValue_shift shape _ p r u m' k (by simpa using h), periodicValue_shift shape _ p r u m' k (by simpa using h)]

theorem periodicValue_affine : ∀ (shape : List Nat) (entry : List Nat → K) (p r : List K) (z : ℤ) (s : K),
    p.length + r.length < shape.length → 0 ≤ s → s ≤ 1 →
    periodicValue shape entry (p ++ (z + s) :: r) =
      (1 - s) * periodicValue shape entry (p ++ (z : K) :: r) + s * periodicValue shape entry (p ++ ((z : K) + 1) :: r)
  | [], _, p, _, _, _, h, _, _ => by simp at h
  | m :: shape, entry, [], r, z, s, _, h0, h1 => by
    have e1 : Int.fract ((z : K) + 1) = 0 := by
      rw [show ((z : K) + 1) = ((z + 1 : ℤ) : K) by push_cast; ring, Int.fract_intCast]
    have e2 : ⌊(z : K) + 1⌋ = z + 1 := by
      rw [show ((z : K) + 1) = ((z + 1 : ℤ) : K) by push_cast; ring, Int.floor_intCast]
    rcases lt_or_eq_of_le h1 with h1 | rfl
    · have e3 : ⌊(z : K) + s⌋ = z := by rw [Int.floor_eq_iff]; constructor <;> linarith
      have e4 : Int.fract ((z : K) + s) = s := by unfold Int.fract; rw [e3]; ring
      simp only [List.nil_append, periodicValue, e1, e2, e3, e4, Int.fract_intCast, Int.floor_intCast]
      ring
    · ring
  | m :: shape, entry, a :: p, r, z, s, h, h0, h1 => by
    have ih := fun entry => periodicValue_affine shape entry p r z s (by simp at h; omega) h0 h1
    simp only [List.cons_append, periodicValue]
    rw [ih, ih]
    ring

theorem periodicValue_bounds : ∀ (shape : List Nat) (entry : List Nat → K) (u : List K) (lo hi : K), (∀ m ∈ shape, 1 ≤ m) →
    u.length = shape.length → (∀ i, List.Forall₂ (· < ·) i shape → lo ≤ entry i ∧ entry i ≤ hi) →
    lo ≤ periodicValue shape entry u ∧ periodicValue shape entry u ≤ hi
  | [], entry, [], lo, hi, _, _, h => h [] List.Forall₂.nil
  | m :: shape, entry, u :: us, lo, hi, hs, hl, h => by
    have hm := hs m (by simp)
    have hlt : ∀ z : ℤ, (z % (m : ℤ)).toNat < m := by
      intro z
      have := Int.emod_lt_of_pos z (show (0 : ℤ) < m by omega)
      have := Int.emod_nonneg z (show (m : ℤ) ≠ 0 by omega)
      omega
    have ih := fun z : ℤ => periodicValue_bounds shape (fun i => entry ((z % (m : ℤ)).toNat :: i)) us lo hi
      (fun m h => hs m (by simp [h])) (by simpa using hl) fun i hi => h _ (List.Forall₂.cons (hlt z) hi)
    have h0 := Int.fract_nonneg u
    have h1 := Int.fract_lt_one u
    obtain ⟨a1, a2⟩ := ih ⌊u⌋
    obtain ⟨b1, b2⟩ := ih (⌊u⌋ + 1)
    simp only [periodicValue]
    constructor <;> nlinarith

/-- C81: `sample_0` on a periodic grid is, at every point, the value of one function `g`: at grid points it is the value
of the form there, wrapped around; it is periodic; along each axis it is affine between neighboring grid points, at
any other coordinates; and it stays between the bounds of the form -/
theorem C81_sample (c : GridComplex K) (hb : c.boundary = "periodic") (hs : ∀ m ∈ c.shape, 1 ≤ m) (hsc : c.scale ≠ 0)
    (f0 : GridArray K) (hf : f0.shape = 1 :: c.shape) :
    ∃ g : List K → K,
      (∀ points : List (List K), (∀ p ∈ points, p.length = c.shape.length) →
        sampleZero c f0 points false = .ok (points.map g)) ∧
      (∀ z : List ℤ, z.length = c.shape.length → g (z.map fun k : ℤ => k * c.scale) =
        f0.entry (0 :: List.zipWith (fun (k : ℤ) (m : Nat) => (k % (m : ℤ)).toNat) z c.shape)) ∧
      (∀ (p r : List K) (x : K) (m : Nat) (k : ℤ), c.shape[p.length]? = some m →
        g (p ++ (x + k * (m * c.scale)) :: r) = g (p ++ x :: r)) ∧
      (∀ (p r : List K) (z : ℤ) (s : K), p.length + 1 + r.length = c.shape.length → 0 ≤ s → s ≤ 1 →
        g (p ++ (z + s) * c.scale :: r) = (1 - s) * g (p ++ z * c.scale :: r) + s * g (p ++ (z + 1) * c.scale :: r)) ∧
      ∀ lo hi : K, (∀ i, List.Forall₂ (· < ·) i c.shape → lo ≤ f0.entry (0 :: i) ∧ f0.entry (0 :: i) ≤ hi) →
        ∀ p : List K, p.length = c.shape.length → lo ≤ g p ∧ g p ≤ hi := by
  refine ⟨fun p => periodicValue c.shape (fun i => f0.entry (0 :: i)) (p.map (· / c.scale)), ?_, ?_, ?_, ?_, ?_⟩
  · intro points hp
    have h0 : 0 ∉ c.shape := fun h => absurd (hs 0 h) (by omega)
    unfold sampleZero GridArray.first padWrap
    simp only [hb, hf, ne_eq, not_true_eq_false, if_false, Bool.false_eq_true, one_ne_zero, bind, Except.bind, h0]
    rw [mapM_ok _ (fun u => List.zipWith npRemainder u c.shape)]
    · simp only
      rw [mapM_ok _ (fun x => linearInterpolation (c.shape.map (· + 1)) (fun i => f0.entry (0 :: List.zipWith (· % ·) i c.shape)) x)]
      · rw [List.map_map, List.map_map]
        congr 1
        refine List.map_congr_left fun p hpp => ?_
        exact interpolation_periodic c.shape (fun i => f0.entry (0 :: i)) (p.map (· / c.scale)) hs (by simpa using hp p hpp)
      · intro x hx
        rw [List.map_map] at hx
        obtain ⟨p, hpp, rfl⟩ := List.mem_map.1 hx
        unfold mapCoordinates
        simp only [Function.comp_apply]
        rw [if_neg (by simp [hp p hpp]), if_pos (remainders_inside _ _ hs)]
    · intro u hu
      obtain ⟨p, hpp, rfl⟩ := List.mem_map.1 hu
      unfold remainders
      rw [if_pos (by simpa using hp p hpp)]
  · intro z hz
    rw [← periodicValue_int c.shape (fun i => f0.entry (0 :: i)) z hz]
    simp only
    rw [List.map_map]
    congr 1
    refine List.map_congr_left fun k _ => ?_
    simp [hsc]
  · intro p r x m k hm
    simp only [List.map_append, List.map_cons]
    rw [← periodicValue_shift c.shape _ (p.map (· / c.scale)) (r.map (· / c.scale)) (x / c.scale) m k (by simpa using hm)]
    congr 3
    push_cast
    field_simp
  · intro p r z s hl h0 h1
    simp only [List.map_append, List.map_cons, mul_div_cancel_right₀ _ hsc]
    exact periodicValue_affine c.shape _ _ _ z s (by simp; omega) h0 h1
  · intro lo hi h p hp
    exact periodicValue_bounds c.shape _ _ lo hi hs (by simpa using hp) h

/-- C81: with `assume_interior` the component axis is not removed, and every call with a point raises -/
theorem C81_assume_interior (c : GridComplex K) (hb : c.boundary = "periodic") (f0 : GridArray K) (hf : f0.shape = 1 :: c.shape)
    (p : List K) (points : List (List K)) (hp : p.length = c.shape.length) :
    sampleZero c f0 (p :: points) true = .error .runtimeError := by
  unfold sampleZero mapCoordinates
  simp only [hb, ne_eq, not_true_eq_false, if_false, if_true, List.map_cons, List.mapM_cons, List.length_map, hf,
    List.length_cons, hp]
  rw [if_pos (by omega)]
  rfl

/-- a case of `C81_sample` and `C81_assume_interior`: a point beyond the end of the grid -/
example : sampleZero (K := ℚ) ⟨"periodic", [2, 2], 1 / 2⟩ ⟨[1, 2, 2], fun i => (i[1]?.getD 0 + 2 * i[2]?.getD 0 : Nat)⟩
    [[3 / 4, 9 / 4]] false = .ok [3 / 2] := by
  decide +kernel

end Verif.Props
