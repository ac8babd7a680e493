/-
Boxes on a grid, and the nearest of their centroids.
-/
import Verif.Lemmas.RegularBox
import Verif.Lemmas.RegularEval
import Verif.Model.RegularPicking
import Verif.Spec.RegularPicking
import Mathlib.Tactic.Ring
import Mathlib.Tactic.Linarith
import Mathlib.Tactic.FieldSimp
import Mathlib.Algebra.Order.BigOperators.Group.Finset

set_option linter.unusedSectionVars false

namespace Verif

open Verif.Model Verif.Spec

variable {K : Type} [Field K] [LinearOrder K] [IsStrictOrderedRing K] {n : Nat}

/-- the positions of the corners of a box -/
def PosBox (X : List (Vec K n)) (lo hi : Vec K n) (σ : Equiv.Perm (Fin n)) : Prop :=
  X.length = 2 ^ n ∧ ∀ (c : List Bool), c.length = n → ∀ q,
    (X[ravel c]?.getD 0) q = if c[(σ.symm q).val]? = some true then hi q else lo q

theorem PosBox.boxAt {X : List (Vec K n)} {lo hi : Vec K n} {σ : Equiv.Perm (Fin n)} (h : PosBox X lo hi σ) :
    BoxAt X (List.range (2 ^ n)) lo hi σ := by
  intro c v hc hv
  have hlt := ravel_lt c
  rw [hc] at hlt
  rw [List.getElem?_range hlt] at hv
  obtain rfl := Option.some.inj hv
  refine ⟨X[ravel c]'(by rw [h.1]; exact hlt), List.getElem?_eq_getElem _, fun a => ?_⟩
  have := h.2 c hc (σ a)
  rw [List.getElem?_eq_getElem (by rw [h.1]; exact hlt), Option.getD_some, Equiv.symm_apply_apply] at this
  exact this

theorem ravel_false : ∀ m : Nat, ravel (List.replicate m false) = 0
  | 0 => rfl
  | m + 1 => by
    rw [List.replicate_succ, ravel, ravel_false m]
    simp

theorem ravel_true : ∀ m : Nat, ravel (List.replicate m true) = 2 ^ m - 1
  | 0 => rfl
  | m + 1 => by
    rw [List.replicate_succ, ravel, ravel_true m, List.length_replicate, if_pos rfl, Nat.pow_succ]
    have := Nat.one_le_two_pow (n := m)
    omega

theorem PosBox.basis {X : List (Vec K n)} {lo hi : Vec K n} {σ : Equiv.Perm (Fin n)} (h : PosBox X lo hi σ) :
    cubeBasis X = (fun q => (lo q + hi q) / 2, lo, fun q => hi q - lo q) := by
  have h0 : cornerOf X 0 = lo := by
    funext q
    have := h.2 (List.replicate n false) (by simp) q
    rw [ravel_false, if_neg (by rw [List.getElem?_replicate]; split <;> simp)] at this
    exact this
  have h1 : cornerOf X (X.length - 1) = hi := by
    funext q
    have := h.2 (List.replicate n true) (by simp) q
    rw [ravel_true, if_pos (by rw [List.getElem?_replicate, if_pos (σ.symm q).isLt])] at this
    unfold cornerOf
    rw [h.1]
    exact this
  have h2 : (fun q => (X.map fun y => y q).sum / (X.length : K)) = fun q => (lo q + hi q) / 2 := by
    funext q
    have hc := h.boxAt.center (l := List.range (2 ^ n)) (by simp) (x := List.replicate n 1)
      (fun a ha => by rw [List.eq_of_mem_replicate ha]; omega) (by simp) q
    rw [gridFace_middle (by simp), List.getElem?_replicate, if_pos (σ.symm q).isLt, Option.getD_some] at hc
    unfold centerOf at hc
    have hX : (List.range (2 ^ n)).map (fun v => (X[v]?.getD 0) q) = X.map fun y => y q := by
      refine List.ext_getElem? fun i => ?_
      rw [List.getElem?_map, List.getElem?_map]
      by_cases hi : i < X.length
      · rw [List.getElem?_range (by rw [← h.1]; exact hi), List.getElem?_eq_getElem hi]
        simp [List.getElem?_eq_getElem hi]
      · rw [List.getElem?_eq_none (by simpa [← h.1] using hi), List.getElem?_eq_none (by omega)]
        rfl
    rw [hX, List.length_range, ← h.1] at hc
    rw [hc]
    push_cast
    ring
  unfold cubeBasis
  rw [h0, h1, h2]

theorem BoxAt.posBox {V : List (Vec K n)} {l : List Nat} {lo hi : Vec K n} {σ : Equiv.Perm (Fin n)}
    (hb : BoxAt V l lo hi σ) (hl : l.length = 2 ^ n) : PosBox (l.map fun v => V[v]?.getD 0) lo hi σ := by
  refine ⟨by simpa using hl, fun c hc q => ?_⟩
  have := hb.coord hl hc q
  have hlt := ravel_lt c
  rw [hc, ← hl] at hlt
  unfold cubeAt at this
  rw [List.getElem?_eq_getElem hlt, Option.getD_some] at this
  rw [List.getElem?_map, List.getElem?_eq_getElem hlt]
  exact this

/-- a corner of a box is at one of both ends in every coordinate -/
theorem BoxAt.ends {V : List (Vec K n)} {l : List Nat} {lo hi : Vec K n} {σ : Equiv.Perm (Fin n)}
    (hb : BoxAt V l lo hi σ) (hl : l.length = 2 ^ n) {v : Nat} (hv : v ∈ l) (q : Fin n) :
    (V[v]?.getD 0) q = lo q ∨ (V[v]?.getD 0) q = hi q := by
  obtain ⟨x, hx⟩ := List.mem_iff_getElem?.1 hv
  have hxl := (List.getElem?_eq_some_iff.1 hx).1
  rw [hl] at hxl
  obtain ⟨c, hcl, rfl⟩ := exists_ravel hxl
  have := hb.coord hl hcl q
  unfold cubeAt at this
  rw [hx, Option.getD_some] at this
  rw [this]
  split
  · exact Or.inr rfl
  · exact Or.inl rfl

theorem BoxAt.both {V : List (Vec K n)} {l : List Nat} {lo hi : Vec K n} {σ : Equiv.Perm (Fin n)}
    (hb : BoxAt V l lo hi σ) (hl : l.length = 2 ^ n) (q : Fin n) :
    (∃ v ∈ l, (V[v]?.getD 0) q = lo q) ∧ ∃ v ∈ l, (V[v]?.getD 0) q = hi q := by
  have mem : ∀ c : List Bool, c.length = n → cubeAt l c ∈ l := by
    intro c hc
    have hlt := ravel_lt c
    rw [hc, ← hl] at hlt
    unfold cubeAt
    rw [List.getElem?_eq_getElem hlt]
    exact List.getElem_mem hlt
  refine ⟨⟨cubeAt l (List.replicate n false), mem _ (by simp), ?_⟩, ⟨cubeAt l (List.replicate n true), mem _ (by simp), ?_⟩⟩
  · rw [hb.coord hl (by simp) q, if_neg (by rw [List.getElem?_replicate]; split <;> simp)]
  · rw [hb.coord hl (by simp) q, if_pos (by rw [List.getElem?_replicate, if_pos (σ.symm q).isLt])]

theorem inBox_iff {V : List (Vec K n)} {l : List Nat} {lo hi : Vec K n} {σ : Equiv.Perm (Fin n)}
    (hb : BoxAt V l lo hi σ) (hl : l.length = 2 ^ n) {p : Vec K n} :
    InBox V l p ↔ ∀ q, |2 * p q - (lo q + hi q)| ≤ |hi q - lo q| := by
  refine forall_congr' fun q => ?_
  rw [abs_le]
  constructor
  · rintro ⟨v, hv, x, hx, h1, h2⟩
    have h3 := le_abs_self (hi q - lo q)
    have h4 := neg_abs_le (hi q - lo q)
    rcases hb.ends hl hv q with e | e <;> rcases hb.ends hl hx q with e' | e' <;> rw [e] at h1 <;> rw [e'] at h2 <;>
      constructor <;> linarith
  · rintro ⟨h1, h2⟩
    obtain ⟨⟨v, hv, ev⟩, ⟨x, hx, ex⟩⟩ := hb.both hl q
    rcases le_total (lo q) (hi q) with h | h
    · rw [abs_of_nonneg (by linarith)] at h1 h2
      exact ⟨v, hv, x, hx, by rw [ev]; linarith, by rw [ex]; linarith⟩
    · rw [abs_of_nonpos (by linarith)] at h1 h2
      exact ⟨x, hx, v, hv, by rw [ex]; linarith, by rw [ev]; linarith⟩

/-- the coordinates in a box, of a point in it -/
theorem baries_mem {lo hi p : K} (hne : lo ≠ hi) (h : |2 * p - (lo + hi)| ≤ |hi - lo|) :
    0 ≤ (p - lo) / (hi - lo) ∧ (p - lo) / (hi - lo) ≤ 1 ∧ p = lo + (p - lo) / (hi - lo) * (hi - lo) := by
  have hd : hi - lo ≠ 0 := sub_ne_zero.2 hne.symm
  refine ⟨?_, ?_, by field_simp; ring⟩
  all_goals
    rw [abs_le] at h
    rcases lt_or_gt_of_ne hne with h' | h'
    · have h0 : 0 < hi - lo := by linarith
      rw [abs_of_pos h0] at h
      first
        | exact div_nonneg (by linarith) h0.le
        | exact (div_le_one h0).2 (by linarith)
    · have h0 : hi - lo < 0 := by linarith
      rw [abs_of_neg h0] at h
      first
        | exact div_nonneg_of_nonpos (by linarith) h0.le
        | exact (div_le_one_of_neg h0).2 (by linarith)

theorem baries_inv {lo hi p : K} (hne : lo ≠ hi) (h : 0 ≤ (p - lo) / (hi - lo) ∧ (p - lo) / (hi - lo) ≤ 1) :
    |2 * p - (lo + hi)| ≤ |hi - lo| := by
  have hd : hi - lo ≠ 0 := sub_ne_zero.2 hne.symm
  set b := (p - lo) / (hi - lo) with hb
  have hp : p = lo + b * (hi - lo) := by rw [hb]; field_simp; ring
  have : 2 * p - (lo + hi) = (2 * b - 1) * (hi - lo) := by rw [hp]; ring
  rw [this, abs_mul]
  have h1 : |2 * b - 1| ≤ 1 := by rw [abs_le]; constructor <;> linarith
  calc |2 * b - 1| * |hi - lo| ≤ 1 * |hi - lo| := mul_le_mul_of_nonneg_right h1 (abs_nonneg _)
    _ = _ := one_mul _

/-- on a grid a box has the size of a cell, and its center is the center of a cell -/
theorem BoxAt.cell {V : List (Vec K n)} {l : List Nat} {lo hi : Vec K n} {σ : Equiv.Perm (Fin n)}
    (hb : BoxAt V l lo hi σ) (hl : l.length = 2 ^ n) {q : Fin n} (hne : lo q ≠ hi q) {o h : K} (hh : 0 < h) {z : ℤ}
    (hz : ∀ v ∈ l, (V[v]?.getD 0) q = o + z * h ∨ (V[v]?.getD 0) q = o + (z + 1) * h) :
    |hi q - lo q| = h ∧ (lo q + hi q) / 2 = o + (z + 1 / 2) * h ∧
      ((lo q = o + z * h ∧ hi q = o + (z + 1) * h) ∨ (hi q = o + z * h ∧ lo q = o + (z + 1) * h)) := by
  obtain ⟨⟨v, hv, ev⟩, ⟨x, hx, ex⟩⟩ := hb.both hl q
  have h1 := hz v hv
  have h2 := hz x hx
  rw [ev] at h1
  rw [ex] at h2
  rcases h1 with h1 | h1 <;> rcases h2 with h2 | h2
  · exact absurd (h1.trans h2.symm) hne
  · refine ⟨?_, by rw [h1, h2]; ring, Or.inl ⟨h1, h2⟩⟩
    have : hi q - lo q = h := by rw [h1, h2]; ring
    rw [this, abs_of_pos hh]
  · refine ⟨?_, by rw [h1, h2]; ring, Or.inr ⟨h2, h1⟩⟩
    have : hi q - lo q = -h := by rw [h1, h2]; ring
    rw [this, abs_neg, abs_of_pos hh]
  · exact absurd (h1.trans h2.symm) hne

/-- two cells of a grid: if the point is in the second, the first is not nearer in this coordinate -/
theorem cell_far {o h p x y : K} (hh : 0 < h) {z z' : ℤ} (hx : x = o + (z + 1 / 2) * h) (hy : y = o + (z' + 1 / 2) * h)
    (hp : |p - y| ≤ h / 2) : |p - y| ≤ |p - x| := by
  by_cases hz : z = z'
  · rw [hx, hy, hz]
  · have h1 : h ≤ |x - y| := by
      have : x - y = ((z - z' : ℤ) : K) * h := by rw [hx, hy]; push_cast; ring
      rw [this, abs_mul, abs_of_pos hh]
      have h2 : (1 : ℤ) ≤ |z - z'| := Int.one_le_abs (sub_ne_zero.2 hz)
      have h3 : (1 : K) ≤ |((z - z' : ℤ) : K)| := by
        rw [← Int.cast_abs]
        exact_mod_cast h2
      nlinarith
    have h4 : |x - y| ≤ |p - y| + |p - x| := by
      have := abs_sub_le x p y
      rw [abs_sub_comm x p] at this
      linarith
    linarith

/-- the nearest of the centers of cells of a grid belongs to a cell with the point, if there is one -/
theorem nearest_cell {nearest : List (Vec K n) → Vec K n → Nat} (hnear : NearestSite nearest) {sites : List (Vec K n)}
    {o h : Vec K n} (hh : ∀ q, 0 < h q) (hs : ∀ y ∈ sites, ∀ q, ∃ z : ℤ, y q = o q + (z + 1 / 2) * h q) {p y : Vec K n}
    (hy : y ∈ sites) (hp : ∀ q, |p q - y q| ≤ h q / 2) :
    ∃ x, sites[nearest sites p]? = some x ∧ ∀ q, |p q - x q| ≤ h q / 2 := by
  obtain ⟨x, hx, hmin⟩ := hnear sites p (List.ne_nil_of_mem hy)
  refine ⟨x, hx, ?_⟩
  by_contra hne
  push Not at hne
  obtain ⟨q0, hq0⟩ := hne
  have hle : ∀ q, |p q - y q| ≤ |p q - x q| := by
    intro q
    obtain ⟨z, hz⟩ := hs x (List.mem_of_getElem? hx) q
    obtain ⟨z', hz'⟩ := hs y hy q
    exact cell_far (hh q) hz hz' (hp q)
  have hsq : ∀ q, (y q - p q) ^ 2 ≤ (x q - p q) ^ 2 := by
    intro q
    rw [sq_le_sq, abs_sub_comm (y q), abs_sub_comm (x q)]
    exact hle q
  have hlt : distanceSq y p < distanceSq x p := by
    unfold distanceSq
    refine Finset.sum_lt_sum (fun q _ => hsq q) ⟨q0, Finset.mem_univ _, ?_⟩
    rw [sq_lt_sq, abs_sub_comm (y q0), abs_sub_comm (x q0)]
    exact lt_of_le_of_lt (hp q0) hq0
  exact absurd (hmin y hy) (not_le.2 hlt)

end Verif
