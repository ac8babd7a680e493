/-
C39, C41, C52: multigrid cycles and grid hierarchies.
-/
import Verif.Model.Multigrid
import Mathlib.Algebra.Module.LinearMap.Defs
import Mathlib.Algebra.Module.LinearMap.Basic
import Mathlib.Algebra.Module.LinearMap.End
import Mathlib.Algebra.Field.Rat
import Mathlib.Algebra.CharZero.Defs
import Mathlib.Data.Rat.Cast.CharZero
import Mathlib.Tactic.Ring
import Mathlib.Tactic.FieldSimp
import Mathlib.Tactic.Module
import Mathlib.Tactic.Abel

namespace Verif.Props

open Verif.Model

/-! ### hierarchies -/

theorem hierarchyLoop_error {α : Type} (coarse : α → Except PyErr α) (a : α) (e : PyErr)
    (h : coarse a = .error e) (n : Nat) (acc : List α) :
    hierarchyLoop coarse (n + 1) (a :: acc) = .error e := by
  simp [hierarchyLoop, h, bind, Except.bind]

theorem even_map_div (k : Nat) (shape : List Nat) (hd : ∀ s ∈ shape, 2 ^ k ∣ s) :
    gridIsEven (shape.map (fun s => s / 2 ^ k)) = true ↔ ∀ s ∈ shape, 2 ^ (k + 1) ∣ s := by
  simp only [gridIsEven, List.all_map, List.all_eq_true, Function.comp, beq_iff_eq]
  refine forall₂_congr fun s hs => ?_
  obtain ⟨m, rfl⟩ := hd s hs
  rw [Nat.mul_div_cancel_left m (Nat.pow_pos (by norm_num)), pow_succ,
    Nat.mul_dvd_mul_iff_left (Nat.pow_pos (by norm_num)), Nat.dvd_iff_mod_eq_zero]

section

variable {K : Type} [Field K]

/-- the complex `i` levels below `c` -/
def Spec.gridLevel (c : GridComplex K) (i : Nat) : GridComplex K :=
  ⟨c.boundary, c.shape.map (fun s => s / 2 ^ i), c.scale * 2 ^ i⟩

theorem coarse_gridLevel (c : GridComplex K) (i : Nat) (hd : ∀ s ∈ c.shape, 2 ^ i ∣ s) :
    (Spec.gridLevel c i).coarse =
      if (∀ s ∈ c.shape, 2 ^ (i + 1) ∣ s) then .ok (Spec.gridLevel c (i + 1))
      else .error .assertionError := by
  unfold GridComplex.coarse
  have h : gridIsEven (Spec.gridLevel c i).shape = true ↔ _ := even_map_div i c.shape hd
  by_cases hc : ∀ s ∈ c.shape, 2 ^ (i + 1) ∣ s
  · rw [if_pos hc, if_pos (h.mpr hc)]
    simp only [Spec.gridLevel, List.map_map, Except.ok.injEq, GridComplex.mk.injEq, true_and]
    refine ⟨List.map_congr_left fun s _ => ?_, by rw [pow_succ]; ring⟩
    simp only [Function.comp, pow_succ, Nat.div_div_eq_div_mul]
  · rw [if_neg hc, if_neg (fun hh => hc (h.mp hh))]

theorem hierarchyLoop_grid (c : GridComplex K) : ∀ (n i : Nat) (acc : List (GridComplex K)),
    (∀ s ∈ c.shape, 2 ^ i ∣ s) →
    hierarchyLoop GridComplex.coarse n (Spec.gridLevel c i :: acc) =
      if (∀ s ∈ c.shape, 2 ^ (i + n) ∣ s) then
        .ok (((List.range n).map fun j => Spec.gridLevel c (i + n - j)) ++
          Spec.gridLevel c i :: acc)
      else .error .assertionError := by
  intro n
  induction n with
  | zero => intro i acc hd; simp only [hierarchyLoop, Nat.add_zero, if_pos hd]; simp
  | succ n ih =>
    intro i acc hd
    rw [hierarchyLoop, coarse_gridLevel c i hd]
    by_cases hc : ∀ s ∈ c.shape, 2 ^ (i + 1) ∣ s
    · rw [if_pos hc]
      show hierarchyLoop GridComplex.coarse n (Spec.gridLevel c (i + 1) :: Spec.gridLevel c i :: acc)
        = _
      rw [ih (i + 1) _ hc, show i + 1 + n = i + (n + 1) by omega]
      by_cases ha : ∀ s ∈ c.shape, 2 ^ (i + (n + 1)) ∣ s
      · rw [if_pos ha, if_pos ha, List.range_succ, List.map_append]
        simp only [List.map_cons, List.map_nil, List.append_assoc, List.cons_append,
          List.nil_append]
        rw [show i + (n + 1) - n = i + 1 by omega]
      · rw [if_neg ha, if_neg ha]
    · rw [if_neg hc, if_neg]
      · rfl
      · intro ha
        exact hc fun s hs => (pow_dvd_pow 2 (by omega)).trans (ha s hs)

/-- C41: for every shape, scale and number of levels `hierarchy` returns a list exactly if every
axis is divisible by `2^levels`, and raises `AssertionError` otherwise; the list has `levels + 1`
entries, coarsest first, the entry `i` places before the end being divided by `2^i` -/
theorem C41_hierarchy (c : GridComplex K) (levels : Nat) :
    ((∀ s ∈ c.shape, 2 ^ levels ∣ s) →
      ∃ hs : List (GridComplex K), hierarchy GridComplex.coarse c levels = .ok hs ∧
        hs.length = levels + 1 ∧
        ∀ i ≤ levels, hs[levels - i]? =
          some ⟨c.boundary, c.shape.map (fun s => s / 2 ^ i), c.scale * 2 ^ i⟩) ∧
    ((¬ ∀ s ∈ c.shape, 2 ^ levels ∣ s) →
      hierarchy GridComplex.coarse c levels = .error .assertionError) := by
  have h0 : Spec.gridLevel c 0 = c := by
    cases c; simp [Spec.gridLevel]
  have h := hierarchyLoop_grid c levels 0 [] (by simp)
  rw [h0, Nat.zero_add] at h
  refine ⟨fun hd => ⟨_, by rw [hierarchy, h, if_pos hd], by simp, ?_⟩,
    fun hd => by rw [hierarchy, h, if_neg hd]⟩
  intro i hi
  by_cases hz : i = 0
  · subst hz
    rw [Nat.sub_zero, List.getElem?_append_right (by simp)]
    simp
  · rw [List.getElem?_append_left (by simp; omega)]
    simp only [List.getElem?_map]
    rw [List.getElem?_range (by omega)]
    simp only [Option.map_some, Option.some.injEq]
    rw [show levels - (levels - i) = i by omega]
    rfl

/-- C41: the grids above and below: `coarse` undoes `fine`, and `fine` undoes `coarse` whenever the
latter succeeds -/
theorem C41_inverse [CharZero K] (c : GridComplex K) :
    c.fine.coarse = .ok c ∧ ∀ d, c.coarse = .ok d → d.fine = c := by
  have h2 : (2 : K) ≠ 0 := two_ne_zero
  constructor
  · rw [GridComplex.coarse, if_pos]
    · obtain ⟨b, shape, sc⟩ := c
      simp only [GridComplex.fine, List.map_map, Except.ok.injEq, GridComplex.mk.injEq, true_and]
      refine ⟨?_, by field_simp⟩
      conv_rhs => rw [← List.map_id shape]
      exact List.map_congr_left fun s _ => by simp
    · simp [GridComplex.fine, gridIsEven]
  · intro d hd
    rw [GridComplex.coarse] at hd
    by_cases he : gridIsEven c.shape = true
    · rw [if_pos he] at hd
      cases hd
      obtain ⟨b, shape, sc⟩ := c
      simp only [gridIsEven, List.all_eq_true, beq_iff_eq] at he
      simp only [GridComplex.fine, List.map_map, GridComplex.mk.injEq, true_and]
      refine ⟨?_, by field_simp⟩
      conv_rhs => rw [← List.map_id shape]
      exact List.map_congr_left fun s hs => by
        simp only [Function.comp, id]; have := he s hs; omega
    · rw [if_neg he] at hd; cases hd

/-- the hypotheses of C41 in a concrete case -/
example : hierarchy GridComplex.coarse (⟨"periodic", [8, 12], 1⟩ : GridComplex ℚ) 2 =
    .ok [⟨"periodic", [2, 3], 4⟩, ⟨"periodic", [4, 6], 2⟩, ⟨"periodic", [8, 12], 1⟩] := by
  decide +kernel

example : hierarchy GridComplex.coarse (⟨"periodic", [8, 12], 1⟩ : GridComplex ℚ) 3 =
    .error .assertionError := by
  decide +kernel

end

/-! ### cycles: exact solutions are fixed points -/

section

variable {V : Nat → Type} [∀ l, AddGroup (V l)]

/-- what is asked of the equations of a hierarchy, at every level up to `l`: smoothing and the
root solver leave exact solutions alone, the zero problem is solved by zero and the transfers map
zero to zero -/
structure Spec.FixesSolutions (E : ∀ l, MGEquation (V (l + 1)) (V l)) (l : Nat) : Prop where
  smooth : ∀ k ≤ l, ∀ x y, (E k).residual x y = 0 → (E k).smooth x y = x
  solve : ∀ x y, (E 0).residual x y = 0 → (E 0).solve y x = x
  zero : ∀ k ≤ l, (E k).residual 0 0 = 0
  restrict : ∀ k ≤ l, (E k).restrict 0 = 0
  interpolate : ∀ k ≤ l, (E k).interpolate 0 = 0

theorem Spec.FixesSolutions.mono {E : ∀ l, MGEquation (V (l + 1)) (V l)} {l k : Nat}
    (h : Spec.FixesSolutions E l) (hk : k ≤ l) : Spec.FixesSolutions E k :=
  ⟨fun m hm => h.smooth m (hm.trans hk), h.solve, fun m hm => h.zero m (hm.trans hk),
    fun m hm => h.restrict m (hm.trans hk), fun m hm => h.interpolate m (hm.trans hk)⟩

/-- C39: for every hierarchy, `v_cycle` returns an exact solution unchanged -/
theorem C39_v_cycle_fixed (E : ∀ l, MGEquation (V (l + 1)) (V l)) (l : Nat)
    (h : Spec.FixesSolutions E l) (x y : V (l + 1)) (hx : (E l).residual x y = 0) :
    vCycle E l y (some x) = x := by
  induction l with
  | zero => exact h.solve x y hx
  | succ l ih =>
    have hc : vCycle E l (0 : V (l + 1)) none = 0 := by
      have := ih (h.mono (Nat.le_succ l)) 0 0 (h.zero l (Nat.le_succ l))
      cases l <;> exact this
    simp only [vCycle, Option.getD_some]
    rw [h.smooth (l + 1) le_rfl x y hx, hx, h.restrict (l + 1) le_rfl, hc,
      h.interpolate (l + 1) le_rfl, sub_zero, h.smooth (l + 1) le_rfl x y hx]

/-- C39: repeated cycles return an exact solution unchanged, for every number of iterations -/
theorem C39_solve_v_cycle_fixed (E : ∀ l, MGEquation (V (l + 1)) (V l)) (l : Nat)
    (h : Spec.FixesSolutions E l) (x y : V (l + 1)) (hx : (E l).residual x y = 0) (n : Nat) :
    solveVCycle E l y (some x) n = some x := by
  induction n with
  | zero => rfl
  | succ n ih => rw [solveVCycle, C39_v_cycle_fixed E l h x y hx, ih]

/-- C39: the full cycle solves the zero problem by zero -/
theorem C39_full_cycle_zero (E : ∀ l, MGEquation (V (l + 1)) (V l)) (l : Nat)
    (h : Spec.FixesSolutions E l) (n : Nat) : solveFullCycle E l 0 n = 0 := by
  induction l with
  | zero => exact h.solve 0 0 (h.zero 0 le_rfl)
  | succ l ih =>
    simp only [solveFullCycle]
    rw [h.restrict (l + 1) le_rfl, ih (h.mono (Nat.le_succ l)), h.interpolate (l + 1) le_rfl,
      C39_solve_v_cycle_fixed E (l + 1) h 0 0 (h.zero (l + 1) le_rfl)]
    rfl

end

/-! ### cycles: the error is propagated linearly -/

section

variable {K : Type} [Field K] {V : Nat → Type} [∀ l, AddCommGroup (V l)] [∀ l, Module K (V l)]

/-- An equation `A x = B y` with residual `A x - B y`, whose smoother and solver correct `x` by a
linear function of the residual, with linear transfers.  (`Equation.residual`,
`NormalSmoothEquation.overrelax` and an exact solver are of this form.) -/
structure Spec.LinearEquation {X C : Type} [AddCommGroup X] [Module K X] [AddCommGroup C]
    [Module K C] (E : MGEquation X C) (A B : X →ₗ[K] X) : Prop where
  residual : ∀ x y, E.residual x y = A x - B y
  smooth : ∃ S : X →ₗ[K] X, ∀ x y, E.smooth x y = x - S (A x - B y)
  solve : ∃ Q : X →ₗ[K] X, ∀ x y, E.solve y x = x - Q (A x - B y)
  restrict : ∃ R : X →ₗ[K] C, ∀ y, E.restrict y = R y
  interpolate : ∃ P : C →ₗ[K] X, ∀ x, E.interpolate x = P x

theorem vCycle_none (E : ∀ l, MGEquation (V (l + 1)) (V l)) (l : Nat) (y : V (l + 1)) :
    vCycle E l y none = vCycle E l y (some 0) := by
  cases l <;> rfl

/-- C39: for linear equations, at every depth the whole `v_cycle` is a correction by one linear
function of the residual -/
theorem C39_v_cycle_correction (E : ∀ l, MGEquation (V (l + 1)) (V l))
    (A B : ∀ l, V (l + 1) →ₗ[K] V (l + 1)) (l : Nat)
    (h : ∀ k ≤ l, Spec.LinearEquation (E k) (A k) (B k)) :
    ∃ Q : V (l + 1) →ₗ[K] V (l + 1), ∀ x y,
      vCycle E l y (some x) = x - Q (A l x - B l y) := by
  induction l with
  | zero => exact (h 0 le_rfl).solve
  | succ l ih =>
    obtain ⟨Qc, hQ⟩ := ih fun k hk => h k (hk.trans (Nat.le_succ l))
    have hE := h (l + 1) le_rfl
    obtain ⟨S, hS⟩ := hE.smooth
    obtain ⟨R, hR⟩ := hE.restrict
    obtain ⟨P, hP⟩ := hE.interpolate
    let A' := A (l + 1)
    let C : V (l + 2) →ₗ[K] V (l + 2) := P ∘ₗ Qc ∘ₗ (B l) ∘ₗ R
    let r1 : V (l + 2) →ₗ[K] V (l + 2) := LinearMap.id - A' ∘ₗ S
    let r2 : V (l + 2) →ₗ[K] V (l + 2) := r1 - A' ∘ₗ C ∘ₗ r1
    refine ⟨S + C ∘ₗ r1 + S ∘ₗ r2, fun x y => ?_⟩
    have hc : ∀ z : V (l + 1), vCycle E l z none = Qc (B l z) := by
      intro z
      rw [vCycle_none, hQ]
      simp
    simp only [vCycle, Option.getD_some, hE.residual, hS, hR, hP, hc]
    simp only [r1, r2, C, A', LinearMap.add_apply, LinearMap.comp_apply, LinearMap.sub_apply,
      LinearMap.id_apply, map_sub]
    abel

/-- C39: for linear equations the error of an iterate is multiplied by a fixed linear map, the same
for all right-hand sides and iterates; `n` cycles multiply it by the `n`-th power -/
theorem C39_error_propagation (E : ∀ l, MGEquation (V (l + 1)) (V l))
    (A B : ∀ l, V (l + 1) →ₗ[K] V (l + 1)) (l : Nat)
    (h : ∀ k ≤ l, Spec.LinearEquation (E k) (A k) (B k)) :
    ∃ M : V (l + 1) →ₗ[K] V (l + 1), ∀ x y s, A l s = B l y → ∀ n,
      ∃ z, solveVCycle E l y (some x) n = some z ∧ z - s = (M ^ n) (x - s) := by
  obtain ⟨Q, hQ⟩ := C39_v_cycle_correction E A B l h
  refine ⟨LinearMap.id - Q ∘ₗ A l, fun x y s hs n => ?_⟩
  induction n generalizing x with
  | zero => exact ⟨x, rfl, rfl⟩
  | succ n ih =>
    obtain ⟨z, hz, he⟩ := ih (vCycle E l y (some x))
    refine ⟨z, by rw [solveVCycle, hz], ?_⟩
    rw [he, pow_succ, hQ, ← hs]
    rw [Module.End.mul_apply]
    congr 1
    simp only [LinearMap.sub_apply, LinearMap.comp_apply, LinearMap.id_apply, map_sub]
    abel

/-- C39: the coarse correction has the right sign and size.  With two levels, smoothing switched
off, an exact root solver and a coarse operator `A 0` with `A 0 = B 0 R A P` (and injective), one
cycle removes every error in the range of the interpolation. -/
theorem C39_two_grid (E : ∀ l, MGEquation (V (l + 1)) (V l))
    (A B : ∀ l, V (l + 1) →ₗ[K] V (l + 1)) (R : V 2 →ₗ[K] V 1) (P : V 1 →ₗ[K] V 2)
    (hres : ∀ x y, (E 1).residual x y = A 1 x - B 1 y)
    (hsm : ∀ x y, (E 1).smooth x y = x)
    (hR : ∀ y, (E 1).restrict y = R y) (hP : ∀ x, (E 1).interpolate x = P x)
    (hsolve : ∀ x y, A 0 ((E 0).solve y x) = B 0 y)
    (hinj : ∀ u v, A 0 u = A 0 v → u = v)
    (galerkin : ∀ u, A 0 u = B 0 (R (A 1 (P u))))
    (x y s : V 2) (hs : A 1 s = B 1 y) (c : V 1) (hc : x - s = P c) :
    vCycle E 1 y (some x) = s := by
  have key : (E 0).solve (R (A 1 x - B 1 y)) 0 = c := by
    apply hinj
    rw [hsolve, galerkin, ← hc, map_sub (A 1), hs]
  simp only [vCycle, Option.getD_some, hsm, hres, hR, hP, Option.getD_none, key]
  rw [← hc]
  abel

/-- C52: for linear equations the preconditioner is a linear operator -/
theorem C52_preconditioner_linear (E : ∀ l, MGEquation (V (l + 1)) (V l))
    (A B : ∀ l, V (l + 1) →ₗ[K] V (l + 1)) (l : Nat)
    (h : ∀ k ≤ l, Spec.LinearEquation (E k) (A k) (B k)) (Bi : V (l + 1) →ₗ[K] V (l + 1))
    (y z : V (l + 1)) (c : K) :
    preconditioner E l Bi (y + c • z) = preconditioner E l Bi y + c • preconditioner E l Bi z := by
  obtain ⟨Q, hQ⟩ := C39_v_cycle_correction E A B l h
  simp only [preconditioner, vCycle_none, hQ, map_zero, map_add, map_smul, zero_sub, map_neg,
    neg_neg]

/-- C52: for linear equations the full cycle is a linear function of the right-hand side, for every
number of iterations -/
theorem C52_full_cycle_linear (E : ∀ l, MGEquation (V (l + 1)) (V l))
    (A B : ∀ l, V (l + 1) →ₗ[K] V (l + 1)) (l : Nat)
    (h : ∀ k ≤ l, Spec.LinearEquation (E k) (A k) (B k)) (n : Nat)
    (y z : V (l + 1)) (c : K) :
    solveFullCycle E l (y + c • z) n = solveFullCycle E l y n + c • solveFullCycle E l z n := by
  induction l with
  | zero =>
    obtain ⟨Q, hQ⟩ := (h 0 le_rfl).solve
    simp only [solveFullCycle, hQ, map_zero, map_add, map_smul, zero_sub, map_neg, neg_neg]
  | succ l ih =>
    have ih := ih fun k hk => h k (hk.trans (Nat.le_succ l))
    have hE := h (l + 1) le_rfl
    obtain ⟨R, hR⟩ := hE.restrict
    obtain ⟨P, hP⟩ := hE.interpolate
    obtain ⟨Q, hQ⟩ := C39_v_cycle_correction E A B (l + 1) h
    have iter : ∀ (n : Nat) (u v y z : V (l + 2)), ∃ a b : V (l + 2),
        solveVCycle E (l + 1) y (some u) n = some a ∧
        solveVCycle E (l + 1) z (some v) n = some b ∧
        solveVCycle E (l + 1) (y + c • z) (some (u + c • v)) n = some (a + c • b) := by
      intro n
      induction n with
      | zero => intro u v y z; exact ⟨u, v, rfl, rfl, rfl⟩
      | succ n ihn =>
        intro u v y z
        obtain ⟨a, b, h1, h2, h3⟩ := ihn (vCycle E (l + 1) y (some u))
          (vCycle E (l + 1) z (some v)) y z
        refine ⟨a, b, h1, h2, ?_⟩
        rw [solveVCycle, ← h3]
        congr 2
        simp only [hQ, map_add, map_smul, map_sub]
        module
    simp only [solveFullCycle, hR, hP, map_add, map_smul, ih]
    obtain ⟨a, b, h1, h2, h3⟩ := iter n (P (solveFullCycle E l (R y) n))
      (P (solveFullCycle E l (R z) n)) y z
    rw [h1, h2, h3]
    rfl

end

/-! ### a concrete hierarchy -/

/-- scalar equations `2^l x = y`, with a damped correction as smoother -/
def exampleMG : ∀ l : Nat, MGEquation ((fun _ : Nat => ℚ) (l + 1)) ((fun _ : Nat => ℚ) l) := fun l =>
  { residual := fun x y => 2 ^ l * x - y
    smooth := fun x y => x - (2 ^ l * x - y) / 2 ^ (l + 1)
    solve := fun y _ => y / 2 ^ l
    restrict := fun y => y / 4
    interpolate := fun x => x }

/-- the example satisfies the hypotheses of the fixed point theorems -/
theorem exampleMG_fixes (l : Nat) : Spec.FixesSolutions (V := fun _ => ℚ) exampleMG l := by
  have hp : ∀ k : Nat, (2 : ℚ) ^ k ≠ 0 := fun k => pow_ne_zero _ (by norm_num)
  refine ⟨?_, ?_, ?_, ?_, ?_⟩
  · intro k _ x y h
    have h' : (2 : ℚ) ^ k * x - y = 0 := h
    show x - (2 ^ k * x - y) / 2 ^ (k + 1) = x
    rw [h']; simp
  · intro x y h
    have h' : (2 : ℚ) ^ 0 * x - y = 0 := h
    show y / (2 : ℚ) ^ 0 = x
    rw [pow_zero, one_mul] at h'
    rw [pow_zero, div_one]
    exact (sub_eq_zero.mp h').symm
  · intro k _; show (2 : ℚ) ^ k * 0 - 0 = 0; ring
  · intro k _; show (0 : ℚ) / 4 = 0; ring
  · intro k _; rfl

/-- the example satisfies the hypotheses of the linearity theorems -/
theorem exampleMG_linear (l : Nat) : Spec.LinearEquation (K := ℚ) (exampleMG l)
    ((2 ^ l : ℚ) • LinearMap.id) LinearMap.id := by
  have hp : ∀ k : Nat, (2 : ℚ) ^ k ≠ 0 := fun k => pow_ne_zero _ (by norm_num)
  refine ⟨fun x y => rfl, ⟨(1 / 2 ^ (l + 1) : ℚ) • LinearMap.id, fun x y => ?_⟩,
    ⟨(1 / 2 ^ l : ℚ) • LinearMap.id, fun x y => ?_⟩,
    ⟨(1 / 4 : ℚ) • LinearMap.id, fun y => ?_⟩, ⟨LinearMap.id, fun y => rfl⟩⟩
  · show x - (2 ^ l * x - y) / 2 ^ (l + 1) = x - (1 / 2 ^ (l + 1)) * (2 ^ l * x - y)
    ring
  · show y / 2 ^ l = x - (1 / 2 ^ l) * (2 ^ l * x - y)
    have := hp l
    field_simp
    ring
  · show y / 4 = 1 / 4 * y
    ring

/-- and the cycle is not the identity on it: it halves an error twice, besides the coarse part -/
example : vCycle (V := fun _ => ℚ) exampleMG 1 (6 : ℚ) (some (3 : ℚ)) = (3 : ℚ) := by decide +kernel
example : vCycle (V := fun _ => ℚ) exampleMG 1 (6 : ℚ) (some (7 : ℚ)) = (7 / 2 : ℚ) := by decide +kernel

end Verif.Props
