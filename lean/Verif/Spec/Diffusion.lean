/-
Specification of diffusion on a periodic grid in first order form: a potential at the grid points
and a flux along the grid lines.
-/
import Mathlib.Algebra.BigOperators.Group.Finset.Basic
import Mathlib.Algebra.Field.Defs
import Mathlib.Algebra.Order.Field.Basic
import Verif.Spec.Stencil
import Mathlib.Data.Fintype.Pi

namespace Verif.Spec

variable {N : Nat} {K : Type} [Field K]

/-- the difference of a potential along the edge in direction `a` at `i` -/
def gradient (sh : Fin N → Nat) (T : (Fin N → Nat) → K) (a : Nat) (i : Fin N → Nat) : K :=
  T (next sh a i) - T i

/-- The weak form of the diffusion equations with grid spacing `s`, tested with `T'` and `F'`:
`-P T + div (C F)` against `T'` and `D grad T + R F` against `F'`.  The divergence is the adjoint of
the gradient; `0`-forms are weighted with `s^N` and `1`-forms with `s^(N-2)`. -/
def weakForm (sh : Fin N → Nat) (s : K) (P : (Fin N → Nat) → K)
    (C R D : Nat → (Fin N → Nat) → K)
    (T : (Fin N → Nat) → K) (F : Nat → (Fin N → Nat) → K)
    (T' : (Fin N → Nat) → K) (F' : Nat → (Fin N → Nat) → K) : K :=
  ∑ i ∈ Fintype.piFinset fun b => Finset.range (sh b),
    (-(s ^ N * P i * T i * T' i) +
      ∑ a ∈ Finset.range N, s ^ ((N : Int) - 2) *
        (C a i * F a i * gradient sh T' a i + D a i * gradient sh T a i * F' a i +
          R a i * F a i * F' a i))

/-- an array that is close to zero, or close to one, everywhere on `S` is exactly so; the tolerances
are those of `np.allclose` -/
def Faithful {I : Type} [LinearOrder K] (S : Finset I) (d : I → K) : Prop :=
  ((∀ p ∈ S, |d p| ≤ 1 / 10 ^ 8) → ∀ p ∈ S, d p = 0) ∧
  ((∀ p ∈ S, |d p - 1| ≤ 1 / 10 ^ 8 + 1 / 10 ^ 5) → ∀ p ∈ S, d p = 1)

end Verif.Spec
