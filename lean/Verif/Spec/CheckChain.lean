/-
When a list of integer matrices is a chain complex.
-/
import Verif.Model.Basic
import Mathlib.Algebra.BigOperators.Group.Finset.Defs

namespace Verif.Spec

open Verif.Model

/-- the entries of the product of two matrices -/
def product (a b : Mat Int) (r c : Nat) : Int := ∑ m ∈ Finset.range a.cols, a.entry r m * b.entry m c

/-- two matrices that can be multiplied, with a product that is zero modulo `q`; for `q = 0`: zero -/
def PairZero (q : Int) (a b : Mat Int) : Prop :=
  a.cols = b.rows ∧ ∀ r < a.rows, ∀ c < b.cols, q ∣ product a b r c

/-- matrix `i` and the next one multiply to zero -/
def ZeroAt (q : Int) (ms : List (Mat Int)) (i : Nat) : Prop :=
  ∀ a b, ms[i]? = some a → ms[i + 1]? = some b → PairZero q a b

/-- a chain complex: all neighbours multiply to zero -/
def IsChain (ms : List (Mat Int)) : Prop := ∀ i, ZeroAt 0 ms i

end Verif.Spec
