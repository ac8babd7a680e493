/-
Model of `sample_dual_0` of regular complexes, `pycomplex/complex/regular.py` lines 219-248.

Arithmetic is exact, over an ordered field.  The values have no axes after the first one.
-/
import Verif.Model.RegularPicking
import Verif.Model.DualAveraging

namespace Verif.Model

variable {K : Type} [Field K] [LinearOrder K] {d : Nat}

/-- `dual_forms[c.sum()][domain[idx]]`, lines 243-247, for the corner `c` of a domain with the entries `row` -/
def dualFormAt (forms : List (List K)) (row : List Nat) (c : List Nat) : Except PyErr K :=
  match forms[c.sum]?, row[cornerNumber c]? with
  | some form, some i =>
    match form[i]? with
    | some x => .ok x
    | none => .error .indexError
  | _, _ => .error .indexError

/-- `sample_dual_0`, lines 219-248 -/
def sampleDualRegular (solve : List (List Int) → Option (List Int)) (uniq : List (List Nat) → List (List Nat))
    (nearest : List (Vec K d) → Vec K d → Nat) (t : Topo) (V : List (Vec K d)) (d0 : List K) (points : List (Vec K d)) :
    Except PyErr (List K) := do
  let ms ← cubicalDual solve uniq t
  let averages ← averageDual ms d0
  let forms := averages.reverse
  let picked ← pickFundamentalRegular nearest t V points none
  picked.mapM fun rb => do
    let bary := (List.ofFn rb.2).map clip01
    let terms ← (cubeCorners t.boundary.length).mapM fun c => do
      let x ← dualFormAt forms rb.1 c
      .ok (x * cornerWeight bary c)
    .ok terms.sum

end Verif.Model
