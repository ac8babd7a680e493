/-
Model of `StencilComplex.sample_0`, `pycomplex/stencil/complex.py` lines 173-203.

Arithmetic is exact, over an ordered field with a floor function.  An array is its shape and its entries; entries
outside of the shape are not used.
-/
import Verif.Model.Multigrid
import Mathlib.Algebra.Order.Floor.Ring
import Mathlib.Algebra.Order.Field.Basic

namespace Verif.Model

variable {K : Type} [Field K] [LinearOrder K] [FloorRing K]

/-- an array of any number of axes -/
structure GridArray (K : Type) where
  shape : List Nat
  entry : List Nat → K

/-- `f[0]` -/
def GridArray.first (f : GridArray K) : Except PyErr (GridArray K) :=
  match f.shape with
  | [] => .error .indexError
  | m :: shape => if m = 0 then .error .indexError else .ok ⟨shape, fun i => f.entry (0 :: i)⟩

/-- `np.pad(f, [(0, 1)] * n, mode='wrap')`, line 199: every axis is continued by its first entry -/
def padWrap (f : GridArray K) (n : Nat) : Except PyErr (GridArray K) :=
  if f.shape.length ≠ n then .error .valueError
  else if 0 ∈ f.shape then .error .valueError
  else .ok ⟨f.shape.map (· + 1), fun i => f.entry (List.zipWith (· % ·) i f.shape)⟩

/-- `np.remainder(x, m)` for a positive `m` -/
def npRemainder (x : K) (m : Nat) : K := x - m * ⌊x / m⌋

/-- `np.remainder(points, shape)`, line 200, of one point; a point of another number of coordinates is rejected -/
def remainders (shape : List Nat) (x : List K) : Except PyErr (List K) :=
  if x.length = shape.length then .ok (List.zipWith npRemainder x shape) else .error .valueError

/-- interpolation between the entries next to a position inside of the array, one axis after the other; beyond the last
entry of an axis, where the weight is zero, the last entry is taken -/
def linearInterpolation : List Nat → (List Nat → K) → List K → K
  | m :: shape, entry, x :: xs =>
    let k := ⌊x⌋.toNat
    let t := x - k
    (1 - t) * linearInterpolation shape (fun i => entry (k :: i)) xs +
      t * linearInterpolation shape (fun i => entry (min (k + 1) (m - 1) :: i)) xs
  | _, entry, _ => entry []

/-- `ndimage.map_coordinates(f, points.T, order=1)` of one point: zero outside of the array -/
def mapCoordinates (f : GridArray K) (x : List K) : Except PyErr K :=
  if x.length ≠ f.shape.length then .error .runtimeError
  else if (List.zipWith (fun (x : K) (m : Nat) => decide (0 ≤ x ∧ x ≤ (m : K) - 1)) x f.shape).all id then
    .ok (linearInterpolation f.shape f.entry x)
  else .ok 0

/-- `sample_0`, lines 173-203.  The array `f0` has one more axis than there are dimensions. -/
def sampleZero (c : GridComplex K) (f0 : GridArray K) (points : List (List K)) (assumeInterior : Bool) :
    Except PyErr (List K) :=
  if c.boundary ≠ "periodic" then .error .assertionError
  else
    let points := points.map fun p => p.map (· / c.scale)
    if assumeInterior then points.mapM (mapCoordinates f0)
    else do
      let f ← f0.first
      let f ← padWrap f c.shape.length
      let points ← points.mapM (remainders c.shape)
      points.mapM (mapCoordinates f)

end Verif.Model
