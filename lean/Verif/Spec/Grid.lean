/-
Grids of cells.
-/
import Verif.Model.Basic
import Mathlib.Data.List.Forall2

namespace Verif.Spec

/-- position of a cell: below the number of cells along every axis -/
def IsCell (shape c : List Nat) : Prop := List.Forall₂ (· < ·) c shape

/-- the grid point at the corner `o` of the cell `c` -/
def cellCorner (c : List Nat) (o : List Bool) : List Nat := List.zipWith (fun x s => if s then x + 1 else x) c o

/-- number of boxes of dimension `k` in a grid: along each axis with `m` cells such a box is one of `m + 1` points or
one of `m` intervals -/
def boxCount : List Nat → Nat → Nat
  | [], 0 => 1
  | [], _ + 1 => 0
  | m :: shape, 0 => (m + 1) * boxCount shape 0
  | m :: shape, k + 1 => (m + 1) * boxCount shape (k + 1) + m * boxCount shape k

end Verif.Spec
