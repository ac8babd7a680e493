/-
Model of `ComplexTriangularEuclidian3.extrude`, `pycomplex/complex/simplicial/euclidian.py` lines
771-802.
-/
import Verif.Model.Boundary
import Verif.Model.Triangles

namespace Verif.Model

section

variable {K : Type} [Field K] {d : Nat}

/-- the attributes of a triangular complex, `complex/simplicial/euclidian.py` lines 200-205 -/
structure TriComplex (K : Type) (d : Nat) where
  vertices : List (Vec K d)
  topo : Topo
  weights : Option (List K)

/-- `array[idx]` for an array of rows; an index past the end is an `IndexError` -/
def fancyRows {α : Type} (rows : List α) (idx : List Nat) : Except PyErr (List α) :=
  idx.mapM fun i => match rows[i]? with
    | some r => .ok r
    | none => .error .indexError

/-- `boundary_tris`, lines 788-791: for every boundary edge `(a, b)` a row `(b, a, a + n)`, then for
every boundary edge a row `(a + n, b + n, b)` -/
def stripTriangles (n : Nat) (edges : List (List Nat)) : List (List Nat) :=
  (edges.map fun e => e.reverse ++ (e.take 1).map (· + n)) ++
    edges.map fun e => e.map (· + n) ++ (e.drop 1).take 1

/-- `solid_tris`, lines 793-797: the triangles, the reversed triangles on the second copy of the
vertices, and the strip -/
def solidTriangles (n : Nat) (T edges : List (List Nat)) : List (List Nat) :=
  T ++ T.map (fun l => l.reverse.map (· + n)) ++ stripTriangles n edges

/-- `extrude(other)`, lines 771-802.  `same` is the value of `self.topology is other.topology`; a
complex has no `__len__` or `__bool__`, so that `assert self.boundary` fails only for `None`.
`self.boundary` (`complex/base.py` lines 81-88) reads the positions of the boundary vertices.
`self.copy` (`complex/base.py` lines 93-104) hands every attribute that is not replaced to the
constructor: here `weights`. -/
def extrude (solve : List (List Int) → Option (List Int)) (uniq : List (List Nat) → List (List Nat))
    (same : Bool) (self : TriComplex K d) (other : List (Vec K d)) :
    Except PyErr (TriComplex K d) := do
  if !same then .error .assertionError
  else
    let oriented ← isOriented solve self.topo
    if !oriented then .error .assertionError
    else
      match ← boundary solve uniq self.topo with
      | none => .error .assertionError
      | some s =>
        let _ ← fancyRows self.vertices (s.parentIdx[0]?.getD [])
        let n := self.vertices.length
        let edges ← fancyRows (self.topo.elements[1]?.getD []) (s.parentIdx[1]?.getD [])
        let T := self.topo.elements[2]?.getD []
        let t ← fromSimplices uniq 3 (solidTriangles n T edges)
        let oriented' ← isOriented solve t
        if !oriented' then .error .assertionError
        else .ok ⟨self.vertices ++ other, t, self.weights⟩

end

end Verif.Model
