/-
Specification notions for closed triangulated surfaces.
-/
import Verif.Spec.Triangles

namespace Verif.Spec

/-- a connected closed oriented surface: the triangles are different, every directed edge occurs once, and
so does its reverse, and one gets from every triangle to every other through shared edges -/
structure OrientedSurface (T : List (List Nat)) : Prop where
  simplices : Simplices 3 T
  distinct : DistinctElements T
  once : (directedEdges T).Nodup
  closed : ClosedSurface T
  connected : Connected T

end Verif.Spec
