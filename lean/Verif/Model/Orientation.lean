/-
Model of the orientation logic: `BaseTopology.relative_parity`, `is_oriented`
(`pycomplex/topology/base.py`) and `TopologySimplicial.fix_orientation`
(`pycomplex/topology/simplicial.py`).
-/
import Verif.Model.Simplicial

namespace Verif.Model

/-- columns with a non-zero entry in row `i`: `inc.indices` of that row (increasing order) -/
def nonzeroCols (M : Mat Int) (i : Nat) : List Nat :=
  (List.range M.cols).filter fun j => M.entry i j ≠ 0

/-- `relative_parity`, `topology/base.py` lines 173-179: keep the rows with exactly two
incidences and turn each into the clause `[(j1 + 1) * s1, (j2 + 1) * s2]`.
(`getnnz` counts stored entries; the incidence matrices store no zeros.) -/
def interiorClauses (M : Mat Int) : List (List Int) :=
  (List.range M.rows).filterMap fun i =>
    let nz := nonzeroCols M i
    if nz.length = 2 then some (nz.map fun j : Nat => ((j : Int) + 1) * M.entry i j) else none

/-- `BaseTopology.relative_parity`, `topology/base.py` lines 155-191.
`solve` stands for `pycosat.solve`; `none` is `'UNSAT'`. -/
def relativeParity (solve : List (List Int) → Option (List Int)) (t : Topo) :
    Except PyErr (List Bool) :=
  let n := t.boundary.length
  if n = 0 then .ok (List.replicate (t.nElements 0) false)
  else
    let clauses := interiorClauses (t.matrix (n - 1))
    if clauses = [] then .ok (List.replicate (t.nElements n) false)
    else
      match solve (clauses ++ clauses.map (fun c => c.map fun x => -x)) with
      | none => .error .valueError
      | some m => .ok (m.map orientationToParity)

/-- `npi.all_equal` of a chain -/
def allEqual : List Bool → Bool
  | [] => true
  | a :: t => t.all (· == a)

/-- `BaseTopology.is_oriented`, `topology/base.py` lines 193-196 -/
def isOriented (solve : List (List Int) → Option (List Int)) (t : Topo) : Except PyErr Bool := do
  let parity ← relativeParity solve t
  .ok (allEqual parity)

/-- `np.where(parity[:, None], E, F)`, `topology/simplicial.py` line 199, with numpy broadcasting:
equal lengths, or one of them 1; anything else is a `ValueError`. `F` is `E` with its first two
columns swapped (lines 197-198). -/
def whereRows (parity : List Bool) (E : List (List Nat)) : Except PyErr (List (List Nat)) :=
  let pick (p : Bool) (e : List Nat) := if p then e else swap01 e
  if parity.length = E.length then .ok (List.zipWith pick parity E)
  else if parity.length = 1 then .ok (E.map fun e => pick (parity[0]?.getD false) e)
  else if E.length = 1 then .ok (parity.map fun p => pick p (E[0]?.getD []))
  else .error .valueError

/-- `TopologySimplicial.fix_orientation`, `topology/simplicial.py` lines 182-199 -/
def fixOrientation (solve : List (List Int) → Option (List Int))
    (uniq : List (List Nat) → List (List Nat)) (t : Topo) : Except PyErr Topo := do
  let parity ← relativeParity solve t
  let n := t.boundary.length
  let rows ← whereRows parity (t.elements[n]?.getD [])
  fromSimplices uniq (n + 1) rows

end Verif.Model
