/-
Model of `pycomplex/stencil/topology.py` and of `generate` in `pycomplex/stencil/util.py`: the
derivative tables, the derivative operators, grid transfers and averaging of a periodic regular grid.

A grid with `N` axes has indices `Fin N → Nat` and shape `sh : Fin N → Nat`.  Floating point numbers
are replaced by a commutative ring or a field.  The content of the uninitialised arrays returned by
`form(n, init='empty')` is an argument of every function that uses them.
-/
import Verif.Model.Simplicial
import Verif.Model.StencilOp
import Mathlib.Algebra.BigOperators.Group.Finset.Basic
import Mathlib.Data.Fintype.Pi
import Mathlib.Data.Fintype.Basic

namespace Verif.Model

/-! ### tables -/

/-- one entry of the tables `terms`, `axes` and `parities` of `generate` -/
structure StencilTerm where
  term : Nat
  axis : Nat
  parity : Nat
  deriving DecidableEq, Repr

/-- `t = [s + (d,) for d in range(ndim) for s in symbols[n] if d not in s]`, `stencil/util.py`
line 59 -/
def derivedTerms (ndim : Nat) (symbols : List (List Nat)) : List (List Nat) :=
  (List.range ndim).flatMap fun d => (symbols.filter fun s => !s.contains d).map fun s => s ++ [d]

/-- `symbols[n].index(i)`; `ValueError` if absent -/
def symbolIndex (symbols : List (List Nat)) (s : List Nat) : Except PyErr Nat :=
  if symbols.contains s then .ok (symbols.idxOf s) else .error .valueError

/-- all lists have the same length -/
def sameLength {α : Type} (l : List (List α)) : Bool :=
  match l with
  | [] => true
  | a :: t => t.all fun b => b.length == a.length

/-- the body of the loop of `generate`, `stencil/util.py` lines 57-74: the next symbols and, for
each of them, its terms.  `permutation_map(n)` with `npi.indices` is `relativeSimplexParity`.
`uniq` stands for the grouping of `npi.as_index` as in `constructLower`; `group_by(idx).split` lists
the members of each group, as an array if all groups have the same size; otherwise the indexing
`gt[..., :-1]` of a list is a `TypeError`. -/
def generateLevel (uniq : List (List Nat) → List (List Nat)) (ndim : Nat)
    (symbols : List (List Nat)) : Except PyErr (List (List Nat) × List (List StencilTerm)) := do
  let t := derivedTerms ndim symbols
  let parity ← t.mapM fun r => relativeSimplexParity (argsort r)
  let unique := uniq (t.map sortRow)
  let groups := unique.map fun k => (t.zip parity).filter fun tp => sortRow tp.1 == k
  if sameLength groups then do
    let table ← groups.mapM fun g => g.mapM fun tp => do
      let i ← symbolIndex symbols tp.1.dropLast
      (.ok ⟨i, tp.1.getLastD 0, tp.2⟩ : Except PyErr StencilTerm)
    .ok (unique, table)
  else .error .typeError

/-- the remaining iterations of the loop of `generate`: the symbols and tables they append -/
def generateLoop (uniq : List (List Nat) → List (List Nat)) (ndim : Nat) :
    Nat → List (List Nat) → Except PyErr (List (List (List Nat)) × List (List (List StencilTerm)))
  | 0, _ => .ok ([], [])
  | k + 1, symbols => do
    let (s, t) ← generateLevel uniq ndim symbols
    let (ss, ts) ← generateLoop uniq ndim k s
    .ok (s :: ss, t :: ts)

/-- `generate(ndim)`, `stencil/util.py` lines 23-76: the symbols of all levels and the table
(terms, axes, parities) of every derivative -/
def generate (uniq : List (List Nat) → List (List Nat)) (ndim : Nat) :
    Except PyErr (List (List (List Nat)) × List (List (List StencilTerm))) := do
  let (ss, ts) ← generateLoop uniq ndim ndim [[]]
  .ok ([[]] :: ss, ts)

/-- `pascal(n, k)`, `stencil/util.py` lines 8-12; outside of `0 ≤ k ≤ n` the recursion does not
end (`RecursionError`): `none` after the given number of nested calls -/
def pascal : (fuel : Nat) → Int → Int → Option Nat
  | 0, _, _ => none
  | fuel + 1, n, k =>
    if k = 0 ∨ k = n then some 1
    else do
      let a ← pascal fuel (n - 1) (k - 1)
      let b ← pascal fuel (n - 1) k
      some (a + b)

/-! ### periodic filters -/

section

variable {N : Nat}

/-- the grid index `i` moved by `k` along axis `a`, with `mode='wrap'` -/
def gridShift (sh : Fin N → Nat) (a : Nat) (k : Int) (i : Fin N → Nat) : Fin N → Nat :=
  fun b => if (b : Nat) = a then (((i b : Int) + k) % (sh b : Int)).toNat else i b

/-- the indices of an array of shape `sh` -/
def gridDom (sh : Fin N → Nat) : Finset (Fin N → Nat) :=
  Fintype.piFinset fun b => Finset.range (sh b)

section

variable {R : Type} [CommRing R]

/-- `ndimage.correlate1d(f, weights, axis, mode='wrap', origin=origin)`: the weight `k` is applied
at distance `k - size//2 - origin` -/
def correlate1d (sh : Fin N → Nat) (weights : List R) (axis : Nat) (origin : Int)
    (f : (Fin N → Nat) → R) (i : Fin N → Nat) : R :=
  (weights.zipIdx.map fun wk =>
    wk.1 * f (gridShift sh axis ((wk.2 : Int) - ((weights.length / 2 : Nat) : Int) - origin) i)).sum

/-- `ndimage.convolve1d(f, weights, axis, mode='wrap')`: `correlate1d` with reversed weights and the
origin moved by one for an even number of weights -/
def convolve1d (sh : Fin N → Nat) (weights : List R) (axis : Nat)
    (f : (Fin N → Nat) → R) (i : Fin N → Nat) : R :=
  correlate1d sh weights.reverse axis (if weights.length % 2 = 0 then -1 else 0) f i

/-- `weights = [-1, +1] if p else [+1, -1]`, `stencil/topology.py` line 95 -/
def derivativeWeights (p : Nat) : List R := if p ≠ 0 then [-1, 1] else [1, -1]

/-! ### derivatives -/

/-- the output array and the flags of one call of `inner`, `stencil/topology.py` lines 88-90 -/
structure OutBuffer (G R : Type) where
  data : Nat → G → R
  initialized : List Bool

/-- lines 96-100: accumulate into component `c` if it is initialized, else overwrite it -/
def OutBuffer.write {G : Type} (b : OutBuffer G R) (c : Nat) (v : G → R) : OutBuffer G R :=
  if b.initialized[c]?.getD false then
    ⟨fun c' => if c' = c then fun i => b.data c i + v i else b.data c', b.initialized⟩
  else ⟨fun c' => if c' = c then v else b.data c', b.initialized.set c true⟩

/-- `primal(n, ...)`, `stencil/topology.py` lines 86-102, for a derivative with the given table;
`garbage` is the uninitialised output array of `size` components -/
def primalInner (sh : Fin N → Nat) (table : List (List StencilTerm)) (size : Nat)
    (garbage : Nat → (Fin N → Nat) → R) (f : Nat → (Fin N → Nat) → R) : Nat → (Fin N → Nat) → R :=
  (table.zipIdx.foldl (fun b rc =>
    rc.1.foldl (fun b e =>
      b.write rc.2 (convolve1d sh (derivativeWeights e.parity) e.axis (f e.term))) b)
    (⟨garbage, List.replicate size false⟩ : OutBuffer (Fin N → Nat) R)).data

/-- `dual(n, ...)`, `stencil/topology.py` lines 103-119 -/
def dualInner (sh : Fin N → Nat) (table : List (List StencilTerm)) (size : Nat)
    (garbage : Nat → (Fin N → Nat) → R) (f : Nat → (Fin N → Nat) → R) : Nat → (Fin N → Nat) → R :=
  (table.zipIdx.foldl (fun b rc =>
    rc.1.foldl (fun b e =>
      b.write e.term (correlate1d sh (derivativeWeights e.parity) e.axis 0 (f rc.2))) b)
    (⟨garbage, List.replicate size false⟩ : OutBuffer (Fin N → Nat) R)).data

end

/-- The attributes of `StencilTopology.__init__`, `stencil/topology.py` lines 12-17; only
`boundary='periodic'` is modelled (the operators assert it). -/
structure StencilTopology (N : Nat) where
  shape : Fin N → Nat
  symbols : List (List (List Nat))
  table : List (List (List StencilTerm))

/-- `StencilTopology(shape)` -/
def mkStencilTopology (uniq : List (List Nat) → List (List Nat)) (shape : Fin N → Nat) :
    Except PyErr (StencilTopology N) := do
  let (symbols, table) ← generate uniq N
  .ok ⟨shape, symbols, table⟩

/-- the number of components of an `n`-form: `len(symbols[n])`, `stencil/topology.py` line 50 -/
def StencilTopology.components (t : StencilTopology N) (n : Nat) : Nat :=
  (t.symbols[n]?.getD []).length

/-- The shape of an `n`-form, `n_elements[n]`, `stencil/topology.py` lines 42-50.  It is represented
by the degree `n` and the shape of the grid, so that forms of different degree are told apart even
if they have the same number of components. -/
abbrev FormShape (N : Nat) := Nat × (Fin N → Nat)

/-- the index of an entry of a form: component and grid index -/
abbrev FormIndex (N : Nat) := Nat × (Fin N → Nat)

/-- the indices of the entries of a form -/
def StencilTopology.dom (t : StencilTopology N) (s : FormShape N) : Finset (FormIndex N) :=
  (Finset.range (t.components s.1)) ×ˢ gridDom s.2

/-- a form -/
abbrev Form (N : Nat) (R : Type) := Arr (FormShape N) (FormIndex N) R

/-- the array of shape `s` with the given components; entries outside of the array are zero by
convention -/
def StencilTopology.mkForm {R : Type} [Zero R] (t : StencilTopology N) (s : FormShape N)
    (data : Nat → (Fin N → Nat) → R) : Form N R :=
  ⟨s, fun ci => if ci ∈ t.dom s then data ci.1 ci.2 else 0⟩

section

variable {R : Type} [CommRing R]

/-- `primal[n]`, `stencil/topology.py` lines 72-131 -/
def StencilTopology.primal (t : StencilTopology N) (garbage : Nat → (Fin N → Nat) → R) (n : Nat) :
    Op (FormShape N) (FormIndex N) R :=
  let table := t.table[n]?.getD []
  .fn .derivative
    (fun f => t.mkForm (n, t.shape)
      (dualInner t.shape table (t.components n) garbage fun c i => f.val (c, i)))
    (fun f => t.mkForm (n + 1, t.shape)
      (primalInner t.shape table (t.components (n + 1)) garbage fun c i => f.val (c, i)))
    (n + 1, t.shape) (n, t.shape)

/-- `dual[n]`, `stencil/topology.py` lines 133-147 -/
def StencilTopology.dual (t : StencilTopology N) (garbage : Nat → (Fin N → Nat) → R) (n : Nat) :
    Op (FormShape N) (FormIndex N) R :=
  (t.primal garbage n).transpose

end

/-! ### transfers -/

section

variable {K : Type} [Field K]

/-- `1 if i in s else 2` -/
def skipOf (s : List Nat) (b : Nat) : Nat := if s.contains b then 1 else 2

/-- `2 if i in s else 1` -/
def binsOf (s : List Nat) (b : Nat) : Nat := if s.contains b then 2 else 1

/-- `binning(arr, steps)`, `stencil/util.py` lines 79-82, at index `j` of the result: the mean over
the block `steps * j + o`.  (`reshape` raises `ValueError` unless the steps divide the shape.) -/
def binning (steps : Fin N → Nat) (arr : (Fin N → Nat) → K) (j : Fin N → Nat) : K :=
  (∑ o ∈ gridDom steps, arr fun b => steps b * j b + o b) / ((∏ b, steps b : Nat) : K)

/-- one component of `bin`, `stencil/topology.py` lines 167-170, with axes `s`: strided selection
followed by `binning` -/
def binComponent (s : List Nat) (fine : (Fin N → Nat) → K) (j : Fin N → Nat) : K :=
  binning (fun b => binsOf s b) (fun i => fine fun b => skipOf s b * i b) j

/-- one component of `tile`, `stencil/topology.py` lines 178-189: repeat along the axes in `s`, write
to the even positions along all others of an array of zeros -/
def tileComponent (s : List Nat) (coarse : (Fin N → Nat) → K) (i : Fin N → Nat) : K :=
  if ∀ b : Fin N, skipOf s b ∣ i b then
    coarse fun b => i b / skipOf s b / binsOf s b
  else 0

/-- `coarse` of a topology, `stencil/topology.py` lines 23-31 -/
def StencilTopology.coarse (uniq : List (List Nat) → List (List Nat)) (t : StencilTopology N) :
    Except PyErr (StencilTopology N) :=
  if ∀ b, t.shape b % 2 = 0 then mkStencilTopology uniq fun b => t.shape b / 2
  else .error .assertionError

/-- `fine` of a topology, `stencil/topology.py` lines 33-39 -/
def StencilTopology.fine (uniq : List (List Nat) → List (List Nat)) (t : StencilTopology N) :
    Except PyErr (StencilTopology N) :=
  mkStencilTopology uniq fun b => t.shape b * 2

/-- `transfers[n]`, `stencil/topology.py` lines 149-201, of the topology `t` with coarse
counterpart `tc` -/
def StencilTopology.transfer (t tc : StencilTopology N) (n : Nat) :
    Op (FormShape N) (FormIndex N) K :=
  let symbols := t.symbols[n]?.getD []
  .fn .plain
    (fun coarse => t.mkForm (n, t.shape) fun c =>
      tileComponent (symbols[c]?.getD []) fun i => coarse.val (c, i))
    (fun fine => tc.mkForm (n, tc.shape) fun c =>
      binComponent (symbols[c]?.getD []) fun i => fine.val (c, i))
    (n, tc.shape) (n, t.shape)

/-! ### averaging -/

/-- `ndimage.convolve(f, np.ones(w) / np.prod(w), mode='wrap')` for a weight array of shape `w` with
all lengths 1 or 2: the weights are reversed and the origin of the even axes is moved by one, so that
weight `o` is applied at distance `o` -/
def convolveOnes (sh w : Fin N → Nat) (f : (Fin N → Nat) → K) (i : Fin N → Nat) : K :=
  ∑ o ∈ gridDom w, (1 / ((∏ b, w b : Nat) : K)) *
    f fun b => (((i b : Int) + ((o b : Int) - ((w b / 2 : Nat) : Int) -
      (if w b % 2 = 0 then -1 else 0))) % (sh b : Int)).toNat

/-- `averaging_operators_0[n]`, `stencil/topology.py` lines 203-234, without `left`, which is
`None` -/
def StencilTopology.averaging0 (t : StencilTopology N) (n : Nat) (f0 : Form N K) : Form N K :=
  let symbols := t.symbols[n]?.getD []
  t.mkForm (n, t.shape) fun c =>
    convolveOnes t.shape (fun b => binsOf (symbols[c]?.getD []) b) fun i => f0.val (0, i)

end

end

end Verif.Model
