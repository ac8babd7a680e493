/-
Model of `pycomplex/stencil/operator.py`.

An array is a shape together with the values at its indices.  Shapes are an arbitrary type `S`
with decidable equality, indices an arbitrary type `I`; `dom s` are the indices of the arrays of
shape `s`.  Values outside of `dom` are zero by convention (`Arr.Valid`).  Floating point numbers are
replaced by an ordered field.
-/
import Verif.Model.Basic
import Mathlib.Algebra.Order.Field.Basic
import Mathlib.Data.Finset.Basic

namespace Verif.Model

/-- an array: its shape and its entries -/
structure Arr (S I R : Type) where
  shape : S
  val : I → R

/-- `np.zeros(s)` -/
def Arr.zeros {S I R : Type} [Zero R] (s : S) : Arr S I R := ⟨s, fun _ => 0⟩

/-- `a + b`; arrays of different shape would be broadcast or raise `ValueError`, the model raises -/
def Arr.add {S I R : Type} [DecidableEq S] [Add R] (a b : Arr S I R) : Except PyErr (Arr S I R) :=
  if a.shape = b.shape then .ok ⟨a.shape, fun i => a.val i + b.val i⟩ else .error .valueError

/-- the classes of operators given by a pair of functions: `StencilOperator`, `DerivativeOperator`,
`DualDerivativeOperator`, `SymmetricOperator` -/
inductive OpTag where
  | plain
  | derivative
  | dualDerivative
  | symmetric
  deriving DecidableEq

/-- The operator objects of `stencil/operator.py`; `rows` and `cols` are `shape[0]` and `shape[1]`.
* `fn`: lines 8-21, 103-140, with the functions `left` and `right`;
* `diagonal`: `DiagonalOperator` and `HodgeOperator`, lines 143-171, with the diagonal broadcast to
  the shape of the operator;
* `identity`: lines 174-190;
* `zero`: lines 83-100;
* `composed`, `combined`: lines 193-300. -/
inductive Op (S I R : Type) where
  | fn (tag : OpTag) (left right : Arr S I R → Arr S I R) (rows cols : S)
  | diagonal (hodge : Bool) (d : I → R) (s : S)
  | identity (s : S)
  | zero (rows cols : S)
  | composed (ops : List (Op S I R)) (rows cols : S)
  | combined (ops : List (Op S I R)) (rows cols : S)

section

variable {S I R : Type}

/-- `shape[0]` -/
def Op.rows : Op S I R → S
  | .fn _ _ _ r _ => r
  | .diagonal _ _ s => s
  | .identity s => s
  | .zero r _ => r
  | .composed _ r _ => r
  | .combined _ r _ => r

/-- `shape[1]` -/
def Op.cols : Op S I R → S
  | .fn _ _ _ _ c => c
  | .diagonal _ _ s => s
  | .identity s => s
  | .zero _ c => c
  | .composed _ _ c => c
  | .combined _ _ c => c

/-- `isinstance(op, ZeroOperator)` -/
def Op.isZeroOp : Op S I R → Bool
  | .zero _ _ => true
  | _ => false

/-- `isinstance(op, IdentityOperator)` -/
def Op.isIdentity : Op S I R → Bool
  | .identity _ => true
  | _ => false

/-- `isinstance(op, DerivativeOperator)` -/
def Op.isDerivative : Op S I R → Bool
  | .fn .derivative _ _ _ _ => true
  | _ => false

/-- `isinstance(op, DualDerivativeOperator)` -/
def Op.isDualDerivative : Op S I R → Bool
  | .fn .dualDerivative _ _ _ _ => true
  | _ => false

/-- `isinstance(op, ComposedOperator)` -/
def Op.isComposed : Op S I R → Bool
  | .composed _ _ _ => true
  | _ => false

/-- `isinstance(op, CombinedOperator)` -/
def Op.isCombined : Op S I R → Bool
  | .combined _ _ _ => true
  | _ => false

mutual

/-- number of operator objects in an expression -/
def Op.nodes : Op S I R → Nat
  | .composed ops _ _ => 1 + nodesAll ops
  | .combined ops _ _ => 1 + nodesAll ops
  | .fn _ _ _ _ _ => 1
  | .diagonal _ _ _ => 1
  | .identity _ => 1
  | .zero _ _ => 1

/-- number of operator objects in a list -/
def nodesAll : List (Op S I R) → Nat
  | [] => 0
  | a :: t => a.nodes + nodesAll t

end

/-! ### construction -/

section

variable [DecidableEq S]

/-- `for l, r in adjecent_pairs(self.operators): assert l.shape[1] == r.shape[0]`, line 200-201 -/
def chainOk : List (Op S I R) → Bool
  | a :: b :: t => decide (a.cols = b.rows) && chainOk (b :: t)
  | _ => true

/-- `ComposedOperator(args)`, lines 195-203 -/
def mkComposed (ops : List (Op S I R)) : Except PyErr (Op S I R) :=
  if chainOk ops then
    match ops.head?, ops.getLast? with
    | some a, some b => .ok (.composed ops a.rows b.cols)
    | _, _ => .error .indexError
  else .error .assertionError

/-- `CombinedOperator(args)`, lines 260-272 -/
def mkCombined (ops : List (Op S I R)) : Except PyErr (Op S I R) :=
  match ops with
  | [] => .error .indexError
  | a :: t =>
    if (a :: t).all fun o => decide (o.rows = a.rows) && decide (o.cols = a.cols) then
      .ok (.combined (a :: t) a.rows a.cols)
    else .error .assertionError

end

/-! ### transposition -/

mutual

/-- `transpose()`: `StencilOperator` lines 23-28, `ZeroOperator` 93-96, `DerivativeOperator`
109-114, `DualDerivativeOperator` 121-126, `SymmetricOperator` 139-140 (also diagonal and identity),
`ComposedOperator` 238-239, `CombinedOperator` 294-295.  The assertions of the constructors hold
again and are left out. -/
def Op.transpose : Op S I R → Op S I R
  | .fn .plain left right r c => .fn .plain right left c r
  | .fn .derivative left right r c => .fn .dualDerivative right left c r
  | .fn .dualDerivative left right r c => .fn .derivative right left c r
  | .fn .symmetric left right r c => .fn .symmetric left right r c
  | .diagonal h d s => .diagonal h d s
  | .identity s => .identity s
  | .zero r c => .zero c r
  | .composed ops r c => .composed (transposeAll ops).reverse c r
  | .combined ops r c => .combined (transposeAll ops) c r

/-- `[o.transpose() for o in ops]` -/
def transposeAll : List (Op S I R) → List (Op S I R)
  | [] => []
  | a :: t => a.transpose :: transposeAll t

end

/-! ### application -/

/-- `__call__` of a `StencilOperator` with the function `right`, lines 39-43 -/
def callFn [DecidableEq S] (right : Arr S I R → Arr S I R) (rows cols : S) (x : Arr S I R) :
    Except PyErr (Arr S I R) :=
  if x.shape = cols then
    let ret := right x
    if ret.shape = rows then .ok ret else .error .assertionError
  else .error .assertionError

mutual

/-- `op(x)`: lines 39-43; `ComposedOperator.__call__`, lines 241-246; for `CombinedOperator` the
inherited `__call__` with `right`, line 271 -/
def Op.call [DecidableEq S] [CommRing R] : Op S I R → Arr S I R → Except PyErr (Arr S I R)
  | .fn _ _ right r c, x => callFn right r c x
  | .diagonal _ d s, x => callFn (fun x => ⟨x.shape, fun i => x.val i * d i⟩) s s x
  | .identity s, x => callFn id s s x
  | .zero r c, x => callFn (fun _ => Arr.zeros r) r c x
  | .composed ops r c, x =>
    if x.shape = c then do
      let y ← callChain ops x
      if y.shape = r then .ok y else .error .assertionError
    else .error .assertionError
  | .combined ops r c, x =>
    if x.shape = c then do
      let y ← callSum none ops x
      if y.shape = r then .ok y else .error .assertionError
    else .error .assertionError

/-- `for op in self.operators[::-1]: x = op(x)`, lines 243-244 -/
def callChain [DecidableEq S] [CommRing R] :
    List (Op S I R) → Arr S I R → Except PyErr (Arr S I R)
  | [], x => .ok x
  | op :: t, x => do
    let y ← callChain t x
    op.call y

/-- `sum(op(x) for op in self.operators)`, line 271; the sum starts with the number `0`, here `none`,
which has no shape -/
def callSum [DecidableEq S] [CommRing R] :
    Option (Arr S I R) → List (Op S I R) → Arr S I R → Except PyErr (Arr S I R)
  | none, [], _ => .error .attributeError
  | some acc, [], _ => .ok acc
  | acc, op :: t, x => do
    let y ← op.call x
    let z ← match acc with
      | none => .ok y
      | some a => a.add y
    callSum (some z) t x

end

/-! ### simplification -/

/-- two consecutive entries with the given properties:
`any(p(l) and p(r) for l, r in zip(ops[:-1], ops[1:]))` -/
def anyAdjacent {α : Type} (p : α → Bool) : List α → Bool
  | a :: b :: t => (p a && p b) || anyAdjacent p (b :: t)
  | _ => false

/-- `ComposedOperator.is_zero`, lines 205-215 -/
def composedIsZero (ops : List (Op S I R)) : Bool :=
  ops.any Op.isZeroOp || anyAdjacent Op.isDerivative ops || anyAdjacent Op.isDualDerivative ops

/-- `self.operators[:i] + self.operators[i].operators + self.operators[i+1:]` for the first
composed operator, lines 224-227 -/
def flattenComposed : List (Op S I R) → Option (List (Op S I R))
  | [] => none
  | .composed inner _ _ :: t => some (inner ++ t)
  | a :: t => (flattenComposed t).map fun t' => a :: t'

/-- the same for the first combined operator, lines 287-290 -/
def flattenCombined : List (Op S I R) → Option (List (Op S I R))
  | [] => none
  | .combined inner _ _ :: t => some (inner ++ t)
  | a :: t => (flattenCombined t).map fun t' => a :: t'

section

variable [Field R] [LinearOrder R]

/-- `np.allclose(d, b)` with its default tolerances, over the indices of the shape -/
def allclose (dom : Finset I) (d : I → R) (b : R) : Bool :=
  decide (∀ i ∈ dom, |d i - b| ≤ 1 / 10 ^ 8 + 1 / 10 ^ 5 * |b|)

/-- `DiagonalOperator.simplify`, lines 158-163 -/
def simplifyDiagonal (dom : S → Finset I) (hodge : Bool) (d : I → R) (s : S) : Op S I R :=
  if allclose (dom s) d 0 then .zero s s
  else if allclose (dom s) d 1 then .identity s
  else .diagonal hodge d s

/-- combination of the first adjacent pair of diagonal operators, lines 233-236.  (Identity
operators have been dropped before.) -/
def combineDiagonals (dom : S → Finset I) : List (Op S I R) → Option (List (Op S I R))
  | .diagonal _ d s :: .diagonal _ e _ :: t =>
    some (simplifyDiagonal dom false (fun i => d i * e i) s :: t)
  | a :: t => (combineDiagonals dom t).map fun t' => a :: t'
  | [] => none

/-- the result of one step of `simplify`: all recursive calls are tail calls -/
inductive SimplifyStep (S I R : Type) where
  | done (op : Op S I R)
  | again (op : Op S I R)

/-- one step of `simplify`: `ComposedOperator.simplify`, lines 217-237, `CombinedOperator.simplify`,
lines 274-293, `DiagonalOperator.simplify`, and `return self` for all others (lines 54-55,
184-185) -/
def simplifyStep [DecidableEq S] (dom : S → Finset I) :
    Op S I R → Except PyErr (SimplifyStep S I R)
  | .composed [a] _ _ => .ok (.again a)
  | .composed ops r c =>
    if composedIsZero ops then .ok (.done (.zero r c))
    else match flattenComposed ops with
      | some ops' => do
        let op ← mkComposed ops'
        .ok (.again op)
      | none =>
        if ops.any Op.isIdentity then
          let ops' := ops.filter fun o => !o.isIdentity
          if ops'.isEmpty then .ok (.done (.identity r))
          else do
            let op ← mkComposed ops'
            .ok (.again op)
        else match combineDiagonals dom ops with
          | some ops' => do
            let op ← mkComposed ops'
            .ok (.again op)
          | none => .ok (.done (.composed ops r c))
  | .combined [a] _ _ => .ok (.again a)
  | .combined ops r c =>
    if ops.any Op.isZeroOp then
      let ops' := ops.filter fun o => !o.isZeroOp
      if ops'.isEmpty then .ok (.done (.zero r c))
      else do
        let op ← mkCombined ops'
        .ok (.again op)
    else match flattenCombined ops with
      | some ops' => do
        let op ← mkCombined ops'
        .ok (.again op)
      | none => .ok (.done (.combined ops r c))
  | .diagonal h d s => .ok (.done (simplifyDiagonal dom h d s))
  | op => .ok (.done op)

/-! every further step works on a smaller expression -/

omit [Field R] [LinearOrder R] in
theorem nodesAll_eq (ops : List (Op S I R)) : nodesAll ops = (ops.map Op.nodes).sum := by
  induction ops with
  | nil => rw [nodesAll]; rfl
  | cons a t ih => rw [nodesAll, ih]; simp

omit [Field R] [LinearOrder R] in
theorem nodes_composed (ops : List (Op S I R)) (r c : S) :
    (Op.composed ops r c).nodes = 1 + (ops.map Op.nodes).sum := by
  rw [Op.nodes, nodesAll_eq]

omit [Field R] [LinearOrder R] in
theorem nodes_combined (ops : List (Op S I R)) (r c : S) :
    (Op.combined ops r c).nodes = 1 + (ops.map Op.nodes).sum := by
  rw [Op.nodes, nodesAll_eq]

omit [Field R] [LinearOrder R] in
theorem nodes_pos (op : Op S I R) : 0 < op.nodes := by
  cases op <;> simp [Op.nodes]

omit [Field R] [LinearOrder R] in
theorem mkComposed_ok [DecidableEq S] {ops : List (Op S I R)} {op : Op S I R}
    (h : mkComposed ops = .ok op) : ∃ r c, op = .composed ops r c := by
  unfold mkComposed at h
  split at h
  · split at h
    · cases h; exact ⟨_, _, rfl⟩
    · cases h
  · cases h

omit [Field R] [LinearOrder R] in
theorem mkCombined_ok [DecidableEq S] {ops : List (Op S I R)} {op : Op S I R}
    (h : mkCombined ops = .ok op) : ∃ r c, op = .combined ops r c := by
  unfold mkCombined at h
  split at h
  · cases h
  · split at h
    · cases h; exact ⟨_, _, rfl⟩
    · cases h

omit [Field R] [LinearOrder R] in
theorem flattenComposed_nodes {ops ops' : List (Op S I R)} (h : flattenComposed ops = some ops') :
    (ops'.map Op.nodes).sum < (ops.map Op.nodes).sum := by
  induction ops generalizing ops' with
  | nil => cases h
  | cons a t ih =>
    unfold flattenComposed at h
    split at h
    · cases h
    · rename_i inner r c t' heq
      cases heq
      cases h
      simp only [List.map_append, List.sum_append, List.map_cons, List.sum_cons, nodes_composed]
      omega
    · rename_i a' t' _ heq
      cases heq
      cases hf : flattenComposed t with
      | none => rw [hf] at h; cases h
      | some u =>
        rw [hf] at h
        cases h
        have := ih hf
        simp only [List.map_cons, List.sum_cons]
        omega

omit [Field R] [LinearOrder R] in
theorem flattenCombined_nodes {ops ops' : List (Op S I R)} (h : flattenCombined ops = some ops') :
    (ops'.map Op.nodes).sum < (ops.map Op.nodes).sum := by
  induction ops generalizing ops' with
  | nil => cases h
  | cons a t ih =>
    unfold flattenCombined at h
    split at h
    · cases h
    · rename_i inner r c t' heq
      cases heq
      cases h
      simp only [List.map_append, List.sum_append, List.map_cons, List.sum_cons, nodes_combined]
      omega
    · rename_i a' t' _ heq
      cases heq
      cases hf : flattenCombined t with
      | none => rw [hf] at h; cases h
      | some u =>
        rw [hf] at h
        cases h
        have := ih hf
        simp only [List.map_cons, List.sum_cons]
        omega

theorem simplifyDiagonal_nodes (dom : S → Finset I) (b : Bool) (d : I → R) (s : S) :
    (simplifyDiagonal dom b d s).nodes = 1 := by
  unfold simplifyDiagonal
  split
  · simp [Op.nodes]
  · split <;> simp [Op.nodes]

theorem combineDiagonals_nodes (dom : S → Finset I) {ops ops' : List (Op S I R)}
    (h : combineDiagonals dom ops = some ops') :
    (ops'.map Op.nodes).sum < (ops.map Op.nodes).sum := by
  induction ops generalizing ops' with
  | nil => cases h
  | cons a t ih =>
    unfold combineDiagonals at h
    split at h
    · rename_i heq
      cases heq
      cases h
      simp only [List.map_cons, List.sum_cons, simplifyDiagonal_nodes, Op.nodes]
      omega
    · rename_i a' t' _ heq
      cases heq
      cases hf : combineDiagonals dom t with
      | none => rw [hf] at h; cases h
      | some u =>
        rw [hf] at h
        cases h
        have := ih hf
        simp only [List.map_cons, List.sum_cons]
        omega
    · rename_i heq; cases heq

omit [Field R] [LinearOrder R] in
theorem filter_nodes (p : Op S I R → Bool) {ops : List (Op S I R)} (h : ∃ o ∈ ops, p o = true) :
    ((ops.filter fun o => !p o).map Op.nodes).sum < (ops.map Op.nodes).sum := by
  have le : ∀ l : List (Op S I R), ((l.filter fun o => !p o).map Op.nodes).sum ≤
      (l.map Op.nodes).sum := by
    intro l
    induction l with
    | nil => simp
    | cons a t ih =>
      rw [List.filter_cons]
      split
      · simp only [List.map_cons, List.sum_cons]; omega
      · simp only [List.map_cons, List.sum_cons]; omega
  induction ops with
  | nil => obtain ⟨o, ho, _⟩ := h; cases ho
  | cons a t ih =>
    by_cases ha : p a = true
    · have := le t
      have := nodes_pos a
      simp only [List.filter_cons, ha, List.map_cons, List.sum_cons]
      simp only [Bool.not_true, Bool.false_eq_true, if_false]
      omega
    · obtain ⟨o, ho, hp⟩ := h
      have ht : ∃ o ∈ t, p o = true := by
        rcases List.mem_cons.mp ho with rfl | ho
        · exact absurd hp ha
        · exact ⟨o, ho, hp⟩
      have := ih ht
      simp only [List.filter_cons, ha, List.map_cons, List.sum_cons]
      simp only [Bool.not_false, if_true, List.map_cons, List.sum_cons]
      omega

theorem simplifyStep_nodes [DecidableEq S] (dom : S → Finset I) {op op' : Op S I R}
    (h : simplifyStep dom op = .ok (.again op')) : op'.nodes < op.nodes := by
  have mk : ∀ {ops ops' : List (Op S I R)} {r c : S},
      (ops'.map Op.nodes).sum < (ops.map Op.nodes).sum →
      (do let op ← mkComposed ops'; (.ok (.again op) : Except PyErr (SimplifyStep S I R))) =
        .ok (.again op') → op'.nodes < (Op.composed ops r c).nodes := by
    intro ops ops' r c hlt hm
    cases hk : mkComposed ops' with
    | error e => rw [hk] at hm; cases hm
    | ok o =>
      rw [hk] at hm
      cases hm
      obtain ⟨r', c', rfl⟩ := mkComposed_ok hk
      rw [nodes_composed, nodes_composed]; omega
  have mk' : ∀ {ops ops' : List (Op S I R)} {r c : S},
      (ops'.map Op.nodes).sum < (ops.map Op.nodes).sum →
      (do let op ← mkCombined ops'; (.ok (.again op) : Except PyErr (SimplifyStep S I R))) =
        .ok (.again op') → op'.nodes < (Op.combined ops r c).nodes := by
    intro ops ops' r c hlt hm
    cases hk : mkCombined ops' with
    | error e => rw [hk] at hm; cases hm
    | ok o =>
      rw [hk] at hm
      cases hm
      obtain ⟨r', c', rfl⟩ := mkCombined_ok hk
      rw [nodes_combined, nodes_combined]; omega
  unfold simplifyStep at h
  split at h
  · cases h; rw [nodes_composed]; simp
  · split at h
    · cases h
    · split at h
      · rename_i hf; exact mk (flattenComposed_nodes hf) h
      · split at h
        · rename_i hany
          simp only [] at h
          split at h
          · cases h
          · exact mk (filter_nodes Op.isIdentity (by simpa using hany)) h
        · split at h
          · rename_i hf; exact mk (combineDiagonals_nodes dom hf) h
          · cases h
  · cases h; rw [nodes_combined]; simp
  · split at h
    · rename_i hany
      simp only [] at h
      split at h
      · cases h
      · exact mk' (filter_nodes Op.isZeroOp (by simpa using hany)) h
    · split at h
      · rename_i hf; exact mk' (flattenCombined_nodes hf) h
      · cases h
  · cases h
  · cases h

/-- `op.simplify()` -/
def Op.simplify [DecidableEq S] (dom : S → Finset I) (op : Op S I R) : Except PyErr (Op S I R) :=
  match _h : simplifyStep dom op with
  | .error e => .error e
  | .ok (.done op') => .ok op'
  | .ok (.again op') => op'.simplify dom
termination_by op.nodes
decreasing_by exact simplifyStep_nodes dom _h

/-- `a * b` for two operators, lines 48-50 -/
def Op.mul [DecidableEq S] (dom : S → Finset I) (a b : Op S I R) : Except PyErr (Op S I R) := do
  let op ← mkComposed [a, b]
  op.simplify dom

/-- `a + b`, lines 45-46 -/
def Op.add [DecidableEq S] (dom : S → Finset I) (a b : Op S I R) : Except PyErr (Op S I R) := do
  let op ← mkCombined [a, b]
  op.simplify dom

end

end

end Verif.Model
