/-
Lemmas on the operators that `Diffusion.formulate` assembles: products with a diagonal operator and
block operators with two rows and columns.
-/
import Verif.Model.Diffusion
import Verif.Spec.Diffusion
import Verif.Props.StencilSystem
import Verif.Props.StencilCoarsen

set_option linter.unusedSectionVars false

namespace Verif.Props

open Verif.Model Verif.Spec

section

variable {S I R : Type} [DecidableEq S] [Field R] [LinearOrder R] [IsStrictOrderedRing R]
  {dom : S → Finset I}

/-- the operator maps the arrays of shape `c` to those of shape `r` by `g` -/
def Acts (dom : S → Finset I) (op : Op S I R) (r c : S) (g : Arr S I R → I → R) : Prop :=
  op.rows = r ∧ op.cols = c ∧
    ∀ x : Arr S I R, x.shape = c → ValidArr dom x → op.call x = .ok ⟨r, g x⟩

theorem allclose_zero (S' : Finset I) (d : I → R) :
    allclose S' d 0 = true ↔ ∀ p ∈ S', |d p| ≤ 1 / 10 ^ 8 := by
  unfold allclose
  simp

theorem allclose_one (S' : Finset I) (d : I → R) :
    allclose S' d 1 = true ↔ ∀ p ∈ S', |d p - 1| ≤ 1 / 10 ^ 8 + 1 / 10 ^ 5 := by
  unfold allclose
  simp

/-- the three outcomes of `simplifyDiagonal` -/
theorem simplifyDiagonal_cases {s : S} {d : I → R}
    (h : Faithful (dom s) d) (b : Bool) :
    (simplifyDiagonal dom b d s = .zero s s ∧ ∀ p ∈ dom s, d p = 0) ∨
    (simplifyDiagonal dom b d s = .identity s ∧ ∀ p ∈ dom s, d p = 1) ∨
    (simplifyDiagonal dom b d s = .diagonal b d s) := by
  unfold simplifyDiagonal
  split
  · rename_i h0
    exact Or.inl ⟨rfl, h.1 ((allclose_zero _ _).mp h0)⟩
  · split
    · rename_i h1
      exact Or.inr (Or.inl ⟨rfl, h.2 ((allclose_one _ _).mp h1)⟩)
    · exact Or.inr (Or.inr rfl)

theorem simplifyDiagonal_simplify (b : Bool) (d : I → R) (s : S) :
    (simplifyDiagonal dom b d s).simplify dom = .ok (simplifyDiagonal dom b d s) := by
  have key : ∀ o : Op S I R, o = simplifyDiagonal dom b d s →
      o.simplify dom = .ok (simplifyDiagonal dom b d s) := by
    intro o ho
    apply simplify_done
    have ho' := ho
    unfold simplifyDiagonal at ho
    split at ho
    · subst ho; rw [← ho']; rfl
    · split at ho
      · subst ho; rw [← ho']; rfl
      · subst ho; rfl
  exact key _ rfl

/-- the product with the entries of a diagonal, of a valid array -/
theorem mul_ones {s : S} {d : I → R} (h : ∀ p ∈ dom s, d p = 1) {x : Arr S I R} (hs : x.shape = s)
    (hx : ValidArr dom x) : x = ⟨s, fun p => x.val p * d p⟩ := by
  obtain ⟨xs, v⟩ := x
  have hs : xs = s := hs
  subst hs
  congr 1
  funext p
  by_cases hp : p ∈ dom xs
  · simp only [h p hp, mul_one]
  · have := hx p hp
    simp only at this
    simp only [this, zero_mul]

theorem mul_zeros {s : S} {d : I → R} (h : ∀ p ∈ dom s, d p = 0) {x : Arr S I R} (hs : x.shape = s)
    (hx : ValidArr dom x) : (fun p => x.val p * d p) = fun _ => 0 := by
  funext p
  by_cases hp : p ∈ dom s
  · simp only [h p hp, mul_zero]
  · rw [hx p (by rw [hs]; exact hp), zero_mul]

/-- the operator that `D * E` returns -/
theorem mul_diagonals_eq (b b' : Bool) (d e : I → R) (s : S) :
    (Op.diagonal b d s).mul dom (.diagonal b' e s) =
      .ok (simplifyDiagonal dom false (fun p => d p * e p) s) := by
  rw [Op.mul]
  have h1 : mkComposed [Op.diagonal b d s, Op.diagonal b' e s] =
      .ok (.composed [Op.diagonal b d s, Op.diagonal b' e s] s s) := by
    simp [mkComposed, chainOk, Op.rows, Op.cols]
  rw [h1]
  have h2 : mkComposed [simplifyDiagonal dom false (fun p => d p * e p) s] =
      .ok (.composed [simplifyDiagonal dom false (fun p => d p * e p) s]
        (simplifyDiagonal dom false (fun p => d p * e p) s).rows
        (simplifyDiagonal dom false (fun p => d p * e p) s).cols) := by
    simp [mkComposed, chainOk]
  show (Op.composed [Op.diagonal b d s, Op.diagonal b' e s] s s).simplify dom = _
  rw [simplify_again (op' := .composed [simplifyDiagonal dom false (fun p => d p * e p) s]
        (simplifyDiagonal dom false (fun p => d p * e p) s).rows
        (simplifyDiagonal dom false (fun p => d p * e p) s).cols),
      simplify_again (op' := simplifyDiagonal dom false (fun p => d p * e p) s) rfl,
    simplifyDiagonal_simplify]
  simp [simplifyStep, composedIsZero, anyAdjacent, Op.isZeroOp, Op.isDerivative,
    Op.isDualDerivative, flattenComposed, Op.isIdentity, combineDiagonals, h2, bind, Except.bind]

/-- `D * E` for two diagonal operators -/
theorem mul_diagonals (b b' : Bool) (d e : I → R) (s : S)
    (h : Faithful (dom s) fun p => d p * e p) :
    ∃ op, (Op.diagonal b d s).mul dom (.diagonal b' e s) = .ok op ∧
      Acts dom op s s fun x p => x.val p * (d p * e p) := by
  refine ⟨simplifyDiagonal dom false (fun p => d p * e p) s, mul_diagonals_eq b b' d e s, ?_⟩
  · rcases simplifyDiagonal_cases h false with ⟨e1, e2⟩ | ⟨e1, e2⟩ | e1
    · rw [e1]
      refine ⟨rfl, rfl, fun x hs hx => ?_⟩
      beta_reduce
      rw [mul_zeros e2 hs hx]
      simp [Op.call, callFn, hs, Arr.zeros]
    · rw [e1]
      refine ⟨rfl, rfl, fun x hs hx => ?_⟩
      beta_reduce
      rw [← mul_ones e2 hs hx]
      simp [Op.call, callFn, hs]
    · rw [e1]
      refine ⟨rfl, rfl, fun x hs hx => ?_⟩
      simp [Op.call, callFn, hs]

/-- `D * (E * f)` -/
theorem mul_diagonal_fn (b b' : Bool) (d e : I → R) {s c : S} (tag : OpTag)
    (l f : Arr S I R → Arr S I R) (h : Faithful (dom s) fun p => d p * e p)
    (hf : ∀ x, x.shape = c → (f x).shape = s ∧ ValidArr dom (f x)) :
    ∃ op, (Op.diagonal b d s).mul dom (.composed [.diagonal b' e s, .fn tag l f s c] s c) = .ok op ∧
      Acts dom op s c fun x p => (f x).val p * (d p * e p) := by
  have h1 : mkComposed [Op.diagonal b d s, .composed [.diagonal b' e s, .fn tag l f s c] s c] =
      .ok (.composed [Op.diagonal b d s, .composed [.diagonal b' e s, .fn tag l f s c] s c] s c) := by
    simp [mkComposed, chainOk, Op.rows, Op.cols]
  have h2 : mkComposed [Op.diagonal b d s, .diagonal b' e s, .fn tag l f s c] =
      .ok (.composed [Op.diagonal b d s, .diagonal b' e s, .fn tag l f s c] s c) := by
    simp [mkComposed, chainOk, Op.rows, Op.cols]
  have hr : (simplifyDiagonal dom false (fun p => d p * e p) s).rows = s := by
    rcases simplifyDiagonal_cases h false with ⟨e1, _⟩ | ⟨e1, _⟩ | e1 <;> rw [e1] <;> rfl
  have hc : (simplifyDiagonal dom false (fun p => d p * e p) s).cols = s := by
    rcases simplifyDiagonal_cases h false with ⟨e1, _⟩ | ⟨e1, _⟩ | e1 <;> rw [e1] <;> rfl
  have h3 : mkComposed [simplifyDiagonal dom false (fun p => d p * e p) s, .fn tag l f s c] =
      .ok (.composed [simplifyDiagonal dom false (fun p => d p * e p) s, .fn tag l f s c] s c) := by
    simp only [mkComposed, chainOk, Bool.and_true, List.head?_cons, List.getLast?_cons_cons,
      List.getLast?_singleton, hr, hc]
    simp [Op.rows, Op.cols]
  have hmul : (Op.diagonal b d s).mul dom (.composed [.diagonal b' e s, .fn tag l f s c] s c) =
      (Op.composed [simplifyDiagonal dom false (fun p => d p * e p) s, .fn tag l f s c] s c).simplify
        dom := by
    rw [Op.mul, h1]
    show (Op.composed [Op.diagonal b d s, .composed [.diagonal b' e s, .fn tag l f s c] s c]
      s c).simplify dom = _
    rw [simplify_again (op' := .composed [Op.diagonal b d s, .diagonal b' e s, .fn tag l f s c] s c),
      simplify_again]
    · simp [simplifyStep, composedIsZero, anyAdjacent, Op.isZeroOp, Op.isDerivative,
        Op.isDualDerivative, flattenComposed, Op.isIdentity, combineDiagonals, h3, bind, Except.bind]
    · simp [simplifyStep, composedIsZero, anyAdjacent, Op.isZeroOp, Op.isDerivative,
        Op.isDualDerivative, flattenComposed, h2, bind, Except.bind]
  rw [hmul]
  rcases simplifyDiagonal_cases h false with ⟨e1, e2⟩ | ⟨e1, e2⟩ | e1
  · rw [e1]
    refine ⟨_, simplify_done (op' := .zero s c) (by
      simp [simplifyStep, composedIsZero, Op.isZeroOp]), rfl, rfl, fun x hs hx => ?_⟩
    beta_reduce
    rw [mul_zeros e2 (hf x hs).1 (hf x hs).2]
    simp [Op.call, callFn, hs, Arr.zeros]
  · rw [e1]
    refine ⟨.fn tag l f s c, ?_, rfl, rfl, fun x hs hx => ?_⟩
    · rw [simplify_again (op' := .composed [.fn tag l f s c] s c),
        simplify_again (op' := .fn tag l f s c) rfl]
      · exact simplify_done rfl
      · simp [simplifyStep, composedIsZero, anyAdjacent, Op.isZeroOp, Op.isDerivative,
          Op.isDualDerivative, flattenComposed, Op.isIdentity, mkComposed, chainOk, Op.rows, Op.cols,
          bind, Except.bind]
    · beta_reduce
      rw [← mul_ones e2 (hf x hs).1 (hf x hs).2]
      simp [Op.call, callFn, hs, (hf x hs).1]
  · rw [e1]
    refine ⟨.composed [.diagonal false (fun p => d p * e p) s, .fn tag l f s c] s c,
      simplify_done ?_, rfl, rfl, fun x hs hx => ?_⟩
    · simp [simplifyStep, composedIsZero, anyAdjacent, Op.isZeroOp, Op.isDerivative,
        Op.isDualDerivative, flattenComposed, Op.isIdentity, combineDiagonals]
    · simp [Op.call, callChain, callFn, hs, (hf x hs).1, bind, Except.bind]

/-- `(f * D) * E` -/
theorem mul_fn_diagonal (b b' : Bool) (d e : I → R) {s r : S} (tag : OpTag)
    (l f : Arr S I R → Arr S I R) (h : Faithful (dom s) fun p => d p * e p)
    (hf : ∀ x, x.shape = s → (f x).shape = r)
    (h0 : f ⟨s, fun _ => 0⟩ = ⟨r, fun _ => 0⟩) :
    ∃ op, (Op.composed [.fn tag l f r s, .diagonal b d s] r s).mul dom (.diagonal b' e s) = .ok op ∧
      Acts dom op r s fun x => (f ⟨s, fun p => x.val p * (d p * e p)⟩).val := by
  have h1 : mkComposed [.composed [.fn tag l f r s, .diagonal b d s] r s, .diagonal b' e s] =
      .ok (.composed [.composed [.fn tag l f r s, .diagonal b d s] r s, .diagonal b' e s] r s) := by
    simp [mkComposed, chainOk, Op.rows, Op.cols]
  have h2 : mkComposed [.fn tag l f r s, .diagonal b d s, .diagonal b' e s] =
      .ok (.composed [.fn tag l f r s, .diagonal b d s, .diagonal b' e s] r s) := by
    simp [mkComposed, chainOk, Op.rows, Op.cols]
  have hr : (simplifyDiagonal dom false (fun p => d p * e p) s).rows = s := by
    rcases simplifyDiagonal_cases h false with ⟨e1, _⟩ | ⟨e1, _⟩ | e1 <;> rw [e1] <;> rfl
  have hc : (simplifyDiagonal dom false (fun p => d p * e p) s).cols = s := by
    rcases simplifyDiagonal_cases h false with ⟨e1, _⟩ | ⟨e1, _⟩ | e1 <;> rw [e1] <;> rfl
  have h3 : mkComposed [.fn tag l f r s, simplifyDiagonal dom false (fun p => d p * e p) s] =
      .ok (.composed [.fn tag l f r s, simplifyDiagonal dom false (fun p => d p * e p) s] r s) := by
    simp only [mkComposed, chainOk, Bool.and_true, List.head?_cons, List.getLast?_cons_cons,
      List.getLast?_singleton, hr, hc]
    simp [Op.rows, Op.cols]
  have hmul : (Op.composed [.fn tag l f r s, .diagonal b d s] r s).mul dom (.diagonal b' e s) =
      (Op.composed [.fn tag l f r s, simplifyDiagonal dom false (fun p => d p * e p) s] r s).simplify
        dom := by
    rw [Op.mul, h1]
    show (Op.composed [.composed [.fn tag l f r s, .diagonal b d s] r s, .diagonal b' e s]
      r s).simplify dom = _
    rw [simplify_again (op' := .composed [.fn tag l f r s, .diagonal b d s, .diagonal b' e s] r s),
      simplify_again]
    · simp [simplifyStep, composedIsZero, anyAdjacent, Op.isZeroOp, Op.isDerivative,
        Op.isDualDerivative, flattenComposed, Op.isIdentity, combineDiagonals, h3, bind, Except.bind]
    · simp [simplifyStep, composedIsZero, anyAdjacent, Op.isZeroOp, Op.isDerivative,
        Op.isDualDerivative, flattenComposed, h2, bind, Except.bind]
  rw [hmul]
  rcases simplifyDiagonal_cases h false with ⟨e1, e2⟩ | ⟨e1, e2⟩ | e1
  · rw [e1]
    refine ⟨_, simplify_done (op' := .zero r s) (by
      simp [simplifyStep, composedIsZero, Op.isZeroOp]), rfl, rfl, fun x hs hx => ?_⟩
    beta_reduce
    rw [mul_zeros e2 hs hx, h0]
    simp [Op.call, callFn, hs, Arr.zeros]
  · rw [e1]
    refine ⟨.fn tag l f r s, ?_, rfl, rfl, fun x hs hx => ?_⟩
    · rw [simplify_again (op' := .composed [.fn tag l f r s] r s),
        simplify_again (op' := .fn tag l f r s) rfl]
      · exact simplify_done rfl
      · simp [simplifyStep, composedIsZero, anyAdjacent, Op.isZeroOp, Op.isDerivative,
          Op.isDualDerivative, flattenComposed, Op.isIdentity, mkComposed, chainOk, Op.rows, Op.cols,
          bind, Except.bind]
    · beta_reduce
      rw [← mul_ones e2 hs hx]
      have := hf x hs
      simp only [Op.call, callFn, hs, this, if_true]
      congr 1
      rw [← this]
  · rw [e1]
    refine ⟨.composed [.fn tag l f r s, .diagonal false (fun p => d p * e p) s] r s,
      simplify_done ?_, rfl, rfl, fun x hs hx => ?_⟩
    · simp [simplifyStep, composedIsZero, anyAdjacent, Op.isZeroOp, Op.isDerivative,
        Op.isDualDerivative, flattenComposed, Op.isIdentity, combineDiagonals]
    · have := hf ⟨s, fun p => x.val p * (d p * e p)⟩ rfl
      simp only [Op.call, callChain, callFn, hs, this, if_true, bind, Except.bind]
      congr 1
      rw [← this]

/-- one row of `A * x` for a block operator with two columns -/
theorem vecMul_two {A : BlockOp S I R} {rs cs : Nat → S} {g : Nat → Nat → Arr S I R → I → R}
    (hr : A.rows = 2) (hc : A.cols = 2)
    (h : ∀ i < 2, ∀ j < 2, Acts dom (A.block i j) (rs i) (cs j) (g i j))
    {x : BlockArr S I R} (hx : BlockVector dom 2 cs x) :
    ∃ y, A.vecMul x = .ok y ∧ y.size = 2 ∧
      ∀ i < 2, y.block i = ⟨rs i, fun p => g i 0 (x.block 0) p + g i 1 (x.block 1) p⟩ := by
  have hstep : ∀ i < 2, ∀ j < 2, ∀ v : I → R,
      (if (A.block i j).isZeroOp then .ok ⟨rs i, v⟩
        else if j < x.size then do
          let y ← (A.block i j).call (x.block j)
          Arr.add ⟨rs i, v⟩ y
        else .error .indexError : Except PyErr (Arr S I R)) =
      .ok ⟨rs i, fun p => v p + g i j (x.block j) p⟩ := by
    intro i hi j hj v
    obtain ⟨a1, a2, a3⟩ := h i hi j hj
    have hcall := a3 (x.block j) (hx.shape j hj) (hx.valid j hj)
    by_cases hz : (A.block i j).isZeroOp
    · rw [if_pos hz]
      have : g i j (x.block j) = fun _ => 0 := by
        cases ho : A.block i j with
        | zero r c =>
          rw [ho] at hcall a1 a2
          have a1 : r = rs i := a1
          have a2 : c = cs j := a2
          subst a1
          subst a2
          simp only [Op.call, callFn, hx.shape j hj, if_true, Arr.zeros, Except.ok.injEq,
            Arr.mk.injEq, true_and] at hcall
          exact hcall.symm
        | _ => rw [ho] at hz; simp [Op.isZeroOp] at hz
      rw [this]
      simp
    · rw [if_neg hz, if_pos (by rw [hx.size]; exact hj), hcall]
      simp [bind, Except.bind, Arr.add]
  have hrow : ∀ i < A.rows, (List.range A.cols).foldlM (fun acc j =>
        if (A.block i j).isZeroOp then .ok acc
        else if j < x.size then do
          let y ← (A.block i j).call (x.block j)
          acc.add y
        else .error .indexError) (Arr.zeros (A.block i 0).rows : Arr S I R) =
      (.ok ⟨rs i, fun p => g i 0 (x.block 0) p + g i 1 (x.block 1) p⟩ :
        Except PyErr (Arr S I R)) := by
    intro i hi
    rw [hr] at hi
    rw [hc, (h i hi 0 (by omega)).1]
    rw [show List.range 2 = [0, 1] from rfl, List.foldlM_cons, Arr.zeros, hstep i hi 0 (by omega)]
    simp only [bind, Except.bind, List.foldlM_cons, List.foldlM_nil]
    have := hstep i hi 1 (by omega) fun p => 0 + g i 0 (x.block 0) p
    simp only [bind, Except.bind] at this
    rw [this]
    simp [pure, Except.pure]
  obtain ⟨r, h1, h2⟩ := collect_ok (dflt := Arr.zeros (A.block 0 0).rows) hrow
  refine ⟨⟨A.rows, r⟩, ?_, hr, fun i hi => h2 i (by omega)⟩
  rw [BlockOp.vecMul, if_neg (by omega), h1]
  rfl

end

end Verif.Props
