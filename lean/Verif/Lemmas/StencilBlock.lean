/-
Block operators: specification and lemmas on sums and products of operators.
-/
import Verif.Model.StencilBlock
import Verif.Props.StencilOp
import Verif.Props.Stencil

set_option linter.unusedSectionVars false

namespace Verif.Spec

open Verif.Model

section

variable {S I R : Type}

/-- the elementary functions are linear: `left` and `right` are adjoint, and the transpose of an
elementary function is one -/
structure LinearLeaves [CommRing R] (dom : S → Finset I) (T : Op S I R → Prop) : Prop
    extends FnLeaves dom T where
  adjoint : ∀ {tag l f r c}, T (.fn tag l f r c) → AdjointLeaf dom (.fn tag l f r c)
  transpose : ∀ {tag l f r c}, T (.fn tag l f r c) → T (Op.fn tag l f r c).transpose

/-- a block operator with row shapes `rs` and column shapes `cs`, the entries of which are
constructed from the functions `T`, with products of at most `k` diagonal entries -/
structure Conforming [DecidableEq S] (T : Op S I R → Prop) (good : Nat → R → Prop) (k : Nat)
    (m n : Nat) (rs cs : Nat → S) (A : BlockOp S I R) : Prop where
  rows : A.rows = m
  cols : A.cols = n
  shape : ∀ i < m, ∀ j < n, (A.block i j).rows = rs i ∧ (A.block i j).cols = cs j
  constructed : ∀ i < m, ∀ j < n, Constructed (A.block i j)
  graded : ∀ i < m, ∀ j < n, Graded T good k (A.block i j)

/-- a block vector with the given shapes -/
structure BlockVector [Zero R] (dom : S → Finset I) (n : Nat) (cs : Nat → S) (x : BlockArr S I R) :
    Prop where
  size : x.size = n
  shape : ∀ j < n, (x.block j).shape = cs j
  valid : ∀ j < n, ValidArr dom (x.block j)

/-- the inner product of block vectors -/
def blockInner [CommRing R] (dom : S → Finset I) (n : Nat) (cs : Nat → S) (x y : BlockArr S I R) :
    R :=
  ∑ j ∈ Finset.range n, inner dom (cs j) (x.block j) (y.block j)

end

end Verif.Spec

namespace Verif.Props

open Verif.Model Verif.Spec

theorem collect_ok {α : Type} {n : Nat} {dflt : α} {f : Nat → Except PyErr α} {g : Nat → α}
    (h : ∀ i < n, f i = .ok (g i)) :
    ∃ r, collect n dflt f = .ok r ∧ ∀ i < n, r i = g i := by
  have hm : (List.range n).mapM f = .ok ((List.range n).map g) :=
    mapM_ok f g _ fun i hi => h i (List.mem_range.mp hi)
  refine ⟨_, by rw [collect, hm]; rfl, fun i hi => ?_⟩
  simp [hi]

theorem collect_exists {α : Type} {n : Nat} {dflt : α} {f : Nat → Except PyErr α}
    {P : Nat → α → Prop} (h : ∀ i < n, ∃ a, f i = .ok a ∧ P i a) :
    ∃ r, collect n dflt f = .ok r ∧ ∀ i < n, P i (r i) := by
  classical
  obtain ⟨r, h1, h2⟩ := collect_ok (dflt := dflt) (f := f)
    (g := fun i => if hi : i < n then (h i hi).choose else dflt) (n := n) (fun i hi => by
      simp only [hi, dite_true]
      exact (h i hi).choose_spec.1)
  refine ⟨r, h1, fun i hi => ?_⟩
  rw [h2 i hi]
  simp only [hi, dite_true]
  exact (h i hi).choose_spec.2

section

variable {S I R : Type} [DecidableEq S] [Field R] [LinearOrder R] [IsStrictOrderedRing R]
  {dom : S → Finset I} {T : Op S I R → Prop} {good : Nat → R → Prop} {K : Nat}

/-- the entries of the result of applying an operator -/
def ev (o : Op S I R) (x : Arr S I R) : I → R :=
  match o.call x with
  | .ok y => y.val
  | .error _ => fun _ => 0

theorem ev_of_call {o : Op S I R} {x y : Arr S I R} (h : o.call x = .ok y) : ev o x = y.val := by
  rw [ev, h]

theorem ev_spec (hT : FnLeaves dom T) {o : Op S I R} (h : Constructed o) (hl : Leaves (FnIn T) o)
    {x : Arr S I R} (hx : x.shape = o.cols) (hv : ValidArr dom x) :
    o.call x = .ok ⟨o.rows, ev o x⟩ ∧ ValidArr dom ⟨o.rows, ev o x⟩ := by
  obtain ⟨y, h1, h2, h3⟩ := (works_of_constructed hT h hl).2.1 x hx hv
  rw [ev_of_call h1]
  obtain ⟨s, v⟩ := y
  have h2 : s = o.rows := h2
  subst h2
  exact ⟨h1, h3⟩

theorem ev_zeros (hT : FnLeaves dom T) {o : Op S I R} (h : Constructed o) (hl : Leaves (FnIn T) o) :
    ev o (Arr.zeros o.cols) = fun _ => 0 :=
  ev_of_call (works_of_constructed hT h hl).2.2

theorem ev_zeroOp {o : Op S I R} (h : o.isZeroOp = true) (x : Arr S I R) : ev o x = fun _ => 0 := by
  cases o with
  | zero r c =>
    rw [ev]
    by_cases hx : x.shape = c
    · rw [call_zero hx]; rfl
    · rw [call_bad (op := .zero r c) hx]
  | _ => cases h

theorem leaves_imp {P Q : Op S I R → Prop} (h : ∀ o, P o → Q o) {op : Op S I R} (hl : Leaves P op) :
    Leaves Q op := by
  induction hl with
  | fn h' => exact .fn (h _ h')
  | diagonal h' => exact .diagonal (h _ h')
  | identity => exact .identity
  | zero => exact .zero
  | composed _ ih => exact .composed ih
  | combined _ ih => exact .combined ih

theorem leaves_adjoint (hT : LinearLeaves dom T) {o : Op S I R} (hl : Leaves (FnIn T) o) :
    Leaves (AdjointLeaf dom) o :=
  leaves_imp (fun o h => by
    cases o with
    | fn => exact hT.adjoint h
    | _ => trivial) hl

/-- applying an operator is additive -/
theorem ev_add (hT : LinearLeaves dom T) {o : Op S I R} (h : Constructed o)
    (hl : Leaves (FnIn T) o) {u v : I → R} (hu : ValidArr dom (⟨o.cols, u⟩ : Arr S I R))
    (hv : ValidArr dom (⟨o.cols, v⟩ : Arr S I R)) :
    ev o ⟨o.cols, fun i => u i + v i⟩ = fun i => ev o ⟨o.cols, u⟩ i + ev o ⟨o.cols, v⟩ i := by
  classical
  have huv : ValidArr dom (⟨o.cols, fun i => u i + v i⟩ : Arr S I R) := fun i hi => by
    have h1 := hu i hi
    have h2 := hv i hi
    simp only at h1 h2 ⊢
    rw [h1, h2, add_zero]
  obtain ⟨c1, w1⟩ := ev_spec hT.toFnLeaves h hl (x := ⟨o.cols, u⟩) rfl hu
  obtain ⟨c2, w2⟩ := ev_spec hT.toFnLeaves h hl (x := ⟨o.cols, v⟩) rfl hv
  obtain ⟨c3, w3⟩ := ev_spec hT.toFnLeaves h hl (x := ⟨o.cols, fun i => u i + v i⟩) rfl huv
  funext i
  by_cases hi : i ∈ dom o.rows
  · have key : ∀ w : I → R, ∀ aw : I → R, o.call ⟨o.cols, w⟩ = .ok ⟨o.rows, aw⟩ →
        ∃ aty : Arr S I R, o.transpose.call ⟨o.rows, fun j => if j = i then 1 else 0⟩ = .ok aty ∧
          aw i = inner dom o.cols ⟨o.cols, w⟩ aty := by
      intro w aw hw
      obtain ⟨ax, aty, k1, k2, _, _, k5⟩ := C33_adjoint o h (leaves_adjoint hT hl) ⟨o.cols, w⟩
        ⟨o.rows, fun j => if j = i then 1 else 0⟩ rfl rfl
      rw [hw] at k1
      cases k1
      refine ⟨aty, k2, ?_⟩
      rw [← k5]
      simp [inner, hi]
    obtain ⟨z1, d1, e1⟩ := key _ _ c1
    obtain ⟨z2, d2, e2⟩ := key _ _ c2
    obtain ⟨z3, d3, e3⟩ := key _ _ c3
    rw [d1] at d2 d3
    cases d2
    cases d3
    rw [e1, e2, e3]
    simp only [inner, add_mul, Finset.sum_add_distrib]
  · have a1 := w1 i hi
    have a2 := w2 i hi
    have a3 := w3 i hi
    simp only at a1 a2 a3
    rw [a1, a2, a3, add_zero]

theorem valid_sum {s : S} {n : Nat} {v : Nat → I → R}
    (hv : ∀ j < n, ValidArr dom (⟨s, v j⟩ : Arr S I R)) :
    ValidArr dom (⟨s, fun i => ∑ j ∈ Finset.range n, v j i⟩ : Arr S I R) := fun i hi =>
  Finset.sum_eq_zero fun j hj => hv j (Finset.mem_range.mp hj) i hi

theorem ev_sum (hT : LinearLeaves dom T) {o : Op S I R} (h : Constructed o)
    (hl : Leaves (FnIn T) o) (n : Nat) {v : Nat → I → R}
    (hv : ∀ j < n, ValidArr dom (⟨o.cols, v j⟩ : Arr S I R)) :
    ev o ⟨o.cols, fun i => ∑ j ∈ Finset.range n, v j i⟩ =
      fun i => ∑ j ∈ Finset.range n, ev o ⟨o.cols, v j⟩ i := by
  induction n with
  | zero =>
    simp only [Finset.range_zero, Finset.sum_empty]
    exact ev_zeros hT.toFnLeaves h hl
  | succ n ih =>
    have ih := ih fun j hj => hv j (by omega)
    simp only [Finset.sum_range_succ]
    rw [ev_add hT h hl (valid_sum fun j hj => hv j (by omega)) (hv n (by omega)), ih]

/-- the product of two operators -/
theorem mul_ok (hT : FnLeaves dom T) (hG : GradedEntries good K) {j k : Nat} (hk : j + k ≤ K)
    {a b : Op S I R} (ha : Constructed a) (hb : Constructed b) (ga : Graded T good j a)
    (gb : Graded T good k b) (hab : a.cols = b.rows) :
    ∃ p, a.mul dom b = .ok p ∧ p.rows = a.rows ∧ p.cols = b.cols ∧ Constructed p ∧
      Graded T good (j + k) p ∧
      ∀ x : Arr S I R, x.shape = b.cols → ValidArr dom x → ev p x = ev a ⟨b.rows, ev b x⟩ := by
  have hp : Path a.rows b.cols [a, b] := .cons rfl (by rw [hab]; exact .cons rfl (.nil _))
  have hm : mkComposed [a, b] = .ok (.composed [a, b] a.rows b.cols) :=
    mkComposed_iff.mpr ⟨_, _, by simp, hp, rfl⟩
  have hc : ∀ o ∈ [a, b], Constructed o := by
    intro o ho
    rcases List.mem_cons.mp ho with rfl | ho
    · exact ha
    · rw [List.mem_singleton.mp ho]; exact hb
  have hw : ∀ o ∈ [a, b], Works dom o := by
    intro o ho
    rcases List.mem_cons.mp ho with rfl | ho
    · exact works_of_constructed hT ha (graded_leaves ga)
    · rw [List.mem_singleton.mp ho]; exact works_of_constructed hT hb (graded_leaves gb)
  have hg : Graded T good (j + k) (.composed [a, b] a.rows b.cols) :=
    .composed (.cons ga (gradedChain_cons.mpr ⟨k, 0, rfl, gb, .nil⟩))
  obtain ⟨p, h1, h2, h3, h4, h5, h6⟩ := C32_simplify_graded hT hG hk _
    (constructed_composed.mpr ⟨by simp, hp, hc⟩) hg
  refine ⟨p, by rw [Op.mul, hm]; exact h1, h2, h3, h4, h5, fun x hx hv => ?_⟩
  rw [ev, h6 x hv, call_composed hp hw x hv, if_pos hx, callChain, callChain, callChain]
  obtain ⟨c1, w1⟩ := ev_spec hT hb (graded_leaves gb) hx hv
  show (match (do let y ← b.call x; a.call y) with
    | .ok y => y.val
    | .error _ => fun _ => 0) = _
  rw [c1]
  rfl

/-- the sum of two operators -/
theorem add_ok (hT : FnLeaves dom T) (hG : GradedEntries good K) {k : Nat} (hk : k ≤ K)
    {a b : Op S I R} (ha : Constructed a) (hb : Constructed b) (ga : Graded T good k a)
    (gb : Graded T good k b) (hr : b.rows = a.rows) (hcl : b.cols = a.cols) :
    ∃ p, a.add dom b = .ok p ∧ p.rows = a.rows ∧ p.cols = a.cols ∧ Constructed p ∧
      Graded T good k p ∧
      ∀ x : Arr S I R, x.shape = a.cols → ValidArr dom x → ev p x = fun i => ev a x i + ev b x i := by
  have hab : ∀ o ∈ [a, b], o = a ∨ o = b := by simp
  have hp : ∀ o ∈ [a, b], o.rows = a.rows ∧ o.cols = a.cols := by
    intro o ho
    rcases hab o ho with rfl | rfl
    · exact ⟨rfl, rfl⟩
    · exact ⟨hr, hcl⟩
  have hm : mkCombined [a, b] = .ok (.combined [a, b] a.rows a.cols) :=
    mkCombined_iff.mpr ⟨_, _, by simp, hp, rfl⟩
  have hc : ∀ o ∈ [a, b], Constructed o := by
    intro o ho
    rcases hab o ho with rfl | rfl
    · exact ha
    · exact hb
  have hg : ∀ o ∈ [a, b], Graded T good k o := by
    intro o ho
    rcases hab o ho with rfl | rfl
    · exact ga
    · exact gb
  obtain ⟨p, h1, h2, h3, h4, h5, h6⟩ := C32_simplify_graded hT hG hk _
    (constructed_combined.mpr ⟨by simp, hp, hc⟩) (.combined hg)
  refine ⟨p, by rw [Op.add, hm]; exact h1, h2, h3, h4, h5, fun x hx hv => ?_⟩
  rw [ev, h6 x hv, call_combined (by simp) hp
    (fun o ho => works_of_constructed hT (hc o ho) (graded_leaves (hg o ho))) x hv, if_pos hx]
  obtain ⟨c1, _⟩ := ev_spec hT ha (graded_leaves ga) hx hv
  obtain ⟨c2, _⟩ := ev_spec hT hb (graded_leaves gb) (by rw [hcl]; exact hx) hv
  rw [callSum, c1]
  show (match callSum (some ⟨a.rows, ev a x⟩) [b] x with
    | .ok y => y.val
    | .error _ => fun _ => 0) = _
  rw [callSum, c2]
  show (match (do
      let z ← Arr.add (⟨a.rows, ev a x⟩ : Arr S I R) ⟨b.rows, ev b x⟩
      callSum (some z) [] x) with
    | .ok y => y.val
    | .error _ => fun _ => 0) = _
  rw [Arr.add, if_pos hr.symm]
  show (match callSum (some _) [] x with
    | .ok y => y.val
    | .error _ => fun _ => 0) = _
  rw [callSum]

end

end Verif.Props
