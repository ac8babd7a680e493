/-
Specification of stencil operator expressions and lemmas on one step of `simplify`.
-/
import Verif.Model.StencilOp
import Mathlib.Algebra.BigOperators.Group.Finset.Basic
import Mathlib.Algebra.BigOperators.Ring.Finset
import Mathlib.Algebra.BigOperators.Group.Finset.Basic
import Mathlib.Algebra.Order.Ring.Rat
import Mathlib.Algebra.Order.Field.Rat
import Mathlib.Data.Fintype.Basic
import Mathlib.Data.Fintype.Pi
import Mathlib.Tactic.Ring
import Mathlib.Tactic.Linarith
import Mathlib.Tactic.Positivity

set_option linter.unusedSectionVars false

namespace Verif.Spec

open Verif.Model

section

variable {S I R : Type}

/-- an array has no entries outside of its shape -/
def ValidArr [Zero R] (dom : S → Finset I) (x : Arr S I R) : Prop :=
  ∀ i, i ∉ dom x.shape → x.val i = 0

/-- the operator objects that can be constructed: the constructors' assertions have held -/
inductive Constructed [DecidableEq S] : Op S I R → Prop
  | fn (tag left right r c) : Constructed (.fn tag left right r c)
  | diagonal (h d s) : Constructed (.diagonal h d s)
  | identity (s) : Constructed (.identity s)
  | zero (r c) : Constructed (.zero r c)
  | composed {ops : List (Op S I R)} {op : Op S I R} (h : ∀ o ∈ ops, Constructed o)
      (hm : mkComposed ops = .ok op) : Constructed op
  | combined {ops : List (Op S I R)} {op : Op S I R} (h : ∀ o ∈ ops, Constructed o)
      (hm : mkCombined ops = .ok op) : Constructed op

/-- all operators in an expression that are not built from others satisfy `T` -/
inductive Leaves (T : Op S I R → Prop) : Op S I R → Prop
  | fn {tag left right r c} (h : T (.fn tag left right r c)) : Leaves T (.fn tag left right r c)
  | diagonal {b d s} (h : T (.diagonal b d s)) : Leaves T (.diagonal b d s)
  | identity {s} : Leaves T (.identity s)
  | zero {r c} : Leaves T (.zero r c)
  | composed {ops r c} (h : ∀ o ∈ ops, Leaves T o) : Leaves T (.composed ops r c)
  | combined {ops r c} (h : ∀ o ∈ ops, Leaves T o) : Leaves T (.combined ops r c)

/-- What is asked of the elementary functions `T` for `simplify` to be exact: they return arrays of
the announced shape and map zero to zero; consecutive derivatives cancel. -/
structure FnLeaves [CommRing R] (dom : S → Finset I) (T : Op S I R → Prop) : Prop where
  shape : ∀ {tag l f r c}, T (.fn tag l f r c) → ∀ x : Arr S I R, x.shape = c → ValidArr dom x →
    (f x).shape = r ∧ ValidArr dom (f x)
  zeros : ∀ {tag l f r c}, T (.fn tag l f r c) → f (Arr.zeros c) = Arr.zeros r
  closed : ∀ {l l' f g a b c}, T (.fn .derivative l f a b) → T (.fn .derivative l' g b c) →
    ∀ x : Arr S I R, x.shape = c → ValidArr dom x → f (g x) = Arr.zeros a
  coclosed : ∀ {l l' f g a b c}, T (.fn .dualDerivative l f a b) →
    T (.fn .dualDerivative l' g b c) →
    ∀ x : Arr S I R, x.shape = c → ValidArr dom x → f (g x) = Arr.zeros a

/-- What is asked of the elementary operators `T` for `simplify` to be exact: their functions are as
above and the entries of all diagonals lie in a set `good` closed under multiplication, on which the
tolerances of `np.allclose` do not matter. -/
structure ExactLeaves [Field R] [LinearOrder R] (dom : S → Finset I) (T : Op S I R → Prop)
    (good : R → Prop) : Prop extends FnLeaves dom T where
  entries : ∀ {h d s}, T (.diagonal h d s) → ∀ i, good (d i)
  mul : ∀ a b, good a → good b → good (a * b)
  zero : ∀ a, good a → |a| ≤ 1 / 10 ^ 8 → a = 0
  one : ∀ a, good a → |a - 1| ≤ 1 / 10 ^ 8 + 1 / 10 ^ 5 → a = 1

/-- Numbers `good k` that arise as products of at most `k` entries of diagonals; the tolerances of
`np.allclose` do not matter for products of up to `K` entries. -/
structure GradedEntries [Field R] [LinearOrder R] (good : Nat → R → Prop) (K : Nat) : Prop where
  mono : ∀ {j k a}, good j a → j ≤ k → good k a
  mul : ∀ {j k a b}, good j a → good k b → good (j + k) (a * b)
  zero : ∀ a, good K a → |a| ≤ 1 / 10 ^ 8 → a = 0
  one : ∀ a, good K a → |a - 1| ≤ 1 / 10 ^ 8 + 1 / 10 ^ 5 → a = 1

mutual

/-- the functions of an expression are in `T`, and the diagonals met along any product in it are
products of at most `k` entries altogether -/
inductive Graded (T : Op S I R → Prop) (good : Nat → R → Prop) : Nat → Op S I R → Prop
  | fn {k tag left right r c} (h : T (.fn tag left right r c)) :
      Graded T good k (.fn tag left right r c)
  | diagonal {k b d s} (h : ∀ i, good k (d i)) : Graded T good k (.diagonal b d s)
  | identity {k s} : Graded T good k (.identity s)
  | zero {k r c} : Graded T good k (.zero r c)
  | composed {k ops r c} (h : GradedChain T good k ops) : Graded T good k (.composed ops r c)
  | combined {k ops r c} (h : ∀ o ∈ ops, Graded T good k o) : Graded T good k (.combined ops r c)

/-- the same for the factors of a product -/
inductive GradedChain (T : Op S I R → Prop) (good : Nat → R → Prop) : Nat → List (Op S I R) → Prop
  | nil {k} : GradedChain T good k []
  | cons {j k a t} (ha : Graded T good j a) (ht : GradedChain T good k t) :
      GradedChain T good (j + k) (a :: t)

end

/-- no simplification rule applies to the operator itself -/
def Normal [DecidableEq S] : Op S I R → Prop
  | .composed ops _ _ => 2 ≤ ops.length ∧ (∀ o ∈ ops, ¬ o.isZeroOp) ∧ (∀ o ∈ ops, ¬ o.isIdentity) ∧
      (∀ o ∈ ops, ¬ o.isComposed) ∧
      (∀ l a b t, ops = l ++ a :: b :: t →
        ¬ (a.isDerivative ∧ b.isDerivative) ∧ ¬ (a.isDualDerivative ∧ b.isDualDerivative) ∧
        ¬ ((∃ h d s, a = .diagonal h d s) ∧ (∃ h d s, b = .diagonal h d s)))
  | .combined ops _ _ => 2 ≤ ops.length ∧ (∀ o ∈ ops, ¬ o.isZeroOp) ∧ (∀ o ∈ ops, ¬ o.isCombined)
  | _ => True

/-- no simplification rule applies anywhere in the expression -/
inductive DeepNormal [DecidableEq S] : Op S I R → Prop
  | leaf {op} (h1 : ¬ op.isComposed) (h2 : ¬ op.isCombined) : DeepNormal op
  | composed {ops r c} (h : Normal (.composed ops r c : Op S I R)) (hd : ∀ o ∈ ops, DeepNormal o) :
      DeepNormal (.composed ops r c)
  | combined {ops r c} (h : Normal (.combined ops r c : Op S I R)) (hd : ∀ o ∈ ops, DeepNormal o) :
      DeepNormal (.combined ops r c)

/-- operators obtained from elementary ones by `*`, `+`, `transpose` and `simplify`; a
`SymmetricOperator` is square by construction -/
inductive Expression [DecidableEq S] [Field R] [LinearOrder R] (dom : S → Finset I) :
    Op S I R → Prop
  | leaf {op} (h1 : ¬ op.isComposed) (h2 : ¬ op.isCombined)
      (h3 : ∀ l f r c, op = .fn .symmetric l f r c → r = c) : Expression dom op
  | mul {a b op} (ha : Expression dom a) (hb : Expression dom b) (h : a.mul dom b = .ok op) :
      Expression dom op
  | add {a b op} (ha : Expression dom a) (hb : Expression dom b) (h : a.add dom b = .ok op) :
      Expression dom op
  | transpose {a} (ha : Expression dom a) : Expression dom a.transpose
  | simplify {a op} (ha : Expression dom a) (h : a.simplify dom = .ok op) : Expression dom op

/-- the inner product of two arrays of shape `s` -/
def inner [CommRing R] (dom : S → Finset I) (s : S) (x y : Arr S I R) : R :=
  ∑ i ∈ dom s, x.val i * y.val i

/-- the functions of an elementary operator are adjoint to each other -/
def AdjointLeaf [CommRing R] (dom : S → Finset I) : Op S I R → Prop
  | .fn tag left right r c => (tag = .symmetric → left = right ∧ r = c) ∧
      (∀ x : Arr S I R, x.shape = c → (right x).shape = r) ∧
      (∀ y : Arr S I R, y.shape = r → (left y).shape = c) ∧
      ∀ x y : Arr S I R, x.shape = c → y.shape = r →
        inner dom r (right x) y = inner dom c x (left y)
  | _ => True

end

end Verif.Spec

namespace Verif.Props

open Verif.Model Verif.Spec

section

variable {S I R : Type}

/-! ### paths of composable operators -/

/-- the operators can be chained from shape `c` (right) to shape `r` (left) -/
inductive Path : S → S → List (Op S I R) → Prop
  | nil (r) : Path r r []
  | cons {r c} {o : Op S I R} {t} (h : o.rows = r) (ht : Path o.cols c t) : Path r c (o :: t)

theorem path_cons {r c : S} {o : Op S I R} {t : List (Op S I R)} :
    Path r c (o :: t) ↔ o.rows = r ∧ Path o.cols c t := by
  constructor
  · intro h
    generalize hl : o :: t = l at h
    cases h with
    | nil => cases hl
    | cons h ht => cases hl; exact ⟨h, ht⟩
  · rintro ⟨h, ht⟩; exact .cons h ht

theorem path_nil {r c : S} : Path r c ([] : List (Op S I R)) ↔ r = c := by
  constructor
  · intro h; cases h; rfl
  · rintro rfl; exact .nil r

theorem path_append {r m c : S} {a b : List (Op S I R)} (ha : Path r m a) (hb : Path m c b) :
    Path r c (a ++ b) := by
  induction ha with
  | nil => exact hb
  | cons h _ ih => exact .cons h (ih hb)

theorem path_append_iff {r c : S} {a b : List (Op S I R)} :
    Path r c (a ++ b) ↔ ∃ m, Path r m a ∧ Path m c b := by
  constructor
  · intro h
    induction a generalizing r with
    | nil => exact ⟨r, .nil r, h⟩
    | cons o t ih =>
      cases h with
      | cons h ht =>
        obtain ⟨m, h1, h2⟩ := ih ht
        exact ⟨m, .cons h h1, h2⟩
  · rintro ⟨m, ha, hb⟩; exact path_append ha hb

theorem mkComposed_iff [DecidableEq S] {ops : List (Op S I R)} {op : Op S I R} :
    mkComposed ops = .ok op ↔ ∃ r c, ops ≠ [] ∧ Path r c ops ∧ op = .composed ops r c := by
  have key : ∀ (ops : List (Op S I R)) (a b : Op S I R), ops.head? = some a →
      ops.getLast? = some b → (chainOk ops = true ↔ Path a.rows b.cols ops) := by
    intro ops
    induction ops with
    | nil => intro a b h; cases h
    | cons o t ih =>
      intro a b ha hb
      cases ha
      cases t with
      | nil =>
        cases hb
        simp only [chainOk, true_iff]
        exact .cons rfl (.nil _)
      | cons o' t' =>
        have hb' : (o' :: t').getLast? = some b := by simpa using hb
        have := ih o' b rfl hb'
        rw [chainOk, Bool.and_eq_true, decide_eq_true_eq, this]
        constructor
        · rintro ⟨h1, h2⟩
          exact .cons rfl (by rw [h1]; exact h2)
        · intro h
          have ht := (path_cons.mp h).2
          have h1 : o.cols = o'.rows := (path_cons.mp ht).1.symm
          exact ⟨h1, by rw [← h1]; exact ht⟩
  unfold mkComposed
  cases ops with
  | nil => simp [chainOk]
  | cons o t =>
    obtain ⟨b, hb⟩ : ∃ b, (o :: t).getLast? = some b :=
      ⟨_, List.getLast?_eq_some_getLast (List.cons_ne_nil _ _)⟩
    have hk := key (o :: t) o b rfl hb
    rw [hb]
    simp only [List.head?_cons]
    constructor
    · intro h
      split at h
      · rename_i hc
        cases h
        exact ⟨_, _, List.cons_ne_nil _ _, hk.mp hc, rfl⟩
      · cases h
    · rintro ⟨r, c, _, hp, rfl⟩
      have hr : o.rows = r := (path_cons.mp hp).1
      have hc : b.cols = c := by
        clear hk
        have : ∀ (l : List (Op S I R)) (r : S), Path r c l → l.getLast? = some b → b.cols = c := by
          intro l
          induction l with
          | nil => intro r _ h; cases h
          | cons x l ih =>
            intro r hp hl
            have ht := (path_cons.mp hp).2
            cases l with
            | nil => cases hl; exact path_nil.mp ht
            | cons y l => exact ih _ ht (by simpa using hl)
        exact this _ _ hp hb
      rw [if_pos (hk.mpr (by rw [hr, hc]; exact hp)), hr, hc]

theorem mkCombined_iff [DecidableEq S] {ops : List (Op S I R)} {op : Op S I R} :
    mkCombined ops = .ok op ↔ ∃ r c, ops ≠ [] ∧ (∀ o ∈ ops, o.rows = r ∧ o.cols = c) ∧
      op = .combined ops r c := by
  unfold mkCombined
  cases ops with
  | nil => simp
  | cons a t =>
    simp only [List.all_eq_true, Bool.and_eq_true, decide_eq_true_eq]
    constructor
    · intro h
      split at h
      · rename_i hc
        cases h
        exact ⟨_, _, List.cons_ne_nil _ _, hc, rfl⟩
      · cases h
    · rintro ⟨r, c, _, hp, rfl⟩
      obtain ⟨h1, h2⟩ := hp a List.mem_cons_self
      rw [h1, h2, if_pos hp]

theorem constructed_composed [DecidableEq S] {ops : List (Op S I R)} {r c : S} :
    Constructed (.composed ops r c) ↔ ops ≠ [] ∧ Path r c ops ∧ ∀ o ∈ ops, Constructed o := by
  constructor
  · intro h
    cases h with
    | composed h hm =>
      obtain ⟨r', c', h1, h2, h3⟩ := mkComposed_iff.mp hm
      cases h3
      exact ⟨h1, h2, h⟩
    | combined h hm =>
      obtain ⟨r', c', h1, h2, h3⟩ := mkCombined_iff.mp hm
      cases h3
  · rintro ⟨h1, h2, h3⟩
    exact .composed h3 (mkComposed_iff.mpr ⟨r, c, h1, h2, rfl⟩)

theorem constructed_combined [DecidableEq S] {ops : List (Op S I R)} {r c : S} :
    Constructed (.combined ops r c) ↔
      ops ≠ [] ∧ (∀ o ∈ ops, o.rows = r ∧ o.cols = c) ∧ ∀ o ∈ ops, Constructed o := by
  constructor
  · intro h
    cases h with
    | composed h hm =>
      obtain ⟨r', c', h1, h2, h3⟩ := mkComposed_iff.mp hm
      cases h3
    | combined h hm =>
      obtain ⟨r', c', h1, h2, h3⟩ := mkCombined_iff.mp hm
      cases h3
      exact ⟨h1, h2, h⟩
  · rintro ⟨h1, h2, h3⟩
    exact .combined h3 (mkCombined_iff.mpr ⟨r, c, h1, h2, rfl⟩)

/-- induction over constructed operators -/
theorem constructed_induction [DecidableEq S] {P : Op S I R → Prop}
    (fn : ∀ tag l f r c, P (.fn tag l f r c)) (diagonal : ∀ h d s, P (.diagonal h d s))
    (identity : ∀ s, P (.identity s)) (zero : ∀ r c, P (.zero r c))
    (composed : ∀ ops r c, ops ≠ [] → Path r c ops → (∀ o ∈ ops, Constructed o) →
      (∀ o ∈ ops, P o) → P (.composed ops r c))
    (combined : ∀ ops r c, ops ≠ [] → (∀ o ∈ ops, o.rows = r ∧ o.cols = c) →
      (∀ o ∈ ops, Constructed o) → (∀ o ∈ ops, P o) → P (.combined ops r c))
    {op : Op S I R} (h : Constructed op) : P op := by
  induction h with
  | fn => exact fn _ _ _ _ _
  | diagonal => exact diagonal _ _ _
  | identity => exact identity _
  | zero => exact zero _ _
  | composed h hm ih =>
    obtain ⟨r, c, h1, h2, rfl⟩ := mkComposed_iff.mp hm
    exact composed _ _ _ h1 h2 h ih
  | combined h hm ih =>
    obtain ⟨r, c, h1, h2, rfl⟩ := mkCombined_iff.mp hm
    exact combined _ _ _ h1 h2 h ih

theorem leaves_composed {T : Op S I R → Prop} {ops : List (Op S I R)} {r c : S} :
    Leaves T (.composed ops r c) ↔ ∀ o ∈ ops, Leaves T o :=
  ⟨fun h => by cases h with | composed h => exact h, .composed⟩

theorem leaves_combined {T : Op S I R → Prop} {ops : List (Op S I R)} {r c : S} :
    Leaves T (.combined ops r c) ↔ ∀ o ∈ ops, Leaves T o :=
  ⟨fun h => by cases h with | combined h => exact h, .combined⟩

end

/-! ### application -/

section

variable {S I R : Type} [DecidableEq S] [Field R] [LinearOrder R] [IsStrictOrderedRing R]
  {dom : S → Finset I}
  {T : Op S I R → Prop} {good : Nat → R → Prop} {K : Nat}

/-- the behaviour of an operator on the arrays it accepts -/
def Works (dom : S → Finset I) (o : Op S I R) : Prop :=
  (∀ x : Arr S I R, x.shape ≠ o.cols → o.call x = .error .assertionError) ∧
  (∀ x : Arr S I R, x.shape = o.cols → ValidArr dom x →
    ∃ y, o.call x = .ok y ∧ y.shape = o.rows ∧ ValidArr dom y) ∧
  o.call (Arr.zeros o.cols) = .ok (Arr.zeros o.rows)

theorem valid_zeros (s : S) : ValidArr dom (Arr.zeros s : Arr S I R) := fun _ _ => rfl

theorem chain_works {ops : List (Op S I R)} (h : ∀ o ∈ ops, Works dom o) {r c : S}
    (hp : Path r c ops) :
    (∀ x : Arr S I R, x.shape = c → ValidArr dom x →
      ∃ y, callChain ops x = .ok y ∧ y.shape = r ∧ ValidArr dom y) ∧
    callChain ops (Arr.zeros c : Arr S I R) = .ok (Arr.zeros r) := by
  induction hp with
  | nil => exact ⟨fun x hx hv => ⟨x, by rw [callChain], hx, hv⟩, by rw [callChain]⟩
  | @cons r c o t hr _ ih =>
    obtain ⟨ih1, ih2⟩ := ih fun o ho => h o (List.mem_cons_of_mem _ ho)
    obtain ⟨_, w2, w3⟩ := h o List.mem_cons_self
    constructor
    · intro x hx hv
      obtain ⟨y, h1, h2, h3⟩ := ih1 x hx hv
      obtain ⟨z, h4, h5, h6⟩ := w2 y h2 h3
      exact ⟨z, by rw [callChain, h1]; exact h4, h5.trans hr, h6⟩
    · rw [callChain, ih2, ← hr]; exact w3

theorem sum_works {ops : List (Op S I R)} (h : ∀ o ∈ ops, Works dom o) {r c : S}
    (hp : ∀ o ∈ ops, o.rows = r ∧ o.cols = c) (acc : Option (Arr S I R))
    (hne : acc = none → ops ≠ []) (hacc : ∀ a ∈ acc, a.shape = r) :
    (∀ x : Arr S I R, x.shape = c → ValidArr dom x → (∀ a ∈ acc, ValidArr dom a) →
      ∃ y, callSum acc ops x = .ok y ∧ y.shape = r ∧ ValidArr dom y) ∧
    ((∀ a ∈ acc, a = Arr.zeros r) →
      callSum acc ops (Arr.zeros c : Arr S I R) = .ok (Arr.zeros r)) := by
  induction ops generalizing acc with
  | nil =>
    cases acc with
    | none => exact absurd rfl (hne rfl)
    | some a =>
      refine ⟨fun x hx hv ha => ⟨a, by rw [callSum], hacc a rfl, ha a rfl⟩, fun hz => ?_⟩
      rw [callSum, hz a rfl]
  | cons o t ih =>
    obtain ⟨_, w2, w3⟩ := h o List.mem_cons_self
    obtain ⟨hr, hc⟩ := hp o List.mem_cons_self
    have ih' := fun acc h1 h2 => ih (fun o ho => h o (List.mem_cons_of_mem _ ho))
      (fun o ho => hp o (List.mem_cons_of_mem _ ho)) acc h1 h2
    rw [hr, hc] at w2
    rw [hr, hc] at w3
    constructor
    · intro x hx hv ha
      obtain ⟨y, h1, h2, h3⟩ := w2 x hx hv
      cases acc with
      | none =>
        obtain ⟨z, h4⟩ := (ih' (some y) (by simp) (by simp [h2])).1 x hx hv (by simp [h3])
        exact ⟨z, by rw [callSum, h1]; exact h4.1, h4.2⟩
      | some a =>
        have hs : a.shape = y.shape := (hacc a rfl).trans h2.symm
        obtain ⟨z, h4⟩ := (ih' (some ⟨a.shape, fun i => a.val i + y.val i⟩) (by simp)
          (by simpa using hacc a rfl)).1 x hx hv (by
            simp only [Option.mem_def, Option.some.injEq, forall_eq']
            intro i hi
            have h5 := ha a rfl i hi
            have h6 := h3 i (by rw [← hs]; exact hi)
            simp only [h5, h6, add_zero])
        refine ⟨z, ?_, h4.2⟩
        rw [callSum, h1]
        simp only [bind, Except.bind, Arr.add, if_pos hs]
        exact h4.1
    · intro hz
      cases acc with
      | none =>
        have h4 := (ih' (some (Arr.zeros r)) (by simp) (by simp [Arr.zeros])).2 (by simp)
        rw [callSum, w3]; exact h4
      | some a =>
        have h4 := (ih' (some (Arr.zeros r)) (by simp) (by simp [Arr.zeros])).2 (by simp)
        rw [callSum, w3, hz a rfl]
        simp only [bind, Except.bind, Arr.add, if_true, Arr.zeros, add_zero]
        exact h4

theorem callFn_bad {right : Arr S I R → Arr S I R} {r c : S} {x : Arr S I R} (h : x.shape ≠ c) :
    callFn right r c x = .error .assertionError := by rw [callFn, if_neg h]

theorem callFn_good {right : Arr S I R → Arr S I R} {r c : S} {x : Arr S I R} (h : x.shape = c)
    (hr : (right x).shape = r) : callFn right r c x = .ok (right x) := by
  rw [callFn, if_pos h]; simp only [if_pos hr]

theorem call_fn {tag : OpTag} {l f : Arr S I R → Arr S I R} {r c : S} {x : Arr S I R}
    (h : x.shape = c) (hr : (f x).shape = r) : (Op.fn tag l f r c).call x = .ok (f x) := by
  rw [Op.call]; exact callFn_good h hr

theorem call_diagonal {b : Bool} {d : I → R} {s : S} {x : Arr S I R} (h : x.shape = s) :
    (Op.diagonal b d s).call x = .ok ⟨x.shape, fun i => x.val i * d i⟩ := by
  rw [Op.call]
  exact callFn_good (right := fun x : Arr S I R => ⟨x.shape, fun i => x.val i * d i⟩) h h

theorem call_identity {s : S} {x : Arr S I R} (h : x.shape = s) :
    (Op.identity s).call x = .ok x := by
  rw [Op.call]; exact callFn_good (right := id) h h

theorem call_zero {r c : S} {x : Arr S I R} (h : x.shape = c) :
    (Op.zero r c).call x = .ok (Arr.zeros r) := by
  rw [Op.call]; exact callFn_good (right := fun _ => Arr.zeros r) h rfl

theorem call_bad {op : Op S I R} {x : Arr S I R} (h : x.shape ≠ op.cols) :
    op.call x = .error .assertionError := by
  cases op <;> rw [Op.call] <;> first | exact callFn_bad h | exact if_neg h

/-- the functions among the leaves are in `T` -/
def FnIn (T : Op S I R → Prop) : Op S I R → Prop
  | .fn tag l f r c => T (.fn tag l f r c)
  | _ => True

/-- constructed operators accept exactly the arrays of their shape, return valid arrays of their
shape and map zero to zero -/
theorem works_of_constructed (hT : FnLeaves dom T) {op : Op S I R} (h : Constructed op)
    (hl : Leaves (FnIn T) op) : Works dom op := by
  revert hl
  refine constructed_induction (P := fun op => Leaves (FnIn T) op → Works dom op)
    ?_ ?_ ?_ ?_ ?_ ?_ h
  · intro tag l f r c hl
    have hf : T (.fn tag l f r c) := by cases hl with | fn h => exact h
    refine ⟨fun x hx => call_bad hx, fun x hx hv => ?_, ?_⟩
    · obtain ⟨h1, h2⟩ := hT.shape hf x hx hv
      exact ⟨f x, call_fn hx h1, h1, h2⟩
    · have h0 := hT.zeros hf
      have := hT.shape hf (Arr.zeros c) rfl (valid_zeros c)
      have h1 := call_fn (tag := tag) (l := l) (x := (Arr.zeros c : Arr S I R)) rfl this.1
      rw [h0] at h1
      exact h1
  · intro h d s _
    refine ⟨fun x hx => call_bad hx, fun x hx hv => ?_, ?_⟩
    · refine ⟨_, call_diagonal hx, hx, fun i hi => ?_⟩
      simp only [hv i hi, zero_mul]
    · have := call_diagonal (b := h) (d := d) (x := (Arr.zeros s : Arr S I R)) rfl
      simp only [Arr.zeros, zero_mul] at this
      exact this
  · intro s _
    exact ⟨fun x hx => call_bad hx, fun x hx hv => ⟨x, call_identity hx, hx, hv⟩,
      call_identity rfl⟩
  · intro r c _
    exact ⟨fun x hx => call_bad hx, fun x hx hv => ⟨_, call_zero hx, rfl, valid_zeros r⟩,
      call_zero rfl⟩
  · intro ops r c hne hp _ ih hl
    have hw : ∀ o ∈ ops, Works dom o := fun o ho => ih o ho (leaves_composed.mp hl o ho)
    obtain ⟨h1, h2⟩ := chain_works hw hp
    refine ⟨fun x hx => call_bad hx, fun x hx hv => ?_, ?_⟩
    · obtain ⟨y, h3, h4, h5⟩ := h1 x hx hv
      have hx' : x.shape = c := hx
      exact ⟨y, by rw [Op.call, if_pos hx', h3]; simp [bind, Except.bind, h4], h4, h5⟩
    · show (Op.composed ops r c).call (Arr.zeros c) = .ok (Arr.zeros r)
      rw [Op.call, if_pos (show (Arr.zeros c : Arr S I R).shape = c from rfl), h2]; simp [bind, Except.bind, Arr.zeros]
  · intro ops r c hne hp _ ih hl
    have hw : ∀ o ∈ ops, Works dom o := fun o ho => ih o ho (leaves_combined.mp hl o ho)
    obtain ⟨h1, h2⟩ := sum_works hw hp none (fun _ => hne) (by simp)
    refine ⟨fun x hx => call_bad hx, fun x hx hv => ?_, ?_⟩
    · obtain ⟨y, h3, h4, h5⟩ := h1 x hx hv (by simp)
      have hx' : x.shape = c := hx
      exact ⟨y, by rw [Op.call, if_pos hx', h3]; simp [bind, Except.bind, h4], h4, h5⟩
    · show (Op.combined ops r c).call (Arr.zeros c) = .ok (Arr.zeros r)
      rw [Op.call, if_pos (show (Arr.zeros c : Arr S I R).shape = c from rfl), h2 (by simp)]; simp [bind, Except.bind, Arr.zeros]

/-! ### one step -/

/-- two operators do the same -/
def Same (dom : S → Finset I) (a b : Op S I R) : Prop :=
  a.rows = b.rows ∧ a.cols = b.cols ∧ ∀ x : Arr S I R, ValidArr dom x → a.call x = b.call x

theorem call_composed {ops : List (Op S I R)} {r c : S} (hp : Path r c ops)
    (hw : ∀ o ∈ ops, Works dom o) (x : Arr S I R) (hv : ValidArr dom x) :
    (Op.composed ops r c).call x =
      if x.shape = c then callChain ops x else .error .assertionError := by
  rw [Op.call]
  by_cases hx : x.shape = c
  · rw [if_pos hx, if_pos hx]
    obtain ⟨y, h1, h2, _⟩ := (chain_works hw hp).1 x hx hv
    rw [h1]; simp [bind, Except.bind, h2]
  · rw [if_neg hx, if_neg hx]

theorem call_combined {ops : List (Op S I R)} {r c : S} (hne : ops ≠ [])
    (hp : ∀ o ∈ ops, o.rows = r ∧ o.cols = c)
    (hw : ∀ o ∈ ops, Works dom o) (x : Arr S I R) (hv : ValidArr dom x) :
    (Op.combined ops r c).call x =
      if x.shape = c then callSum none ops x else .error .assertionError := by
  rw [Op.call]
  by_cases hx : x.shape = c
  · rw [if_pos hx, if_pos hx]
    obtain ⟨y, h1, h2, _⟩ := (sum_works hw hp none (fun _ => hne) (by simp)).1 x hx hv (by simp)
    rw [h1]; simp [bind, Except.bind, h2]
  · rw [if_neg hx, if_neg hx]

theorem callChain_append (a b : List (Op S I R)) (x : Arr S I R) :
    callChain (a ++ b) x = (do let y ← callChain b x; callChain a y) := by
  induction a with
  | nil =>
    cases h : callChain b x <;>
      simp [callChain, h, bind, Except.bind]
  | cons o t ih =>
    rw [List.cons_append, callChain, ih]
    cases h : callChain b x with
    | error e => rfl
    | ok y =>
      show _ = callChain (o :: t) y
      rw [callChain]; rfl

theorem callSum_append (acc : Option (Arr S I R)) (a b : List (Op S I R)) (ha : a ≠ [])
    (x : Arr S I R) :
    callSum acc (a ++ b) x = (do let y ← callSum acc a x; callSum (some y) b x) := by
  induction a generalizing acc with
  | nil => exact absurd rfl ha
  | cons o t ih =>
    rw [List.cons_append, callSum]
    conv_rhs => rw [callSum]
    cases h : o.call x with
    | error e => rfl
    | ok y =>
      have fin : ∀ z : Arr S I R, callSum (some z) (t ++ b) x =
          (do let y ← callSum (some z) t x; callSum (some y) b x) := by
        intro z
        by_cases ht : t = []
        · subst ht
          rw [List.nil_append]
          conv_rhs => rw [callSum]
          rfl
        · exact ih (some z) ht
      cases acc with
      | none => exact fin y
      | some a =>
        simp only [bind, Except.bind]
        cases hz : a.add y with
        | error e => rfl
        | ok z => exact fin z

/-- the effect of a chain in which an operator is known to vanish -/
theorem chain_zero {a : List (Op S I R)} {z : List (Op S I R)} {b : List (Op S I R)} {r m m' c : S}
    (ha : Path r m a) (hb : Path m' c b) (hwa : ∀ o ∈ a, Works dom o)
    (hwb : ∀ o ∈ b, Works dom o)
    (hz : ∀ y : Arr S I R, y.shape = m' → ValidArr dom y → callChain z y = .ok (Arr.zeros m))
    (x : Arr S I R) (hx : x.shape = c) (hv : ValidArr dom x) :
    callChain (a ++ (z ++ b)) x = .ok (Arr.zeros r) := by
  obtain ⟨y, h1, h2, h3⟩ := (chain_works hwb hb).1 x hx hv
  rw [callChain_append, callChain_append, h1]
  show (do let w ← callChain z y; callChain a w) = _
  rw [hz y h2 h3]
  exact (chain_works hwa ha).2

theorem anyAdjacent_split {p : Op S I R → Bool} {ops : List (Op S I R)}
    (h : anyAdjacent p ops = true) :
    ∃ l a b t, ops = l ++ ([a, b] ++ t) ∧ p a = true ∧ p b = true := by
  induction ops with
  | nil => cases h
  | cons a t ih =>
    cases t with
    | nil => cases h
    | cons b t =>
      rw [anyAdjacent, Bool.or_eq_true, Bool.and_eq_true] at h
      rcases h with ⟨h1, h2⟩ | h
      · exact ⟨[], a, b, t, rfl, h1, h2⟩
      · obtain ⟨l, a', b', t', h1, h2⟩ := ih h
        exact ⟨a :: l, a', b', t', by rw [h1]; rfl, h2⟩

theorem anyAdjacent_of {p : Op S I R → Bool} (l : List (Op S I R)) (a b : Op S I R)
    (t : List (Op S I R)) (ha : p a = true) (hb : p b = true) :
    anyAdjacent p (l ++ a :: b :: t) = true := by
  induction l with
  | nil => simp [anyAdjacent, ha, hb]
  | cons x l ih =>
    cases l with
    | nil =>
      simp only [List.cons_append, List.nil_append] at ih ⊢
      rw [anyAdjacent, ih, Bool.or_true]
    | cons y l =>
      simp only [List.cons_append] at ih ⊢
      rw [anyAdjacent, ih, Bool.or_true]

theorem isZero_sound (hT : FnLeaves dom T) {ops : List (Op S I R)} {r c : S}
    (hp : Path r c ops) (hw : ∀ o ∈ ops, Works dom o) (hl : ∀ o ∈ ops, Leaves (FnIn T) o)
    (h : composedIsZero ops = true) (x : Arr S I R) (hx : x.shape = c) (hv : ValidArr dom x) :
    callChain ops x = .ok (Arr.zeros r) := by
  have pair : ∀ (tag : OpTag) (l : List (Op S I R)) (a b : Op S I R) (t : List (Op S I R)),
      ops = l ++ ([a, b] ++ t) →
      (∀ {l l' : Arr S I R → Arr S I R} {f g : Arr S I R → Arr S I R} {a b c : S},
        T (.fn tag l f a b) → T (.fn tag l' g b c) →
        ∀ x : Arr S I R, x.shape = c → ValidArr dom x → f (g x) = Arr.zeros a) →
      (∃ u f r c, a = .fn tag u f r c) → (∃ u f r c, b = .fn tag u f r c) →
      callChain ops x = .ok (Arr.zeros r) := by
    intro tag l a b t heq hcl ⟨u, f, r1, c1, ha⟩ ⟨u', g, r2, c2, hb⟩
    subst heq ha hb
    obtain ⟨m, hp1, hp2⟩ := path_append_iff.mp hp
    obtain ⟨m', hp3, hp4⟩ := path_append_iff.mp hp2
    cases hp3 with
    | cons e1 hp5 =>
      cases hp5 with
      | cons e2 hp6 =>
        cases hp6
        have e2' : r2 = c1 := e2
        have e1' : r1 = m := e1
        subst e2' e1'
        refine chain_zero hp1 hp4 (fun o ho => hw o (by simp [ho])) (fun o ho => hw o (by simp [ho]))
          ?_ x hx hv
        intro y hy hyv
        have hTa : T (.fn tag u f r1 r2) := by
          have := hl (.fn tag u f r1 r2) (by simp)
          cases this with | fn h => exact h
        have hTb : T (.fn tag u' g r2 c2) := by
          have := hl (.fn tag u' g r2 c2) (by simp)
          cases this with | fn h => exact h
        obtain ⟨s1, s2⟩ := hT.shape hTb y hy hyv
        obtain ⟨s3, s4⟩ := hT.shape hTa (g y) s1 s2
        rw [callChain, callChain, callChain]
        show (do let z ← (Op.fn tag u' g r2 c2).call y; (Op.fn tag u f r1 r2).call z) = _
        rw [call_fn (show y.shape = c2 from hy) s1]
        show (Op.fn tag u f r1 r2).call (g y) = _
        rw [call_fn s1 s3, hcl hTa hTb y hy hyv]
  rw [composedIsZero, Bool.or_eq_true, Bool.or_eq_true] at h
  rcases h with (h | h) | h
  · obtain ⟨o, ho, hz⟩ := List.any_eq_true.mp h
    obtain ⟨a, b, rfl⟩ := List.append_of_mem ho
    cases o with
    | zero r1 c1 =>
      obtain ⟨m, hp1, hp2⟩ := path_append_iff.mp hp
      cases hp2 with
      | cons e hp3 =>
        have e' : r1 = m := e
        subst e'
        refine chain_zero (z := [.zero r1 c1]) hp1 hp3 (fun o ho => hw o (by simp [ho]))
          (fun o ho => hw o (by simp [ho])) ?_ x hx hv
        intro y hy _
        rw [callChain, callChain]
        show (Op.zero r1 c1).call y = _
        exact call_zero hy
    | _ => cases hz
  · obtain ⟨l, a, b, t, heq, h1, h2⟩ := anyAdjacent_split h
    refine pair .derivative l a b t heq hT.closed ?_ ?_
    · cases a with
      | fn tag => cases tag <;> first | exact ⟨_, _, _, _, rfl⟩ | cases h1
      | _ => cases h1
    · cases b with
      | fn tag => cases tag <;> first | exact ⟨_, _, _, _, rfl⟩ | cases h2
      | _ => cases h2
  · obtain ⟨l, a, b, t, heq, h1, h2⟩ := anyAdjacent_split h
    refine pair .dualDerivative l a b t heq hT.coclosed ?_ ?_
    · cases a with
      | fn tag => cases tag <;> first | exact ⟨_, _, _, _, rfl⟩ | cases h1
      | _ => cases h1
    · cases b with
      | fn tag => cases tag <;> first | exact ⟨_, _, _, _, rfl⟩ | cases h2
      | _ => cases h2

/-! the diagonal rule -/

theorem gradedChain_cons {k : Nat} {a : Op S I R} {t : List (Op S I R)} :
    GradedChain T good k (a :: t) ↔
      ∃ i j, k = i + j ∧ Graded T good i a ∧ GradedChain T good j t := by
  constructor
  · intro h
    cases h with
    | cons ha ht => exact ⟨_, _, rfl, ha, ht⟩
  · rintro ⟨i, j, rfl, ha, ht⟩
    exact .cons ha ht

theorem gradedChain_mono {j k : Nat} {ops : List (Op S I R)} (h : GradedChain T good j ops)
    (hjk : j ≤ k) : GradedChain T good k ops := by
  induction ops generalizing j k with
  | nil => exact .nil
  | cons a t ih =>
    obtain ⟨i, i', rfl, h1, h2⟩ := gradedChain_cons.mp h
    exact gradedChain_cons.mpr ⟨i, k - i, by omega, h1, ih h2 (by omega)⟩

theorem gradedChain_append {j k : Nat} {a b : List (Op S I R)} (ha : GradedChain T good j a)
    (hb : GradedChain T good k b) : GradedChain T good (j + k) (a ++ b) := by
  induction a generalizing j with
  | nil => exact gradedChain_mono hb (by omega)
  | cons x t ih =>
    obtain ⟨i, i', rfl, h1, h2⟩ := gradedChain_cons.mp ha
    exact gradedChain_cons.mpr ⟨i, i' + k, by omega, h1, ih h2⟩

theorem gradedChain_split {k : Nat} {a b : List (Op S I R)} (h : GradedChain T good k (a ++ b)) :
    ∃ i j, k = i + j ∧ GradedChain T good i a ∧ GradedChain T good j b := by
  induction a generalizing k with
  | nil => exact ⟨0, k, by omega, .nil, h⟩
  | cons x t ih =>
    obtain ⟨i, i', rfl, h1, h2⟩ := gradedChain_cons.mp h
    obtain ⟨j, j', rfl, h3, h4⟩ := ih h2
    exact ⟨i + j, j', by omega, .cons h1 h3, h4⟩

theorem gradedChain_filter {k : Nat} {ops : List (Op S I R)} (p : Op S I R → Bool)
    (h : GradedChain T good k ops) : GradedChain T good k (ops.filter p) := by
  induction ops generalizing k with
  | nil => exact .nil
  | cons a t ih =>
    obtain ⟨i, j, rfl, h1, h2⟩ := gradedChain_cons.mp h
    rw [List.filter_cons]
    split
    · exact .cons h1 (ih h2)
    · exact gradedChain_mono (ih h2) (by omega)

theorem graded_composed {k : Nat} {ops : List (Op S I R)} {r c : S} :
    Graded T good k (.composed ops r c) ↔ GradedChain T good k ops :=
  ⟨fun h => by cases h with | composed h => exact h, .composed⟩

theorem graded_combined {k : Nat} {ops : List (Op S I R)} {r c : S} :
    Graded T good k (.combined ops r c) ↔ ∀ o ∈ ops, Graded T good k o :=
  ⟨fun h => by cases h with | combined h => exact h, .combined⟩

/-- induction over all operators -/
theorem op_induction {P : Op S I R → Prop} (leaf : ∀ op, ¬ op.isComposed → ¬ op.isCombined → P op)
    (composed : ∀ ops r c, (∀ o ∈ ops, P o) → P (.composed ops r c))
    (combined : ∀ ops r c, (∀ o ∈ ops, P o) → P (.combined ops r c)) (op : Op S I R) : P op := by
  have main : ∀ (n : Nat) (op : Op S I R), op.nodes ≤ n → P op := by
    intro n
    induction n with
    | zero => intro op hn; exact absurd hn (by have := nodes_pos op; omega)
    | succ n ih =>
      intro op hn
      have le : ∀ (ops : List (Op S I R)), ∀ o ∈ ops, o.nodes ≤ (ops.map Op.nodes).sum :=
        fun ops o ho => List.single_le_sum (by simp) _ (List.mem_map_of_mem ho)
      cases op with
      | composed ops r c =>
        refine composed ops r c fun o ho => ih o ?_
        have := le ops o ho
        rw [nodes_composed] at hn; omega
      | combined ops r c =>
        refine combined ops r c fun o ho => ih o ?_
        have := le ops o ho
        rw [nodes_combined] at hn; omega
      | _ => exact leaf _ (by simp [Op.isComposed]) (by simp [Op.isCombined])
  exact main op.nodes op le_rfl

theorem graded_mono (hG : GradedEntries good K) {j k : Nat} {op : Op S I R}
    (h : Graded T good j op) (hjk : j ≤ k) : Graded T good k op := by
  revert h
  refine op_induction (P := fun op => Graded T good j op → Graded T good k op) ?_ ?_ ?_ op
  · intro op h1 h2 h
    cases h with
    | fn h => exact .fn h
    | diagonal h => exact .diagonal fun i => hG.mono (h i) hjk
    | identity => exact .identity
    | zero => exact .zero
    | composed => exact absurd rfl h1
    | combined => exact absurd rfl h2
  · intro ops r c _ h
    exact .composed (gradedChain_mono (graded_composed.mp h) hjk)
  · intro ops r c ih h
    exact .combined fun o ho => ih o ho (graded_combined.mp h o ho)

theorem gradedChain_mem {k : Nat} {ops : List (Op S I R)} (h : GradedChain T good k ops) {o : Op S I R}
    (ho : o ∈ ops) : ∃ j ≤ k, Graded T good j o := by
  induction ops generalizing k with
  | nil => cases ho
  | cons a t ih =>
    obtain ⟨i, j, rfl, h1, h2⟩ := gradedChain_cons.mp h
    rcases List.mem_cons.mp ho with rfl | ho
    · exact ⟨i, by omega, h1⟩
    · obtain ⟨j', h3, h4⟩ := ih h2 ho
      exact ⟨j', by omega, h4⟩

/-- the functions of a graded expression are in `T` -/
theorem graded_leaves {k : Nat} {op : Op S I R} (h : Graded T good k op) : Leaves (FnIn T) op := by
  revert h
  refine op_induction (P := fun op => ∀ k, Graded T good k op → Leaves (FnIn T) op) ?_ ?_ ?_ op k
  · intro op h1 h2 k h
    cases h with
    | fn h => exact .fn h
    | diagonal h => exact .diagonal trivial
    | identity => exact .identity
    | zero => exact .zero
    | composed => exact absurd rfl h1
    | combined => exact absurd rfl h2
  · intro ops r c ih k h
    refine .composed fun o ho => ?_
    obtain ⟨j, _, hj⟩ := gradedChain_mem (graded_composed.mp h) ho
    exact ih o ho j hj
  · intro ops r c ih k h
    exact .combined fun o ho => ih o ho k (graded_combined.mp h o ho)

/-- without a bound on the number of factors every expression is graded -/
theorem graded_of_leaves {good : R → Prop} (hT : ExactLeaves dom T good) {op : Op S I R}
    (h : Leaves T op) : Graded T (fun _ => good) 0 op := by
  induction h with
  | fn h => exact .fn h
  | diagonal h => exact .diagonal (hT.entries h)
  | identity => exact .identity
  | zero => exact .zero
  | @composed ops r c _ ih =>
    refine .composed ?_
    induction ops with
    | nil => exact .nil
    | cons a t iht =>
      exact .cons (j := 0) (k := 0) (ih a List.mem_cons_self)
        (iht (fun o ho => by rename_i h; exact h o (List.mem_cons_of_mem _ ho))
          fun o ho => ih o (List.mem_cons_of_mem _ ho))
  | combined _ ih => exact .combined ih

theorem simplifyDiagonal_same (hG : GradedEntries good K) {k : Nat} (hk : k ≤ K) (b b' : Bool)
    (d : I → R) (s : S) (hd : ∀ i, good k (d i)) :
    (simplifyDiagonal dom b d s).rows = s ∧ (simplifyDiagonal dom b d s).cols = s ∧
    Graded T good k (simplifyDiagonal dom b d s) ∧
    Constructed (simplifyDiagonal dom b d s) ∧
    ∀ x : Arr S I R, ValidArr dom x →
      (simplifyDiagonal dom b d s).call x = (Op.diagonal b' d s).call x := by
  unfold simplifyDiagonal
  split
  · rename_i h
    refine ⟨rfl, rfl, .zero, .zero _ _, fun x hv => ?_⟩
    rw [allclose, decide_eq_true_eq] at h
    by_cases hx : x.shape = s
    · rw [call_zero hx, call_diagonal hx]
      simp only [Arr.zeros, Except.ok.injEq, Arr.mk.injEq, hx, true_and]
      funext i
      by_cases hi : i ∈ dom s
      · have := h i hi
        simp only [sub_zero, abs_zero, mul_zero, add_zero] at this
        rw [hG.zero _ (hG.mono (hd i) hk) this, mul_zero]
      · rw [hv i (by rw [hx]; exact hi), zero_mul]
    · rw [call_bad (op := .zero s s) hx, call_bad (op := .diagonal b' d s) hx]
  · split
    · rename_i h
      refine ⟨rfl, rfl, .identity, .identity _, fun x hv => ?_⟩
      rw [allclose, decide_eq_true_eq] at h
      by_cases hx : x.shape = s
      · rw [call_identity hx, call_diagonal hx]
        simp only [Except.ok.injEq]
        obtain ⟨xs, xv⟩ := x
        simp only [Arr.mk.injEq, true_and]
        funext i
        by_cases hi : i ∈ dom s
        · have := h i hi
          simp only [abs_one, mul_one] at this
          rw [hG.one _ (hG.mono (hd i) hk) this, mul_one]
        · have h0 := hv i (by rw [hx]; exact hi)
          simp only at h0
          rw [h0, zero_mul]
      · rw [call_bad (op := .identity s) hx, call_bad (op := .diagonal b' d s) hx]
    · refine ⟨rfl, rfl, .diagonal hd, .diagonal _ _ _, fun x _ => ?_⟩
      rw [Op.call, Op.call]

theorem combineDiagonals_same (hG : GradedEntries good K) {k : Nat} (hk : k ≤ K)
    {ops ops' : List (Op S I R)} {r c : S} (hp : Path r c ops) (hw : ∀ o ∈ ops, Works dom o)
    (hl : GradedChain T good k ops) (hc : ∀ o ∈ ops, Constructed o)
    (h : combineDiagonals dom ops = some ops') :
    Path r c ops' ∧ ops' ≠ [] ∧ GradedChain T good k ops' ∧
    (∀ o ∈ ops', Constructed o) ∧
    ∀ x : Arr S I R, x.shape = c → ValidArr dom x → callChain ops' x = callChain ops x := by
  induction ops generalizing ops' r k with
  | nil => cases h
  | cons a t ih =>
    unfold combineDiagonals at h
    split at h
    · rename_i h1 d s h2 e s' t' heq
      cases heq
      cases h
      cases hp with
      | cons e1 hp1 =>
        cases hp1 with
        | cons e2 hp2 =>
          have e1' : s = r := e1
          have e2' : s' = s := e2
          subst e1' e2'
          obtain ⟨k1, k2, rfl, l1, l2⟩ := gradedChain_cons.mp hl
          obtain ⟨k3, k4, rfl, l3, l4⟩ := gradedChain_cons.mp l2
          have gd : ∀ i, good k1 (d i) := by cases l1 with | diagonal h => exact h
          have ge : ∀ i, good k3 (e i) := by cases l3 with | diagonal h => exact h
          obtain ⟨q1, q2, q3, q4, q5⟩ := simplifyDiagonal_same (T := T) (dom := dom) hG
            (k := k1 + k3) (by omega) false false (fun i => d i * e i) s'
            (fun i => hG.mul (gd i) (ge i))
          refine ⟨.cons q1 (by rw [q2]; exact hp2), List.cons_ne_nil _ _, ?_, ?_, ?_⟩
          · rw [← Nat.add_assoc]
            exact .cons q3 l4
          · intro o ho
            rcases List.mem_cons.mp ho with rfl | ho
            · exact q4
            · exact hc o (by simp [ho])
          · intro x hx hv
            obtain ⟨y, h3, h4, h5⟩ := (chain_works (fun o ho => hw o (by simp [ho])) hp2).1 x hx hv
            rw [callChain, callChain, callChain, h3]
            show (simplifyDiagonal dom false (fun i => d i * e i) s').call y =
              (do let z ← (Op.diagonal h2 e s').call y; (Op.diagonal h1 d s').call z)
            have h4' : y.shape = s' := h4
            rw [q5 y h5, call_diagonal h4', call_diagonal h4']
            show _ = (Op.diagonal h1 d s').call ⟨y.shape, fun i => y.val i * e i⟩
            rw [call_diagonal (x := ⟨y.shape, fun i => y.val i * e i⟩) h4']
            simp only [Except.ok.injEq, Arr.mk.injEq, true_and]
            funext i; ring
    · rename_i a' t' _ heq
      cases heq
      cases hf : combineDiagonals dom t with
      | none => rw [hf] at h; cases h
      | some u =>
        rw [hf] at h
        cases h
        cases hp with
        | cons e1 hp1 =>
          obtain ⟨k1, k2, rfl, l1, l2⟩ := gradedChain_cons.mp hl
          obtain ⟨p1, p2, p3, p4, p5⟩ := ih (k := k2) (by omega) hp1
            (fun o ho => hw o (List.mem_cons_of_mem _ ho)) l2
            (fun o ho => hc o (List.mem_cons_of_mem _ ho)) hf
          refine ⟨.cons e1 p1, List.cons_ne_nil _ _, ?_, ?_, ?_⟩
          · exact .cons l1 p3
          · intro o ho
            rcases List.mem_cons.mp ho with rfl | ho
            · exact hc _ List.mem_cons_self
            · exact p4 o ho
          · intro x hx hv
            rw [callChain, callChain, p5 x hx hv]
    · rename_i heq; cases heq

/-! the associativity and identity rules -/

theorem flattenComposed_split {ops ops' : List (Op S I R)} (h : flattenComposed ops = some ops') :
    ∃ a inner r c t, ops = a ++ .composed inner r c :: t ∧ ops' = a ++ (inner ++ t) := by
  induction ops generalizing ops' with
  | nil => cases h
  | cons o t ih =>
    unfold flattenComposed at h
    split at h
    · cases h
    · rename_i inner r c t' heq
      cases heq; cases h
      exact ⟨[], inner, r, c, t, rfl, rfl⟩
    · rename_i a' t' _ heq
      cases heq
      cases hf : flattenComposed t with
      | none => rw [hf] at h; cases h
      | some u =>
        rw [hf] at h; cases h
        obtain ⟨a, inner, r, c, t', h1, h2⟩ := ih hf
        exact ⟨o :: a, inner, r, c, t', by rw [h1]; rfl, by rw [h2]; rfl⟩

theorem flattenCombined_split {ops ops' : List (Op S I R)} (h : flattenCombined ops = some ops') :
    ∃ a inner r c t, ops = a ++ .combined inner r c :: t ∧ ops' = a ++ (inner ++ t) := by
  induction ops generalizing ops' with
  | nil => cases h
  | cons o t ih =>
    unfold flattenCombined at h
    split at h
    · cases h
    · rename_i inner r c t' heq
      cases heq; cases h
      exact ⟨[], inner, r, c, t, rfl, rfl⟩
    · rename_i a' t' _ heq
      cases heq
      cases hf : flattenCombined t with
      | none => rw [hf] at h; cases h
      | some u =>
        rw [hf] at h; cases h
        obtain ⟨a, inner, r, c, t', h1, h2⟩ := ih hf
        exact ⟨o :: a, inner, r, c, t', by rw [h1]; rfl, by rw [h2]; rfl⟩

theorem filterIdentity_same {ops : List (Op S I R)} {r c : S} (hp : Path r c ops)
    (hw : ∀ o ∈ ops, Works dom o) :
    Path r c (ops.filter fun o => !o.isIdentity) ∧
    ∀ x : Arr S I R, x.shape = c → ValidArr dom x →
      callChain (ops.filter fun o => !o.isIdentity) x = callChain ops x := by
  induction hp with
  | nil => exact ⟨.nil _, fun x _ _ => rfl⟩
  | @cons r c o t e ht ih =>
    obtain ⟨h1, h2⟩ := ih fun o ho => hw o (List.mem_cons_of_mem _ ho)
    by_cases hi : o.isIdentity = true
    · cases o with
      | identity s =>
        have e' : s = r := e
        subst e'
        rw [List.filter_cons_of_neg (by simp [hi])]
        refine ⟨h1, fun x hx hv => ?_⟩
        obtain ⟨y, h3, h4, _⟩ :=
          (chain_works (fun o ho => hw o (List.mem_cons_of_mem _ ho)) ht).1 x hx hv
        have h4' : y.shape = s := h4
        rw [h2 x hx hv, callChain, h3]
        show _ = (Op.identity s).call y
        rw [call_identity h4']
      | _ => cases hi
    · rw [List.filter_cons]
      simp only [hi, Bool.not_false, if_true]
      refine ⟨.cons e h1, fun x hx hv => ?_⟩
      rw [callChain, callChain, h2 x hx hv]

/-! dropping zero terms -/

theorem arr_add_zero (a : Arr S I R) (r : S) (h : a.shape = r) :
    a.add (Arr.zeros r) = .ok a := by
  rw [Arr.add, if_pos (show a.shape = (Arr.zeros r : Arr S I R).shape from h)]
  simp [Arr.zeros]

theorem filterZero_same {ops : List (Op S I R)} {r c : S}
    (hp : ∀ o ∈ ops, o.rows = r ∧ o.cols = c) (hw : ∀ o ∈ ops, Works dom o)
    (x : Arr S I R) (hx : x.shape = c) (hv : ValidArr dom x) :
    (∀ a : Arr S I R, a.shape = r → callSum (some a) ops x =
      callSum (some a) (ops.filter fun o => !o.isZeroOp) x) ∧
    (ops ≠ [] → callSum none ops x =
      if (ops.filter fun o => !o.isZeroOp) = [] then .ok (Arr.zeros r)
      else callSum none (ops.filter fun o => !o.isZeroOp) x) := by
  have hadd : ∀ (y : Arr S I R) (hy : y.shape = r), (Arr.zeros r : Arr S I R).add y = .ok y := by
    intro y hy
    rw [Arr.add, if_pos (show (Arr.zeros r : Arr S I R).shape = y.shape from hy.symm)]
    obtain ⟨ys, yv⟩ := y
    have hy' : ys = r := hy
    simp [Arr.zeros, hy']
  induction ops with
  | nil => exact ⟨fun a _ => rfl, fun h => absurd rfl h⟩
  | cons o t ih =>
    obtain ⟨ih1, ih2⟩ := ih (fun o ho => hp o (List.mem_cons_of_mem _ ho))
      (fun o ho => hw o (List.mem_cons_of_mem _ ho))
    obtain ⟨hr, hc⟩ := hp o List.mem_cons_self
    obtain ⟨_, w2, _⟩ := hw o List.mem_cons_self
    by_cases hz : o.isZeroOp = true
    · cases o with
      | zero r' c' =>
        have hr' : r' = r := hr
        have hc' : c' = c := hc
        subst hr' hc'
        have hcall : (Op.zero r' c').call x = .ok (Arr.zeros r') := by
          exact call_zero hx
        rw [List.filter_cons_of_neg (by simp [hz])]
        constructor
        · intro a ha
          rw [callSum, hcall]
          simp only [bind, Except.bind, arr_add_zero a r' ha]
          exact ih1 a ha
        · intro _
          rw [callSum, hcall]
          simp only [bind, Except.bind]
          rw [ih1 _ rfl]
          cases hf : t.filter (fun o => !o.isZeroOp) with
          | nil => rw [if_pos rfl]; rw [callSum]
          | cons o' t' =>
            rw [if_neg (List.cons_ne_nil _ _), callSum, callSum]
            have ho' : o' ∈ t := by
              have : o' ∈ t.filter (fun o => !o.isZeroOp) := by rw [hf]; exact List.mem_cons_self
              exact (List.mem_filter.mp this).1
            obtain ⟨y, h1, h2, _⟩ := (hw o' (List.mem_cons_of_mem _ ho')).2.1 x
              (hx.trans (hp o' (List.mem_cons_of_mem _ ho')).2.symm) hv
            rw [h1]
            simp only [bind, Except.bind]
            rw [hadd y (h2.trans (hp o' (List.mem_cons_of_mem _ ho')).1)]
      | _ => cases hz
    · rw [List.filter_cons]
      simp only [hz, Bool.not_false, if_true]
      obtain ⟨y, h1, h2, _⟩ := w2 x (hx.trans hc.symm) hv
      constructor
      · intro a ha
        rw [callSum, h1]
        conv_rhs => rw [callSum, h1]
        simp only [bind, Except.bind]
        have hs : a.shape = y.shape := ha.trans (h2.trans hr).symm
        rw [Arr.add, if_pos hs]
        exact ih1 _ ha
      · intro _
        rw [if_neg (List.cons_ne_nil _ _), callSum, h1]
        conv_rhs => rw [callSum, h1]
        simp only [bind, Except.bind]
        exact ih1 y (h2.trans hr)

/-! splicing a nested sum -/

theorem callSum_some {ops : List (Op S I R)} {r c : S} (hne : ops ≠ [])
    (hp : ∀ o ∈ ops, o.rows = r ∧ o.cols = c) (hw : ∀ o ∈ ops, Works dom o)
    (x : Arr S I R) (hx : x.shape = c) (hv : ValidArr dom x) (a : Arr S I R) (ha : a.shape = r) :
    callSum (some a) ops x = (do let y ← callSum none ops x; a.add y) := by
  have gen : ∀ (ops : List (Op S I R)) (_ : ∀ o ∈ ops, o.rows = r ∧ o.cols = c)
      (_ : ∀ o ∈ ops, Works dom o) (a b : Arr S I R) (_ : a.shape = r) (_ : b.shape = r),
      callSum (some ⟨r, fun i => a.val i + b.val i⟩) ops x =
        (do let y ← callSum (some b) ops x; a.add y) := by
    intro ops
    induction ops with
    | nil =>
      intro _ _ a b ha hb
      rw [callSum, callSum]
      simp only [bind, Except.bind, Arr.add, ha, hb, if_true]
    | cons o t ih =>
      intro hp hw a b ha hb
      obtain ⟨hr, hc⟩ := hp o List.mem_cons_self
      obtain ⟨y, h1, h2, _⟩ := (hw o List.mem_cons_self).2.1 x (hx.trans hc.symm) hv
      have h2' : y.shape = r := h2.trans hr
      have e1 : (⟨r, fun i => a.val i + b.val i⟩ : Arr S I R).add y =
          .ok ⟨r, fun i => a.val i + (b.val i + y.val i)⟩ := by
        simp only [Arr.add, h2', if_true, add_assoc]
      have e2 : b.add y = .ok ⟨r, fun i => b.val i + y.val i⟩ := by
        simp only [Arr.add, h2', hb, if_true]
      rw [callSum, callSum, h1]
      simp only [bind, Except.bind, e1, e2]
      have := ih (fun o ho => hp o (List.mem_cons_of_mem _ ho))
        (fun o ho => hw o (List.mem_cons_of_mem _ ho)) a ⟨r, fun i => b.val i + y.val i⟩ ha rfl
      exact this
  cases ops with
  | nil => exact absurd rfl hne
  | cons o t =>
    obtain ⟨hr, hc⟩ := hp o List.mem_cons_self
    obtain ⟨y, h1, h2, _⟩ := (hw o List.mem_cons_self).2.1 x (hx.trans hc.symm) hv
    have h2' : y.shape = r := h2.trans hr
    rw [callSum, callSum, h1]
    simp only [bind, Except.bind]
    rw [Arr.add, if_pos (ha.trans h2'.symm), ha]
    exact gen t (fun o ho => hp o (List.mem_cons_of_mem _ ho))
      (fun o ho => hw o (List.mem_cons_of_mem _ ho)) a y ha h2'

end

end Verif.Props
