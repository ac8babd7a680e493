/-
C38: the canonical system of a periodic grid and its normal equations.
-/
import Verif.Props.StencilBlock
import Mathlib.Algebra.Order.Field.Power

set_option linter.unusedSectionVars false

namespace Verif.Spec

section

variable {R : Type} [Field R] [LinearOrder R]

/-- the scale factor keeps its powers up to `M` away from the tolerances of the simplification: they
are not taken for zero, nor for one unless they are one -/
def ScaleOk (scale : R) (M : Nat) : Prop :=
  0 < scale ∧ ∀ e : Int, |e| ≤ (M : Nat) →
    1 / 10 ^ 8 < scale ^ e ∧ (|scale ^ e - 1| ≤ 1 / 10 ^ 8 + 1 / 10 ^ 5 → scale ^ e = 1)

/-- products of at most `k` entries of the Hodge operators of an `N`-dimensional complex -/
def HodgeEntry (N : Nat) (scale : R) (k : Nat) (a : R) : Prop :=
  ∃ e : Int, |e| ≤ ((k * N : Nat) : Int) ∧ a = scale ^ e

end

end Verif.Spec

namespace Verif.Props

open Verif.Model Verif.Spec

section

variable {S I R : Type} [DecidableEq S] [Field R] [LinearOrder R] [IsStrictOrderedRing R]
  {dom : S → Finset I} {T : Op S I R → Prop}

/-- an array orthogonal to all valid arrays of its shape is zero -/
theorem eq_zeros_of_inner {r : S} {z : Arr S I R} (hz : z.shape = r) (hv : ValidArr dom z)
    (h : ∀ y : Arr S I R, y.shape = r → ValidArr dom y → inner dom r z y = 0) :
    z = Arr.zeros r := by
  classical
  obtain ⟨s, v⟩ := z
  have hz : s = r := hz
  subst hz
  rw [Arr.zeros]
  congr 1
  funext i
  by_cases hi : i ∈ dom s
  · have := h ⟨s, fun j => if j = i then 1 else 0⟩ rfl (fun j hj => by
      simp only
      rw [if_neg]
      rintro rfl
      exact hj hi)
    simpa [inner, hi] using this
  · exact hv i hi

/-- it is enough to check shapes, adjointness and that consecutive derivatives cancel -/
theorem linearLeaves_of
    (shape : ∀ {tag l f r c}, T (.fn tag l f r c) → ∀ x : Arr S I R, x.shape = c →
      (f x).shape = r ∧ ValidArr dom (f x))
    (closed : ∀ {l l' f g a b c}, T (.fn .derivative l f a b) → T (.fn .derivative l' g b c) →
      ∀ x : Arr S I R, x.shape = c → f (g x) = Arr.zeros a)
    (adjoint : ∀ {tag l f r c}, T (.fn tag l f r c) → AdjointLeaf dom (.fn tag l f r c))
    (transpose : ∀ {tag l f r c}, T (.fn tag l f r c) → T (Op.fn tag l f r c).transpose) :
    LinearLeaves dom T := by
  refine ⟨⟨fun h x hx _ => shape h x hx, ?_, fun h1 h2 x hx _ => closed h1 h2 x hx, ?_⟩, adjoint,
    transpose⟩
  · intro tag l f r c h
    obtain ⟨h1, h2⟩ := shape h (Arr.zeros c) rfl
    refine eq_zeros_of_inner h1 h2 fun y hy _ => ?_
    rw [(adjoint h).2.2.2 (Arr.zeros c) y rfl hy]
    simp [inner, Arr.zeros]
  · intro l l' f g a b c h1 h2 x hx _
    obtain ⟨s1, _⟩ := shape h2 x hx
    obtain ⟨s3, s4⟩ := shape h1 (g x) s1
    refine eq_zeros_of_inner s3 s4 fun y hy _ => ?_
    rw [(adjoint h1).2.2.2 (g x) y s1 hy]
    have ht1 := transpose h1
    have ht2 := transpose h2
    rw [Op.transpose] at ht1 ht2
    obtain ⟨s5, _⟩ := shape ht1 y hy
    rw [(adjoint h2).2.2.2 x (l y) hx s5, closed ht2 ht1 y hy]
    simp [inner, Arr.zeros]

end

section

variable {N : Nat} {R : Type} [Field R] [LinearOrder R] [IsStrictOrderedRing R]
  {t : StencilTopology N}

/-- the derivative operators of a topology -/
def TopologyLeaf (t : StencilTopology N) (o : Op (FormShape N) (FormIndex N) R) : Prop :=
  ∃ garbage : Nat → (Fin N → Nat) → R, ∃ n < N, o = t.primal garbage n ∨ o = t.dual garbage n

theorem mkForm_valid (s : FormShape N) (data : Nat → (Fin N → Nat) → R) :
    ValidArr t.dom (t.mkForm s data) := fun ci hi => by
  unfold StencilTopology.mkForm at hi ⊢
  exact if_neg hi

theorem topology_leaves (h : TopologySpec t) : LinearLeaves t.dom (TopologyLeaf (R := R) t) := by
  apply linearLeaves_of
  · rintro tag l f r c ⟨garbage, n, hn, ho | ho⟩ x hx
    · unfold StencilTopology.primal at ho
      cases ho
      exact ⟨rfl, mkForm_valid _ _⟩
    · unfold StencilTopology.dual StencilTopology.primal at ho
      rw [Op.transpose] at ho
      cases ho
      exact ⟨rfl, mkForm_valid _ _⟩
  · rintro l l' f g a b c ⟨garbage, n, hn, ho | ho⟩ ⟨garbage', n', hn', ho' | ho'⟩ x hx
    · unfold StencilTopology.primal at ho ho'
      cases ho
      cases ho'
      exact primal_primal h garbage' garbage n' x
    · unfold StencilTopology.dual StencilTopology.primal at ho'
      rw [Op.transpose] at ho'
      cases ho'
    · unfold StencilTopology.dual StencilTopology.primal at ho
      rw [Op.transpose] at ho
      cases ho
    · unfold StencilTopology.dual StencilTopology.primal at ho
      rw [Op.transpose] at ho
      cases ho
  · rintro tag l f r c ⟨garbage, n, hn, ho | ho⟩
    · unfold StencilTopology.primal at ho
      cases ho
      refine ⟨nofun, fun _ _ => rfl, fun _ _ => rfl, fun x y _ _ => ?_⟩
      exact primal_adjoint h garbage garbage hn x y
    · unfold StencilTopology.dual StencilTopology.primal at ho
      rw [Op.transpose] at ho
      cases ho
      refine ⟨nofun, fun _ _ => rfl, fun _ _ => rfl, fun x y _ _ => ?_⟩
      have := primal_adjoint h garbage garbage hn y x
      simp only [inner, mul_comm] at this ⊢
      exact this.symm
  · rintro tag l f r c ⟨garbage, n, hn, ho | ho⟩
    · exact ⟨garbage, n, hn, .inr (by rw [ho]; rfl)⟩
    · refine ⟨garbage, n, hn, .inl ?_⟩
      rw [ho, StencilTopology.dual, C33_involution]

/-! ### the canonical system -/

theorem mk_hodge_primal (garbage : Nat → (Fin N → Nat) → R) (scale : R) (i : Nat) :
    mkComposed [stencilHodge t scale (i + 1), t.primal garbage i] =
      .ok (.composed [stencilHodge t scale (i + 1), t.primal garbage i]
        (i + 1, t.shape) (i, t.shape)) :=
  mkComposed_iff.mpr ⟨_, _, by simp, .cons rfl (.cons rfl (.nil _)), rfl⟩

theorem mk_dual_hodge (garbage : Nat → (Fin N → Nat) → R) (scale : R) (i : Nat) :
    mkComposed [t.dual garbage i, stencilHodge t scale (i + 1)] =
      .ok (.composed [t.dual garbage i, stencilHodge t scale (i + 1)]
        (i, t.shape) (i + 1, t.shape)) := by
  refine mkComposed_iff.mpr ⟨_, _, by simp, .cons ?_ (.cons ?_ (.nil _)), rfl⟩
  · unfold StencilTopology.dual StencilTopology.primal; rw [Op.transpose]; rfl
  · unfold StencilTopology.dual StencilTopology.primal; rw [Op.transpose]; rfl

theorem hodge_primal (garbage : Nat → (Fin N → Nat) → R) (scale : R) (i : Nat) :
    (stencilHodge t scale (i + 1)).mul t.dom (t.primal garbage i) =
      .ok (.composed [stencilHodge t scale (i + 1), t.primal garbage i]
        (i + 1, t.shape) (i, t.shape)) := by
  rw [Op.mul, mk_hodge_primal]
  exact simplify_done rfl

theorem dual_hodge (garbage : Nat → (Fin N → Nat) → R) (scale : R) (i : Nat) :
    (t.dual garbage i).mul t.dom (stencilHodge t scale (i + 1)) =
      .ok (.composed [t.dual garbage i, stencilHodge t scale (i + 1)]
        (i, t.shape) (i + 1, t.shape)) := by
  rw [Op.mul, mk_dual_hodge]
  refine simplify_done ?_
  unfold StencilTopology.dual StencilTopology.primal
  rw [Op.transpose]
  rfl

/-- the blocks of the canonical system -/
def canonicalBlock (t : StencilTopology N) (garbage : Nat → (Fin N → Nat) → R) (scale : R)
    (i j : Nat) : Op (FormShape N) (FormIndex N) R :=
  if i = j then stencilHodge t scale i
  else if i = j + 1 then .composed [stencilHodge t scale (j + 1), t.primal garbage j]
    (j + 1, t.shape) (j, t.shape)
  else if j = i + 1 then .composed [t.dual garbage i, stencilHodge t scale (i + 1)]
    (i, t.shape) (i + 1, t.shape)
  else .zero (i, t.shape) (j, t.shape)

theorem identity_ok {S I : Type} [DecidableEq S] (m : Nat) (l : Nat → S) :
    ∃ f, (BlockOp.identity m l : Except PyErr (BlockOp S I R)) = .ok ⟨m, m, f⟩ ∧
      ∀ i < m, ∀ j < m, f i j = if i = j then .identity (l i) else .zero (l i) (l j) := by
  have key : ∀ n ≤ m, (List.range n).foldlM (fun (A : BlockOp S I R) i => BlockOp.setOne A i i)
      (BlockOp.zeros m m l l : BlockOp S I R) =
      (.ok ⟨m, m, fun i j => if i = j ∧ i < n then .identity (l i)
        else .zero (l i) (l j)⟩ : Except PyErr (BlockOp S I R)) := by
    intro n hn
    induction n with
    | zero => simp [BlockOp.zeros, pure, Except.pure]
    | succ n ih =>
      rw [List.range_succ, List.foldlM_append, ih (by omega)]
      simp only [List.foldlM_cons, List.foldlM_nil, bind, Except.bind, pure, Except.pure]
      rw [BlockOp.setOne, if_pos ⟨hn, hn, by simp [Op.rows, Op.cols]⟩]
      simp only [Except.ok.injEq, BlockOp.mk.injEq, true_and]
      funext i j
      by_cases h1 : i = n ∧ j = n
      · obtain ⟨rfl, rfl⟩ := h1
        simp [Op.rows]
      · rw [if_neg h1]
        by_cases h2 : i = j ∧ i < n
        · rw [if_pos h2, if_pos ⟨h2.1, by omega⟩]
        · rw [if_neg h2, if_neg]
          rintro ⟨h3, h4⟩
          exact h2 ⟨h3, by omega⟩
  refine ⟨_, key m le_rfl, fun i hi j _ => ?_⟩
  by_cases h : i = j
  · subst h
    rw [if_pos rfl, if_pos ⟨rfl, hi⟩]
  · rw [if_neg h, if_neg (fun h' => h h'.1)]

theorem canonical_ok (t : StencilTopology N) (garbage : Nat → (Fin N → Nat) → R) (scale : R) :
    ∃ sys, canonicalSystem t garbage scale = .ok sys ∧
      sys.A.rows = N + 1 ∧ sys.A.cols = N + 1 ∧ sys.B.rows = N + 1 ∧ sys.B.cols = N + 1 ∧
      (∀ i ≤ N, ∀ j ≤ N, sys.A.block i j = canonicalBlock t garbage scale i j) ∧
      ∀ i ≤ N, ∀ j ≤ N, sys.B.block i j =
        if i = j then .identity (i, t.shape) else .zero (i, t.shape) (j, t.shape) := by
  obtain ⟨fB, hB1, hB2⟩ := identity_ok (R := R) (I := FormIndex N) (N + 1)
    (fun n => ((n, t.shape) : FormShape N))
  have loop1 : ∀ n ≤ N, (List.range n).foldlM (fun A i => do
      let down ← (stencilHodge t scale (i + 1)).mul t.dom (t.primal garbage i)
      let A ← BlockOp.set A (i + 1) i down
      let up ← (t.dual garbage i).mul t.dom (stencilHodge t scale (i + 1))
      A.set i (i + 1) up)
      (BlockOp.zeros (N + 1) (N + 1) (fun n => ((n, t.shape) : FormShape N))
        fun n => ((n, t.shape) : FormShape N)) =
      (.ok ⟨N + 1, N + 1, fun i j =>
        if i = j + 1 ∧ j < n then .composed [stencilHodge t scale (j + 1), t.primal garbage j]
          (j + 1, t.shape) (j, t.shape)
        else if j = i + 1 ∧ i < n then .composed [t.dual garbage i, stencilHodge t scale (i + 1)]
          (i, t.shape) (i + 1, t.shape)
        else .zero (i, t.shape) (j, t.shape)⟩ :
          Except PyErr (BlockOp (FormShape N) (FormIndex N) R)) := by
    intro n hn
    induction n with
    | zero => simp [BlockOp.zeros, pure, Except.pure]
    | succ n ih =>
      rw [List.range_succ, List.foldlM_append, ih (by omega)]
      simp only [List.foldlM_cons, List.foldlM_nil, bind, Except.bind, pure, Except.pure,
        hodge_primal, dual_hodge]
      rw [BlockOp.set, if_pos ⟨by simp only []; omega, by simp only []; omega, by
        simp [Op.rows], by simp [Op.cols]⟩]
      simp only []
      rw [BlockOp.set, if_pos ⟨by simp only []; omega, by simp only []; omega, by
        simp [Op.rows], by simp [Op.cols]⟩]
      simp only [Except.ok.injEq, BlockOp.mk.injEq, true_and]
      funext i j
      by_cases h1 : i = n ∧ j = n + 1
      · obtain ⟨rfl, rfl⟩ := h1
        simp
      · rw [if_neg h1]
        by_cases h2 : i = n + 1 ∧ j = n
        · obtain ⟨rfl, rfl⟩ := h2
          simp
        · rw [if_neg h2]
          by_cases h3 : i = j + 1 ∧ j < n
          · rw [if_pos h3, if_pos ⟨h3.1, by omega⟩]
          · have h3' : ¬(i = j + 1 ∧ j < n + 1) := by rintro ⟨a, b⟩; omega
            rw [if_neg h3, if_neg h3']
            by_cases h4 : j = i + 1 ∧ i < n
            · rw [if_pos h4, if_pos ⟨h4.1, by omega⟩]
            · have h4' : ¬(j = i + 1 ∧ i < n + 1) := by rintro ⟨a, b⟩; omega
              rw [if_neg h4, if_neg h4']
  have loop2 : ∀ (f : Nat → Nat → Op (FormShape N) (FormIndex N) R),
      (∀ i, (f i i).rows = (i, t.shape) ∧ (f i i).cols = (i, t.shape)) → ∀ n ≤ N + 1,
      (List.range n).foldlM (fun A i => BlockOp.set A i i (stencilHodge t scale i))
        (⟨N + 1, N + 1, f⟩ : BlockOp (FormShape N) (FormIndex N) R) =
      (.ok ⟨N + 1, N + 1, fun i j => if i = j ∧ i < n then stencilHodge t scale i else f i j⟩ :
        Except PyErr (BlockOp (FormShape N) (FormIndex N) R)) := by
    intro f hf n hn
    induction n with
    | zero => simp [pure, Except.pure]
    | succ n ih =>
      rw [List.range_succ, List.foldlM_append, ih (by omega)]
      simp only [List.foldlM_cons, List.foldlM_nil, bind, Except.bind, pure, Except.pure]
      rw [BlockOp.set, if_pos ⟨by simp only []; omega, by simp only []; omega, by
        simp [hf n]; rfl, by simp [hf n]; rfl⟩]
      simp only [Except.ok.injEq, BlockOp.mk.injEq, true_and]
      funext i j
      by_cases h1 : i = n ∧ j = n
      · obtain ⟨rfl, rfl⟩ := h1
        simp
      · rw [if_neg h1]
        by_cases h2 : i = j ∧ i < n
        · rw [if_pos h2, if_pos ⟨h2.1, by omega⟩]
        · rw [if_neg h2, if_neg (by rintro ⟨a, b⟩; omega)]
  refine ⟨⟨⟨N + 1, N + 1, fun i j => if i = j ∧ i < N + 1 then stencilHodge t scale i else
        if i = j + 1 ∧ j < N then .composed [stencilHodge t scale (j + 1), t.primal garbage j]
          (j + 1, t.shape) (j, t.shape)
        else if j = i + 1 ∧ i < N then .composed [t.dual garbage i, stencilHodge t scale (i + 1)]
          (i, t.shape) (i + 1, t.shape)
        else .zero (i, t.shape) (j, t.shape)⟩, ⟨N + 1, N + 1, fB⟩⟩,
        ?_, rfl, rfl, rfl, rfl, ?_, ?_⟩
  · simp only [canonicalSystem]
    rw [hB1]
    simp only [bind, Except.bind]
    have e1 := loop1 N le_rfl
    simp only [bind, Except.bind] at e1
    rw [e1]
    simp only []
    rw [loop2 _ ?_ (N + 1) le_rfl]
    intro i
    simp [Op.rows, Op.cols]
  · intro i hi j hj
    simp only [canonicalBlock]
    by_cases h : i = j
    · rw [if_pos h, if_pos ⟨h, by omega⟩]
    · rw [if_neg h, if_neg (by rintro ⟨a, _⟩; exact h a)]
      by_cases h1 : i = j + 1
      · rw [if_pos h1, if_pos ⟨h1, by omega⟩]
      · rw [if_neg h1, if_neg (by rintro ⟨a, _⟩; exact h1 a)]
        by_cases h2 : j = i + 1
        · rw [if_pos h2, if_pos ⟨h2, by omega⟩]
        · rw [if_neg h2, if_neg (by rintro ⟨a, _⟩; exact h2 a)]
  · intro i hi j hj
    exact hB2 i (by omega) j (by omega)

/-- C38: `System.canonical` succeeds, and its block operator is equal to its transpose -/
theorem C38_symmetric (t : StencilTopology N) (garbage : Nat → (Fin N → Nat) → R) (scale : R) :
    ∃ sys, canonicalSystem t garbage scale = .ok sys ∧ sys.A.rows = N + 1 ∧ sys.A.cols = N + 1 ∧
      ∀ i ≤ N, ∀ j ≤ N, sys.A.transpose.block i j = sys.A.block i j := by
  obtain ⟨sys, h1, h2, h3, _, _, h4, _⟩ := canonical_ok t garbage scale
  refine ⟨sys, h1, h2, h3, fun i hi j hj => ?_⟩
  rw [h4 i hi j hj]
  show (sys.A.block j i).transpose = _
  rw [h4 j hj i hi]
  unfold canonicalBlock
  by_cases h : i = j
  · subst h
    rw [if_pos rfl]
    rfl
  · rw [if_neg h, if_neg (Ne.symm h)]
    by_cases h5 : i = j + 1
    · subst h5
      rw [if_neg (by omega), if_pos rfl, if_pos rfl, transpose_composed]
      simp only [List.map_cons, List.map_nil, List.reverse_cons, List.reverse_nil, List.nil_append,
        List.cons_append, StencilTopology.dual, C33_involution]
      rfl
    · rw [if_neg h5]
      by_cases h6 : j = i + 1
      · subst h6
        rw [if_pos rfl, if_neg h5, if_pos rfl, transpose_composed]
        simp only [List.map_cons, List.map_nil, List.reverse_cons, List.reverse_nil,
          List.nil_append, List.cons_append, StencilTopology.dual]
        rfl
      · rw [if_neg h6, if_neg h6, if_neg h5]
        rfl

end

/-! ### normal equations -/

section

variable {S I R : Type} [DecidableEq S] [Field R] [LinearOrder R] [IsStrictOrderedRing R]
  {dom : S → Finset I} {T : Op S I R → Prop} {good : Nat → R → Prop} {K : Nat}

theorem simplify_block_ok (hT : FnLeaves dom T) (hG : GradedEntries good K) {k m n : Nat}
    (hk : k ≤ K) {rs cs : Nat → S} {A : BlockOp S I R} (hA : Conforming T good k m n rs cs A)
    (hn : 0 < n) :
    ∃ A', A.simplify dom = .ok A' ∧ Conforming T good k m n rs cs A' ∧
      ∀ x, BlockVector dom n cs x → ∃ y z, A.vecMul x = .ok y ∧ A'.vecMul x = .ok z ∧
        BlockVector dom m rs y ∧ BlockVector dom m rs z ∧ ∀ i < m, z.block i = y.block i := by
  have hent : ∀ i < A.rows, ∃ r, collect A.cols (A.block 0 0) (fun j =>
          (A.block i j).simplify dom) = .ok r ∧
      ∀ j < n, (r j).rows = rs i ∧ (r j).cols = cs j ∧ Constructed (r j) ∧
        Graded T good k (r j) ∧
        ∀ x : Arr S I R, x.shape = cs j → ValidArr dom x → ev (r j) x = ev (A.block i j) x := by
    intro i hi
    rw [hA.rows] at hi
    rw [hA.cols]
    refine collect_exists (P := fun j r => r.rows = rs i ∧ r.cols = cs j ∧ Constructed r ∧
        Graded T good k r ∧
        ∀ x : Arr S I R, x.shape = cs j → ValidArr dom x → ev r x = ev (A.block i j) x) ?_
    intro j hj
    obtain ⟨s1, s2⟩ := hA.shape i hi j hj
    obtain ⟨o, h1, h2, h3, h4, h5, h6⟩ := C32_simplify_graded hT hG hk (A.block i j)
      (hA.constructed i hi j hj) (hA.graded i hi j hj)
    refine ⟨o, h1, h2.trans s1, h3.trans s2, h4, h5, fun x hx hv => ?_⟩
    rw [ev, ev, h6 x hv]
  obtain ⟨r, h1, h2⟩ := collect_exists (dflt := fun _ => A.block 0 0) hent
  have h2' : ∀ i < m, ∀ k < n, _ := fun i hi => h2 i (by rw [hA.rows]; exact hi)
  have hC : Conforming T good k m n rs cs ⟨A.rows, A.cols, r⟩ :=
    ⟨hA.rows, hA.cols, fun i hi j hj => ⟨(h2' i hi j hj).1, (h2' i hi j hj).2.1⟩,
      fun i hi j hj => (h2' i hi j hj).2.2.1, fun i hi j hj => (h2' i hi j hj).2.2.2.1⟩
  refine ⟨⟨A.rows, A.cols, r⟩, ?_, hC, fun x hx => ?_⟩
  · rw [BlockOp.simplify, h1]
    rfl
  · obtain ⟨y, y1, y2, y3⟩ := vecMul_ok hT hA hn hx
    obtain ⟨z, z1, z2, z3⟩ := vecMul_ok hT hC hn hx
    refine ⟨y, z, y1, z1, y2, z2, fun i hi => ?_⟩
    rw [y3 i hi, z3 i hi]
    congr 1
    funext p
    refine Finset.sum_congr rfl fun j hj => ?_
    have hj := Finset.mem_range.mp hj
    simp only
    rw [(h2' i hi j hj).2.2.2.2 _ (hx.shape j hj) (hx.valid j hj)]

theorem blockInner_congr {n : Nat} {cs : Nat → S} {x x' y y' : BlockArr S I R}
    (h : ∀ j < n, x.block j = x'.block j) (h' : ∀ j < n, y.block j = y'.block j) :
    blockInner dom n cs x y = blockInner dom n cs x' y' :=
  Finset.sum_congr rfl fun j hj => by
    rw [h j (Finset.mem_range.mp hj), h' j (Finset.mem_range.mp hj)]

theorem blockInner_comm {n : Nat} {cs : Nat → S} {x y : BlockArr S I R} :
    blockInner dom n cs x y = blockInner dom n cs y x :=
  Finset.sum_congr rfl fun _ _ => Finset.sum_congr rfl fun _ _ => mul_comm _ _

theorem blockInner_nonneg {n : Nat} {cs : Nat → S} (x : BlockArr S I R) :
    0 ≤ blockInner dom n cs x x :=
  Finset.sum_nonneg fun _ _ => Finset.sum_nonneg fun _ _ => mul_self_nonneg _

theorem vecMul_congr (hT : FnLeaves dom T) {k m n : Nat} {rs cs : Nat → S} {A : BlockOp S I R}
    (hA : Conforming T good k m n rs cs A) (hn : 0 < n) {x x' y y' : BlockArr S I R}
    (hx : BlockVector dom n cs x) (hx' : BlockVector dom n cs x')
    (h : ∀ j < n, x.block j = x'.block j) (hy : A.vecMul x = .ok y) (hy' : A.vecMul x' = .ok y') :
    ∀ i < m, y.block i = y'.block i := by
  obtain ⟨z, z1, _, z3⟩ := vecMul_ok hT hA hn hx
  obtain ⟨z', z1', _, z3'⟩ := vecMul_ok hT hA hn hx'
  rw [hy] at z1
  rw [hy'] at z1'
  cases z1
  cases z1'
  intro i hi
  rw [z3 i hi, z3' i hi]
  congr 1
  funext p
  exact Finset.sum_congr rfl fun j hj => by rw [h j (Finset.mem_range.mp hj)]

/-- C38: for a system of conforming block operators `A` and `B`, `normal()` succeeds; its left
operator sends `x` to `A.transpose() * (A * x)` and its right operator sends `y` to
`A.transpose() * (B * y)`; so it is symmetric and positive, and every exact solution of the system
solves the normal equations -/
theorem C38_normal (hT : LinearLeaves dom T) (hG : GradedEntries good K) {ka kb m n l : Nat}
    (hka : ka + ka ≤ K) (hkb : ka + kb ≤ K) (hm : 0 < m) (hn : 0 < n) (hl : 0 < l)
    {rs cs ds : Nat → S} {sys : StencilSystem S I R}
    (hA : Conforming T good ka m n rs cs sys.A) (hB : Conforming T good kb m l rs ds sys.B) :
    ∃ nrm, sys.normal dom = .ok nrm ∧
      Conforming T good (ka + ka) n n cs cs nrm.A ∧ Conforming T good (ka + kb) n l cs ds nrm.B ∧
      (∀ x, BlockVector dom n cs x → ∃ ax aax nx, sys.A.vecMul x = .ok ax ∧
        sys.A.transpose.vecMul ax = .ok aax ∧ nrm.A.vecMul x = .ok nx ∧
        (∀ i < n, nx.block i = aax.block i) ∧
        blockInner dom n cs x nx = blockInner dom m rs ax ax ∧ 0 ≤ blockInner dom n cs x nx ∧
        ∀ x', BlockVector dom n cs x' → ∃ nx', nrm.A.vecMul x' = .ok nx' ∧
          blockInner dom n cs nx x' = blockInner dom n cs x nx') ∧
      ∀ x y, BlockVector dom n cs x → BlockVector dom l ds y →
        ∃ ax by' aby nx ny, sys.A.vecMul x = .ok ax ∧ sys.B.vecMul y = .ok by' ∧
          sys.A.transpose.vecMul by' = .ok aby ∧
          nrm.A.vecMul x = .ok nx ∧ nrm.B.vecMul y = .ok ny ∧ (∀ i < n, ny.block i = aby.block i) ∧
          ((∀ i < m, ax.block i = by'.block i) → ∀ i < n, nx.block i = ny.block i) := by
  have hAT := conforming_transpose hT hA
  obtain ⟨C, c1, c2, c3⟩ := C37_compose hT hG hka hm hn hAT hA
  obtain ⟨C', d1, d2, d3⟩ := simplify_block_ok hT.toFnLeaves hG hka c2 hn
  obtain ⟨D, e1, e2, e3⟩ := C37_compose hT hG hkb hm hl hAT hB
  obtain ⟨D', f1, f2, f3⟩ := simplify_block_ok hT.toFnLeaves hG hkb e2 hl
  have keyA : ∀ x, BlockVector dom n cs x → ∃ ax aax nx, sys.A.vecMul x = .ok ax ∧
      sys.A.transpose.vecMul ax = .ok aax ∧ C'.vecMul x = .ok nx ∧ BlockVector dom m rs ax ∧
      BlockVector dom n cs nx ∧ ∀ i < n, nx.block i = aax.block i := by
    intro x hx
    obtain ⟨ax, aax, nx, g1, g2, g3, g4, g5, g6⟩ := c3 x hx
    obtain ⟨u, v, k1, k2, k3, k4, k5⟩ := d3 x hx
    rw [g3] at k1
    cases k1
    obtain ⟨w, w1, w2, _⟩ := vecMul_ok hT.toFnLeaves hA hn hx
    rw [g1] at w1
    cases w1
    exact ⟨ax, aax, v, g1, g2, k2, w2, k4, fun i hi => (k5 i hi).trans (g6 i hi)⟩
  refine ⟨⟨C', D'⟩, ?_, d2, f2, ?_, ?_⟩
  · rw [StencilSystem.normal]
    simp only [c1, d1, e1, f1, bind, Except.bind]
  · intro x hx
    obtain ⟨ax, aax, nx, h1, h2, h3, h4, h5, h6⟩ := keyA x hx
    have hadj : ∀ x', BlockVector dom n cs x' → ∀ ax', sys.A.vecMul x' = .ok ax' →
        blockInner dom n cs x' nx = blockInner dom m rs ax' ax := by
      intro x' hx' ax' hax'
      obtain ⟨u, v, k1, k2, _, _, k5⟩ := C37_adjoint hT hm hn hA hx' h4
      rw [hax'] at k1
      rw [h2] at k2
      cases k1
      cases k2
      rw [k5]
      exact blockInner_congr (fun _ _ => rfl) h6
    have hsq := hadj x hx ax h1
    refine ⟨ax, aax, nx, h1, h2, h3, h6, hsq, hsq ▸ blockInner_nonneg ax, fun x' hx' => ?_⟩
    obtain ⟨ax', aax', nx', h1', h2', h3', h4', h5', h6'⟩ := keyA x' hx'
    refine ⟨nx', h3', ?_⟩
    obtain ⟨u, v, k1, k2, _, _, k5⟩ := C37_adjoint hT hm hn hA hx h4'
    rw [h1] at k1
    rw [h2'] at k2
    cases k1
    cases k2
    rw [blockInner_comm, hadj x' hx' ax' h1', blockInner_comm, k5]
    exact blockInner_congr (fun _ _ => rfl) fun i hi => (h6' i hi).symm
  · intro x y hx hy
    obtain ⟨ax, aax, nx, h1, h2, h3, h4, h5, h6⟩ := keyA x hx
    obtain ⟨bv, aby, ny, g1, g2, g3, g4, g5, g6⟩ := e3 y hy
    obtain ⟨u, v, k1, k2, k3, k4, k5⟩ := f3 y hy
    rw [g3] at k1
    cases k1
    obtain ⟨w, w1, w2, _⟩ := vecMul_ok hT.toFnLeaves hB hl hy
    rw [g1] at w1
    cases w1
    have hny : ∀ i < n, v.block i = aby.block i := fun i hi => (k5 i hi).trans (g6 i hi)
    refine ⟨ax, bv, aby, nx, v, h1, g1, g2, h3, k2, hny, fun heq i hi => ?_⟩
    rw [h6 i hi, hny i hi]
    exact vecMul_congr hT.toFnLeaves hAT hm h4 w2 heq h2 g2 i hi

/-- C38: `normal_ne()` succeeds; its left operator sends `x` to `A * (A.transpose() * x)`, so every
solution `z` of it gives the solution `A.transpose() * z` of the system -/
theorem C38_normal_ne (hT : LinearLeaves dom T) (hG : GradedEntries good K) {ka m n : Nat}
    (hka : ka + ka ≤ K) (hm : 0 < m) (hn : 0 < n)
    {rs cs : Nat → S} {sys : StencilSystem S I R} (hA : Conforming T good ka m n rs cs sys.A) :
    ∃ nrm, sys.normalNe dom = .ok nrm ∧ nrm.B = sys.B ∧
      ∀ z, BlockVector dom m rs z → ∃ x ax nz, sys.A.transpose.vecMul z = .ok x ∧
        sys.A.vecMul x = .ok ax ∧ nrm.A.vecMul z = .ok nz ∧ (∀ i < m, nz.block i = ax.block i) ∧
        0 ≤ blockInner dom m rs z nz := by
  have hAT := conforming_transpose hT hA
  obtain ⟨C, c1, c2, c3⟩ := C37_compose hT hG hka hn hm hA hAT
  obtain ⟨C', d1, d2, d3⟩ := simplify_block_ok hT.toFnLeaves hG hka c2 hm
  refine ⟨⟨C', sys.B⟩, ?_, rfl, fun z hz => ?_⟩
  · rw [StencilSystem.normalNe]
    simp only [c1, d1, bind, Except.bind]
  · obtain ⟨x, ax, nz, g1, g2, g3, g4, g5, g6⟩ := c3 z hz
    obtain ⟨u, v, k1, k2, k3, k4, k5⟩ := d3 z hz
    rw [g3] at k1
    cases k1
    have h6 : ∀ i < m, v.block i = ax.block i := fun i hi => (k5 i hi).trans (g6 i hi)
    refine ⟨x, ax, v, g1, g2, k2, h6, ?_⟩
    obtain ⟨w, w1, w2, _⟩ := vecMul_ok hT.toFnLeaves hAT hm hz
    rw [g1] at w1
    cases w1
    obtain ⟨p, q, k1, k2, _, _, k5⟩ := C37_adjoint hT hm hn hA w2 hz
    rw [g2] at k1
    rw [g1] at k2
    cases k1
    cases k2
    rw [blockInner_congr (fun _ _ => rfl) h6, blockInner_comm, k5]
    exact blockInner_nonneg _

end

/-! ### the normal equations of the canonical system -/

section

variable {R : Type} [Field R] [LinearOrder R] [IsStrictOrderedRing R]

theorem hodge_entries {N K : Nat} {scale : R} (h : ScaleOk scale (K * N)) :
    GradedEntries (HodgeEntry N scale) K := by
  refine ⟨?_, ?_, ?_, ?_⟩
  · rintro j k a ⟨e, h1, h2⟩ hjk
    refine ⟨e, h1.trans ?_, h2⟩
    exact_mod_cast Nat.mul_le_mul_right N hjk
  · rintro j k a b ⟨e, h1, rfl⟩ ⟨e', h3, rfl⟩
    refine ⟨e + e', ?_, (zpow_add₀ h.1.ne' e e').symm⟩
    have h5 := abs_add_le e e'
    push_cast at h1 h3 ⊢
    rw [add_mul]
    omega
  · rintro a ⟨e, h1, rfl⟩ h2
    have h3 := (h.2 e h1).1
    rw [abs_of_pos (zpow_pos h.1 e)] at h2
    exact absurd h2 (not_le.mpr h3)
  · rintro a ⟨e, h1, rfl⟩ h2
    exact (h.2 e h1).2 h2

theorem canonical_conforming {N : Nat} {t : StencilTopology N}
    {garbage : Nat → (Fin N → Nat) → R} {scale : R}
    {sys : StencilSystem (FormShape N) (FormIndex N) R}
    (hsys : canonicalSystem t garbage scale = .ok sys) :
    Conforming (TopologyLeaf t) (HodgeEntry N scale) 1 (N + 1) (N + 1) (fun n => (n, t.shape))
      (fun n => (n, t.shape)) sys.A ∧
    Conforming (TopologyLeaf t) (HodgeEntry N scale) 0 (N + 1) (N + 1) (fun n => (n, t.shape))
      (fun n => (n, t.shape)) sys.B := by
  obtain ⟨sys', h1, h2, h3, h4, h5, h6, h7⟩ := canonical_ok t garbage scale
  rw [hsys] at h1
  cases h1
  have hprim : ∀ n < N, ∃ l f, t.primal garbage n =
      .fn .derivative l f (n + 1, t.shape) (n, t.shape) ∧ TopologyLeaf t (t.primal garbage n) :=
    fun n hn => ⟨_, _, rfl, garbage, n, hn, .inl rfl⟩
  have hdual : ∀ n < N, ∃ l f, t.dual garbage n =
      .fn .dualDerivative l f (n, t.shape) (n + 1, t.shape) ∧ TopologyLeaf t (t.dual garbage n) :=
    fun n hn => ⟨_, _, by unfold StencilTopology.dual StencilTopology.primal; rw [Op.transpose],
      garbage, n, hn, .inr rfl⟩
  have hh : ∀ i ≤ N, ∀ p : FormIndex N,
      HodgeEntry N scale 1 ((fun _ => scale ^ ((N : Int) - (i : Int) * 2) : FormIndex N → R) p) :=
    fun i hi p => ⟨_, by rw [abs_le]; push_cast; omega, rfl⟩
  constructor
  · refine ⟨h2, h3, ?_, ?_, ?_⟩
    all_goals
      intro i hi j hj
      rw [h6 i (by omega) j (by omega)]
      unfold canonicalBlock
      by_cases e1 : i = j
      · subst e1
        rw [if_pos rfl]
        first
        | exact ⟨rfl, rfl⟩
        | exact .diagonal _ _ _
        | exact .diagonal (hh i (by omega))
      · rw [if_neg e1]
        by_cases e2 : i = j + 1
        · subst e2
          rw [if_pos rfl]
          obtain ⟨l, f, p1, p2⟩ := hprim j (by omega)
          first
          | exact ⟨rfl, rfl⟩
          | exact .composed (by
              intro o ho
              rcases List.mem_cons.mp ho with rfl | ho
              · exact .diagonal _ _ _
              · rw [List.mem_singleton.mp ho, p1]; exact .fn _ _ _ _ _) (mk_hodge_primal _ _ _)
          | exact .composed (.cons (.diagonal (hh (j + 1) (by omega)))
              (gradedChain_cons.mpr ⟨0, 0, rfl, by rw [p1] at p2 ⊢; exact .fn p2, .nil⟩))
        · rw [if_neg e2]
          by_cases e3 : j = i + 1
          · subst e3
            rw [if_pos rfl]
            obtain ⟨l, f, p1, p2⟩ := hdual i (by omega)
            first
            | exact ⟨rfl, rfl⟩
            | exact .composed (by
                intro o ho
                rcases List.mem_cons.mp ho with rfl | ho
                · rw [p1]; exact .fn _ _ _ _ _
                · rw [List.mem_singleton.mp ho]; exact .diagonal _ _ _) (mk_dual_hodge _ _ _)
            | exact .composed (gradedChain_cons.mpr ⟨0, 1, rfl, by rw [p1] at p2 ⊢; exact .fn p2,
                gradedChain_cons.mpr ⟨1, 0, rfl, .diagonal (hh (i + 1) (by omega)), .nil⟩⟩)
          · rw [if_neg e3]
            first
            | exact ⟨rfl, rfl⟩
            | exact .zero _ _
            | exact .zero
  · refine ⟨h4, h5, ?_, ?_, ?_⟩
    all_goals
      intro i hi j hj
      rw [h7 i (by omega) j (by omega)]
      by_cases e1 : i = j
      · subst e1
        rw [if_pos rfl]
        first
        | exact ⟨rfl, rfl⟩
        | exact .identity _
        | exact .identity
      · rw [if_neg e1]
        first
        | exact ⟨rfl, rfl⟩
        | exact .zero _ _
        | exact .zero

/-- C38: for every periodic grid and every admissible scale, `canonical(...).normal()` succeeds; its
left operator sends `x` to `A * (A * x)`, so that `<x, N x> = |A x|²`, and every exact solution of
`A x = B y`, which is `A x = y`, solves it -/
theorem C38_canonical {uniq : List (List Nat) → List (List Nat)} (hu : UniqSpec uniq) {N : Nat}
    {shape : Fin N → Nat} {t : StencilTopology N} (ht : mkStencilTopology uniq shape = .ok t)
    (garbage : Nat → (Fin N → Nat) → R) {scale : R} (hs : ScaleOk scale (2 * N)) :
    ∃ sys nrm, canonicalSystem t garbage scale = .ok sys ∧ sys.normal t.dom = .ok nrm ∧
      (∀ x, BlockVector t.dom (N + 1) (fun n => (n, shape)) x → ∃ ax aax nx,
        sys.A.vecMul x = .ok ax ∧ sys.A.vecMul ax = .ok aax ∧ nrm.A.vecMul x = .ok nx ∧
        (∀ i < N + 1, nx.block i = aax.block i) ∧
        blockInner t.dom (N + 1) (fun n => (n, shape)) x nx =
          blockInner t.dom (N + 1) (fun n => (n, shape)) ax ax) ∧
      ∀ x y, BlockVector t.dom (N + 1) (fun n => (n, shape)) x →
        BlockVector t.dom (N + 1) (fun n => (n, shape)) y →
        ∃ ax nx ny, sys.A.vecMul x = .ok ax ∧ nrm.A.vecMul x = .ok nx ∧ nrm.B.vecMul y = .ok ny ∧
          ((∀ i < N + 1, ax.block i = y.block i) → ∀ i < N + 1, nx.block i = ny.block i) := by
  obtain ⟨rfl, h⟩ := topologySpec_of_ok hu ht
  have hT := topology_leaves (R := R) h
  have hG := hodge_entries hs
  obtain ⟨sys, h1, _, _, h2⟩ := C38_symmetric t garbage scale
  obtain ⟨hA, hB⟩ := canonical_conforming h1
  obtain ⟨nrm, n1, n2, n3, n4, n5⟩ := C38_normal hT hG (sys := sys) (ka := 1) (kb := 0) (by omega)
    (by omega) (Nat.succ_pos N) (Nat.succ_pos N) (Nat.succ_pos N) hA hB
  have hid : ∀ y, BlockVector t.dom (N + 1) (fun n => (n, t.shape)) y → ∃ by', sys.B.vecMul y =
      .ok by' ∧ ∀ i < N + 1, by'.block i = y.block i := by
    intro y hy
    obtain ⟨by', b1, b2, b3⟩ := vecMul_ok hT.toFnLeaves hB (Nat.succ_pos N) hy
    refine ⟨by', b1, fun i hi => ?_⟩
    rw [b3 i hi]
    obtain ⟨sys', k1, _, _, _, _, _, k7⟩ := canonical_ok t garbage scale
    rw [h1] at k1
    cases k1
    have hys := hy.shape i hi
    rw [← hys]
    congr 1
    funext p
    rw [Finset.sum_eq_single i]
    · rw [k7 i (by omega) i (by omega), if_pos rfl, ev_of_call (call_identity hys)]
    · intro j hj hji
      rw [k7 i (by omega) j (by have := Finset.mem_range.mp hj; omega), if_neg (Ne.symm hji),
        ev_zeroOp rfl]
    · intro hi'
      exact absurd (Finset.mem_range.mpr hi) hi'
  refine ⟨sys, nrm, h1, n1, fun x hx => ?_, fun x y hx hy => ?_⟩
  · obtain ⟨ax, aax, nx, g1, g2, g3, g4, g5, _⟩ := n4 x hx
    obtain ⟨w, w1, w2, _⟩ := vecMul_ok hT.toFnLeaves hA (Nat.succ_pos N) hx
    rw [g1] at w1
    cases w1
    obtain ⟨u, u1, _, u3⟩ := vecMul_ok hT.toFnLeaves hA (Nat.succ_pos N) w2
    obtain ⟨v, v1, _, v3⟩ := vecMul_ok hT.toFnLeaves (conforming_transpose hT hA) (Nat.succ_pos N) w2
    rw [g2] at v1
    cases v1
    refine ⟨ax, u, nx, g1, u1, g3, fun i hi => ?_, g5⟩
    rw [g4 i hi, u3 i hi, v3 i hi]
    congr 1
    funext p
    refine Finset.sum_congr rfl fun j hj => ?_
    rw [h2 i (by omega) j (by have := Finset.mem_range.mp hj; omega)]
  · obtain ⟨ax, by', aby, nx, ny, g1, g2, g3, g4, g5, g6, g7⟩ := n5 x y hx hy
    refine ⟨ax, nx, ny, g1, g4, g5, fun heq => g7 fun i hi => ?_⟩
    obtain ⟨b, b1, b2⟩ := hid y hy
    rw [g2] at b1
    cases b1
    rw [heq i hi, b2 i hi]

end

/-! ### examples -/

theorem scaleOk_half : ScaleOk (1 / 2 : ℚ) 6 := by
  refine ⟨by norm_num, fun e he => ?_⟩
  have h := abs_le.mp he
  have h1 : -6 ≤ e := h.1
  have h2 : e ≤ 6 := h.2
  interval_cases e <;> norm_num

theorem scaleOk_one (M : Nat) : ScaleOk (1 : ℚ) M := ⟨by norm_num, fun e _ => by simp; norm_num⟩

/-- a grid of two by three by two cells with a scale of 1/2, and any block vector -/
example {uniq : List (List Nat) → List (List Nat)} (hu : UniqSpec uniq)
    (x : BlockArr (FormShape 3) (FormIndex 3) ℚ) {t : StencilTopology 3}
    (ht : mkStencilTopology uniq ![2, 3, 2] = .ok t)
    (hx : BlockVector t.dom 4 (fun n => (n, ![2, 3, 2])) x) :
    ∃ sys nrm ax nx, canonicalSystem t (fun _ _ => 0) (1 / 2 : ℚ) = .ok sys ∧
      sys.normal t.dom = .ok nrm ∧ sys.A.vecMul x = .ok ax ∧ nrm.A.vecMul x = .ok nx ∧
      blockInner t.dom 4 (fun n => (n, ![2, 3, 2])) x nx =
        blockInner t.dom 4 (fun n => (n, ![2, 3, 2])) ax ax := by
  obtain ⟨sys, nrm, h1, h2, h3, _⟩ := C38_canonical hu ht (fun _ _ => (0 : ℚ)) scaleOk_half
  obtain ⟨ax, aax, nx, g1, g2, g3, g4, g5⟩ := h3 x hx
  exact ⟨sys, nrm, ax, nx, h1, h2, g1, g3, g5⟩

/-- the first entry of the 0-form in `A.transpose() * (A * x)` and in `normal().A * x`, on the grid
of one cell, for the block vector `x` of the constant 0-form 1 and the 1-form 0 -/
def constantThroughNormal (scale : ℚ) : Except PyErr (ℚ × ℚ) := do
  let t ← mkStencilTopology (N := 1) List.dedup ![1]
  let sys ← canonicalSystem t (fun _ _ => 0) scale
  let x : BlockArr (FormShape 1) (FormIndex 1) ℚ := ⟨2, fun n => ⟨(n, t.shape), fun p =>
    if n = 0 ∧ p ∈ t.dom (n, t.shape) then 1 else 0⟩⟩
  let ax ← sys.A.vecMul x
  let aax ← sys.A.transpose.vecMul ax
  let nrm ← sys.normal t.dom
  let nx ← nrm.A.vecMul x
  .ok ((aax.block 0).val (0, fun _ => 0), (nx.block 0).val (0, fun _ => 0))

instance {α : Type} [DecidableEq α] : DecidableEq (Except PyErr α)
  | .ok a, .ok b => decidable_of_iff (a = b) (by simp)
  | .error a, .error b => decidable_of_iff (a = b) (by simp)
  | .ok _, .error _ => isFalse (by simp)
  | .error _, .ok _ => isFalse (by simp)

/-- with a scale of 1/2 they agree -/
example : constantThroughNormal (1 / 2) = .ok (1 / 4, 1 / 4) := by decide +kernel

/-- C38, failure: with a scale of 1/10000 the square of the Hodge operator of the 0-forms is taken
for zero when the normal equations are simplified: they map the constants to zero, although they are
not mapped to zero by `A` -/
theorem C38_normal_drops_small : constantThroughNormal (1 / 10000) = .ok (1 / 10 ^ 8, 0) := by
  decide +kernel

end Verif.Props
