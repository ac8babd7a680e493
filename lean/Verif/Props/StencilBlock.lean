/-
C37: products and transposes of stencil block operators.
-/
import Verif.Lemmas.StencilBlock

set_option linter.unusedSectionVars false

namespace Verif.Props

open Verif.Model Verif.Spec

section

variable {S I R : Type} [DecidableEq S] [Field R] [LinearOrder R] [IsStrictOrderedRing R]
  {dom : S → Finset I} {T : Op S I R → Prop} {good : Nat → R → Prop} {K : Nat}

/-- the loop of `vector_mul` for one row -/
theorem vecRow_ok (hT : FnLeaves dom T) {k m n : Nat} {rs cs : Nat → S} {A : BlockOp S I R}
    (hA : Conforming T good k m n rs cs A) {x : BlockArr S I R} (hx : BlockVector dom n cs x)
    {i : Nat} (hi : i < m) (n' : Nat) (hn : n' ≤ n) :
    (List.range n').foldlM (fun acc j =>
        if (A.block i j).isZeroOp then .ok acc
        else if j < x.size then do
          let y ← (A.block i j).call (x.block j)
          acc.add y
        else .error .indexError) (Arr.zeros (rs i) : Arr S I R) =
      (.ok ⟨rs i, fun p => ∑ j ∈ Finset.range n', ev (A.block i j) (x.block j) p⟩ :
        Except PyErr (Arr S I R)) := by
  induction n' with
  | zero => simp [Arr.zeros, pure, Except.pure]
  | succ n' ih =>
    rw [List.range_succ, List.foldlM_append, ih (by omega)]
    simp only [List.foldlM_cons, List.foldlM_nil, Finset.sum_range_succ]
    have hj : n' < n := hn
    obtain ⟨s1, s2⟩ := hA.shape i hi n' hj
    by_cases hz : (A.block i n').isZeroOp = true
    · simp only [bind, Except.bind, hz, if_true, pure, Except.pure]
      congr 2
      funext p
      rw [ev_zeroOp hz, add_zero]
    · obtain ⟨c1, _⟩ := ev_spec hT (hA.constructed i hi n' hj) (graded_leaves (hA.graded i hi n' hj))
        (by rw [s2]; exact hx.shape n' hj) (hx.valid n' hj)
      simp only [bind, Except.bind, hz, if_false, pure, Except.pure, hx.size, hj, if_true, c1, s1,
        Arr.add, Bool.false_eq_true]

theorem vecMul_ok (hT : FnLeaves dom T) {k m n : Nat} {rs cs : Nat → S} {A : BlockOp S I R}
    (hA : Conforming T good k m n rs cs A) (hn : 0 < n) {x : BlockArr S I R}
    (hx : BlockVector dom n cs x) :
    ∃ y, A.vecMul x = .ok y ∧ BlockVector dom m rs y ∧
      ∀ i < m, y.block i = ⟨rs i, fun p => ∑ j ∈ Finset.range n, ev (A.block i j) (x.block j) p⟩ := by
  have hrow : ∀ i < A.rows, (List.range A.cols).foldlM (fun acc j =>
        if (A.block i j).isZeroOp then .ok acc
        else if j < x.size then do
          let y ← (A.block i j).call (x.block j)
          acc.add y
        else .error .indexError) (Arr.zeros (A.block i 0).rows : Arr S I R) =
      (.ok ⟨rs i, fun p => ∑ j ∈ Finset.range n, ev (A.block i j) (x.block j) p⟩ :
        Except PyErr (Arr S I R)) := by
    intro i hi
    rw [hA.rows] at hi
    rw [hA.cols, (hA.shape i hi 0 hn).1]
    exact vecRow_ok hT hA hx hi n le_rfl
  obtain ⟨r, h1, h2⟩ := collect_ok (dflt := Arr.zeros (A.block 0 0).rows) hrow
  refine ⟨⟨A.rows, r⟩, ?_, ⟨hA.rows, ?_, ?_⟩, ?_⟩
  · rw [BlockOp.vecMul, if_neg (by rw [hA.cols]; omega)]
    rw [h1]
    rfl
  · intro i hi
    simp only
    rw [h2 i (by rw [hA.rows]; exact hi)]
  · intro i hi
    simp only
    rw [h2 i (by rw [hA.rows]; exact hi)]
    refine valid_sum fun j hj => ?_
    obtain ⟨s1, s2⟩ := hA.shape i hi j hj
    have := (ev_spec hT (hA.constructed i hi j hj) (graded_leaves (hA.graded i hi j hj))
        (by rw [s2]; exact hx.shape j hj) (hx.valid j hj)).2
    rw [s1] at this
    exact this
  · intro i hi
    exact h2 i (by rw [hA.rows]; exact hi)

/-- C37: `A * x` adds up the products of the blocks, row by row -/
theorem C37_distributes (hT : FnLeaves dom T) {k m n : Nat} {rs cs : Nat → S} {A : BlockOp S I R}
    (hA : Conforming T good k m n rs cs A) (hn : 0 < n) {x : BlockArr S I R}
    (hx : BlockVector dom n cs x) :
    ∃ y, A.vecMul x = .ok y ∧ BlockVector dom m rs y ∧
      ∀ i < m, ∃ z : Nat → Arr S I R, (∀ j < n, (A.block i j).call (x.block j) = .ok (z j)) ∧
        ∀ p, (y.block i).val p = ∑ j ∈ Finset.range n, (z j).val p := by
  obtain ⟨y, h1, h2, h3⟩ := vecMul_ok hT hA hn hx
  refine ⟨y, h1, h2, fun i hi => ⟨fun j => ⟨rs i, ev (A.block i j) (x.block j)⟩, ?_, ?_⟩⟩
  · intro j hj
    obtain ⟨s1, s2⟩ := hA.shape i hi j hj
    have := (ev_spec hT (hA.constructed i hi j hj) (graded_leaves (hA.graded i hi j hj))
        (by rw [s2]; exact hx.shape j hj) (hx.valid j hj)).1
    rw [s1] at this
    exact this
  · intro p
    rw [h3 i hi]

/-- the loop of `__mul__` for one entry -/
theorem entry_ok (hT : FnLeaves dom T) (hG : GradedEntries good K) {ka kb m n l : Nat}
    (hk : ka + kb ≤ K) {rs cs ds : Nat → S} {A B : BlockOp S I R}
    (hA : Conforming T good ka m n rs cs A) (hB : Conforming T good kb n l cs ds B)
    {i k : Nat} (hi : i < m) (hkl : k < l) (n' : Nat) (hn : n' ≤ n) :
    ∃ p, (List.range n').foldlM (fun acc j =>
            if (A.block i j).isZeroOp then .ok acc
            else do
              let p ← (A.block i j).mul dom (B.block j k)
              acc.add dom p) (Op.zero (rs i) (ds k)) = (.ok p : Except PyErr (Op S I R)) ∧
      p.rows = rs i ∧ p.cols = ds k ∧ Constructed p ∧ Graded T good (ka + kb) p ∧
      ∀ x : Arr S I R, x.shape = ds k → ValidArr dom x →
        ev p x = fun q => ∑ j ∈ Finset.range n', ev (A.block i j) ⟨cs j, ev (B.block j k) x⟩ q := by
  induction n' with
  | zero =>
    refine ⟨_, rfl, rfl, rfl, .zero _ _, .zero, fun x _ _ => ?_⟩
    rw [ev_zeroOp rfl]
    simp
  | succ n' ih =>
    obtain ⟨p, h1, h2, h3, h4, h5, h6⟩ := ih (by omega)
    have hj : n' < n := hn
    obtain ⟨s1, s2⟩ := hA.shape i hi n' hj
    obtain ⟨s3, s4⟩ := hB.shape n' hj k hkl
    rw [List.range_succ, List.foldlM_append, h1]
    simp only [List.foldlM_cons, List.foldlM_nil, Finset.sum_range_succ]
    by_cases hz : (A.block i n').isZeroOp = true
    · refine ⟨p, ?_, h2, h3, h4, h5, fun x hx hv => ?_⟩
      · simp only [bind, Except.bind, hz, if_true, pure, Except.pure]
      · rw [h6 x hx hv]
        funext q
        rw [ev_zeroOp hz, add_zero]
    · obtain ⟨p', g1, g2, g3, g4, g5, g6⟩ := mul_ok hT hG hk (hA.constructed i hi n' hj)
        (hB.constructed n' hj k hkl) (hA.graded i hi n' hj) (hB.graded n' hj k hkl) (by rw [s2, s3])
      obtain ⟨r, e1, e2, e3, e4, e5, e6⟩ := add_ok hT hG hk h4 g4 h5 g5 (by rw [g2, h2, s1])
        (by rw [g3, h3, s4])
      refine ⟨r, ?_, by rw [e2, h2], by rw [e3, h3], e4, e5, fun x hx hv => ?_⟩
      · simp only [bind, Except.bind, hz, pure, Except.pure, g1, e1, Bool.false_eq_true, if_false]
      · rw [e6 x (by rw [h3]; exact hx) hv, h6 x hx hv, g6 x (by rw [s4]; exact hx) hv, s3]

theorem mul_block_ok (hT : FnLeaves dom T) (hG : GradedEntries good K) {ka kb m n l : Nat}
    (hk : ka + kb ≤ K) (hn : 0 < n) {rs cs ds : Nat → S} {A B : BlockOp S I R}
    (hA : Conforming T good ka m n rs cs A) (hB : Conforming T good kb n l cs ds B) :
    ∃ C, A.mul dom B = .ok C ∧ Conforming T good (ka + kb) m l rs ds C ∧
      ∀ i < m, ∀ k < l, ∀ x : Arr S I R, x.shape = ds k → ValidArr dom x →
        ev (C.block i k) x =
          fun q => ∑ j ∈ Finset.range n, ev (A.block i j) ⟨cs j, ev (B.block j k) x⟩ q := by
  have hent : ∀ i < A.rows, ∃ r, collect B.cols (A.block 0 0) (fun k =>
          (List.range A.cols).foldlM (fun acc j =>
            if (A.block i j).isZeroOp then .ok acc
            else do
              let p ← (A.block i j).mul dom (B.block j k)
              acc.add dom p) (Op.zero (A.block i 0).rows (B.block 0 k).cols)) = .ok r ∧
      ∀ k < l, (r k).rows = rs i ∧ (r k).cols = ds k ∧ Constructed (r k) ∧
        Graded T good (ka + kb) (r k) ∧
        ∀ x : Arr S I R, x.shape = ds k → ValidArr dom x → ev (r k) x =
          fun q => ∑ j ∈ Finset.range n, ev (A.block i j) ⟨cs j, ev (B.block j k) x⟩ q := by
    intro i hi
    rw [hA.rows] at hi
    rw [hA.cols, hB.cols, (hA.shape i hi 0 hn).1]
    refine collect_exists (P := fun k r => r.rows = rs i ∧ r.cols = ds k ∧ Constructed r ∧
        Graded T good (ka + kb) r ∧
        ∀ x : Arr S I R, x.shape = ds k → ValidArr dom x → ev r x =
          fun q => ∑ j ∈ Finset.range n, ev (A.block i j) ⟨cs j, ev (B.block j k) x⟩ q) ?_
    intro k hkl
    rw [(hB.shape 0 hn k hkl).2]
    exact entry_ok hT hG hk hA hB hi hkl n le_rfl
  obtain ⟨r, h1, h2⟩ := collect_exists (dflt := fun _ => A.block 0 0) hent
  have h2' : ∀ i < m, ∀ k < l, _ := fun i hi => h2 i (by rw [hA.rows]; exact hi)
  refine ⟨⟨A.rows, B.cols, r⟩, ?_, ⟨hA.rows, hB.cols, ?_, ?_, ?_⟩, ?_⟩
  · rw [BlockOp.mul, if_pos (by rw [hA.cols, hB.rows]), if_neg (by rw [hA.cols]; omega)]
    rw [h1]
    rfl
  · exact fun i hi k hkl => ⟨(h2' i hi k hkl).1, (h2' i hi k hkl).2.1⟩
  · exact fun i hi k hkl => (h2' i hi k hkl).2.2.1
  · exact fun i hi k hkl => (h2' i hi k hkl).2.2.2.1
  · exact fun i hi k hkl => (h2' i hi k hkl).2.2.2.2

/-- C37: `(A * B) * x` is `A * (B * x)`, for all conforming block operators and vectors -/
theorem C37_compose (hT : LinearLeaves dom T) (hG : GradedEntries good K) {ka kb m n l : Nat}
    (hk : ka + kb ≤ K) (hn : 0 < n) (hl : 0 < l) {rs cs ds : Nat → S} {A B : BlockOp S I R}
    (hA : Conforming T good ka m n rs cs A) (hB : Conforming T good kb n l cs ds B) :
    ∃ C, A.mul dom B = .ok C ∧ Conforming T good (ka + kb) m l rs ds C ∧
      ∀ x, BlockVector dom l ds x → ∃ y z z', B.vecMul x = .ok y ∧ A.vecMul y = .ok z ∧
        C.vecMul x = .ok z' ∧ BlockVector dom m rs z ∧ BlockVector dom m rs z' ∧
        ∀ i < m, z'.block i = z.block i := by
  obtain ⟨C, h1, h2, h3⟩ := mul_block_ok hT.toFnLeaves hG hk hn hA hB
  refine ⟨C, h1, h2, fun x hx => ?_⟩
  obtain ⟨y, y1, y2, y3⟩ := vecMul_ok hT.toFnLeaves hB hl hx
  obtain ⟨z, z1, z2, z3⟩ := vecMul_ok hT.toFnLeaves hA hn y2
  obtain ⟨w, w1, w2, w3⟩ := vecMul_ok hT.toFnLeaves h2 hl hx
  refine ⟨y, z, w, y1, z1, w1, z2, w2, fun i hi => ?_⟩
  rw [z3 i hi, w3 i hi]
  congr 1
  funext p
  have e1 : ∀ k ∈ Finset.range l, ev (C.block i k) (x.block k) p =
      ∑ j ∈ Finset.range n, ev (A.block i j) ⟨cs j, ev (B.block j k) (x.block k)⟩ p := by
    intro k hk
    have hk := Finset.mem_range.mp hk
    rw [h3 i hi k hk _ (hx.shape k hk) (hx.valid k hk)]
  rw [Finset.sum_congr rfl e1, Finset.sum_comm]
  refine Finset.sum_congr rfl fun j hj => ?_
  have hj := Finset.mem_range.mp hj
  rw [y3 j hj]
  obtain ⟨s1, s2⟩ := hA.shape i hi j hj
  have := ev_sum hT (hA.constructed i hi j hj) (graded_leaves (hA.graded i hi j hj)) l
    (v := fun k => ev (B.block j k) (x.block k)) (fun k hk => by
      obtain ⟨s3, s4⟩ := hB.shape j hj k hk
      have := (ev_spec hT.toFnLeaves (hB.constructed j hj k hk)
        (graded_leaves (hB.graded j hj k hk)) (by rw [s4]; exact hx.shape k hk)
        (hx.valid k hk)).2
      rw [s3] at this
      rw [s2]
      exact this)
  rw [s2] at this
  rw [this]

/-! ### transposes -/

theorem graded_transpose (hT : LinearLeaves dom T) {k : Nat} {o : Op S I R} (h : Graded T good k o) :
    Graded T good k o.transpose := by
  revert h
  refine op_induction (P := fun o => ∀ k, Graded T good k o → Graded T good k o.transpose)
    ?_ ?_ ?_ o k
  · intro o h1 h2 k h
    cases h with
    | @fn _ tag l f r c h =>
      have := hT.transpose h
      cases tag <;> (rw [Op.transpose] at this ⊢; exact .fn this)
    | diagonal h => rw [Op.transpose]; exact .diagonal h
    | identity => rw [Op.transpose]; exact .identity
    | zero => rw [Op.transpose]; exact .zero
    | composed => exact absurd rfl h1
    | combined => exact absurd rfl h2
  · intro ops r c ih k h
    rw [transpose_composed]
    refine .composed ?_
    have hg := graded_composed.mp h
    clear h
    induction ops generalizing k with
    | nil => exact .nil
    | cons a t iht =>
      obtain ⟨i, j, rfl, g1, g2⟩ := gradedChain_cons.mp hg
      rw [List.map_cons, List.reverse_cons, Nat.add_comm]
      exact gradedChain_append (iht (fun o ho => ih o (List.mem_cons_of_mem _ ho)) j g2)
        (gradedChain_cons.mpr ⟨i, 0, rfl, ih a List.mem_cons_self i g1, .nil⟩)
  · intro ops r c ih k h
    rw [transpose_combined]
    refine .combined fun o ho => ?_
    obtain ⟨o', h1, rfl⟩ := List.mem_map.mp ho
    exact ih o' h1 k (graded_combined.mp h o' h1)

theorem leaves_squareLeaf (hT : LinearLeaves dom T) {o : Op S I R} (hl : Leaves (FnIn T) o) :
    Leaves SquareLeaf o :=
  leaves_imp (fun o h => by
    cases o with
    | fn tag l f r c =>
      cases tag with
      | symmetric => exact ((hT.adjoint h).1 rfl).2
      | _ => trivial
    | _ => trivial) hl

/-- C37: the transpose of a conforming block operator conforms, with rows and columns exchanged -/
theorem conforming_transpose (hT : LinearLeaves dom T) {k m n : Nat} {rs cs : Nat → S}
    {A : BlockOp S I R} (hA : Conforming T good k m n rs cs A) :
    Conforming T good k n m cs rs A.transpose := by
  refine ⟨hA.cols, hA.rows, ?_, ?_, ?_⟩
  · intro i hi j hj
    obtain ⟨h1, h2⟩ := hA.shape j hj i hi
    obtain ⟨h3, h4⟩ := transpose_rows (leaves_square (leaves_squareLeaf hT
      (graded_leaves (hA.graded j hj i hi))))
    simp only [BlockOp.transpose]
    exact ⟨h3.trans h2, h4.trans h1⟩
  · intro i hi j hj
    exact (constructed_transpose (hA.constructed j hj i hi)
      (leaves_squareLeaf hT (graded_leaves (hA.graded j hj i hi)))).1
  · intro i hi j hj
    exact graded_transpose hT (hA.graded j hj i hi)

/-- C37: the transpose is the adjoint: `<A x, y> = <x, A.transpose() y>` -/
theorem C37_adjoint (hT : LinearLeaves dom T) {k m n : Nat} (hm : 0 < m) (hn : 0 < n)
    {rs cs : Nat → S} {A : BlockOp S I R} (hA : Conforming T good k m n rs cs A)
    {x y : BlockArr S I R} (hx : BlockVector dom n cs x) (hy : BlockVector dom m rs y) :
    ∃ ax aty, A.vecMul x = .ok ax ∧ A.transpose.vecMul y = .ok aty ∧ BlockVector dom m rs ax ∧
      BlockVector dom n cs aty ∧ blockInner dom m rs ax y = blockInner dom n cs x aty := by
  obtain ⟨ax, a1, a2, a3⟩ := vecMul_ok hT.toFnLeaves hA hn hx
  obtain ⟨aty, b1, b2, b3⟩ := vecMul_ok hT.toFnLeaves (conforming_transpose hT hA) hm hy
  refine ⟨ax, aty, a1, b1, a2, b2, ?_⟩
  have e1 : blockInner dom m rs ax y = ∑ i ∈ Finset.range m, ∑ j ∈ Finset.range n,
      inner dom (rs i) ⟨rs i, ev (A.block i j) (x.block j)⟩ (y.block i) := by
    refine Finset.sum_congr rfl fun i hi => ?_
    rw [a3 i (Finset.mem_range.mp hi)]
    simp only [inner, Finset.sum_mul]
    exact Finset.sum_comm
  have e2 : blockInner dom n cs x aty = ∑ j ∈ Finset.range n, ∑ i ∈ Finset.range m,
      inner dom (cs j) (x.block j) ⟨cs j, ev (A.block i j).transpose (y.block i)⟩ := by
    refine Finset.sum_congr rfl fun j hj => ?_
    rw [b3 j (Finset.mem_range.mp hj)]
    simp only [inner, Finset.mul_sum]
    exact Finset.sum_comm
  rw [e1, e2, Finset.sum_comm]
  refine Finset.sum_congr rfl fun j hj => Finset.sum_congr rfl fun i hi => ?_
  have hi := Finset.mem_range.mp hi
  have hj := Finset.mem_range.mp hj
  obtain ⟨s1, s2⟩ := hA.shape i hi j hj
  obtain ⟨u, v, k1, k2, k3, k4, k5⟩ := C33_adjoint (A.block i j) (hA.constructed i hi j hj)
    (leaves_adjoint hT (graded_leaves (hA.graded i hi j hj))) (x.block j) (y.block i)
    (by rw [s2]; exact hx.shape j hj) (by rw [s1]; exact hy.shape i hi)
  rw [ev_of_call k1, ev_of_call k2, ← s1, ← s2]
  exact k5

end

end Verif.Props
