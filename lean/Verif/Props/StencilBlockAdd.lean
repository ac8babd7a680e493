/-
C96: sums and differences of stencil block operators.
-/
import Verif.Model.StencilBlockAdd
import Verif.Props.StencilBlock
import Mathlib.Data.Fintype.Basic

set_option linter.unusedSectionVars false

namespace Verif.Props

open Verif.Model Verif.Spec

section

variable {S I R : Type}

theorem bcastEntry_self {A : BlockOp S I R} {i j : Nat} (hi : i < A.rows) (hj : j < A.cols) : A.bcastEntry i j = A.block i j := by
  unfold BlockOp.bcastEntry
  congr 1
  · split <;> omega
  · split <;> omega

theorem collect_error {α : Type} {n : Nat} {dflt : α} {f : Nat → Except PyErr α} {e : PyErr} (hn : 0 < n)
    (h : f 0 = .error e) : collect n dflt f = .error e := by
  obtain ⟨m, rfl⟩ : ∃ m, n = m + 1 := ⟨n - 1, by omega⟩
  unfold collect
  rw [List.range_succ_eq_map, List.mapM_cons, h]
  rfl

/-- C96: the difference of two block operators with at least one block raises a `TypeError`. -/
theorem C96_sub {A B : BlockOp S I R} (hr : A.rows = B.rows) (hc : A.cols = B.cols) (hm : 0 < A.rows) (hn : 0 < A.cols) :
    A.sub B = .error .typeError := by
  unfold BlockOp.sub BlockOp.broadcasting bcastLength
  rw [if_pos hr, if_pos hc]
  show (do
    let out ← collect A.rows (fun _ => A.block 0 0) fun i =>
      collect A.cols (A.block 0 0) fun j => Op.sub (A.bcastEntry i j) (B.bcastEntry i j)
    Except.ok (⟨A.rows, A.cols, out⟩ : BlockOp S I R)) = _
  rw [collect_error hm (collect_error hn rfl)]
  rfl

variable [DecidableEq S] [Field R] [LinearOrder R] [IsStrictOrderedRing R]
  {dom : S → Finset I} {T : Op S I R → Prop} {good : Nat → R → Prop} {K : Nat}

/-- C96: `(A + B) * x` is `A * x + B * x`, for all conforming block operators and vectors. -/
theorem C96_add (hT : FnLeaves dom T) (hG : GradedEntries good K) {k m n : Nat} (hk : k ≤ K) (hn : 0 < n) {rs cs : Nat → S}
    {A B : BlockOp S I R} (hA : Conforming T good k m n rs cs A) (hB : Conforming T good k m n rs cs B) :
    ∃ C, A.add dom B = .ok C ∧ Conforming T good k m n rs cs C ∧
      ∀ x, BlockVector dom n cs x → ∃ y z w, A.vecMul x = .ok y ∧ B.vecMul x = .ok z ∧ C.vecMul x = .ok w ∧
        BlockVector dom m rs w ∧ ∀ i < m, ∀ p, (w.block i).val p = (y.block i).val p + (z.block i).val p := by
  have hent : ∀ i < m, ∃ r, collect n (A.block 0 0) (fun j => (A.bcastEntry i j).add dom (B.bcastEntry i j)) = .ok r ∧
      ∀ j < n, (r j).rows = rs i ∧ (r j).cols = cs j ∧ Constructed (r j) ∧ Graded T good k (r j) ∧
        ∀ x : Arr S I R, x.shape = cs j → ValidArr dom x → ev (r j) x = fun q => ev (A.block i j) x q + ev (B.block i j) x q := by
    intro i hi
    refine collect_exists (P := fun j r => r.rows = rs i ∧ r.cols = cs j ∧ Constructed r ∧ Graded T good k r ∧
        ∀ x : Arr S I R, x.shape = cs j → ValidArr dom x → ev r x = fun q => ev (A.block i j) x q + ev (B.block i j) x q) ?_
    intro j hj
    rw [bcastEntry_self (by rw [hA.rows]; exact hi) (by rw [hA.cols]; exact hj),
      bcastEntry_self (by rw [hB.rows]; exact hi) (by rw [hB.cols]; exact hj)]
    obtain ⟨s1, s2⟩ := hA.shape i hi j hj
    obtain ⟨s3, s4⟩ := hB.shape i hi j hj
    obtain ⟨r, e1, e2, e3, e4, e5, e6⟩ := add_ok hT hG hk (hA.constructed i hi j hj) (hB.constructed i hi j hj)
      (hA.graded i hi j hj) (hB.graded i hi j hj) (by rw [s1, s3]) (by rw [s2, s4])
    exact ⟨r, e1, by rw [e2, s1], by rw [e3, s2], e4, e5, fun x hx hv => e6 x (by rw [s2]; exact hx) hv⟩
  obtain ⟨r, h1, h2⟩ := collect_exists (dflt := fun _ => A.block 0 0) hent
  have hC : Conforming T good k m n rs cs (⟨m, n, r⟩ : BlockOp S I R) :=
    ⟨rfl, rfl, fun i hi j hj => ⟨(h2 i hi j hj).1, (h2 i hi j hj).2.1⟩, fun i hi j hj => (h2 i hi j hj).2.2.1,
      fun i hi j hj => (h2 i hi j hj).2.2.2.1⟩
  refine ⟨⟨m, n, r⟩, ?_, hC, fun x hx => ?_⟩
  · unfold BlockOp.add BlockOp.broadcasting bcastLength
    rw [hA.rows, hA.cols, hB.rows, hB.cols, if_pos rfl, if_pos rfl]
    show (do
      let out ← collect m (fun _ => A.block 0 0) fun i =>
        collect n (A.block 0 0) fun j => (A.bcastEntry i j).add dom (B.bcastEntry i j)
      Except.ok (⟨m, n, out⟩ : BlockOp S I R)) = _
    rw [h1]
    rfl
  · obtain ⟨y, y1, y2, y3⟩ := vecMul_ok hT hA hn hx
    obtain ⟨z, z1, z2, z3⟩ := vecMul_ok hT hB hn hx
    obtain ⟨w, w1, w2, w3⟩ := vecMul_ok hT hC hn hx
    refine ⟨y, z, w, y1, z1, w1, w2, fun i hi p => ?_⟩
    rw [y3 i hi, z3 i hi, w3 i hi]
    show (∑ j ∈ Finset.range n, ev (r i j) (x.block j) p) = (∑ j ∈ Finset.range n, ev (A.block i j) (x.block j) p) +
      ∑ j ∈ Finset.range n, ev (B.block i j) (x.block j) p
    rw [← Finset.sum_add_distrib]
    refine Finset.sum_congr rfl fun j hj => ?_
    have hj := Finset.mem_range.1 hj
    rw [(h2 i hi j hj).2.2.2.2 _ (hx.shape j hj) (hx.valid j hj)]

/-- C96: sums of block operators with different numbers of block rows, none of them one, raise a `ValueError`. -/
theorem C96_mismatch {A B : BlockOp S I R} (h : A.rows ≠ B.rows) (hA : A.rows ≠ 1) (hB : B.rows ≠ 1) :
    A.add dom B = .error .valueError := by
  unfold BlockOp.add BlockOp.broadcasting bcastLength
  rw [if_neg h, if_neg hA, if_neg hB]
  rfl

end

/-- C96, a case: the projection to one of two entries and the identity meet the hypotheses. -/
theorem C96_case : ∃ (T : Op Unit Bool ℚ → Prop) (good : Nat → ℚ → Prop) (A B : BlockOp Unit Bool ℚ),
    FnLeaves (fun _ => Finset.univ) T ∧ GradedEntries good 1 ∧ Conforming T good 1 1 1 (fun _ => ()) (fun _ => ()) A ∧
    Conforming T good 1 1 1 (fun _ => ()) (fun _ => ()) B ∧ A.block 0 0 = .diagonal false (fun b => if b then 1 else 0) () ∧
    B.block 0 0 = .identity () ∧ A.sub B = .error .typeError := by
  refine ⟨fun _ => False, fun _ a => a = 0 ∨ a = 1, ⟨1, 1, fun _ _ => .diagonal false (fun b => if b then 1 else 0) ()⟩,
    ⟨1, 1, fun _ _ => .identity ()⟩, ⟨fun h => h.elim, fun h => h.elim, fun h => h.elim, fun h => h.elim⟩, ?_, ?_, ?_, rfl, rfl,
    C96_sub rfl rfl Nat.one_pos Nat.one_pos⟩
  · refine ⟨fun h _ => h, ?_, ?_, ?_⟩
    · rintro j k a b (rfl | rfl) (rfl | rfl) <;> simp
    · rintro a (rfl | rfl) h
      · rfl
      · norm_num at h
    · rintro a (rfl | rfl) h
      · norm_num at h
      · rfl
  · refine ⟨rfl, rfl, fun i _ j _ => ⟨rfl, rfl⟩, fun i _ j _ => .diagonal _ _ _, fun i _ j _ => .diagonal fun b => ?_⟩
    cases b <;> simp
  · exact ⟨rfl, rfl, fun i _ j _ => ⟨rfl, rfl⟩, fun i _ j _ => .identity _, fun i _ j _ => .identity⟩

end Verif.Props
