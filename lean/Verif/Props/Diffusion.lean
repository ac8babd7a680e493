/-
C86: the diffusion equations of `stencil/diffusion.py` and their coarse counterparts.
-/
import Verif.Lemmas.Diffusion
import Mathlib.LinearAlgebra.FiniteDimensional.Basic
import Mathlib.LinearAlgebra.FiniteDimensional.Lemmas
import Mathlib.LinearAlgebra.Dual.Lemmas
import Mathlib.Tactic.LinearCombination

set_option linter.unusedSectionVars false

namespace Verif.Props

open Verif.Model Verif.Spec

section

variable {N : Nat} {K : Type} [Field K] [LinearOrder K] [IsStrictOrderedRing K]

/-- the indices of an `n`-form -/
def cells (N n : Nat) (shape : Fin N → Nat) : Finset (FormIndex N) :=
  Finset.range (N.choose n) ×ˢ gridDom shape

/-- the fields have the shapes of a `0`-form and of `1`-forms of the grid -/
structure FieldShapes (shape : Fin N → Nat) (fields : DiffusionFields N K) : Prop where
  constraint : fields.constraint.shape = (0, shape)
  conductance : fields.conductance.shape = (1, shape)
  resistance : fields.resistance.shape = (1, shape)
  foo : fields.foo.shape = (1, shape)

/-- The fields have the right shapes, and their products with the metric are not mistaken for zero or
one. -/
structure Admissible (shape : Fin N → Nat) (s : K) (fields : DiffusionFields N K) : Prop
    extends FieldShapes shape fields where
  faithful_constraint : Faithful (cells N 0 shape) fun p => s ^ N * -fields.constraint.val p
  faithful_conductance :
    Faithful (cells N 1 shape) fun p => s ^ ((N : Int) - 2) * fields.conductance.val p
  faithful_resistance :
    Faithful (cells N 1 shape) fun p => s ^ ((N : Int) - 2) * fields.resistance.val p
  faithful_foo : Faithful (cells N 1 shape) fun p => fields.foo.val p * s ^ ((N : Int) - 2)

/-- The constraint is nonnegative and acts somewhere, resistance and conductance are positive, and
both equations use the same conductance. -/
structure Conductive (shape : Fin N → Nat) (fields : DiffusionFields N K) : Prop where
  constraint : ∀ p ∈ cells N 0 shape, 0 ≤ fields.constraint.val p
  constrained : ∃ p ∈ cells N 0 shape, 0 < fields.constraint.val p
  conductance : ∀ p ∈ cells N 1 shape, 0 < fields.conductance.val p
  resistance : ∀ p ∈ cells N 1 shape, 0 < fields.resistance.val p
  foo : ∀ p ∈ cells N 1 shape, fields.foo.val p = fields.conductance.val p

/-- a potential: the value at a grid point -/
def atPoint (T : Form N K) (i : Fin N → Nat) : K := T.val (0, i)

/-- a flux: the value on the edge in direction `a` at a grid point -/
def edgeValue (t : StencilTopology N) (F : Form N K) (a : Nat) (i : Fin N → Nat) : K :=
  cochainOf (t.symbols[1]?.getD []) F {a} i

/-- the shapes of the blocks -/
def twoForms (shape : Fin N → Nat) (n : Nat) : FormShape N := (n, shape)

section

variable {t : StencilTopology N}

theorem dom_cells (h : TopologySpec t) (n : Nat) : t.dom (n, t.shape) = cells N n t.shape := by
  unfold StencilTopology.dom cells
  rw [components_choose h]

/-- the gradient of a potential, as computed -/
def gradForm (t : StencilTopology N) (garbage : Nat → (Fin N → Nat) → K) (f : Form N K) : Form N K :=
  t.mkForm (1, t.shape) (primalInner t.shape (t.table[0]?.getD []) (t.components 1) garbage
    fun c i => f.val (c, i))

/-- the adjoint of the gradient, as computed -/
def divForm (t : StencilTopology N) (garbage : Nat → (Fin N → Nat) → K) (f : Form N K) : Form N K :=
  t.mkForm (0, t.shape) (dualInner t.shape (t.table[0]?.getD []) (t.components 0) garbage
    fun c i => f.val (c, i))

theorem dual_fn (t : StencilTopology N) (garbage : Nat → (Fin N → Nat) → K) :
    t.dual garbage 0 = .fn .dualDerivative (gradForm t garbage) (divForm t garbage)
      (0, t.shape) (1, t.shape) := by
  unfold StencilTopology.dual StencilTopology.primal
  rw [Op.transpose]
  rfl

theorem grad_adjoint (h : TopologySpec t) (hN : 0 < N) (garbage : Nat → (Fin N → Nat) → K)
    (f g : Form N K) :
    ∑ p ∈ cells N 1 t.shape, (gradForm t garbage f).val p * g.val p =
      ∑ p ∈ cells N 0 t.shape, f.val p * (divForm t garbage g).val p := by
  have := primal_adjoint h garbage garbage hN f g
  unfold inner at this
  rw [dom_cells h, dom_cells h] at this
  exact this

theorem divForm_zero (h : TopologySpec t) (hN : 0 < N) (garbage : Nat → (Fin N → Nat) → K) :
    divForm t garbage ⟨(1, t.shape), fun _ => 0⟩ = ⟨(0, t.shape), fun _ => 0⟩ := by
  refine eq_zeros_of_inner (dom := t.dom) (r := (0, t.shape)) rfl (mkForm_valid _ _) ?_
  intro y _ _
  unfold inner
  rw [dom_cells h]
  have := grad_adjoint h hN garbage y ⟨(1, t.shape), fun _ => 0⟩
  simp only [mul_zero, Finset.sum_const_zero] at this
  refine Eq.trans (Finset.sum_congr rfl fun p _ => mul_comm _ _) this.symm

theorem gradForm_val (h : TopologySpec t) (garbage : Nat → (Fin N → Nat) → K) (f : Form N K)
    {a : Nat} (ha : a < N) {i : Fin N → Nat} (hi : i ∈ gridDom t.shape) :
    edgeValue t (gradForm t garbage f) a i = gradient t.shape (atPoint f) a i := by
  have hU : ({a} : Finset Nat) ⊆ Finset.range N := by simpa using ha
  have h1 := primalInner_coboundary (n := 0) h garbage f hU (by simp) hi
  have hlt := (axesOf_index h hU (n := 1) (by simp)).1
  have h2 : edgeValue t (gradForm t garbage f) a i = _ := mkForm_val hlt hi _
  rw [h2, h1]
  have h0 : t.symbols[0]?.getD [] = [[]] := by
    have h3 := (h.symbols 0).2
    have h4 := (h.symbols 0).1
    have h5 : [] ∈ t.symbols[0]?.getD [] := (h3 []).mpr ⟨List.Pairwise.nil, rfl, by simp⟩
    have h6 := symbolSpec_length (h.symbols 0)
    rw [Nat.choose_zero_right] at h6
    obtain ⟨u, hu⟩ := List.length_eq_one_iff.mp h6
    rw [hu] at h5 ⊢
    simpa using h5
  have hf : (({a} : Finset Nat).filter fun x => a < x) = ∅ := by
    ext x; simp only [Finset.mem_filter, Finset.mem_singleton, Finset.notMem_empty, iff_false]; omega
  unfold coboundary gradient atPoint cochainOf
  simp [h0, hf]

/-! ### sums over the components of a `1`-form -/

theorem sum_along (h : TopologySpec t) (G : Nat → (Fin N → Nat) → K) :
    ∑ p ∈ cells N 1 t.shape, G p.1 p.2 = ∑ i ∈ gridDom t.shape, ∑ a ∈ Finset.range N,
      G ((t.symbols[1]?.getD []).idxOf (({a} : Finset Nat).sort (· ≤ ·))) i := by
  unfold cells
  rw [Finset.sum_product, Finset.sum_comm]
  refine Finset.sum_congr rfl fun i _ => ?_
  symm
  have hcard : ∀ a ∈ Finset.range N, ({a} : Finset Nat) ⊆ Finset.range N := fun a ha => by
    simpa using ha
  refine Finset.sum_bij
    (fun a _ => (t.symbols[1]?.getD []).idxOf (({a} : Finset Nat).sort (· ≤ ·))) ?_ ?_ ?_ ?_
  · intro a ha
    rw [Finset.mem_range, ← components_choose h]
    exact (axesOf_index h (hcard a ha) (by simp)).1
  · intro a ha b hb hab
    have h1 := (axesOf_index h (hcard a ha) (n := 1) (by simp)).2
    have h2 := (axesOf_index h (hcard b hb) (n := 1) (by simp)).2
    rw [hab, h2] at h1
    simpa using h1.symm
  · intro c hc
    rw [Finset.mem_range, ← components_choose h] at hc
    obtain ⟨U, hU, hc1, hc2⟩ := h.symbol hc
    obtain ⟨a, rfl⟩ := Finset.card_eq_one.mp hc1
    exact ⟨a, by simpa using hU, hc2⟩
  · intro a _
    rfl

theorem sum_points (G : FormIndex N → K) (sh : Fin N → Nat) :
    ∑ p ∈ cells N 0 sh, G p = ∑ i ∈ gridDom sh, G (0, i) := by
  unfold cells
  rw [Finset.sum_product, Nat.choose_zero_right]
  simp

/-! ### the system -/

theorem formulate_acts (h : TopologySpec t) (hN : 0 < N) (garbage : Nat → (Fin N → Nat) → K) (s : K)
    {fields : DiffusionFields N K} (ha : Admissible t.shape s fields) :
    ∃ sys, formulate t garbage s fields = .ok sys ∧ sys.A.rows = 2 ∧ sys.A.cols = 2 ∧
      sys.B.rows = 2 ∧ sys.B.cols = 2 ∧
      (∀ i < 2, ∀ j < 2, sys.B.block i j =
        if i = j then .identity (i, t.shape) else .zero (i, t.shape) (j, t.shape)) ∧
      (Acts t.dom (sys.A.block 0 0) (0, t.shape) (0, t.shape) fun x p =>
        x.val p * (s ^ N * -fields.constraint.val p)) ∧
      (Acts t.dom (sys.A.block 0 1) (0, t.shape) (1, t.shape) fun x =>
        (divForm t garbage ⟨(1, t.shape), fun p =>
          x.val p * (s ^ ((N : Int) - 2) * fields.conductance.val p)⟩).val) ∧
      (Acts t.dom (sys.A.block 1 1) (1, t.shape) (1, t.shape) fun x p =>
        x.val p * (s ^ ((N : Int) - 2) * fields.resistance.val p)) ∧
      Acts t.dom (sys.A.block 1 0) (1, t.shape) (0, t.shape) fun x p =>
        (gradForm t garbage x).val p * (fields.foo.val p * s ^ ((N : Int) - 2)) := by
  obtain ⟨sys, e1, e2, e3, e4, e5, e6, e7⟩ := canonical_ok t garbage s
  have hz : s ^ ((N : Int) - ((0 : Nat) : Int) * 2) = s ^ N := by simp
  have ho : s ^ ((N : Int) - ((1 : Nat) : Int) * 2) = s ^ ((N : Int) - 2) := by simp
  have b00 : sys.A.block 0 0 = .diagonal true (fun _ => s ^ N) (0, t.shape) := by
    rw [e6 0 (by omega) 0 (by omega)]
    simp only [canonicalBlock, if_true, stencilHodge, hz]
  have b11 : sys.A.block 1 1 = .diagonal true (fun _ => s ^ ((N : Int) - 2)) (1, t.shape) := by
    rw [e6 1 (by omega) 1 (by omega)]
    simp only [canonicalBlock, if_true, stencilHodge, ho]
  have b01 : sys.A.block 0 1 = .composed [.fn .dualDerivative (gradForm t garbage)
      (divForm t garbage) (0, t.shape) (1, t.shape),
      .diagonal true (fun _ => s ^ ((N : Int) - 2)) (1, t.shape)] (0, t.shape) (1, t.shape) := by
    rw [e6 0 (by omega) 1 (by omega)]
    simp only [canonicalBlock, stencilHodge, ho, dual_fn, zero_add]
    simp
  have b10 : sys.A.block 1 0 = .composed [
      .diagonal true (fun _ => s ^ ((N : Int) - 2)) (1, t.shape),
      .fn .derivative (divForm t garbage) (gradForm t garbage) (1, t.shape) (0, t.shape)]
        (1, t.shape) (0, t.shape) := by
    rw [e6 1 (by omega) 0 (by omega)]
    simp only [canonicalBlock, stencilHodge, zero_add, ho]
    simp
    rfl
  obtain ⟨o00, m00, a00⟩ := mul_diagonals (dom := t.dom) true false (fun _ => s ^ N)
    (fun p => -fields.constraint.val p) (0, t.shape)
    (by rw [dom_cells h]; exact ha.faithful_constraint)
  obtain ⟨o01, m01, a01⟩ := mul_fn_diagonal (dom := t.dom) true false (fun _ => s ^ ((N : Int) - 2))
    fields.conductance.val (s := (1, t.shape)) (r := (0, t.shape)) .dualDerivative (gradForm t garbage)
    (divForm t garbage) (by rw [dom_cells h]; exact ha.faithful_conductance) (fun _ _ => rfl)
    (divForm_zero h hN garbage)
  obtain ⟨o11, m11, a11⟩ := mul_diagonals (dom := t.dom) true false (fun _ => s ^ ((N : Int) - 2))
    fields.resistance.val (1, t.shape)
    (by rw [dom_cells h]; exact ha.faithful_resistance)
  obtain ⟨o10, m10, a10⟩ := mul_diagonal_fn (dom := t.dom) false true fields.foo.val
    (fun _ => s ^ ((N : Int) - 2)) (s := (1, t.shape)) (c := (0, t.shape)) .derivative
    (divForm t garbage) (gradForm t garbage) (by rw [dom_cells h]; exact ha.faithful_foo)
    (fun _ _ => ⟨rfl, mkForm_valid _ _⟩)
  refine ⟨⟨⟨2, 2, fun i j => if i = 1 ∧ j = 0 then o10 else if i = 1 ∧ j = 1 then o11
    else if i = 0 ∧ j = 1 then o01 else if i = 0 ∧ j = 0 then o00 else sys.A.block i j⟩,
    ⟨2, 2, sys.B.block⟩⟩, ?_, rfl, rfl, rfl, rfl, ?_, ?_, ?_, ?_, ?_⟩
  · have hA : min 2 (N + 1) = 2 := by omega
    have r00 : (sys.A.block 0 0).rows = o00.rows ∧ (sys.A.block 0 0).cols = o00.cols := by
      rw [b00, a00.1, a00.2.1]; exact ⟨rfl, rfl⟩
    have r01 : (sys.A.block 0 1).rows = o01.rows ∧ (sys.A.block 0 1).cols = o01.cols := by
      rw [b01, a01.1, a01.2.1]; exact ⟨rfl, rfl⟩
    have r11 : (sys.A.block 1 1).rows = o11.rows ∧ (sys.A.block 1 1).cols = o11.cols := by
      rw [b11, a11.1, a11.2.1]; exact ⟨rfl, rfl⟩
    have r10 : (sys.A.block 1 0).rows = o10.rows ∧ (sys.A.block 1 0).cols = o10.cols := by
      rw [b10, a10.1, a10.2.1]; exact ⟨rfl, rfl⟩
    rw [← b00] at m00
    rw [← b01] at m01
    rw [← b11] at m11
    rw [← b10] at m10
    have hsl : sys.slice 2 2 = ⟨⟨2, 2, sys.A.block⟩, ⟨2, 2, sys.B.block⟩⟩ := by
      unfold StencilSystem.slice
      rw [e2, e3, e4, e5, hA]
    have g0 : (BlockOp.mk 2 2 sys.A.block).get 0 0 = .ok (sys.A.block 0 0) := rfl
    obtain ⟨A1, hA1⟩ : ∃ A1 : BlockOp (FormShape N) (FormIndex N) K,
      A1 = ⟨2, 2, fun i j => if i = 0 ∧ j = 0 then o00 else sys.A.block i j⟩ := ⟨_, rfl⟩
    have s0 : (BlockOp.mk 2 2 sys.A.block).set 0 0 o00 = .ok A1 := by
      rw [hA1]; exact if_pos ⟨Nat.zero_lt_two, Nat.zero_lt_two, r00⟩
    have g1 : A1.get 0 1 = .ok (sys.A.block 0 1) := by rw [hA1]; rfl
    obtain ⟨A2, hA2⟩ : ∃ A2 : BlockOp (FormShape N) (FormIndex N) K,
      A2 = ⟨2, 2, fun i j => if i = 0 ∧ j = 1 then o01 else A1.block i j⟩ := ⟨_, rfl⟩
    have s1 : A1.set 0 1 o01 = .ok A2 := by
      rw [hA2, hA1]; exact if_pos ⟨Nat.zero_lt_two, Nat.one_lt_two, r01⟩
    have g2 : A2.get 1 1 = .ok (sys.A.block 1 1) := by rw [hA2, hA1]; rfl
    obtain ⟨A3, hA3⟩ : ∃ A3 : BlockOp (FormShape N) (FormIndex N) K,
      A3 = ⟨2, 2, fun i j => if i = 1 ∧ j = 1 then o11 else A2.block i j⟩ := ⟨_, rfl⟩
    have s2 : A2.set 1 1 o11 = .ok A3 := by
      rw [hA3, hA2, hA1]; exact if_pos ⟨Nat.one_lt_two, Nat.one_lt_two, r11⟩
    have g3 : A3.get 1 0 = .ok (sys.A.block 1 0) := by rw [hA3, hA2, hA1]; rfl
    have s3 : A3.set 1 0 o10 =
        .ok ⟨2, 2, fun i j => if i = 1 ∧ j = 0 then o10 else A3.block i j⟩ := by
      rw [hA3, hA2, hA1]; exact if_pos ⟨Nat.one_lt_two, Nat.zero_lt_two, r10⟩
    unfold formulate
    simp only [e1, bind, Except.bind, hsl, fieldOp, negForm, ha.constraint, ha.conductance,
      ha.resistance, ha.foo, g0, m00, s0, g1, m01, s1, g2, m11, s2, g3, m10, s3]
    rw [hA3, hA2, hA1]
  · intro i hi j hj
    exact e7 i (by omega) j (by omega)
  · exact a00
  · exact a01
  · exact a11
  · exact a10

/-- the value of `A * x`, block by block -/
theorem formulate_vecMul (h : TopologySpec t) (hN : 0 < N) (garbage : Nat → (Fin N → Nat) → K) (s : K)
    {fields : DiffusionFields N K} (ha : Admissible t.shape s fields) :
    ∃ sys, formulate t garbage s fields = .ok sys ∧
      ∀ x, BlockVector t.dom 2 (twoForms t.shape) x →
        ∃ y, sys.A.vecMul x = .ok y ∧ BlockVector t.dom 2 (twoForms t.shape) y ∧
          (∀ p, (y.block 0).val p = (x.block 0).val p * (s ^ N * -fields.constraint.val p) +
            (divForm t garbage ⟨(1, t.shape), fun p => (x.block 1).val p *
              (s ^ ((N : Int) - 2) * fields.conductance.val p)⟩).val p) ∧
          ∀ p, (y.block 1).val p = (gradForm t garbage (x.block 0)).val p *
              (fields.foo.val p * s ^ ((N : Int) - 2)) +
            (x.block 1).val p * (s ^ ((N : Int) - 2) * fields.resistance.val p) := by
  obtain ⟨sys, h1, h2, h3, _, _, _, a00, a01, a11, a10⟩ := formulate_acts h hN garbage s ha
  refine ⟨sys, h1, fun x hx => ?_⟩
  obtain ⟨y, y1, y2, y3⟩ := vecMul_two (dom := t.dom) (A := sys.A) (rs := twoForms t.shape)
    (cs := twoForms t.shape)
    (g := fun i j => if i = 0 then (if j = 0 then
        fun x p => x.val p * (s ^ N * -fields.constraint.val p)
      else fun x => (divForm t garbage ⟨(1, t.shape), fun p => x.val p *
              (s ^ ((N : Int) - 2) * fields.conductance.val p)⟩).val)
      else (if j = 0 then fun x p => (gradForm t garbage x).val p *
              (fields.foo.val p * s ^ ((N : Int) - 2))
        else fun x p => x.val p * (s ^ ((N : Int) - 2) * fields.resistance.val p)))
    h2 h3 (by
      intro i hi j hj
      have hi' : i = 0 ∨ i = 1 := by omega
      have hj' : j = 0 ∨ j = 1 := by omega
      rcases hi' with rfl | rfl <;> rcases hj' with rfl | rfl
      · exact a00
      · exact a01
      · exact a10
      · exact a11) hx
  have e0 := y3 0 (by omega)
  have e1 := y3 1 (by omega)
  simp only [if_true, Nat.one_ne_zero, if_false] at e0 e1
  refine ⟨y, y1, ⟨y2, ?_, ?_⟩, ?_, ?_⟩
  · intro j hj
    rw [y3 j hj]
  · intro j hj p hp
    have hj' : j = 0 ∨ j = 1 := by omega
    rcases hj' with rfl | rfl
    · rw [e0] at hp ⊢
      have := hx.valid 0 (by omega) p (by rw [hx.shape 0 (by omega)]; exact hp)
      have h' : (divForm t garbage ⟨(1, t.shape), fun p => (x.block 1).val p *
              (s ^ ((N : Int) - 2) * fields.conductance.val p)⟩).val p = 0 := mkForm_valid _ _ p hp
      simp only [this, h']
      ring
    · rw [e1] at hp ⊢
      have := hx.valid 1 (by omega) p (by rw [hx.shape 1 (by omega)]; exact hp)
      have h' : (gradForm t garbage (x.block 0)).val p = 0 := mkForm_valid _ _ p hp
      simp only [this, h']
      ring
  · intro p; rw [e0]
  · intro p; rw [e1]

/-- the pairing of a block vector with test forms -/
theorem formulate_weak (h : TopologySpec t) (hN : 0 < N) (garbage : Nat → (Fin N → Nat) → K) (s : K)
    {fields : DiffusionFields N K} (x y x' : BlockArr (FormShape N) (FormIndex N) K)
    (h0 : ∀ p, (y.block 0).val p = (x.block 0).val p * (s ^ N * -fields.constraint.val p) +
      (divForm t garbage ⟨(1, t.shape), fun p => (x.block 1).val p *
        (s ^ ((N : Int) - 2) * fields.conductance.val p)⟩).val p)
    (h1 : ∀ p, (y.block 1).val p = (gradForm t garbage (x.block 0)).val p *
        (fields.foo.val p * s ^ ((N : Int) - 2)) +
      (x.block 1).val p * (s ^ ((N : Int) - 2) * fields.resistance.val p)) :
    ∑ p ∈ cells N 0 t.shape, (y.block 0).val p * (x'.block 0).val p +
      ∑ p ∈ cells N 1 t.shape, (y.block 1).val p * (x'.block 1).val p =
    weakForm t.shape s (atPoint fields.constraint) (edgeValue t fields.conductance)
      (edgeValue t fields.resistance) (edgeValue t fields.foo) (atPoint (x.block 0))
      (edgeValue t (x.block 1))
      (atPoint (x'.block 0)) (edgeValue t (x'.block 1)) := by
  have hd := grad_adjoint h hN garbage (x'.block 0) ⟨(1, t.shape), fun p => (x.block 1).val p *
        (s ^ ((N : Int) - 2) * fields.conductance.val p)⟩
  have e0 : ∑ p ∈ cells N 0 t.shape, (y.block 0).val p * (x'.block 0).val p =
      (∑ p ∈ cells N 0 t.shape,
        (x.block 0).val p * (s ^ N * -fields.constraint.val p) * (x'.block 0).val p) +
      ∑ p ∈ cells N 1 t.shape, (gradForm t garbage (x'.block 0)).val p * ((x.block 1).val p *
        (s ^ ((N : Int) - 2) * fields.conductance.val p)) := by
    rw [hd, ← Finset.sum_add_distrib]
    exact Finset.sum_congr rfl fun p _ => by rw [h0]; ring
  rw [e0, add_assoc, ← Finset.sum_add_distrib, sum_points, sum_along h fun c i =>
    (gradForm t garbage (x'.block 0)).val (c, i) * ((x.block 1).val (c, i) *
        (s ^ ((N : Int) - 2) * fields.conductance.val (c, i))) +
      (y.block 1).val (c, i) * (x'.block 1).val (c, i), ← Finset.sum_add_distrib]
  unfold weakForm
  refine Finset.sum_congr rfl fun i hi => ?_
  congr 1
  · unfold atPoint; ring
  · refine Finset.sum_congr rfl fun a ha => ?_
    rw [Finset.mem_range] at ha
    have g1 := gradForm_val h garbage (x'.block 0) ha hi
    have g2 := gradForm_val h garbage (x.block 0) ha hi
    rw [h1, ← g1, ← g2]
    unfold edgeValue cochainOf
    ring

end

/-- C86: `formulate` succeeds, and for a potential `T` and a flux `F` the product `A (T, F)` is
`(-P T + div (C F), foo grad T + R F)` in terms of the metric: paired with any test forms it is the
weak form of the diffusion equations.  (Test forms that are one at a single index give the entries of
the product.) -/
theorem C86_weak {uniq : List (List Nat) → List (List Nat)} (hu : UniqSpec uniq)
    {shape : Fin N → Nat} {t : StencilTopology N} (ht : mkStencilTopology uniq shape = .ok t)
    (hN : 0 < N) (garbage : Nat → (Fin N → Nat) → K) (s : K) {fields : DiffusionFields N K}
    (ha : Admissible shape s fields) :
    ∃ sys, formulate t garbage s fields = .ok sys ∧
      ∀ x, BlockVector t.dom 2 (twoForms shape) x →
        ∃ y, sys.A.vecMul x = .ok y ∧ BlockVector t.dom 2 (twoForms shape) y ∧
          ∀ x' : BlockArr (FormShape N) (FormIndex N) K,
            ∑ p ∈ cells N 0 shape, (y.block 0).val p * (x'.block 0).val p +
              ∑ p ∈ cells N 1 shape, (y.block 1).val p * (x'.block 1).val p =
            weakForm shape s (atPoint fields.constraint) (edgeValue t fields.conductance)
              (edgeValue t fields.resistance) (edgeValue t fields.foo) (atPoint (x.block 0))
              (edgeValue t (x.block 1)) (atPoint (x'.block 0)) (edgeValue t (x'.block 1)) := by
  obtain ⟨rfl, h⟩ := topologySpec_of_ok hu ht
  obtain ⟨sys, h1, h2⟩ := formulate_vecMul h hN garbage s ha
  refine ⟨sys, h1, fun x hx => ?_⟩
  obtain ⟨y, y1, y2, y3, y4⟩ := h2 x hx
  exact ⟨y, y1, y2, fun x' => formulate_weak h hN garbage s x y x' y3 y4⟩

/-- C86: the operator of the right hand side returns the sources unchanged -/
theorem C86_source {uniq : List (List Nat) → List (List Nat)} (hu : UniqSpec uniq)
    {shape : Fin N → Nat} {t : StencilTopology N} (ht : mkStencilTopology uniq shape = .ok t)
    (hN : 0 < N) (garbage : Nat → (Fin N → Nat) → K) (s : K) {fields : DiffusionFields N K}
    (ha : Admissible shape s fields) :
    ∃ sys, formulate t garbage s fields = .ok sys ∧
      ∀ x, BlockVector t.dom 2 (twoForms shape) x →
        ∃ y, sys.B.vecMul x = .ok y ∧ y.size = 2 ∧ ∀ j < 2, y.block j = x.block j := by
  obtain ⟨rfl, h⟩ := topologySpec_of_ok hu ht
  obtain ⟨sys, h1, _, _, h4, h5, h6, _⟩ := formulate_acts h hN garbage s ha
  refine ⟨sys, h1, fun x hx => ?_⟩
  obtain ⟨y, y1, y2, y3⟩ := vecMul_two (dom := t.dom) (rs := twoForms t.shape)
    (cs := twoForms t.shape) (g := fun i j x p => if i = j then x.val p else 0) h4 h5
    (fun i hi j hj => by
      rw [h6 i hi j hj]
      by_cases hij : i = j
      · subst hij
        rw [if_pos rfl]
        refine ⟨rfl, rfl, fun x hxs _ => ?_⟩
        obtain ⟨sh, v⟩ := x
        obtain rfl : sh = twoForms t.shape i := hxs
        simp [Op.call, callFn, twoForms]
      · rw [if_neg hij]
        refine ⟨rfl, rfl, fun x hxs _ => ?_⟩
        obtain ⟨sh, v⟩ := x
        obtain rfl : sh = twoForms t.shape j := hxs
        simp [Op.call, callFn, twoForms, if_neg hij, Arr.zeros]) hx
  refine ⟨y, y1, y2, fun j hj => ?_⟩
  rw [y3 j hj]
  have hsh := hx.shape j hj
  have hj' : j = 0 ∨ j = 1 := by omega
  rw [← hsh]
  rcases hj' with rfl | rfl <;> simp

/-! ### the kernel of the weak form -/

theorem const_of_gradient {sh : Fin N → Nat} {T : (Fin N → Nat) → K}
    (h : ∀ i ∈ gridDom sh, ∀ a < N, gradient sh T a i = 0) :
    ∀ i ∈ gridDom sh, T i = T fun _ => 0 := by
  have key : ∀ (m : Nat) (i : Fin N → Nat), i ∈ gridDom sh → ∑ b, i b = m → T i = T fun _ => 0 := by
    intro m
    induction m with
    | zero =>
      intro i _ hm
      have : i = fun _ => 0 := by
        funext b
        exact (Finset.sum_eq_zero_iff.mp hm) b (Finset.mem_univ b)
      rw [this]
    | succ m ih =>
      intro i hi hm
      obtain ⟨b, _, hb⟩ : ∃ b ∈ Finset.univ, i b ≠ 0 := by
        by_contra hcon
        push Not at hcon
        rw [Finset.sum_eq_zero hcon] at hm
        omega
      have hib := mem_gridDom.mp hi
      let j : Fin N → Nat := Function.update i b (i b - 1)
      have hj : j ∈ gridDom sh := by
        rw [mem_gridDom]
        intro c
        by_cases hc : c = b
        · subst hc
          have := hib c
          simp only [j, Function.update_self]
          omega
        · simp only [j, Function.update_of_ne hc]; exact hib c
      have hnext : next sh b j = i := by
        funext c
        unfold next
        by_cases hc : c = b
        · subst hc
          have := hib c
          simp only [j, Function.update_self, if_true]
          rw [if_neg (by omega)]
          omega
        · rw [if_neg (fun h' => hc (Fin.ext h'))]
          simp only [j, Function.update_of_ne hc]
      have hsum : ∑ c, j c = m := by
        have h1 := Finset.add_sum_erase Finset.univ i (Finset.mem_univ b)
        have h2 := Finset.add_sum_erase Finset.univ j (Finset.mem_univ b)
        have h3 : ∑ c ∈ Finset.univ.erase b, j c = ∑ c ∈ Finset.univ.erase b, i c :=
          Finset.sum_congr rfl fun c hc => by
            simp only [j, Function.update_of_ne (Finset.ne_of_mem_erase hc)]
        have h4 : j b = i b - 1 := by simp [j]
        omega
      have hg := h j hj b b.isLt
      unfold gradient at hg
      rw [hnext] at hg
      rw [← ih j hj hsum]
      exact sub_eq_zero.mp hg
  exact fun i hi => key _ i hi rfl

/-- only the zero potential and flux satisfy the homogeneous weak equations -/
theorem weak_kernel {sh : Fin N → Nat} {s : K} (hs : 0 < s) {P : (Fin N → Nat) → K}
    {C R D : Nat → (Fin N → Nat) → K} (hP : ∀ i ∈ gridDom sh, 0 ≤ P i)
    (hP1 : ∃ i ∈ gridDom sh, 0 < P i) (hC : ∀ a < N, ∀ i ∈ gridDom sh, 0 < C a i)
    (hR : ∀ a < N, ∀ i ∈ gridDom sh, 0 < R a i) (hD : ∀ a < N, ∀ i ∈ gridDom sh, D a i = C a i)
    {T : (Fin N → Nat) → K} {F : Nat → (Fin N → Nat) → K}
    (h : ∀ T' F', weakForm sh s P C R D T F T' F' = 0) :
    ∀ i ∈ gridDom sh, T i = 0 ∧ ∀ a < N, F a i = 0 := by
  have hsN : 0 < s ^ N := pow_pos hs N
  have hs1 : 0 < s ^ ((N : Int) - 2) := zpow_pos hs _
  have e1 := h (fun i => -T i) F
  unfold weakForm at e1
  have e2 : ∑ i ∈ gridDom sh, (s ^ N * P i * (T i * T i) + ∑ a ∈ Finset.range N,
      s ^ ((N : Int) - 2) * (R a i * (F a i * F a i))) = 0 := by
    rw [← e1]
    refine Finset.sum_congr rfl fun i hi => ?_
    congr 1
    · ring
    · refine Finset.sum_congr rfl fun a ha => ?_
      rw [hD a (Finset.mem_range.mp ha) i hi]
      unfold gradient
      ring
  have t1 : ∀ i ∈ gridDom sh, 0 ≤ s ^ N * P i * (T i * T i) := fun i hi =>
    mul_nonneg (mul_nonneg hsN.le (hP i hi)) (mul_self_nonneg _)
  have t2 : ∀ i ∈ gridDom sh, ∀ a ∈ Finset.range N,
      0 ≤ s ^ ((N : Int) - 2) * (R a i * (F a i * F a i)) := fun i hi a ha =>
    mul_nonneg hs1.le (mul_nonneg (hR a (Finset.mem_range.mp ha) i hi).le (mul_self_nonneg _))
  have e3 := (Finset.sum_eq_zero_iff_of_nonneg fun i hi =>
    add_nonneg (t1 i hi) (Finset.sum_nonneg (t2 i hi))).mp e2
  have e4 : ∀ i ∈ gridDom sh, s ^ N * P i * (T i * T i) = 0 ∧ ∑ a ∈ Finset.range N,
      s ^ ((N : Int) - 2) * (R a i * (F a i * F a i)) = 0 := fun i hi =>
    (add_eq_zero_iff_of_nonneg (t1 i hi) (Finset.sum_nonneg (t2 i hi))).mp (e3 i hi)
  have hF : ∀ i ∈ gridDom sh, ∀ a < N, F a i = 0 := by
    intro i hi a ha
    have := (Finset.sum_eq_zero_iff_of_nonneg (t2 i hi)).mp (e4 i hi).2 a (Finset.mem_range.mpr ha)
    have h1 := (hR a ha i hi).ne'
    have := (mul_eq_zero.mp this).resolve_left hs1.ne'
    exact mul_self_eq_zero.mp ((mul_eq_zero.mp this).resolve_left h1)
  have e5 := h (fun _ => 0) (gradient sh T)
  unfold weakForm at e5
  have e6 : ∑ i ∈ gridDom sh, ∑ a ∈ Finset.range N,
      s ^ ((N : Int) - 2) * (C a i * (gradient sh T a i * gradient sh T a i)) = 0 := by
    rw [← e5]
    refine Finset.sum_congr rfl fun i hi => ?_
    rw [mul_zero, neg_zero, zero_add]
    refine Finset.sum_congr rfl fun a ha => ?_
    rw [hD a (Finset.mem_range.mp ha) i hi, hF i hi a (Finset.mem_range.mp ha)]
    ring
  have t3 : ∀ i ∈ gridDom sh, ∀ a ∈ Finset.range N,
      0 ≤ s ^ ((N : Int) - 2) * (C a i * (gradient sh T a i * gradient sh T a i)) := fun i hi a ha =>
    mul_nonneg hs1.le (mul_nonneg (hC a (Finset.mem_range.mp ha) i hi).le (mul_self_nonneg _))
  have hG : ∀ i ∈ gridDom sh, ∀ a < N, gradient sh T a i = 0 := by
    intro i hi a ha
    have h1 := (Finset.sum_eq_zero_iff_of_nonneg fun i hi => Finset.sum_nonneg (t3 i hi)).mp e6 i hi
    have h2 := (Finset.sum_eq_zero_iff_of_nonneg (t3 i hi)).mp h1 a (Finset.mem_range.mpr ha)
    have := (mul_eq_zero.mp h2).resolve_left hs1.ne'
    exact mul_self_eq_zero.mp ((mul_eq_zero.mp this).resolve_left (hC a ha i hi).ne')
  have hconst := const_of_gradient hG
  obtain ⟨i0, hi0, hp0⟩ := hP1
  have hT0 : T i0 = 0 := by
    have := (e4 i0 hi0).1
    exact mul_self_eq_zero.mp ((mul_eq_zero.mp this).resolve_left (mul_pos hsN hp0).ne')
  intro i hi
  refine ⟨?_, hF i hi⟩
  rw [hconst i hi, ← hconst i0 hi0, hT0]

/-! ### solving the system -/

theorem weakForm_add_left (sh : Fin N → Nat) (s : K) (P : (Fin N → Nat) → K)
    (C R D : Nat → (Fin N → Nat) → K) (T U : (Fin N → Nat) → K) (F G : Nat → (Fin N → Nat) → K)
    (T' : (Fin N → Nat) → K) (F' : Nat → (Fin N → Nat) → K) :
    weakForm sh s P C R D (fun i => T i + U i) (fun a i => F a i + G a i) T' F' =
      weakForm sh s P C R D T F T' F' + weakForm sh s P C R D U G T' F' := by
  unfold weakForm
  rw [← Finset.sum_add_distrib]
  refine Finset.sum_congr rfl fun i _ => ?_
  have : ∀ a b c d : K, (a + b) + (c + d) = (a + c) + (b + d) := by intros; ring
  rw [this, ← Finset.sum_add_distrib]
  congr 1
  · ring
  · exact Finset.sum_congr rfl fun a _ => by unfold gradient; ring

theorem weakForm_smul_left (sh : Fin N → Nat) (s : K) (P : (Fin N → Nat) → K)
    (C R D : Nat → (Fin N → Nat) → K) (k : K) (T : (Fin N → Nat) → K) (F : Nat → (Fin N → Nat) → K)
    (T' : (Fin N → Nat) → K) (F' : Nat → (Fin N → Nat) → K) :
    weakForm sh s P C R D (fun i => k * T i) (fun a i => k * F a i) T' F' =
      k * weakForm sh s P C R D T F T' F' := by
  unfold weakForm
  rw [Finset.mul_sum]
  refine Finset.sum_congr rfl fun i _ => ?_
  rw [mul_add, Finset.mul_sum]
  congr 1
  · ring
  · exact Finset.sum_congr rfl fun a _ => by unfold gradient; ring

/-- exchanging the two arguments exchanges the two conductances -/
theorem weakForm_comm (sh : Fin N → Nat) (s : K) (P : (Fin N → Nat) → K)
    (C R D : Nat → (Fin N → Nat) → K) (T : (Fin N → Nat) → K) (F : Nat → (Fin N → Nat) → K)
    (T' : (Fin N → Nat) → K) (F' : Nat → (Fin N → Nat) → K) :
    weakForm sh s P C R D T F T' F' = weakForm sh s P D R C T' F' T F := by
  unfold weakForm
  refine Finset.sum_congr rfl fun i _ => ?_
  congr 1
  · ring
  · exact Finset.sum_congr rfl fun a _ => by ring

/-- only the values of the fluxes along the axes of the grid matter -/
theorem weakForm_congr {sh : Fin N → Nat} {s : K} {P : (Fin N → Nat) → K}
    {C R D C' D' : Nat → (Fin N → Nat) → K} {T : (Fin N → Nat) → K} {F : Nat → (Fin N → Nat) → K}
    {T' : (Fin N → Nat) → K} {F' G' : Nat → (Fin N → Nat) → K}
    (h : ∀ a < N, ∀ i ∈ gridDom sh, F' a i = G' a i)
    (hC : ∀ a < N, ∀ i ∈ gridDom sh, C a i = C' a i)
    (hD : ∀ a < N, ∀ i ∈ gridDom sh, D a i = D' a i) :
    weakForm sh s P C R D T F T' F' = weakForm sh s P C' R D' T F T' G' := by
  unfold weakForm
  refine Finset.sum_congr rfl fun i hi => ?_
  congr 1
  refine Finset.sum_congr rfl fun a ha => ?_
  have ha := Finset.mem_range.mp ha
  rw [h a ha i hi, hC a ha i hi, hD a ha i hi]

section

variable {t : StencilTopology N}

theorem along_mem (h : TopologySpec t) {a : Nat} (ha : a < N) {i : Fin N → Nat}
    (hi : i ∈ gridDom t.shape) :
    ((t.symbols[1]?.getD []).idxOf (({a} : Finset Nat).sort (· ≤ ·)), i) ∈ cells N 1 t.shape := by
  have hU : ({a} : Finset Nat) ⊆ Finset.range N := by simpa using ha
  unfold cells
  rw [Finset.mem_product, Finset.mem_range, ← components_choose h]
  exact ⟨(axesOf_index h hU (by simp)).1, hi⟩

/-- two valid `1`-forms with the same values along all axes are equal -/
theorem ext_along (h : TopologySpec t) {F G : Form N K} (hF : F.shape = (1, t.shape))
    (hG : G.shape = (1, t.shape)) (vF : ValidArr t.dom F) (vG : ValidArr t.dom G)
    (heq : ∀ a < N, ∀ i ∈ gridDom t.shape, edgeValue t F a i = edgeValue t G a i) : F = G := by
  obtain ⟨sF, f⟩ := F
  obtain ⟨sG, g⟩ := G
  have hF : sF = (1, t.shape) := hF
  have hG : sG = (1, t.shape) := hG
  subst hF
  subst hG
  congr 1
  funext p
  by_cases hp : p ∈ t.dom (1, t.shape)
  · obtain ⟨c, i⟩ := p
    obtain ⟨hc, hi⟩ := mem_dom.mp hp
    obtain ⟨U, hU, hc1, hc2⟩ := h.symbol hc
    obtain ⟨a, rfl⟩ := Finset.card_eq_one.mp hc1
    have := heq a (by simpa using hU) i hi
    unfold edgeValue cochainOf at this
    rw [hc2] at this
    exact this
  · have h1 := vF p hp
    have h2 := vG p hp
    simp only at h1 h2
    rw [h1, h2]

/-- two valid `0`-forms with the same values at all points are equal -/
theorem ext_point (h : TopologySpec t) {F G : Form N K} (hF : F.shape = (0, t.shape))
    (hG : G.shape = (0, t.shape)) (vF : ValidArr t.dom F) (vG : ValidArr t.dom G)
    (heq : ∀ i ∈ gridDom t.shape, atPoint F i = atPoint G i) : F = G := by
  obtain ⟨sF, f⟩ := F
  obtain ⟨sG, g⟩ := G
  have hF : sF = (0, t.shape) := hF
  have hG : sG = (0, t.shape) := hG
  subst hF
  subst hG
  congr 1
  funext p
  by_cases hp : p ∈ t.dom (0, t.shape)
  · obtain ⟨c, i⟩ := p
    obtain ⟨hc, hi⟩ := mem_dom.mp hp
    rw [components_choose h, Nat.choose_zero_right] at hc
    obtain rfl : c = 0 := by omega
    exact heq i hi
  · have h1 := vF p hp
    have h2 := vG p hp
    simp only at h1 h2
    rw [h1, h2]

/-- block vectors as elements of a vector space -/
abbrev FieldSpace (K : Type) {N : Nat} (sh : Fin N → Nat) : Type :=
  ({p // p ∈ cells N 0 sh} → K) × ({p // p ∈ cells N 1 sh} → K)

/-- the block vector with the given entries -/
def toBlock {sh : Fin N → Nat} (v : FieldSpace K sh) : BlockArr (FormShape N) (FormIndex N) K :=
  ⟨2, fun n => if n = 0 then ⟨(0, sh), fun p => if hp : p ∈ cells N 0 sh then v.1 ⟨p, hp⟩ else 0⟩
    else ⟨(1, sh), fun p => if hp : p ∈ cells N 1 sh then v.2 ⟨p, hp⟩ else 0⟩⟩

theorem toBlock_vector (h : TopologySpec t) (v : FieldSpace K t.shape) :
    BlockVector t.dom 2 (twoForms t.shape) (toBlock v) := by
  refine ⟨rfl, ?_, ?_⟩
  · intro j hj
    have hj' : j = 0 ∨ j = 1 := by omega
    rcases hj' with rfl | rfl <;> rfl
  · intro j hj p hp
    have hj' : j = 0 ∨ j = 1 := by omega
    rcases hj' with rfl | rfl
    · have hp : p ∉ t.dom (0, t.shape) := hp
      rw [dom_cells h] at hp
      exact dif_neg hp
    · have hp : p ∉ t.dom (1, t.shape) := hp
      rw [dom_cells h] at hp
      exact dif_neg hp

theorem toBlock_add {sh : Fin N → Nat} (v w : FieldSpace K sh) (n : Nat) (p : FormIndex N) :
    ((toBlock (v + w)).block n).val p =
      ((toBlock v).block n).val p + ((toBlock w).block n).val p := by
  unfold toBlock
  by_cases hn : n = 0
  · simp only [hn, if_true]
    split <;> simp
  · simp only [hn, if_false]
    split <;> simp

theorem toBlock_smul {sh : Fin N → Nat} (k : K) (v : FieldSpace K sh) (n : Nat) (p : FormIndex N) :
    ((toBlock (k • v)).block n).val p = k * ((toBlock v).block n).val p := by
  unfold toBlock
  by_cases hn : n = 0
  · simp only [hn, if_true]
    split <;> simp
  · simp only [hn, if_false]
    split <;> simp

/-- the weak form of two elements of the space -/
def weakPair (t : StencilTopology N) (s : K) (fields : DiffusionFields N K)
    (v w : FieldSpace K t.shape) : K :=
  weakForm t.shape s (atPoint fields.constraint) (edgeValue t fields.conductance)
    (edgeValue t fields.resistance) (edgeValue t fields.foo) (atPoint ((toBlock v).block 0))
    (edgeValue t ((toBlock v).block 1)) (atPoint ((toBlock w).block 0))
    (edgeValue t ((toBlock w).block 1))

theorem atPoint_add {sh : Fin N → Nat} (v w : FieldSpace K sh) :
    atPoint ((toBlock (v + w)).block 0) =
      fun i => atPoint ((toBlock v).block 0) i + atPoint ((toBlock w).block 0) i := by
  funext i; exact toBlock_add v w 0 _

theorem atPoint_smul {sh : Fin N → Nat} (k : K) (v : FieldSpace K sh) :
    atPoint ((toBlock (k • v)).block 0) = fun i => k * atPoint ((toBlock v).block 0) i := by
  funext i; exact toBlock_smul k v 0 _

theorem along_add {sh : Fin N → Nat} (t : StencilTopology N) (v w : FieldSpace K sh) :
    edgeValue t ((toBlock (v + w)).block 1) =
      fun a i => edgeValue t ((toBlock v).block 1) a i + edgeValue t ((toBlock w).block 1) a i := by
  funext a i; exact toBlock_add v w 1 _

theorem along_smul {sh : Fin N → Nat} (t : StencilTopology N) (k : K) (v : FieldSpace K sh) :
    edgeValue t ((toBlock (k • v)).block 1) =
      fun a i => k * edgeValue t ((toBlock v).block 1) a i := by
  funext a i; exact toBlock_smul k v 1 _

/-- the weak form as a bilinear map -/
def weakMap (t : StencilTopology N) (s : K) (fields : DiffusionFields N K) :
    FieldSpace K t.shape →ₗ[K] Module.Dual K (FieldSpace K t.shape) :=
  LinearMap.mk₂ K (weakPair t s fields)
    (fun v w u => by
      unfold weakPair
      rw [atPoint_add, along_add, weakForm_add_left])
    (fun k v u => by
      unfold weakPair
      rw [atPoint_smul, along_smul, weakForm_smul_left, smul_eq_mul])
    (fun v w u => by
      unfold weakPair
      rw [atPoint_add, along_add, weakForm_comm, weakForm_add_left, weakForm_comm,
        weakForm_comm t.shape s (atPoint fields.constraint) (edgeValue t fields.foo)])
    (fun k v u => by
      unfold weakPair
      rw [atPoint_smul, along_smul, weakForm_comm, weakForm_smul_left, smul_eq_mul,
        weakForm_comm])

/-- the homogeneous equations have only the zero solution -/
theorem weak_zero (h : TopologySpec t) {s : K} (hs : 0 < s) {fields : DiffusionFields N K}
    (hp : Conductive t.shape fields) {T : (Fin N → Nat) → K} {F : Nat → (Fin N → Nat) → K}
    (hz : ∀ w : FieldSpace K t.shape,
      weakForm t.shape s (atPoint fields.constraint) (edgeValue t fields.conductance)
        (edgeValue t fields.resistance) (edgeValue t fields.foo) T F (atPoint ((toBlock w).block 0))
        (edgeValue t ((toBlock w).block 1)) = 0) :
    ∀ i ∈ gridDom t.shape, T i = 0 ∧ ∀ a < N, F a i = 0 := by
  have hpt : ∀ i ∈ gridDom t.shape, ((0, i) : FormIndex N) ∈ cells N 0 t.shape := fun i hi => by
    unfold cells
    rw [Finset.mem_product, Finset.mem_range, Nat.choose_zero_right]
    exact ⟨Nat.one_pos, hi⟩
  refine weak_kernel hs (P := atPoint fields.constraint) (C := edgeValue t fields.conductance)
    (R := edgeValue t fields.resistance) (D := edgeValue t fields.foo)
    (fun i hi => hp.constraint _ (hpt i hi)) ?_ (fun a ha i hi => hp.conductance _ (along_mem h ha hi))
    (fun a ha i hi => hp.resistance _ (along_mem h ha hi))
    (fun a ha i hi => hp.foo _ (along_mem h ha hi)) fun T' F' => ?_
  · obtain ⟨⟨c, i⟩, hc, hv⟩ := hp.constrained
    unfold cells at hc
    rw [Finset.mem_product, Finset.mem_range, Nat.choose_zero_right] at hc
    obtain rfl : c = 0 := by have := hc.1; simp only at this; omega
    exact ⟨i, hc.2, hv⟩
  · have := hz (fun p => T' p.1.2, fun p => F' ((axesOf t 1 p.1.1).headD 0) p.1.2)
    rw [weakForm_comm] at this ⊢
    rw [← this]
    unfold weakForm
    refine Finset.sum_congr rfl fun i hi => ?_
    have hi : i ∈ gridDom t.shape := hi
    have hT : ∀ j ∈ gridDom t.shape, atPoint ((toBlock ((fun p => T' p.1.2,
        fun p => F' ((axesOf t 1 p.1.1).headD 0) p.1.2) : FieldSpace K t.shape)).block 0) j = T' j :=
      fun j hj => dif_pos (hpt j hj)
    congr 1
    · rw [hT i hi]
    · refine Finset.sum_congr rfl fun a ha => ?_
      have ha := Finset.mem_range.mp ha
      have hF : edgeValue t ((toBlock ((fun p => T' p.1.2,
          fun p => F' ((axesOf t 1 p.1.1).headD 0) p.1.2) : FieldSpace K t.shape)).block 1) a i =
          F' a i := by
        refine (dif_pos (along_mem h ha hi)).trans ?_
        simp only
        rw [(axesOf_index h (n := 1) (by simpa using ha) (by simp)).2]
        simp
      unfold gradient
      rw [hT i hi, hT _ (next_mem hi a), hF]

end

/-- C86: with both equations using the same conductance, the assembled system is symmetric -/
theorem C86_adjoint {uniq : List (List Nat) → List (List Nat)} (hu : UniqSpec uniq)
    {shape : Fin N → Nat} {t : StencilTopology N} (ht : mkStencilTopology uniq shape = .ok t)
    (hN : 0 < N) (garbage : Nat → (Fin N → Nat) → K) (s : K) {fields : DiffusionFields N K}
    (ha : Admissible shape s fields)
    (hf : ∀ p ∈ cells N 1 shape, fields.foo.val p = fields.conductance.val p) :
    ∃ sys, formulate t garbage s fields = .ok sys ∧
      ∀ x x', BlockVector t.dom 2 (twoForms shape) x → BlockVector t.dom 2 (twoForms shape) x' →
        ∃ y y', sys.A.vecMul x = .ok y ∧ sys.A.vecMul x' = .ok y' ∧
            ∑ p ∈ cells N 0 shape, (y.block 0).val p * (x'.block 0).val p +
              ∑ p ∈ cells N 1 shape, (y.block 1).val p * (x'.block 1).val p =
            ∑ p ∈ cells N 0 shape, (x.block 0).val p * (y'.block 0).val p +
              ∑ p ∈ cells N 1 shape, (x.block 1).val p * (y'.block 1).val p := by
  obtain ⟨sys, h1, h2⟩ := C86_weak hu ht hN garbage s ha
  obtain ⟨rfl, h⟩ := topologySpec_of_ok hu ht
  refine ⟨sys, h1, fun x x' hx hx' => ?_⟩
  obtain ⟨y, y1, _, y3⟩ := h2 x hx
  obtain ⟨y', y1', _, y3'⟩ := h2 x' hx'
  refine ⟨y, y', y1, y1', ?_⟩
  have hfoo : ∀ a < N, ∀ i ∈ gridDom t.shape, edgeValue t fields.foo a i =
      edgeValue t fields.conductance a i := fun a ha i hi => hf _ (along_mem h ha hi)
  have e : ∀ n, ∑ p ∈ cells N n t.shape, (x.block n).val p * (y'.block n).val p =
      ∑ p ∈ cells N n t.shape, (y'.block n).val p * (x.block n).val p := fun n =>
    Finset.sum_congr rfl fun p _ => mul_comm _ _
  rw [e, e, y3, y3', weakForm_comm]
  exact weakForm_congr (fun _ _ _ _ => rfl) hfoo fun a ha i hi => (hfoo a ha i hi).symm

/-- C86: for positive conductance and resistance and a nonnegative constraint that acts at one point
at least, the diffusion system has exactly one solution for every right hand side. -/
theorem C86_solvable {uniq : List (List Nat) → List (List Nat)} (hu : UniqSpec uniq)
    {shape : Fin N → Nat} {t : StencilTopology N} (ht : mkStencilTopology uniq shape = .ok t)
    (hN : 0 < N) (garbage : Nat → (Fin N → Nat) → K) {s : K} (hs : 0 < s)
    {fields : DiffusionFields N K} (ha : Admissible shape s fields) (hp : Conductive shape fields) :
    ∃ sys, formulate t garbage s fields = .ok sys ∧
      ∀ y, BlockVector t.dom 2 (twoForms shape) y →
        ∃ x z, BlockVector t.dom 2 (twoForms shape) x ∧ sys.A.vecMul x = .ok z ∧
          (∀ j < 2, z.block j = y.block j) ∧
          ∀ x' z', BlockVector t.dom 2 (twoForms shape) x' → sys.A.vecMul x' = .ok z' →
            (∀ j < 2, z'.block j = y.block j) → ∀ j < 2, x'.block j = x.block j := by
  obtain ⟨sys, h1, h2⟩ := C86_weak hu ht hN garbage s ha
  obtain ⟨rfl, h⟩ := topologySpec_of_ok hu ht
  refine ⟨sys, h1, fun y hy => ?_⟩
  -- the right hand side as a functional
  let φ : Module.Dual K (FieldSpace K t.shape) :=
    { toFun := fun w => ∑ p ∈ cells N 0 t.shape, (y.block 0).val p * ((toBlock w).block 0).val p +
        ∑ p ∈ cells N 1 t.shape, (y.block 1).val p * ((toBlock w).block 1).val p
      map_add' := fun v w => by
        simp only [toBlock_add, mul_add, Finset.sum_add_distrib]
        ring
      map_smul' := fun k v => by
        simp only [toBlock_smul, RingHom.id_apply, smul_eq_mul, mul_add, Finset.mul_sum]
        congr 1
        · exact Finset.sum_congr rfl fun p _ => by ring
        · exact Finset.sum_congr rfl fun p _ => by ring }
  have hinj : Function.Injective (weakMap t s fields) := by
    rw [← LinearMap.ker_eq_bot, LinearMap.ker_eq_bot']
    intro v hv
    have hz := weak_zero h hs hp (T := atPoint ((toBlock v).block 0))
      (F := edgeValue t ((toBlock v).block 1)) fun w => by
        have := LinearMap.congr_fun hv w
        exact this
    have hbz : (toBlock v).block 0 = (toBlock (0 : FieldSpace K t.shape)).block 0 :=
      ext_point h rfl rfl ((toBlock_vector h v).valid 0 (by omega))
        ((toBlock_vector h 0).valid 0 (by omega)) fun i hi => by
          rw [(hz i hi).1]
          unfold atPoint toBlock
          simp
    have hbo : (toBlock v).block 1 = (toBlock (0 : FieldSpace K t.shape)).block 1 :=
      ext_along h rfl rfl ((toBlock_vector h v).valid 1 (by omega))
        ((toBlock_vector h 0).valid 1 (by omega)) fun a ha i hi => by
          rw [(hz i hi).2 a ha]
          unfold edgeValue cochainOf toBlock
          simp
    refine Prod.ext (funext fun p => ?_) (funext fun p => ?_)
    · have := congrArg (fun b : Form N K => b.val p.1) hbz
      simpa [toBlock, p.2] using this
    · have := congrArg (fun b : Form N K => b.val p.1) hbo
      simpa [toBlock, p.2] using this
  have hsurj : Function.Surjective (weakMap t s fields) :=
    (LinearMap.injective_iff_surjective_of_finrank_eq_finrank
      Subspace.dual_finrank_eq.symm).mp hinj
  obtain ⟨v, hv⟩ := hsurj φ
  -- pairing determines the blocks
  have hdet : ∀ z : BlockArr (FormShape N) (FormIndex N) K,
      BlockVector t.dom 2 (twoForms t.shape) z →
      (∀ w : FieldSpace K t.shape,
        ∑ p ∈ cells N 0 t.shape, (z.block 0).val p * ((toBlock w).block 0).val p +
          ∑ p ∈ cells N 1 t.shape, (z.block 1).val p * ((toBlock w).block 1).val p =
        ∑ p ∈ cells N 0 t.shape, (y.block 0).val p * ((toBlock w).block 0).val p +
          ∑ p ∈ cells N 1 t.shape, (y.block 1).val p * ((toBlock w).block 1).val p) →
      ∀ j < 2, z.block j = y.block j := by
    intro z hzv hw j hj
    have hval : ∀ p, (z.block j).val p = (y.block j).val p := by
      intro p
      have hj' : j = 0 ∨ j = 1 := by omega
      rcases hj' with rfl | rfl
      · by_cases hpm : p ∈ cells N 0 t.shape
        · have := hw (fun q => if q.1 = p then 1 else 0, fun _ => 0)
          have e1 : ∀ b : Form N K, ∑ q ∈ cells N 0 t.shape, b.val q * ((toBlock ((fun q =>
              if q.1 = p then 1 else 0, fun _ => 0) : FieldSpace K t.shape)).block 0).val q =
                b.val p := by
            intro b
            rw [Finset.sum_eq_single p]
            · simp [toBlock, hpm]
            · intro q hq hqp
              simp [toBlock, hqp]
            · intro hn; exact absurd hpm hn
          have e2 : ∀ b : Form N K, ∑ q ∈ cells N 1 t.shape, b.val q * ((toBlock ((fun q =>
              if q.1 = p then 1 else 0, fun _ => 0) : FieldSpace K t.shape)).block 1).val q = 0 := by
            intro b
            refine Finset.sum_eq_zero fun q _ => ?_
            simp [toBlock]
          rw [e1, e2, e1, e2, add_zero, add_zero] at this
          exact this
        · have hd : p ∉ t.dom (0, t.shape) := by rw [dom_cells h]; exact hpm
          rw [hzv.valid 0 (by omega) p (by rw [hzv.shape 0 (by omega)]; exact hd),
            hy.valid 0 (by omega) p (by rw [hy.shape 0 (by omega)]; exact hd)]
      · by_cases hpm : p ∈ cells N 1 t.shape
        · have := hw (fun _ => 0, fun q => if q.1 = p then 1 else 0)
          have e1 : ∀ b : Form N K, ∑ q ∈ cells N 1 t.shape, b.val q * ((toBlock ((fun _ => 0,
              fun q => if q.1 = p then 1 else 0) : FieldSpace K t.shape)).block 1).val q =
                b.val p := by
            intro b
            rw [Finset.sum_eq_single p]
            · simp [toBlock, hpm]
            · intro q hq hqp
              simp [toBlock, hqp]
            · intro hn; exact absurd hpm hn
          have e2 : ∀ b : Form N K, ∑ q ∈ cells N 0 t.shape, b.val q * ((toBlock ((fun _ => 0,
              fun q => if q.1 = p then 1 else 0) : FieldSpace K t.shape)).block 0).val q = 0 := by
            intro b
            refine Finset.sum_eq_zero fun q _ => ?_
            simp [toBlock]
          rw [e1, e2, e1, e2, zero_add, zero_add] at this
          exact this
        · have hd : p ∉ t.dom (1, t.shape) := by rw [dom_cells h]; exact hpm
          rw [hzv.valid 1 (by omega) p (by rw [hzv.shape 1 (by omega)]; exact hd),
            hy.valid 1 (by omega) p (by rw [hy.shape 1 (by omega)]; exact hd)]
    have hsh : (z.block j).shape = (y.block j).shape := by rw [hzv.shape j hj, hy.shape j hj]
    cases hzb : z.block j with
    | mk a b =>
      cases hyb : y.block j with
      | mk c d =>
        rw [hzb, hyb] at hsh
        simp only [hzb, hyb] at hval
        have hsh : a = c := hsh
        rw [hsh, show b = d from funext hval]
  obtain ⟨z, z1, z2, z3⟩ := h2 (toBlock v) (toBlock_vector h v)
  refine ⟨toBlock v, z, toBlock_vector h v, z1, ?_, ?_⟩
  · refine hdet z z2 fun w => ?_
    rw [z3]
    have := LinearMap.congr_fun hv w
    exact this
  · intro x' z' hx' hz' heq j hj
    obtain ⟨z'', w1, _, w3⟩ := h2 x' hx'
    rw [hz'] at w1
    cases w1
    have hdiff : ∀ i ∈ gridDom t.shape,
        (fun i => atPoint (x'.block 0) i + -1 * atPoint ((toBlock v).block 0) i) i = 0 ∧
        ∀ a < N, (fun a i => edgeValue t (x'.block 1) a i +
          -1 * edgeValue t ((toBlock v).block 1) a i) a i =
          0 := by
      refine weak_zero h hs hp fun w => ?_
      have e1 := w3 (toBlock w)
      have e2 := LinearMap.congr_fun hv w
      have e2 : weakForm t.shape s (atPoint fields.constraint) (edgeValue t fields.conductance)
          (edgeValue t fields.resistance) (edgeValue t fields.foo) (atPoint ((toBlock v).block 0))
          (edgeValue t ((toBlock v).block 1)) (atPoint ((toBlock w).block 0))
          (edgeValue t ((toBlock w).block 1)) = φ w := e2
      rw [weakForm_add_left, weakForm_smul_left, ← e1, e2, heq 0 (by omega), heq 1 (by omega)]
      show φ w + -1 * φ w = 0
      ring
    have hv' := toBlock_vector h v
    have hj' : j = 0 ∨ j = 1 := by omega
    rcases hj' with rfl | rfl
    · refine ext_point h (hx'.shape 0 (by omega)) (hv'.shape 0 (by omega)) (hx'.valid 0 (by omega))
        (hv'.valid 0 (by omega)) fun i hi => ?_
      have := (hdiff i hi).1
      simp only at this
      linear_combination this
    · refine ext_along h (hx'.shape 1 (by omega)) (hv'.shape 1 (by omega)) (hx'.valid 1 (by omega))
        (hv'.valid 1 (by omega)) fun a ha i hi => ?_
      have := (hdiff i hi).2 a ha
      simp only at this
      linear_combination this

/-! ### coarsening -/

/-- a coarse value is a weighted sum of the fine values of the same component -/
theorem coarsen_weights {uniq : List (List Nat) → List (List Nat)} (hu : UniqSpec uniq)
    {shape : Fin N → Nat} {t tc : StencilTopology N} (ht : mkStencilTopology uniq shape = .ok t)
    (hc : t.coarse uniq = .ok tc) (n : Nat) {c : Nat} (hcn : c < N.choose n) {j : Fin N → Nat}
    (hj : j ∈ gridDom tc.shape) :
    ∃ w : (Fin N → Nat) → K, (∀ i ∈ gridDom shape, 0 ≤ w i) ∧ ∑ i ∈ gridDom shape, w i = 2 ^ N ∧
      ∀ f : Form N K, f.shape = (n, shape) →
        2 ^ N * (coarsened t tc n f).val (c, j) = ∑ i ∈ gridDom shape, f.val (c, i) * w i := by
  obtain ⟨h, h', hsh, hsym, _, he⟩ := coarse_spec hu ht hc
  let g : Form N K := ⟨(n, tc.shape), fun ci => if ci = (c, j) then 1 else 0⟩
  obtain ⟨R, rg, hR, hRg, _, hint⟩ := C85_interpolates hu ht hc n g rfl
  have hval : ∀ c' < N.choose n, ∀ i ∈ gridDom shape, 0 ≤ rg.val (c', i) ∧
      (c' ≠ c → rg.val (c', i) = 0) := by
    intro c' hc' i hi
    rw [← components_choose h] at hc'
    obtain ⟨U, hU, hcard, hidx⟩ := h.symbol hc'
    have := hint U hU hcard i hi
    unfold cochainOf at this
    rw [hidx] at this
    rw [this]
    unfold interpolated
    constructor
    · refine div_nonneg (Finset.sum_nonneg fun o _ => ?_) (Nat.cast_nonneg _)
      show (0 : K) ≤ if _ then 1 else 0
      split
      · exact zero_le_one
      · exact le_rfl
    · intro hne
      rw [Finset.sum_eq_zero, zero_div]
      intro o _
      exact if_neg fun h' => hne (congrArg Prod.fst h')
  have hrel : ∀ f : Form N K, f.shape = (n, shape) →
      2 ^ N * (coarsened t tc n f).val (c, j) = ∑ i ∈ gridDom shape, f.val (c, i) * rg.val (c, i) := by
    intro f hf
    obtain ⟨C, R', cf, rg', h1, h2, h3, h4, _, _, h5⟩ := C85_adjoint hu ht hc n f g hf rfl
    rw [hR] at h2
    cases h2
    rw [hRg] at h4
    cases h4
    obtain ⟨C', hC', hC''⟩ := coarsen_call t tc n f (by rw [he]; exact hf)
    rw [h1] at hC'
    cases hC'
    rw [h3] at hC''
    cases hC''
    have e1 : ∑ ci ∈ Finset.range (N.choose n) ×ˢ gridDom tc.shape,
        (coarsened t tc n f).val ci * g.val ci = (coarsened t tc n f).val (c, j) := by
      rw [Finset.sum_eq_single (c, j)]
      · simp [g]
      · intro q _ hq; simp [g, hq]
      · intro hn
        exact absurd (Finset.mem_product.mpr ⟨Finset.mem_range.mpr hcn, hj⟩) hn
    rw [e1] at h5
    rw [h5, Finset.sum_product, Finset.sum_eq_single c]
    · intro c' hc' hne
      exact Finset.sum_eq_zero fun i hi => by
        rw [(hval c' (Finset.mem_range.mp hc') i hi).2 hne, mul_zero]
    · intro hn
      exact absurd (Finset.mem_range.mpr hcn) hn
  refine ⟨fun i => rg.val (c, i), fun i hi => (hval c hcn i hi).1, ?_, hrel⟩
  let one : Form N K := ⟨(n, shape), fun _ => 1⟩
  obtain ⟨C, _, cf, _, h1, _, h3, _, h5⟩ := C85_constant hu ht hc n one g rfl rfl
  obtain ⟨C', hC', hC''⟩ := coarsen_call t tc n one (by rw [he])
  rw [h1] at hC'
  cases hC'
  rw [h3] at hC''
  cases hC''
  have e := (h5 c hcn 1).1 (fun _ _ => rfl) j hj
  have := hrel one rfl
  rw [e, mul_one] at this
  rw [this]
  exact Finset.sum_congr rfl fun i _ => (one_mul _).symm

/-- C86: the values of a coarsened form lie between those of the fine form, component by component;
strict bounds stay strict -/
theorem C86_bounds {uniq : List (List Nat) → List (List Nat)} (hu : UniqSpec uniq)
    {shape : Fin N → Nat} {t tc : StencilTopology N} (ht : mkStencilTopology uniq shape = .ok t)
    (hc : t.coarse uniq = .ok tc) (n : Nat) (f : Form N K) (hf : f.shape = (n, shape)) :
    ∃ C cf, t.coarsen tc n = .ok C ∧ C.call f = .ok cf ∧ cf.shape = (n, tc.shape) ∧
      ∀ c < N.choose n, ∀ m : K,
        ((∀ i ∈ gridDom shape, m ≤ f.val (c, i)) → ∀ j ∈ gridDom tc.shape, m ≤ cf.val (c, j)) ∧
        ((∀ i ∈ gridDom shape, f.val (c, i) ≤ m) → ∀ j ∈ gridDom tc.shape, cf.val (c, j) ≤ m) ∧
        ((∀ i ∈ gridDom shape, m < f.val (c, i)) → ∀ j ∈ gridDom tc.shape, m < cf.val (c, j)) ∧
        ((∀ i ∈ gridDom shape, f.val (c, i) < m) → ∀ j ∈ gridDom tc.shape, cf.val (c, j) < m) := by
  obtain ⟨_, _, _, _, _, he⟩ := coarse_spec hu ht hc
  obtain ⟨C, hC, hC'⟩ := coarsen_call t tc n f (by rw [he]; exact hf)
  have h2N : (0 : K) < 2 ^ N := pow_pos two_pos N
  refine ⟨C, _, hC, hC', rfl, fun c hcn m => ?_⟩
  have key : ∀ j ∈ gridDom tc.shape, ∃ w : (Fin N → Nat) → K, (∀ i ∈ gridDom shape, 0 ≤ w i) ∧
      (∃ i ∈ gridDom shape, 0 < w i) ∧
      2 ^ N * ((coarsened t tc n f).val (c, j) - m) =
        ∑ i ∈ gridDom shape, (f.val (c, i) - m) * w i := by
    intro j hj
    obtain ⟨w, w1, w2, w3⟩ := coarsen_weights (K := K) hu ht hc n hcn hj
    refine ⟨w, w1, ?_, ?_⟩
    · by_contra hcon
      push Not at hcon
      have : ∑ i ∈ gridDom shape, w i ≤ 0 := Finset.sum_nonpos hcon
      rw [w2] at this
      exact absurd this (not_le.mpr h2N)
    · rw [mul_sub, w3 f hf, ← w2, Finset.sum_mul, ← Finset.sum_sub_distrib]
      exact Finset.sum_congr rfl fun i _ => by ring
  refine ⟨fun hm j hj => ?_, fun hm j hj => ?_, fun hm j hj => ?_, fun hm j hj => ?_⟩
  · obtain ⟨w, w1, _, w3⟩ := key j hj
    have : 0 ≤ 2 ^ N * ((coarsened t tc n f).val (c, j) - m) := by
      rw [w3]
      exact Finset.sum_nonneg fun i hi => mul_nonneg (sub_nonneg.mpr (hm i hi)) (w1 i hi)
    exact sub_nonneg.mp (nonneg_of_mul_nonneg_right this h2N)
  · obtain ⟨w, w1, _, w3⟩ := key j hj
    have : 0 ≤ 2 ^ N * (m - (coarsened t tc n f).val (c, j)) := by
      rw [← neg_sub, mul_neg, w3, ← Finset.sum_neg_distrib]
      exact Finset.sum_nonneg fun i hi => by
        rw [← neg_mul, neg_sub]; exact mul_nonneg (sub_nonneg.mpr (hm i hi)) (w1 i hi)
    exact sub_nonneg.mp (nonneg_of_mul_nonneg_right this h2N)
  · obtain ⟨w, w1, ⟨i0, hi0, hw0⟩, w3⟩ := key j hj
    have : 0 < 2 ^ N * ((coarsened t tc n f).val (c, j) - m) := by
      rw [w3]
      exact Finset.sum_pos' (fun i hi => mul_nonneg (sub_nonneg.mpr (hm i hi).le) (w1 i hi))
        ⟨i0, hi0, mul_pos (sub_pos.mpr (hm i0 hi0)) hw0⟩
    exact sub_pos.mp ((mul_pos_iff_of_pos_left h2N).mp this)
  · obtain ⟨w, w1, ⟨i0, hi0, hw0⟩, w3⟩ := key j hj
    have : 0 < 2 ^ N * (m - (coarsened t tc n f).val (c, j)) := by
      rw [← neg_sub, mul_neg, w3, ← Finset.sum_neg_distrib]
      refine Finset.sum_pos' (fun i hi => ?_) ⟨i0, hi0, ?_⟩
      · rw [← neg_mul, neg_sub]; exact mul_nonneg (sub_nonneg.mpr (hm i hi).le) (w1 i hi)
      · rw [← neg_mul, neg_sub]; exact mul_pos (sub_pos.mpr (hm i0 hi0)) hw0
    exact sub_pos.mp ((mul_pos_iff_of_pos_left h2N).mp this)

/-- C86: the coarse equation again has fields of the right shapes and signs, so that it is solvable
if the fine one is -/
theorem C86_coarse {uniq : List (List Nat) → List (List Nat)} (hu : UniqSpec uniq)
    {shape : Fin N → Nat} {t tc : StencilTopology N} (ht : mkStencilTopology uniq shape = .ok t)
    (hc : t.coarse uniq = .ok tc) {fields : DiffusionFields N K} (hf : FieldShapes shape fields)
    (hp : Conductive shape fields) :
    ∃ fields', coarseFields t tc fields = .ok fields' ∧ FieldShapes tc.shape fields' ∧
      Conductive tc.shape fields' := by
  obtain ⟨_, _, _, _, _, he⟩ := coarse_spec hu ht hc
  have hmem : ∀ {n : Nat} {sh : Fin N → Nat} {c : Nat} {i : Fin N → Nat},
      ((c, i) : FormIndex N) ∈ cells N n sh ↔ c < N.choose n ∧ i ∈ gridDom sh := by
    intro n sh c i
    unfold cells
    rw [Finset.mem_product, Finset.mem_range]
  obtain ⟨C0, P, hC0, hP, sP, bP⟩ := C86_bounds hu ht hc 0 fields.constraint hf.constraint
  obtain ⟨C1, C, hC1, hC, sC, bC⟩ := C86_bounds hu ht hc 1 fields.conductance hf.conductance
  obtain ⟨C1', R, hC1', hR, sR, bR⟩ := C86_bounds hu ht hc 1 fields.resistance hf.resistance
  obtain ⟨C1'', D, hC1'', hD, sD, _⟩ := C86_bounds hu ht hc 1 fields.foo hf.foo
  rw [hC1] at hC1' hC1''
  cases hC1'
  cases hC1''
  refine ⟨⟨P, C, R, D⟩, ?_, ⟨sP, sC, sR, sD⟩, ?_, ?_, ?_, ?_, ?_⟩
  · unfold coarseFields
    simp only [hC0, hC1, hP, hC, hR, hD, bind, Except.bind]
  · rintro ⟨c, j⟩ hj
    obtain ⟨h1, h2⟩ := hmem.mp hj
    exact (bP c h1 0).1 (fun i hi => hp.constraint _ (hmem.mpr ⟨h1, hi⟩)) j h2
  · obtain ⟨C0', P', hC0', hP', hmean⟩ := C85_mean hu ht hc 0 fields.constraint hf.constraint
    rw [hC0] at hC0'
    cases hC0'
    rw [hP] at hP'
    cases hP'
    obtain ⟨⟨c0, i0⟩, hi0, hv0⟩ := hp.constrained
    obtain ⟨h1, h2⟩ := hmem.mp hi0
    have hpos : 0 < ∑ i ∈ gridDom shape, fields.constraint.val (c0, i) :=
      Finset.sum_pos' (fun i hi => hp.constraint _ (hmem.mpr ⟨h1, hi⟩)) ⟨i0, h2, hv0⟩
    rw [← hmean c0 h1] at hpos
    by_contra hcon
    push Not at hcon
    have : ∑ j ∈ gridDom tc.shape, P.val (c0, j) ≤ 0 :=
      Finset.sum_nonpos fun j hj => hcon _ (hmem.mpr ⟨h1, hj⟩)
    exact absurd hpos (not_lt.mpr (mul_nonpos_of_nonneg_of_nonpos (pow_nonneg zero_le_two N) this))
  · rintro ⟨c, j⟩ hj
    obtain ⟨h1, h2⟩ := hmem.mp hj
    exact (bC c h1 0).2.2.1 (fun i hi => hp.conductance _ (hmem.mpr ⟨h1, hi⟩)) j h2
  · rintro ⟨c, j⟩ hj
    obtain ⟨h1, h2⟩ := hmem.mp hj
    exact (bR c h1 0).2.2.1 (fun i hi => hp.resistance _ (hmem.mpr ⟨h1, hi⟩)) j h2
  · rintro ⟨c, j⟩ hj
    obtain ⟨h1, h2⟩ := hmem.mp hj
    obtain ⟨w, _, _, w3⟩ := coarsen_weights (K := K) hu ht hc 1 h1 h2
    obtain ⟨C', hC', hD'⟩ := coarsen_call t tc 1 fields.foo (by rw [he]; exact hf.foo)
    obtain ⟨C'', hC'', hE'⟩ := coarsen_call t tc 1 fields.conductance (by
      rw [he]; exact hf.conductance)
    rw [hC1] at hC' hC''
    cases hC'
    cases hC''
    rw [hD] at hD'
    rw [hC] at hE'
    cases hD'
    cases hE'
    have h2N : (2 : K) ^ N ≠ 0 := pow_ne_zero N two_ne_zero
    refine mul_left_cancel₀ h2N ?_
    rw [w3 _ hf.foo, w3 _ hf.conductance]
    exact Finset.sum_congr rfl fun i hi => by rw [hp.foo _ (hmem.mpr ⟨h1, hi⟩)]

/-- C86: each field keeps its mean over the cells of every direction -/
theorem C86_means {uniq : List (List Nat) → List (List Nat)} (hu : UniqSpec uniq)
    {shape : Fin N → Nat} {t tc : StencilTopology N} (ht : mkStencilTopology uniq shape = .ok t)
    (hc : t.coarse uniq = .ok tc) {fields : DiffusionFields N K} (hf : FieldShapes shape fields) :
    ∃ fields', coarseFields t tc fields = .ok fields' ∧
      (2 ^ N * ∑ j ∈ gridDom tc.shape, fields'.constraint.val (0, j) =
        ∑ i ∈ gridDom shape, fields.constraint.val (0, i)) ∧
      ∀ c < N,
        (2 ^ N * ∑ j ∈ gridDom tc.shape, fields'.conductance.val (c, j) =
          ∑ i ∈ gridDom shape, fields.conductance.val (c, i)) ∧
        (2 ^ N * ∑ j ∈ gridDom tc.shape, fields'.resistance.val (c, j) =
          ∑ i ∈ gridDom shape, fields.resistance.val (c, i)) ∧
        (2 ^ N * ∑ j ∈ gridDom tc.shape, fields'.foo.val (c, j) =
          ∑ i ∈ gridDom shape, fields.foo.val (c, i)) := by
  obtain ⟨C0, P, hC0, hP, mP⟩ := C85_mean hu ht hc 0 fields.constraint hf.constraint
  obtain ⟨C1, C, hC1, hC, mC⟩ := C85_mean hu ht hc 1 fields.conductance hf.conductance
  obtain ⟨C1', R, hC1', hR, mR⟩ := C85_mean hu ht hc 1 fields.resistance hf.resistance
  obtain ⟨C1'', D, hC1'', hD, mD⟩ := C85_mean hu ht hc 1 fields.foo hf.foo
  rw [hC1] at hC1' hC1''
  cases hC1'
  cases hC1''
  refine ⟨⟨P, C, R, D⟩, ?_, mP 0 (by simp), fun c hcN => ?_⟩
  · unfold coarseFields
    simp only [hC0, hC1, hP, hC, hR, hD, bind, Except.bind]
  · rw [← Nat.choose_one_right N] at hcN
    exact ⟨mC c hcN, mR c hcN, mD c hcN⟩

/-! ### transfers -/

/-- C86: a restricted residual is `2^(N-2n)` times the coarsened residual, block by block.  It is the
transpose of `interpolate` up to the factor `4^n`. -/
theorem C86_transfer {uniq : List (List Nat) → List (List Nat)} (hu : UniqSpec uniq)
    {shape : Fin N → Nat} {t tc : StencilTopology N} (ht : mkStencilTopology uniq shape = .ok t)
    (hc : t.coarse uniq = .ok tc) {s : K} (hs : s ≠ 0)
    (y x : BlockArr (FormShape N) (FormIndex N) K) (hy : BlockVector t.dom 2 (twoForms shape) y)
    (hx : BlockVector tc.dom 2 (twoForms tc.shape) x) :
    ∃ z w p, restrictDual t tc s y = .ok z ∧ interpolateBlocks t tc x = .ok w ∧
      restrictPrimal t tc y = .ok p ∧ z.size = 2 ∧ w.size = 2 ∧ p.size = 2 ∧
      ∀ n < 2, (z.block n).shape = (n, tc.shape) ∧ (w.block n).shape = (n, shape) ∧
        (p.block n).shape = (n, tc.shape) ∧
        (∀ q, (z.block n).val q = 2 ^ ((N : Int) - 2 * n) * (p.block n).val q) ∧
        4 ^ n * ∑ q ∈ cells N n tc.shape, (z.block n).val q * (x.block n).val q =
          ∑ q ∈ cells N n shape, (y.block n).val q * (w.block n).val q := by
  obtain ⟨h, h', hsh, hsym, _, he⟩ := coarse_spec hu ht hc
  subst he
  have hdiv : ∀ n < 2, ∃ C R cf rg, t.coarsen tc n = .ok C ∧ t.refine tc n = .ok R ∧
      C.call (y.block n) = .ok cf ∧ R.call (x.block n) = .ok rg ∧ cf.shape = (n, tc.shape) ∧
      rg.shape = (n, t.shape) ∧
      2 ^ N * ∑ q ∈ cells N n tc.shape, cf.val q * (x.block n).val q =
        ∑ q ∈ cells N n t.shape, (y.block n).val q * rg.val q := fun n hn =>
    C85_adjoint hu ht hc n (y.block n) (x.block n) (hy.shape n hn) (hx.shape n hn)
  -- scaling before coarsening
  have hscale : ∀ n < 2, ∀ (k : K) C cf, t.coarsen tc n = .ok C → C.call (y.block n) = .ok cf →
      ∃ cg, C.call (⟨(n, t.shape), fun q => (y.block n).val q * k⟩ : Form N K) = .ok cg ∧
        cg.shape = (n, tc.shape) ∧ ∀ q, cg.val q = k * cf.val q := by
    intro n hn k C cf hC hcf
    obtain ⟨C', hC', hg⟩ := coarsen_call t tc n
      (⟨(n, t.shape), fun q => (y.block n).val q * k⟩ : Form N K) rfl
    obtain ⟨C'', hC'', hg'⟩ := coarsen_call t tc n (y.block n) (hy.shape n hn)
    rw [hC] at hC' hC''
    cases hC'
    cases hC''
    rw [hcf] at hg'
    cases hg'
    refine ⟨_, hg, rfl, ?_⟩
    rintro ⟨c, j⟩
    by_cases hq : (c, j) ∈ tc.dom (n, tc.shape)
    · obtain ⟨q1, q2⟩ := mem_dom.mp hq
      rw [components_choose h'] at q1
      obtain ⟨w, _, _, w3⟩ := coarsen_weights (K := K) hu ht hc n q1 q2
      have h2N : (2 : K) ^ N ≠ 0 := pow_ne_zero N two_ne_zero
      refine mul_left_cancel₀ h2N ?_
      rw [w3 _ rfl, mul_left_comm, w3 _ (hy.shape n hn), Finset.mul_sum]
      exact Finset.sum_congr rfl fun i _ => by ring
    · have e1 : (coarsened t tc n (⟨(n, t.shape), fun q => (y.block n).val q * k⟩ : Form N K)).val
          (c, j) = 0 := if_neg hq
      have e2 : (coarsened t tc n (y.block n)).val (c, j) = 0 := if_neg hq
      rw [e1, e2, mul_zero]
  obtain ⟨z, hz, hzp⟩ := collect_exists (n := 2) (dflt := (Arr.zeros (0, tc.shape) : Form N K))
    (f := fun n => do
      let inv ← (stencilHodge t s n).inverse t.dom
      let b ← inv.call (y.block n)
      let c ← t.coarsen tc n
      let b ← c.call b
      (stencilHodge tc (s * 2) n).call b)
    (P := fun n a => a.shape = (n, tc.shape) ∧ ∀ C cf, t.coarsen tc n = .ok C →
      C.call (y.block n) = .ok cf → ∀ q, a.val q = 2 ^ ((N : Int) - 2 * n) * cf.val q) (by
    intro n hn
    obtain ⟨C, R, cf, rg, hC, hR, hcf, hrg, scf, srg, hadj⟩ := hdiv n hn
    have hne : s ^ ((N : Int) - (n : Int) * 2) ≠ 0 := zpow_ne_zero _ hs
    obtain ⟨cg, hcg, scg, vcg⟩ := hscale n hn (1 / s ^ ((N : Int) - (n : Int) * 2)) C cf hC hcf
    refine ⟨⟨(n, tc.shape), fun q => cg.val q * (s * 2) ^ ((N : Int) - (n : Int) * 2)⟩, ?_, rfl, ?_⟩
    · simp only [stencilHodge, Op.inverse, bind, Except.bind]
      rw [if_pos fun _ _ => hne]
      simp only [Op.call, callFn, hy.shape n hn, twoForms, if_true, hC, hcg, scg]
    · intro C' cf' hC' hcf' q
      rw [hC] at hC'
      cases hC'
      rw [hcf] at hcf'
      cases hcf'
      simp only
      rw [vcg, mul_zpow, mul_comm (n : Int) 2, ← mul_comm (n : Int) 2]
      field_simp)
  obtain ⟨w, hw, hwp⟩ := collect_exists (n := 2) (dflt := (Arr.zeros (0, t.shape) : Form N K))
    (f := fun n => do
      let r ← t.refine tc n
      r.call (x.block n))
    (P := fun n a => a.shape = (n, t.shape) ∧ ∀ R, t.refine tc n = .ok R →
      R.call (x.block n) = .ok a) (by
    intro n hn
    obtain ⟨C, R, cf, rg, hC, hR, hcf, hrg, scf, srg, hadj⟩ := hdiv n hn
    refine ⟨rg, ?_, srg, ?_⟩
    · simp only [hR, bind, Except.bind, hrg]
    · intro R' hR'
      rw [hR] at hR'
      cases hR'
      exact hrg)
  obtain ⟨p, hp, hpp⟩ := collect_exists (n := 2) (dflt := (Arr.zeros (0, tc.shape) : Form N K))
    (f := fun n => do
      let c ← t.coarsen tc n
      c.call (y.block n))
    (P := fun n a => a.shape = (n, tc.shape) ∧ ∀ C, t.coarsen tc n = .ok C →
      C.call (y.block n) = .ok a) (by
    intro n hn
    obtain ⟨C, R, cf, rg, hC, hR, hcf, hrg, scf, srg, hadj⟩ := hdiv n hn
    refine ⟨cf, ?_, scf, ?_⟩
    · simp only [hC, bind, Except.bind, hcf]
    · intro C' hC'
      rw [hC] at hC'
      cases hC'
      exact hcf)
  have hysz : min 2 y.size = 2 := by rw [hy.size, Nat.min_self]
  have hxsz : min 2 x.size = 2 := by rw [hx.size, Nat.min_self]
  refine ⟨⟨2, z⟩, ⟨2, w⟩, ⟨2, p⟩, ?_, ?_, ?_, rfl, rfl, rfl, ?_⟩
  · unfold restrictDual
    rw [hysz, hz]
    rfl
  · unfold interpolateBlocks
    rw [hxsz, hw]
    rfl
  · unfold restrictPrimal
    rw [hysz, hp]
    rfl
  · intro n hn
    obtain ⟨C, R, cf, rg, hC, hR, hcf, hrg, scf, srg, hadj⟩ := hdiv n hn
    obtain ⟨z1, z2⟩ := hzp n hn
    obtain ⟨w1, w2⟩ := hwp n hn
    obtain ⟨p1, p2⟩ := hpp n hn
    have hw' := w2 R hR
    rw [hrg] at hw'
    have hw' := Except.ok.inj hw'
    have hp' := p2 C hC
    rw [hcf] at hp'
    have hp' := Except.ok.inj hp'
    have hz' := z2 C cf hC hcf
    refine ⟨z1, w1, p1, ?_, ?_⟩
    · intro q
      show (z n).val q = _ * (p n).val q
      rw [hz' q, hp']
    · show 4 ^ n * ∑ q ∈ cells N n tc.shape, (z n).val q * (x.block n).val q =
        ∑ q ∈ cells N n t.shape, (y.block n).val q * (w n).val q
      rw [← hw', ← hadj, Finset.mul_sum, Finset.mul_sum]
      refine Finset.sum_congr rfl fun q _ => ?_
      rw [hz' q, ← mul_assoc, ← mul_assoc, ← mul_assoc]
      congr 2
      have h4 : (4 : K) ^ n = 2 ^ (2 * (n : Int)) := by
        rw [show (4 : K) = 2 ^ 2 by norm_num, ← pow_mul]
        exact_mod_cast (zpow_natCast (2 : K) (2 * n)).symm
      rw [h4, ← zpow_add₀ (two_ne_zero (α := K)), ← zpow_natCast]
      congr 1
      ring

/-! ### a constraint that is lost -/

theorem faithful_of_mem {I : Type} {S : Finset I} {d : I → K} {p : I} (hp : p ∈ S)
    (h0 : 1 / 10 ^ 8 < |d p|) (h1 : 1 / 10 ^ 8 + 1 / 10 ^ 5 < |d p - 1|) : Faithful S d :=
  ⟨fun h => absurd (h p hp) (not_le.mpr h0), fun h => absurd (h p hp) (not_le.mpr h1)⟩

/-- C86: A constraint whose product with the metric is at most `10^(-8)` everywhere is dropped: the
system is the one without constraint, whatever the size of the other entries. -/
theorem C86_tolerance {uniq : List (List Nat) → List (List Nat)} (hu : UniqSpec uniq)
    {shape : Fin N → Nat} {t : StencilTopology N} (ht : mkStencilTopology uniq shape = .ok t)
    (hN : 0 < N) (garbage : Nat → (Fin N → Nat) → K) (s : K) {fields : DiffusionFields N K}
    (hf : FieldShapes shape fields)
    (h : ∀ p ∈ cells N 0 shape, |s ^ N * fields.constraint.val p| ≤ 1 / 10 ^ 8) :
    formulate t garbage s fields = formulate t garbage s
      ⟨⟨(0, shape), fun _ => 0⟩, fields.conductance, fields.resistance, fields.foo⟩ := by
  obtain ⟨rfl, hspec⟩ := topologySpec_of_ok hu ht
  obtain ⟨sys, e1, e2, e3, e4, e5, e6, e7⟩ := canonical_ok t garbage s
  have hz : s ^ ((N : Int) - ((0 : Nat) : Int) * 2) = s ^ N := by simp
  have b00 : sys.A.block 0 0 = .diagonal true (fun _ => s ^ N) (0, t.shape) := by
    rw [e6 0 (by omega) 0 (by omega)]
    simp only [canonicalBlock, if_true, stencilHodge, hz]
  have hsl : sys.slice 2 2 = ⟨⟨2, 2, sys.A.block⟩, ⟨2, 2, sys.B.block⟩⟩ := by
    unfold StencilSystem.slice
    rw [e2, e3, e4, e5, show min 2 (N + 1) = 2 by omega]
  have g0 : (BlockOp.mk 2 2 sys.A.block).get 0 0 =
      .ok (.diagonal true (fun _ => s ^ N) (0, t.shape)) := by
    rw [← b00]; rfl
  have hzero : ∀ d : FormIndex N → K, (∀ p ∈ cells N 0 t.shape, |s ^ N * d p| ≤ 1 / 10 ^ 8) →
      (Op.diagonal true (fun _ => s ^ N) (0, t.shape)).mul t.dom
        (.diagonal false (fun p => -d p) (0, t.shape)) = .ok (.zero (0, t.shape) (0, t.shape)) := by
    intro d hd
    rw [mul_diagonals_eq]
    unfold simplifyDiagonal
    rw [if_pos]
    rw [allclose_zero, dom_cells hspec]
    intro p hp
    rw [mul_neg, abs_neg]
    exact hd p hp
  have m1 := hzero fields.constraint.val h
  have m2 := hzero (fun _ => 0) fun p _ => by simp
  unfold formulate
  simp only [e1, bind, Except.bind, hsl, fieldOp, negForm, hf.constraint, g0, m1, m2]

/-- C86: so the system may be singular although the fields are positive: on a grid of three
dimensions with spacing `1/1000` and all fields equal to one, every constant potential without flux
solves the homogeneous equations. -/
theorem C86_constraint_lost {uniq : List (List Nat) → List (List Nat)} (hu : UniqSpec uniq)
    {shape : Fin 3 → Nat} (hs : ∀ b, 0 < shape b) {t : StencilTopology 3}
    (ht : mkStencilTopology uniq shape = .ok t) (garbage : Nat → (Fin 3 → Nat) → K) :
    ∃ fields : DiffusionFields 3 K, FieldShapes shape fields ∧ Conductive shape fields ∧
      (∀ p ∈ cells 3 0 shape, fields.constraint.val p = 1) ∧
      ∃ sys x y, formulate t garbage (1 / 1000) fields = .ok sys ∧
        BlockVector t.dom 2 (twoForms shape) x ∧ sys.A.vecMul x = .ok y ∧
        (∀ j < 2, ∀ p, (y.block j).val p = 0) ∧
        ∀ p ∈ cells 3 0 shape, (x.block 0).val p = 1 := by
  obtain ⟨rfl, h⟩ := topologySpec_of_ok hu ht
  have hone : ((0, fun _ => 0) : FormIndex 3) ∈ cells 3 1 t.shape := by
    unfold cells
    rw [Finset.mem_product, Finset.mem_range]
    exact ⟨by decide, mem_gridDom.mpr hs⟩
  have hzer : ((0, fun _ => 0) : FormIndex 3) ∈ cells 3 0 t.shape := by
    unfold cells
    rw [Finset.mem_product, Finset.mem_range]
    exact ⟨by decide, mem_gridDom.mpr hs⟩
  let fields : DiffusionFields 3 K := ⟨⟨(0, t.shape), fun _ => 1⟩, ⟨(1, t.shape), fun _ => 1⟩,
    ⟨(1, t.shape), fun _ => 1⟩, ⟨(1, t.shape), fun _ => 1⟩⟩
  have hf : FieldShapes t.shape fields := ⟨rfl, rfl, rfl, rfl⟩
  have hexp : (1 / 1000 : K) ^ (((3 : Nat) : Int) - 2) = 1 / 1000 := by norm_num
  have ha : Admissible t.shape (1 / 1000) (⟨⟨(0, t.shape), fun _ => 0⟩, fields.conductance,
      fields.resistance, fields.foo⟩ : DiffusionFields 3 K) := by
    refine ⟨⟨rfl, rfl, rfl, rfl⟩, ?_, ?_, ?_, ?_⟩
    · refine ⟨fun _ p _ => by simp, fun h' => ?_⟩
      have := h' _ hzer
      norm_num at this
    · refine faithful_of_mem hone ?_ ?_ <;> simp only [hexp, fields] <;>
        norm_num [abs_of_nonneg, abs_of_neg]
    · refine faithful_of_mem hone ?_ ?_ <;> simp only [hexp, fields] <;>
        norm_num [abs_of_nonneg, abs_of_neg]
    · refine faithful_of_mem hone ?_ ?_ <;> simp only [hexp, fields] <;>
        norm_num [abs_of_nonneg, abs_of_neg]
  refine ⟨fields, hf, ⟨fun _ _ => zero_le_one, ⟨_, hzer, zero_lt_one⟩, fun _ _ => zero_lt_one,
    fun _ _ => zero_lt_one, fun _ _ => rfl⟩, fun _ _ => rfl, ?_⟩
  have htol := C86_tolerance hu ht (by decide) garbage (1 / 1000 : K) hf fun p _ => by
    simp only [fields]
    norm_num [abs_of_nonneg]
  obtain ⟨sys, h1, h2⟩ := formulate_vecMul h (by decide) garbage (1 / 1000 : K) ha
  let v : FieldSpace K t.shape := (fun _ => 1, fun _ => 0)
  obtain ⟨y, y1, y2, y3, y4⟩ := h2 (toBlock v) (toBlock_vector h v)
  have hv1 : ∀ p, ((toBlock v).block 1).val p = 0 := fun p => by simp [toBlock, v]
  have hgrad : ∀ p, (gradForm t garbage ((toBlock v).block 0)).val p = 0 := by
    have : gradForm t garbage ((toBlock v).block 0) = ⟨(1, t.shape), fun _ => 0⟩ := by
      refine ext_along h rfl rfl (mkForm_valid _ _) (fun _ _ => rfl) fun a ha i hi => ?_
      rw [gradForm_val h garbage _ ha hi]
      have hat : ∀ j ∈ gridDom t.shape, atPoint ((toBlock v).block 0) j = 1 := fun j hj =>
        dif_pos (by
          unfold cells
          rw [Finset.mem_product, Finset.mem_range]
          exact ⟨Nat.one_pos, hj⟩)
      unfold gradient
      rw [hat i hi, hat _ (next_mem hi a), sub_self]
      rfl
    intro p
    rw [this]
  refine ⟨sys, toBlock v, y, by rw [htol, h1], toBlock_vector h v, y1, ?_, ?_⟩
  · intro j hj p
    have hj' : j = 0 ∨ j = 1 := by omega
    rcases hj' with rfl | rfl
    · rw [y3 p]
      have hd : (⟨(1, t.shape), fun p => ((toBlock v).block 1).val p *
          ((1 / 1000 : K) ^ (((3 : Nat) : Int) - 2) * fields.conductance.val p)⟩ : Form 3 K) =
          ⟨(1, t.shape), fun _ => 0⟩ := by
        congr 1
        funext p
        rw [hv1, zero_mul]
      rw [hd, divForm_zero h (by decide)]
      simp
    · rw [y4 p, hgrad, hv1]
      ring
  · intro p hp
    exact dif_pos hp

end

/-! ### a case -/

/-- fields on a grid of `4 × 4` points with a constraint at one of them -/
def fieldsCase : DiffusionFields 2 ℚ :=
  ⟨⟨(0, fun _ => 4), fun p => if p.2 0 = 0 ∧ p.2 1 = 0 then 3 else 0⟩,
    ⟨(1, fun _ => 4), fun p => if p.1 = 0 then 2 else 5⟩, ⟨(1, fun _ => 4), fun p => 7 + p.2 0⟩,
    ⟨(1, fun _ => 4), fun p => if p.1 = 0 then 2 else 5⟩⟩

theorem fieldsCase_conductive : Conductive (fun _ => 4) fieldsCase := by
  refine ⟨?_, ⟨(0, fun _ => 0), by decide, by simp [fieldsCase]⟩, ?_, ?_, fun _ _ => rfl⟩
  · intro p _
    unfold fieldsCase
    simp only
    split <;> norm_num
  · intro p _
    unfold fieldsCase
    simp only
    split <;> norm_num
  · intro p _
    unfold fieldsCase
    positivity

theorem fieldsCase_admissible : Admissible (fun _ => 4) (1 / 2 : ℚ) fieldsCase := by
  have h0 : ((0, fun _ => 0) : FormIndex 2) ∈ cells 2 0 fun _ => 4 := by decide
  have h1 : ((0, fun _ => 0) : FormIndex 2) ∈ cells 2 1 fun _ => 4 := by decide
  refine ⟨⟨rfl, rfl, rfl, rfl⟩, faithful_of_mem h0 ?_ ?_, faithful_of_mem h1 ?_ ?_,
    faithful_of_mem h1 ?_ ?_, faithful_of_mem h1 ?_ ?_⟩ <;>
    simp only [fieldsCase] <;> norm_num [abs_of_nonneg, abs_of_neg]

/-- a diffusion equation that is solvable, with its coarse counterpart -/
example (garbage : Nat → (Fin 2 → Nat) → ℚ) :
    ∃ t tc sys fields', mkStencilTopology List.dedup (fun _ : Fin 2 => 4) = .ok t ∧
      t.coarse List.dedup = .ok tc ∧ formulate t garbage (1 / 2) fieldsCase = .ok sys ∧
      coarseFields t tc fieldsCase = .ok fields' ∧ Conductive tc.shape fields' ∧
      ∀ y, BlockVector t.dom 2 (twoForms fun _ => 4) y →
        ∃ x z, BlockVector t.dom 2 (twoForms fun _ => 4) x ∧ sys.A.vecMul x = .ok z ∧
          ∀ j < 2, z.block j = y.block j := by
  obtain ⟨t, ht, hsh, _⟩ := C25_symbols dedup_uniq (fun _ : Fin 2 => 4)
  obtain ⟨tc, htc, _⟩ := C25_symbols dedup_uniq (fun _ : Fin 2 => 2)
  have hc : t.coarse List.dedup = .ok tc := by
    unfold StencilTopology.coarse
    rw [hsh, if_pos (by decide)]
    rw [← htc]
    congr 1
    funext b
    norm_num
  obtain ⟨sys, h1, h2⟩ := C86_solvable dedup_uniq ht (by decide) garbage
    (by norm_num : (0 : ℚ) < 1 / 2) fieldsCase_admissible fieldsCase_conductive
  obtain ⟨fields', h3, _, h4⟩ := C86_coarse dedup_uniq ht hc
    fieldsCase_admissible.toFieldShapes fieldsCase_conductive
  refine ⟨t, tc, sys, fields', ht, hc, h1, h3, h4, fun y hy => ?_⟩
  obtain ⟨x, z, a, b, c, _⟩ := h2 y hy
  exact ⟨x, z, a, b, c⟩

end Verif.Props
