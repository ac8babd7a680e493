/-
C85: smoothing, coarsening and refining the forms of a periodic grid.
-/
import Verif.Lemmas.StencilCoarsen
import Verif.Props.StencilTransfer

set_option linter.unusedSectionVars false

namespace Verif.Props

open Verif.Model Verif.Spec

section

variable {N : Nat} {K : Type} [Field K] [LinearOrder K] [IsStrictOrderedRing K]

/-! ### calling the operators -/

/-- the axes of a component -/
def axesOf (t : StencilTopology N) (n c : Nat) : List Nat := (t.symbols[n]?.getD [])[c]?.getD []

theorem smoother_call (t : StencilTopology N) (scale : Bool) (n : Nat) (f : Form N K)
    (hf : f.shape = (n, t.shape)) :
    (t.smootherOp scale n).call f = .ok (t.mkForm (n, t.shape) fun c =>
      smoothComponent t.shape (smootherWeights scale) (axesOf t n c) fun i => f.val (c, i)) := by
  simp only [StencilTopology.smootherOp, Op.call, callFn, hf, StencilTopology.mkForm, if_true,
    axesOf]

theorem coarsen_eq (t tc : StencilTopology N) (n : Nat) :
    (t.coarsen tc n : Except PyErr (Op (FormShape N) (FormIndex N) K)) =
      .ok (.composed [t.transfer tc n, t.smootherOp true n] (n, tc.shape) (n, t.shape)) := by
  simp [StencilTopology.coarsen, Op.mul, mkComposed, chainOk, StencilTopology.transfer,
    StencilTopology.smootherOp, Op.rows, Op.cols, Op.simplify, simplifyStep, composedIsZero,
    anyAdjacent, Op.isZeroOp, Op.isDerivative, Op.isDualDerivative, flattenComposed,
    Op.isIdentity, combineDiagonals, bind, Except.bind]

theorem refine_eq (t tc : StencilTopology N) (n : Nat) :
    (t.refine tc n : Except PyErr (Op (FormShape N) (FormIndex N) K)) =
      .ok (.composed [t.smootherOp false n, (t.transfer tc n).transpose] (n, t.shape)
        (n, tc.shape)) := by
  simp [StencilTopology.refine, Op.mul, mkComposed, chainOk, StencilTopology.transfer,
    StencilTopology.smootherOp, Op.rows, Op.cols, Op.simplify, simplifyStep, composedIsZero,
    anyAdjacent, Op.isZeroOp, Op.isDerivative, Op.isDualDerivative, flattenComposed,
    Op.isIdentity, combineDiagonals, bind, Except.bind, Op.transpose, transposeAll]

/-- the values of a coarsened form -/
def coarsened (t tc : StencilTopology N) (n : Nat) (f : Form N K) : Form N K :=
  tc.mkForm (n, tc.shape) fun c => binComponent (axesOf t n c) fun i =>
    (t.mkForm (n, t.shape) fun c =>
      smoothComponent t.shape (smootherWeights true) (axesOf t n c) fun i => f.val (c, i)).val (c, i)

/-- the values of a refined form -/
def refined (t tc : StencilTopology N) (n : Nat) (g : Form N K) : Form N K :=
  t.mkForm (n, t.shape) fun c => smoothComponent t.shape (smootherWeights false) (axesOf t n c)
    fun i => (t.mkForm (n, t.shape) fun c =>
      tileComponent (axesOf t n c) fun i => g.val (c, i)).val (c, i)

theorem coarsen_call (t tc : StencilTopology N) (n : Nat) (f : Form N K)
    (hf : f.shape = (n, t.shape)) :
    ∃ op, t.coarsen tc n = .ok op ∧ op.call f = .ok (coarsened t tc n f) := by
  refine ⟨_, coarsen_eq t tc n, ?_⟩
  simp only [Op.call, callChain, hf, if_true, bind, Except.bind, smoother_call t true n f hf]
  rw [transfer_call t tc n _ rfl]
  simp only [StencilTopology.mkForm, if_true]
  rfl

theorem refine_call (t tc : StencilTopology N) (n : Nat) (g : Form N K)
    (hg : g.shape = (n, tc.shape)) :
    ∃ op, t.refine tc n = .ok op ∧ op.call g = .ok (refined t tc n g) := by
  refine ⟨_, refine_eq t tc n, ?_⟩
  simp only [Op.call, callChain, hg, if_true, bind, Except.bind, transfer_transpose_call t tc n g hg]
  rw [smoother_call t false n _ rfl]
  simp only [StencilTopology.mkForm, if_true]
  rfl

/-! ### smoothing -/

theorem axesOf_spec {t : StencilTopology N} (h : TopologySpec t) {n c : Nat}
    (hc : c < t.components n) : AxisSet N n (axesOf t n c) := h.axes hc

theorem components_choose {t : StencilTopology N} (h : TopologySpec t) (n : Nat) :
    t.components n = N.choose n := symbolSpec_length (h.symbols n)

/-- C85: the smoothers are symmetric, as their class claims -/
theorem C85_symmetric {uniq : List (List Nat) → List (List Nat)} (hu : UniqSpec uniq)
    {shape : Fin N → Nat} {t : StencilTopology N} (ht : mkStencilTopology uniq shape = .ok t)
    (scale : Bool) (n : Nat) (f g : Form N K) (hf : f.shape = (n, shape))
    (hg : g.shape = (n, shape)) :
    ∃ sf sg, (t.smootherOp scale n).call f = .ok sf ∧
      (t.smootherOp scale n).transpose.call g = .ok sg ∧
      sf.shape = (n, shape) ∧ sg.shape = (n, shape) ∧
      (t.smootherOp scale n).call g = .ok sg ∧
      ∑ ci ∈ Finset.range (N.choose n) ×ˢ gridDom shape, sf.val ci * g.val ci =
        ∑ ci ∈ Finset.range (N.choose n) ×ˢ gridDom shape, f.val ci * sg.val ci := by
  obtain ⟨rfl, h⟩ := topologySpec_of_ok hu ht
  refine ⟨_, _, smoother_call t scale n f hf, smoother_call t scale n g hg, rfl, rfl,
    smoother_call t scale n g hg, ?_⟩
  rw [Finset.sum_product, Finset.sum_product]
  refine Finset.sum_congr rfl fun c hc => ?_
  have hc' : c < t.components n := by rw [components_choose h]; exact Finset.mem_range.mp hc
  have e1 : ∀ i ∈ gridDom t.shape, (t.mkForm (n, t.shape) fun c =>
      smoothComponent t.shape (smootherWeights scale) (axesOf t n c) fun i => f.val (c, i)).val
        (c, i) * g.val (c, i) = smoothComponent t.shape (smootherWeights scale) (axesOf t n c)
          (fun i => f.val (c, i)) i * g.val (c, i) := by
    intro i hi; rw [mkForm_val hc' hi]
  have e2 : ∀ i ∈ gridDom t.shape, f.val (c, i) * (t.mkForm (n, t.shape) fun c =>
      smoothComponent t.shape (smootherWeights scale) (axesOf t n c) fun i => g.val (c, i)).val
        (c, i) = f.val (c, i) * smoothComponent t.shape (smootherWeights scale) (axesOf t n c)
          (fun i => g.val (c, i)) i := by
    intro i hi; rw [mkForm_val hc' hi]
  rw [Finset.sum_congr rfl e1, Finset.sum_congr rfl e2]
  cases scale with
  | false =>
    simp only [smooth_false]
    exact tents_adjoint t.shape _ _ _
  | true =>
    simp only [smooth_true]
    simp only [mul_assoc, mul_left_comm _ ((1 / 2 : K) ^ _), ← Finset.mul_sum]
    rw [tents_adjoint]

theorem tents_const {sh : Fin N → Nat} (L : List Nat) (v : K) {f : (Fin N → Nat) → K}
    (hf : ∀ i ∈ gridDom sh, f i = v) : ∀ i ∈ gridDom sh, tents sh L f i = 2 ^ L.length * v := by
  induction L generalizing f v with
  | nil => intro i hi; simpa [tents] using hf i hi
  | cons a t ih =>
    intro i hi
    show tents sh t (tent sh a f) i = _
    rw [ih (2 * v) (f := tent sh a f) _ i hi]
    · rw [List.length_cons, pow_succ]; ring
    · intro j hj
      unfold tent
      rw [hf _ (gridShift_mem hj _ _), hf _ (gridShift_mem hj _ _), hf _ (gridShift_mem hj _ _)]
      ring

theorem smooth_true_const {sh : Fin N → Nat} (s : List Nat) (v : K) {f : (Fin N → Nat) → K}
    (hf : ∀ i ∈ gridDom sh, f i = v) :
    ∀ i ∈ gridDom sh, smoothComponent sh (smootherWeights true) s f i = v := by
  intro i hi
  rw [smooth_true]
  simp only []
  rw [tents_const _ v hf i hi, ← mul_assoc, ← mul_pow]
  norm_num

/-! ### coarsening and refining -/

/-- C85: refining is the transpose of coarsening up to the factor `2 ^ N`, in every degree -/
theorem C85_adjoint {uniq : List (List Nat) → List (List Nat)} (hu : UniqSpec uniq)
    {shape : Fin N → Nat} {t tc : StencilTopology N} (ht : mkStencilTopology uniq shape = .ok t)
    (hc : t.coarse uniq = .ok tc) (n : Nat) (f g : Form N K) (hf : f.shape = (n, shape))
    (hg : g.shape = (n, tc.shape)) :
    ∃ C R cf rg, t.coarsen tc n = .ok C ∧ t.refine tc n = .ok R ∧
      C.call f = .ok cf ∧ R.call g = .ok rg ∧ cf.shape = (n, tc.shape) ∧ rg.shape = (n, shape) ∧
      2 ^ N * ∑ ci ∈ Finset.range (N.choose n) ×ˢ gridDom tc.shape, cf.val ci * g.val ci =
        ∑ ci ∈ Finset.range (N.choose n) ×ˢ gridDom shape, f.val ci * rg.val ci := by
  obtain ⟨h, h', hsh, hsym, _, rfl⟩ := coarse_spec hu ht hc
  obtain ⟨C, hC, hC'⟩ := coarsen_call t tc n f hf
  obtain ⟨R, hR, hR'⟩ := refine_call t tc n g hg
  refine ⟨C, R, _, _, hC, hR, hC', hR', rfl, rfl, ?_⟩
  rw [Finset.sum_product, Finset.sum_product, Finset.mul_sum]
  refine Finset.sum_congr rfl fun c hcr => ?_
  have hc1 : c < t.components n := by rw [components_choose h]; exact Finset.mem_range.mp hcr
  have hc2 : c < tc.components n := by rw [components_eq hsym]; exact hc1
  have hax := axesOf_spec h hc1
  set s := axesOf t n c with hs
  have e1 : ∀ j ∈ gridDom tc.shape, (coarsened t tc n f).val (c, j) * g.val (c, j) =
      binComponent s (fun i => (t.mkForm (n, t.shape) fun c =>
        smoothComponent t.shape (smootherWeights true) (axesOf t n c)
          fun i => f.val (c, i)).val (c, i)) j * g.val (c, j) := by
    intro j hj; unfold coarsened; rw [mkForm_val hc2 hj]
  have e2 : ∀ i ∈ gridDom t.shape, f.val (c, i) * (refined t tc n g).val (c, i) =
      f.val (c, i) * tents t.shape (normals N s)
        (fun i => (t.mkForm (n, t.shape) fun c =>
          tileComponent (axesOf t n c) fun i => g.val (c, i)).val (c, i)) i := by
    intro i hi; unfold refined; rw [mkForm_val hc1 hi, smooth_false]
  rw [Finset.sum_congr rfl e1, Finset.sum_congr rfl e2]
  have hb := bin_adjoint s tc.shape (fun i => (t.mkForm (n, t.shape) fun c =>
        smoothComponent t.shape (smootherWeights true) (axesOf t n c)
          fun i => f.val (c, i)).val (c, i)) fun j => g.val (c, j)
  rw [prod_binsOf hax, ← hsh] at hb
  have hlen := normals_length hax
  have hpow : (2 : K) ^ N = 2 ^ (normals N s).length * ((2 ^ n : Nat) : K) := by
    rw [Nat.cast_pow, Nat.cast_ofNat, ← pow_add, hlen]
  rw [hpow, mul_assoc, hb, ← tents_adjoint, Finset.mul_sum]
  refine Finset.sum_congr rfl fun i hi => ?_
  rw [mkForm_val hc1 hi, mkForm_val hc1 hi, smooth_true, ← hs]
  simp only []
  rw [← mul_assoc, ← mul_assoc, ← mul_pow]
  norm_num

/-- the values of a refined form -/
theorem refined_val (t tc : StencilTopology N) (n : Nat) (g : Form N K) {c : Nat}
    (hcn : c < t.components n) {i : Fin N → Nat} (hi : i ∈ gridDom t.shape) :
    (refined t tc n g).val (c, i) =
      tents t.shape (normals N (axesOf t n c)) (tileComponent (axesOf t n c) fun i => g.val (c, i)) i := by
  unfold refined
  rw [mkForm_val hcn hi, smooth_false]
  exact tents_congr _ (fun j hj => mkForm_val hcn hj _) i hi

/-- C85: refining interpolates multilinearly normal to the cells: along the axes of a component
every coarse cell is split into two with the same value; along the others, the even cells keep the
value and the odd ones get the mean of both neighbours -/
theorem C85_interpolates {uniq : List (List Nat) → List (List Nat)} (hu : UniqSpec uniq)
    {shape : Fin N → Nat} {t tc : StencilTopology N} (ht : mkStencilTopology uniq shape = .ok t)
    (hc : t.coarse uniq = .ok tc) (n : Nat) (g : Form N K) (hg : g.shape = (n, tc.shape)) :
    ∃ R rg, t.refine tc n = .ok R ∧ R.call g = .ok rg ∧ rg.shape = (n, shape) ∧
      ∀ U ⊆ Finset.range N, U.card = n → ∀ i ∈ gridDom shape,
        cochainOf (t.symbols[n]?.getD []) rg U i =
          interpolated tc.shape U (cochainOf (t.symbols[n]?.getD []) g U) i := by
  obtain ⟨h, h', hsh, hsym, _, rfl⟩ := coarse_spec hu ht hc
  obtain ⟨R, hR, hR'⟩ := refine_call t tc n g hg
  refine ⟨R, _, hR, hR', rfl, ?_⟩
  intro U hU hcard i hi
  have hmem : U.sort (· ≤ ·) ∈ t.symbols[n]?.getD [] :=
    ((h.symbols n).2 _).mpr (sort_axisSet hU hcard)
  have hlt := List.idxOf_lt_length_of_mem hmem
  have hax : axesOf t n ((t.symbols[n]?.getD []).idxOf (U.sort (· ≤ ·))) = U.sort (· ≤ ·) := by
    unfold axesOf
    rw [List.getElem?_eq_getElem hlt, List.getElem_idxOf]; rfl
  unfold cochainOf
  rw [refined_val t tc n g hlt hi, hax, hsh]
  rw [hsh] at hi
  rw [refine_interpolated _ i hi, Finset.sort_toFinset]

theorem between_pos (U : Finset Nat) (i : Fin N → Nat) (b : Fin N) : 0 < between U i b := by
  unfold between; split <;> omega

theorem interpolated_const (sh : Fin N → Nat) (U : Finset Nat) (v : K) {c : (Fin N → Nat) → K}
    (hsh : ∀ b, 0 < sh b) (hv : ∀ j ∈ gridDom sh, c j = v) (i : Fin N → Nat) :
    interpolated sh U c i = v := by
  unfold interpolated
  rw [Finset.sum_congr rfl fun o _ => hv _ (mem_gridDom.mpr fun b => Nat.mod_lt _ (hsh b)),
    Finset.sum_const, nsmul_eq_mul, Fintype.card_piFinset]
  simp only [Finset.card_range]
  have hne : ((∏ b, between U i b : Nat) : K) ≠ 0 :=
    Nat.cast_ne_zero.mpr (Finset.prod_ne_zero_iff.mpr fun b _ => (between_pos U i b).ne')
  rw [mul_comm, mul_div_assoc, div_self hne, mul_one]

/-- C85: a component with one value everywhere keeps it when it is coarsened or refined -/
theorem C85_constant {uniq : List (List Nat) → List (List Nat)} (hu : UniqSpec uniq)
    {shape : Fin N → Nat} {t tc : StencilTopology N} (ht : mkStencilTopology uniq shape = .ok t)
    (hc : t.coarse uniq = .ok tc) (n : Nat) (f g : Form N K) (hf : f.shape = (n, shape))
    (hg : g.shape = (n, tc.shape)) :
    ∃ C R cf rg, t.coarsen tc n = .ok C ∧ t.refine tc n = .ok R ∧
      C.call f = .ok cf ∧ R.call g = .ok rg ∧ ∀ c < N.choose n, ∀ v : K,
        ((∀ i ∈ gridDom shape, f.val (c, i) = v) → ∀ j ∈ gridDom tc.shape, cf.val (c, j) = v) ∧
        ((∀ j ∈ gridDom tc.shape, g.val (c, j) = v) → ∀ i ∈ gridDom shape, rg.val (c, i) = v) := by
  obtain ⟨h, h', hsh, hsym, _, rfl⟩ := coarse_spec hu ht hc
  obtain ⟨C, hC, hC'⟩ := coarsen_call t tc n f hf
  obtain ⟨R, hR, hR'⟩ := refine_call t tc n g hg
  refine ⟨C, R, _, _, hC, hR, hC', hR', ?_⟩
  intro c hcn v
  have hc1 : c < t.components n := by rw [components_choose h]; exact hcn
  have hc2 : c < tc.components n := by rw [components_eq hsym]; exact hc1
  constructor
  · intro hv j hj
    unfold coarsened
    rw [mkForm_val hc2 hj, binComponent_eq]
    have e : ∀ o ∈ gridDom (fun b : Fin N => binsOf (axesOf t n c) b),
        (t.mkForm (n, t.shape) fun c => smoothComponent t.shape (smootherWeights true)
          (axesOf t n c) fun i => f.val (c, i)).val (c, fun b => 2 * j b + o b) = v := by
      intro o ho
      have hmem : (fun b => 2 * j b + o b) ∈ gridDom t.shape := by
        rw [mem_gridDom] at hj ho ⊢
        intro b
        have h1 := hj b
        have h2 : o b < binsOf _ b := ho b
        rcases binsOf_cases (axesOf t n c) b with h3 | h3 <;> rw [hsh] <;>
          show 2 * j b + o b < 2 * tc.shape b <;> omega
      rw [mkForm_val hc1 hmem]
      exact smooth_true_const _ v hv _ hmem
    rw [Finset.sum_congr rfl e, Finset.sum_const, card_gridDom, nsmul_eq_mul]
    have hne : ((∏ b : Fin N, binsOf (axesOf t n c) b : Nat) : K) ≠ 0 :=
      Nat.cast_ne_zero.mpr (Finset.prod_ne_zero_iff.mpr fun b _ => (binsOf_pos _ b).ne')
    rw [mul_comm, mul_div_assoc, div_self hne, mul_one]
  · intro hv i hi
    rw [refined_val t tc n g hc1 hi]
    have hi' := hi
    rw [hsh] at hi'
    rw [hsh, refine_interpolated _ i hi']
    exact interpolated_const _ _ v (fun b => by have := mem_gridDom.mp hi' b; omega) hv i

/-- C85: coarsening keeps the mean of every component: the sum over the coarse grid is the sum over
the fine one divided by `2 ^ N` -/
theorem C85_mean {uniq : List (List Nat) → List (List Nat)} (hu : UniqSpec uniq)
    {shape : Fin N → Nat} {t tc : StencilTopology N} (ht : mkStencilTopology uniq shape = .ok t)
    (hc : t.coarse uniq = .ok tc) (n : Nat) (f : Form N K) (hf : f.shape = (n, shape)) :
    ∃ C cf, t.coarsen tc n = .ok C ∧ C.call f = .ok cf ∧ ∀ c < N.choose n,
      2 ^ N * ∑ j ∈ gridDom tc.shape, cf.val (c, j) = ∑ i ∈ gridDom shape, f.val (c, i) := by
  obtain ⟨C, hC, hC'⟩ := coarsen_call t tc n f (by
    obtain ⟨_, _, _, _, _, e⟩ := coarse_spec hu ht hc
    rw [e]; exact hf)
  refine ⟨C, _, hC, hC', ?_⟩
  intro c hcn
  -- the form that is 1 in this component and 0 in all others
  let g : Form N K := ⟨(n, tc.shape), fun ci => if ci.1 = c then 1 else 0⟩
  obtain ⟨C', R, cf, rg, h1, h2, h3, h4, _, _, h5⟩ := C85_adjoint hu ht hc n f g hf rfl
  rw [hC] at h1
  cases h1
  rw [hC'] at h3
  cases h3
  obtain ⟨C'', R', _, rg', k1, k2, _, k4, k5⟩ := C85_constant hu ht hc n f g hf rfl
  rw [h2] at k2
  cases k2
  rw [h4] at k4
  cases k4
  have hone : ∀ i ∈ gridDom shape, rg.val (c, i) = 1 :=
    (k5 c hcn 1).2 fun j _ => if_pos rfl
  have hzero : ∀ c' < N.choose n, c' ≠ c → ∀ i ∈ gridDom shape, rg.val (c', i) = 0 :=
    fun c' hc' hne => (k5 c' hc' 0).2 fun j _ => if_neg hne
  rw [Finset.sum_product, Finset.sum_product] at h5
  have hL : ∑ x ∈ Finset.range (N.choose n), ∑ y ∈ gridDom tc.shape,
      (coarsened t tc n f).val (x, y) * g.val (x, y) =
      ∑ y ∈ gridDom tc.shape, (coarsened t tc n f).val (c, y) := by
    rw [Finset.sum_eq_single_of_mem c (Finset.mem_range.mpr hcn)]
    · exact Finset.sum_congr rfl fun y _ => by
        show _ * (if c = c then (1 : K) else 0) = _
        rw [if_pos rfl, mul_one]
    · intro x _ hx
      exact Finset.sum_eq_zero fun y _ => by
        show _ * (if x = c then (1 : K) else 0) = _
        rw [if_neg hx, mul_zero]
  have hRr : ∑ x ∈ Finset.range (N.choose n), ∑ y ∈ gridDom shape, f.val (x, y) * rg.val (x, y) =
      ∑ y ∈ gridDom shape, f.val (c, y) := by
    rw [Finset.sum_eq_single_of_mem c (Finset.mem_range.mpr hcn)]
    · exact Finset.sum_congr rfl fun y hy => by rw [hone y hy, mul_one]
    · intro x hx hne
      exact Finset.sum_eq_zero fun y hy => by
        rw [hzero x (Finset.mem_range.mp hx) hne y hy, mul_zero]
  rw [hL, hRr] at h5
  exact h5

/-! ### the derivative -/

theorem tent_linear (sh : Fin N → Nat) (a : Nat) (U : Finset Nat) (w : Nat → K)
    (F : Nat → (Fin N → Nat) → K) :
    tent sh a (fun i => ∑ d ∈ U, w d * F d i) = fun i => ∑ d ∈ U, w d * tent sh a (F d) i := by
  funext i
  unfold tent
  simp only [mul_add, Finset.sum_add_distrib, mul_div_assoc', ← Finset.sum_div]

theorem tents_linear (sh : Fin N → Nat) (L : List Nat) (U : Finset Nat) (w : Nat → K) :
    ∀ (F : Nat → (Fin N → Nat) → K),
      tents sh L (fun i => ∑ d ∈ U, w d * F d i) = fun i => ∑ d ∈ U, w d * tents sh L (F d) i := by
  induction L with
  | nil => intro F; rfl
  | cons a t ih =>
    intro F
    show tents sh t (tent sh a fun i => ∑ d ∈ U, w d * F d i) = _
    rw [tent_linear, ih]
    rfl

theorem tile_linear (s : List Nat) (U : Finset Nat) (w : Nat → K) (F : Nat → (Fin N → Nat) → K) :
    tileComponent s (fun i => ∑ d ∈ U, w d * F d i) =
      fun i => ∑ d ∈ U, w d * tileComponent s (F d) i := by
  funext i
  unfold tileComponent
  split
  · rfl
  · simp

theorem tile_congr {sh : Fin N → Nat} (s : List Nat) {f g : (Fin N → Nat) → K}
    (h : ∀ j ∈ gridDom sh, f j = g j) :
    ∀ i ∈ gridDom (fun b => 2 * sh b), tileComponent s f i = tileComponent s g i := by
  intro i hi
  unfold tileComponent
  refine if_congr Iff.rfl (h _ ?_) rfl
  rw [mem_gridDom] at hi ⊢
  intro b
  have := hi b
  rw [Nat.div_div_eq_div_mul, skip_mul_bins]
  omega

theorem axesOf_index {t : StencilTopology N} (h : TopologySpec t) {n : Nat} {U : Finset Nat}
    (hU : U ⊆ Finset.range N) (hc : U.card = n) :
    (t.symbols[n]?.getD []).idxOf (U.sort (· ≤ ·)) < t.components n ∧
      axesOf t n ((t.symbols[n]?.getD []).idxOf (U.sort (· ≤ ·))) = U.sort (· ≤ ·) := by
  have hmem : U.sort (· ≤ ·) ∈ t.symbols[n]?.getD [] :=
    ((h.symbols n).2 _).mpr (sort_axisSet hU hc)
  have hlt := List.idxOf_lt_length_of_mem hmem
  refine ⟨hlt, ?_⟩
  unfold axesOf
  rw [List.getElem?_eq_getElem hlt, List.getElem_idxOf]; rfl

/-- C85: refining and then differentiating is half of differentiating and then refining, for every
even grid, degree and form; the fine cells are half as long as the coarse ones -/
theorem C85_commute {uniq : List (List Nat) → List (List Nat)} (hu : UniqSpec uniq)
    {shape : Fin N → Nat} {t tc : StencilTopology N} (ht : mkStencilTopology uniq shape = .ok t)
    (hc : t.coarse uniq = .ok tc) (garbage garbage' : Nat → (Fin N → Nat) → K) (n : Nat)
    (g : Form N K) (hg : g.shape = (n, tc.shape)) :
    ∃ R R' rg dg a b, t.refine tc n = .ok R ∧ t.refine tc (n + 1) = .ok R' ∧
      R.call g = .ok rg ∧ (t.primal garbage n).call rg = .ok a ∧
      (tc.primal garbage' n).call g = .ok dg ∧ R'.call dg = .ok b ∧
      a.shape = (n + 1, shape) ∧ b.shape = (n + 1, shape) ∧ ∀ ci, 2 * a.val ci = b.val ci := by
  obtain ⟨h, h', hsh, hsym, htab, rfl⟩ := coarse_spec hu ht hc
  obtain ⟨R, hR, hRc⟩ := refine_call t tc n g hg
  obtain ⟨R', hR', hRc'⟩ := refine_call t tc (n + 1) (tc.mkForm (n + 1, tc.shape)
    (primalInner tc.shape (tc.table[n]?.getD []) (tc.components (n + 1)) garbage'
        fun c i => g.val (c, i))) rfl
  refine ⟨R, R', _, _, _, _, hR, hR', hRc, primal_call garbage n _ rfl, primal_call garbage' n g hg,
    hRc', rfl, rfl, ?_⟩
  rintro ⟨k, i⟩
  by_cases hm : (k, i) ∈ t.dom (n + 1, t.shape)
  · obtain ⟨hk, hi⟩ := mem_dom.mp hm
    have hk : k < t.components (n + 1) := hk
    have hi : i ∈ gridDom t.shape := hi
    have hi2 : i ∈ gridDom (fun b => 2 * tc.shape b) := by rw [← hsh]; exact hi
    rw [mkForm_val hk hi, refined_val t tc (n + 1) _ hk hi]
    obtain ⟨U, hU, hcard, rfl⟩ := h.symbol hk
    obtain ⟨_, hax⟩ := axesOf_index h hU hcard
    rw [primalInner_coboundary h garbage _ hU hcard hi, hax]
    -- the derivative on the coarse grid
    have hD : ∀ j ∈ gridDom tc.shape, (tc.mkForm (n + 1, tc.shape)
        (primalInner tc.shape (tc.table[n]?.getD []) (tc.components (n + 1)) garbage'
          fun c i => g.val (c, i))).val
          ((t.symbols[n + 1]?.getD []).idxOf (U.sort (· ≤ ·)), j) =
        ∑ d ∈ U, (-1) ^ (U.filter fun x => d < x).card *
          diff tc.shape d (cochainOf (t.symbols[n]?.getD []) g (U.erase d)) j := by
      intro j hj
      have hk2 : (t.symbols[n + 1]?.getD []).idxOf (U.sort (· ≤ ·)) < tc.components (n + 1) := by
        rw [components_eq hsym]; exact hk
      rw [mkForm_val hk2 hj]
      have := primalInner_coboundary h' garbage' g hU hcard hj
      rw [hsym] at this
      rw [this]
      rfl
    have hT : ∀ j ∈ gridDom t.shape, tileComponent (U.sort (· ≤ ·)) (fun i => (tc.mkForm
        (n + 1, tc.shape) (primalInner tc.shape (tc.table[n]?.getD []) (tc.components (n + 1))
          garbage' fun c i => g.val (c, i))).val
          ((t.symbols[n + 1]?.getD []).idxOf (U.sort (· ≤ ·)), i)) j =
        ∑ d ∈ U, (-1) ^ (U.filter fun x => d < x).card * tileComponent (U.sort (· ≤ ·))
          (diff tc.shape d (cochainOf (t.symbols[n]?.getD []) g (U.erase d))) j := by
      intro j hj
      rw [hsh] at hj
      rw [tile_congr _ hD j hj, tile_linear]
    rw [tents_congr _ hT i hi, tents_linear]
    unfold coboundary
    rw [Finset.mul_sum]
    refine Finset.sum_congr rfl fun d hd => ?_
    rw [mul_left_comm 2]
    congr 1
    have hU' : U.erase d ⊆ Finset.range N := (Finset.erase_subset _ _).trans hU
    have hc' : (U.erase d).card = n := by rw [Finset.card_erase_of_mem hd, hcard]; rfl
    obtain ⟨hlt, hax'⟩ := axesOf_index h hU' hc'
    have hval : ∀ j ∈ gridDom t.shape, cochainOf (t.symbols[n]?.getD []) (refined t tc n g)
        (U.erase d) j = tents t.shape (normals N ((U.sort (· ≤ ·)).erase d))
          (tileComponent ((U.sort (· ≤ ·)).erase d)
            (cochainOf (t.symbols[n]?.getD []) g (U.erase d))) j := by
      intro j hj
      unfold cochainOf
      rw [refined_val t tc n g hlt hj, hax', sort_erase]
    rw [hval _ hi, hval _ (next_mem hi d)]
    have := refine_diff (sh := tc.shape) (sort_axisSet hU hcard) ((Finset.mem_sort (· ≤ ·)).mpr hd)
      (cochainOf (t.symbols[n]?.getD []) g (U.erase d)) i hi2
    rw [← hsh] at this
    unfold diff at this ⊢
    rw [this, ← mul_assoc]
    norm_num
  · unfold refined StencilTopology.mkForm
    simp only []
    rw [if_neg hm, if_neg hm, mul_zero]

/-- C85: coarsening and then applying the dual derivative is twice applying the dual derivative and
then coarsening -/
theorem C85_dual_commute {uniq : List (List Nat) → List (List Nat)} (hu : UniqSpec uniq)
    {shape : Fin N → Nat} {t tc : StencilTopology N} (ht : mkStencilTopology uniq shape = .ok t)
    (hc : t.coarse uniq = .ok tc) (garbage garbage' : Nat → (Fin N → Nat) → K) {n : Nat}
    (hn : n < N) (f : Form N K) (hf : f.shape = (n + 1, shape)) :
    ∃ C C' cf df a b, t.coarsen tc (n + 1) = .ok C ∧ t.coarsen tc n = .ok C' ∧
      C.call f = .ok cf ∧ (tc.dual garbage' n).call cf = .ok a ∧
      (t.dual garbage n).call f = .ok df ∧ C'.call df = .ok b ∧
      a.shape = (n, tc.shape) ∧ b.shape = (n, tc.shape) ∧ ∀ ci, a.val ci = 2 * b.val ci := by
  obtain ⟨h, h', hsh, hsym, htab, e⟩ := coarse_spec hu ht hc
  have htc : mkStencilTopology uniq tc.shape = .ok tc := by
    have hc0 := hc
    unfold StencilTopology.coarse at hc0
    split at hc0
    · obtain ⟨e', _⟩ := topologySpec_of_ok hu hc0
      rw [e']; exact hc0
    · cases hc0
  obtain ⟨C, hC, hCc⟩ := coarsen_call t tc (n + 1) f (by rw [e]; exact hf)
  have hdc := dual_call garbage n f (t := t) (by rw [e]; exact hf)
  obtain ⟨C', hC', hCc'⟩ := coarsen_call t tc n (t.mkForm (n, t.shape)
      (dualInner t.shape (t.table[n]?.getD []) (t.components n) garbage
        fun c i => f.val (c, i))) rfl
  have hda := dual_call garbage' n (coarsened t tc (n + 1) f) (t := tc) rfl
  refine ⟨C, C', _, _, _, _, hC, hC', hCc, hda, hdc, hCc', rfl, rfl, ?_⟩
  rintro ⟨k, j⟩
  by_cases hm : (k, j) ∈ tc.dom (n, tc.shape)
  · obtain ⟨hk, hj⟩ := mem_dom.mp hm
    have hk : k < tc.components n := hk
    have hj : j ∈ gridDom tc.shape := hj
    have hk1 : k < N.choose n := by rw [← components_choose h']; exact hk
    -- the test form
    let g : Form N K := ⟨(n, tc.shape), fun ci => if ci = (k, j) then 1 else 0⟩
    have hpick : ∀ u : FormIndex N → K, ∑ ci ∈ Finset.range (N.choose n) ×ˢ gridDom tc.shape,
        u ci * g.val ci = u (k, j) := by
      intro u
      rw [Finset.sum_eq_single_of_mem (k, j)
        (Finset.mem_product.mpr ⟨Finset.mem_range.mpr hk1, hj⟩)]
      · show _ * (if (k, j) = (k, j) then (1 : K) else 0) = _
        rw [if_pos rfl, mul_one]
      · intro ci _ hne
        show _ * (if ci = (k, j) then (1 : K) else 0) = _
        rw [if_neg hne, mul_zero]
    -- the four identities
    obtain ⟨R, R', rg, dg, a, b, c1, c2, c3, c4, c5, c6, _, hb, c8⟩ :=
      C85_commute hu ht hc garbage garbage' n g rfl
    obtain ⟨_, _, _, _, a1, a2, a3, a4, _, _, a5⟩ := C85_adjoint hu ht hc n
      (t.mkForm (n, t.shape) (dualInner t.shape (t.table[n]?.getD []) (t.components n) garbage
        fun c i => f.val (c, i))) g (by rw [← e]; rfl) rfl
    rw [hC'] at a1; cases a1
    rw [c1] at a2; cases a2
    rw [hCc'] at a3; cases a3
    rw [c3] at a4; cases a4
    have hrg : rg.shape = (n, shape) := by
      obtain ⟨_, q1, q2⟩ := refine_call t tc n g rfl
      rw [c1] at q1; cases q1
      rw [c3] at q2; cases q2
      rw [← e]; rfl
    obtain ⟨_, _, b1, b2, _, _, b3⟩ := C27_adjoint hu ht garbage hn rg f hrg hf
    rw [c4] at b1; cases b1
    rw [hdc] at b2; cases b2
    have hdg : dg.shape = (n + 1, tc.shape) := by
      rw [primal_call garbage' n g rfl] at c5
      cases c5; rfl
    obtain ⟨_, _, _, _, d1, d2, d3, d4, _, _, d5⟩ := C85_adjoint hu ht hc (n + 1) f dg hf hdg
    rw [hC] at d1; cases d1
    rw [c2] at d2; cases d2
    rw [hCc] at d3; cases d3
    rw [c6] at d4; cases d4
    obtain ⟨_, _, e1, e2, _, _, e3⟩ := C27_adjoint hu htc garbage' hn g (coarsened t tc (n + 1) f)
      rfl rfl
    rw [c5] at e1; cases e1
    rw [hda] at e2; cases e2
    -- combine them
    rw [hpick] at a5
    have hcomm : ∀ (m : Nat) (sh : Fin N → Nat) (u v : FormIndex N → K),
        ∑ ci ∈ Finset.range (N.choose m) ×ˢ gridDom sh, u ci * v ci =
          ∑ ci ∈ Finset.range (N.choose m) ×ˢ gridDom sh, v ci * u ci :=
      fun m sh u v => Finset.sum_congr rfl fun _ _ => mul_comm _ _
    rw [hcomm n tc.shape g.val, hpick] at e3
    rw [hcomm (n + 1) shape a.val] at b3
    rw [hcomm n shape] at a5
    have hab : ∑ ci ∈ Finset.range (N.choose (n + 1)) ×ˢ gridDom shape, f.val ci * b.val ci =
        2 * ∑ ci ∈ Finset.range (N.choose (n + 1)) ×ˢ gridDom shape, f.val ci * a.val ci := by
      rw [Finset.mul_sum]
      refine Finset.sum_congr rfl fun ci _ => ?_
      rw [← c8 ci]; ring
    rw [hab, b3, ← a5, hcomm (n + 1) tc.shape, e3] at d5
    have hne : (2 : K) ^ N ≠ 0 := pow_ne_zero _ (by norm_num)
    apply mul_left_cancel₀ hne
    rw [d5]
    ring
  · unfold coarsened StencilTopology.mkForm
    simp only []
    rw [if_neg hm, if_neg hm, mul_zero]

end

/-! ### cases -/

/-- a periodic line of eight cells -/
def line8 : StencilTopology 1 := ⟨fun _ => 8, [[[]], [[0]]], [[[⟨0, 0, 0⟩]]]⟩

/-- its coarse counterpart -/
def line4 : StencilTopology 1 := ⟨fun _ => 4, [[[]], [[0]]], [[[⟨0, 0, 0⟩]]]⟩

theorem line8_built : mkStencilTopology List.dedup (fun _ : Fin 1 => 8) = .ok line8 := by rfl

theorem line4_coarse : line8.coarse List.dedup = .ok line4 := by
  unfold StencilTopology.coarse
  have h : (fun b => line8.shape b / 2) = fun _ : Fin 1 => 4 := by funext b; simp [line8]
  rw [if_pos (by decide), h]
  rfl

/-- refining a `0`-form and a `1`-form, and coarsening a `0`-form and a `1`-form, on this line -/
theorem C85_case :
    (List.range 8).map (fun k => (refined line8 line4 0
      (⟨(0, fun _ => 4), fun ci => ([0, 4, 2, 8] : List ℚ)[ci.2 0]?.getD 0⟩ : Form 1 ℚ)).val
        (0, fun _ => k)) = [0, 2, 4, 3, 2, 5, 8, 4] ∧
    (List.range 8).map (fun k => (refined line8 line4 1
      (⟨(1, fun _ => 4), fun ci => ([0, 4, 2, 8] : List ℚ)[ci.2 0]?.getD 0⟩ : Form 1 ℚ)).val
        (0, fun _ => k)) = [0, 0, 4, 4, 2, 2, 8, 8] ∧
    (List.range 4).map (fun k => (coarsened line8 line4 0
      (⟨(0, fun _ => 8), fun ci => ([0, 8, 0, 0, 4, 0, 0, 4] : List ℚ)[ci.2 0]?.getD 0⟩ :
        Form 1 ℚ)).val (0, fun _ => k)) = [3, 2, 2, 1] ∧
    (List.range 4).map (fun k => (coarsened line8 line4 1
      (⟨(1, fun _ => 8), fun ci => ([0, 8, 0, 0, 4, 0, 0, 4] : List ℚ)[ci.2 0]?.getD 0⟩ :
        Form 1 ℚ)).val (0, fun _ => k)) = [4, 0, 2, 2] := by
  decide +kernel

/-- C85: coarsening does not commute with the derivative, not even up to a factor: there is a
`0`-form whose derivative is coarsened to zero although the derivative of the coarsened form is not
zero -/
theorem C85_coarsen_derivative (garbage garbage' : Nat → (Fin 1 → Nat) → ℚ) :
    ∃ (f : Form 1 ℚ) (C C' : Op (FormShape 1) (FormIndex 1) ℚ) (cf df a b : Form 1 ℚ),
      f.shape = (0, fun _ => 8) ∧ line8.coarsen line4 0 = .ok C ∧ line8.coarsen line4 1 = .ok C' ∧
      C.call f = .ok cf ∧ (line4.primal garbage' 0).call cf = .ok a ∧
      (line8.primal garbage 0).call f = .ok df ∧ C'.call df = .ok b ∧
      (∀ j < 4, b.val (0, fun _ => j) = 0) ∧ a.val (0, fun _ => 1) ≠ 0 := by
  let f : Form 1 ℚ := ⟨(0, fun _ => 8), fun ci => if ci.2 0 = 1 then 1 else 0⟩
  obtain ⟨C, hC, hCc⟩ := coarsen_call line8 line4 0 f rfl
  obtain ⟨C', hC', hCc'⟩ := coarsen_call line8 line4 1 (line8.mkForm (1, line8.shape)
      (primalInner line8.shape (line8.table[0]?.getD []) (line8.components 1) garbage
        fun c i => f.val (c, i))) rfl
  refine ⟨f, C, C', _, _, _, _, rfl, hC, hC', hCc, primal_call garbage' 0 _ rfl,
    primal_call garbage 0 f rfl, hCc', ?_, ?_⟩
  · have hz : (line8.primal garbage 0).call f = (line8.primal (fun _ _ => 0) 0).call f :=
      (C28_initialized dedup_uniq line8_built garbage (fun _ _ => 0) (by decide) f).1
    rw [primal_call garbage 0 f rfl, primal_call (fun _ _ => 0) 0 f rfl] at hz
    rw [Except.ok.inj hz]
    decide +kernel
  · have hz : (line4.primal garbage' 0).call (coarsened line8 line4 0 f) =
        (line4.primal (fun _ _ => 0) 0).call (coarsened line8 line4 0 f) :=
      (C28_initialized (shape := fun _ => 4) dedup_uniq rfl garbage' (fun _ _ => 0) (by decide)
        (coarsened line8 line4 0 f)).1
    rw [primal_call garbage' 0 _ rfl, primal_call (fun _ _ => 0) 0 _ rfl] at hz
    rw [Except.ok.inj hz]
    decide +kernel

end Verif.Props
