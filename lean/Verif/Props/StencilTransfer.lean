/-
C29-C31: grid transfers and averaging of a periodic grid.
-/
import Verif.Lemmas.StencilTransfer
import Verif.Props.Stencil
import Mathlib.Data.Fin.VecNotation
import Mathlib.Algebra.Order.Ring.Rat
import Mathlib.Algebra.Field.Rat

set_option linter.unusedSectionVars false

namespace Verif.Props

open Verif.Model Verif.Spec

section

variable {N : Nat} {K : Type} [Field K] [CharZero K]

theorem mk_same {uniq : List (List Nat) → List (List Nat)} {sh sh' : Fin N → Nat}
    {t t' : StencilTopology N} (h : mkStencilTopology uniq sh = .ok t)
    (h' : mkStencilTopology uniq sh' = .ok t') :
    t'.symbols = t.symbols ∧ t'.table = t.table ∧ t'.shape = sh' := by
  unfold mkStencilTopology at h h'
  cases hg : generate uniq N with
  | error e => rw [hg] at h; cases h
  | ok p => rw [hg] at h h'; cases h; cases h'; exact ⟨rfl, rfl, rfl⟩

/-- what `coarse` returns -/
theorem coarse_spec {uniq : List (List Nat) → List (List Nat)} (hu : UniqSpec uniq)
    {shape : Fin N → Nat} {t tc : StencilTopology N} (ht : mkStencilTopology uniq shape = .ok t)
    (hc : t.coarse uniq = .ok tc) :
    TopologySpec t ∧ TopologySpec tc ∧ t.shape = (fun b => 2 * tc.shape b) ∧
      tc.symbols = t.symbols ∧ tc.table = t.table ∧ t.shape = shape := by
  obtain ⟨e, h⟩ := topologySpec_of_ok hu ht
  unfold StencilTopology.coarse at hc
  split at hc
  · rename_i heven
    obtain ⟨e', h'⟩ := topologySpec_of_ok hu hc
    obtain ⟨h1, h2, _⟩ := mk_same ht hc
    refine ⟨h, h', ?_, h1, h2, e⟩
    rw [e']
    funext b
    have := heven b
    show t.shape b = 2 * (t.shape b / 2)
    omega
  · cases hc

/-- C29: `coarse` succeeds exactly on even grids, and `coarse` undoes `fine` -/
theorem C29_coarse_fine {uniq : List (List Nat) → List (List Nat)} (hu : UniqSpec uniq)
    {shape : Fin N → Nat} {t : StencilTopology N} (ht : mkStencilTopology uniq shape = .ok t) :
    ((∃ tc, t.coarse uniq = .ok tc) ↔ ∀ b, 2 ∣ shape b) ∧
    ∃ tf, t.fine uniq = .ok tf ∧ tf.coarse uniq = .ok t := by
  obtain ⟨e, _⟩ := topologySpec_of_ok hu ht
  constructor
  · unfold StencilTopology.coarse
    rw [e]
    constructor
    · rintro ⟨tc, h⟩ b
      split at h
      · rename_i h'; exact Nat.dvd_of_mod_eq_zero (h' b)
      · cases h
    · intro h
      rw [if_pos fun b => Nat.mod_eq_zero_of_dvd (h b)]
      obtain ⟨tc, h1, _⟩ := mkStencilTopology_ok hu (fun b => shape b / 2)
      exact ⟨tc, h1⟩
  · obtain ⟨tf, h1, h2, _⟩ := mkStencilTopology_ok hu (fun b => t.shape b * 2)
    refine ⟨tf, h1, ?_⟩
    unfold StencilTopology.coarse
    rw [h2, if_pos fun b => Nat.mul_mod_left _ _, ← ht, ← e]
    congr 1
    funext b
    exact Nat.mul_div_cancel _ (by omega)

theorem transfer_call (t tc : StencilTopology N) (n : Nat) (f : Form N K)
    (hf : f.shape = (n, t.shape)) :
    (t.transfer tc n).call f = .ok (tc.mkForm (n, tc.shape) fun c =>
      binComponent ((t.symbols[n]?.getD [])[c]?.getD []) fun i => f.val (c, i)) := by
  simp only [StencilTopology.transfer, Op.call, callFn, hf, StencilTopology.mkForm, if_true]

theorem transfer_transpose_call (t tc : StencilTopology N) (n : Nat) (c : Form N K)
    (hc : c.shape = (n, tc.shape)) :
    (t.transfer tc n).transpose.call c = .ok (t.mkForm (n, t.shape) fun k =>
      tileComponent ((t.symbols[n]?.getD [])[k]?.getD []) fun i => c.val (k, i)) := by
  simp only [StencilTopology.transfer, Op.transpose, Op.call, callFn, hc, StencilTopology.mkForm,
    if_true]

theorem components_eq {t tc : StencilTopology N} (h : tc.symbols = t.symbols) (n : Nat) :
    tc.components n = t.components n := by
  unfold StencilTopology.components; rw [h]

theorem TopologySpec.axes {t : StencilTopology N} (h : TopologySpec t) {n c : Nat}
    (hc : c < t.components n) : AxisSet N n ((t.symbols[n]?.getD [])[c]?.getD []) := by
  have hc' : c < (t.symbols[n]?.getD []).length := hc
  rw [List.getElem?_eq_getElem hc']
  exact ((h.symbols n).2 _).mp (List.getElem_mem hc')

/-- C29: refining a coarse form and coarsening the result gives the form back -/
theorem C29_coarsen_refine {uniq : List (List Nat) → List (List Nat)} (hu : UniqSpec uniq)
    {shape : Fin N → Nat} {t tc : StencilTopology N} (ht : mkStencilTopology uniq shape = .ok t)
    (hc : t.coarse uniq = .ok tc) (n : Nat) (c : Form N K) (hs : c.shape = (n, tc.shape))
    (hv : ∀ ci, ci ∉ tc.dom (n, tc.shape) → c.val ci = 0) :
    ∃ fine, (t.transfer tc n).transpose.call c = .ok fine ∧ fine.shape = (n, shape) ∧
      (t.transfer tc n).call fine = .ok c := by
  obtain ⟨h, h', hsh, hsym, _, e⟩ := coarse_spec hu ht hc
  refine ⟨_, transfer_transpose_call t tc n c hs, by rw [← e]; rfl, ?_⟩
  rw [transfer_call t tc n _ rfl]
  congr 1
  have hval : tc.mkForm (n, tc.shape) (fun k i => c.val (k, i)) = c := by
    obtain ⟨s, v⟩ := c
    obtain rfl : s = (n, tc.shape) := hs
    unfold StencilTopology.mkForm
    congr 1
    funext ci
    by_cases hm : ci ∈ tc.dom (n, tc.shape)
    · rw [if_pos hm]
    · rw [if_neg hm]; exact (hv ci hm).symm
  refine Eq.trans ?_ hval
  apply mkForm_congr
  intro k hk j hj
  rw [← bin_tile ((t.symbols[n]?.getD [])[k]?.getD []) (fun i => c.val (k, i)) j]
  rw [binComponent_eq, binComponent_eq]
  congr 1
  refine Finset.sum_congr rfl fun o ho => ?_
  refine mkForm_val (by rw [← components_eq hsym]; exact hk) ?_ _
  rw [mem_gridDom] at hj ho ⊢
  intro b
  have h1 := hj b
  have h2 : o b < binsOf _ b := ho b
  have h3 : ∀ s : List Nat, binsOf s b ≤ 2 := by intro s; unfold binsOf; split <;> omega
  have h4 := h3 ((t.symbols[n]?.getD [])[k]?.getD [])
  rw [hsh]
  show 2 * j b + o b < 2 * tc.shape b
  omega

/-- C29: coarsening and refining are adjoint up to the factor `2 ^ n` for `n`-forms -/
theorem C29_adjoint {uniq : List (List Nat) → List (List Nat)} (hu : UniqSpec uniq)
    {shape : Fin N → Nat} {t tc : StencilTopology N} (ht : mkStencilTopology uniq shape = .ok t)
    (hc : t.coarse uniq = .ok tc) (n : Nat) (f c : Form N K) (hf : f.shape = (n, shape))
    (hs : c.shape = (n, tc.shape)) :
    ∃ cf fc, (t.transfer tc n).call f = .ok cf ∧ (t.transfer tc n).transpose.call c = .ok fc ∧
      cf.shape = (n, tc.shape) ∧ fc.shape = (n, shape) ∧
      2 ^ n * ∑ ci ∈ Finset.range (N.choose n) ×ˢ gridDom tc.shape, cf.val ci * c.val ci =
        ∑ ci ∈ Finset.range (N.choose n) ×ˢ gridDom shape, f.val ci * fc.val ci := by
  obtain ⟨h, h', hsh, hsym, _, e⟩ := coarse_spec hu ht hc
  refine ⟨_, _, transfer_call t tc n f (by rw [hf, e]), transfer_transpose_call t tc n c hs, rfl,
    by rw [← e]; rfl, ?_⟩
  rw [Finset.sum_product, Finset.sum_product, Finset.mul_sum]
  refine Finset.sum_congr rfl fun k hk => ?_
  have hk1 : k < t.components n := by
    unfold StencilTopology.components
    rw [symbolSpec_length (h.symbols n)]; exact Finset.mem_range.mp hk
  have hk2 : k < tc.components n := by rw [components_eq hsym]; exact hk1
  have e1 : ∀ j ∈ gridDom tc.shape, (tc.mkForm (n, tc.shape) fun c =>
      binComponent ((t.symbols[n]?.getD [])[c]?.getD []) fun i => f.val (c, i)).val (k, j) *
        c.val (k, j) = binComponent ((t.symbols[n]?.getD [])[k]?.getD [])
          (fun i => f.val (k, i)) j * c.val (k, j) := by
    intro j hj; rw [mkForm_val hk2 hj]
  have e2 : ∀ i ∈ gridDom shape, f.val (k, i) * (t.mkForm (n, t.shape) fun k =>
      tileComponent ((t.symbols[n]?.getD [])[k]?.getD []) fun i => c.val (k, i)).val (k, i) =
      f.val (k, i) * tileComponent ((t.symbols[n]?.getD [])[k]?.getD [])
        (fun i => c.val (k, i)) i := by
    intro i hi; rw [mkForm_val hk1 (by rw [e]; exact hi)]
  rw [Finset.sum_congr rfl e1, Finset.sum_congr rfl e2, ← e, hsh]
  rw [← bin_adjoint, prod_binsOf (h.axes hk1)]
  push_cast
  rfl

/-- C29: `binning` preserves the mean of every array, for all steps -/
theorem C29_binning_mean (steps sh : Fin N → Nat) (hs : ∀ b, 0 < steps b)
    (f : (Fin N → Nat) → K) :
    (∑ j ∈ gridDom sh, binning steps f j) / (∏ b, (sh b : K)) =
      (∑ i ∈ gridDom (fun b => steps b * sh b), f i) / ∏ b, ((steps b * sh b : Nat) : K) := by
  have := binning_mean steps sh hs f
  rw [card_gridDom, card_gridDom] at this
  push_cast at this ⊢
  exact this

/-- C30: restricting and then differentiating is twice differentiating and then restricting, for
every even grid, degree and form -/
theorem C30_commute {uniq : List (List Nat) → List (List Nat)} (hu : UniqSpec uniq)
    {shape : Fin N → Nat} {t tc : StencilTopology N} (ht : mkStencilTopology uniq shape = .ok t)
    (hc : t.coarse uniq = .ok tc) (garbage garbage' : Nat → (Fin N → Nat) → K) (n : Nat)
    (f : Form N K) (hf : f.shape = (n, shape)) :
    ∃ cf df a b, (t.transfer tc n).call f = .ok cf ∧ (tc.primal garbage' n).call cf = .ok a ∧
      (t.primal garbage n).call f = .ok df ∧ (t.transfer tc (n + 1)).call df = .ok b ∧
      a.shape = (n + 1, tc.shape) ∧ b.shape = (n + 1, tc.shape) ∧ ∀ ci, a.val ci = 2 * b.val ci := by
  obtain ⟨h, h', hsh, hsym, htab, e⟩ := coarse_spec hu ht hc
  refine ⟨_, _, _, _, transfer_call t tc n f (by rw [hf, e]), primal_call garbage' n _ rfl,
    primal_call garbage n f (by rw [hf, e]), transfer_call t tc (n + 1) _ rfl, rfl, rfl, ?_⟩
  rintro ⟨k, j⟩
  by_cases hm : (k, j) ∈ tc.dom (n + 1, tc.shape)
  · obtain ⟨hk, hj⟩ := mem_dom.mp hm
    have hk : k < tc.components (n + 1) := hk
    have hj : j ∈ gridDom tc.shape := hj
    have hk1 : k < t.components (n + 1) := by rw [← components_eq hsym]; exact hk
    rw [mkForm_val hk hj, mkForm_val hk hj]
    obtain ⟨U, hU, hcard, hidx⟩ := h.symbol hk1
    have hax : (t.symbols[n + 1]?.getD [])[k]?.getD [] = U.sort (· ≤ ·) := by
      have hmem : U.sort (· ≤ ·) ∈ t.symbols[n + 1]?.getD [] :=
        ((h.symbols (n + 1)).2 _).mpr (sort_axisSet hU hcard)
      rw [← hidx, List.getElem?_eq_getElem (List.idxOf_lt_length_of_mem hmem), List.getElem_idxOf]
      rfl
    rw [hax]
    -- the coarse side
    have hL := primalInner_coboundary h' garbage' (tc.mkForm (n, tc.shape) fun c =>
      binComponent ((t.symbols[n]?.getD [])[c]?.getD []) fun i => f.val (c, i)) hU hcard hj
    rw [hsym, hidx] at hL
    rw [hL]
    -- the fine side
    have hR : ∀ i ∈ gridDom t.shape, (t.mkForm (n + 1, t.shape)
        (primalInner t.shape (t.table[n]?.getD []) (t.components (n + 1)) garbage
          fun c i => f.val (c, i))).val (k, i) =
        coboundary t.shape (cochainOf (t.symbols[n]?.getD []) f) U i := by
      intro i hi
      rw [mkForm_val hk1 hi, ← primalInner_coboundary h garbage f hU hcard hi, hidx]
    have hdom : ∀ o ∈ gridDom (fun b : Fin N => binsOf (U.sort (· ≤ ·)) b),
        (fun b => 2 * j b + o b) ∈ gridDom t.shape := by
      intro o ho
      rw [mem_gridDom] at hj ho ⊢
      intro b
      have h1 := hj b
      have h2 : o b < binsOf _ b := ho b
      have h3 : ∀ s : List Nat, binsOf s b ≤ 2 := by intro s; unfold binsOf; split <;> omega
      have h4 := h3 (U.sort (· ≤ ·))
      rw [hsh]
      show 2 * j b + o b < 2 * tc.shape b
      omega
    have hR' : binComponent (U.sort (· ≤ ·)) (fun i => (t.mkForm (n + 1, t.shape)
        (primalInner t.shape (t.table[n]?.getD []) (t.components (n + 1)) garbage
          fun c i => f.val (c, i))).val (k, i)) j =
        ∑ d ∈ U, (-1) ^ (U.filter fun x => d < x).card *
          binComponent (U.sort (· ≤ ·)) (fun i =>
            cochainOf (t.symbols[n]?.getD []) f (U.erase d) (next (fun b => 2 * tc.shape b) d i) -
              cochainOf (t.symbols[n]?.getD []) f (U.erase d) i) j := by
      simp only [binComponent_eq]
      rw [Finset.sum_congr rfl fun o ho => hR _ (hdom o ho)]
      unfold coboundary
      rw [Finset.sum_comm, Finset.sum_div]
      refine Finset.sum_congr rfl fun d _ => ?_
      rw [← Finset.mul_sum, mul_div_assoc, hsh]
    rw [hR', Finset.mul_sum]
    unfold coboundary
    refine Finset.sum_congr rfl fun d hd => ?_
    rw [mul_left_comm 2]
    congr 1
    have hax' : AxisSet N (n + 1) (U.sort (· ≤ ·)) := sort_axisSet hU hcard
    rw [bin_difference hax' ((Finset.mem_sort _).mpr hd) hj, ← sort_erase]
    have hU' : U.erase d ⊆ Finset.range N := (Finset.erase_subset _ _).trans hU
    have hc' : (U.erase d).card = n := by rw [Finset.card_erase_of_mem hd, hcard]; rfl
    have hmem : (U.erase d).sort (· ≤ ·) ∈ t.symbols[n]?.getD [] :=
      ((h.symbols n).2 _).mpr (sort_axisSet hU' hc')
    have hlt := List.idxOf_lt_length_of_mem hmem
    have hval : ∀ j ∈ gridDom tc.shape, cochainOf (t.symbols[n]?.getD [])
        (tc.mkForm (n, tc.shape) fun c => binComponent ((t.symbols[n]?.getD [])[c]?.getD [])
          fun i => f.val (c, i)) (U.erase d) j =
        binComponent ((U.erase d).sort (· ≤ ·))
          (cochainOf (t.symbols[n]?.getD []) f (U.erase d)) j := by
      intro j hj
      unfold cochainOf
      have hlt' : (t.symbols[n]?.getD []).idxOf ((U.erase d).sort (· ≤ ·)) < tc.components n := by
        rw [components_eq hsym]; exact hlt
      rw [mkForm_val hlt' hj, List.getElem?_eq_getElem hlt, List.getElem_idxOf]
      rfl
    rw [hval _ hj, hval _ (next_mem hj d)]
  · unfold StencilTopology.mkForm
    simp only []
    rw [if_neg hm, if_neg hm, mul_zero]

theorem binsOf_cases (s : List Nat) (b : Nat) : binsOf s b = 1 ∨ binsOf s b = 2 := by
  unfold binsOf; split <;> simp

/-- C31: averaging maps constants to constants, in every component of every degree -/
theorem C31_constant {uniq : List (List Nat) → List (List Nat)} (hu : UniqSpec uniq)
    {shape : Fin N → Nat} {t : StencilTopology N} (ht : mkStencilTopology uniq shape = .ok t)
    (n : Nat) (f : Form N K) (v : K) (hf : ∀ i ∈ gridDom shape, f.val (0, i) = v) :
    ∀ c < N.choose n, ∀ i ∈ gridDom shape, (t.averaging0 n f).val (c, i) = v := by
  obtain ⟨e, h⟩ := topologySpec_of_ok hu ht
  intro c hc i hi
  have hc' : c < t.components n := by
    unfold StencilTopology.components
    rw [symbolSpec_length (h.symbols n)]; exact hc
  unfold StencilTopology.averaging0
  simp only []
  rw [mkForm_val hc' (by rw [e]; exact hi), e]
  unfold convolveOnes
  have : ∀ (d : Fin N → Int), (fun b => (((i b : Int) + d b) % (shape b : Int)).toNat) ∈
      gridDom shape := by
    intro d
    rw [mem_gridDom] at hi ⊢
    intro b
    have h0 : (0 : Int) < shape b := by have := hi b; omega
    have h1 := Int.emod_nonneg ((i b : Int) + d b) h0.ne'
    have h2 := Int.emod_lt_of_pos ((i b : Int) + d b) h0
    omega
  simp only [hf _ (this _)]
  rw [Finset.sum_const, card_gridDom, nsmul_eq_mul]
  have hne : ((∏ b : Fin N, binsOf ((t.symbols[n]?.getD [])[c]?.getD []) b : Nat) : K) ≠ 0 :=
    Nat.cast_ne_zero.mpr (Finset.prod_ne_zero_iff.mpr fun b _ => (binsOf_pos _ b).ne')
  field_simp

/-- C31: averaging preserves the sum over the grid, in every component of every degree -/
theorem C31_total {uniq : List (List Nat) → List (List Nat)} (hu : UniqSpec uniq)
    {shape : Fin N → Nat} {t : StencilTopology N} (ht : mkStencilTopology uniq shape = .ok t)
    (n : Nat) (f : Form N K) :
    ∀ c < N.choose n, ∑ i ∈ gridDom shape, (t.averaging0 n f).val (c, i) =
      ∑ i ∈ gridDom shape, f.val (0, i) := by
  obtain ⟨e, h⟩ := topologySpec_of_ok hu ht
  intro c hc
  have hc' : c < t.components n := by
    unfold StencilTopology.components
    rw [symbolSpec_length (h.symbols n)]; exact hc
  have e1 : ∀ i ∈ gridDom shape, (t.averaging0 n f).val (c, i) =
      convolveOnes shape (fun b => binsOf ((t.symbols[n]?.getD [])[c]?.getD []) b)
        (fun i => f.val (0, i)) i := by
    intro i hi
    unfold StencilTopology.averaging0
    simp only []
    rw [mkForm_val hc' (by rw [e]; exact hi), e]
  rw [Finset.sum_congr rfl e1]
  unfold convolveOnes
  rw [Finset.sum_comm]
  simp only [← Finset.mul_sum, sum_move shape _ fun i => f.val (0, i)]
  rw [Finset.sum_const, card_gridDom, nsmul_eq_mul]
  have hne : ((∏ b : Fin N, binsOf ((t.symbols[n]?.getD [])[c]?.getD []) b : Nat) : K) ≠ 0 :=
    Nat.cast_ne_zero.mpr (Finset.prod_ne_zero_iff.mpr fun b _ => (binsOf_pos _ b).ne')
  field_simp

/-- C31: each averaged value is the mean over the corners `i + o` of the cell -/
theorem C31_corners {uniq : List (List Nat) → List (List Nat)} (hu : UniqSpec uniq)
    {shape : Fin N → Nat} {t : StencilTopology N} (ht : mkStencilTopology uniq shape = .ok t)
    (n : Nat) (f : Form N K) {c : Nat} {s : List Nat}
    (hs : (t.symbols[n]?.getD [])[c]? = some s) {i : Fin N → Nat} (hi : i ∈ gridDom shape) :
    (t.averaging0 n f).val (c, i) =
      (∑ o ∈ Fintype.piFinset fun b : Fin N => Finset.range (if (b : Nat) ∈ s then 2 else 1),
        f.val (0, fun b => (i b + o b) % shape b)) / 2 ^ n := by
  obtain ⟨e, h⟩ := topologySpec_of_ok hu ht
  have hc' : c < t.components n := (List.getElem?_eq_some_iff.mp hs).1
  have hax := h.axes hc'
  rw [hs, Option.getD_some] at hax
  have hbins : ∀ b : Nat, binsOf s b = if b ∈ s then 2 else 1 := by
    intro b; unfold binsOf; simp
  unfold StencilTopology.averaging0
  simp only []
  rw [mkForm_val hc' (by rw [e]; exact hi), e, hs]
  unfold convolveOnes
  simp only [Option.getD_some]
  rw [prod_binsOf hax, ← Finset.mul_sum, one_div, inv_mul_eq_div, Nat.cast_pow]
  congr 1
  unfold gridDom
  simp only [hbins]
  refine Finset.sum_congr rfl fun o _ => ?_
  congr 2
  funext b
  have hcase : ((o b : Int) - (((if (b : Nat) ∈ s then 2 else 1 : Nat) / 2 : Nat) : Int) -
      (if (if (b : Nat) ∈ s then 2 else 1 : Nat) % 2 = 0 then -1 else 0)) = (o b : Int) := by
    by_cases hb : (b : Nat) ∈ s
    · simp [hb]
    · simp [hb]
  rw [hcase, ← Nat.cast_add, ← Int.natCast_mod, Int.toNat_natCast]

/-- C29: `binning` is not all of the transfer of forms of lower degree: `0`-forms are sampled at
every other point, so their mean may change -/
theorem C29_sampling_changes_mean :
    ∃ f : (Fin 1 → Nat) → Rat,
      (∑ j ∈ gridDom (fun _ : Fin 1 => 1), binComponent [] f j) / 1 ≠
        (∑ i ∈ gridDom (fun _ : Fin 1 => 2), f i) / 2 := by
  refine ⟨fun i => i 0, ?_⟩
  decide +kernel

/-! ### examples -/

theorem dedup_uniq : UniqSpec List.dedup := fun l =>
  ⟨List.nodup_dedup l, fun _ => List.mem_dedup⟩

/-- an even grid in three dimensions -/
example : ∃ t tc, mkStencilTopology List.dedup (![4, 2, 6] : Fin 3 → Nat) = .ok t ∧
    t.coarse List.dedup = .ok tc := by
  obtain ⟨t, h, _⟩ := C25_symbols dedup_uniq (![4, 2, 6] : Fin 3 → Nat)
  obtain ⟨tc, hc⟩ := (C29_coarse_fine dedup_uniq h).1.mpr (by decide)
  exact ⟨t, tc, h, hc⟩

/-- an odd grid has no coarse counterpart -/
example : (⟨![4, 3], [], []⟩ : StencilTopology 2).coarse List.dedup = .error .assertionError := by
  rfl

/-- a derivative on a periodic line of three cells, whatever the output array contained -/
example : [0, 1, 2].map (fun k => primalInner (fun _ : Fin 1 => 3) [[⟨0, 0, 0⟩]] 1
    (fun _ _ => (77 : Int)) (fun _ i => [1, 4, 9].getD (i 0) 0) 0 fun _ => k) = [3, 5, -8] := by
  decide

/-- and its adjoint -/
example : [0, 1, 2].map (fun k => dualInner (fun _ : Fin 1 => 3) [[⟨0, 0, 0⟩]] 1
    (fun _ _ => (77 : Int)) (fun _ i => [1, 4, 9].getD (i 0) 0) 0 fun _ => k) = [8, -3, -5] := by
  decide

end

end Verif.Props
