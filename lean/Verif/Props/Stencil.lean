/-
C25-C28: derivative tables and derivative operators of a periodic grid.
-/
import Verif.Lemmas.Stencil
import Verif.Props.StencilOp
import Mathlib.Algebra.Ring.Parity
import Mathlib.Tactic.FinCases

set_option linter.unusedSectionVars false

namespace Verif.Props

open Verif.Model Verif.Spec

section

variable {N : Nat}

/-- C25: `StencilTopology(shape)` succeeds in every dimension; the components of the `n`-forms are
the sets of `n` axes, each once; there is one table per derivative -/
theorem C25_symbols {uniq : List (List Nat) → List (List Nat)} (hu : UniqSpec uniq)
    (shape : Fin N → Nat) :
    ∃ t, mkStencilTopology uniq shape = .ok t ∧ t.shape = shape ∧
      t.symbols.length = N + 1 ∧ t.table.length = N ∧
      ∀ n, t.components n = N.choose n ∧ (t.symbols[n]?.getD []).Nodup ∧
        ∀ u, u ∈ t.symbols[n]?.getD [] ↔ AxisSet N n u := by
  obtain ⟨t, h1, h2, h3⟩ := mkStencilTopology_ok hu shape
  exact ⟨t, h1, h2, h3.symbols_length, h3.table_length, fun n =>
    ⟨symbolSpec_length (h3.symbols n), h3.symbols n⟩⟩

/-- C25: `pascal(n, k)` is the number of `k`-subsets of `n` axes, which is the number of components of a
`k`-form; outside of the triangle the recursion does not end, unless `k` is `0` or `n`. -/
theorem C25_pascal (n k : Nat) (hk : k ≤ n) (fuel : Nat) (hf : n < fuel) :
    pascal fuel n k = some (n.choose k) := by
  induction fuel generalizing n k with
  | zero => omega
  | succ fuel ih =>
    rw [pascal]
    by_cases h : (k : Int) = 0 ∨ (k : Int) = n
    · rw [if_pos h]
      rcases h with h | h
      · rw [show k = 0 by omega, Nat.choose_zero_right]
      · rw [show k = n by omega, Nat.choose_self]
    · rw [if_neg h]
      obtain ⟨n', rfl⟩ : ∃ n', n = n' + 1 := ⟨n - 1, by omega⟩
      obtain ⟨k', rfl⟩ : ∃ k', k = k' + 1 := ⟨k - 1, by omega⟩
      have e1 := ih n' k' (by omega) (by omega)
      have e2 := ih n' (k' + 1) (by omega) (by omega)
      rw [show ((n' + 1 : Nat) : Int) - 1 = n' by omega, show ((k' + 1 : Nat) : Int) - 1 = k' by omega, e1, e2]
      simp [Nat.choose_succ_succ]

/-- C25, see `C25_pascal` -/
theorem C25_pascal_outside (n k : Int) (h0 : k ≠ 0) (hn : k ≠ n) (h : k < 0 ∨ n < k) (fuel : Nat) :
    pascal fuel n k = none := by
  induction fuel generalizing n k with
  | zero => rfl
  | succ fuel ih =>
    rw [pascal, if_neg (by tauto)]
    rcases h with h | h
    · rw [ih (n - 1) (k - 1) (by omega) (by omega) (by omega)]
      rfl
    · rw [ih (n - 1) k h0 (by omega) (by omega)]
      cases pascal fuel (n - 1) (k - 1) <;> rfl

example : pascal 5 4 2 = some 6 := C25_pascal 4 2 (by omega) 5 (by omega)

theorem topologySpec_of_ok {uniq : List (List Nat) → List (List Nat)} (hu : UniqSpec uniq)
    {shape : Fin N → Nat} {t : StencilTopology N} (ht : mkStencilTopology uniq shape = .ok t) :
    t.shape = shape ∧ TopologySpec t := by
  obtain ⟨t', h1, h2, h3⟩ := mkStencilTopology_ok hu shape
  rw [ht] at h1
  cases h1
  exact ⟨h2, h3⟩

/-- C25: the table of the `n`-th derivative lists exactly the triples of a set `u` of `n + 1` axes,
an axis `d` of `u` and the set `u \ {d}`; for each `u` every axis occurs once; the parity is that of
the number of axes of `u` beyond `d` -/
theorem C25_table {uniq : List (List Nat) → List (List Nat)} (hu : UniqSpec uniq)
    {shape : Fin N → Nat} {t : StencilTopology N} (ht : mkStencilTopology uniq shape = .ok t)
    (n : Nat) :
    (∀ u d s, (∃ (c : Nat) (row : List StencilTerm), (t.symbols[n + 1]?.getD [])[c]? = some u ∧
        (t.table[n]?.getD [])[c]? = some row ∧
        ∃ e ∈ row, e.axis = d ∧ (t.symbols[n]?.getD [])[e.term]? = some s) ↔
      AxisSet N (n + 1) u ∧ d ∈ u ∧ s = u.erase d) ∧
    (t.table[n]?.getD []).length = t.components (n + 1) ∧
    ∀ (c : Nat) (u : List Nat) (row : List StencilTerm),
      (t.symbols[n + 1]?.getD [])[c]? = some u → (t.table[n]?.getD [])[c]? = some row →
      (row.map StencilTerm.axis).Nodup ∧ row.length = n + 1 ∧
      ∀ e ∈ row, e.parity = u.countP (e.axis < ·) % 2 := by
  obtain ⟨_, h⟩ := topologySpec_of_ok hu ht
  refine ⟨?_, (h.table n).1, ?_⟩
  · intro u d s
    constructor
    · rintro ⟨c, row, h1, h2, e, he, rfl, h3⟩
      have hau := ((h.symbols (n + 1)).2 u).mp (List.mem_of_getElem? h1)
      obtain ⟨row', k1, k2, k3⟩ := (h.table n).2 c u h1
      rw [h2] at k1
      cases k1
      refine ⟨hau, k2.mem_iff.mp (List.mem_map.mpr ⟨e, he, rfl⟩), ?_⟩
      have := (k3 e he).1
      rw [h3] at this
      simpa using this
    · rintro ⟨hau, hd, rfl⟩
      obtain ⟨c, hc⟩ := List.mem_iff_getElem?.mp (((h.symbols (n + 1)).2 u).mpr hau)
      obtain ⟨row, k1, k2, k3⟩ := (h.table n).2 c u hc
      obtain ⟨e, he, hed⟩ := List.mem_map.mp (k2.mem_iff.mpr hd)
      subst hed
      exact ⟨c, row, hc, k1, e, he, rfl, (k3 e he).1⟩
  · intro c u row h1 h2
    have hau := ((h.symbols (n + 1)).2 u).mp (List.mem_of_getElem? h1)
    obtain ⟨row', k1, k2, k3⟩ := (h.table n).2 c u h1
    rw [h2] at k1
    cases k1
    refine ⟨k2.nodup_iff.mpr (hau.1.imp fun h => Nat.ne_of_lt h), ?_, fun e he => (k3 e he).2⟩
    have := k2.length_eq
    rw [List.length_map, hau.2.1] at this
    exact this

/-- the cochain given by a form: its value on the cell at `i` with extent in the axes of `U` -/
def cochainOf {R : Type} (symbols : List (List Nat)) (f : Form N R) : Cochain N R :=
  fun U i => f.val (symbols.idxOf (U.sort (· ≤ ·)), i)

section

variable {R : Type} [CommRing R] {t : StencilTopology N}

theorem sort_erase (U : Finset Nat) (d : Nat) :
    (U.erase d).sort (· ≤ ·) = (U.sort (· ≤ ·)).erase d := by
  have hnd : (U.sort (· ≤ ·)).Nodup := U.sort_nodup _
  refine List.Perm.eq_of_pairwise' (Finset.pairwise_sort _ _)
    ((Finset.pairwise_sort U (· ≤ ·)).sublist List.erase_sublist) ?_
  refine (List.perm_ext_iff_of_nodup (Finset.sort_nodup _ _) (hnd.erase d)).mpr ?_
  intro x
  rw [Finset.mem_sort, Finset.mem_erase, hnd.mem_erase_iff, Finset.mem_sort]

theorem sort_axisSet {U : Finset Nat} {n : Nat} (hU : U ⊆ Finset.range N) (hc : U.card = n) :
    AxisSet N n (U.sort (· ≤ ·)) :=
  ⟨Finset.sortedLT_sort U |>.pairwise, by rw [Finset.length_sort, hc], fun x hx =>
    Finset.mem_range.mp (hU ((Finset.mem_sort _).mp hx))⟩

theorem sort_countP (U : Finset Nat) (d : Nat) :
    (U.sort (· ≤ ·)).countP (d < ·) = (U.filter fun x => d < x).card := by
  rw [List.countP_eq_length_filter, ← List.toFinset_card_of_nodup ((U.sort_nodup _).filter _)]
  congr 1
  ext x
  simp

/-- the `c`-th component of the derivative of a form -/
theorem primalInner_coboundary (h : TopologySpec t) {n : Nat}
    (garbage : Nat → (Fin N → Nat) → R) (f : Form N R) {U : Finset Nat}
    (hU : U ⊆ Finset.range N) (hc : U.card = n + 1) {i : Fin N → Nat} (hi : i ∈ gridDom t.shape) :
    primalInner t.shape (t.table[n]?.getD []) (t.components (n + 1)) garbage
      (fun c i => f.val (c, i)) ((t.symbols[n + 1]?.getD []).idxOf (U.sort (· ≤ ·))) i =
      coboundary t.shape (cochainOf (t.symbols[n]?.getD []) f) U i := by
  have hmem : U.sort (· ≤ ·) ∈ t.symbols[n + 1]?.getD [] :=
    ((h.symbols (n + 1)).2 _).mpr (sort_axisSet hU hc)
  have hlt : _ < t.components (n + 1) := List.idxOf_lt_length_of_mem hmem
  obtain ⟨u, row, h1, h2, h3, h4, h5, h6⟩ := h.row hlt
  rw [List.getElem?_eq_getElem (List.idxOf_lt_length_of_mem hmem), List.getElem_idxOf] at h1
  cases h1
  rw [primalInner_eq _ _ _ _ _ hlt h3 h4 (fun e he => (h6 e he).2.2.2.1)]
  have hrow : row.map (fun e => (-1) ^ e.parity *
        (f.val (e.term, gridShift t.shape e.axis 1 i) -
          f.val (e.term, gridShift t.shape e.axis 0 i))) =
      (row.map StencilTerm.axis).map fun d => (-1) ^ (U.filter fun x => d < x).card *
        (cochainOf (t.symbols[n]?.getD []) f (U.erase d) (next t.shape d i) -
          cochainOf (t.symbols[n]?.getD []) f (U.erase d) i) := by
    rw [List.map_map]
    apply List.map_congr_left
    intro e he
    obtain ⟨k1, k2, k3, k4, k5⟩ := h6 e he
    rw [gridShift_one hi, gridShift_zero hi, k2, ← neg_one_pow_eq_pow_mod_two, sort_countP]
    have hidx : (t.symbols[n]?.getD []).idxOf ((U.erase e.axis).sort (· ≤ ·)) = e.term := by
      rw [sort_erase]
      obtain ⟨l1, l2⟩ := List.getElem?_eq_some_iff.mp k1
      rw [← l2]
      exact (h.symbols n).1.idxOf_getElem _ l1
    simp only [cochainOf, Function.comp_apply, hidx]
  have hperm : ((row.map StencilTerm.axis).map fun d => (-1) ^ (U.filter fun x => d < x).card *
        (cochainOf (t.symbols[n]?.getD []) f (U.erase d) (next t.shape d i) -
          cochainOf (t.symbols[n]?.getD []) f (U.erase d) i)).sum =
      ((U.sort (· ≤ ·)).map fun d => (-1) ^ (U.filter fun x => d < x).card *
        (cochainOf (t.symbols[n]?.getD []) f (U.erase d) (next t.shape d i) -
          cochainOf (t.symbols[n]?.getD []) f (U.erase d) i)).sum :=
    (h5.map _).sum_eq
  rw [hrow, hperm, coboundary, ← List.sum_toFinset _ (U.sort_nodup _), Finset.sort_toFinset]

theorem mem_dom {s : FormShape N} {c : Nat} {i : Fin N → Nat} :
    (c, i) ∈ t.dom s ↔ c < t.components s.1 ∧ i ∈ gridDom s.2 := by
  simp [StencilTopology.dom]

theorem mkForm_val {n c : Nat} {sh i : Fin N → Nat} (hc : c < t.components n) (hi : i ∈ gridDom sh)
    (data : Nat → (Fin N → Nat) → R) : (t.mkForm (n, sh) data).val (c, i) = data c i := by
  have h : (c, i) ∈ t.dom (n, sh) := mem_dom.mpr ⟨hc, hi⟩
  unfold StencilTopology.mkForm
  exact if_pos h

theorem mkForm_congr {n : Nat} {sh : Fin N → Nat} {data data' : Nat → (Fin N → Nat) → R}
    (h : ∀ c < t.components n, ∀ i ∈ gridDom sh, data c i = data' c i) :
    t.mkForm (n, sh) data = t.mkForm (n, sh) data' := by
  unfold StencilTopology.mkForm
  congr 1
  funext ⟨c, i⟩
  by_cases hm : (c, i) ∈ t.dom (n, sh)
  · rw [if_pos hm, if_pos hm]
    obtain ⟨h1, h2⟩ := mem_dom.mp hm
    exact h c h1 i h2
  · rw [if_neg hm, if_neg hm]

theorem mkForm_zero (n : Nat) (sh : Fin N → Nat) :
    t.mkForm (n, sh) (fun _ _ => (0 : R)) = Arr.zeros (n, sh) := by
  unfold StencilTopology.mkForm Arr.zeros
  congr 1
  funext ci
  exact ite_self _

/-- calling a derivative -/
theorem primal_call (garbage : Nat → (Fin N → Nat) → R) (n : Nat) (f : Form N R)
    (hf : f.shape = (n, t.shape)) :
    (t.primal garbage n).call f = .ok (t.mkForm (n + 1, t.shape)
      (primalInner t.shape (t.table[n]?.getD []) (t.components (n + 1)) garbage
        fun c i => f.val (c, i))) := by
  simp only [StencilTopology.primal, Op.call, callFn, hf, StencilTopology.mkForm, if_true]

theorem dual_call (garbage : Nat → (Fin N → Nat) → R) (n : Nat) (g : Form N R)
    (hg : g.shape = (n + 1, t.shape)) :
    (t.dual garbage n).call g = .ok (t.mkForm (n, t.shape)
      (dualInner t.shape (t.table[n]?.getD []) (t.components n) garbage
        fun c i => g.val (c, i))) := by
  simp only [StencilTopology.dual, StencilTopology.primal, Op.transpose, Op.call, callFn, hg,
    StencilTopology.mkForm, if_true]

/-- C25: the derivative computed from the tables is the exterior derivative of the grid -/
theorem C25_exterior_derivative {uniq : List (List Nat) → List (List Nat)} (hu : UniqSpec uniq)
    {shape : Fin N → Nat} {t : StencilTopology N} (ht : mkStencilTopology uniq shape = .ok t)
    (garbage : Nat → (Fin N → Nat) → R) (n : Nat) (f : Form N R) (hf : f.shape = (n, shape)) :
    ∃ df, (t.primal garbage n).call f = .ok df ∧ df.shape = (n + 1, shape) ∧
      ∀ U ⊆ Finset.range N, U.card = n + 1 → ∀ i ∈ gridDom shape,
        cochainOf (t.symbols[n + 1]?.getD []) df U i =
          coboundary shape (cochainOf (t.symbols[n]?.getD []) f) U i := by
  obtain ⟨rfl, h⟩ := topologySpec_of_ok hu ht
  refine ⟨_, primal_call garbage n f hf, rfl, ?_⟩
  intro U hU hc i hi
  rw [← primalInner_coboundary h garbage f hU hc hi]
  have hmem : U.sort (· ≤ ·) ∈ t.symbols[n + 1]?.getD [] :=
    ((h.symbols (n + 1)).2 _).mpr (sort_axisSet hU hc)
  exact mkForm_val (List.idxOf_lt_length_of_mem hmem) hi _

/-! ### C26 -/

theorem next_comm (sh : Fin N → Nat) {d e : Nat} (h : d ≠ e) (i : Fin N → Nat) :
    next sh d (next sh e i) = next sh e (next sh d i) := by
  funext b
  unfold next
  by_cases h1 : (b : Nat) = d
  · have h2 : (b : Nat) ≠ e := by rw [h1]; exact h
    simp [h1, h]
  · by_cases h2 : (b : Nat) = e
    · simp [h2, Ne.symm h]
    · simp [h1, h2]

/-- removing a smaller axis does not change the number of axes beyond `e`; removing a larger one
lowers it by one -/
theorem card_beyond {U : Finset Nat} {d e : Nat} (h : d < e) :
    ((U.erase d).filter fun x => e < x).card = (U.filter fun x => e < x).card ∧
    (e ∈ U → ((U.erase e).filter fun x => d < x).card + 1 = (U.filter fun x => d < x).card) := by
  constructor
  · congr 1
    ext x
    simp only [Finset.mem_filter, Finset.mem_erase]
    constructor
    · rintro ⟨⟨_, h1⟩, h2⟩; exact ⟨h1, h2⟩
    · rintro ⟨h1, h2⟩; exact ⟨⟨by omega, h1⟩, h2⟩
  · intro he
    rw [Finset.filter_erase]
    exact Finset.card_erase_add_one (Finset.mem_filter.mpr ⟨he, h⟩)

/-- the coboundary of a coboundary vanishes -/
theorem coboundary_coboundary (sh : Fin N → Nat) (F : Cochain N R) (U : Finset Nat)
    (i : Fin N → Nat) : coboundary sh (coboundary sh F) U i = 0 := by
  let term : Nat → Nat → R := fun d e =>
    (-1) ^ (U.filter fun x => d < x).card * ((-1) ^ ((U.erase d).filter fun x => e < x).card *
      ((F ((U.erase d).erase e) (next sh e (next sh d i)) -
          F ((U.erase d).erase e) (next sh d i)) -
        (F ((U.erase d).erase e) (next sh e i) - F ((U.erase d).erase e) i)))
  have h1 : coboundary sh (coboundary sh F) U i =
      ∑ d ∈ U, ∑ e ∈ U.erase d, term d e := by
    unfold coboundary
    refine Finset.sum_congr rfl fun d _ => ?_
    rw [← Finset.sum_sub_distrib, Finset.mul_sum]
    refine Finset.sum_congr rfl fun e _ => ?_
    simp only [term]
    ring
  have anti : ∀ d ∈ U, ∀ e ∈ U, d < e → term d e + term e d = 0 := by
    intro d hd e he hde
    obtain ⟨k1, k2⟩ := card_beyond (U := U) hde
    have k2 := k2 he
    simp only [term]
    rw [k1, ← k2, Finset.erase_right_comm, next_comm sh (Nat.ne_of_lt hde)]
    rw [pow_succ]
    ring
  rw [h1, Finset.sum_sigma']
  refine Finset.sum_involution (fun p _ => ⟨p.2, p.1⟩) ?_ ?_ ?_ ?_
  · rintro ⟨d, e⟩ hp
    simp only [Finset.mem_sigma, Finset.mem_erase] at hp
    obtain ⟨hd, hne, he⟩ := hp
    rcases Nat.lt_or_gt_of_ne hne with h | h
    · rw [add_comm]; exact anti e he d hd h
    · exact anti d hd e he h
  · rintro ⟨d, e⟩ hp _ heq
    simp only [Finset.mem_sigma, Finset.mem_erase] at hp
    simp only [Sigma.mk.injEq] at heq
    exact hp.2.1 heq.1
  · rintro ⟨d, e⟩ hp
    simp only [Finset.mem_sigma, Finset.mem_erase] at hp ⊢
    exact ⟨hp.2.2, Ne.symm hp.2.1, hp.1⟩
  · rintro ⟨d, e⟩ _
    rfl

theorem next_mem {sh : Fin N → Nat} {i : Fin N → Nat} (h : i ∈ gridDom sh) (a : Nat) :
    next sh a i ∈ gridDom sh := by
  rw [← gridShift_one h]; exact gridShift_mem h a 1

/-- the set of axes of a component -/
theorem TopologySpec.symbol (h : TopologySpec t) {n c : Nat} (hc : c < t.components n) :
    ∃ U : Finset Nat, U ⊆ Finset.range N ∧ U.card = n ∧
      (t.symbols[n]?.getD []).idxOf (U.sort (· ≤ ·)) = c := by
  have hc' : c < (t.symbols[n]?.getD []).length := hc
  set u := (t.symbols[n]?.getD [])[c] with hu
  have hau : AxisSet N n u := ((h.symbols n).2 u).mp (List.getElem_mem hc')
  have hnd : u.Nodup := hau.1.imp fun h => Nat.ne_of_lt h
  refine ⟨u.toFinset, fun x hx => Finset.mem_range.mpr (hau.2.2 x (List.mem_toFinset.mp hx)),
    by rw [List.toFinset_card_of_nodup hnd, hau.2.1], ?_⟩
  have : u.toFinset.sort (· ≤ ·) = u := by
    refine List.Perm.eq_of_pairwise' (Finset.pairwise_sort _ _)
      (hau.1.imp fun h => Nat.le_of_lt h) ?_
    exact (List.perm_ext_iff_of_nodup (Finset.sort_nodup _ _) hnd).mpr fun x => by
      rw [Finset.mem_sort, List.mem_toFinset]
  rw [this]
  exact (h.symbols n).1.idxOf_getElem _ hc'

theorem primal_primal (h : TopologySpec t) (garbage garbage' : Nat → (Fin N → Nat) → R) (n : Nat)
    (f : Form N R) :
    t.mkForm (n + 1 + 1, t.shape)
      (primalInner t.shape (t.table[n + 1]?.getD []) (t.components (n + 1 + 1)) garbage'
        fun c i => (t.mkForm (n + 1, t.shape)
          (primalInner t.shape (t.table[n]?.getD []) (t.components (n + 1)) garbage
            fun c i => f.val (c, i))).val (c, i)) = Arr.zeros (n + 1 + 1, t.shape) := by
  rw [← mkForm_zero]
  apply mkForm_congr
  · intro c hc i hi
    obtain ⟨U, hU, hcard, hidx⟩ := h.symbol hc
    have := primalInner_coboundary h garbage' (t.mkForm (n + 1, t.shape)
          (primalInner t.shape (t.table[n]?.getD []) (t.components (n + 1)) garbage
            fun c i => f.val (c, i))) hU hcard hi
    rw [hidx] at this
    refine this.trans ?_
    rw [← coboundary_coboundary t.shape (cochainOf (t.symbols[n]?.getD []) f) U i]
    have hval : ∀ d ∈ U, ∀ j ∈ gridDom t.shape,
        cochainOf (t.symbols[n + 1]?.getD []) (t.mkForm (n + 1, t.shape)
          (primalInner t.shape (t.table[n]?.getD []) (t.components (n + 1)) garbage
            fun c i => f.val (c, i))) (U.erase d) j =
        coboundary t.shape (cochainOf (t.symbols[n]?.getD []) f) (U.erase d) j := by
      intro d hd j hj
      have hU' : U.erase d ⊆ Finset.range N := (Finset.erase_subset _ _).trans hU
      have hc' : (U.erase d).card = n + 1 := by rw [Finset.card_erase_of_mem hd, hcard]; rfl
      rw [← primalInner_coboundary h garbage f hU' hc' hj]
      have hmem : (U.erase d).sort (· ≤ ·) ∈ t.symbols[n + 1]?.getD [] :=
        ((h.symbols (n + 1)).2 _).mpr (sort_axisSet hU' hc')
      exact mkForm_val (List.idxOf_lt_length_of_mem hmem) hj _
    conv_lhs => unfold coboundary
    conv_rhs => rw [coboundary]
    refine Finset.sum_congr rfl fun d hd => ?_
    rw [hval d hd i hi, hval d hd _ (next_mem hi d)]

/-- C26: applying the derivative twice gives zero, for every grid, degree, form and content of the
uninitialised arrays -/
theorem C26_closed {uniq : List (List Nat) → List (List Nat)} (hu : UniqSpec uniq)
    {shape : Fin N → Nat} {t : StencilTopology N} (ht : mkStencilTopology uniq shape = .ok t)
    (garbage garbage' : Nat → (Fin N → Nat) → R) (n : Nat) (f : Form N R)
    (hf : f.shape = (n, shape)) :
    ∃ df, (t.primal garbage n).call f = .ok df ∧
      (t.primal garbage' (n + 1)).call df = .ok (Arr.zeros (n + 2, shape)) := by
  obtain ⟨rfl, h⟩ := topologySpec_of_ok hu ht
  refine ⟨_, primal_call garbage n f hf, ?_⟩
  rw [primal_call garbage' (n + 1) _ rfl, primal_primal h]

/-! ### C28 -/

/-- C28: neither derivative depends on the content of the uninitialised output array -/
theorem C28_initialized {uniq : List (List Nat) → List (List Nat)} (hu : UniqSpec uniq)
    {shape : Fin N → Nat} {t : StencilTopology N} (ht : mkStencilTopology uniq shape = .ok t)
    (garbage garbage' : Nat → (Fin N → Nat) → R) {n : Nat} (hn : n < N) (f : Form N R) :
    (t.primal garbage n).call f = (t.primal garbage' n).call f ∧
    (t.dual garbage n).call f = (t.dual garbage' n).call f := by
  obtain ⟨_, h⟩ := topologySpec_of_ok hu ht
  constructor
  · simp only [StencilTopology.primal, Op.call]
    congr 1
    funext f
    apply mkForm_congr
    · intro c hc i hi
      obtain ⟨u, row, _, _, h3, h4, _, h6⟩ := h.row hc
      rw [primalInner_eq _ _ _ _ _ hc h3 h4 (fun e he => (h6 e he).2.2.2.1),
        primalInner_eq _ _ _ _ _ hc h3 h4 (fun e he => (h6 e he).2.2.2.1)]
  · simp only [StencilTopology.dual, StencilTopology.primal, Op.transpose, Op.call]
    congr 1
    funext f
    apply mkForm_congr
    · intro c hc i hi
      rw [dualInner_eq _ _ _ _ _ hc (h.occurs hn hc) h.parity,
        dualInner_eq _ _ _ _ _ hc (h.occurs hn hc) h.parity]

/-! ### C27 -/

theorem primal_adjoint (h : TopologySpec t) (garbage garbage' : Nat → (Fin N → Nat) → R) {n : Nat}
    (hn : n < N) (f g : Form N R) :
    inner t.dom (n + 1, t.shape) (t.mkForm (n + 1, t.shape)
      (primalInner t.shape (t.table[n]?.getD []) (t.components (n + 1)) garbage
        fun c i => f.val (c, i))) g =
    inner t.dom (n, t.shape) f (t.mkForm (n, t.shape)
      (dualInner t.shape (t.table[n]?.getD []) (t.components n) garbage'
        fun c i => g.val (c, i))) := by
  set table := t.table[n]?.getD [] with htab
  have hlen : table.length = t.components (n + 1) := (h.table n).1
  have hL : inner t.dom (n + 1, t.shape) (t.mkForm (n + 1, t.shape)
      (primalInner t.shape table (t.components (n + 1)) garbage fun c i => f.val (c, i))) g =
      ∑ c ∈ Finset.range (t.components (n + 1)), ((table[c]?.getD []).map fun e =>
        ∑ i ∈ gridDom t.shape, (-1) ^ e.parity *
          ((f.val (e.term, gridShift t.shape e.axis 1 i) -
            f.val (e.term, gridShift t.shape e.axis 0 i)) * g.val (c, i))).sum := by
    unfold inner StencilTopology.dom
    rw [Finset.sum_product]
    refine Finset.sum_congr rfl fun c hc => ?_
    have hc' := Finset.mem_range.mp hc
    obtain ⟨u, row, _, _, h3, h4, _, h6⟩ := h.row hc'
    have hsum : ∀ (l : List StencilTerm) (F : StencilTerm → (Fin N → Nat) → R),
        (l.map fun e => ∑ i ∈ gridDom t.shape, F e i).sum =
          ∑ i ∈ gridDom t.shape, (l.map fun e => F e i).sum := by
      intro l F
      induction l with
      | nil => simp
      | cons a l ih => simp [ih, Finset.sum_add_distrib]
    rw [hsum]
    refine Finset.sum_congr rfl fun i hi => ?_
    rw [mkForm_val hc' hi, primalInner_eq _ _ _ _ _ hc' h3 h4 (fun e he => (h6 e he).2.2.2.1), h3, Option.getD_some,
      ← List.sum_map_mul_right]
    congr 1
    apply List.map_congr_left
    intro e _
    ring
  have hR : inner t.dom (n, t.shape) f (t.mkForm (n, t.shape)
      (dualInner t.shape table (t.components n) garbage' fun c i => g.val (c, i))) =
      (table.zipIdx.map fun rc => (rc.1.map fun e => ∑ i ∈ gridDom t.shape, (-1) ^ e.parity *
        (f.val (e.term, i) * (g.val (rc.2, gridShift t.shape e.axis (-1) i) -
          g.val (rc.2, gridShift t.shape e.axis 0 i)))).sum).sum := by
    unfold inner StencilTopology.dom
    rw [Finset.sum_product]
    have hstep : ∀ s ∈ Finset.range (t.components n), ∑ i ∈ gridDom t.shape, f.val (s, i) *
        (t.mkForm (n, t.shape) (dualInner t.shape table (t.components n) garbage'
          fun c i => g.val (c, i))).val (s, i) =
        (table.zipIdx.map fun rc => (rc.1.map fun e => if e.term = s then
          ∑ i ∈ gridDom t.shape, (-1) ^ e.parity * (f.val (e.term, i) *
            (g.val (rc.2, gridShift t.shape e.axis (-1) i) -
              g.val (rc.2, gridShift t.shape e.axis 0 i))) else 0).sum).sum := by
      intro s hs
      have hs' := Finset.mem_range.mp hs
      have hsum : ∀ {α : Type} (l : List α) (F : α → (Fin N → Nat) → R),
          (l.map fun e => ∑ i ∈ gridDom t.shape, F e i).sum =
            ∑ i ∈ gridDom t.shape, (l.map fun e => F e i).sum := by
        intro α l F
        induction l with
        | nil => simp
        | cons a l ih => simp [ih, Finset.sum_add_distrib]
      have hite : ∀ (p : Prop) [Decidable p] (F : (Fin N → Nat) → R),
          (if p then ∑ i ∈ gridDom t.shape, F i else 0) =
            ∑ i ∈ gridDom t.shape, if p then F i else 0 := by
        intro p _ F; split <;> simp
      simp only [hite, hsum]
      refine Finset.sum_congr rfl fun i hi => ?_
      rw [mkForm_val hs' hi, dualInner_eq _ _ _ _ _ hs' (h.occurs hn hs') h.parity, ← List.sum_map_mul_left]
      congr 1
      apply List.map_congr_left
      intro rc _
      rw [← List.sum_map_mul_left]
      congr 1
      apply List.map_congr_left
      intro e _
      split
      · rename_i he; rw [he]; ring
      · rw [mul_zero]
    rw [Finset.sum_congr rfl hstep]
    have hsum : ∀ {α : Type} (l : List α) (F : α → Nat → R),
        ∑ s ∈ Finset.range (t.components n), (l.map fun e => F e s).sum =
          (l.map fun e => ∑ s ∈ Finset.range (t.components n), F e s).sum := by
      intro α l F
      induction l with
      | nil => simp
      | cons a l ih => simp [← ih, Finset.sum_add_distrib]
    rw [hsum]
    congr 1
    apply List.map_congr_left
    intro rc hrc
    rw [hsum]
    congr 1
    apply List.map_congr_left
    intro e he
    rw [Finset.sum_ite_eq, if_pos]
    have hget : table[rc.2]? = some rc.1 := List.mem_zipIdx_iff_getElem?.mp hrc
    have hlt : rc.2 < t.components (n + 1) := by
      rw [← hlen]; exact (List.getElem?_eq_some_iff.mp hget).1
    obtain ⟨u, row, _, _, h3, _, _, h6⟩ := h.row hlt
    rw [← htab, hget] at h3
    cases h3
    exact Finset.mem_range.mpr (h6 e he).2.2.2.2
  rw [hL, hR]
  have key : ∀ (l : List (List StencilTerm)) (k : Nat) (F : List StencilTerm → Nat → R),
      ((l.zipIdx k).map fun rc => F rc.1 rc.2).sum =
        ∑ c ∈ Finset.range l.length, F (l[c]?.getD []) (c + k) := by
    intro l
    induction l with
    | nil => intro k F; simp
    | cons a l ih =>
      intro k F
      rw [List.zipIdx_cons, List.map_cons, List.sum_cons, ih, List.length_cons,
        Finset.sum_range_succ']
      rw [add_comm]
      congr 1
      · refine Finset.sum_congr rfl fun c _ => ?_
        rw [List.getElem?_cons_succ]
        congr 1
        omega
      · simp
  rw [key table 0 fun row c => (row.map fun e => ∑ i ∈ gridDom t.shape, (-1) ^ e.parity *
        (f.val (e.term, i) * (g.val (c, gridShift t.shape e.axis (-1) i) -
          g.val (c, gridShift t.shape e.axis 0 i)))).sum, hlen]
  refine Finset.sum_congr rfl fun c _ => ?_
  congr 1
  apply List.map_congr_left
  intro e _
  rw [← Finset.mul_sum, ← Finset.mul_sum]
  congr 1
  exact sum_difference e.axis (fun i => f.val (e.term, i)) (fun i => g.val (c, i))

/-- C27: the dual derivative is the adjoint of the primal one -/
theorem C27_adjoint {uniq : List (List Nat) → List (List Nat)} (hu : UniqSpec uniq)
    {shape : Fin N → Nat} {t : StencilTopology N} (ht : mkStencilTopology uniq shape = .ok t)
    (garbage : Nat → (Fin N → Nat) → R) {n : Nat} (hn : n < N) (f g : Form N R)
    (hf : f.shape = (n, shape)) (hg : g.shape = (n + 1, shape)) :
    ∃ df dg, (t.primal garbage n).call f = .ok df ∧ (t.dual garbage n).call g = .ok dg ∧
      df.shape = (n + 1, shape) ∧ dg.shape = (n, shape) ∧
      ∑ ci ∈ Finset.range (N.choose (n + 1)) ×ˢ gridDom shape, df.val ci * g.val ci =
        ∑ ci ∈ Finset.range (N.choose n) ×ˢ gridDom shape, f.val ci * dg.val ci := by
  obtain ⟨rfl, h⟩ := topologySpec_of_ok hu ht
  refine ⟨_, _, primal_call garbage n f hf, dual_call garbage n g hg, rfl, rfl, ?_⟩
  have := primal_adjoint h garbage garbage hn f g
  have hc : ∀ n, t.components n = N.choose n := fun n => symbolSpec_length (h.symbols n)
  rw [← hc, ← hc]
  exact this

end

end

/-! ### examples -/

/-- the tables of the plane: the curl of `(f0, f1)` is `(f1(x+1) - f1) - (f0(y+1) - f0)`, with the
sign of the second axis positive -/
example : (mkStencilTopology (N := 2) List.dedup (fun _ => 3)).map (fun t => (t.symbols, t.table)) =
    .ok ([[[]], [[0], [1]], [[0, 1]]],
      [[[⟨0, 0, 0⟩], [⟨0, 1, 0⟩]], [[⟨1, 0, 1⟩, ⟨0, 1, 0⟩]]]) := by
  rfl

end Verif.Props
