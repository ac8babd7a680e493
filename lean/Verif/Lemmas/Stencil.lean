/-
The derivative operators of a periodic grid: what the loops compute.
-/
import Verif.Lemmas.StencilTable
import Verif.Lemmas.StencilOp
import Mathlib.Algebra.BigOperators.Ring.Finset
import Mathlib.Algebra.BigOperators.Pi
import Mathlib.Tactic.Ring

set_option linter.unusedSectionVars false

namespace Verif.Props

open Verif.Model Verif.Spec

/-! ### the tables of a topology -/

/-- what `StencilTopology.__init__` should establish -/
structure TopologySpec {N : Nat} (t : StencilTopology N) : Prop where
  symbols_length : t.symbols.length = N + 1
  table_length : t.table.length = N
  symbols : ∀ n, SymbolSpec N n (t.symbols[n]?.getD [])
  table : ∀ n, TableSpec (t.symbols[n]?.getD []) (t.symbols[n + 1]?.getD []) (t.table[n]?.getD [])

theorem generateLoop_ok {uniq : List (List Nat) → List (List Nat)} (hu : UniqSpec uniq) {N : Nat} :
    ∀ (k n : Nat) (symbols : List (List Nat)), SymbolSpec N n symbols →
      ∃ ss ts, generateLoop uniq N k symbols = .ok (ss, ts) ∧ ss.length = k ∧ ts.length = k ∧
        (∀ j ≤ k, SymbolSpec N (n + j) ((symbols :: ss)[j]?.getD [])) ∧
        ∀ j < k, TableSpec ((symbols :: ss)[j]?.getD []) ((symbols :: ss)[j + 1]?.getD [])
          (ts[j]?.getD []) := by
  intro k
  induction k with
  | zero =>
    intro n symbols hs
    refine ⟨[], [], rfl, rfl, rfl, ?_, ?_⟩
    · intro j hj
      obtain rfl : j = 0 := by omega
      simpa using hs
    · intro j hj; omega
  | succ k ih =>
    intro n symbols hs
    obtain ⟨s, t, h1, h2, h3⟩ := generateLevel_ok hu hs
    obtain ⟨ss, ts, e, l1, l2, a, b⟩ := ih (n + 1) s h2
    refine ⟨s :: ss, t :: ts, ?_, by simp [l1], by simp [l2], ?_, ?_⟩
    · rw [generateLoop, h1]
      simp only [bind, Except.bind]
      rw [e]
    · intro j hj
      cases j with
      | zero => simpa using hs
      | succ j =>
        have := a j (by omega)
        rw [show n + 1 + j = n + (j + 1) by omega] at this
        simpa using this
    · intro j hj
      cases j with
      | zero => simpa using h3
      | succ j => simpa using b j (by omega)

theorem symbolSpec_zero (N : Nat) : SymbolSpec N 0 [[]] := by
  refine ⟨List.nodup_singleton _, fun u => ?_⟩
  rw [List.mem_singleton]
  constructor
  · rintro rfl; exact ⟨List.Pairwise.nil, rfl, by simp⟩
  · intro h; exact List.length_eq_zero_iff.mp h.2.1

theorem axisSet_le {N n : Nat} {u : List Nat} (h : AxisSet N n u) : n ≤ N := by
  have hnd : u.Nodup := h.1.imp fun h => Nat.ne_of_lt h
  have : u.toFinset ⊆ Finset.range N := by
    intro x hx
    rw [List.mem_toFinset] at hx
    exact Finset.mem_range.mpr (h.2.2 x hx)
  have := Finset.card_le_card this
  rwa [List.toFinset_card_of_nodup hnd, Finset.card_range, h.2.1] at this

theorem mkStencilTopology_ok {uniq : List (List Nat) → List (List Nat)} (hu : UniqSpec uniq)
    {N : Nat} (shape : Fin N → Nat) :
    ∃ t, mkStencilTopology uniq shape = .ok t ∧ t.shape = shape ∧ TopologySpec t := by
  obtain ⟨ss, ts, e, l1, l2, a, b⟩ := generateLoop_ok hu N 0 [[]] (symbolSpec_zero N)
  refine ⟨⟨shape, [[]] :: ss, ts⟩, ?_, rfl, ?_, l2, ?_, ?_⟩
  · unfold mkStencilTopology generate
    simp only [bind, Except.bind, e]
  · simp [l1]
  · intro n
    by_cases hn : n ≤ N
    · simpa using a n hn
    · have : ([[]] :: ss : List (List (List Nat)))[n]? = none := by
        rw [List.getElem?_eq_none]; simp [l1]; omega
      simp only [this, Option.getD_none]
      refine ⟨List.nodup_nil, fun u => ?_⟩
      constructor
      · intro h; cases h
      · intro h; exact absurd (axisSet_le h) hn
  · intro n
    by_cases hn : n < N
    · exact b n hn
    · have h1 : ([[]] :: ss : List (List (List Nat)))[n + 1]? = none := by
        rw [List.getElem?_eq_none]; simp [l1]; omega
      have h2 : ts[n]? = none := by
        rw [List.getElem?_eq_none]; omega
      simp only [h1, h2, Option.getD_none]
      exact ⟨rfl, by intro c u h; simp at h⟩

/-- the number of sets of `n` axes -/
theorem symbolSpec_length {N n : Nat} {symbols : List (List Nat)} (h : SymbolSpec N n symbols) :
    symbols.length = N.choose n := by
  have hinj : ∀ u ∈ symbols, ∀ v ∈ symbols, u.toFinset = v.toFinset → u = v := by
    intro u hu v hv huv
    have h1 := (h.2 u).mp hu
    have h2 := (h.2 v).mp hv
    refine List.Perm.eq_of_pairwise' h1.1 h2.1 ?_
    exact (List.perm_ext_iff_of_nodup (h1.1.imp fun h => Nat.ne_of_lt h)
      (h2.1.imp fun h => Nat.ne_of_lt h)).mpr fun x => by
        rw [← List.mem_toFinset, huv, List.mem_toFinset]
  have hnd : (symbols.map List.toFinset).Nodup := h.1.map_on hinj
  have : (symbols.map List.toFinset).toFinset = Finset.powersetCard n (Finset.range N) := by
    ext U
    rw [List.mem_toFinset, List.mem_map, Finset.mem_powersetCard]
    constructor
    · rintro ⟨u, hu, rfl⟩
      have h1 := (h.2 u).mp hu
      refine ⟨fun x hx => Finset.mem_range.mpr (h1.2.2 x (List.mem_toFinset.mp hx)), ?_⟩
      rw [List.toFinset_card_of_nodup (h1.1.imp fun h => Nat.ne_of_lt h), h1.2.1]
    · rintro ⟨h1, h2⟩
      refine ⟨U.sort (· ≤ ·), (h.2 _).mpr ⟨Finset.sortedLT_sort U |>.pairwise, ?_, ?_⟩, ?_⟩
      · rw [Finset.length_sort, h2]
      · intro x hx
        exact Finset.mem_range.mp (h1 ((Finset.mem_sort _).mp hx))
      · exact Finset.sort_toFinset _ _
  have hc := congrArg Finset.card this
  rw [List.toFinset_card_of_nodup hnd, List.length_map, Finset.card_powersetCard,
    Finset.card_range] at hc
  exact hc

/-! ### accumulation into an uninitialised array -/

section

variable {G R : Type} [CommRing R]

/-- the sum of the values written to component `c` -/
def written (W : List (Nat × (G → R))) (c : Nat) (i : G) : R :=
  ((W.filter fun w => w.1 = c).map fun w => w.2 i).sum

theorem written_cons (w : Nat × (G → R)) (W : List (Nat × (G → R))) (c : Nat) (i : G) :
    written (w :: W) c i = (if w.1 = c then w.2 i else 0) + written W c i := by
  unfold written
  by_cases h : w.1 = c
  · rw [List.filter_cons_of_pos (by simp [h]), if_pos h]; rfl
  · rw [List.filter_cons_of_neg (by simp [h]), if_neg h, zero_add]

theorem foldl_write (W : List (Nat × (G → R))) :
    ∀ (b : OutBuffer G R) (c : Nat), c < b.initialized.length → ∀ i,
      (W.foldl (fun b w => b.write w.1 w.2) b).data c i =
        (if b.initialized[c]?.getD false = true ∨ ¬ ∃ w ∈ W, w.1 = c then b.data c i else 0) +
          written W c i := by
  induction W with
  | nil => intro b c _ i; simp [written]
  | cons w W ih =>
    intro b c hc i
    rw [List.foldl_cons, ih _ _ (by unfold OutBuffer.write; split <;> simp [hc]), written_cons]
    by_cases hw : w.1 = c
    · subst hw
      by_cases hi : b.initialized[w.1]?.getD false = true
      · have e : b.write w.1 w.2 = ⟨fun c' => if c' = w.1 then fun i => b.data w.1 i + w.2 i
            else b.data c', b.initialized⟩ := by unfold OutBuffer.write; rw [if_pos hi]
        rw [e, if_pos (Or.inl hi), if_pos (Or.inl hi), if_pos rfl]
        simp only [if_true]
        ring
      · have e : b.write w.1 w.2 = ⟨fun c' => if c' = w.1 then w.2 else b.data c',
            b.initialized.set w.1 true⟩ := by unfold OutBuffer.write; rw [if_neg hi]
        have hset : (b.initialized.set w.1 true)[w.1]?.getD false = true := by
          rw [List.getElem?_set_self hc]; rfl
        rw [e, if_pos (Or.inl hset), if_neg, if_pos rfl]
        · simp only [if_true]
          ring
        · rintro (h | h)
          · exact hi h
          · exact h ⟨w, List.mem_cons_self, rfl⟩
    · have e1 : (b.write w.1 w.2).data c = b.data c := by
        unfold OutBuffer.write
        split <;> simp only [if_neg (Ne.symm hw)]
      have e2 : (b.write w.1 w.2).initialized[c]? = b.initialized[c]? := by
        unfold OutBuffer.write
        split
        · rfl
        · exact List.getElem?_set_ne hw
      have e3 : (∃ w' ∈ w :: W, w'.1 = c) ↔ ∃ w' ∈ W, w'.1 = c := by
        simp [hw]
      rw [e1, e2, if_neg hw, zero_add]
      congr 1
      exact if_congr (by rw [e3]) rfl rfl

/-- starting from an uninitialised array, a component that is written at least once ends up as the
sum of what was written to it -/
theorem foldl_write_fresh (W : List (Nat × (G → R))) (garbage : Nat → G → R) {size c : Nat}
    (hc : c < size) (hw : ∃ w ∈ W, w.1 = c) (i : G) :
    (W.foldl (fun b w => b.write w.1 w.2)
      (⟨garbage, List.replicate size false⟩ : OutBuffer G R)).data c i = written W c i := by
  rw [foldl_write W _ c (by simpa using hc) i]
  rw [if_neg, zero_add]
  rintro (h | h)
  · simp [hc] at h
  · exact h hw

theorem written_append (W W' : List (Nat × (G → R))) (c : Nat) (i : G) :
    written (W ++ W') c i = written W c i + written W' c i := by
  simp [written]

theorem written_map {α : Type} (l : List α) (k : α → Nat) (g : α → G → R) (c : Nat) (i : G) :
    written (l.map fun e => (k e, g e)) c i =
      (l.map fun e => if k e = c then g e i else 0).sum := by
  induction l with
  | nil => rfl
  | cons a t ih => rw [List.map_cons, written_cons, ih]; simp

theorem written_flatMap {α : Type} (l : List α) (g : α → List (Nat × (G → R))) (c : Nat) (i : G) :
    written (l.flatMap g) c i = (l.map fun e => written (g e) c i).sum := by
  induction l with
  | nil => rfl
  | cons a t ih => rw [List.flatMap_cons, written_append, ih]; simp

end

section

variable {N : Nat} {R : Type} [CommRing R]

/-- a term of the primal derivative -/
theorem convolve_weights (sh : Fin N → Nat) (p a : Nat) (f : (Fin N → Nat) → R) (i : Fin N → Nat)
    (hp : p < 2) :
    convolve1d sh (derivativeWeights p) a f i =
      (-1) ^ p * (f (gridShift sh a 1 i) - f (gridShift sh a 0 i)) := by
  have : p = 0 ∨ p = 1 := by omega
  rcases this with rfl | rfl <;>
    · simp [convolve1d, correlate1d, derivativeWeights]
      ring

/-- a term of the dual derivative -/
theorem correlate_weights (sh : Fin N → Nat) (p a : Nat) (f : (Fin N → Nat) → R) (i : Fin N → Nat)
    (hp : p < 2) :
    correlate1d sh (derivativeWeights p) a 0 f i =
      (-1) ^ p * (f (gridShift sh a (-1) i) - f (gridShift sh a 0 i)) := by
  have : p = 0 ∨ p = 1 := by omega
  rcases this with rfl | rfl <;>
    · simp [correlate1d, derivativeWeights]
      ring

theorem mem_gridDom {sh : Fin N → Nat} {i : Fin N → Nat} : i ∈ gridDom sh ↔ ∀ b, i b < sh b := by
  simp [gridDom]

theorem gridShift_mem {sh : Fin N → Nat} {i : Fin N → Nat} (h : i ∈ gridDom sh) (a : Nat) (k : Int) :
    gridShift sh a k i ∈ gridDom sh := by
  rw [mem_gridDom] at h ⊢
  intro b
  unfold gridShift
  split
  · have h0 : (0 : Int) < sh b := by have := h b; omega
    have h1 := Int.emod_nonneg ((i b : Int) + k) h0.ne'
    have h2 := Int.emod_lt_of_pos ((i b : Int) + k) h0
    omega
  · exact h b

theorem gridShift_shift {sh : Fin N → Nat} {i : Fin N → Nat} (h : i ∈ gridDom sh) (a : Nat)
    (k l : Int) : gridShift sh a k (gridShift sh a l i) = gridShift sh a (k + l) i := by
  rw [mem_gridDom] at h
  funext b
  unfold gridShift
  by_cases hb : (b : Nat) = a
  · simp only [hb, if_true]
    have h0 : (0 : Int) < sh b := by have := h b; omega
    have h1 := Int.emod_nonneg ((i b : Int) + l) h0.ne'
    rw [Int.toNat_of_nonneg h1, Int.emod_add_emod]
    congr 2; ring
  · simp only [if_neg hb]

theorem gridShift_zero {sh : Fin N → Nat} {i : Fin N → Nat} (h : i ∈ gridDom sh) (a : Nat) :
    gridShift sh a 0 i = i := by
  rw [mem_gridDom] at h
  funext b
  unfold gridShift
  split
  · rw [add_zero, Int.emod_eq_of_lt (by omega) (by have := h b; omega)]; simp
  · rfl

theorem gridShift_one {sh : Fin N → Nat} {i : Fin N → Nat} (h : i ∈ gridDom sh) (a : Nat) :
    gridShift sh a 1 i = next sh a i := by
  rw [mem_gridDom] at h
  funext b
  unfold gridShift next
  have hb := h b
  split
  · split
    · rename_i h1
      rw [show (i b : Int) + 1 = (sh b : Int) by omega, Int.emod_self]; rfl
    · rw [Int.emod_eq_of_lt (by omega) (by omega)]; omega
  · rfl

/-- the next point and the previous point are inverse to each other -/
theorem sum_shift {sh : Fin N → Nat} (a : Nat) (f g : (Fin N → Nat) → R) :
    ∑ i ∈ gridDom sh, f (gridShift sh a 1 i) * g i =
      ∑ i ∈ gridDom sh, f i * g (gridShift sh a (-1) i) := by
  refine Finset.sum_bij' (fun i _ => gridShift sh a 1 i) (fun i _ => gridShift sh a (-1) i)
    (fun i hi => gridShift_mem hi _ _) (fun i hi => gridShift_mem hi _ _) ?_ ?_ ?_
  · intro i hi
    rw [gridShift_shift hi, show (-1 : Int) + 1 = 0 by norm_num, gridShift_zero hi]
  · intro i hi
    rw [gridShift_shift hi, show (1 : Int) + -1 = 0 by norm_num, gridShift_zero hi]
  · intro i hi
    rw [gridShift_shift hi, show (-1 : Int) + 1 = 0 by norm_num, gridShift_zero hi]

theorem sum_difference {sh : Fin N → Nat} (a : Nat) (f g : (Fin N → Nat) → R) :
    ∑ i ∈ gridDom sh, (f (gridShift sh a 1 i) - f (gridShift sh a 0 i)) * g i =
      ∑ i ∈ gridDom sh, f i * (g (gridShift sh a (-1) i) - g (gridShift sh a 0 i)) := by
  simp only [sub_mul, mul_sub, Finset.sum_sub_distrib]
  rw [sum_shift]
  congr 1
  refine Finset.sum_congr rfl fun i hi => ?_
  rw [gridShift_zero hi]

/-! ### the two loops -/

/-- the terms are given in the order of the table -/
theorem primalInner_eq (sh : Fin N → Nat) (table : List (List StencilTerm)) (size : Nat)
    (garbage f : Nat → (Fin N → Nat) → R) {c : Nat} (hc : c < size) {row : List StencilTerm}
    (hrow : table[c]? = some row) (h0 : row ≠ []) (hp : ∀ e ∈ row, e.parity < 2)
    (i : Fin N → Nat) :
    primalInner sh table size garbage f c i =
      (row.map fun e => (-1) ^ e.parity *
        (f e.term (gridShift sh e.axis 1 i) - f e.term (gridShift sh e.axis 0 i))).sum := by
  unfold primalInner
  set W : List (Nat × ((Fin N → Nat) → R)) := table.zipIdx.flatMap fun rc => rc.1.map fun e =>
    (rc.2, convolve1d sh (derivativeWeights e.parity) e.axis (f e.term)) with hW
  have hfold : (table.zipIdx.foldl (fun b rc =>
      rc.1.foldl (fun b e =>
        b.write rc.2 (convolve1d sh (derivativeWeights e.parity) e.axis (f e.term))) b)
      (⟨garbage, List.replicate size false⟩ : OutBuffer (Fin N → Nat) R)) =
      W.foldl (fun b w => b.write w.1 w.2) ⟨garbage, List.replicate size false⟩ := by
    rw [hW, List.foldl_flatMap]
    congr 1
    funext b rc
    rw [List.foldl_map]
  rw [hfold, foldl_write_fresh W garbage hc]
  · rw [hW, written_flatMap]
    simp only [written_map]
    have key : ∀ (l : List (List StencilTerm)) (k : Nat),
        ((l.zipIdx k).map fun rc => (rc.1.map fun e => if rc.2 = c then
          convolve1d sh (derivativeWeights e.parity) e.axis (f e.term) i else 0).sum).sum =
        if k ≤ c then ((l[c - k]?.getD []).map fun e =>
          convolve1d sh (derivativeWeights e.parity) e.axis (f e.term) i).sum else 0 := by
      intro l
      induction l with
      | nil => intro k; simp
      | cons r t ih =>
        intro k
        rw [List.zipIdx_cons, List.map_cons, List.sum_cons, ih]
        by_cases hk : k = c
        · subst hk; simp
        · by_cases hk' : k ≤ c
          · have : c - k = c - (k + 1) + 1 := by omega
            rw [this, List.getElem?_cons_succ]
            simp [hk, hk', show k + 1 ≤ c by omega]
          · simp [hk, hk', show ¬ k + 1 ≤ c by omega]
    rw [key table 0]
    simp only [Nat.zero_le, if_true, Nat.sub_zero, hrow, Option.getD_some]
    congr 1
    apply List.map_congr_left
    intro e he
    exact convolve_weights sh _ _ _ _ (hp e he)
  · obtain ⟨e, he⟩ := List.exists_mem_of_ne_nil row h0
    refine ⟨(c, convolve1d sh (derivativeWeights e.parity) e.axis (f e.term)), ?_, rfl⟩
    rw [hW, List.mem_flatMap]
    refine ⟨(row, c), List.mem_zipIdx_iff_getElem?.mpr hrow, ?_⟩
    exact List.mem_map.mpr ⟨e, he, rfl⟩

theorem dualInner_eq (sh : Fin N → Nat) (table : List (List StencilTerm)) (size : Nat)
    (garbage f : Nat → (Fin N → Nat) → R) {s : Nat} (hs : s < size)
    (h0 : ∃ row ∈ table, ∃ e ∈ row, e.term = s)
    (hp : ∀ row ∈ table, ∀ e ∈ row, e.parity < 2) (i : Fin N → Nat) :
    dualInner sh table size garbage f s i =
      (table.zipIdx.map fun rc => (rc.1.map fun e => if e.term = s then (-1) ^ e.parity *
        (f rc.2 (gridShift sh e.axis (-1) i) - f rc.2 (gridShift sh e.axis 0 i)) else 0).sum).sum := by
  unfold dualInner
  set W : List (Nat × ((Fin N → Nat) → R)) := table.zipIdx.flatMap fun rc => rc.1.map fun e =>
    (e.term, correlate1d sh (derivativeWeights e.parity) e.axis 0 (f rc.2)) with hW
  have hfold : (table.zipIdx.foldl (fun b rc =>
      rc.1.foldl (fun b e =>
        b.write e.term (correlate1d sh (derivativeWeights e.parity) e.axis 0 (f rc.2))) b)
      (⟨garbage, List.replicate size false⟩ : OutBuffer (Fin N → Nat) R)) =
      W.foldl (fun b w => b.write w.1 w.2) ⟨garbage, List.replicate size false⟩ := by
    rw [hW, List.foldl_flatMap]
    congr 1
    funext b rc
    rw [List.foldl_map]
  rw [hfold, foldl_write_fresh W garbage hs]
  · rw [hW, written_flatMap]
    simp only [written_map]
    congr 1
    apply List.map_congr_left
    intro rc hrc
    congr 1
    apply List.map_congr_left
    intro e he
    have hm : rc.1 ∈ table := by
      have := List.mem_zipIdx_iff_getElem?.mp hrc
      exact List.mem_of_getElem? this
    rw [correlate_weights sh _ _ _ _ (hp _ hm e he)]
  · obtain ⟨row, hrow, e, he, hes⟩ := h0
    obtain ⟨c, hc⟩ := List.mem_iff_getElem?.mp hrow
    refine ⟨(e.term, correlate1d sh (derivativeWeights e.parity) e.axis 0 (f c)), ?_, hes⟩
    rw [hW, List.mem_flatMap]
    exact ⟨(row, c), List.mem_zipIdx_iff_getElem?.mpr hc, List.mem_map.mpr ⟨e, he, rfl⟩⟩

/-! ### consequences for a topology -/

variable {t : StencilTopology N}

theorem TopologySpec.row (h : TopologySpec t) {n c : Nat} (hc : c < t.components (n + 1)) :
    ∃ u row, (t.symbols[n + 1]?.getD [])[c]? = some u ∧ AxisSet N (n + 1) u ∧
      (t.table[n]?.getD [])[c]? = some row ∧ row ≠ [] ∧ (row.map StencilTerm.axis).Perm u ∧
      ∀ e ∈ row, (t.symbols[n]?.getD [])[e.term]? = some (u.erase e.axis) ∧
        e.parity = u.countP (e.axis < ·) % 2 ∧ e.axis ∈ u ∧ e.parity < 2 ∧
        e.term < t.components n := by
  have hu := List.getElem?_eq_getElem (show c < (t.symbols[n + 1]?.getD []).length from hc)
  set u := (t.symbols[n + 1]?.getD [])[c]'hc with hue
  have hau : AxisSet N (n + 1) u := ((h.symbols (n + 1)).2 u).mp (List.mem_of_getElem? hu)
  obtain ⟨row, h1, h2, h3⟩ := (h.table n).2 c u hu
  refine ⟨u, row, hu, hau, h1, ?_, h2, ?_⟩
  · rintro rfl
    have := h2.length_eq
    rw [hau.2.1] at this
    simp at this
  · intro e he
    obtain ⟨k1, k2⟩ := h3 e he
    refine ⟨k1, k2, h2.mem_iff.mp (List.mem_map.mpr ⟨e, he, rfl⟩), by rw [k2]; omega, ?_⟩
    by_contra hlt
    rw [List.getElem?_eq_none (by simpa [StencilTopology.components] using hlt)] at k1
    cases k1

theorem TopologySpec.parity (h : TopologySpec t) {n : Nat} :
    ∀ row ∈ t.table[n]?.getD [], ∀ e ∈ row, e.parity < 2 := by
  intro row hrow e he
  obtain ⟨c, hc⟩ := List.mem_iff_getElem?.mp hrow
  have hlt : c < t.components (n + 1) := by
    rw [StencilTopology.components, ← (h.table n).1]
    exact (List.getElem?_eq_some_iff.mp hc).1
  obtain ⟨u, row', _, _, hr, _, _, hh⟩ := h.row hlt
  rw [hc] at hr
  cases hr
  exact (hh e he).2.2.2.1

/-- every component of an `n`-form occurs in the table -/
theorem TopologySpec.occurs (h : TopologySpec t) {n : Nat} (hn : n < N) {s : Nat}
    (hs : s < t.components n) : ∃ row ∈ t.table[n]?.getD [], ∃ e ∈ row, e.term = s := by
  have hsym := List.getElem?_eq_getElem (show s < (t.symbols[n]?.getD []).length from hs)
  set v := (t.symbols[n]?.getD [])[s]'hs with hv
  have hav : AxisSet N n v := ((h.symbols n).2 v).mp (List.mem_of_getElem? hsym)
  obtain ⟨d, hdN, hd⟩ : ∃ d, d < N ∧ d ∉ v := by
    by_contra hcon
    push Not at hcon
    have hsub : Finset.range N ⊆ v.toFinset := by
      intro x hx; exact List.mem_toFinset.mpr (hcon x (Finset.mem_range.mp hx))
    have := Finset.card_le_card hsub
    rw [Finset.card_range, List.toFinset_card_of_nodup (hav.1.imp fun h => Nat.ne_of_lt h),
      hav.2.1] at this
    omega
  obtain ⟨k1, k2, k3, _⟩ := sort_term hav hd hdN
  set u := sortRow (v ++ [d]) with hu
  obtain ⟨c, hc⟩ := List.mem_iff_getElem?.mp (((h.symbols (n + 1)).2 u).mpr k1)
  obtain ⟨row, h1, h2, h3⟩ := (h.table n).2 c u hc
  obtain ⟨e, he, hed⟩ := List.mem_map.mp (h2.mem_iff.mpr k2)
  refine ⟨row, List.mem_of_getElem? h1, e, he, ?_⟩
  have h4 := (h3 e he).1
  rw [hed, k3] at h4
  obtain ⟨l1, l2⟩ := List.getElem?_eq_some_iff.mp h4
  exact (List.Nodup.getElem_inj_iff (h.symbols n).1).mp (l2.trans hv)

end

end Verif.Props
