/-
C23 (averaging operators) and C24 (degrees) for simplicial topologies.
-/
import Verif.Lemmas.Averaging
import Verif.Spec.Averaging
import Verif.Props.Simplicial
import Mathlib.Algebra.CharZero.Defs
import Mathlib.Tactic.FieldSimp
import Mathlib.Data.Rat.Defs
import Mathlib.Algebra.Order.Ring.Rat

set_option linter.unusedSectionVars false

namespace Verif.Props

open Verif.Model Verif.Spec

variable {K : Type} [Field K] [CharZero K]
variable {uniq : List (List Nat) → List (List Nat)} {simplices : List (List Nat)} {t : Topo} {n : Nat}

/-! ### sums over a row -/

theorem sum_filter_ite {α : Type} (L : List α) (p : α → Bool) (c : K) (x : α → K) :
    (L.map fun v => (if p v then c else 0) * x v).sum = c * ((L.filter p).map x).sum := by
  induction L with
  | nil => simp
  | cons a L ih =>
    rw [List.map_cons, List.sum_cons, ih]
    by_cases h : p a
    · simp [h, mul_add]
    · simp [h]

theorem sum_filter_int {α : Type} (L : List α) (p : α → Bool) (c : ℤ) :
    (L.map fun v => if p v then c else 0).sum = (L.filter p).length * c := by
  induction L with
  | nil => simp
  | cons a L ih =>
    rw [List.map_cons, List.sum_cons, ih]
    by_cases h : p a
    · simp [h, add_mul, add_comm]
    · simp [h]

/-- the numbers below a bound that occur in a list are that list, in order -/
theorem filter_contains_perm {l : List Nat} (hl : l.Nodup) {N : Nat} (h : ∀ v ∈ l, v < N) :
    ((List.range N).filter fun v => l.contains v).Perm l := by
  rw [List.perm_ext_iff_of_nodup (List.nodup_range.filter _) hl]
  intro v
  simp only [List.mem_filter, List.mem_range, List.contains_iff_mem]
  exact ⟨fun h => h.2, fun hv => ⟨h v hv, hv⟩⟩

/-- a row of a normalised matrix all of whose entries are zero or wrap to the same number -/
theorem normalize_row {A : Mat Int} {i : Nat} (p : Nat → Bool) (f : ℤ)
    (hA : ∀ j < A.rows, A.entry j i = wrap8 (if p j then f else 0)) (x : Nat → K) :
    ((List.range A.rows).map fun j => (normalizeL1 A.transpose : Mat K).entry i j * x j).sum =
      ((wrap8 f : ℤ) : K) / ((wrap8 (wrap8 f).natAbs : ℤ) : K) *
        mean (((List.range A.rows).filter p).map x) := by
  have hs : ((List.range A.transpose.cols).map fun m =>
      wrap8 ((A.transpose.entry i m).natAbs)).sum =
      ((List.range A.rows).filter p).length * wrap8 (wrap8 f).natAbs := by
    rw [← sum_filter_int]
    refine congrArg List.sum (List.map_congr_left fun j hj => ?_)
    show wrap8 ((A.entry j i).natAbs) = _
    rw [hA j (List.mem_range.1 hj)]
    split <;> rfl
  have hrow : ∀ j ∈ List.range A.rows, (normalizeL1 A.transpose : Mat K).entry i j * x j =
      (if p j then (1 / ((((List.range A.rows).filter p).length * wrap8 (wrap8 f).natAbs : ℤ) : K)) *
        ((wrap8 f : ℤ) : K) else 0) * x j := by
    intro j hj
    congr 1
    show (1 / _ : K) * ((A.entry j i : ℤ) : K) = _
    rw [hs, hA j (List.mem_range.1 hj)]
    split
    · rfl
    · rw [show wrap8 0 = 0 from rfl, Int.cast_zero, mul_zero]
  rw [List.map_congr_left hrow, sum_filter_ite]
  unfold mean
  rw [List.length_map]
  push_cast
  rw [div_mul_div_comm, one_div, mul_inv, div_eq_mul_inv, mul_inv]
  ring

/-- how the number of chains of faces wraps around: the sign of the averaging weights -/
theorem weights_pos {k : Nat} (h : k ≤ 5 ∨ k = 8 ∨ k = 9) :
    ((wrap8 (k.factorial : ℤ) : ℤ) : K) / ((wrap8 (wrap8 (k.factorial : ℤ)).natAbs : ℤ) : K) = 1 := by
  have : wrap8 (wrap8 (k.factorial : ℤ)).natAbs = wrap8 (k.factorial : ℤ) ∧
      wrap8 (k.factorial : ℤ) ≠ 0 := by
    have : k = 0 ∨ k = 1 ∨ k = 2 ∨ k = 3 ∨ k = 4 ∨ k = 5 ∨ k = 8 ∨ k = 9 := by omega
    rcases this with rfl | rfl | rfl | rfl | rfl | rfl | rfl | rfl <;> decide
  rw [this.1, div_self (Int.cast_ne_zero.mpr this.2)]

theorem weights_neg {k : Nat} (h : k = 6 ∨ k = 7) :
    ((wrap8 (k.factorial : ℤ) : ℤ) : K) / ((wrap8 (wrap8 (k.factorial : ℤ)).natAbs : ℤ) : K) = -1 := by
  have : wrap8 (wrap8 (k.factorial : ℤ)).natAbs = - wrap8 (k.factorial : ℤ) ∧
      wrap8 (k.factorial : ℤ) ≠ 0 := by
    rcases h with rfl | rfl <;> decide
  rw [this.1, Int.cast_neg, div_neg, div_self (Int.cast_ne_zero.mpr this.2)]

theorem vertices_lt {top : List (List Nat)} (wf : WF n top t) (hn : 0 < n)
    (htop : Simplices (n + 1) top) {k : Nat} (hk : k ≤ n) {e : List Nat}
    (he : e ∈ t.elements[k]?.getD []) : ∀ v ∈ e, v < t.nElements 0 := by
  intro v hv
  obtain ⟨-, l, hl, hsub⟩ := (wf.faces htop (n - k) k (by omega) e).1 ⟨e, he, List.Perm.refl e⟩
  have hv' := hsub.subset hv
  have h1 := wf.elIdx_vertex hn htop hl hv'
  obtain ⟨-, e, h2, -⟩ := elIdx_get (wf.hasFace htop (k := 0) (by omega) hl
    (List.singleton_subperm_iff.2 hv') rfl)
  rw [h1] at h2
  exact (List.getElem?_eq_some_iff.1 h2).1

theorem corners_eq {k i : Nat} {E : List (List Nat)} {e : List Nat} (hE : t.elements[k]? = some E)
    (he : E[i]? = some e) : WF.corners t k i = e ∧ i < t.nElements k := by
  refine ⟨by unfold WF.corners; rw [hE, Option.getD_some, he, Option.getD_some], ?_⟩
  unfold Topo.nElements
  rw [hE]
  exact (List.getElem?_eq_some_iff.1 he).1

theorem averaging0 (hu : UniqSpec uniq) (hs : Simplices (n + 1) simplices)
    (h : fromSimplices uniq (n + 1) simplices = .ok t) :
    ∃ L : List (Mat K), averagingOperators0 t.matrices = .ok L ∧ L.length = n + 1 ∧
      ∀ k ≤ n, ∃ A, L[k]? = some A ∧ A.rows = t.nElements k ∧ A.cols = t.nElements 0 ∧
        ∀ E, t.elements[k]? = some E → ∀ j l, E[j]? = some l → ∀ x : Nat → K,
          ((List.range A.cols).map fun v => A.entry j v * x v).sum =
            ((wrap8 (k.factorial : ℤ) : ℤ) : K) / ((wrap8 (wrap8 (k.factorial : ℤ)).natAbs : ℤ) : K) *
              mean (l.map x) := by
  obtain ⟨hn, wf⟩ := fromSimplices_wf hu hs h
  obtain ⟨L, h1, h2, h3⟩ := wf.accumulated0 hs (by omega)
  refine ⟨L.map fun a => normalizeL1 a.transpose, ?_, by rw [List.length_map, h2], fun k hk => ?_⟩
  · unfold averagingOperators0
    rw [h1]
    rfl
  · obtain ⟨A, g1, g2, g3, g4⟩ := h3 k hk
    refine ⟨_, by rw [List.getElem?_map, g1]; rfl, g3, g2, fun E hE j l hl x => ?_⟩
    obtain ⟨hc, hj⟩ := corners_eq hE hl
    have hlE : l ∈ t.elements[k]?.getD [] := by
      rw [hE]; exact List.mem_of_getElem? hl
    have hnd := (wf.corners_simplex hs hk hj).2
    rw [hc] at hnd
    show ((List.range A.rows).map _).sum = _
    rw [normalize_row (fun v => l.contains v) (k.factorial : ℤ)]
    · congr 1
      have hp := filter_contains_perm hnd (N := A.rows) (by
        rw [g2]; exact vertices_lt wf (by omega) hs hk hlE)
      unfold mean
      rw [(hp.map x).sum_eq, (hp.map x).length_eq]
    · intro v hv
      rw [g4 v (by omega) j hj, hc]
      simp only [List.contains_iff_mem]

theorem mem_incident {e : List Nat} {j : Nat} :
    j ∈ incident simplices e ↔ j < simplices.length ∧ e ⊆ simplices[j]?.getD [] := by
  unfold incident
  simp only [List.mem_filter, List.mem_range, List.all_eq_true, List.contains_iff_mem]
  rfl

theorem averagingN (hu : UniqSpec uniq) (hs : Simplices (n + 1) simplices)
    (h : fromSimplices uniq (n + 1) simplices = .ok t) :
    ∃ L : List (Mat K), averagingOperatorsN t.matrices = .ok L ∧ L.length = n + 1 ∧
      (∃ A, L[n]? = some A ∧ A.rows = simplices.length ∧ A.cols = simplices.length ∧
        ∀ i < simplices.length, ∀ x : Nat → K,
          ((List.range A.cols).map fun j => A.entry i j * x j).sum = x i) ∧
      ∀ k < n, ∃ A, L[k]? = some A ∧ A.rows = t.nElements k ∧ A.cols = simplices.length ∧
        ∀ E, t.elements[k]? = some E → ∀ i e, E[i]? = some e → ∀ x : Nat → K,
          ((List.range A.cols).map fun j => A.entry i j * x j).sum =
            ((wrap8 ((n - k).factorial : ℤ) : ℤ) : K) /
              ((wrap8 (wrap8 ((n - k).factorial : ℤ)).natAbs : ℤ) : K) *
              mean ((incident simplices e).map x) := by
  obtain ⟨hn, wf⟩ := fromSimplices_wf hu hs h
  obtain ⟨L, h1, h2, ⟨A, a1, a2, a3, a4⟩, h3⟩ := wf.accumulatedN hs (by omega)
  have hN : t.nElements n = simplices.length := by
    unfold Topo.nElements; rw [wf.top_eq]; rfl
  refine ⟨L.map fun a => normalizeL1 a.transpose, ?_, by rw [List.length_map, h2], ?_, fun k hk => ?_⟩
  · unfold averagingOperatorsN
    rw [h1]
    rfl
  · refine ⟨_, by rw [List.getElem?_map, a1]; rfl, a3.trans hN, a2.trans hN, fun i hi x => ?_⟩
    show ((List.range A.rows).map _).sum = _
    rw [normalize_row (fun j => j == i) 1]
    · have : (List.range A.rows).filter (fun j => j == i) = [i] := by
        rw [List.filter_beq, List.count_eq_one_of_mem List.nodup_range
          (List.mem_range.2 (by omega)), List.replicate_one]
      rw [this]
      unfold mean
      rw [show wrap8 1 = 1 from rfl, show wrap8 ((1 : ℤ).natAbs : ℤ) = 1 from rfl]
      simp
    · intro j _
      rw [a4]
      simp only [beq_iff_eq]
      split <;> rfl
  · obtain ⟨A, g1, g2, g3, g4⟩ := h3 k hk
    refine ⟨_, by rw [List.getElem?_map, g1]; rfl, g3, g2.trans hN, fun E hE i e he x => ?_⟩
    obtain ⟨hc, hi⟩ := corners_eq hE he
    show ((List.range A.rows).map _).sum = _
    rw [normalize_row (fun j => e.all fun v => (simplices[j]?.getD []).contains v)
      ((n - k).factorial : ℤ), g2, hN]
    · rfl
    · intro j hj
      rw [g4 j (by omega) i hi, hc]
      have : (WF.corners t n j) = simplices[j]?.getD [] := by
        unfold WF.corners; rw [wf.top_eq, Option.getD_some]
      rw [this]
      simp only [List.all_eq_true, List.contains_iff_mem]
      rfl

/-- every element is a face of some simplex -/
theorem incident_ne_nil (hu : UniqSpec uniq) (hs : Simplices (n + 1) simplices)
    (h : fromSimplices uniq (n + 1) simplices = .ok t) {k : Nat} (hk : k ≤ n) {E : List (List Nat)}
    (hE : t.elements[k]? = some E) {e : List Nat} (he : e ∈ E) : incident simplices e ≠ [] := by
  obtain ⟨hn, wf⟩ := fromSimplices_wf hu hs h
  obtain ⟨-, l, hl, hsub⟩ := (wf.faces hs (n - k) k (by omega) e).1 ⟨e, by rw [hE]; exact he, List.Perm.refl e⟩
  obtain ⟨j, hj, rfl⟩ := List.getElem_of_mem hl
  refine List.ne_nil_of_mem (mem_incident.2 ⟨hj, ?_⟩ : j ∈ _)
  rw [List.getElem?_eq_getElem hj]
  exact hsub.subset

/-! ### C23 -/

/-- C23: applied to values on the vertices, `averaging_operators_0[k]` gives on every `k`-simplex the
mean of the values on its corners; this is so on the levels up to 5 (and again on levels 8 and 9). -/
theorem C23_vertices (hu : UniqSpec uniq) (hs : Simplices (n + 1) simplices)
    (h : fromSimplices uniq (n + 1) simplices = .ok t) :
    ∃ L : List (Mat K), averagingOperators0 t.matrices = .ok L ∧ L.length = n + 1 ∧
      ∀ k ≤ n, k ≤ 5 ∨ k = 8 ∨ k = 9 →
        ∃ A, L[k]? = some A ∧ A.rows = t.nElements k ∧ A.cols = t.nElements 0 ∧
        ∀ E, t.elements[k]? = some E → ∀ j l, E[j]? = some l → ∀ x : Nat → K,
          ((List.range A.cols).map fun v => A.entry j v * x v).sum = mean (l.map x) := by
  obtain ⟨L, h1, h2, h3⟩ := averaging0 (K := K) hu hs h
  refine ⟨L, h1, h2, fun k hk hk' => ?_⟩
  obtain ⟨A, g1, g2, g3, g4⟩ := h3 k hk
  refine ⟨A, g1, g2, g3, fun E hE j l hl x => ?_⟩
  rw [g4 E hE j l hl x, weights_pos hk', one_mul]

/-- C23 fails on levels 6 and 7 of every topology that has them: the numbers of chains of faces, 720 and
5040, do not fit into `int8`, and the operator gives minus the mean. -/
theorem C23_vertices_negated (hu : UniqSpec uniq) (hs : Simplices (n + 1) simplices)
    (h : fromSimplices uniq (n + 1) simplices = .ok t) :
    ∃ L : List (Mat K), averagingOperators0 t.matrices = .ok L ∧
      ∀ k ≤ n, k = 6 ∨ k = 7 →
        ∃ A, L[k]? = some A ∧ A.rows = t.nElements k ∧ A.cols = t.nElements 0 ∧
        ∀ E, t.elements[k]? = some E → ∀ j l, E[j]? = some l → ∀ x : Nat → K,
          ((List.range A.cols).map fun v => A.entry j v * x v).sum = - mean (l.map x) := by
  obtain ⟨L, h1, h2, h3⟩ := averaging0 (K := K) hu hs h
  refine ⟨L, h1, fun k hk hk' => ?_⟩
  obtain ⟨A, g1, g2, g3, g4⟩ := h3 k hk
  refine ⟨A, g1, g2, g3, fun E hE j l hl x => ?_⟩
  rw [g4 E hE j l hl x, weights_neg hk', neg_one_mul]

/-- C23: applied to values on the `n`-simplices, `averaging_operators_N[k]` gives on every `k`-simplex the
mean of the values on the `n`-simplices it is a face of, of which there is at least one.  On the top
level it changes nothing. -/
theorem C23_tops (hu : UniqSpec uniq) (hs : Simplices (n + 1) simplices)
    (h : fromSimplices uniq (n + 1) simplices = .ok t) :
    ∃ L : List (Mat K), averagingOperatorsN t.matrices = .ok L ∧ L.length = n + 1 ∧
      (∃ A, L[n]? = some A ∧ A.rows = simplices.length ∧ A.cols = simplices.length ∧
        ∀ i < simplices.length, ∀ x : Nat → K,
          ((List.range A.cols).map fun j => A.entry i j * x j).sum = x i) ∧
      ∀ k < n, n - k ≤ 5 ∨ n - k = 8 ∨ n - k = 9 →
        ∃ A, L[k]? = some A ∧ A.rows = t.nElements k ∧ A.cols = simplices.length ∧
        ∀ E, t.elements[k]? = some E → ∀ i e, E[i]? = some e → incident simplices e ≠ [] ∧
          ∀ x : Nat → K, ((List.range A.cols).map fun j => A.entry i j * x j).sum =
            mean ((incident simplices e).map x) := by
  obtain ⟨L, h1, h2, h0, h3⟩ := averagingN (K := K) hu hs h
  refine ⟨L, h1, h2, h0, fun k hk hk' => ?_⟩
  obtain ⟨A, g1, g2, g3, g4⟩ := h3 k hk
  refine ⟨A, g1, g2, g3, fun E hE i e he =>
    ⟨incident_ne_nil hu hs h hk.le hE (List.mem_of_getElem? he), fun x => ?_⟩⟩
  rw [g4 E hE i e he x, weights_pos hk', one_mul]

/-- C23 fails six and seven levels below the top in the same way. -/
theorem C23_tops_negated (hu : UniqSpec uniq) (hs : Simplices (n + 1) simplices)
    (h : fromSimplices uniq (n + 1) simplices = .ok t) :
    ∃ L : List (Mat K), averagingOperatorsN t.matrices = .ok L ∧
      ∀ k < n, n - k = 6 ∨ n - k = 7 →
        ∃ A, L[k]? = some A ∧ A.rows = t.nElements k ∧ A.cols = simplices.length ∧
        ∀ E, t.elements[k]? = some E → ∀ i e, E[i]? = some e →
          ∀ x : Nat → K, ((List.range A.cols).map fun j => A.entry i j * x j).sum =
            - mean ((incident simplices e).map x) := by
  obtain ⟨L, h1, h2, h0, h3⟩ := averagingN (K := K) hu hs h
  refine ⟨L, h1, fun k hk hk' => ?_⟩
  obtain ⟨A, g1, g2, g3, g4⟩ := h3 k hk
  refine ⟨A, g1, g2, g3, fun E hE i e he x => ?_⟩
  rw [g4 E hE i e he x, weights_neg hk', neg_one_mul]

/-- the mean of a constant -/
theorem mean_const {α : Type} {l : List α} (hl : l ≠ []) (c : K) : mean (l.map fun _ => c) = c := by
  unfold mean
  have : (l.length : K) ≠ 0 := by
    rw [Nat.cast_ne_zero]
    exact fun h => hl (List.length_eq_zero_iff.mp h)
  rw [List.map_const', List.sum_replicate, List.length_replicate, nsmul_eq_mul, mul_div_cancel_left₀ _ this]

/-- C23: up to level 5 constants are reproduced, by both kinds of averaging. -/
theorem C23_constants (hu : UniqSpec uniq) (hs : Simplices (n + 1) simplices)
    (h : fromSimplices uniq (n + 1) simplices = .ok t) (c : K) :
    ∃ L M : List (Mat K), averagingOperators0 t.matrices = .ok L ∧ averagingOperatorsN t.matrices = .ok M ∧
      (∀ k ≤ n, k ≤ 5 → ∃ A, L[k]? = some A ∧ ∀ i < t.nElements k,
        ((List.range A.cols).map fun v => A.entry i v * c).sum = c) ∧
      (∀ k ≤ n, n - k ≤ 5 → ∃ A, M[k]? = some A ∧ ∀ i < t.nElements k,
        ((List.range A.cols).map fun j => A.entry i j * c).sum = c) := by
  obtain ⟨hn, wf⟩ := fromSimplices_wf hu hs h
  have hN : t.nElements n = simplices.length := by
    unfold Topo.nElements; rw [wf.top_eq]; rfl
  have hget : ∀ k ≤ n, ∀ i < t.nElements k, ∃ E, t.elements[k]? = some E ∧
      E[i]? = some (WF.corners t k i) := by
    intro k hk i hi
    have := WF.corners_get hi
    cases hE : t.elements[k]? with
    | none => unfold Topo.nElements at hi; rw [hE] at hi; simp at hi
    | some E => rw [hE] at this; exact ⟨E, rfl, this⟩
  obtain ⟨L, h1, -, h2⟩ := C23_vertices (K := K) hu hs h
  obtain ⟨M, m1, -, ⟨A, a1, -, -, a2⟩, m2⟩ := C23_tops (K := K) hu hs h
  refine ⟨L, M, h1, m1, fun k hk hk5 => ?_, fun k hk hk5 => ?_⟩
  · obtain ⟨A, g1, -, -, g2⟩ := h2 k hk (Or.inl hk5)
    refine ⟨A, g1, fun i hi => ?_⟩
    obtain ⟨E, hE, he⟩ := hget k hk i hi
    rw [g2 E hE i _ he fun _ => c, mean_const]
    intro hnil
    have := (wf.corners_simplex hs hk hi).1
    rw [hnil] at this
    simp at this
  · rcases Nat.lt_or_ge k n with hlt | hge
    · obtain ⟨A, g1, -, -, g2⟩ := m2 k hlt (Or.inl hk5)
      refine ⟨A, g1, fun i hi => ?_⟩
      obtain ⟨E, hE, he⟩ := hget k hk i hi
      obtain ⟨hne, hm⟩ := g2 E hE i _ he
      rw [hm fun _ => c, mean_const hne]
    · obtain rfl : k = n := by omega
      exact ⟨A, a1, fun i hi => a2 i (by omega) fun _ => c⟩

/-! ### C24 -/

/-- C24: `degree[k]` holds for every `k`-simplex the number of `n`-simplices it is a face of, reduced to
`int8`.  Nine or fewer levels below the top, the simplices counted are all there. -/
theorem C24_degree_wraps (hu : UniqSpec uniq) (hs : Simplices (n + 1) simplices)
    (h : fromSimplices uniq (n + 1) simplices = .ok t) :
    ∃ D, degree t.matrices = .ok D ∧ D.length = n + 1 ∧
      D[n]? = some (List.replicate simplices.length 1) ∧
      ∀ k < n, n - k ≤ 9 → ∀ E, t.elements[k]? = some E →
        D[k]? = some (E.map fun e => wrap8 (incident simplices e).length) := by
  obtain ⟨hn, wf⟩ := fromSimplices_wf hu hs h
  obtain ⟨L, h1, h2, ⟨A, a1, a2, a3, a4⟩, h3⟩ := wf.accumulatedN hs (by omega)
  have hN : t.nElements n = simplices.length := by
    unfold Topo.nElements; rw [wf.top_eq]; rfl
  refine ⟨L.map countRows, by unfold degree; rw [h1]; rfl, by rw [List.length_map, h2], ?_, ?_⟩
  · rw [List.getElem?_map, a1, Option.map_some]
    congr 1
    apply List.ext_getElem?
    intro i
    unfold countRows Mat.transpose
    simp only
    rw [List.getElem?_map, List.getElem?_replicate, a2, a3, hN]
    rcases Nat.lt_or_ge i simplices.length with hi | hi
    · rw [List.getElem?_range hi, Option.map_some, if_pos hi]
      congr 1
      have : ∀ j ∈ List.range simplices.length, (if A.entry j i = 0 then (0 : ℤ) else 1 * 1) =
          if (j == i) then 1 else 0 := by
        intro j _
        rw [a4]
        by_cases hji : j = i
        · simp [hji]
        · simp [hji]
      rw [List.map_congr_left this, sum_filter_int, List.filter_beq, List.length_replicate,
        List.count_eq_one_of_mem List.nodup_range (List.mem_range.2 hi)]
      rfl
    · rw [List.getElem?_eq_none (by simpa using hi), if_neg (by omega)]
      rfl
  · intro k hk hk9 E hE
    obtain ⟨A, g1, g2, g3, g4⟩ := h3 k hk
    rw [List.getElem?_map, g1, Option.map_some]
    congr 1
    have hEl : t.nElements k = E.length := by unfold Topo.nElements; rw [hE]; rfl
    have hf : wrap8 ((n - k).factorial : ℤ) ≠ 0 := by
      have : ∀ m < 10, wrap8 (m.factorial : ℤ) ≠ 0 := by decide
      exact this _ (by omega)
    apply List.ext_getElem?
    intro i
    unfold countRows Mat.transpose
    simp only
    rw [List.getElem?_map, List.getElem?_map, g2, g3, hEl, hN]
    rcases Nat.lt_or_ge i E.length with hi | hi
    · rw [List.getElem?_range hi, List.getElem?_eq_getElem hi, Option.map_some, Option.map_some]
      congr 2
      obtain ⟨hc, hi'⟩ := corners_eq hE (List.getElem?_eq_getElem hi)
      have : ∀ j ∈ List.range simplices.length, (if A.entry j i = 0 then (0 : ℤ) else 1 * 1) =
          if (E[i].all fun v => (simplices[j]?.getD []).contains v) then 1 else 0 := by
        intro j hj
        have hj := List.mem_range.1 hj
        rw [g4 j (by omega) i hi', hc]
        have : (WF.corners t n j) = simplices[j]?.getD [] := by
          unfold WF.corners; rw [wf.top_eq, Option.getD_some]
        rw [this]
        have hiff : (E[i].all fun v => (simplices[j]?.getD []).contains v) = true ↔
            E[i] ⊆ simplices[j]?.getD [] := by
          simp only [List.all_eq_true, List.contains_iff_mem]
          rfl
        simp only [hiff]
        by_cases hsub : E[i] ⊆ simplices[j]?.getD []
        · rw [if_pos hsub, if_pos hsub, if_neg hf, one_mul]
        · rw [if_neg hsub, if_neg hsub]
          rfl
      rw [List.map_congr_left this, sum_filter_int, mul_one]
      rfl
    · rw [List.getElem?_eq_none (by simpa using hi), List.getElem?_eq_none hi]
      rfl

/-- C24: as long as no element has 128 or more incident `n`-simplices, `degree` counts them. -/
theorem C24_degree (hu : UniqSpec uniq) (hs : Simplices (n + 1) simplices)
    (h : fromSimplices uniq (n + 1) simplices = .ok t) :
    ∃ D, degree t.matrices = .ok D ∧
      ∀ k < n, n - k ≤ 9 → ∀ E, t.elements[k]? = some E →
        (∀ e ∈ E, (incident simplices e).length < 128) →
        D[k]? = some (E.map fun e => ((incident simplices e).length : ℤ)) := by
  obtain ⟨D, h1, -, -, h2⟩ := C24_degree_wraps hu hs h
  refine ⟨D, h1, fun k hk hk9 E hE hsmall => ?_⟩
  rw [h2 k hk hk9 E hE]
  congr 1
  refine List.map_congr_left fun e he => wrap8_small (by omega) ?_
  exact_mod_cast hsmall e he

/-- a vertex with `m` edges -/
def star (m : Nat) : List (List Nat) := (List.range m).map fun i => [0, i + 1]

theorem star_simplices (m : Nat) : Simplices 2 (star m) := by
  intro e he
  obtain ⟨i, -, rfl⟩ := List.mem_map.mp he
  exact ⟨rfl, by simp⟩

/-- C24 is false without a bound on the number of incident simplices: the degree of a vertex where `m`
edges meet is `m` reduced to `int8`, for every `m`; it is -128 for 128 edges and 0 for 256 edges. -/
theorem C24_star (hu : UniqSpec uniq) (m : Nat) (hm : 0 < m) :
    ∃ t D, fromSimplices uniq 2 (star m) = .ok t ∧ degree t.matrices = .ok D ∧
      (D[0]?.getD [])[0]? = some (wrap8 m) := by
  obtain ⟨t, ht⟩ := (C03_accepts_iff (nCorners := 0) hu (star_simplices m)).mpr ⟨m + 1, fun v => by
    simp only [star, List.mem_map, List.mem_range]
    constructor
    · rintro ⟨l, ⟨i, hi, rfl⟩, hv⟩
      simp only [List.mem_cons, List.not_mem_nil, or_false] at hv
      omega
    · intro hv
      rcases Nat.eq_zero_or_pos v with rfl | h0
      · exact ⟨[0, 1], ⟨0, hm, rfl⟩, by simp⟩
      · exact ⟨[0, v], ⟨v - 1, by omega, by rw [Nat.sub_add_cancel h0]⟩, by simp⟩⟩
  obtain ⟨D, h1, -, -, h2⟩ := C24_degree_wraps (n := 1) hu (star_simplices m) ht
  obtain ⟨-, wf⟩ := fromSimplices_wf (n := 1) hu (star_simplices m) ht
  refine ⟨t, D, ht, h1, ?_⟩
  obtain ⟨E, F, B, O, hE, -⟩ := wf.level 0 (by omega)
  have h0 : 0 < t.nElements 0 := by
    have h0' : [0, 1] ∈ star m := by
      unfold star
      exact List.mem_map.mpr ⟨0, List.mem_range.2 hm, rfl⟩
    exact vertices_lt wf (by omega) (star_simplices m) (k := 1) (by omega) (e := [0, 1])
      (by rw [wf.top_eq]; exact h0') 0 (by simp)
  have hv := wf.vertex_corners (by omega) h0
  have hg := WF.corners_get h0
  rw [hE, Option.getD_some, hv] at hg
  rw [h2 0 (by omega) (by omega) E hE, Option.getD_some, List.getElem?_map, hg, Option.map_some]
  congr 2
  unfold incident
  rw [List.filter_eq_self.mpr, List.length_range]
  · simp [star]
  · intro j hj
    have hj : j < m := by simpa [star] using hj
    simp [star, hj]

theorem C24_overflow (hu : UniqSpec uniq) :
    ∃ simplices t D, Simplices 2 simplices ∧ fromSimplices uniq 2 simplices = .ok t ∧
      degree t.matrices = .ok D ∧ (incident simplices [0]).length = 128 ∧
      (D[0]?.getD [])[0]? = some (-128) := by
  obtain ⟨t, D, h1, h2, h3⟩ := C24_star hu 128 (by omega)
  exact ⟨star 128, t, D, star_simplices _, h1, h2, by decide +kernel, h3⟩

/-! ### examples -/

/-- two tetrahedra that share a triangle -/
example : ∃ t, fromSimplices List.dedup 4 [[0, 1, 2, 3], [4, 2, 1, 3]] = .ok t ∧
    degree t.matrices = .ok [[1, 2, 2, 2, 1], t.elements[1]!.map fun e => (incident [[0, 1, 2, 3], [4, 2, 1, 3]] e).length,
      t.elements[2]!.map fun e => (incident [[0, 1, 2, 3], [4, 2, 1, 3]] e).length, [1, 1]] := by
  refine ⟨_, rfl, ?_⟩
  decide +kernel

/-- averages over the corners of two triangles -/
example : ∃ t, fromSimplices List.dedup 3 [[0, 1, 2], [1, 3, 2]] = .ok t ∧
    ((averagingOperators0 t.matrices : Except PyErr (List (Mat ℚ))).map fun L => L.map fun A =>
      (List.range A.rows).map fun i => (List.range A.cols).map fun j => A.entry i j).toOption.map
        (fun L => (L[2]?, L[0]?)) =
      some (some [[1/3, 1/3, 1/3, 0], [0, 1/3, 1/3, 1/3]],
        some [[1, 0, 0, 0], [0, 1, 0, 0], [0, 0, 1, 0], [0, 0, 0, 1]]) := by
  refine ⟨_, rfl, ?_⟩
  decide +kernel

/-- the 6-simplex is a topology with a level 6 -/
example : ∃ t, fromSimplices List.dedup 7 [[0, 1, 2, 3, 4, 5, 6]] = .ok t := by
  refine (C03_accepts_iff (nCorners := 5) uniqSpec_dedup ?_).mpr ⟨7, fun v => ?_⟩
  · intro e he
    simp only [List.mem_singleton] at he
    subst he
    exact ⟨rfl, by decide⟩
  · simp
    omega

end Verif.Props
