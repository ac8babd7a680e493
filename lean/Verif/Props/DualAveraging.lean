/-
C83: dual 0-forms averaged to the elements of the dual.
-/
import Verif.Lemmas.DualOrder
import Verif.Props.PickingInstances
import Verif.Props.CubicalDomains
import Verif.Props.Circle

set_option linter.unusedSectionVars false

namespace Verif.Props

open Verif Verif.Model Verif.Spec

variable {uniq : List (List Nat) → List (List Nat)} {solve : List (List Int) → Option (List Int)}
variable {n m : Nat} {simplices cubes : List (List Nat)} {t : Topo} {s : Sub}
variable {K : Type} [Field K] [CharZero K]

/-! ### values from operators -/

/-- what an operator makes of values -/
def rowSums (A : Mat K) (x : Nat → K) : List K :=
  (List.range A.rows).map fun i => ((List.range A.cols).map fun j => A.entry i j * x j).sum

theorem averageDual_ok {ms : List (Mat Int)} {L : List (Mat K)} (h : averagingOperators0 ms = .ok L) {N : Nat}
    (hcols : ∀ A ∈ L, A.cols = N) {d0 : List K} (hd : d0.length = N) :
    averageDual ms d0 = .ok (L.map fun A => rowSums A fun j => d0[j]?.getD 0) := by
  unfold averageDual
  rw [h]
  simp only [bind, Except.bind]
  apply mapM_ok
  intro A hA
  unfold applyTo rowSums
  rw [if_pos ((hcols A hA).trans hd.symm)]

theorem averageDual_error {ms : List (Mat Int)} {L : List (Mat K)} (h : averagingOperators0 ms = .ok L) {N : Nat}
    (hcols : ∀ A ∈ L, A.cols = N) (hne : L ≠ []) {d0 : List K} (hd : d0.length ≠ N) :
    averageDual ms d0 = .error .valueError := by
  unfold averageDual
  rw [h]
  simp only [bind, Except.bind]
  cases L with
  | nil => exact absurd rfl hne
  | cons A L =>
    have : applyTo A d0 = .error .valueError := by
      unfold applyTo
      rw [if_neg fun hh => hd (hh.symm.trans (hcols A List.mem_cons_self))]
    rw [List.mapM_cons, this]
    rfl

theorem rowSums_parts {A : Mat K} {x : Nat → K} {α : Type} {E : List α} {P : List Nat} {f : α → K} {g : Nat → K}
    (hr : A.rows = E.length + P.length)
    (h1 : ∀ (c : Nat) (e : α), E[c]? = some e → ((List.range A.cols).map fun j => A.entry c j * x j).sum = f e)
    (h2 : ∀ q p : Nat, P[q]? = some p → ((List.range A.cols).map fun j => A.entry (E.length + q) j * x j).sum = g p) :
    rowSums A x = E.map f ++ P.map g := by
  unfold rowSums
  rw [hr, List.range_add, List.map_append, List.map_map]
  congr 1
  · apply List.ext_getElem (by simp)
    intro i a b
    simp only [List.length_map, List.length_range] at a
    rw [List.getElem_map, List.getElem_map, List.getElem_range]
    exact h1 i _ (List.getElem?_eq_getElem a)
  · apply List.ext_getElem (by simp)
    intro i a b
    simp only [List.length_map, List.length_range] at a
    rw [List.getElem_map, List.getElem_map, List.getElem_range]
    exact h2 i _ (List.getElem?_eq_getElem a)

theorem rowSums_id {A : Mat K} {d0 : List K} (hr : A.rows = d0.length)
    (h : ∀ i < A.rows, ∀ x : Nat → K, ((List.range A.cols).map fun j => A.entry i j * x j).sum = x i) :
    rowSums A (fun j => d0[j]?.getD 0) = d0 := by
  unfold rowSums
  apply List.ext_getElem (by simp [hr])
  intro i a b
  simp only [List.length_map, List.length_range] at a
  rw [List.getElem_map, List.getElem_range, h i a, List.getElem?_eq_getElem b, Option.getD_some]

theorem weight_one {d : Nat} (h : d ≤ 5) : Glued.weight K d = 1 := weights_pos (Or.inl h)

theorem weight_neg {d : Nat} (h : d = 6 ∨ d = 7) : Glued.weight K d = -1 := weights_neg h

/-- the two signs of a level -/
theorem level_signs {E : List (List Nat)} {P : List Nat} {f : List Nat → K} {g : Nat → K} {d : Nat} {o : List K}
    (h : o = (E.map fun e => Glued.weight K d * f e) ++ P.map fun p => Glued.weight K d * g p) :
    (d ≤ 5 → o = E.map f ++ P.map g) ∧ (d = 6 ∨ d = 7 → o = (E.map f ++ P.map g).map Neg.neg) := by
  constructor
  · intro hd
    rw [h, weight_one hd]
    simp only [one_mul]
  · intro hd
    rw [h, weight_neg hd, List.map_append, List.map_map, List.map_map]
    simp only [neg_one_mul, Function.comp_def]

/-- from rows of operators to lists of values -/
theorem glued_output {N : Nat} {L : List (Mat K)} {ms : List (Mat Int)} (hL : averagingOperators0 ms = .ok L)
    (hlen : L.length = m + 3) {cell bcell : Nat → List Nat → (Nat → K) → List K}
    (h0 : ∃ A, L[0]? = some A ∧ A.rows = N ∧ A.cols = A.rows ∧
      ∀ i < A.rows, ∀ x : Nat → K, ((List.range A.cols).map fun j => A.entry i j * x j).sum = x i)
    (hP : ∀ j ≤ m + 1, (s.parentIdx[j]?.getD []).length = s.topo.nElements j)
    (h : ∀ d k, d + 1 + k = m + 2 → ∃ A, L[d + 1]? = some A ∧ A.rows = t.nElements k + Glued.nB s k ∧ A.cols = N ∧
        (∀ c < t.nElements k, ∀ x : Nat → K, ((List.range A.cols).map fun j => A.entry c j * x j).sum =
          Glued.weight K (d + 1) * mean (cell k (WF.corners t k c) x)) ∧
        (∀ j q p : Nat, k = j + 1 → (s.parentIdx[j]?.getD [])[q]? = some p → ∀ x : Nat → K,
          ((List.range A.cols).map fun j => A.entry (t.nElements k + q) j * x j).sum =
          Glued.weight K (d + 1) * mean (bcell j (WF.corners t j p) x))) (d0 : List K) :
    (d0.length = N → ∃ out, averageDual ms d0 = .ok out ∧ out.length = m + 3 ∧ out[0]? = some d0 ∧
      ∀ d k, d + 1 + k = m + 2 → ∃ o, out[d + 1]? = some o ∧
        (d + 1 ≤ 5 → o = dualLevel t.elements s.parentIdx (fun k e => cell k e fun j => d0[j]?.getD 0)
          (fun k e => bcell k e fun j => d0[j]?.getD 0) k) ∧
        (d + 1 = 6 ∨ d + 1 = 7 → o = (dualLevel t.elements s.parentIdx (fun k e => cell k e fun j => d0[j]?.getD 0)
          (fun k e => bcell k e fun j => d0[j]?.getD 0) k).map Neg.neg)) ∧
    (d0.length ≠ N → averageDual ms d0 = .error .valueError) := by
  have hcols : ∀ A ∈ L, A.cols = N := by
    intro A hA
    obtain ⟨i, hi⟩ := List.mem_iff_getElem?.1 hA
    have hil := (List.getElem?_eq_some_iff.1 hi).1
    cases i with
    | zero =>
      obtain ⟨B, b1, b2, b3, -⟩ := h0
      rw [Option.some.inj (hi.symm.trans b1), b3, b2]
    | succ d =>
      obtain ⟨B, b1, -, b3, -⟩ := h d (m + 1 - d) (by omega)
      rw [Option.some.inj (hi.symm.trans b1), b3]
  refine ⟨fun hd => ⟨_, averageDual_ok hL hcols hd, by rw [List.length_map, hlen], ?_, fun d k hk => ?_⟩,
    fun hd => averageDual_error hL hcols (by rw [← List.length_pos_iff]; omega) hd⟩
  · obtain ⟨A, a1, a2, -, a4⟩ := h0
    rw [List.getElem?_map, a1, Option.map_some, rowSums_id (a2.trans hd.symm) a4]
  · obtain ⟨A, a1, a2, a3, a4, a5⟩ := h d k hk
    refine ⟨_, by rw [List.getElem?_map, a1]; rfl, ?_⟩
    have hcor : ∀ (k c : Nat) (e : List Nat), (t.elements[k]?.getD [])[c]? = some e → c < t.nElements k ∧ WF.corners t k c = e := by
      intro k c e he
      refine ⟨(List.getElem?_eq_some_iff.1 he).1, ?_⟩
      unfold WF.corners
      rw [he, Option.getD_some]
    cases k with
    | zero =>
      have := rowSums_parts (A := A) (x := fun j => d0[j]?.getD 0) (E := t.elements[0]?.getD []) (P := [])
        (f := fun e => Glued.weight K (d + 1) * mean (cell 0 e fun j => d0[j]?.getD 0))
        (g := fun _ => Glued.weight K (d + 1) * 0) (by rw [a2]; rfl)
        (fun c e he => by
          obtain ⟨c1, c2⟩ := hcor 0 c e he
          rw [a4 c c1, c2]) (fun q p hq => by simp at hq)
      have h2 := level_signs (g := fun _ => 0) this
      simpa only [dualLevel, List.map_nil, List.append_nil] using h2
    | succ k =>
      have := rowSums_parts (A := A) (x := fun j => d0[j]?.getD 0) (E := t.elements[k + 1]?.getD [])
        (P := s.parentIdx[k]?.getD [])
        (f := fun e => Glued.weight K (d + 1) * mean (cell (k + 1) e fun j => d0[j]?.getD 0))
        (g := fun p => Glued.weight K (d + 1) * mean (bcell k ((t.elements[k]?.getD [])[p]?.getD []) fun j => d0[j]?.getD 0))
        (by rw [a2, hP k (by omega)]; rfl)
        (fun c e he => by
          obtain ⟨c1, c2⟩ := hcor (k + 1) c e he
          rw [a4 c c1, c2])
        (fun q p hq => by
          exact a5 k q p rfl hq _)
      exact level_signs (g := fun p => mean (bcell k ((t.elements[k]?.getD [])[p]?.getD []) fun j => d0[j]?.getD 0)) this

/-! ### closed meshes -/

theorem closed_averaging {L : List (Mat K)} (h : averagingOperatorsN t.matrices = .ok L) :
    averagingOperators0 ((List.range t.boundary.length).map (closedDualMatrix t)).reverse = .ok L.reverse := by
  unfold averagingOperatorsN at h
  cases ha : accumulatedOperatorsN t.matrices with
  | error e => simp [ha, bind, Except.bind] at h
  | ok A =>
    rw [ha] at h
    have hL := Except.ok.inj h
    unfold averagingOperators0
    rw [closed_accumulated ha, ← hL]
    show Except.ok _ = _
    rw [List.map_reverse]

/-- from the operators of a closed mesh to lists of values -/
theorem closed_output {N : Nat} {L : List (Mat K)} (hL : averagingOperatorsN t.matrices = .ok L)
    (hlen : L.length = n + 1) {cell : Nat → List Nat → (Nat → K) → List K}
    (h0 : ∃ A, L[n]? = some A ∧ A.rows = N ∧ A.cols = N ∧
      ∀ i < N, ∀ x : Nat → K, ((List.range A.cols).map fun j => A.entry i j * x j).sum = x i)
    (hE : t.elements.length = n + 1)
    (h : ∀ k < n, ∃ A, L[k]? = some A ∧ A.rows = t.nElements k ∧ A.cols = N ∧
        ∀ E, t.elements[k]? = some E → ∀ i e, E[i]? = some e → ∀ x : Nat → K,
          ((List.range A.cols).map fun j => A.entry i j * x j).sum =
            Glued.weight K (n - k) * mean (cell k e x)) (d0 : List K) :
    (d0.length = N → ∃ out, averageDual ((List.range t.boundary.length).map (closedDualMatrix t)).reverse d0 = .ok out ∧
      out.length = n + 1 ∧ out[0]? = some d0 ∧
      ∀ d k, d + 1 + k = n → ∃ o, out[d + 1]? = some o ∧
        (d + 1 ≤ 5 → o = dualLevel t.elements [] (fun k e => cell k e fun j => d0[j]?.getD 0) (fun _ _ => []) k) ∧
        (d + 1 = 6 ∨ d + 1 = 7 → o = (dualLevel t.elements [] (fun k e => cell k e fun j => d0[j]?.getD 0)
          (fun _ _ => []) k).map Neg.neg)) ∧
    (d0.length ≠ N → averageDual ((List.range t.boundary.length).map (closedDualMatrix t)).reverse d0 = .error .valueError) := by
  have hcols : ∀ A ∈ L.reverse, A.cols = N := by
    intro A hA
    obtain ⟨i, hi⟩ := List.mem_iff_getElem?.1 (List.mem_reverse.1 hA)
    have hil := (List.getElem?_eq_some_iff.1 hi).1
    rcases Nat.lt_or_ge i n with hlt | hge
    · obtain ⟨B, b1, -, b3, -⟩ := h i hlt
      rw [Option.some.inj (hi.symm.trans b1), b3]
    · obtain rfl : i = n := by omega
      obtain ⟨B, b1, b2, b3, -⟩ := h0
      rw [Option.some.inj (hi.symm.trans b1), b3]
  refine ⟨fun hd => ⟨_, averageDual_ok (closed_averaging hL) hcols hd, by rw [List.length_map, List.length_reverse, hlen], ?_,
    fun d k hk => ?_⟩,
    fun hd => averageDual_error (closed_averaging hL) hcols (by rw [← List.length_pos_iff, List.length_reverse]; omega) hd⟩
  · obtain ⟨A, a1, a2, -, a4⟩ := h0
    rw [List.getElem?_map, List.getElem?_reverse (by omega), hlen, show n + 1 - 1 - 0 = n by omega, a1, Option.map_some,
      rowSums_id (a2.trans hd.symm) (by rw [a2]; exact a4)]
  · obtain ⟨A, a1, a2, a3, a4⟩ := h k (by omega)
    refine ⟨_, by rw [List.getElem?_map, List.getElem?_reverse (by omega), hlen, show n + 1 - 1 - (d + 1) = k by omega, a1]; rfl, ?_⟩
    have hEk : t.elements[k]? = some (t.elements[k]?.getD []) := by
      rw [List.getElem?_eq_getElem (by omega)]
      rfl
    have := rowSums_parts (A := A) (x := fun j => d0[j]?.getD 0) (E := t.elements[k]?.getD []) (P := [])
      (f := fun e => Glued.weight K (d + 1) * mean (cell k e fun j => d0[j]?.getD 0))
      (g := fun _ => Glued.weight K (d + 1) * 0) (by rw [a2]; rfl)
      (fun c e he => by
        have := a4 _ hEk c e he fun j => d0[j]?.getD 0
        rwa [show n - k = d + 1 by omega] at this) (fun q p hq => by simp at hq)
    have h2 := level_signs (g := fun _ => 0) this
    cases k with
    | zero => simpa only [dualLevel, List.map_nil, List.append_nil] using h2
    | succ k =>
      simpa only [dualLevel, List.getElem?_nil, Option.getD_none, List.map_nil, List.append_nil] using h2

/-- C83: on a closed mesh of simplices `average_dual` gives on every dual element the mean of the values at its vertices, the
simplices around it; `d0` itself comes first.  Levels above five are reached by the wrap-around of C23.  A `d0` of another
length is a `ValueError`. -/
theorem C83_closed (hu : UniqSpec uniq) (hs : Simplices (n + 1) simplices) (h : fromSimplices uniq (n + 1) simplices = .ok t)
    (hb : boundary solve uniq t = .ok none) :
    ∃ ms, simplicialDual solve uniq t = .ok ms ∧ ∀ d0 : List K,
      (d0.length = simplices.length → ∃ out, averageDual ms d0 = .ok out ∧ out.length = n + 1 ∧ out[0]? = some d0 ∧
        ∀ d k, d + 1 + k = n → ∃ o, out[d + 1]? = some o ∧
          (d + 1 ≤ 5 → o = dualLevel t.elements [] (fun _ e => (Spec.incident simplices e).map fun j => d0[j]?.getD 0)
            (fun _ _ => []) k) ∧
          (d + 1 = 6 ∨ d + 1 = 7 → o = (dualLevel t.elements [] (fun _ e => (Spec.incident simplices e).map fun j => d0[j]?.getD 0)
            (fun _ _ => []) k).map Neg.neg)) ∧
      (d0.length ≠ simplices.length → averageDual ms d0 = .error .valueError) := by
  obtain ⟨hn, wf⟩ := fromSimplices_wf hu hs h
  obtain ⟨L, h1, h2, h0, h3⟩ := averagingN (K := K) hu hs h
  refine ⟨_, by unfold simplicialDual; rw [hb]; rfl, ?_⟩
  exact closed_output h1 h2 (cell := fun _ e x => (Spec.incident simplices e).map x) h0 wf.lenE h3

/-- C83: the same for closed meshes of cubes. -/
theorem C83_closed_cubes (hu : UniqSpec uniq) (hc : Cubes n cubes) (hn : 1 ≤ n) (h : fromCubes uniq true n cubes = .ok t)
    (hb : cubicalBoundary solve uniq t = .ok none) :
    ∃ ms, cubicalDual solve uniq t = .ok ms ∧ ∀ d0 : List K,
      (d0.length = cubes.length → ∃ out, averageDual ms d0 = .ok out ∧ out.length = n + 1 ∧ out[0]? = some d0 ∧
        ∀ d k, d + 1 + k = n → ∃ o, out[d + 1]? = some o ∧
          (d + 1 ≤ 5 → o = dualLevel t.elements [] (fun k e => (cubesAround n k cubes e).map fun j => d0[j]?.getD 0)
            (fun _ _ => []) k) ∧
          (d + 1 = 6 ∨ d + 1 = 7 → o = (dualLevel t.elements [] (fun k e => (cubesAround n k cubes e).map fun j => d0[j]?.getD 0)
            (fun _ _ => []) k).map Neg.neg)) ∧
      (d0.length ≠ cubes.length → averageDual ms d0 = .error .valueError) := by
  have wf := fromCubes_wf hu hc h
  obtain ⟨L, h1, h2, h0, h3⟩ := cubeAveragingN (K := K) hu hc hn h
  refine ⟨_, by unfold cubicalDual; rw [hb]; rfl, ?_⟩
  exact closed_output h1 h2 (cell := fun k e x => (cubesAround n k cubes e).map x) h0 wf.lenE h3

/-! ### meshes with a boundary -/

theorem oriented_of_dual {ms : List (Mat Int)} (hb : boundary solve uniq t = .ok (some s))
    (hd : simplicialDual solve uniq t = .ok ms) : isOriented solve s.topo = .ok true ∧ dualMatrices solve t (some s) = .ok ms := by
  unfold simplicialDual at hd
  rw [hb] at hd
  refine ⟨?_, hd⟩
  unfold dualMatrices at hd
  cases ho : isOriented solve s.topo with
  | error e => simp [ho, bind, Except.bind] at hd
  | ok o =>
    cases o with
    | true => rfl
    | false => simp [ho, bind, Except.bind] at hd

theorem cubes_oriented_of_dual {ms : List (Mat Int)} (hb : cubicalBoundary solve uniq t = .ok (some s))
    (hd : cubicalDual solve uniq t = .ok ms) : isOriented solve s.topo = .ok true ∧ dualMatrices solve t (some s) = .ok ms := by
  unfold cubicalDual at hd
  rw [hb] at hd
  refine ⟨?_, hd⟩
  unfold dualMatrices at hd
  cases ho : isOriented solve s.topo with
  | error e => simp [ho, bind, Except.bind] at hd
  | ok o =>
    cases o with
    | true => rfl
    | false => simp [ho, bind, Except.bind] at hd

theorem cubes_oriented_of_boundary {b : Option Sub} (hb : cubicalBoundary solve uniq t = .ok b) :
    isOriented solve t = .ok true := by
  unfold cubicalBoundary at hb
  cases ho : isOriented solve t with
  | error e => simp [ho, bind, Except.bind] at hb
  | ok o =>
    cases o with
    | true => rfl
    | false => simp [ho, bind, Except.bind] at hb

theorem cubes_boundary_sub (hu : UniqSpec uniq) (hc : Cubes (n + 2) cubes) (h : fromCubes uniq true (n + 2) cubes = .ok t)
    (hb : cubicalBoundary solve uniq t = .ok (some s)) : CSubOK uniq (n + 1) t (bRows t) s := by
  have hor := cubes_oriented_of_boundary hb
  have wf := fromCubes_wf hu hc h
  obtain ⟨hsn, s', hsub, hok⟩ := bRows_cubes hu hc h
  rw [cubicalBoundary_eq hor, wf.lenB, show n + 2 - 1 = n + 1 from rfl, hsub] at hb
  split at hb
  · simp at hb
  · have : s' = s := by simpa [Except.map] using hb
    subst this
    exact hok

/-- C83: on a mesh of simplices with a boundary, whose elements are numbered in the order of the elements they come from,
`average_dual` gives on every dual element the mean of the values at all its vertices: the simplices around it and the boundary
faces `F` around it.  After them come the cells of the dual of the boundary, each with the mean over the boundary faces around
it.  `d0` itself comes first; a `d0` of another length is a `ValueError`. -/
theorem C83_open (hu : UniqSpec uniq) (hs : Simplices (n + 3) simplices) (hsat : SatSpec solve)
    (h : fromSimplices uniq (n + 3) simplices = .ok t) (h2 : AtMostTwo simplices)
    (hb : boundary solve uniq t = .ok (some s)) {ms : List (Mat Int)} (hd : simplicialDual solve uniq t = .ok ms)
    (hord : InOrder s.parentIdx) :
    ∃ F, F.Sublist (t.elements[n + 1]?.getD []) ∧ (∀ e ∈ t.elements[n + 1]?.getD [], e ∈ F ↔ BoundaryFace simplices e) ∧
    ∀ d0 : List K,
      (d0.length = simplices.length + F.length → ∃ out, averageDual ms d0 = .ok out ∧ out.length = n + 3 ∧ out[0]? = some d0 ∧
        ∀ d k, d + 1 + k = n + 2 → ∃ o, out[d + 1]? = some o ∧
          (d + 1 ≤ 5 → o = dualLevel t.elements s.parentIdx (fun _ e => dualCell simplices F e fun j => d0[j]?.getD 0)
            (fun _ e => boundaryCell simplices F e fun j => d0[j]?.getD 0) k) ∧
          (d + 1 = 6 ∨ d + 1 = 7 → o = (dualLevel t.elements s.parentIdx
            (fun _ e => dualCell simplices F e fun j => d0[j]?.getD 0)
            (fun _ e => boundaryCell simplices F e fun j => d0[j]?.getD 0) k).map Neg.neg)) ∧
      (d0.length ≠ simplices.length + F.length → averageDual ms d0 = .error .valueError) := by
  have hor := oriented_of_boundary hb
  obtain ⟨hor', hms⟩ := oriented_of_dual hb hd
  obtain ⟨wf, hok⟩ := boundary_sub hu hs h hor hb
  obtain ⟨P0, new, faces, f1, f2, f3, f4, f5, -⟩ := C09_boundary_elements hu hs hsat h h2 hor hb
  have hF : faces = bRows t := by
    rw [hok.idx_zero (by omega) (by omega) wf] at f1
    rw [hok.wf.top_eq] at f2
    rw [← f3, ← Option.some.inj f1, ← Option.some.inj f2]
    exact relabel_back _
  subst hF
  have g := glued_simplicial wf hs hok hord
  obtain ⟨hn, L, l1, l2, l3, l4⟩ := simplicial_means (K := K) wf hs hok hord
  rw [g.matrices_eq hor'] at hms
  rw [Except.ok.inj hms] at l1
  refine ⟨bRows t, f4, f5, ?_⟩
  exact glued_output l1 l2 (cell := fun _ e x => dualCell simplices (bRows t) e x)
    (bcell := fun _ e x => boundaryCell simplices (bRows t) e x) l3 (fun j hj => g.count j hj) l4

/-- C83: the same for meshes of cubes. -/
theorem C83_open_cubes (hu : UniqSpec uniq) (hc : Cubes (n + 2) cubes) (hsat : SatSpec solve)
    (h : fromCubes uniq true (n + 2) cubes = .ok t) (h2 : SidesAtMostTwo (n + 1) cubes)
    (hb : cubicalBoundary solve uniq t = .ok (some s)) {ms : List (Mat Int)} (hd : cubicalDual solve uniq t = .ok ms)
    (hord : InOrder s.parentIdx) :
    ∃ F, F.Sublist (t.elements[n + 1]?.getD []) ∧ (∀ e ∈ t.elements[n + 1]?.getD [], e ∈ F ↔ BoundarySide (n + 1) cubes e) ∧
    ∀ d0 : List K,
      (d0.length = cubes.length + F.length → ∃ out, averageDual ms d0 = .ok out ∧ out.length = n + 3 ∧ out[0]? = some d0 ∧
        ∀ d k, d + 1 + k = n + 2 → ∃ o, out[d + 1]? = some o ∧
          (d + 1 ≤ 5 → o = dualLevel t.elements s.parentIdx (fun k e => dualCubeCell (n + 2) k cubes F e fun j => d0[j]?.getD 0)
            (fun k e => boundaryCubeCell (n + 2) k cubes F e fun j => d0[j]?.getD 0) k) ∧
          (d + 1 = 6 ∨ d + 1 = 7 → o = (dualLevel t.elements s.parentIdx
            (fun k e => dualCubeCell (n + 2) k cubes F e fun j => d0[j]?.getD 0)
            (fun k e => boundaryCubeCell (n + 2) k cubes F e fun j => d0[j]?.getD 0) k).map Neg.neg)) ∧
      (d0.length ≠ cubes.length + F.length → averageDual ms d0 = .error .valueError) := by
  have hor := cubes_oriented_of_boundary hb
  obtain ⟨hor', hms⟩ := cubes_oriented_of_dual hb hd
  have wf := fromCubes_wf hu hc h
  have hok := cubes_boundary_sub hu hc h hb
  obtain ⟨hsn, -⟩ := bRows_cubes hu hc h
  obtain ⟨P0, new, faces, f1, f2, f3, f4, f5, -⟩ := C76_boundary_elements hu hc hsat h h2 hor hb
  have hF : faces = bRows t := by
    rw [hok.idx_zero (by omega) (by omega) wf hsn hu] at f1
    rw [hok.wf.top_eq] at f2
    rw [← f3, ← Option.some.inj f1, ← Option.some.inj f2]
    exact relabel_back _
  subst hF
  have g := glued_cubical wf hc hok hord
  obtain ⟨L, l1, l2, l3, l4⟩ := cubical_means (K := K) wf hc hok hord
  rw [g.matrices_eq hor'] at hms
  rw [Except.ok.inj hms] at l1
  refine ⟨bRows t, f4, f5, ?_⟩
  exact glued_output l1 l2 (cell := fun k e x => dualCubeCell (n + 2) k cubes (bRows t) e x)
    (bcell := fun k e x => boundaryCubeCell (n + 2) k cubes (bRows t) e x) l3 (fun j hj => g.count j hj) l4

/-! ### when the boundary is numbered in order -/

/-- C83: if distinct rows are listed in lexicographic order, the boundary of a mesh of simplices is numbered in the order of
the mesh. -/
theorem C83_in_order (hu : UniqSpec uniq) (hlex : ∀ l, (uniq l).Pairwise (· < ·)) (hs : Simplices (n + 3) simplices)
    (h : fromSimplices uniq (n + 3) simplices = .ok t) (hb : boundary solve uniq t = .ok (some s)) : InOrder s.parentIdx := by
  have hor := oriented_of_boundary hb
  obtain ⟨wf, hok⟩ := boundary_sub hu hs h hor hb
  refine simplicial_inOrder_lex hu hlex h wf hok ?_
  rw [boundary_eq hor, wf.lenB] at hb
  split at hb
  · simp at hb
  · unfold subTopology at hb
    cases hf : fromSimplices uniq (n + 2) (relabel (bRows t)).2 with
    | error e => simp [hf, bind, Except.bind, Except.map] at hb
    | ok t' =>
      simp only [hf, bind, Except.bind] at hb
      split at hb
      · simp [Except.map] at hb
      · have := Option.some.inj (Except.ok.inj hb)
        rw [← this]

/-- C83: and so it is for triangles, in whatever order the distinct rows are listed. -/
theorem C83_in_order_triangles (hu : UniqSpec uniq) (hs : Simplices 3 simplices)
    (h : fromSimplices uniq 3 simplices = .ok t) (hb : boundary solve uniq t = .ok (some s)) : InOrder s.parentIdx := by
  obtain ⟨wf, hok⟩ := boundary_sub (nCorners := 0) hu hs h (oriented_of_boundary hb) hb
  exact simplicial_inOrder_plane wf hok

/-- C83: the boundary of a mesh of cubes is numbered in the order of the mesh if distinct rows are listed in lexicographic
order. -/
theorem C83_in_order_cubes (hu : UniqSpec uniq) (hlex : ∀ l, (uniq l).Pairwise (· < ·)) (hc : Cubes (n + 2) cubes)
    (h : fromCubes uniq true (n + 2) cubes = .ok t) (hb : cubicalBoundary solve uniq t = .ok (some s)) : InOrder s.parentIdx :=
  cubical_inOrder_lex hu hlex h (fromCubes_wf hu hc h) hc (cubes_boundary_sub hu hc h hb)

/-- C83: and so it is for squares, in whatever order the distinct rows are listed. -/
theorem C83_in_order_squares (hu : UniqSpec uniq) (hc : Cubes 2 cubes)
    (h : fromCubes uniq true 2 cubes = .ok t) (hb : cubicalBoundary solve uniq t = .ok (some s)) : InOrder s.parentIdx := by
  have wf := fromCubes_wf hu hc h
  have hok := cubes_boundary_sub (n := 0) hu hc h hb
  obtain ⟨hsn, -⟩ := bRows_cubes (n := 0) hu hc h
  refine inOrder_of_levels hok.lenIdx fun k hk P hP => ?_
  rcases Nat.lt_or_ge k 1 with hlt | hge
  · obtain rfl : k = 0 := by omega
    rw [← Option.some.inj ((hok.idx_zero (by omega) (by omega) wf hsn hu).symm.trans hP)]
    exact mapping_sorted _
  · obtain rfl : k = 1 := by omega
    rw [cubes_idx_top wf hc hok hP]
    exact bIdx_sorted t

/-! ### the dual exists -/

/-- C83: the dual of a mesh of simplices whose boundary is in one piece and numbered in order can be built. -/
theorem C83_exists (hu : UniqSpec uniq) (hs : Simplices (n + 3) simplices) (hsat : SatSpec solve)
    (h : fromSimplices uniq (n + 3) simplices = .ok t) (h2 : AtMostTwo simplices)
    (hb : boundary solve uniq t = .ok (some s)) (hcon : Connected (s.topo.elements[n + 1]?.getD []))
    (hord : InOrder s.parentIdx) : ∃ ms, simplicialDual solve uniq t = .ok ms := by
  have hor := oriented_of_boundary hb
  have hor' := oriented_of_boundary (C09_boundary_of_boundary hu hs hsat h h2 hor hb hcon)
  obtain ⟨wf, hok⟩ := boundary_sub hu hs h hor hb
  have := (glued_simplicial wf hs hok hord).matrices_eq hor'
  exact ⟨_, by unfold simplicialDual; rw [hb]; exact this⟩

/-- C83: and that of a mesh of cubes. -/
theorem C83_exists_cubes (hu : UniqSpec uniq) (hc : Cubes (n + 2) cubes) (hsat : SatSpec solve)
    (h : fromCubes uniq true (n + 2) cubes = .ok t) (h2 : SidesAtMostTwo (n + 1) cubes)
    (hb : cubicalBoundary solve uniq t = .ok (some s)) (hcon : CubesConnected n (s.topo.elements[n + 1]?.getD []))
    (hord : InOrder s.parentIdx) : ∃ ms, cubicalDual solve uniq t = .ok ms := by
  have hor := cubes_oriented_of_boundary hb
  have hor' := (C76_boundary_coherent_and_closed hu hc hsat h h2 hor hb).2.2.2 hcon
  have := (glued_cubical (fromCubes_wf hu hc h) hc (cubes_boundary_sub hu hc h hb) hord).matrices_eq hor'
  exact ⟨_, by unfold cubicalDual; rw [hb]; exact this⟩

/-! ### constants -/

theorem mean_all {l : List K} {c : K} (hl : l ≠ []) (h : ∀ y ∈ l, y = c) : mean l = c := by
  have : l = l.map fun _ => c := by
    conv_lhs => rw [← List.map_id l]
    exact List.map_congr_left h
  rw [this]
  exact mean_const hl c

/-- C83: the mean of a constant is that constant, on every element of the dual of a mesh of simplices with a boundary. -/
theorem C83_constants (hu : UniqSpec uniq) (hs : Simplices (n + 3) simplices)
    (h : fromSimplices uniq (n + 3) simplices = .ok t)
    (hb : boundary solve uniq t = .ok (some s)) {ms : List (Mat Int)} (hd : simplicialDual solve uniq t = .ok ms)
    (hord : InOrder s.parentIdx) (c : K) :
    ∃ N out, averageDual ms (List.replicate N c) = .ok out ∧ out.length = n + 3 ∧
      ∀ d ≤ 5, d ≤ n + 2 → ∃ o, out[d]? = some o ∧ ∀ y ∈ o, y = c := by
  have hor := oriented_of_boundary hb
  obtain ⟨wf, hok⟩ := boundary_sub hu hs h hor hb
  obtain ⟨hor', hms⟩ := oriented_of_dual hb hd
  have g := glued_simplicial wf hs hok hord
  obtain ⟨hn, L, l1, l2, l3, l4⟩ := simplicial_means (K := K) wf hs hok hord
  rw [g.matrices_eq hor'] at hms
  rw [Except.ok.inj hms] at l1
  have hout := (glued_output l1 l2 (cell := fun _ e x => dualCell simplices (bRows t) e x)
    (bcell := fun _ e x => boundaryCell simplices (bRows t) e x) l3 (fun j hj => g.count j hj) l4
    (List.replicate (simplices.length + (bRows t).length) c)).1 (by simp)
  obtain ⟨out, o1, o2, o3, o4⟩ := hout
  refine ⟨_, out, o1, o2, fun d hd5 hdn => ?_⟩
  cases d with
  | zero => exact ⟨_, o3, fun y hy => List.eq_of_mem_replicate hy⟩
  | succ d =>
    obtain ⟨o, h1, h3, -⟩ := o4 d (n + 1 - d) (by omega)
    refine ⟨o, h1, ?_⟩
    rw [h3 hd5]
    have hval : ∀ j < simplices.length + (bRows t).length,
        (List.replicate (simplices.length + (bRows t).length) c)[j]?.getD 0 = c := by
      intro j hj
      rw [List.getElem?_replicate, if_pos hj, Option.getD_some]
    have hlt : ∀ (rows : List (List Nat)) (e : List Nat), ∀ j ∈ Spec.incident rows e, j < rows.length := fun rows e j hj =>
      List.mem_range.1 (List.mem_filter.1 hj).1
    have hbc : ∀ e, ∀ y ∈ boundaryCell simplices (bRows t) e
        (fun j => (List.replicate (simplices.length + (bRows t).length) c)[j]?.getD 0), y = c := by
      intro e y hy
      obtain ⟨j, hj, rfl⟩ := List.mem_map.1 hy
      exact hval _ (Nat.add_lt_add_left (hlt _ _ _ hj) _)
    have hcell : ∀ k ≤ n + 2, ∀ e ∈ t.elements[k]?.getD [], mean (dualCell simplices (bRows t) e
        (fun j => (List.replicate (simplices.length + (bRows t).length) c)[j]?.getD 0)) = c := by
      intro k hk e he
      have hEk : t.elements[k]? = some (t.elements[k]?.getD []) := by
        rw [List.getElem?_eq_getElem (by rw [wf.lenE]; omega)]
        rfl
      have hne := incident_ne_nil hu hs h hk hEk he
      refine mean_all ?_ ?_
      · unfold dualCell
        intro hnil
        exact hne (List.map_eq_nil_iff.1 (List.append_eq_nil_iff.1 hnil).1)
      · intro y hy
        rcases List.mem_append.1 hy with hy | hy
        · obtain ⟨j, hj, rfl⟩ := List.mem_map.1 hy
          exact hval _ (Nat.lt_add_right _ (hlt _ _ _ hj))
        · exact hbc e y hy
    intro y hy
    cases hk : n + 1 - d with
    | zero =>
      rw [hk] at hy
      obtain ⟨e, he, rfl⟩ := List.mem_map.1 hy
      exact hcell 0 (by omega) e he
    | succ k =>
      rw [hk] at hy
      rcases List.mem_append.1 hy with hy | hy
      · obtain ⟨e, he, rfl⟩ := List.mem_map.1 hy
        exact hcell (k + 1) (by omega) e he
      · obtain ⟨p, hp, rfl⟩ := List.mem_map.1 hy
        refine mean_all ?_ (hbc _)
        obtain ⟨q, hq⟩ := List.mem_iff_getElem?.1 hp
        obtain ⟨-, hpl, -⟩ := hok.at_parent (k := k) (by omega) hq
        obtain ⟨r, hr, hsub⟩ := (mem_parents wf hok (bRows_mem wf) (k := k) (by omega) (WF.corners_get hpl)).1 hp
        obtain ⟨i, hi, rfl⟩ := List.getElem_of_mem hr
        unfold boundaryCell
        intro hnil
        have hmem : i ∈ Spec.incident (bRows t) (WF.corners t k p) := by
          refine List.mem_filter.2 ⟨List.mem_range.2 hi, ?_⟩
          simp only [List.all_eq_true, List.contains_iff_mem, List.getElem?_eq_getElem hi, Option.getD_some]
          exact fun v hv => hsub.subset hv
        have hempty := List.map_eq_nil_iff.1 hnil
        rw [show (t.elements[k]?.getD [])[p]?.getD [] = WF.corners t k p from rfl] at hempty
        rw [hempty] at hmem
        exact absurd hmem (List.not_mem_nil)

/-! ### a mesh with a boundary, and an order for which the averages are wrong -/

theorem lexRows_sorted (l : List (List Nat)) : (lexRows l).Pairwise (· < ·) := by
  have h1 : (lexRows l).Pairwise (· ≤ ·) := List.pairwise_insertionSort _ _
  have h2 : (lexRows l).Nodup := (lexRows_spec l).1
  exact (h1.and h2).imp fun ⟨a, b⟩ => lt_of_le_of_ne a b

/-- the two tetrahedra with a given order of distinct rows -/
def tetsTopo (uniq : List (List Nat) → List (List Nat)) : Topo :=
  match fromSimplices uniq 4 twoTets with
  | .ok t => t
  | .error _ => ⟨[], [], []⟩

/-- their boundary -/
def tetsBoundary (uniq : List (List Nat) → List (List Nat)) : Sub :=
  match subTopology uniq 3 (tetsTopo uniq) (bRows (tetsTopo uniq)) with
  | .ok s => s
  | .error _ => ⟨⟨[], [], []⟩, []⟩

/-- the matrices of their dual -/
def tetsDual (uniq : List (List Nat) → List (List Nat)) : List (Mat Int) :=
  match (List.range 3).mapM (gluedMatrix (tetsTopo uniq) (tetsBoundary uniq)) with
  | .ok ms => ms.reverse
  | .error _ => []

/-- C83, a case: two tetrahedra on a common face, rows in lexicographic order, meet the hypotheses. -/
theorem C83_case (hsat : SatSpec solve) :
    ∃ t s ms, UniqSpec lexRows ∧ (∀ l, (lexRows l).Pairwise (· < ·)) ∧ Simplices 4 twoTets ∧
      fromSimplices lexRows 4 twoTets = .ok t ∧ AtMostTwo twoTets ∧ boundary solve lexRows t = .ok (some s) ∧
      s.topo.nElements 2 = 6 ∧ InOrder s.parentIdx ∧ simplicialDual solve lexRows t = .ok ms := by
  have hf : fromSimplices lexRows 4 twoTets = .ok (tetsTopo lexRows) := by decide +kernel
  have h2 : AtMostTwo twoTets := atMostTwo_of_check (by decide +kernel)
  have hcon : Connected twoTets := connected_of_chain fun j hj => by
    have hj : j < 1 := by simp [twoTets] at hj; omega
    interval_cases j
    exact ⟨[0, 2, 3], sharedFace_of_check (by decide +kernel)⟩
  have hor : isOriented solve (tetsTopo lexRows) = .ok true :=
    (C08_connected_exact lexRows_spec twoTets_simplices hsat hf (by decide) hcon).2 twoTets_coherent
  have hb : boundary solve lexRows (tetsTopo lexRows) = .ok (some (tetsBoundary lexRows)) := by
    rw [boundary_eq hor]
    decide +kernel
  have hord := C83_in_order (n := 1) lexRows_spec lexRows_sorted twoTets_simplices hf hb
  have hE : (tetsBoundary lexRows).topo.elements[2]?.getD [] =
      [[1, 0, 2], [3, 0, 1], [4, 2, 0], [0, 3, 4], [1, 2, 3], [4, 3, 2]] := by decide +kernel
  have hconb : Connected ((tetsBoundary lexRows).topo.elements[1 + 1]?.getD []) := by
    rw [show (1 : Nat) + 1 = 2 from rfl, hE]
    have hadj : ∀ {a b : Nat} (e : List Nat), SharedFace [[1, 0, 2], [3, 0, 1], [4, 2, 0], [0, 3, 4], [1, 2, 3], [4, 3, 2]] e a b →
        Relation.ReflTransGen (Adjacent [[1, 0, 2], [3, 0, 1], [4, 2, 0], [0, 3, 4], [1, 2, 3], [4, 3, 2]]) a b ∧
        Relation.ReflTransGen (Adjacent [[1, 0, 2], [3, 0, 1], [4, 2, 0], [0, 3, 4], [1, 2, 3], [4, 3, 2]]) b a :=
      fun e h => ⟨.single ⟨e, h⟩, .single ⟨e, sharedFace_symm h⟩⟩
    have h01 := hadj (a := 0) (b := 1) [0, 1] (sharedFace_of_check (by decide +kernel))
    have h02 := hadj (a := 0) (b := 2) [0, 2] (sharedFace_of_check (by decide +kernel))
    have h23 := hadj (a := 2) (b := 3) [0, 4] (sharedFace_of_check (by decide +kernel))
    have h04 := hadj (a := 0) (b := 4) [1, 2] (sharedFace_of_check (by decide +kernel))
    have h45 := hadj (a := 4) (b := 5) [2, 3] (sharedFace_of_check (by decide +kernel))
    have all : ∀ j < 6, Relation.ReflTransGen (Adjacent [[1, 0, 2], [3, 0, 1], [4, 2, 0], [0, 3, 4], [1, 2, 3], [4, 3, 2]]) 0 j ∧
        Relation.ReflTransGen (Adjacent [[1, 0, 2], [3, 0, 1], [4, 2, 0], [0, 3, 4], [1, 2, 3], [4, 3, 2]]) j 0 := by
      intro j hj
      interval_cases j
      · exact ⟨.refl, .refl⟩
      · exact h01
      · exact h02
      · exact ⟨h02.1.trans h23.1, h23.2.trans h02.2⟩
      · exact h04
      · exact ⟨h04.1.trans h45.1, h45.2.trans h04.2⟩
    intro j1 h1 j2 h2
    exact (all j1 (by simpa using h1)).2.trans (all j2 (by simpa using h2)).1
  obtain ⟨ms, hms⟩ := C83_exists (n := 1) lexRows_spec twoTets_simplices hsat hf h2 hb hconb hord
  exact ⟨_, _, ms, lexRows_spec, lexRows_sorted, twoTets_simplices, hf, h2, hb, by decide +kernel, hord, hms⟩

/-- C83 needs the order: with the same two tetrahedra and distinct rows listed in the order in which they appear, the boundary
is numbered in another order than the mesh, and `average_dual` gives wrong values on the dual elements of the edges. -/
theorem C83_order_needed :
    UniqSpec List.dedup ∧ Simplices 4 twoTets ∧ AtMostTwo twoTets ∧ Coherent twoTets ∧
    fromSimplices List.dedup 4 twoTets = .ok (tetsTopo List.dedup) ∧
    ∀ solve : List (List Int) → Option (List Int), isOriented solve (tetsTopo List.dedup) = .ok true →
      isOriented solve (tetsBoundary List.dedup).topo = .ok true →
      boundary solve List.dedup (tetsTopo List.dedup) = .ok (some (tetsBoundary List.dedup)) ∧
      ¬ InOrder (tetsBoundary List.dedup).parentIdx ∧
      ∃ ms, simplicialDual solve List.dedup (tetsTopo List.dedup) = .ok ms ∧
        ∃ out : List (List ℚ), averageDual ms [0, 0, 1, 0, 0, 0, 0, 0] = .ok out ∧
          out[2]? ≠ some (dualLevel (tetsTopo List.dedup).elements (tetsBoundary List.dedup).parentIdx
            (fun _ e => dualCell twoTets (bRows (tetsTopo List.dedup)) e fun j => ([0, 0, 1, 0, 0, 0, 0, 0] : List ℚ)[j]?.getD 0)
            (fun _ e => boundaryCell twoTets (bRows (tetsTopo List.dedup)) e
              fun j => ([0, 0, 1, 0, 0, 0, 0, 0] : List ℚ)[j]?.getD 0) 1) := by
  refine ⟨uniqSpec_dedup, twoTets_simplices, atMostTwo_of_check (by decide +kernel), twoTets_coherent, by decide +kernel, ?_⟩
  intro solve hor hor'
  have hb : boundary solve List.dedup (tetsTopo List.dedup) = .ok (some (tetsBoundary List.dedup)) := by
    rw [boundary_eq hor]
    decide +kernel
  refine ⟨hb, ?_, tetsDual List.dedup, ?_, ?_⟩
  · intro h
    have := h [0, 1, 2, 7, 8, 3, 6, 4, 5] (by decide +kernel)
    exact absurd this (by decide)
  · unfold simplicialDual
    rw [hb]
    simp only [bind, Except.bind, dualMatrices, hor']
    unfold tetsDual
    have hl : (tetsTopo List.dedup).boundary.length = 3 := by decide +kernel
    rw [hl]
    cases hm : (List.range 3).mapM (gluedMatrix (tetsTopo List.dedup) (tetsBoundary List.dedup)) with
    | error e =>
      have : ((List.range 3).mapM (gluedMatrix (tetsTopo List.dedup) (tetsBoundary List.dedup))).toBool = true := by decide +kernel
      rw [hm] at this
      simp [Except.toBool] at this
    | ok ms => rfl
  · have hne : (averageDual (K := ℚ) (tetsDual List.dedup) [0, 0, 1, 0, 0, 0, 0, 0]).toOption.bind (fun o => o[2]?) ≠
        some (dualLevel (tetsTopo List.dedup).elements (tetsBoundary List.dedup).parentIdx
            (fun _ e => dualCell twoTets (bRows (tetsTopo List.dedup)) e fun j => ([0, 0, 1, 0, 0, 0, 0, 0] : List ℚ)[j]?.getD 0)
            (fun _ e => boundaryCell twoTets (bRows (tetsTopo List.dedup)) e
              fun j => ([0, 0, 1, 0, 0, 0, 0, 0] : List ℚ)[j]?.getD 0) 1) := by decide +kernel
    cases hm : averageDual (K := ℚ) (tetsDual List.dedup) [0, 0, 1, 0, 0, 0, 0, 0] with
    | error e =>
      have : (averageDual (K := ℚ) (tetsDual List.dedup) [0, 0, 1, 0, 0, 0, 0, 0]).toBool = true := by decide +kernel
      rw [hm] at this
      simp [Except.toBool] at this
    | ok out =>
      rw [hm] at hne
      exact ⟨out, rfl, hne⟩

/-- C83, a case: two squares meet the hypotheses of the theorem on cubes. -/
theorem C83_case_squares (hsat : SatSpec solve) :
    ∃ t s ms, Cubes 2 [[0, 1, 2, 3], [2, 3, 4, 5]] ∧ fromCubes List.dedup true 2 [[0, 1, 2, 3], [2, 3, 4, 5]] = .ok t ∧
      SidesAtMostTwo 1 [[0, 1, 2, 3], [2, 3, 4, 5]] ∧ cubicalBoundary solve List.dedup t = .ok (some s) ∧
      InOrder s.parentIdx ∧ cubicalDual solve List.dedup t = .ok ms := by
  obtain ⟨hc, hf, h2, -, -, hor⟩ := twoSquares_case hsat
  obtain ⟨t, s, hf', hor', hb, -⟩ := C76_case hsat
  have hord := C83_in_order_squares uniqSpec_dedup hc hf' hb
  have hbb : cubicalBoundary solve List.dedup (builtCubes 2 [[0, 1, 2, 3], [2, 3, 4, 5]]) = .ok (some
      (match subCubes List.dedup 1 (builtCubes 2 [[0, 1, 2, 3], [2, 3, 4, 5]])
    (bRows (builtCubes 2 [[0, 1, 2, 3], [2, 3, 4, 5]])) with | .ok s => s | .error _ => ⟨⟨[], [], []⟩, []⟩)) := by
    rw [cubicalBoundary_eq hor]
    decide +kernel
  obtain rfl := Except.ok.inj (hf.symm.trans hf')
  obtain rfl := Option.some.inj (Except.ok.inj (hbb.symm.trans hb))
  obtain ⟨ms, hms⟩ := C83_exists_cubes (n := 0) uniqSpec_dedup hc hsat hf h2 hb (by
    have hE : (match subCubes List.dedup 1 (builtCubes 2 [[0, 1, 2, 3], [2, 3, 4, 5]])
      (bRows (builtCubes 2 [[0, 1, 2, 3], [2, 3, 4, 5]])) with
      | .ok s => s | .error _ => ⟨⟨[], [], []⟩, []⟩ : Sub).topo.elements[0 + 1]?.getD [] =
      [[0, 1], [2, 0], [1, 3], [5, 4], [4, 2], [3, 5]] := by decide +kernel
    rw [hE]
    have hadj : ∀ {a b : Nat} (e : List Nat), SharedSide 0 [[0, 1], [2, 0], [1, 3], [5, 4], [4, 2], [3, 5]] e a b → SharedSide 0 [[0, 1], [2, 0], [1, 3], [5, 4], [4, 2], [3, 5]] e b a →
        Relation.ReflTransGen (fun a b => ∃ e, SharedSide 0 [[0, 1], [2, 0], [1, 3], [5, 4], [4, 2], [3, 5]] e a b) a b ∧
        Relation.ReflTransGen (fun a b => ∃ e, SharedSide 0 [[0, 1], [2, 0], [1, 3], [5, 4], [4, 2], [3, 5]] e a b) b a :=
      fun e h h' => ⟨.single ⟨e, h⟩, .single ⟨e, h'⟩⟩
    have h01 := hadj (a := 0) (b := 1) [0] (sharedSide_of_check (by decide) (by decide +kernel))
      (sharedSide_of_check (by decide) (by decide +kernel))
    have h02 := hadj (a := 0) (b := 2) [1] (sharedSide_of_check (by decide) (by decide +kernel))
      (sharedSide_of_check (by decide) (by decide +kernel))
    have h14 := hadj (a := 1) (b := 4) [2] (sharedSide_of_check (by decide) (by decide +kernel))
      (sharedSide_of_check (by decide) (by decide +kernel))
    have h25 := hadj (a := 2) (b := 5) [3] (sharedSide_of_check (by decide) (by decide +kernel))
      (sharedSide_of_check (by decide) (by decide +kernel))
    have h43 := hadj (a := 4) (b := 3) [4] (sharedSide_of_check (by decide) (by decide +kernel))
      (sharedSide_of_check (by decide) (by decide +kernel))
    have all : ∀ j < 6, Relation.ReflTransGen (fun a b => ∃ e, SharedSide 0 [[0, 1], [2, 0], [1, 3], [5, 4], [4, 2], [3, 5]] e a b) 0 j ∧
        Relation.ReflTransGen (fun a b => ∃ e, SharedSide 0 [[0, 1], [2, 0], [1, 3], [5, 4], [4, 2], [3, 5]] e a b) j 0 := by
      intro j hj
      interval_cases j
      · exact ⟨.refl, .refl⟩
      · exact h01
      · exact h02
      · exact ⟨(h01.1.trans h14.1).trans h43.1, h43.2.trans (h14.2.trans h01.2)⟩
      · exact ⟨h01.1.trans h14.1, h14.2.trans h01.2⟩
      · exact ⟨h02.1.trans h25.1, h25.2.trans h02.2⟩
    intro j1 h1 j2 h2
    exact (all j1 (by simpa using h1)).2.trans (all j2 (by simpa using h2)).1) hord
  exact ⟨_, _, ms, hc, hf, h2, hb, hord, hms⟩

/-- C83, a case: the surface of a tetrahedron is closed. -/
theorem C83_case_closed : ∃ solve t, SatSpec solve ∧ Simplices 3 [[0, 2, 1], [0, 1, 3], [0, 3, 2], [1, 2, 3]] ∧
    fromSimplices lexRows 3 [[0, 2, 1], [0, 1, 3], [0, 3, 2], [1, 2, 3]] = .ok t ∧ boundary solve lexRows t = .ok none := by
  have hs : Simplices 3 [[0, 2, 1], [0, 1, 3], [0, 3, 2], [1, 2, 3]] := simplices_of_all (by decide)
  have hf : fromSimplices lexRows 3 [[0, 2, 1], [0, 1, 3], [0, 3, 2], [1, 2, 3]] =
      .ok ((fromSimplices lexRows 3 [[0, 2, 1], [0, 1, 3], [0, 3, 2], [1, 2, 3]]).toOption.getD ⟨[], [], []⟩) := by decide +kernel
  obtain ⟨-, wf⟩ := fromSimplices_wf (n := 2) lexRows_spec hs hf
  have hco : Coherent [[0, 2, 1], [0, 1, 3], [0, 3, 2], [1, 2, 3]] := by
    rw [← reorient_false [[0, 2, 1], [0, 1, 3], [0, 3, 2], [1, 2, 3]], ← wf.satisfies_iff_coherent hs (fun _ => false)]
    decide +kernel
  obtain ⟨solve, hsat, hor⟩ := C08_coherent_some_solver lexRows_spec hs hf (by simp) hco
  refine ⟨solve, _, hsat, hs, hf, ?_⟩
  rw [boundary_eq hor, if_pos (by decide +kernel)]

/-- C83, a case: the polygon that `circle` starts from is closed. -/
theorem C83_case_circle (hu : UniqSpec uniq) (hsat : SatSpec solve) :
    ∃ t edges, Cubes 1 edges ∧ fromCubes uniq true 1 edges = .ok t ∧ edges.length = 4 ∧ cubicalBoundary solve uniq t = .ok none := by
  obtain ⟨t, V, edges, c, -, h2, h3, -⟩ := circleLoop_ok (solve := solve) hu hsat 0
  exact ⟨t, edges, h3.cubes (by norm_num), h2, h3.length, h3.closed (by norm_num) hu hsat h2⟩

end Verif.Props
