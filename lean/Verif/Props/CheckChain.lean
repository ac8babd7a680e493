/-
C89: what `check_chain` checks.
-/
import Verif.Model.CheckChain
import Verif.Spec.CheckChain
import Verif.Lemmas.Averaging
import Verif.Props.Simplicial
import Verif.Props.Cubical
import Verif.Props.DualAveraging

set_option linter.unusedSectionVars false

namespace Verif.Props

open Verif.Model Verif.Spec

variable {uniq : List (List Nat) → List (List Nat)} {t : Topo}

theorem nnz_eq_zero {M : Mat Int} : nnz M = 0 ↔ IsZero M := by
  unfold nnz IsZero
  rw [List.length_eq_zero_iff, List.flatMap_eq_nil_iff]
  simp only [List.mem_range, List.filter_eq_nil_iff, decide_eq_true_eq, not_not]

theorem wrap8_zero_iff {x : Int} : wrap8 x = 0 ↔ (256 : Int) ∣ x := by
  unfold wrap8
  omega

theorem mul_entry_product {a b P : Mat Int} (h : a.mul b = .ok P) :
    a.cols = b.rows ∧ P.rows = a.rows ∧ P.cols = b.cols ∧ ∀ r c, P.entry r c = product a b r c := by
  unfold Mat.mul at h
  split at h
  · rename_i hc
    have := Except.ok.inj h
    subst this
    refine ⟨hc, rfl, rfl, fun r c => ?_⟩
    unfold product
    rw [Finset.sum_range]
    simp only
    rw [← List.sum_ofFn]
    congr 1
    exact (List.ofFn_eq_map (n := a.cols) (f := fun m : Fin a.cols => a.entry r m * b.entry m c) ▸ by
      rw [← List.map_coe_finRange_eq_range, List.map_map]; rfl)
  · exact absurd h (by simp)

theorem checkPair_ok {ms : List (Mat Int)} {i : Nat} (hi : i + 1 < ms.length) :
    (ZeroAt 256 ms i → checkPair ms i = .ok ()) ∧ (¬ ZeroAt 256 ms i → checkPair ms i = .error .valueError) := by
  have ha := List.getElem?_eq_getElem (l := ms) (i := i) (by omega)
  have hb := List.getElem?_eq_getElem (l := ms) (i := i + 1) hi
  generalize ms[i] = a at ha
  generalize ms[i + 1] = b at hb
  have hz : ZeroAt 256 ms i ↔ PairZero 256 a b := by
    unfold ZeroAt
    rw [ha, hb]
    exact ⟨fun h => h a b rfl rfl, fun h a' b' h1 h2 => by
      cases h1; cases h2; exact h⟩
  rw [hz]
  unfold checkPair
  rw [ha, hb]
  simp only [bind, Except.bind, mul8]
  by_cases hc : a.cols = b.rows
  · cases hm : a.mul b with
    | error e => unfold Mat.mul at hm; rw [if_pos hc] at hm; exact absurd hm (by simp)
    | ok P =>
      obtain ⟨-, h1, h2, h3⟩ := mul_entry_product hm
      have : nnz ⟨P.rows, P.cols, fun i j => wrap8 (P.entry i j)⟩ = 0 ↔ PairZero 256 a b := by
        rw [nnz_eq_zero]
        unfold IsZero PairZero
        simp only [h1, h2, h3, wrap8_zero_iff, hc, true_and]
      exact ⟨fun h => if_neg (not_not.2 (this.2 h)), fun h => if_pos (mt this.1 h)⟩
  · have hm : a.mul b = .error .valueError := if_neg hc
    rw [hm]
    exact ⟨fun h => absurd h.1 hc, fun _ => rfl⟩

theorem mapM_unit {f : Nat → Except PyErr Unit} {e : PyErr} {Q : Nat → Prop} : ∀ L : List Nat,
    (∀ i ∈ L, (Q i → f i = .ok ()) ∧ (¬ Q i → f i = .error e)) →
    ((∀ i ∈ L, Q i) → ∃ u, L.mapM f = .ok u) ∧ (¬ (∀ i ∈ L, Q i) → L.mapM f = .error e)
  | [], _ => ⟨fun _ => ⟨[], rfl⟩, fun h => absurd (by simp) h⟩
  | a :: L, h => by
    obtain ⟨ih1, ih2⟩ := mapM_unit L fun i hi => h i (List.mem_cons_of_mem _ hi)
    obtain ⟨h1, h2⟩ := h a List.mem_cons_self
    rw [List.mapM_cons]
    by_cases ha : Q a
    · rw [h1 ha]
      constructor
      · intro hall
        obtain ⟨u, hu⟩ := ih1 fun i hi => hall i (List.mem_cons_of_mem _ hi)
        exact ⟨() :: u, by rw [hu]; rfl⟩
      · intro hn
        rw [ih2 fun hall => hn fun i hi => by
          rcases List.mem_cons.1 hi with rfl | hi
          · exact ha
          · exact hall i hi]
        rfl
    · rw [h2 ha]
      exact ⟨fun hall => absurd (hall a List.mem_cons_self) ha, fun _ => rfl⟩

/-- C89: `check_chain` accepts exactly the lists in which every matrix but the last two multiplies with the next one to zero
modulo 256, and raises `ValueError` on all others. -/
theorem C89_exact (ms : List (Mat Int)) :
    (checkChain ms = .ok () ↔ ∀ i, i + 2 < ms.length → ZeroAt 256 ms i) ∧
    (checkChain ms ≠ .ok () → checkChain ms = .error .valueError) := by
  obtain ⟨h1, h2⟩ := mapM_unit (f := checkPair ms) (Q := ZeroAt 256 ms) (e := .valueError) (List.range (ms.length - 2))
    fun i hi => checkPair_ok (by have := List.mem_range.1 hi; omega)
  have hQ : (∀ i ∈ List.range (ms.length - 2), ZeroAt 256 ms i) ↔ ∀ i, i + 2 < ms.length → ZeroAt 256 ms i := by
    simp only [List.mem_range]
    exact ⟨fun h i hi => h i (by omega), fun h i hi => h i (by omega)⟩
  rw [hQ] at h1 h2
  unfold checkChain
  by_cases hall : ∀ i, i + 2 < ms.length → ZeroAt 256 ms i
  · obtain ⟨u, hu⟩ := h1 hall
    rw [hu]
    exact ⟨⟨fun _ => hall, fun _ => rfl⟩, fun h => absurd rfl h⟩
  · rw [h2 hall]
    exact ⟨⟨fun h => absurd h (by simp [bind, Except.bind]), fun h => absurd h hall⟩, fun _ => rfl⟩

/-- C89: chain complexes are accepted. -/
theorem C89_chain_accepted {ms : List (Mat Int)} (h : IsChain ms) : checkChain ms = .ok () :=
  (C89_exact ms).1.2 fun i _ a b ha hb =>
    ⟨(h i a b ha hb).1, fun r hr c hc => by
      rw [Int.zero_dvd.1 ((h i a b ha hb).2 r hr c hc)]
      exact dvd_zero _⟩

/-- C89: a product other than the last one with an entry between -255 and 255 that is not zero is noticed. -/
theorem C89_noticed {ms : List (Mat Int)} {i : Nat} {a b : Mat Int} (hi : i + 2 < ms.length) (ha : ms[i]? = some a)
    (hb : ms[i + 1]? = some b) {r c : Nat} (hr : r < a.rows) (hc : c < b.cols) (hne : product a b r c ≠ 0)
    (hlt : |product a b r c| < 256) : checkChain ms = .error .valueError :=
  (C89_exact ms).2 fun h => hne (Int.eq_zero_of_abs_lt_dvd (((C89_exact ms).1.1 h i hi a b ha hb).2 r hr c hc) hlt)

/-- C89, a finding: the last matrix is never looked at. -/
theorem C89_last_unchecked (ms : List (Mat Int)) (A B : Mat Int) : checkChain (ms ++ [A]) = checkChain (ms ++ [B]) := by
  have h : (∀ i, i + 2 < (ms ++ [A]).length → ZeroAt 256 (ms ++ [A]) i) ↔
      ∀ i, i + 2 < (ms ++ [B]).length → ZeroAt 256 (ms ++ [B]) i := by
    simp only [List.length_append, List.length_singleton]
    refine forall_congr' fun i => imp_congr_right fun hi => ?_
    unfold ZeroAt
    rw [List.getElem?_append_left (by omega), List.getElem?_append_left (by omega), List.getElem?_append_left (by omega),
      List.getElem?_append_left (by omega)]
  by_cases hA : checkChain (ms ++ [A]) = .ok ()
  · rw [hA, (C89_exact _).1.2 (h.1 ((C89_exact _).1.1 hA))]
  · have hB : checkChain (ms ++ [B]) ≠ .ok () := fun hB => hA ((C89_exact _).1.2 (h.2 ((C89_exact _).1.1 hB)))
    rw [(C89_exact _).2 hA, (C89_exact _).2 hB]

/-- C89, a finding: nothing is checked on complexes of at most two dimensions. -/
theorem C89_two_unchecked (ms : List (Mat Int)) (h : ms.length ≤ 2) : checkChain ms = .ok () :=
  (C89_exact ms).1.2 fun i hi => absurd hi (by omega)

theorem chain_of_products {n : Nat} {m : Nat → Mat Int}
    (h : ∀ k, k + 1 < n → ∃ M, (m k).mul (m (k + 1)) = .ok M ∧ IsZero M) : IsChain ((List.range n).map m) := by
  intro i a b ha hb
  rw [List.getElem?_map] at ha hb
  obtain ⟨_, hi, rfl⟩ := Option.map_eq_some_iff.1 ha
  obtain ⟨_, hi', rfl⟩ := Option.map_eq_some_iff.1 hb
  obtain ⟨_, rfl⟩ := List.getElem?_eq_some_iff.1 hi
  obtain ⟨hlt, rfl⟩ := List.getElem?_eq_some_iff.1 hi'
  rw [List.length_range] at hlt
  rw [List.getElem_range, List.getElem_range]
  obtain ⟨M, hM, hz⟩ := h i hlt
  obtain ⟨h1, h2, h3, h4⟩ := mul_entry_product hM
  refine ⟨h1, fun r hr c hc => ?_⟩
  rw [← h4, hz r (by omega) c (by omega)]

/-- C89: every simplicial topology passes. -/
theorem C89_simplicial {nCorners : Nat} {simplices : List (List Nat)} (hu : UniqSpec uniq)
    (hs : Simplices nCorners simplices) (h : fromSimplices uniq nCorners simplices = .ok t) :
    checkChain t.matrices = .ok () := by
  refine C89_chain_accepted (chain_of_products fun k hk => ?_)
  obtain ⟨M, hM, -, -, hz⟩ := C03_boundary_of_boundary hu hs h k hk
  exact ⟨M, hM, hz⟩

/-- C89: every cubical topology with `mirror=True` passes. -/
theorem C89_cubical {n : Nat} {cubes : List (List Nat)} (hu : UniqSpec uniq) (hc : Cubes n cubes)
    (h : fromCubes uniq true n cubes = .ok t) : checkChain t.matrices = .ok () := by
  refine C89_chain_accepted (chain_of_products fun k hk => ?_)
  obtain ⟨M, hM, -, -, hz⟩ := C19_boundary_of_boundary hu hc h k hk
  exact ⟨M, hM, hz⟩

/-- C89: so does the dual of a closed simplicial topology. -/
theorem C89_closed_dual {nCorners : Nat} {simplices : List (List Nat)} {solve : List (List Int) → Option (List Int)}
    (hu : UniqSpec uniq) (hs : Simplices nCorners simplices) (h : fromSimplices uniq nCorners simplices = .ok t)
    (hb : boundary solve uniq t = .ok none) : ∃ ms, simplicialDual solve uniq t = .ok ms ∧ checkChain ms = .ok () := by
  obtain ⟨n, rfl, hn, wf⟩ := wf_of_ok hu hs h
  refine ⟨((List.range t.boundary.length).map (closedDualMatrix t)).reverse, ?_, ?_⟩
  · unfold simplicialDual
    rw [hb]
    rfl
  · have hrev : ((List.range t.boundary.length).map (closedDualMatrix t)).reverse =
        (List.range t.boundary.length).map fun j => closedDualMatrix t (t.boundary.length - 1 - j) := by
      apply List.ext_getElem
      · simp
      · intro i h1 h2
        simp
    rw [hrev]
    refine C89_chain_accepted (chain_of_products fun k hk => ?_)
    have hl := wf.lenB
    obtain ⟨P, hP, -, -, hz⟩ := C13_closed_dual hu hs h (k := t.boundary.length - 1 - (k + 1)) (by omega)
    refine ⟨P, ?_, hz⟩
    rw [show t.boundary.length - 1 - k = t.boundary.length - 1 - (k + 1) + 1 by omega]
    exact hP

/-- C89: on the dual of a mesh with a boundary the test can fail in three dimensions, see C13: two tetrahedra that share a
face, with distinct rows in lexicographic order. -/
theorem C89_open_dual {solve : List (List Int) → Option (List Int)} (hsat : SatSpec solve) :
    ∃ t ms, fromSimplices lexRows 4 twoTets = .ok t ∧ simplicialDual solve lexRows t = .ok ms ∧
      checkChain ms = .error .valueError := by
  obtain ⟨t, s, ms, -, -, -, hf, -, hb, -, -, hms⟩ := C83_case hsat
  have hf' : fromSimplices lexRows 4 twoTets = .ok (tetsTopo lexRows) := by decide +kernel
  have ht : t = tetsTopo lexRows := Except.ok.inj (hf.symm.trans hf')
  subst ht
  have hb' : boundary solve lexRows (tetsTopo lexRows) = .ok (some (tetsBoundary lexRows)) := by
    rw [boundary_eq (oriented_of_boundary hb)]
    decide +kernel
  refine ⟨_, ms, hf, hms, ?_⟩
  have hdual : ms = tetsDual lexRows := by
    unfold simplicialDual at hms
    rw [hb'] at hms
    simp only [bind, Except.bind, dualMatrices] at hms
    have hl : (tetsTopo lexRows).boundary.length = 3 := by decide +kernel
    rw [hl] at hms
    unfold tetsDual
    cases ho : isOriented solve (tetsBoundary lexRows).topo with
    | error e => rw [ho] at hms; simp at hms
    | ok o =>
      rw [ho] at hms
      cases o
      · simp at hms
      · cases hm : (List.range 3).mapM (gluedMatrix (tetsTopo lexRows) (tetsBoundary lexRows)) with
        | error e => rw [hm] at hms; simp at hms
        | ok L => rw [hm] at hms; simpa using hms.symm
  rw [hdual]
  decide +kernel

/-- a case: the matrices of two tetrahedra; three matrices of which the last two do not fit, and three of which the first two do
not -/
theorem C89_case : UniqSpec List.dedup ∧ Simplices 4 twoTets ∧
    fromSimplices List.dedup 4 twoTets = .ok (tetsTopo List.dedup) ∧ (tetsTopo List.dedup).matrices.length = 3 ∧
    checkChain [⟨1, 1, fun _ _ => 0⟩, ⟨1, 1, fun _ _ => 1⟩, ⟨1, 1, fun _ _ => 1⟩] = .ok () ∧
    ¬ IsChain [⟨1, 1, fun _ _ => 0⟩, ⟨1, 1, fun _ _ => 1⟩, ⟨1, 1, fun _ _ => 1⟩] ∧
    checkChain [⟨1, 1, fun _ _ => 1⟩, ⟨1, 1, fun _ _ => 1⟩, ⟨1, 1, fun _ _ => 0⟩] = .error .valueError := by
  refine ⟨uniqSpec_dedup, twoTets_simplices, by decide +kernel, by decide +kernel, by decide +kernel, fun h => ?_, by decide +kernel⟩
  have := (h 1 _ _ rfl rfl).2 0 (by decide) 0 (by decide)
  simp [product] at this

end Verif.Props
