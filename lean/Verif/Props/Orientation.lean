/-
C07, C08: `relative_parity`, `fix_orientation` and `is_oriented`.
-/
import Verif.Lemmas.Orientation
import Verif.Props.Simplicial
import Mathlib.Tactic.IntervalCases

namespace Verif.Props

open Verif.Model Verif.Spec

variable {uniq : List (List Nat) → List (List Nat)} {nCorners : Nat}
  {simplices : List (List Nat)} {t t' : Topo} {solve : List (List Int) → Option (List Int)}

/-- what `relative_parity` computes, by cases -/
theorem relativeParity_cases {m : Nat} {top : List (List Nat)} (h : WF (m + 1) top t)
    (htop : Simplices (m + 2) top) (hsat : SatSpec solve) :
    ((∀ e j j', ¬ SharedFace top e j j') ∧
      relativeParity solve t = .ok (List.replicate top.length false)) ∨
    ((∃ e j j', SharedFace top e j j') ∧
      ((¬ Orientable top ∧ relativeParity solve t = .error .valueError) ∨
       ∃ σ : Nat → Bool, Coherent (reorient (fun j => σ (j + 1)) top) ∧
        relativeParity solve t = .ok ((List.range (WF.nVars t m)).map fun v => !σ (v + 1)))) := by
  have hlen : t.boundary.length = m + 1 := h.lenB
  by_cases hc : interiorClauses (t.matrix m) = []
  · left
    refine ⟨(h.interiorClauses_eq_nil htop).1 hc, ?_⟩
    unfold relativeParity
    simp [hlen, hc, h.nTop]
  · right
    refine ⟨?_, ?_⟩
    · by_contra hno
      push Not at hno
      exact hc ((h.interiorClauses_eq_nil htop).2 hno)
    · have hrp : relativeParity solve t = match solve (allClauses (t.matrix m)) with
          | none => .error .valueError
          | some m => .ok (m.map orientationToParity) := by
        unfold relativeParity allClauses
        simp only [hlen, hc, Nat.add_sub_cancel, if_false, Nat.add_one_ne_zero]
        rfl
      obtain ⟨hok, hno⟩ := hsat (allClauses (t.matrix m)) (h.allClauses_ne_zero htop)
      cases hs : solve (allClauses (t.matrix m)) with
      | none =>
        left
        refine ⟨?_, by rw [hrp, hs]⟩
        rintro ⟨flip, hf⟩
        apply hno hs
        refine ⟨fun v => flip (v - 1), (h.satisfies_iff_coherent htop _).2 ?_⟩
        simpa using hf
      | some a =>
        right
        obtain ⟨σ, hm, hσ⟩ := hok a hs
        refine ⟨σ, (h.satisfies_iff_coherent htop σ).1 hσ, ?_⟩
        rw [hrp, hs, hm]
        simp only [List.map_map]
        congr 1
        apply List.map_congr_left
        intro v _
        simp only [Function.comp, orientationToParity]
        by_cases hb : σ (v + 1) = true
        · simp [hb]; omega
        · simp [hb]; omega

theorem two_le_nVars {m : Nat} {top : List (List Nat)} (h : WF (m + 1) top t)
    (htop : Simplices (m + 2) top) {e : List Nat} {j j' : Nat} (hsh : SharedFace top e j j') :
    2 ≤ WF.nVars t m := by
  have h1 : j + 1 ≤ WF.nVars t m := le_foldl_max ((h.var_iff htop j).2 ⟨e, j', hsh⟩)
  have h2 : j' + 1 ≤ WF.nVars t m :=
    le_foldl_max ((h.var_iff htop j').2 ⟨e, j, sharedFace_symm hsh⟩)
  have := hsh.1
  omega

theorem two_le_length {top : List (List Nat)} {e : List Nat} {j j' : Nat}
    (hsh : SharedFace top e j j') : 2 ≤ top.length := by
  obtain ⟨h1, h2, h3, -⟩ := hsh
  omega

theorem zipWith_pick (σ : Nat → Bool) (top : List (List Nat)) :
    List.zipWith (fun p e => if p then e else swap01 e)
      ((List.range top.length).map fun v => !σ v) top = reorient σ top := by
  apply List.ext_getElem?
  intro j
  rw [reorient_getElem?, List.getElem?_zipWith, List.getElem?_map]
  by_cases hj : j < top.length
  · rw [List.getElem?_range hj, List.getElem?_eq_getElem hj]
    simp only [Option.map_some]
    cases σ j <;> simp
  · rw [List.getElem?_eq_none (l := top) (by omega)]
    simp

theorem reorient_simplices {m : Nat} {top : List (List Nat)} (hs : Simplices m top)
    (flip : Nat → Bool) : Simplices m (reorient flip top) := by
  intro l hl
  obtain ⟨j, hj⟩ := List.mem_iff_getElem?.1 hl
  rw [reorient_getElem?] at hj
  obtain ⟨l0, h0, rfl⟩ := Option.map_eq_some_iff.1 hj
  have := hs l0 (List.mem_of_getElem? h0)
  split
  · exact ⟨(swap01_perm l0).length_eq.trans this.1, (swap01_perm l0).nodup_iff.2 this.2⟩
  · exact this

theorem reorient_mem {top : List (List Nat)} (flip : Nat → Bool) (v : Nat) :
    (∃ l ∈ reorient flip top, v ∈ l) ↔ ∃ l ∈ top, v ∈ l := by
  constructor
  · rintro ⟨l, hl, hv⟩
    obtain ⟨j, hj⟩ := List.mem_iff_getElem?.1 hl
    rw [reorient_getElem?] at hj
    obtain ⟨l0, h0, rfl⟩ := Option.map_eq_some_iff.1 hj
    refine ⟨l0, List.mem_of_getElem? h0, ?_⟩
    split at hv
    · exact (swap01_perm l0).mem_iff.1 hv
    · exact hv
  · rintro ⟨l, hl, hv⟩
    obtain ⟨j, hj⟩ := List.mem_iff_getElem?.1 hl
    refine ⟨if flip j then swap01 l else l, List.mem_iff_getElem?.2 ⟨j, ?_⟩, ?_⟩
    · rw [reorient_getElem?, hj]; rfl
    · split
      · exact (swap01_perm l).mem_iff.2 hv
      · exact hv

/-! ## C07 -/

/-- C07, failure: for every correct solver, `relative_parity` raises exactly when no choice of
orientations is coherent. -/
theorem C07_relative_parity_fails_iff (hu : UniqSpec uniq) (hs : Simplices nCorners simplices)
    (hsat : SatSpec solve) (h : fromSimplices uniq nCorners simplices = .ok t) :
    (∃ err, relativeParity solve t = .error err) ↔ ¬ Orientable simplices := by
  obtain ⟨n, rfl, hn, wf⟩ := wf_of_ok hu hs h
  obtain ⟨m, rfl⟩ : ∃ m, n = m + 1 := ⟨n - 1, by omega⟩
  rcases relativeParity_cases wf hs hsat with ⟨hno, hr⟩ | ⟨-, ⟨hor, hr⟩ | ⟨σ, hco, hr⟩⟩
  · rw [hr]
    refine ⟨fun ⟨_, h0⟩ => by simp at h0, fun hn => absurd ⟨fun _ => false, ?_⟩ hn⟩
    intro e j1 j2 l1 l2 h1 h2 hsh
    exact absurd ((sharedFace_reorient hs _ e j1 j2).1 hsh) (hno e j1 j2)
  · rw [hr]
    exact ⟨fun _ => hor, fun _ => ⟨_, rfl⟩⟩
  · rw [hr]
    exact ⟨fun ⟨_, h0⟩ => by simp at h0, fun hn => absurd ⟨_, hco⟩ hn⟩

/-- C07, success: whatever a correct solver answers, if `fix_orientation` returns a mesh, then its
simplices are those of the input in the same order, each either kept or reversed, and they are
coherently oriented. -/
theorem C07_fix_orientation_coherent (hu : UniqSpec uniq) (hs : Simplices nCorners simplices)
    (hsat : SatSpec solve) (h : fromSimplices uniq nCorners simplices = .ok t)
    (h' : fixOrientation solve uniq t = .ok t') :
    ∃ flip : Nat → Bool, t'.elements[nCorners - 1]? = some (reorient flip simplices) ∧
      Coherent (reorient flip simplices) := by
  obtain ⟨n, rfl, hn, wf⟩ := wf_of_ok hu hs h
  obtain ⟨m, rfl⟩ : ∃ m, n = m + 1 := ⟨n - 1, by omega⟩
  have hlen : t.boundary.length = m + 1 := wf.lenB
  have finish : ∀ flip, fromSimplices uniq (m + 1 + 1) (reorient flip simplices) = .ok t' →
      t'.elements[m + 1 + 1 - 1]? = some (reorient flip simplices) := by
    intro flip hf
    obtain ⟨n', hn', -, wf'⟩ := wf_of_ok hu (reorient_simplices hs flip) hf
    have : n' = m + 1 := by omega
    subst this
    exact wf'.top_eq
  have hunf : ∀ p, relativeParity solve t = .ok p →
      ∃ rows, whereRows p simplices = .ok rows ∧ fromSimplices uniq (m + 1 + 1) rows = .ok t' := by
    intro p hp
    unfold fixOrientation at h'
    rw [hp] at h'
    simp only [bind, Except.bind, hlen, wf.top_eq, Option.getD_some] at h'
    cases hw : whereRows p simplices with
    | error e => rw [hw] at h'; simp at h'
    | ok rows => rw [hw] at h'; exact ⟨rows, rfl, h'⟩
  rcases relativeParity_cases wf hs hsat with ⟨hno, hr⟩ | ⟨⟨e, j, j', hsh⟩, ⟨-, hr⟩ | ⟨σ, hco, hr⟩⟩
  · obtain ⟨rows, hw, hf⟩ := hunf _ hr
    have : rows = reorient (fun _ => true) simplices := by
      unfold whereRows at hw
      rw [if_pos (by simp)] at hw
      rw [← Except.ok.inj hw, ← zipWith_pick]
      simp
    subst this
    refine ⟨_, finish _ hf, ?_⟩
    intro e j1 j2 l1 l2 h1 h2 hsh
    exact absurd ((sharedFace_reorient hs _ e j1 j2).1 hsh) (hno e j1 j2)
  · unfold fixOrientation at h'
    rw [hr] at h'
    simp [bind, Except.bind] at h'
  · obtain ⟨rows, hw, hf⟩ := hunf _ hr
    have h2 := two_le_nVars wf hs hsh
    have h3 := two_le_length hsh
    have : rows = reorient (fun j => σ (j + 1)) simplices := by
      unfold whereRows at hw
      simp only [List.length_map, List.length_range] at hw
      split at hw
      · next hl =>
        rw [← Except.ok.inj hw, ← zipWith_pick, hl]
      · rw [if_neg (by omega), if_neg (by omega)] at hw
        simp at hw
    subst this
    exact ⟨_, finish _ hf, hco⟩

/-- an orientable mesh whose last simplex has a neighbour, or which has
no shared faces at all, is always accepted. The hypothesis on the last simplex is needed, see
`C07_loose_last_rejected`. -/
theorem fix_orientation_succeeds (hu : UniqSpec uniq)
    (hs : Simplices nCorners simplices)
    (hsat : SatSpec solve) (h : fromSimplices uniq nCorners simplices = .ok t)
    (hor : Orientable simplices)
    (hlast : (∀ e j j', ¬ SharedFace simplices e j j') ∨
      ∃ e j', SharedFace simplices e (simplices.length - 1) j') :
    ∃ t', fixOrientation solve uniq t = .ok t' := by
  obtain ⟨n, rfl, hn, wf⟩ := wf_of_ok hu hs h
  obtain ⟨m, rfl⟩ : ∃ m, n = m + 1 := ⟨n - 1, by omega⟩
  have hlen : t.boundary.length = m + 1 := wf.lenB
  have acc : ∀ flip, ∃ t', fromSimplices uniq (m + 1 + 1) (reorient flip simplices) = .ok t' := by
    intro flip
    obtain ⟨M, hM⟩ := (C03_accepts_iff hu hs).1 ⟨t, h⟩
    exact (C03_accepts_iff hu (reorient_simplices hs flip)).2
      ⟨M, fun v => (reorient_mem flip v).trans (hM v)⟩
  have fin : ∀ p (flip : Nat → Bool), relativeParity solve t = .ok p → p.length = simplices.length →
      p = (List.range simplices.length).map (fun v => !flip v) →
      ∃ t', fixOrientation solve uniq t = .ok t' := by
    intro p flip hp hl hpf
    obtain ⟨t', ht'⟩ := acc flip
    refine ⟨t', ?_⟩
    unfold fixOrientation
    rw [hp]
    simp only [bind, Except.bind, hlen, wf.top_eq, Option.getD_some]
    unfold whereRows
    simp only
    rw [if_pos hl, hpf, zipWith_pick]
    exact ht'
  rcases relativeParity_cases wf hs hsat with ⟨hno, hr⟩ | ⟨⟨e, j, j', hsh⟩, ⟨hnor, hr⟩ | ⟨σ, hco, hr⟩⟩
  · exact fin _ (fun _ => true) hr (by simp) (by simp)
  · exact absurd hor hnor
  · have hne : simplices ≠ [] := by
      intro h0; have := two_le_length hsh; rw [h0] at this; simp at this
    have hnv : WF.nVars t m = simplices.length := by
      rw [wf.nVars_eq_iff hs hne]
      rcases hlast with h0 | h0
      · exact absurd hsh (h0 e j j')
      · exact h0
    exact fin _ (fun v => σ (v + 1)) hr (by simp [hnv]) (by rw [hnv])

/-- C07, disagreement with the documentation: if some face is shared but the *last* simplex of the
list has no neighbour, `fix_orientation` raises `ValueError` for every correct solver, even
though the mesh may be orientable. -/
theorem C07_loose_last_rejected (hu : UniqSpec uniq) (hs : Simplices nCorners simplices)
    (hsat : SatSpec solve) (h : fromSimplices uniq nCorners simplices = .ok t)
    (hsome : ∃ e j j', SharedFace simplices e j j')
    (hlast : ∀ e j', ¬ SharedFace simplices e (simplices.length - 1) j') :
    fixOrientation solve uniq t = .error .valueError := by
  obtain ⟨n, rfl, hn, wf⟩ := wf_of_ok hu hs h
  obtain ⟨m, rfl⟩ : ∃ m, n = m + 1 := ⟨n - 1, by omega⟩
  have hlen : t.boundary.length = m + 1 := wf.lenB
  rcases relativeParity_cases wf hs hsat with ⟨hno, hr⟩ | ⟨⟨e, j, j', hsh⟩, ⟨hnor, hr⟩ | ⟨σ, hco, hr⟩⟩
  · obtain ⟨e, j, j', hsh⟩ := hsome
    exact absurd hsh (hno e j j')
  · unfold fixOrientation
    rw [hr]; rfl
  · have h2 := two_le_nVars wf hs hsh
    have h3 := two_le_length hsh
    have hne : simplices ≠ [] := by
      intro h0; rw [h0] at h3; simp at h3
    have hnv : WF.nVars t m ≠ simplices.length := by
      rw [Ne, wf.nVars_eq_iff hs hne]
      rintro ⟨e, j', hh⟩
      exact hlast e j' hh
    unfold fixOrientation
    rw [hr]
    simp only [bind, Except.bind, hlen, wf.top_eq, Option.getD_some]
    unfold whereRows
    simp only [List.length_map, List.length_range]
    rw [if_neg hnv, if_neg (by omega), if_neg (by omega)]

/-- C07, exact success condition: `fix_orientation` returns a mesh if and only if the input is
orientable and, unless no face is shared at all, the last simplex has a neighbour. The second
condition is not in the documentation (see `C07_orientable_but_rejected`). -/
theorem C07_fix_orientation_succeeds_iff (hu : UniqSpec uniq)
    (hs : Simplices nCorners simplices)
    (hsat : SatSpec solve) (h : fromSimplices uniq nCorners simplices = .ok t) :
    (∃ t', fixOrientation solve uniq t = .ok t') ↔ Orientable simplices ∧
      ((∀ e j j', ¬ SharedFace simplices e j j') ∨
        ∃ e j', SharedFace simplices e (simplices.length - 1) j') := by
  constructor
  · rintro ⟨t', ht'⟩
    obtain ⟨flip, -, hco⟩ := C07_fix_orientation_coherent hu hs hsat h ht'
    refine ⟨⟨flip, hco⟩, ?_⟩
    by_contra hno
    push Not at hno
    have := C07_loose_last_rejected hu hs hsat h hno.1 hno.2
    rw [this] at ht'
    simp at ht'
  · rintro ⟨h1, h2⟩
    exact fix_orientation_succeeds hu hs hsat h h1 h2

/-! ## C08 -/

theorem reorient_false (rows : List (List Nat)) : reorient (fun _ => false) rows = rows := by
  apply List.ext_getElem?
  intro j
  rw [reorient_getElem?]
  simp

theorem coherent_iff {m : Nat} (hm : 2 ≤ m) {rows : List (List Nat)} (hs : Simplices m rows) :
    Coherent rows ↔ ∀ e j1 j2 l1 l2, rows[j1]? = some l1 → rows[j2]? = some l2 →
      SharedFace rows e j1 j2 → inducedSign e l1 + inducedSign e l2 = 0 := by
  have := coherent_reorient_iff hm hs (fun _ => false)
  rw [reorient_false] at this
  rw [this]
  simp [flipSign]

theorem allEqual_map (n : Nat) (f : Nat → Bool) :
    allEqual ((List.range n).map f) = true ↔ ∀ i < n, ∀ j < n, f i = f j := by
  cases n with
  | zero => simp [allEqual]
  | succ n =>
    rw [List.range_succ_eq_map, List.map_cons]
    unfold allEqual
    simp only [List.map_map, List.all_eq_true, List.mem_map, List.mem_range, Function.comp,
      forall_exists_index, and_imp, forall_apply_eq_imp_iff₂, beq_iff_eq]
    constructor
    · intro h
      have h0 : ∀ i < n + 1, f i = f 0 := by
        intro i hi
        cases i with
        | zero => rfl
        | succ i => exact h i (by omega)
      intro i hi j hj
      rw [h0 i hi, h0 j hj]
    · intro h i hi
      exact h (i + 1) (by omega) 0 (by omega)

theorem isOriented_of {p : List Bool} (h : relativeParity solve t = .ok p) :
    isOriented solve t = .ok (allEqual p) := by
  unfold isOriented; rw [h]; rfl

/-- C08, soundness, no connectivity needed: if `is_oriented` says `True` then the mesh is
coherently oriented. -/
theorem C08_true_sound (hu : UniqSpec uniq) (hs : Simplices nCorners simplices)
    (hsat : SatSpec solve) (h : fromSimplices uniq nCorners simplices = .ok t)
    (ho : isOriented solve t = .ok true) : Coherent simplices := by
  obtain ⟨n, rfl, hn, wf⟩ := wf_of_ok hu hs h
  obtain ⟨m, rfl⟩ : ∃ m, n = m + 1 := ⟨n - 1, by omega⟩
  rcases relativeParity_cases wf hs hsat with ⟨hno, hr⟩ | ⟨-, ⟨hor, hr⟩ | ⟨σ, hco, hr⟩⟩
  · intro e j1 j2 l1 l2 h1 h2 hsh
    exact absurd hsh (hno e j1 j2)
  · unfold isOriented at ho
    rw [hr] at ho
    simp [bind, Except.bind] at ho
  · rw [isOriented_of hr] at ho
    have hall := (allEqual_map _ _).1 (Except.ok.inj ho)
    intro e j1 j2 l1 l2 h1 h2 hsh
    have hc := (coherent_reorient_iff (by omega) hs _).1 hco e j1 j2 l1 l2 h1 h2 hsh
    have b1 : j1 + 1 ≤ WF.nVars t m := le_foldl_max ((wf.var_iff hs j1).2 ⟨e, j2, hsh⟩)
    have b2 : j2 + 1 ≤ WF.nVars t m :=
      le_foldl_max ((wf.var_iff hs j2).2 ⟨e, j1, sharedFace_symm hsh⟩)
    have heq := hall j1 (by omega) j2 (by omega)
    have : σ (j1 + 1) = σ (j2 + 1) := by simpa using heq
    rw [this] at hc
    unfold flipSign at hc
    split at hc <;> linarith

/-- C08: on a mesh connected through shared faces, `is_oriented` returns `True` exactly when the
mesh is coherently oriented, whatever the solver answers. -/
theorem C08_connected_exact (hu : UniqSpec uniq) (hs : Simplices nCorners simplices)
    (hsat : SatSpec solve) (h : fromSimplices uniq nCorners simplices = .ok t)
    (hne : simplices ≠ []) (hcon : Connected simplices) :
    isOriented solve t = .ok true ↔ Coherent simplices := by
  refine ⟨C08_true_sound hu hs hsat h, fun hcoh => ?_⟩
  obtain ⟨n, rfl, hn, wf⟩ := wf_of_ok hu hs h
  obtain ⟨m, rfl⟩ : ∃ m, n = m + 1 := ⟨n - 1, by omega⟩
  rcases relativeParity_cases wf hs hsat with ⟨hno, hr⟩ | ⟨-, ⟨hor, hr⟩ | ⟨σ, hco, hr⟩⟩
  · rw [isOriented_of hr]
    obtain ⟨a, rest, rfl⟩ := List.exists_cons_of_ne_nil hne
    simp [allEqual, List.replicate_succ]
  · exact absurd ⟨fun _ => false, by rw [reorient_false]; exact hcoh⟩ hor
  · rw [isOriented_of hr]
    congr 1
    rw [allEqual_map]
    have hadj : ∀ j1 j2, Adjacent simplices j1 j2 → σ (j1 + 1) = σ (j2 + 1) := by
      rintro j1 j2 ⟨e, hsh⟩
      have h1 := List.getElem?_eq_getElem hsh.2.1
      have h2 := List.getElem?_eq_getElem hsh.2.2.1
      have c1 := hcoh e j1 j2 _ _ h1 h2 hsh
      have c2 := (coherent_reorient_iff (by omega) hs _).1 hco e j1 j2 _ _ h1 h2 hsh
      have hf := (hsh.2.2.2 j1 _ h1).2 (Or.inl rfl)
      have hl := (hs _ (List.mem_of_getElem? h1)).2
      have hen : e.Nodup := by
        obtain ⟨c, hc, hp⟩ := hf
        exact hp.nodup_iff.2 (hl.sublist (List.eraseIdx_sublist _ _))
      have hs1 := (inducedSign_ne_zero hen hl).2 hf
      unfold flipSign at c2
      cases hb1 : σ (j1 + 1) <;> cases hb2 : σ (j2 + 1) <;> simp [hb1, hb2] at c2 ⊢ <;> omega
    have hall : ∀ j1 j2, Relation.ReflTransGen (Adjacent simplices) j1 j2 →
        σ (j1 + 1) = σ (j2 + 1) := by
      intro j1 j2 hr
      induction hr with
      | refl => rfl
      | tail _ hb ih => exact ih.trans (hadj _ _ hb)
    have hle := wf.nVars_le hs
    intro i hi j hj
    rw [hall i j (hcon i (by omega) j (by omega))]

/-! ## witnesses -/

/-- correct solvers exist -/
theorem exists_satSolver : ∃ solve, SatSpec solve := by
  classical
  refine ⟨fun clauses => if h : ∃ σ : Nat → Bool, ∀ c ∈ clauses, Satisfies σ c then
    some ((List.range ((clauses.flatten.map Int.natAbs).foldl max 0)).map
        (fun v => if h.choose (v + 1) then ((v : Int) + 1) else -((v : Int) + 1))) else none, ?_⟩
  intro clauses _
  constructor
  · intro m hm
    simp only at hm
    by_cases h : ∃ σ : Nat → Bool, ∀ c ∈ clauses, Satisfies σ c
    · rw [dif_pos h] at hm
      exact ⟨h.choose, (Option.some.inj hm).symm, h.choose_spec⟩
    · rw [dif_neg h] at hm
      simp at hm
  · intro hm
    simp only at hm
    by_contra h
    rw [dif_pos h] at hm
    simp at hm

/-- a correct solver may be asked to give one particular correct answer to one problem -/
theorem satSolver_with (C : List (List Int)) (σ : Nat → Bool)
    (hσ : ∀ c ∈ C, Satisfies σ c) :
    ∃ solve, SatSpec solve ∧ solve C = some ((List.range ((C.flatten.map Int.natAbs).foldl max 0)).map
        (fun v => if σ (v + 1) then ((v : Int) + 1) else -((v : Int) + 1))) := by
  obtain ⟨s0, h0⟩ := exists_satSolver
  refine ⟨fun c => if c = C then some ((List.range ((C.flatten.map Int.natAbs).foldl max 0)).map
        (fun v => if σ (v + 1) then ((v : Int) + 1) else -((v : Int) + 1))) else s0 c, ?_, by simp⟩
  intro clauses hz
  by_cases hC : clauses = C
  · subst hC
    simp only [if_true]
    exact ⟨fun m hm => ⟨σ, (Option.some.inj hm).symm, hσ⟩, by simp⟩
  · simp only [hC, if_false]
    exact h0 clauses hz

/-- two triangles on a common edge, listed with clashing orientations, and a disjoint copy -/
def clashing : List (List Nat) := [[0, 1, 2], [1, 2, 3], [4, 5, 6], [5, 6, 7]]

/-- the same mesh, coherently oriented -/
def pairs2 : List (List Nat) := [[0, 1, 2], [2, 1, 3], [4, 5, 6], [6, 5, 7]]

/-- a strip of two triangles followed by a loose one -/
def looseLast : List (List Nat) := [[0, 1, 2], [2, 1, 3], [4, 5, 6]]

theorem simplices_of_all {n : Nat} {rows : List (List Nat)}
    (h : rows.all (fun l => l.length == n && decide l.Nodup) = true) : Simplices n rows := by
  intro l hl
  have := List.all_eq_true.1 h l hl
  simp only [Bool.and_eq_true, beq_iff_eq, decide_eq_true_eq] at this
  exact this

/-- the topology built from a concrete mesh -/
def built (n : Nat) (rows : List (List Nat)) : Topo :=
  match fromSimplices List.dedup n rows with
  | .ok t => t
  | .error _ => ⟨[], [], []⟩

instance (σ : Nat → Bool) (c : List Int) : Decidable (Satisfies σ c) := by
  unfold Satisfies; infer_instance

theorem built_clashing : fromSimplices List.dedup 3 clashing = .ok (built 3 clashing) := by
  decide +kernel

theorem built_pairs2 : fromSimplices List.dedup 3 pairs2 = .ok (built 3 pairs2) := by
  decide +kernel

theorem built_looseLast : fromSimplices List.dedup 3 looseLast = .ok (built 3 looseLast) := by
  decide +kernel

theorem wf_built {rows : List (List Nat)} (hs : Simplices 3 rows)
    (h : fromSimplices List.dedup 3 rows = .ok (built 3 rows)) : WF 2 rows (built 3 rows) := by
  obtain ⟨n, hn, -, wf⟩ := wf_of_ok uniqSpec_dedup hs h
  have : n = 2 := by omega
  subst this
  exact wf

/-- C08, for the record: on any coherently oriented mesh at least one correct solver makes
`is_oriented` return `True` (with several components another one may not, see
`C08_disconnected_not_exact`). -/
theorem C08_coherent_some_solver (hu : UniqSpec uniq) (hs : Simplices nCorners simplices)
    (h : fromSimplices uniq nCorners simplices = .ok t) (hne : simplices ≠ [])
    (hco : Coherent simplices) : ∃ solve, SatSpec solve ∧ isOriented solve t = .ok true := by
  obtain ⟨n, rfl, hn, wf⟩ := wf_of_ok hu hs h
  obtain ⟨m, rfl⟩ : ∃ m, n = m + 1 := ⟨n - 1, by omega⟩
  obtain ⟨solve, hsat, hsol⟩ := satSolver_with (allClauses (t.matrix m)) (fun _ => false) (by
    refine (wf.satisfies_iff_coherent hs (fun _ => false)).2 ?_
    rw [reorient_false]
    exact hco)
  refine ⟨solve, hsat, ?_⟩
  have hb : t.boundary.length = m + 1 := wf.lenB
  by_cases hc : interiorClauses (t.matrix m) = []
  · have hrp : relativeParity solve t = .ok (List.replicate simplices.length false) := by
      unfold relativeParity
      simp only [hb, Nat.add_sub_cancel, hc, Topo.nElements, wf.top_eq, Option.getD_some]
      simp
    rw [isOriented_of hrp]
    obtain ⟨a, rest, rfl⟩ := List.exists_cons_of_ne_nil hne
    simp [allEqual, List.replicate_succ]
  · have hrp : relativeParity solve t = .ok ((List.range (((allClauses (t.matrix m)).flatten.map
        Int.natAbs).foldl max 0)).map fun _ => true) := by
      unfold relativeParity
      simp only [hb, Nat.add_sub_cancel, hc, if_false, Nat.add_eq_zero_iff, one_ne_zero, and_false]
      unfold allClauses at hsol ⊢
      rw [hsol]
      simp only [List.map_map]
      congr 1
      apply List.map_congr_left
      intro v _
      simp only [Function.comp, orientationToParity]
      simp
      omega
    rw [isOriented_of hrp]
    congr 1
    rw [allEqual_map]
    simp

/-- example of C07: the clashing mesh meets the hypotheses: it is accepted, not coherent as
given, orientable, and its last simplex has a neighbour -/
example : Simplices 3 clashing ∧ ¬ Coherent clashing ∧ Orientable clashing ∧
    ∃ e j', SharedFace clashing e (clashing.length - 1) j' := by
  have hs : Simplices 3 clashing := simplices_of_all (by decide)
  have wf := wf_built hs built_clashing
  refine ⟨hs, ?_, ?_, ?_⟩
  · rw [← reorient_false clashing, ← wf.satisfies_iff_coherent hs (fun _ => false)]
    decide +kernel
  · refine ⟨fun j => j + 1 == 1 || j + 1 == 3, ?_⟩
    rw [← wf.satisfies_iff_coherent hs (fun v => v == 1 || v == 3)]
    decide +kernel
  · rw [← wf.nVars_eq_iff hs (by decide)]
    decide +kernel

/-- C07, the documented behaviour is refuted: a coherently oriented mesh for which
`fix_orientation` raises `ValueError` whatever the (correct) solver answers. -/
theorem C07_orientable_but_rejected :
    ∃ t, fromSimplices List.dedup 3 looseLast = .ok t ∧ Coherent looseLast ∧
      ∀ solve, SatSpec solve → fixOrientation solve List.dedup t = .error .valueError := by
  have hs : Simplices 3 looseLast := simplices_of_all (by decide)
  have wf := wf_built hs built_looseLast
  refine ⟨_, built_looseLast, ?_, fun solve hsat => ?_⟩
  · rw [← reorient_false looseLast, ← wf.satisfies_iff_coherent hs (fun _ => false)]
    decide +kernel
  · refine C07_loose_last_rejected uniqSpec_dedup hs hsat built_looseLast ?_ ?_
    · by_contra hno
      push Not at hno
      have := (wf.interiorClauses_eq_nil hs).2 hno
      revert this
      decide +kernel
    · intro e j' hsh
      have := (wf.nVars_eq_iff hs (by decide)).2 ⟨e, j', hsh⟩
      revert this
      decide +kernel

/-- C08, the connectedness hypothesis is needed: a coherently oriented mesh of two separate pieces
and a correct solver for which `is_oriented` is `False`. -/
theorem C08_disconnected_not_exact :
    ∃ t, fromSimplices List.dedup 3 pairs2 = .ok t ∧ Coherent pairs2 ∧
      ∃ solve, SatSpec solve ∧ isOriented solve t = .ok false := by
  have hs : Simplices 3 pairs2 := simplices_of_all (by decide)
  have wf := wf_built hs built_pairs2
  refine ⟨_, built_pairs2, ?_, ?_⟩
  · rw [← reorient_false pairs2, ← wf.satisfies_iff_coherent hs (fun _ => false)]
    decide +kernel
  · obtain ⟨solve, hsat, hsol⟩ := satSolver_with (allClauses ((built 3 pairs2).matrix 1))
      (fun v => v == 1 || v == 2) (by decide +kernel)
    refine ⟨solve, hsat, ?_⟩
    have hc : interiorClauses ((built 3 pairs2).matrix 1) ≠ [] := by decide +kernel
    have hb : (built 3 pairs2).boundary.length = 2 := wf.lenB
    have hrp : relativeParity solve (built 3 pairs2) = .ok [false, false, true, true] := by
      unfold relativeParity
      simp only [hb, hc, if_false, OfNat.ofNat_ne_zero, Nat.reduceSub]
      unfold allClauses at hsol
      rw [hsol]
      decide +kernel
    rw [isOriented_of hrp]
    rfl

/-- example of C08: two coherently oriented triangles on a common edge are connected -/
example : Simplices 3 [[0, 1, 2], [2, 1, 3]] ∧ Coherent [[0, 1, 2], [2, 1, 3]] ∧
    Connected [[0, 1, 2], [2, 1, 3]] := by
  have hs : Simplices 3 [[0, 1, 2], [2, 1, 3]] := simplices_of_all (by decide)
  have wf := wf_built hs (by decide +kernel)
  refine ⟨hs, ?_, ?_⟩
  · rw [← reorient_false [[0, 1, 2], [2, 1, 3]],
      ← wf.satisfies_iff_coherent hs (fun _ => false)]
    decide +kernel
  · obtain ⟨e, j', hsh⟩ := (wf.var_iff hs 0).1 (by decide +kernel)
    have hj' : j' = 1 := by
      have h1 := hsh.1
      have h2 := hsh.2.2.1
      simp at h2
      omega
    subst hj'
    have a01 : Adjacent [[0, 1, 2], [2, 1, 3]] 0 1 := ⟨e, hsh⟩
    have a10 : Adjacent [[0, 1, 2], [2, 1, 3]] 1 0 := ⟨e, sharedFace_symm hsh⟩
    intro j1 h1 j2 h2
    simp at h1 h2
    interval_cases j1 <;> interval_cases j2
    · exact .refl
    · exact .single a01
    · exact .single a10
    · exact .refl

end Verif.Props
