/-
C09, C10, C11: boundary and subset extraction, interior and boundary selectors.
-/
import Verif.Lemmas.Boundary
import Verif.Props.Orientation

namespace Verif

open Verif.Model Verif.Spec

theorem SubOK.corresponds {n k : Nat} {top : List (List Nat)} {t : Topo} {rows : List (List Nat)}
    {s : Sub} (hk : 0 < k) (hkn : k ≤ n) (h : WF n top t) (hs : SubOK k t rows s) :
    Corresponds t.elements s.topo.elements s.parentIdx := by
  refine ⟨by rw [hs.lenIdx, hs.wf.lenE], _, hs.idx_zero hk (by omega) h, ?_⟩
  intro j E hE
  have hj : j ≤ k := by
    have := (List.getElem?_eq_some_iff.1 hE).1
    rw [hs.wf.lenE] at this
    omega
  obtain ⟨P, hP, hlen, hidx⟩ := hs.idx j hj
  have hb := hs.bound j hj
  unfold Topo.nElements at hlen
  rw [hE, Option.getD_some] at hlen hidx hb
  have hjt : j < t.elements.length := by rw [h.lenE]; omega
  refine ⟨P, _, hP, List.getElem?_eq_getElem hjt, hlen, ?_⟩
  intro i e hi
  refine ⟨hb e (List.mem_of_getElem? hi), ?_⟩
  obtain ⟨p, e', h1, h2, h3⟩ := hidx i e hi
  rw [List.getElem?_eq_getElem hjt, Option.getD_some] at h2
  exact ⟨p, e', h1, h2, h3⟩

theorem SubOK.idx_top {n k : Nat} {top : List (List Nat)} {t : Topo} {rows : List (List Nat)}
    {s : Sub} (_h : WF n top t) (hs : SubOK k t rows s)
    (hd : DistinctElements (t.elements[k]?.getD [])) {idx : List Nat}
    (hlt : ∀ i ∈ idx, i < t.nElements k)
    (hrows : rows = idx.map fun i => (t.elements[k]?.getD [])[i]?.getD []) :
    s.parentIdx[k]? = some idx := by
  obtain ⟨P, hP, hlen, hidx⟩ := hs.idx k (by omega)
  rw [hP]
  congr 1
  unfold Topo.nElements at hlen
  rw [hs.wf.top_eq, Option.getD_some] at hlen hidx
  have hlen' : P.length = idx.length := by
    rw [hlen, relabel_rows, List.length_map]
    conv_lhs => rw [hrows]
    simp
  apply List.ext_getElem?
  intro i
  by_cases hi : i < idx.length
  · have hir : i < rows.length := by rw [hrows]; simpa using hi
    have hin : i < (relabel rows).2.length := by rw [relabel_rows]; simpa using hir
    obtain ⟨p, e', h1, h2, h3⟩ := hidx i _ (List.getElem?_eq_getElem hin)
    have hback : ((relabel rows).2[i]).map (back rows) = rows[i] := by
      have := relabel_back rows
      have h4 : ((relabel rows).2.map fun r => r.map (back rows))[i]? = rows[i]? := by rw [this]
      rw [List.getElem?_map, List.getElem?_eq_getElem hin, List.getElem?_eq_getElem hir] at h4
      simpa using h4
    rw [hback] at h3
    have hrow : (t.elements[k]?.getD [])[idx[i]]? = some rows[i] := by
      have hlt' := hlt idx[i] (List.getElem_mem _)
      unfold Topo.nElements at hlt'
      rw [List.getElem?_eq_getElem hlt']
      congr 1
      have h4 : rows[i]? = (idx.map fun i => (t.elements[k]?.getD [])[i]?.getD [])[i]? := by
        rw [← hrows]
      rw [List.getElem?_map, List.getElem?_eq_getElem hi, List.getElem?_eq_getElem hir] at h4
      simp only [Option.map_some, Option.some.injEq] at h4
      rw [h4, List.getElem?_eq_getElem hlt']
      rfl
    have := distinct_index hd h2 hrow h3
    rw [h1, this, List.getElem?_eq_getElem hi]
  · rw [List.getElem?_eq_none (by omega), List.getElem?_eq_none (by omega)]

theorem takeRows_flatnonzero (rows : List (List Nat)) : ∀ (chain : List Int),
    chain.length = rows.length → takeRows rows (flatnonzero chain) = picked chain rows := by
  induction rows with
  | nil =>
    intro chain h
    have : chain = [] := List.length_eq_zero_iff.1 h
    subst this
    rfl
  | cons r rows ih =>
    intro chain h
    cases chain with
    | nil => simp at h
    | cons c chain =>
      have ih' := ih chain (by simpa using h)
      have hf : flatnonzero (c :: chain) =
          (if c ≠ 0 then [0] else []) ++ (flatnonzero chain).map (· + 1) := by
        unfold flatnonzero
        rw [List.length_cons, List.range_succ_eq_map, List.filter_cons, List.filter_map]
        simp only [List.getElem?_cons_zero, Option.getD_some, Function.comp_def,
          List.getElem?_cons_succ]
        by_cases hc : c = 0 <;> simp [hc]
      have ht : takeRows (r :: rows) ((flatnonzero chain).map (· + 1)) =
          takeRows rows (flatnonzero chain) := by
        unfold takeRows
        rw [List.filterMap_map]
        rfl
      have happ : takeRows (r :: rows) (flatnonzero (c :: chain)) =
          (if c ≠ 0 then [r] else []) ++ takeRows rows (flatnonzero chain) := by
        rw [hf, ← ht]
        unfold takeRows
        rw [List.filterMap_append]
        by_cases hc : c = 0 <;> simp [hc]
      rw [happ, ih']
      unfold picked
      by_cases hc : c = 0 <;> simp [hc]

end Verif

namespace Verif.Props

open Verif.Model Verif.Spec

variable {uniq : List (List Nat) → List (List Nat)} {nCorners : Nat}
  {simplices : List (List Nat)} {t : Topo} {solve : List (List Int) → Option (List Int)}

/-! ## C10 -/

/-- C10: selecting a subset keeps exactly the simplices with a non-zero chain value, in order
(read through the vertex map `P0 = parent_idx[0]`), numbers its vertices `0, 1, ...` without gaps
in the order of the original numbers, and on every level `parent_idx` points to the original
element with the same corners. -/
theorem C10_select_subset (hu : UniqSpec uniq) (hs : Simplices nCorners simplices)
    (h : fromSimplices uniq nCorners simplices = .ok t) (chain : List Int)
    (hlen : chain.length = simplices.length) :
    ∃ s P0 new, selectSubset uniq t chain = .ok s ∧ s.parentIdx[0]? = some P0 ∧
      s.topo.elements[nCorners - 1]? = some new ∧
      new.map (fun r => r.map fun v => P0[v]?.getD 0) = picked chain simplices ∧
      P0.Pairwise (· < ·) ∧ (∀ v, (∃ r ∈ new, v ∈ r) ↔ v < P0.length) ∧
      Corresponds t.elements s.topo.elements s.parentIdx := by
  obtain ⟨n, rfl, hn, wf⟩ := wf_of_ok hu hs h
  obtain ⟨m, rfl⟩ : ∃ m, n = m + 1 := ⟨n - 1, by omega⟩
  obtain ⟨s, hsub, hok⟩ := subTopology_ok hu wf hs (k := m) (Nat.le_refl _)
    (rows := picked chain simplices) (by
      intro r hr
      rw [wf.top_eq, Option.getD_some]
      unfold picked at hr
      obtain ⟨cr, hcr, rfl⟩ := List.mem_map.1 hr
      exact (List.of_mem_zip (List.mem_filter.1 hcr).1).2)
  refine ⟨s, _, _, ?_, hok.idx_zero (by omega) (by omega) wf, hok.wf.top_eq, relabel_back _,
    mapping_sorted _, relabel_used _, hok.corresponds (by omega) (Nat.le_refl _) wf⟩
  unfold selectSubset
  simp only [wf.lenB, Topo.nElements, wf.top_eq, Option.getD_some]
  rw [if_neg (by simpa using hlen), takeRows_flatnonzero _ _ hlen]
  exact hsub

/-- C10: a chain of the wrong length is rejected with `ValueError`. -/
theorem C10_wrong_length (hu : UniqSpec uniq) (hs : Simplices nCorners simplices)
    (h : fromSimplices uniq nCorners simplices = .ok t) (chain : List Int)
    (hlen : chain.length ≠ simplices.length) :
    selectSubset uniq t chain = .error .valueError := by
  obtain ⟨n, rfl, hn, wf⟩ := wf_of_ok hu hs h
  unfold selectSubset
  simp only [wf.lenB, Topo.nElements, wf.top_eq, Option.getD_some]
  rw [if_pos hlen]

/-- C10: if no two simplices have the same corners, `parent_idx` of the kept simplices are the
positions of the non-zero chain values. -/
theorem C10_parent_of_simplices (hu : UniqSpec uniq) (hs : Simplices nCorners simplices)
    (h : fromSimplices uniq nCorners simplices = .ok t) (hd : DistinctElements simplices)
    {chain : List Int} {s : Sub} (hsel : selectSubset uniq t chain = .ok s) :
    ∃ P, s.parentIdx[nCorners - 1]? = some P ∧ P.Pairwise (· < ·) ∧
      ∀ i, i ∈ P ↔ ∃ c, chain[i]? = some c ∧ c ≠ 0 := by
  obtain ⟨n, rfl, hn, wf⟩ := wf_of_ok hu hs h
  obtain ⟨m, rfl⟩ : ∃ m, n = m + 1 := ⟨n - 1, by omega⟩
  by_cases hlen : chain.length = simplices.length
  · have hlt : ∀ i ∈ flatnonzero chain, i < (t.elements[m + 1]?.getD []).length := by
      intro i hi
      rw [wf.top_eq, Option.getD_some, ← hlen]
      exact List.mem_range.1 (List.mem_filter.1 hi).1
    have hrw := takeRows_eq hlt
    obtain ⟨s', hsub, hok⟩ := subTopology_ok hu wf hs (k := m) (Nat.le_refl _)
      (rows := takeRows (t.elements[m + 1]?.getD []) (flatnonzero chain)) (by
        intro r hr
        rw [hrw] at hr
        obtain ⟨i, hi, rfl⟩ := List.mem_map.1 hr
        rw [List.getElem?_eq_getElem (hlt i hi)]
        exact List.getElem_mem _)
    unfold selectSubset at hsel
    simp only [wf.lenB] at hsel
    rw [if_neg (by rw [wf.nTop]; simpa using hlen), hsub] at hsel
    have := Except.ok.inj hsel
    subst this
    refine ⟨flatnonzero chain, ?_, ?_, ?_⟩
    · refine hok.idx_top wf ?_ hlt hrw
      rw [wf.top_eq, Option.getD_some]
      exact hd
    · unfold flatnonzero
      exact List.Pairwise.filter _ List.pairwise_lt_range
    · intro i
      unfold flatnonzero
      rw [List.mem_filter, List.mem_range]
      constructor
      · rintro ⟨h1, h2⟩
        rw [List.getElem?_eq_getElem h1] at h2
        exact ⟨_, List.getElem?_eq_getElem h1, by simpa using h2⟩
      · rintro ⟨c, hc, hne⟩
        exact ⟨(List.getElem?_eq_some_iff.1 hc).1, by rw [hc]; simpa using hne⟩
  · rw [C10_wrong_length hu hs h chain hlen] at hsel
    simp at hsel

/-- example for C10: two of three triangles -/
example : ∃ t s, fromSimplices List.dedup 3 [[0, 1, 2], [2, 1, 3], [4, 5, 3]] = .ok t ∧
    selectSubset List.dedup t [0, 1, 1] = .ok s ∧
    s.parentIdx[0]? = some [1, 2, 3, 4, 5] ∧
    s.topo.elements[2]? = some [[1, 0, 2], [3, 4, 2]] := by
  refine ⟨built 3 [[0, 1, 2], [2, 1, 3], [4, 5, 3]], ?_⟩
  refine ⟨match selectSubset List.dedup (built 3 [[0, 1, 2], [2, 1, 3], [4, 5, 3]]) [0, 1, 1] with
    | .ok s => s | .error _ => ⟨⟨[], [], []⟩, []⟩, ?_⟩
  decide +kernel

/-! ## C09 -/

theorem boundary_eq (hor : isOriented solve t = .ok true) :
    boundary solve uniq t = if (bIdx t).length = 0 then .ok none else
      (subTopology uniq t.boundary.length t (bRows t)).map some := by
  unfold boundary
  rw [hor]
  simp only [bind, Except.bind, Bool.not_true]
  unfold bIdx bRows bIdx
  split
  · rename_i hf; simp at hf
  · split
    · rfl
    · cases subTopology uniq t.boundary.length t
        (takeRows (t.elements[t.boundary.length - 1]?.getD []) (flatnonzero (boundaryChain t))) <;>
        rfl

/-- C09: for every mesh (oriented or not) the signed sum of all simplex boundaries is a cycle: its
own boundary is zero at every element of two dimensions less. -/
theorem C09_boundary_chain_is_cycle (hu : UniqSpec uniq) (hs : Simplices (nCorners + 3) simplices)
    (h : fromSimplices uniq (nCorners + 3) simplices = .ok t) (a : Nat)
    (ha : a < t.nElements nCorners) :
    ((List.range (t.nElements (nCorners + 1))).map fun i =>
      (t.matrix nCorners).entry a i *
        ((List.range (t.nElements (nCorners + 2))).map fun j =>
          (t.matrix (nCorners + 1)).entry i j).sum).sum = 0 := by
  obtain ⟨n, hn, -, wf⟩ := wf_of_ok hu hs h
  have : n = nCorners + 2 := by omega
  subst this
  have := wf.rowSum_closed ha
  unfold rowSum at this
  rw [(wf.shape (k := nCorners + 1) (by omega)).2] at this
  exact this

/-- C09: on a mesh of dimension at least two that `is_oriented` accepts and in which no face has
three simplices, `boundary` never fails; it is `None` exactly if every face has two simplices. -/
theorem C09_closed_iff (hu : UniqSpec uniq) (hs : Simplices (nCorners + 3) simplices)
    (hsat : SatSpec solve) (h : fromSimplices uniq (nCorners + 3) simplices = .ok t)
    (h2 : AtMostTwo simplices) (hor : isOriented solve t = .ok true) :
    (∃ b, boundary solve uniq t = .ok b) ∧
    (boundary solve uniq t = .ok none ↔ ∀ e, ¬ BoundaryFace simplices e) := by
  obtain ⟨n, hn, -, wf⟩ := wf_of_ok hu hs h
  have : n = nCorners + 2 := by omega
  subst this
  have hco := C08_true_sound hu hs hsat h hor
  obtain ⟨s, hsub, hok⟩ := subTopology_ok hu wf hs (k := nCorners) (by omega) (bRows_mem wf)
  rw [boundary_eq hor, wf.lenB, hsub]
  have hnil : (bIdx t).length = 0 ↔ ∀ e, ¬ BoundaryFace simplices e := by
    rw [bIdx_coherent wf (by omega) hs h2 hco, List.length_eq_zero_iff, List.filter_eq_nil_iff]
    constructor
    · rintro hno e ⟨j, l, hl, ⟨c, hc, hp⟩, hun⟩
      have hf := (wf.get (k := nCorners + 1) (by omega)).2.2.2.1
      rw [wf.top_eq, Option.getD_some] at hf
      obtain ⟨e', he', hp'⟩ := hf.1 l (List.mem_of_getElem? hl) c hc
      obtain ⟨i, hi, rfl⟩ := List.getElem_of_mem he'
      have hi' := List.getElem?_eq_getElem hi
      rcases wf.rowSum_coherent (by omega) hs h2 hco hi' with ⟨-, hr⟩ | ⟨hnb, -⟩
      · exact hno i (List.mem_range.2 hi) (by simpa using hr)
      · apply hnb
        refine ⟨j, l, hl, ⟨c, hc, hp'⟩, ?_⟩
        rintro j' l' hj' ⟨d, hd, hpd⟩
        exact hun j' l' hj' ⟨d, hd, (hp.trans hp'.symm).trans hpd⟩
    · intro hno i hi
      have hi' := List.getElem?_eq_getElem (List.mem_range.1 hi)
      rcases wf.rowSum_coherent (by omega) hs h2 hco hi' with ⟨hb, -⟩ | ⟨-, hr⟩
      · exact absurd hb (hno _)
      · rw [hr]; decide
  refine ⟨?_, ?_⟩
  · split
    · exact ⟨_, rfl⟩
    · exact ⟨_, rfl⟩
  · rw [← hnil]
    split
    · next h0 => simp [h0]
    · next h0 => simp [h0, Except.map]

/-- C09: the boundary mesh consists of exactly those stored faces that belong to one simplex, in
their stored order and orientation (read through the vertex map `P0`); its vertices are numbered
without gaps, and `parent_idx` points to the matching original elements on every level. -/
theorem C09_boundary_elements (hu : UniqSpec uniq) (hs : Simplices (nCorners + 3) simplices)
    (hsat : SatSpec solve) (h : fromSimplices uniq (nCorners + 3) simplices = .ok t)
    (h2 : AtMostTwo simplices) (hor : isOriented solve t = .ok true) {s : Sub}
    (hb : boundary solve uniq t = .ok (some s)) :
    ∃ P0 new faces, s.parentIdx[0]? = some P0 ∧ s.topo.elements[nCorners + 1]? = some new ∧
      new.map (fun r => r.map fun v => P0[v]?.getD 0) = faces ∧
      faces.Sublist (t.elements[nCorners + 1]?.getD []) ∧
      (∀ e ∈ t.elements[nCorners + 1]?.getD [], e ∈ faces ↔ BoundaryFace simplices e) ∧
      P0.Pairwise (· < ·) ∧ (∀ v, (∃ r ∈ new, v ∈ r) ↔ v < P0.length) ∧
      Corresponds t.elements s.topo.elements s.parentIdx := by
  obtain ⟨n, hn, -, wf⟩ := wf_of_ok hu hs h
  have : n = nCorners + 2 := by omega
  subst this
  have hco := C08_true_sound hu hs hsat h hor
  obtain ⟨s', hsub, hok⟩ := subTopology_ok hu wf hs (k := nCorners) (by omega) (bRows_mem wf)
  rw [boundary_eq hor, wf.lenB, hsub] at hb
  split at hb
  · simp at hb
  · have : s' = s := by simpa [Except.map] using hb
    subst this
    refine ⟨_, _, bRows t, hok.idx_zero (by omega) (by omega) wf, hok.wf.top_eq, relabel_back _,
      ?_, ?_, mapping_sorted _, relabel_used _, hok.corresponds (by omega) (by omega) wf⟩
    · rw [bRows_eq wf, bIdx_eq wf]
      have hid : t.elements[nCorners + 1]?.getD [] =
          (List.range (t.nElements (nCorners + 1))).map
            fun i => (t.elements[nCorners + 1]?.getD [])[i]?.getD [] := by
        apply List.ext_getElem
        · simp [Topo.nElements]
        · intro i h1 h2
          simp [List.getElem?_eq_getElem h1]
      conv_rhs => rw [hid]
      exact List.filter_sublist.map _
    · intro e he
      obtain ⟨i, hi, rfl⟩ := List.getElem_of_mem he
      have hi' := List.getElem?_eq_getElem hi
      have hd := (wf.get (k := nCorners + 1) (by omega)).2.2.1
      rw [bRows_eq wf, bIdx_coherent wf (by omega) hs h2 hco]
      constructor
      · intro hm
        obtain ⟨i', hi1, he⟩ := List.mem_map.1 hm
        obtain ⟨hr1, hr2⟩ := List.mem_filter.1 hi1
        have hi1' := List.getElem?_eq_getElem (List.mem_range.1 hr1)
        rw [hi1', Option.getD_some] at he
        have : i' = i := distinct_index hd hi1' hi' (by rw [he])
        subst this
        rcases wf.rowSum_coherent (by omega) hs h2 hco hi' with ⟨hbf, -⟩ | ⟨-, hr⟩
        · exact hbf
        · rw [hr] at hr2; simp at hr2
      · intro hbf
        refine List.mem_map.2 ⟨i, List.mem_filter.2 ⟨List.mem_range.2 hi, ?_⟩, by rw [hi']; rfl⟩
        rcases wf.rowSum_coherent (by omega) hs h2 hco hi' with ⟨-, hr⟩ | ⟨hnb, -⟩
        · rw [hr]; rfl
        · exact absurd hbf hnb

/-- signs in the extracted boundary agree with signs in the original numbering -/
theorem inducedSign_back {k : Nat} {rows : List (List Nat)} {s : Sub} (hok : SubOK k t rows s)
    {j : Nat} (hj : j ≤ k) {e l : List Nat} (he : e ∈ s.topo.elements[j]?.getD [])
    (hl : l ∈ (relabel rows).2) :
    inducedSign (e.map (back rows)) (l.map (back rows)) = inducedSign e l := by
  refine inducedSign_map (ψ := fresh rows) ?_ ?_
  · intro x hx
    exact fresh_back rows ((relabel_used rows x).1 ⟨l, hl, hx⟩)
  · intro x hx
    exact fresh_back rows (hok.bound j hj e he x hx)

theorem boundary_sums {k : Nat} {top : List (List Nat)} (wf : WF (k + 2) top t)
    (htop : Simplices (k + 3) top) (h2 : AtMostTwo top) (hco : Coherent top) {s : Sub}
    (hok : SubOK (k + 1) t (bRows t) s) {e : List Nat} (he : e ∈ s.topo.elements[k]?.getD []) :
    ((relabel (bRows t)).2.map fun l => inducedSign e l).sum = 0 := by
  obtain ⟨a, ha, rfl⟩ := List.getElem_of_mem he
  obtain ⟨P, -, -, hidx⟩ := hok.idx k (by omega)
  obtain ⟨p, e', -, hp, hperm⟩ := hidx a _ (List.getElem?_eq_getElem ha)
  have hsum := ridge_sum wf htop h2 hco hp
  set e := (s.topo.elements[k]?.getD [])[a]
  have he'n := ((wf.get (k := k) (by omega)).1 e' (List.mem_of_getElem? hp)).2
  have hen : (e.map (back (bRows t))).Nodup := hperm.nodup_iff.1 he'n
  have hrn : ∀ r ∈ bRows t, r.Nodup := fun r hr =>
    ((wf.get (k := k) (by omega)).2.1 r (bRows_mem wf r hr)).2
  have h1 : ((relabel (bRows t)).2.map fun l => inducedSign e l) =
      (relabel (bRows t)).2.map fun l =>
        inducedSign (e.map (back (bRows t))) (l.map (back (bRows t))) := by
    apply List.map_congr_left
    intro l hl
    exact (inducedSign_back hok (by omega) he hl).symm
  have h3 : ((relabel (bRows t)).2.map fun l =>
        inducedSign (e.map (back (bRows t))) (l.map (back (bRows t)))) =
      (bRows t).map fun r => inducedSign (e.map (back (bRows t))) r := by
    have := congrArg (List.map fun r => inducedSign (e.map (back (bRows t))) r)
      (relabel_back (bRows t))
    rw [List.map_map] at this
    exact this
  have h4 : ((bRows t).map fun r => inducedSign (e.map (back (bRows t))) r) =
      (bRows t).map fun r => relSign (e.map (back (bRows t))) e' * inducedSign e' r := by
    apply List.map_congr_left
    intro r hr
    exact inducedSign_face_perm hperm.symm hen (hrn r hr)
  rw [h1, h3, h4, List.sum_map_mul_left, hsum, mul_zero]

theorem sum_pair {ι : Type} [DecidableEq ι] (l : List ι) (hl : l.Nodup) (f : ι → ℤ) (a b : ι)
    (ha : a ∈ l) (hb : b ∈ l) (hab : a ≠ b) (h0 : ∀ x ∈ l, x ≠ a → x ≠ b → f x = 0) :
    (l.map f).sum = f a + f b := by
  have e1 : (l.map f).sum = (l.map fun x => (if x = a then f x else 0) +
      (if x = b then f x else 0)).sum := by
    congr 1
    apply List.map_congr_left
    intro x hx
    by_cases h1 : x = a
    · subst h1; simp [hab]
    · by_cases h2 : x = b
      · subst h2; simp [h1]
      · simp [h1, h2, h0 x hx h1 h2]
  rw [e1, List.sum_map_add, sum_map_ite_eq l hl a f ha, sum_map_ite_eq l hl b f hb]

/-- C09: the boundary mesh inherits a coherent orientation, and its own boundary sums are all
zero: the boundary has no boundary. -/
theorem C09_boundary_coherent_and_closed (hu : UniqSpec uniq)
    (hs : Simplices (nCorners + 3) simplices)
    (hsat : SatSpec solve) (h : fromSimplices uniq (nCorners + 3) simplices = .ok t)
    (h2 : AtMostTwo simplices) (hor : isOriented solve t = .ok true) {s : Sub}
    (hb : boundary solve uniq t = .ok (some s)) :
    Coherent (s.topo.elements[nCorners + 1]?.getD []) ∧
    (∀ i < s.topo.nElements nCorners, ((List.range (s.topo.nElements (nCorners + 1))).map fun j =>
      (s.topo.matrix nCorners).entry i j).sum = 0) ∧
    (isOriented solve s.topo = .ok true → boundary solve uniq s.topo = .ok none) := by
  obtain ⟨n, hn, -, wf⟩ := wf_of_ok hu hs h
  have : n = nCorners + 2 := by omega
  subst this
  have hco := C08_true_sound hu hs hsat h hor
  obtain ⟨s', hsub, hok⟩ := subTopology_ok hu wf hs (k := nCorners) (by omega) (bRows_mem wf)
  rw [boundary_eq hor, wf.lenB, hsub] at hb
  split at hb
  · simp at hb
  · have : s' = s := by simpa [Except.map] using hb
    subst this
    have hsums := fun e => boundary_sums wf hs h2 hco hok (e := e)
    have hsn : Simplices (nCorners + 2) (relabel (bRows t)).2 := by
      have := (hok.wf.get (k := nCorners) (by omega)).2.1
      rwa [hok.wf.top_eq, Option.getD_some] at this
    have hrow : ∀ i < s'.topo.nElements nCorners,
        ((List.range (s'.topo.nElements (nCorners + 1))).map fun j =>
          (s'.topo.matrix nCorners).entry i j).sum = 0 := by
      intro i hi
      have hi' : i < (s'.topo.elements[nCorners]?.getD []).length := hi
      have := hsums _ (List.getElem_mem hi')
      have e1 : ∀ j ∈ List.range (s'.topo.nElements (nCorners + 1)),
          (s'.topo.matrix nCorners).entry i j = levelSign nCorners *
            inducedSign (s'.topo.elements[nCorners]?.getD [])[i]
              ((relabel (bRows t)).2[j]?.getD []) := by
        intro j hj
        have hj' : j < (relabel (bRows t)).2.length := by
          have := List.mem_range.1 hj
          unfold Topo.nElements at this
          rwa [hok.wf.top_eq, Option.getD_some] at this
        rw [hok.wf.top_entry (List.getElem?_eq_getElem hi') (List.getElem?_eq_getElem hj'),
          List.getElem?_eq_getElem hj']
        rfl
      rw [List.map_congr_left e1, List.sum_map_mul_left]
      have e2 : ((List.range (s'.topo.nElements (nCorners + 1))).map fun j =>
          inducedSign (s'.topo.elements[nCorners]?.getD [])[i]
              ((relabel (bRows t)).2[j]?.getD [])) =
          (relabel (bRows t)).2.map fun l =>
            inducedSign (s'.topo.elements[nCorners]?.getD [])[i] l := by
        unfold Topo.nElements
        rw [hok.wf.top_eq, Option.getD_some]
        apply List.ext_getElem
        · simp
        · intro j h1 h2
          simp at h1
          simp [List.getElem?_eq_getElem h1]
      rw [e2, this, mul_zero]
    refine ⟨?_, hrow, ?_⟩
    · rw [hok.wf.top_eq, Option.getD_some]
      intro e j1 j2 l1 l2 h1 h2 hsh
      -- a stored ridge with the same corners
      obtain ⟨c, hc, hp⟩ := (hsh.2.2.2 j1 l1 h1).2 (Or.inl rfl)
      have hf := (hok.wf.get (k := nCorners) (by omega)).2.2.2.1
      rw [hok.wf.top_eq, Option.getD_some] at hf
      obtain ⟨e', he', hp'⟩ := hf.1 l1 (List.mem_of_getElem? h1) c hc
      have hpe : e.Perm e' := hp.trans hp'.symm
      have hl1 := (hsn l1 (List.mem_of_getElem? h1)).2
      have hl2 := (hsn l2 (List.mem_of_getElem? h2)).2
      have hen : e.Nodup := hp.nodup_iff.2 (eraseIdx_nodup hl1 c)
      have he'n : e'.Nodup := hpe.nodup_iff.1 hen
      have hsum := hsums e' he'
      have hidx : ((relabel (bRows t)).2.map fun l => inducedSign e' l) =
          (List.range (relabel (bRows t)).2.length).map fun j =>
            inducedSign e' ((relabel (bRows t)).2[j]?.getD []) := by
        apply List.ext_getElem
        · simp
        · intro j h1 h2
          simp at h1
          simp [List.getElem?_eq_getElem h1]
      rw [hidx, sum_pair _ List.nodup_range _ j1 j2 (List.mem_range.2 hsh.2.1)
        (List.mem_range.2 hsh.2.2.1) hsh.1, h1, h2, Option.getD_some, Option.getD_some] at hsum
      · rw [inducedSign_face_perm hpe hen hl1, inducedSign_face_perm hpe hen hl2, ← mul_add, hsum,
          mul_zero]
      · intro j hj hj1 hj2
        have hj' := List.getElem?_eq_getElem (List.mem_range.1 hj)
        rw [hj', Option.getD_some]
        have hln := (hsn _ (List.mem_of_getElem? hj')).2
        by_contra hne
        obtain ⟨d, hd, hpd⟩ := (inducedSign_ne_zero he'n hln).1 hne
        have := (hsh.2.2.2 j _ hj').1 ⟨d, hd, hpe.trans hpd⟩
        rcases this with rfl | rfl
        · exact hj1 rfl
        · exact hj2 rfl
    · intro hor'
      rw [boundary_eq hor', if_pos]
      rw [bIdx_eq hok.wf, List.length_eq_zero_iff, List.filter_eq_nil_iff]
      intro i hi
      have : rowSum s'.topo nCorners i = 0 := by
        have := hrow i (List.mem_range.1 hi)
        unfold rowSum
        rw [(hok.wf.shape (k := nCorners) (by omega)).2]
        exact this
      rw [this]
      decide

/-- C09: the boundary of an open one-dimensional mesh cannot be taken: `AssertionError`. -/
theorem C09_one_dimensional_fails (hu : UniqSpec uniq) (hs : Simplices 2 simplices)
    (h : fromSimplices uniq 2 simplices = .ok t) (hor : isOriented solve t = .ok true)
    (hopen : flatnonzero (boundaryChain t) ≠ []) :
    boundary solve uniq t = .error .assertionError := by
  obtain ⟨n, hn, -, wf⟩ := wf_of_ok hu hs h
  have : n = 1 := by omega
  subst this
  rw [boundary_eq hor, if_neg, wf.lenB]
  · rfl
  · unfold bIdx
    simpa using hopen

/-- C09: if the boundary is in one piece (connected through shared ridges), asking for its
boundary gives `None`. -/
theorem C09_boundary_of_boundary (hu : UniqSpec uniq) (hs : Simplices (nCorners + 3) simplices)
    (hsat : SatSpec solve) (h : fromSimplices uniq (nCorners + 3) simplices = .ok t)
    (h2 : AtMostTwo simplices) (hor : isOriented solve t = .ok true) {s : Sub}
    (hb : boundary solve uniq t = .ok (some s))
    (hcon : Connected (s.topo.elements[nCorners + 1]?.getD [])) :
    boundary solve uniq s.topo = .ok none := by
  obtain ⟨hco, -, hcl⟩ := C09_boundary_coherent_and_closed hu hs hsat h h2 hor hb
  apply hcl
  obtain ⟨n, hn, -, wf⟩ := wf_of_ok hu hs h
  have : n = nCorners + 2 := by omega
  subst this
  obtain ⟨s', hsub, hok⟩ := subTopology_ok hu wf hs (k := nCorners) (by omega) (bRows_mem wf)
  rw [boundary_eq hor, wf.lenB, hsub] at hb
  split at hb
  · simp at hb
  · next h0 =>
    have : s' = s := by simpa [Except.map] using hb
    subst this
    rw [hok.wf.top_eq, Option.getD_some] at hco hcon
    have hsn : Simplices (nCorners + 2) (relabel (bRows t)).2 := by
      have := (hok.wf.get (k := nCorners) (by omega)).2.1
      rwa [hok.wf.top_eq, Option.getD_some] at this
    have hfs : fromSimplices uniq (nCorners + 2) (relabel (bRows t)).2 = .ok s'.topo := by
      unfold subTopology at hsub
      cases hf : fromSimplices uniq (nCorners + 2) (relabel (bRows t)).2 with
      | error e => simp [hf, bind, Except.bind] at hsub
      | ok u =>
        cases hc : findCorrespondence t.elements u.elements (relabel (bRows t)).1 with
        | error e => simp [hf, hc, bind, Except.bind] at hsub
        | ok idx =>
          simp only [hf, hc, bind, Except.bind, Except.ok.injEq] at hsub
          rw [← hsub]
    refine (C08_connected_exact hu hsn hsat hfs ?_ hcon).2 hco
    intro hnil
    apply h0
    have hl : (relabel (bRows t)).2.length = (bRows t).length := by rw [relabel_rows]; simp
    rw [hnil, bRows_eq wf] at hl
    simpa using hl.symm

instance (e l : List Nat) : Decidable (IsFace e l) := by unfold IsFace; infer_instance

/-- finite check of `AtMostTwo`, used for examples only -/
def atMostTwoCheck (rows : List (List Nat)) : Bool :=
  (List.range rows.length).all fun j1 => (List.range (rows[j1]?.getD []).length).all fun c =>
    (List.range rows.length).all fun j2 => (List.range rows.length).all fun j3 =>
      !(decide (IsFace ((rows[j1]?.getD []).eraseIdx c) (rows[j2]?.getD [])) &&
        decide (IsFace ((rows[j1]?.getD []).eraseIdx c) (rows[j3]?.getD []))) ||
      decide (j1 = j2 ∨ j1 = j3 ∨ j2 = j3)

theorem atMostTwo_of_check {rows : List (List Nat)} (h : atMostTwoCheck rows = true) :
    AtMostTwo rows := by
  intro e j1 j2 j3 l1 l2 l3 h1 h2 h3 ⟨c, hc, hp⟩ ⟨d, hd, hq⟩ ⟨f, hf, hr⟩
  unfold atMostTwoCheck at h
  have h' := List.all_eq_true.1 h j1 (List.mem_range.2 (List.getElem?_eq_some_iff.1 h1).1)
  have h'' := List.all_eq_true.1 h' c (List.mem_range.2 (by rwa [h1]))
  have h3' := List.all_eq_true.1 h'' j2 (List.mem_range.2 (List.getElem?_eq_some_iff.1 h2).1)
  have h4 := List.all_eq_true.1 h3' j3 (List.mem_range.2 (List.getElem?_eq_some_iff.1 h3).1)
  have f1 : IsFace (l1.eraseIdx c) l2 := ⟨d, hd, hp.symm.trans hq⟩
  have f2 : IsFace (l1.eraseIdx c) l3 := ⟨f, hf, hp.symm.trans hr⟩
  rw [h1, h2, h3] at h4
  simp only [Option.getD_some, f1, f2, decide_true, Bool.and_true, Bool.not_true,
    Bool.false_or, decide_eq_true_eq] at h4
  exact h4

/-- example for C09: two triangles on a common edge meet all hypotheses; the boundary is a
square. -/
example : ∃ t s solve, SatSpec solve ∧ Simplices 3 [[0, 1, 2], [2, 1, 3]] ∧
    fromSimplices List.dedup 3 [[0, 1, 2], [2, 1, 3]] = .ok t ∧
    AtMostTwo [[0, 1, 2], [2, 1, 3]] ∧ isOriented solve t = .ok true ∧
    boundary solve List.dedup t = .ok (some s) ∧ s.topo.nElements 1 = 4 := by
  have hs : Simplices 3 [[0, 1, 2], [2, 1, 3]] := simplices_of_all (by decide)
  have hf : fromSimplices List.dedup 3 [[0, 1, 2], [2, 1, 3]] =
    .ok (built 3 [[0, 1, 2], [2, 1, 3]]) := by decide +kernel
  have hco : Coherent [[0, 1, 2], [2, 1, 3]] := by
    rw [← reorient_false [[0, 1, 2], [2, 1, 3]],
      ← (wf_built hs hf).satisfies_iff_coherent hs (fun _ => false)]
    decide +kernel
  obtain ⟨solve, hsat, hor⟩ := C08_coherent_some_solver uniqSpec_dedup hs hf (by simp) hco
  refine ⟨_, (match subTopology List.dedup 2 (built 3 [[0, 1, 2], [2, 1, 3]])
    (bRows (built 3 [[0, 1, 2], [2, 1, 3]])) with | .ok s => s | .error _ => ⟨⟨[], [], []⟩, []⟩),
    solve, hsat, hs, hf, atMostTwo_of_check (by decide +kernel), hor, ?_, by decide +kernel⟩
  rw [boundary_eq hor]
  decide +kernel

/-- example for the one-dimensional case: a path of two edges -/
example : ∃ t solve, SatSpec solve ∧ fromSimplices List.dedup 2 [[0, 1], [1, 2]] = .ok t ∧
    isOriented solve t = .ok true ∧ flatnonzero (boundaryChain t) ≠ [] := by
  have hs : Simplices 2 [[0, 1], [1, 2]] := simplices_of_all (by decide)
  have hf : fromSimplices List.dedup 2 [[0, 1], [1, 2]] =
    .ok (built 2 [[0, 1], [1, 2]]) := by decide +kernel
  obtain ⟨n, hn, -, wf⟩ := wf_of_ok uniqSpec_dedup hs hf
  have : n = 1 := by omega
  subst this
  have hco : Coherent [[0, 1], [1, 2]] := by
    rw [← reorient_false [[0, 1], [1, 2]], ← wf.satisfies_iff_coherent hs (fun _ => false)]
    decide +kernel
  obtain ⟨solve, hsat, hor⟩ := C08_coherent_some_solver uniqSpec_dedup hs hf (by simp) hco
  exact ⟨_, solve, hsat, hf, hor, by decide +kernel⟩

end Verif.Props
