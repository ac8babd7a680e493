/-
C11, C12, C13: interior / boundary selectors and the matrices of the dual.
-/
import Verif.Lemmas.Dual

namespace Verif.Props

open Verif.Model Verif.Spec

variable {uniq : List (List Nat) → List (List Nat)} {nCorners : Nat}
  {simplices : List (List Nat)} {t : Topo} {solve : List (List Int) → Option (List Int)}

/-! ## C11 -/

/-- C11: for every topology (closed or not, oriented or not) and every level, each element is
picked by exactly one row of exactly one of the two selectors, and every row of either selector
picks one element. -/
theorem C11_selectors_split (solve : List (List Int) → Option (List Int))
    (uniq : List (List Nat) → List (List Nat)) (t : Topo) (k : Nat) :
    (selectorInterior solve uniq t k).cols = t.nElements k ∧
    (selectorBoundary solve uniq t k).cols = t.nElements k ∧
    (∀ r < (selectorInterior solve uniq t k).rows,
      ∃ c, RowPicks (selectorInterior solve uniq t k) r c) ∧
    (∀ r < (selectorBoundary solve uniq t k).rows,
      ∃ c, RowPicks (selectorBoundary solve uniq t k) r c) ∧
    ∀ c < t.nElements k,
      ((∃! r, RowPicks (selectorInterior solve uniq t k) r c) ∧
        ∀ r, ¬ RowPicks (selectorBoundary solve uniq t k) r c) ∨
      ((∃! r, RowPicks (selectorBoundary solve uniq t k) r c) ∧
        ∀ r, ¬ RowPicks (selectorInterior solve uniq t k) r c) := by
  obtain ⟨hi, hic⟩ := picks_interior solve uniq t k
  obtain ⟨hb, hbc⟩ := picks_boundary solve uniq t k
  have rowEx : ∀ {M : Mat Int} {L : List Nat}, Picks M L → ∀ r < M.rows, ∃ c, RowPicks M r c := by
    intro M L h r hr
    rw [h.2.2.1] at hr
    exact ⟨L[r], (h.rowPicks r _).2 (List.getElem?_eq_getElem hr)⟩
  have uniqueRow : ∀ {M : Mat Int} {L : List Nat}, Picks M L → ∀ c ∈ L, ∃! r, RowPicks M r c := by
    intro M L h c hc
    obtain ⟨r, hr, rfl⟩ := List.getElem_of_mem hc
    refine ⟨r, (h.rowPicks r _).2 (List.getElem?_eq_getElem hr), ?_⟩
    intro r' hr'
    obtain ⟨h1, h2⟩ := List.getElem?_eq_some_iff.1 ((h.rowPicks r' _).1 hr')
    exact (List.Nodup.getElem_inj_iff h.1).1 h2
  have noRow : ∀ {M : Mat Int} {L : List Nat}, Picks M L → ∀ c, c ∉ L →
      ∀ r, ¬ RowPicks M r c := by
    intro M L h c hc r hr
    exact hc (List.mem_of_getElem? ((h.rowPicks r c).1 hr))
  refine ⟨hic, hbc, rowEx hi, rowEx hb, ?_⟩
  intro c hc
  by_cases hm : c ∈ bset solve uniq t k
  · right
    exact ⟨uniqueRow hb c (by simp [hc, hm]), noRow hi c (by simp [hm])⟩
  · left
    exact ⟨uniqueRow hi c (by simp [hc, hm]), noRow hb c (by simp [hm])⟩

/-- C11: if `boundary` yields `None` or raises (for instance because the topology is not oriented),
the interior selector is the identity and the boundary selector is empty on every level. -/
theorem C11_without_boundary (hno : ∀ s, boundary solve uniq t ≠ .ok (some s)) (k : Nat) :
    (selectorInterior solve uniq t k).rows = t.nElements k ∧
    (∀ c < t.nElements k, RowPicks (selectorInterior solve uniq t k) c c) ∧
    (selectorBoundary solve uniq t k).rows = 0 := by
  have hset : bset solve uniq t k = [] := by
    unfold bset boundaryIndices
    cases hb : boundary solve uniq t with
    | error e => rfl
    | ok o =>
      cases o with
      | none => rfl
      | some s => exact absurd hb (hno s)
  obtain ⟨hi, hic⟩ := picks_interior solve uniq t k
  obtain ⟨hb, hbc⟩ := picks_boundary solve uniq t k
  have e1 : ((List.range (t.nElements k)).filter fun c => c ∉ bset solve uniq t k) =
      List.range (t.nElements k) := by
    rw [hset]; simp
  have e2 : ((List.range (t.nElements k)).filter fun c => c ∈ bset solve uniq t k) = [] := by
    rw [hset]; simp
  rw [e1] at hi
  rw [e2] at hb
  refine ⟨by rw [hi.2.2.1]; simp, ?_, by rw [hb.2.2.1]; rfl⟩
  intro c hc
  rw [hi.rowPicks]
  simp [hc]

/-- the boundary of an oriented mesh, with what is known about it -/
theorem boundary_sub (hu : UniqSpec uniq) (hs : Simplices (nCorners + 3) simplices)
    (h : fromSimplices uniq (nCorners + 3) simplices = .ok t)
    (hor : isOriented solve t = .ok true) {s : Sub} (hb : boundary solve uniq t = .ok (some s)) :
    WF (nCorners + 2) simplices t ∧ SubOK (nCorners + 1) t (bRows t) s := by
  obtain ⟨n, hn, -, wf⟩ := wf_of_ok hu hs h
  have : n = nCorners + 2 := by omega
  subst this
  obtain ⟨s', hsub, hok⟩ := subTopology_ok hu wf hs (k := nCorners) (by omega) (bRows_mem wf)
  rw [boundary_eq hor, wf.lenB, hsub] at hb
  split at hb
  · simp at hb
  · have : s' = s := by simpa [Except.map] using hb
    subst this
    exact ⟨wf, hok⟩

theorem bset_eq {s : Sub} (hb : boundary solve uniq t = .ok (some s)) (k : Nat) :
    bset solve uniq t k = s.parentIdx[k]?.getD [] := by
  unfold bset boundaryIndices
  rw [hb]

/-- on an oriented mesh `boundary` needs `is_oriented` to be true -/
theorem oriented_of_boundary {b : Option Sub} (hb : boundary solve uniq t = .ok b) :
    isOriented solve t = .ok true := by
  unfold boundary at hb
  cases ho : isOriented solve t with
  | error e => simp [ho, bind, Except.bind] at hb
  | ok o =>
    cases o with
    | true => rfl
    | false => simp [ho, bind, Except.bind] at hb

/-- parents of boundary elements: which stored elements they are -/
theorem mem_parents {k m : Nat} {top : List (List Nat)} (wf : WF (m + 2) top t)
    {rows : List (List Nat)} {s : Sub} (hok : SubOK (m + 1) t rows s)
    (hrows : ∀ r ∈ rows, r ∈ t.elements[m + 1]?.getD [])
    (hk : k ≤ m + 1) {c : Nat} {e : List Nat}
    (hc : (t.elements[k]?.getD [])[c]? = some e) :
    c ∈ s.parentIdx[k]?.getD [] ↔ ∃ r ∈ rows, e.Subperm r := by
  obtain ⟨P, hP, hlen, hidx⟩ := hok.idx k hk
  rw [hP, Option.getD_some]
  have hsr : Simplices (m + 2) rows := fun r hr =>
    (wf.get (k := m) (by omega)).2.1 r (hrows r hr)
  have hf := hok.wf.faces (relabel_simplices rows hsr) (m + 1 - k) k (by omega)
  have hel := (wf.get (k := k) (by omega)).1 e (List.mem_of_getElem? hc)
  constructor
  · intro hcP
    obtain ⟨i, hi, hci⟩ := List.getElem_of_mem hcP
    have hi' : i < (s.topo.elements[k]?.getD []).length := by
      rw [hlen] at hi; exact hi
    obtain ⟨p, e', h1, h2, h3⟩ := hidx i _ (List.getElem?_eq_getElem hi')
    have : p = c := by
      rw [List.getElem?_eq_getElem hi] at h1
      rw [← hci]; exact (Option.some.inj h1).symm
    subst this
    rw [hc] at h2
    have := Option.some.inj h2
    subst this
    obtain ⟨-, l, hl, hsub⟩ := (hf _).1 ⟨_, List.getElem_mem hi', List.Perm.refl _⟩
    refine ⟨l.map (back rows), ?_, h3.subperm.trans (subperm_map _ hsub)⟩
    have : l.map (back rows) ∈ (relabel rows).2.map (fun r => r.map (back rows)) :=
      List.mem_map_of_mem hl
    rwa [relabel_back] at this
  · rintro ⟨r, hr, hsub⟩
    -- the relabelled element
    have hmem : r.map (fresh rows) ∈ (relabel rows).2 := by
      rw [relabel_rows]
      exact List.mem_map_of_mem hr
    obtain ⟨e2, he2, hp2⟩ := (hf (e.map (fresh rows))).2
      ⟨by simpa using hel.1, r.map (fresh rows), hmem, subperm_map _ hsub⟩
    obtain ⟨i, hi, rfl⟩ := List.getElem_of_mem he2
    obtain ⟨p, e', h1, h2, h3⟩ := hidx i _ (List.getElem?_eq_getElem hi)
    have hback : (e.map (fresh rows)).map (back rows) = e := by
      rw [List.map_map]
      conv_rhs => rw [← List.map_id e]
      apply List.map_congr_left
      intro x hx
      exact back_fresh rows hr (hsub.subset hx)
    have hpe : e'.Perm e := by
      have := hp2.map (back rows)
      rw [hback] at this
      exact h3.trans this
    have : p = c := distinct_index (wf.get (k := k) (by omega)).2.2.1 h2 hc hpe
    subst this
    exact List.mem_of_getElem? h1

/-- C11: on an oriented mesh with boundary, the boundary selector picks exactly the elements that
lie in a face belonging to a single simplex. -/
theorem C11_boundary_selector_meaning (hu : UniqSpec uniq)
    (hs : Simplices (nCorners + 3) simplices) (hsat : SatSpec solve)
    (h : fromSimplices uniq (nCorners + 3) simplices = .ok t) (h2 : AtMostTwo simplices)
    {s : Sub} (hb : boundary solve uniq t = .ok (some s)) {k : Nat} (hk : k < nCorners + 2)
    {c : Nat} {e : List Nat} (hc : (t.elements[k]?.getD [])[c]? = some e) :
    (∃ r, RowPicks (selectorBoundary solve uniq t k) r c) ↔
      ∃ f, BoundaryFace simplices f ∧ e.Subperm f := by
  have hor := oriented_of_boundary hb
  obtain ⟨wf, hok⟩ := boundary_sub hu hs h hor hb
  have hco := C08_true_sound hu hs hsat h hor
  obtain ⟨hp, -⟩ := picks_boundary solve uniq t k
  have hcl : c < t.nElements k := (List.getElem?_eq_some_iff.1 hc).1
  have key : (∃ r, RowPicks (selectorBoundary solve uniq t k) r c) ↔
      c ∈ s.parentIdx[k]?.getD [] := by
    rw [← bset_eq hb k]
    constructor
    · rintro ⟨r, hr⟩
      have := List.mem_of_getElem? ((hp.rowPicks r c).1 hr)
      simpa using (List.mem_filter.1 this).2
    · intro hm
      have hmem : c ∈ (List.range (t.nElements k)).filter fun c => c ∈ bset solve uniq t k := by
        simp [hcl, hm]
      obtain ⟨r, hr, hrc⟩ := List.getElem_of_mem hmem
      exact ⟨r, (hp.rowPicks r c).2 (by rw [List.getElem?_eq_getElem hr, hrc])⟩
  rw [key, mem_parents wf hok (bRows_mem wf) (by omega) hc]
  have hbr : ∀ r, r ∈ bRows t ↔ r ∈ t.elements[nCorners + 1]?.getD [] ∧
      BoundaryFace simplices r := by
    intro r
    rw [bRows_eq wf, bIdx_coherent wf (by omega) hs h2 hco]
    constructor
    · intro hm
      obtain ⟨i, hi1, rfl⟩ := List.mem_map.1 hm
      obtain ⟨hr1, hr2⟩ := List.mem_filter.1 hi1
      have hi1' := List.getElem?_eq_getElem (List.mem_range.1 hr1)
      rw [hi1', Option.getD_some]
      refine ⟨List.getElem_mem _, ?_⟩
      rcases wf.rowSum_coherent (by omega) hs h2 hco hi1' with ⟨hbf, -⟩ | ⟨-, hr⟩
      · exact hbf
      · rw [hr] at hr2; simp at hr2
    · rintro ⟨hm, hbf⟩
      obtain ⟨i, hi, rfl⟩ := List.getElem_of_mem hm
      have hi' := List.getElem?_eq_getElem hi
      refine List.mem_map.2 ⟨i, List.mem_filter.2 ⟨List.mem_range.2 hi, ?_⟩, by rw [hi']; rfl⟩
      rcases wf.rowSum_coherent (by omega) hs h2 hco hi' with ⟨-, hr⟩ | ⟨hnb, -⟩
      · rw [hr]; rfl
      · exact absurd hbf hnb
  constructor
  · rintro ⟨r, hr, hsub⟩
    exact ⟨r, ((hbr r).1 hr).2, hsub⟩
  · rintro ⟨f, ⟨j, l, hl, ⟨d, hd, hpd⟩, hun⟩, hsub⟩
    have hf := (wf.get (k := nCorners + 1) (by omega)).2.2.2.1
    rw [wf.top_eq, Option.getD_some] at hf
    obtain ⟨e', he', hp'⟩ := hf.1 l (List.mem_of_getElem? hl) d hd
    have hfe : f.Perm e' := hpd.trans hp'.symm
    refine ⟨e', (hbr e').2 ⟨he', j, l, hl, ⟨d, hd, hp'⟩, ?_⟩, hsub.trans hfe.subperm⟩
    rintro j' l' hj' ⟨d', hd', hpd'⟩
    exact hun j' l' hj' ⟨d', hd', hfe.trans hpd'⟩

/-! ## C12 -/

/-- the boundary selector on the faces picks the boundary faces in stored order -/
theorem picks_faces (hu : UniqSpec uniq) (hs : Simplices (nCorners + 3) simplices)
    (h : fromSimplices uniq (nCorners + 3) simplices = .ok t)
    {s : Sub} (hb : boundary solve uniq t = .ok (some s)) :
    Picks (selectorBoundary solve uniq t (nCorners + 1)) (bIdx t) ∧
      s.topo.nElements (nCorners + 1) = (bIdx t).length := by
  have hor := oriented_of_boundary hb
  obtain ⟨wf, hok⟩ := boundary_sub hu hs h hor hb
  have hlt : ∀ i ∈ bIdx t, i < t.nElements (nCorners + 1) := by
    intro i hi
    rw [bIdx_eq wf] at hi
    exact List.mem_range.1 (List.mem_filter.1 hi).1
  have htop := hok.idx_top wf (wf.get (k := nCorners + 1) (by omega)).2.2.1 hlt (bRows_eq wf)
  obtain ⟨hp, -⟩ := picks_boundary solve uniq t (nCorners + 1)
  rw [bset_eq hb, htop, Option.getD_some] at hp
  have : ((List.range (t.nElements (nCorners + 1))).filter fun c => c ∈ bIdx t) = bIdx t := by
    conv_rhs => rw [bIdx_eq wf]
    apply List.filter_congr
    intro c hc
    rw [bIdx_eq wf]
    simp [List.mem_filter, List.mem_range.1 hc]
  rw [this] at hp
  refine ⟨hp, ?_⟩
  unfold Topo.nElements
  rw [hok.wf.top_eq, Option.getD_some, relabel_rows, List.length_map, bRows_eq wf,
    List.length_map]

/-- the matrix of dual edges to dual vertices, written out -/
theorem dualMatrix_top (hu : UniqSpec uniq) (hs : Simplices (nCorners + 3) simplices)
    (h : fromSimplices uniq (nCorners + 3) simplices = .ok t)
    {s : Sub} (hb : boundary solve uniq t = .ok (some s)) :
    dualMatrix solve uniq t s (nCorners + 1) = .ok
      { rows := t.nElements (nCorners + 2) + s.topo.nElements (nCorners + 1)
        cols := t.nElements (nCorners + 1) + s.topo.nElements nCorners
        entry := fun r c =>
          if c < t.nElements (nCorners + 1) then
            (if r < t.nElements (nCorners + 2) then (t.matrix (nCorners + 1)).entry c r
              else if (bIdx t)[r - t.nElements (nCorners + 2)]? = some c then 1 else 0)
          else (if r < t.nElements (nCorners + 2) then 0 else
            - (s.topo.matrix nCorners).entry (c - t.nElements (nCorners + 1))
              (r - t.nElements (nCorners + 2))) } := by
  have hor := oriented_of_boundary hb
  obtain ⟨wf, hok⟩ := boundary_sub hu hs h hor hb
  obtain ⟨hp, hlen⟩ := picks_faces hu hs h hb
  obtain ⟨-, hcols⟩ := picks_boundary solve uniq t (nCorners + 1)
  obtain ⟨hr, hc⟩ := wf.shape (k := nCorners + 1) (by omega)
  obtain ⟨hr', hc'⟩ := hok.wf.shape (k := nCorners) (by omega)
  unfold dualMatrix dualBlock
  rw [if_neg (show ¬ nCorners + 1 = 0 by omega), Nat.add_sub_cancel, if_pos ⟨by rw [hr, hcols], by rw [hp.2.2.1, hc', hlen]⟩]
  simp only [hr, hc, hr', hp.2.2.1, hp.2.2.2, ← hlen]

/-- C12: on every oriented mesh with boundary in which no face has three simplices, the matrix of
dual edges (one per face, then one per ridge of the boundary) against dual vertices (one per
simplex, then one per boundary face) has all column sums zero: the dual gradient of a constant
is zero. -/
theorem C12_dual_edge_sums (hu : UniqSpec uniq) (hs : Simplices (nCorners + 3) simplices)
    (hsat : SatSpec solve) (h : fromSimplices uniq (nCorners + 3) simplices = .ok t)
    (h2 : AtMostTwo simplices) {s : Sub} (hb : boundary solve uniq t = .ok (some s)) :
    ∃ D, dualMatrix solve uniq t s (nCorners + 1) = .ok D ∧
      D.rows = t.nElements (nCorners + 2) + s.topo.nElements (nCorners + 1) ∧
      D.cols = t.nElements (nCorners + 1) + s.topo.nElements nCorners ∧
      ∀ c < D.cols, ((List.range D.rows).map fun r => D.entry r c).sum = 0 := by
  have hor := oriented_of_boundary hb
  obtain ⟨wf, hok⟩ := boundary_sub hu hs h hor hb
  have hco := C08_true_sound hu hs hsat h hor
  obtain ⟨hp, hlen⟩ := picks_faces hu hs h hb
  obtain ⟨-, hrow, -⟩ := C09_boundary_coherent_and_closed hu hs hsat h h2 hor hb
  refine ⟨_, dualMatrix_top hu hs h hb, rfl, rfl, ?_⟩
  intro c hc
  simp only at hc ⊢
  rw [sum_range_add]
  by_cases hlt : c < t.nElements (nCorners + 1)
  · have e1 : ((List.range (t.nElements (nCorners + 2))).map fun r =>
        if c < t.nElements (nCorners + 1) then
          (if r < t.nElements (nCorners + 2) then (t.matrix (nCorners + 1)).entry c r
              else if (bIdx t)[r - t.nElements (nCorners + 2)]? = some c then 1 else 0)
        else (if r < t.nElements (nCorners + 2) then 0 else
            - (s.topo.matrix nCorners).entry (c - t.nElements (nCorners + 1))
              (r - t.nElements (nCorners + 2)))).sum = rowSum t (nCorners + 1) c := by
      unfold rowSum
      rw [(wf.shape (k := nCorners + 1) (by omega)).2]
      congr 1
      apply List.map_congr_left
      intro r hr
      rw [if_pos hlt, if_pos (List.mem_range.1 hr)]
    have e2 : ((List.range (s.topo.nElements (nCorners + 1))).map fun i =>
        if c < t.nElements (nCorners + 1) then
          (if t.nElements (nCorners + 2) + i < t.nElements (nCorners + 2) then
              (t.matrix (nCorners + 1)).entry c (t.nElements (nCorners + 2) + i)
            else if (bIdx t)[t.nElements (nCorners + 2) + i - t.nElements (nCorners + 2)]? = some c
              then 1 else 0)
        else (if t.nElements (nCorners + 2) + i < t.nElements (nCorners + 2) then 0 else
            - (s.topo.matrix nCorners).entry (c - t.nElements (nCorners + 1))
              (t.nElements (nCorners + 2) + i - t.nElements (nCorners + 2)))).sum =
        if c ∈ bIdx t then 1 else 0 := by
      have hcol := picks_col_total hp (fun _ => 1) c
      have e3 : ∀ i ∈ List.range (s.topo.nElements (nCorners + 1)),
          (if c < t.nElements (nCorners + 1) then
            (if t.nElements (nCorners + 2) + i < t.nElements (nCorners + 2) then
              (t.matrix (nCorners + 1)).entry c (t.nElements (nCorners + 2) + i)
            else if (bIdx t)[t.nElements (nCorners + 2) + i - t.nElements (nCorners + 2)]? = some c
              then 1 else 0)
          else (if t.nElements (nCorners + 2) + i < t.nElements (nCorners + 2) then 0 else
            - (s.topo.matrix nCorners).entry (c - t.nElements (nCorners + 1))
              (t.nElements (nCorners + 2) + i - t.nElements (nCorners + 2)))) =
          1 * (selectorBoundary solve uniq t (nCorners + 1)).entry i c := by
        intro i _
        rw [if_pos hlt, if_neg (by omega), Nat.add_sub_cancel_left, hp.2.2.2, one_mul]
      rw [List.map_congr_left e3, hlen, ← hp.2.2.1]
      by_cases hm : c ∈ bIdx t
      · obtain ⟨q, hq, hqc⟩ := List.getElem_of_mem hm
        rw [if_pos hm, hcol.1 q (by rw [List.getElem?_eq_getElem hq, hqc])]
      · rw [if_neg hm, hcol.2 hm]
    rw [e1, e2]
    have hmem : c ∈ bIdx t ↔ rowSum t (nCorners + 1) c = -1 := by
      rw [bIdx_coherent wf (by omega) hs h2 hco]
      simp [hlt]
    rcases wf.rowSum_coherent (by omega) hs h2 hco (List.getElem?_eq_getElem hlt) with
      ⟨-, hr⟩ | ⟨-, hr⟩
    · rw [hr, if_pos (hmem.2 hr)]; rfl
    · rw [hr, if_neg (by rw [hmem, hr]; decide)]; rfl
  · have e1 : ∀ r ∈ List.range (t.nElements (nCorners + 2)),
        (if c < t.nElements (nCorners + 1) then
          (if r < t.nElements (nCorners + 2) then (t.matrix (nCorners + 1)).entry c r
              else if (bIdx t)[r - t.nElements (nCorners + 2)]? = some c then 1 else 0)
        else (if r < t.nElements (nCorners + 2) then 0 else
            - (s.topo.matrix nCorners).entry (c - t.nElements (nCorners + 1))
              (r - t.nElements (nCorners + 2)))) = (0 : ℤ) := by
      intro r hr
      rw [if_neg hlt, if_pos (List.mem_range.1 hr)]
    have e2 : ∀ i ∈ List.range (s.topo.nElements (nCorners + 1)),
          (if c < t.nElements (nCorners + 1) then
            (if t.nElements (nCorners + 2) + i < t.nElements (nCorners + 2) then
              (t.matrix (nCorners + 1)).entry c (t.nElements (nCorners + 2) + i)
            else if (bIdx t)[t.nElements (nCorners + 2) + i - t.nElements (nCorners + 2)]? = some c
              then 1 else 0)
          else (if t.nElements (nCorners + 2) + i < t.nElements (nCorners + 2) then 0 else
            - (s.topo.matrix nCorners).entry (c - t.nElements (nCorners + 1))
              (t.nElements (nCorners + 2) + i - t.nElements (nCorners + 2)))) =
          (-1) * (s.topo.matrix nCorners).entry (c - t.nElements (nCorners + 1)) i := by
      intro i _
      rw [if_neg hlt, if_neg (by omega), Nat.add_sub_cancel_left, neg_one_mul]
    rw [List.map_congr_left e1, List.map_congr_left e2, List.sum_map_mul_left,
      hrow _ (by omega), mul_zero, add_zero]
    simp

/-- C12: every dual edge that belongs to a face of the mesh has exactly two ends, with opposite
signs: for an interior face its two simplices, for a boundary face its simplex and the dual vertex
of the face itself. -/
theorem C12_dual_edge_two_ends (hu : UniqSpec uniq) (hs : Simplices (nCorners + 3) simplices)
    (hsat : SatSpec solve) (h : fromSimplices uniq (nCorners + 3) simplices = .ok t)
    (h2 : AtMostTwo simplices) {s : Sub} (hb : boundary solve uniq t = .ok (some s)) :
    ∃ D, dualMatrix solve uniq t s (nCorners + 1) = .ok D ∧
      ∀ c < t.nElements (nCorners + 1), ∃ r1 < D.rows, ∃ r2 < D.rows, r1 ≠ r2 ∧
        D.entry r1 c = 1 ∧ D.entry r2 c = -1 ∧
        ∀ r < D.rows, r ≠ r1 → r ≠ r2 → D.entry r c = 0 := by
  have hor := oriented_of_boundary hb
  obtain ⟨wf, hok⟩ := boundary_sub hu hs h hor hb
  have hco := C08_true_sound hu hs hsat h hor
  obtain ⟨hp, hlen⟩ := picks_faces hu hs h hb
  refine ⟨_, dualMatrix_top hu hs h hb, ?_⟩
  intro c hlt
  have hce := List.getElem?_eq_getElem (l := t.elements[nCorners + 1]?.getD []) hlt
  have hrc := wf.rowSum_coherent (by omega) hs h2 hco hce
  have hle := wf.nonzero_le_two hs h2 hce
  have hsh := wf.shape (k := nCorners + 1) (by omega)
  have hpm : ∀ j ∈ nonzeroCols (t.matrix (nCorners + 1)) c, _ := fun j hj =>
    wf.entry_pm hs (by rw [hsh.1]; exact hlt) hj
  have hmem : c ∈ bIdx t ↔ rowSum t (nCorners + 1) c = -1 := by
    rw [bIdx_coherent wf (by omega) hs h2 hco]
    simp [hlt]
  have hrs := rowSum_eq t (nCorners + 1) c
  have hnz : ∀ j, j ∈ nonzeroCols (t.matrix (nCorners + 1)) c ↔
      j < t.nElements (nCorners + 2) ∧ (t.matrix (nCorners + 1)).entry c j ≠ 0 := by
    intro j
    unfold nonzeroCols
    rw [List.mem_filter, List.mem_range, hsh.2]
    simp
  have hz0 : ∀ j < t.nElements (nCorners + 2), j ∉ nonzeroCols (t.matrix (nCorners + 1)) c →
      (t.matrix (nCorners + 1)).entry c j = 0 := by
    intro j hj hn
    by_contra h0
    exact hn ((hnz j).2 ⟨hj, h0⟩)
  have hex : nonzeroCols (t.matrix (nCorners + 1)) c ≠ [] := by
    obtain ⟨l, hl, d, hd, hpd, -⟩ := wf.inherited (nCorners + 1) (by omega) (by omega) _
      (List.mem_of_getElem? hce)
    rw [wf.top_eq, Option.getD_some] at hl
    obtain ⟨j, hj, rfl⟩ := List.getElem_of_mem hl
    have := (wf.mem_nonzeroCols hs hce j).2 ⟨_, List.getElem?_eq_getElem hj, d, hd, hpd⟩
    intro h0
    rw [h0] at this
    simp at this
  simp only [hlt, if_true]
  rcases hzc : nonzeroCols (t.matrix (nCorners + 1)) c with _ | ⟨a, _ | ⟨b, _ | ⟨d, rest⟩⟩⟩
  · exact absurd hzc hex
  · -- one simplex: boundary face
    rw [hzc] at hrs hpm hnz hz0
    simp only [List.map_cons, List.map_nil, List.sum_cons, List.sum_nil, add_zero] at hrs
    have ha := hpm a (by simp)
    have hneg : rowSum t (nCorners + 1) c = -1 := by
      rcases hrc with ⟨-, hr⟩ | ⟨-, hr⟩
      · exact hr
      · rw [hr] at hrs; omega
    obtain ⟨q, hq, hqc⟩ := List.getElem_of_mem (hmem.2 hneg)
    have hal := ((hnz a).1 (by simp)).1
    refine ⟨t.nElements (nCorners + 2) + q, by omega, a, by omega, by omega, ?_, ?_, ?_⟩
    · rw [if_neg (by omega), Nat.add_sub_cancel_left, List.getElem?_eq_getElem hq, hqc, if_pos rfl]
    · rw [if_pos hal]; omega
    · intro r hr hr1 hr2
      by_cases hrl : r < t.nElements (nCorners + 2)
      · rw [if_pos hrl]
        exact hz0 r hrl (by simpa using hr2)
      · rw [if_neg hrl, if_neg]
        intro hrq
        have h1 := List.getElem?_eq_some_iff.1 hrq
        have : r - t.nElements (nCorners + 2) = q :=
          (List.Nodup.getElem_inj_iff hp.1).1 (h1.2.trans hqc.symm)
        omega
  · rw [hzc] at hrs hpm hnz hz0
    simp only [List.map_cons, List.map_nil, List.sum_cons, List.sum_nil, add_zero] at hrs
    have ha := hpm a (by simp)
    have hb' := hpm b (by simp)
    have hzero : rowSum t (nCorners + 1) c = 0 := by
      rcases hrc with ⟨-, hr⟩ | ⟨-, hr⟩
      · rw [hr] at hrs; omega
      · exact hr
    have hnb : c ∉ bIdx t := by rw [hmem, hzero]; decide
    have hal := ((hnz a).1 (by simp)).1
    have hbl := ((hnz b).1 (by simp)).1
    have hab : a ≠ b := by
      have := WF.nonzeroCols_nodup (t.matrix (nCorners + 1)) c
      rw [hzc] at this
      simp at this
      exact this
    have hrest : ∀ r < t.nElements (nCorners + 2) + s.topo.nElements (nCorners + 1), r ≠ a → r ≠ b →
        (if r < t.nElements (nCorners + 2) then (t.matrix (nCorners + 1)).entry c r
          else if (bIdx t)[r - t.nElements (nCorners + 2)]? = some c then 1 else 0) = 0 := by
      intro r hr hr1 hr2
      by_cases hrl : r < t.nElements (nCorners + 2)
      · rw [if_pos hrl]
        exact hz0 r hrl (by simp [hr1, hr2])
      · rw [if_neg hrl, if_neg]
        intro hrq
        exact hnb (List.mem_of_getElem? hrq)
    rcases ha with ha | ha
    · refine ⟨a, by omega, b, by omega, hab, ?_, ?_, hrest⟩
      · rw [if_pos hal]; exact ha
      · rw [if_pos hbl]; omega
    · refine ⟨b, by omega, a, by omega, hab.symm, ?_, ?_, fun r hr h1 h2 => hrest r hr h2 h1⟩
      · rw [if_pos hbl]; omega
      · rw [if_pos hal]; exact ha
  · rw [hzc] at hle; simp at hle

/-! ## C13 -/

/-- the parents picked by the boundary selector, on every level -/
theorem picks_level (hu : UniqSpec uniq) (hs : Simplices (nCorners + 3) simplices)
    (h : fromSimplices uniq (nCorners + 3) simplices = .ok t)
    {s : Sub} (hb : boundary solve uniq t = .ok (some s)) {k : Nat} (hk : k ≤ nCorners + 1) :
    ∃ L, Picks (selectorBoundary solve uniq t k) L ∧ L.length = s.topo.nElements k ∧
      ∀ c, c ∈ L ↔ c ∈ s.parentIdx[k]?.getD [] := by
  have hor := oriented_of_boundary hb
  obtain ⟨wf, hok⟩ := boundary_sub hu hs h hor hb
  obtain ⟨P, hP, hlen, hidx⟩ := hok.idx k hk
  obtain ⟨hp, -⟩ := picks_boundary solve uniq t k
  rw [bset_eq hb, hP, Option.getD_some] at hp
  have hlt : ∀ c ∈ P, c < t.nElements k := by
    intro c hc
    obtain ⟨i, hi, rfl⟩ := List.getElem_of_mem hc
    have hi' : i < (s.topo.elements[k]?.getD []).length := by rw [hlen] at hi; exact hi
    obtain ⟨p, e', h1, h2, -⟩ := hidx i _ (List.getElem?_eq_getElem hi')
    rw [List.getElem?_eq_getElem hi] at h1
    rw [Option.some.inj h1]
    exact (List.getElem?_eq_some_iff.1 h2).1
  have hnd : P.Nodup := by
    rcases Nat.lt_or_ge k (nCorners + 1) with hk' | hk'
    · rw [List.nodup_iff_getElem?_ne_getElem?]
      intro i j hij hj heq
      have hj' : j < (s.topo.elements[k]?.getD []).length := by rw [hlen] at hj; exact hj
      have hi' : i < (s.topo.elements[k]?.getD []).length := by omega
      obtain ⟨p, e1, a1, a2, a3⟩ := hidx i _ (List.getElem?_eq_getElem hi')
      obtain ⟨q, e2, b1, b2, b3⟩ := hidx j _ (List.getElem?_eq_getElem hj')
      rw [heq, b1] at a1
      have hqp := Option.some.inj a1
      subst hqp
      rw [b2] at a2
      have he := Option.some.inj a2
      subst he
      have hperm := a3.symm.trans b3
      rw [perm_map_iff (ψ := fresh (bRows t))
        (fun x hx => fresh_back _ (hok.bound k hk _ (List.getElem_mem hi') x hx))
        (fun x hx => fresh_back _ (hok.bound k hk _ (List.getElem_mem hj') x hx))] at hperm
      have := distinct_index (hok.wf.get (k := k) (by omega)).2.2.1
        (List.getElem?_eq_getElem hi') (List.getElem?_eq_getElem hj') hperm
      omega
    · have : k = nCorners + 1 := by omega
      subst this
      have hblt : ∀ i ∈ bIdx t, i < t.nElements (nCorners + 1) := by
        intro i hi
        rw [bIdx_eq wf] at hi
        exact List.mem_range.1 (List.mem_filter.1 hi).1
      have htop := hok.idx_top wf (wf.get (k := nCorners + 1) (by omega)).2.2.1 hblt (bRows_eq wf)
      rw [hP] at htop
      rw [Option.some.inj htop]
      exact (picks_faces hu hs h hb).1.1
  have hmem : ∀ c, c ∈ ((List.range (t.nElements k)).filter fun c => c ∈ P) ↔ c ∈ P := by
    intro c
    simp only [List.mem_filter, List.mem_range, decide_eq_true_eq]
    exact ⟨fun h => h.2, fun h => ⟨hlt c h, h⟩⟩
  refine ⟨_, hp, ?_, by rw [hP]; exact hmem⟩
  rw [← hlen]
  exact ((List.perm_ext_iff_of_nodup hp.1 hnd).2 hmem).length_eq

/-- C13, closed case: the dual matrices (transposes in reversed order) compose to zero on every
mesh. -/
theorem C13_closed_dual (hu : UniqSpec uniq) (hs : Simplices nCorners simplices)
    (h : fromSimplices uniq nCorners simplices = .ok t) {k : Nat} (hk : k + 2 < nCorners) :
    ∃ P, Mat.mul (closedDualMatrix t (k + 1)) (closedDualMatrix t k) = .ok P ∧
      P.rows = t.nElements (k + 2) ∧ P.cols = t.nElements k ∧ IsZero P := by
  obtain ⟨n, rfl, hn, wf⟩ := wf_of_ok hu hs h
  obtain ⟨h1, h2⟩ := wf.shape (k := k) (by omega)
  obtain ⟨h3, h4⟩ := wf.shape (k := k + 1) (by omega)
  unfold Mat.mul closedDualMatrix Mat.transpose
  simp only [h1, h2, h3, h4, if_true]
  refine ⟨_, rfl, rfl, rfl, ?_⟩
  intro i hi j hj
  simp only at hi hj ⊢
  have := wf.chain (k := k) (by omega) hj hi
  rw [← this]
  congr 1
  apply List.map_congr_left
  intro m _
  ring

/-- C13, mesh with boundary: two consecutive dual matrices compose to zero if and only if the
incidence matrix of the mesh, restricted to the boundary elements as enumerated by the boundary
selectors, is the boundary's own incidence matrix. -/
theorem C13_dual_product_iff (hu : UniqSpec uniq) (hs : Simplices (nCorners + 3) simplices)
    (h : fromSimplices uniq (nCorners + 3) simplices = .ok t)
    {s : Sub} (hb : boundary solve uniq t = .ok (some s)) {k : Nat} (hk : k ≤ nCorners) :
    ∃ D1 D0 P, dualMatrix solve uniq t s (k + 1) = .ok D1 ∧ dualMatrix solve uniq t s k = .ok D0 ∧
      Mat.mul D1 D0 = .ok P ∧ P.rows = D1.rows ∧ P.cols = D0.cols ∧
      (IsZero P ↔ ∀ q a r p, RowPicks (selectorBoundary solve uniq t k) q a →
        RowPicks (selectorBoundary solve uniq t (k + 1)) r p →
        (t.matrix k).entry a p = (s.topo.matrix k).entry q r) := by
  have hor := oriented_of_boundary hb
  obtain ⟨wf, hok⟩ := boundary_sub hu hs h hor hb
  obtain ⟨L0, hp0, hlen0, hmem0⟩ := picks_level hu hs h hb (k := k) (by omega)
  obtain ⟨L1, hp1, hlen1, hmem1⟩ := picks_level hu hs h hb (k := k + 1) (by omega)
  obtain ⟨-, hcols0⟩ := picks_boundary solve uniq t k
  obtain ⟨-, hcols1⟩ := picks_boundary solve uniq t (k + 1)
  obtain ⟨hr0, hc0⟩ := wf.shape (k := k) (by omega)
  obtain ⟨hr1, hc1⟩ := wf.shape (k := k + 1) (by omega)
  obtain ⟨hrB, hcB⟩ := hok.wf.shape (k := k) (by omega)
  have hB0 : (selectorBoundary solve uniq t k).rows =
      (if k = 0 then (⟨0, s.topo.nElements 0, fun _ _ => 0⟩ : Mat Int)
        else s.topo.matrix (k - 1)).cols := by
    rw [hp0.2.2.1, hlen0]
    rcases Nat.eq_zero_or_pos k with rfl | hpos
    · rfl
    · rw [if_neg (by omega), (hok.wf.shape (k := k - 1) (by omega)).2]
      congr 1
      omega
  obtain ⟨D1, D0, P, hD1, hD0, hP, hPr, hPc, b00, b01, b10, b11⟩ := dualBlock_mul
    (t.matrix (k + 1)) (selectorBoundary solve uniq t (k + 1)) (s.topo.matrix k)
    (t.matrix k) (selectorBoundary solve uniq t k)
    (if k = 0 then ⟨0, s.topo.nElements 0, fun _ _ => 0⟩ else s.topo.matrix (k - 1))
    (by rw [hr1, hcols1]) (by rw [hp1.2.2.1, hlen1, hcB]) (by rw [hr0, hcols0]) hB0
    (by rw [hc0, hr1]) (by rw [hp0.2.2.1, hlen0, hrB])
  have hPd : P.rows = D1.rows ∧ P.cols = D0.cols := by
    unfold Mat.mul at hP
    split at hP
    · rw [← Except.ok.inj hP]; exact ⟨rfl, rfl⟩
    · simp at hP
  refine ⟨D1, D0, P, ?_, hD0, hP, hPd.1, hPd.2, ?_⟩
  · unfold dualMatrix
    rw [if_neg (by omega), Nat.add_sub_cancel]
    exact hD1
  -- faces of boundary elements are boundary elements
  have hface : ∀ a < t.nElements k, ∀ p ∈ L1, a ∉ L0 → (t.matrix k).entry a p = 0 := by
    intro a ha p hp hna
    have hpl : p < t.nElements (k + 1) := by rw [← hcols1]; exact hp1.2.1 p hp
    rw [hmem0] at hna
    rw [hmem1] at hp
    have ha' := List.getElem?_eq_getElem (l := t.elements[k]?.getD []) ha
    have hp' := List.getElem?_eq_getElem (l := t.elements[k + 1]?.getD []) hpl
    rw [mem_parents wf hok (bRows_mem wf) (by omega) ha'] at hna
    rw [mem_parents wf hok (bRows_mem wf) (by omega) hp'] at hp
    rw [wf.entry (k := k) (by omega) ha hpl, ha', hp', Option.getD_some, Option.getD_some,
      ← inducedSign_eq_cob]
    obtain ⟨r, hr, hsub⟩ := hp
    have hg := wf.get (k := k) (by omega)
    by_contra hne
    have hne' := right_ne_zero_of_mul hne
    obtain ⟨c, hc, hpc⟩ := (inducedSign_ne_zero (hg.1 _ (List.getElem_mem _)).2
      (hg.2.1 _ (List.getElem_mem _)).2).1 hne'
    exact hna ⟨r, hr, (hpc.subperm.trans (List.eraseIdx_sublist _ _).subperm).trans hsub⟩
  -- the interesting block of the product
  have hblock : ∀ r p, L1[r]? = some p → ∀ a < t.nElements k,
      ((List.range (t.nElements (k + 1))).map fun m =>
        (selectorBoundary solve uniq t (k + 1)).entry r m * (t.matrix k).entry a m).sum +
      ((List.range (s.topo.nElements k)).map fun m =>
        (-(s.topo.matrix k).entry m r) * (selectorBoundary solve uniq t k).entry m a).sum =
      (t.matrix k).entry a p -
        (match L0.idxOf? a with | some q => (s.topo.matrix k).entry q r | none => 0) := by
    intro r p hrp a ha
    have s1 := picks_row_total hp1 (fun m => (t.matrix k).entry a m) hrp
    rw [hcols1] at s1
    rw [s1]
    have s2 := picks_col_total hp0 (fun m => -(s.topo.matrix k).entry m r) a
    rw [hp0.2.2.1, hlen0] at s2
    cases hq : L0.idxOf? a with
    | none =>
      rw [s2.2 (by rwa [List.idxOf?_eq_none_iff] at hq)]
      simp
    | some q =>
      have hq' : L0[q]? = some a := by
        have := List.idxOf?_eq_some_iff.1 hq
        obtain ⟨h1, h2, -⟩ := this
        rw [List.getElem?_eq_getElem h1]
        simpa using h2
      rw [s2.1 q hq']
      simp only
      ring
  rw [hr1, hrB] at b10
  rw [hrB] at b11
  constructor
  · intro hz q a r p hqa hrp
    rw [hp0.rowPicks] at hqa
    rw [hp1.rowPicks] at hrp
    have ha : a < t.nElements k := by
      rw [← hcols0]; exact hp0.2.1 a (List.mem_of_getElem? hqa)
    have hr : r < s.topo.nElements (k + 1) := by
      rw [← hlen1]; exact (List.getElem?_eq_some_iff.1 hrp).1
    have := hz ((t.matrix (k + 1)).cols + r) (by rw [hPr, hp1.2.2.1]; omega) a (by omega)
    rw [b10 r a (by omega), hblock r p hrp a ha] at this
    have hq : L0.idxOf? a = some q := by
      rw [List.idxOf?_eq_some_iff]
      obtain ⟨h1, h2⟩ := List.getElem?_eq_some_iff.1 hqa
      refine ⟨h1, by simpa using h2, ?_⟩
      intro j hj
      have : L0[j] ≠ L0[q] := by
        intro heq
        have := (List.Nodup.getElem_inj_iff hp0.1).1 heq
        omega
      rw [h2] at this
      simpa using this
    rw [hq] at this
    simp only at this
    linarith
  · intro hcomp i hi j hj
    rw [hPr] at hi
    rw [hPc] at hj
    rcases Nat.lt_or_ge i (t.matrix (k + 1)).cols with hi' | hi'
    · rcases Nat.lt_or_ge j (t.matrix k).rows with hj' | hj'
      · rw [b00 i hi' j hj', hr1]
        have := wf.chain (k := k) (by omega) (hr0 ▸ hj') (hc1 ▸ hi')
        rw [← this]
        congr 1
        apply List.map_congr_left
        intro m _
        ring
      · obtain ⟨j', rfl⟩ := Nat.exists_eq_add_of_le hj'
        exact b01 i hi' j'
    · obtain ⟨r, rfl⟩ := Nat.exists_eq_add_of_le hi'
      have hr : r < L1.length := by rw [hp1.2.2.1] at hi; omega
      rcases Nat.lt_or_ge j (t.matrix k).rows with hj' | hj'
      · have hrp := List.getElem?_eq_getElem hr
        rw [b10 r j hj', hblock r _ hrp j (hr0 ▸ hj')]
        cases hq : L0.idxOf? j with
        | none =>
          rw [hface j (hr0 ▸ hj') _ (List.getElem_mem hr) (by rwa [List.idxOf?_eq_none_iff] at hq)]
          rfl
        | some q =>
          have hq' : L0[q]? = some j := by
            obtain ⟨h1, h2, -⟩ := List.idxOf?_eq_some_iff.1 hq
            rw [List.getElem?_eq_getElem h1]
            simpa using h2
          rw [hcomp q j r _ ((hp0.rowPicks q j).2 hq') ((hp1.rowPicks r _).2 hrp)]
          simp
      · obtain ⟨j', rfl⟩ := Nat.exists_eq_add_of_le hj'
        rw [b11]
        rcases Nat.eq_zero_or_pos k with rfl | hpos
        · simp at hj
        · obtain ⟨k', rfl⟩ : ∃ k', k = k' + 1 := ⟨k - 1, by omega⟩
          rw [if_neg (by omega)] at hj ⊢
          rw [Nat.add_sub_cancel] at hj ⊢
          have := hok.wf.chain (k := k') (by omega) (i := j') (m := r)
            (by rw [(hok.wf.shape (k := k') (by omega)).1] at hj; omega)
            (by rw [hlen1] at hr; exact hr)
          rw [← this]
          congr 1
          apply List.map_congr_left
          intro m _
          ring

/-- C13: on every oriented triangle mesh with boundary the two dual matrices compose to zero.  In
dimension three and above this is false in general, see `C13_dual_3d_not_chain`. -/
theorem C13_dual_2d (hu : UniqSpec uniq) (hs : Simplices 3 simplices)
    (h : fromSimplices uniq 3 simplices = .ok t)
    {s : Sub} (hb : boundary solve uniq t = .ok (some s)) :
    ∃ D1 D0 P, dualMatrix solve uniq t s 1 = .ok D1 ∧ dualMatrix solve uniq t s 0 = .ok D0 ∧
      Mat.mul D1 D0 = .ok P ∧ P.rows = D1.rows ∧ P.cols = D0.cols ∧ IsZero P := by
  obtain ⟨D1, D0, P, h1, h2, h3, h4, h5, h6⟩ := C13_dual_product_iff (nCorners := 0) hu hs h hb
    (k := 0) (Nat.le_refl _)
  refine ⟨D1, D0, P, h1, h2, h3, h4, h5, h6.2 ?_⟩
  clear h1 h2 h3 h4 h5 h6 D1 D0 P
  have hor := oriented_of_boundary hb
  obtain ⟨wf, hok⟩ := boundary_sub (nCorners := 0) hu hs h hor hb
  intro q a r p hqa hrp
  -- the vertex selector follows the vertex map, the edge selector the boundary faces
  have hP0 := hok.idx_zero (by omega) (by omega) wf
  obtain ⟨hpe, hlene⟩ := picks_faces (nCorners := 0) hu hs h hb
  obtain ⟨hpv, hcolv⟩ := picks_boundary solve uniq t 0
  rw [bset_eq hb, hP0, Option.getD_some] at hpv
  have hvlt : ∀ v ∈ (relabel (bRows t)).1, v < t.nElements 0 := by
    intro v hv
    obtain ⟨x, hx1, hx2⟩ := (mapping_mem (bRows t) v).1 hv
    obtain ⟨l, hl, hsub⟩ := ((wf.faces hs 1 1 (by omega) x).1
      ⟨x, bRows_mem wf x hx1, List.Perm.refl _⟩).2
    obtain ⟨e, he, hpe⟩ := (wf.faces hs 2 0 (by omega) [v]).2
      ⟨rfl, l, hl, (List.singleton_subperm_iff.2 hx2).trans hsub⟩
    obtain ⟨i, hi, rfl⟩ := List.getElem_of_mem he
    have := wf.vertex (by omega) (List.getElem?_eq_getElem hi)
    rw [this] at hpe
    have : i = v := by simpa using List.singleton_perm_singleton.1 hpe
    subst this
    exact hi
  have hLv : ((List.range (t.nElements 0)).filter fun c => c ∈ (relabel (bRows t)).1) =
      (relabel (bRows t)).1 := by
    apply List.Perm.eq_of_pairwise' (r := (· < ·))
    · exact List.Pairwise.filter _ List.pairwise_lt_range
    · exact mapping_sorted _
    · rw [List.perm_ext_iff_of_nodup (List.nodup_range.filter _) (mapping_nodup _)]
      intro c
      simp only [List.mem_filter, List.mem_range, decide_eq_true_eq]
      exact ⟨fun h => h.2, fun h => ⟨hvlt c h, h⟩⟩
  rw [hLv] at hpv
  rw [hpv.rowPicks] at hqa
  rw [hpe.rowPicks] at hrp
  -- elements
  have ha : a < t.nElements 0 := by rw [← hcolv]; exact hpv.2.1 a (List.mem_of_getElem? hqa)
  have hp : p < t.nElements 1 := by
    have := hpe.2.1 p (List.mem_of_getElem? hrp)
    rwa [(picks_boundary solve uniq t 1).2] at this
  have hr : r < s.topo.nElements 1 := by
    rw [hlene]; exact (List.getElem?_eq_some_iff.1 hrp).1
  have hq : q < s.topo.nElements 0 := by
    obtain ⟨P, hP, hlen, -⟩ := hok.idx 0 (by omega)
    rw [hP0] at hP
    rw [← hlen, ← Option.some.inj hP]
    exact (List.getElem?_eq_some_iff.1 hqa).1
  rw [wf.entry (k := 0) (by omega) ha hp, hok.wf.entry (k := 0) (by omega) hq hr]
  have ha' := List.getElem?_eq_getElem (l := t.elements[0]?.getD []) ha
  have hq' := List.getElem?_eq_getElem (l := s.topo.elements[0]?.getD []) hq
  have hr' := List.getElem?_eq_getElem (l := s.topo.elements[1]?.getD []) hr
  have va := wf.vertex (by omega) ha'
  have vq := hok.wf.vertex (by omega) hq'
  rw [ha', hq', hr', Option.getD_some, Option.getD_some, Option.getD_some,
    ← inducedSign_eq_cob, ← inducedSign_eq_cob]
  have hib := inducedSign_back hok (j := 0) (by omega)
      (List.getElem_mem (l := s.topo.elements[0]?.getD []) hq)
      (l := (s.topo.elements[1]?.getD [])[r]) (by
        have hE : (relabel (bRows t)).2 = s.topo.elements[1]?.getD [] := by
          rw [hok.wf.top_eq, Option.getD_some]
        rw [hE]
        exact List.getElem_mem _)
  rw [← hib]
  congr 1
  rw [va, vq]
  have hback : back (bRows t) q = a := by
    unfold back
    rw [hqa]
    rfl
  have hrow : (s.topo.elements[1]?.getD [])[r].map (back (bRows t)) =
      (t.elements[1]?.getD [])[p]?.getD [] := by
    have e1 : (bRows t)[r]? = some ((t.elements[1]?.getD [])[p]?.getD []) := by
      rw [bRows_eq wf, List.getElem?_map, hrp]
      rfl
    have e2 := congrArg (fun l => l[r]?) (relabel_back (bRows t))
    simp only [List.getElem?_map, e1] at e2
    have e3 : (relabel (bRows t)).2[r]? = some (s.topo.elements[1]?.getD [])[r] := by
      rw [← hr', hok.wf.top_eq, Option.getD_some]
    rw [e3] at e2
    simpa using e2
  rw [hrow]
  simp [hback]

/-! ### refutation in three dimensions, and examples -/

/-- lexicographic order of rows -/
def lexLe : List Nat → List Nat → Bool
  | [], _ => true
  | _, [] => false
  | a :: s, b :: t => a < b || (a == b && lexLe s t)

/-- distinct rows in lexicographic order -/
def lexUniq (rows : List (List Nat)) : List (List Nat) :=
  rows.dedup.insertionSort fun a b => lexLe a b = true

theorem uniqSpec_lexUniq : UniqSpec lexUniq := by
  intro rows
  unfold lexUniq
  refine ⟨(List.perm_insertionSort _ _).nodup_iff.2 (List.nodup_dedup rows), fun r => ?_⟩
  rw [(List.perm_insertionSort _ _).mem_iff, List.mem_dedup]

/-- two tetrahedra on a common face -/
def twoTets : List (List Nat) := [[0, 1, 2, 3], [2, 0, 3, 4]]

/-- its topology -/
def twoTetsTopo : Topo :=
  match fromSimplices lexUniq 4 twoTets with
  | .ok t => t
  | .error _ => ⟨[], [], []⟩

/-- its boundary -/
def twoTetsBoundary : Sub :=
  match subTopology lexUniq 3 twoTetsTopo (bRows twoTetsTopo) with
  | .ok s => s
  | .error _ => ⟨⟨[], [], []⟩, []⟩

theorem twoTets_built : fromSimplices lexUniq 4 twoTets = .ok twoTetsTopo := by decide +kernel

theorem twoTets_simplices : Simplices 4 twoTets := simplices_of_all (by decide)

theorem twoTets_coherent : Coherent twoTets := by
  obtain ⟨n, hn, -, wf⟩ := wf_of_ok uniqSpec_lexUniq twoTets_simplices twoTets_built
  have : n = 3 := by omega
  subst this
  rw [← reorient_false twoTets,
    ← wf.satisfies_iff_coherent twoTets_simplices (fun _ => false)]
  decide +kernel

theorem twoTets_boundary {solve : List (List Int) → Option (List Int)}
    (hor : isOriented solve twoTetsTopo = .ok true) :
    boundary solve lexUniq twoTetsTopo = .ok (some twoTetsBoundary) := by
  rw [boundary_eq hor]
  decide +kernel

/-- the boundary selector once the boundary is known -/
theorem selectorBoundary_of {s : Sub} (hb : boundary solve uniq t = .ok (some s)) {k : Nat}
    {idx : List Nat} (hidx : s.parentIdx[k]? = some idx) :
    selectorBoundary solve uniq t k =
      selectionMatrix (assign (List.replicate (t.nElements k) 0) idx 1) := by
  unfold selectorBoundary boundaryIndices
  rw [hb]
  simp only [hidx]

/-- C13, refutation: two coherently oriented tetrahedra on a common face.  Whatever the solver
answers (as long as `is_oriented` holds, as it does for every correct solver on this connected
mesh), both products of consecutive dual matrices are non-zero, because the edges of the boundary
are stored with another direction than in the mesh. -/
theorem C13_dual_3d_not_chain : Simplices 4 twoTets ∧ AtMostTwo twoTets ∧ Coherent twoTets ∧
    fromSimplices lexUniq 4 twoTets = .ok twoTetsTopo ∧
    (∃ solve, SatSpec solve ∧ isOriented solve twoTetsTopo = .ok true) ∧
    ∀ solve, isOriented solve twoTetsTopo = .ok true → ∃ s D2 D1 D0 P Q,
      boundary solve lexUniq twoTetsTopo = .ok (some s) ∧
      dualMatrix solve lexUniq twoTetsTopo s 2 = .ok D2 ∧
      dualMatrix solve lexUniq twoTetsTopo s 1 = .ok D1 ∧
      dualMatrix solve lexUniq twoTetsTopo s 0 = .ok D0 ∧
      Mat.mul D2 D1 = .ok P ∧ Mat.mul D1 D0 = .ok Q ∧ ¬ IsZero P ∧ ¬ IsZero Q := by
  refine ⟨twoTets_simplices, atMostTwo_of_check (by decide +kernel), twoTets_coherent,
    twoTets_built, C08_coherent_some_solver uniqSpec_lexUniq twoTets_simplices twoTets_built
      (by decide) twoTets_coherent, ?_⟩
  intro solve hor
  have hb := twoTets_boundary hor
  have hs1 := selectorBoundary_of (k := 1) hb (idx := [0, 1, 2, 3, 4, 5, 6, 7, 8])
    (by decide +kernel)
  have hs2 := selectorBoundary_of (k := 2) hb (idx := [0, 1, 3, 4, 5, 6]) (by decide +kernel)
  have hs0 := selectorBoundary_of (k := 0) hb (idx := [0, 1, 2, 3, 4]) (by decide +kernel)
  obtain ⟨D2, D1, P, h2, h1, hP, hPr, hPc, hiff⟩ := C13_dual_product_iff (nCorners := 1)
    uniqSpec_lexUniq twoTets_simplices twoTets_built hb (k := 1) (by omega)
  obtain ⟨D1', D0, Q, h1', h0, hQ, hQr, hQc, hiff'⟩ := C13_dual_product_iff (nCorners := 1)
    uniqSpec_lexUniq twoTets_simplices twoTets_built hb (k := 0) (by omega)
  rw [h1] at h1'
  have := Except.ok.inj h1'
  subst this
  refine ⟨_, D2, D1, D0, P, Q, hb, h2, h1, h0, hP, hQ, ?_, ?_⟩
  · rw [hiff, hs1, hs2]
    intro hall
    have := hall 6 6 4 5 (((picks_selectionMatrix _).rowPicks _ _).2 (by decide +kernel))
      (((picks_selectionMatrix _).rowPicks _ _).2 (by decide +kernel))
    exact absurd this (by decide +kernel)
  · rw [hiff', hs1, hs0]
    intro hall
    have := hall 2 2 6 6 (((picks_selectionMatrix _).rowPicks _ _).2 (by decide +kernel))
      (((picks_selectionMatrix _).rowPicks _ _).2 (by decide +kernel))
    exact absurd this (by decide +kernel)

/-- example: the same mesh meets the hypotheses of C11, C12 and C13 (with boundary), and a pair of
triangles those of the two-dimensional theorem. -/
example : ∃ solve s, SatSpec solve ∧ isOriented solve twoTetsTopo = .ok true ∧
    boundary solve lexUniq twoTetsTopo = .ok (some s) ∧ s.topo.nElements 2 = 6 := by
  obtain ⟨solve, hsat, hor⟩ := C08_coherent_some_solver uniqSpec_lexUniq twoTets_simplices
    twoTets_built (by decide) twoTets_coherent
  exact ⟨solve, _, hsat, hor, twoTets_boundary hor, by decide +kernel⟩

example : ∃ solve s, boundary solve List.dedup (built 3 [[0, 1, 2], [2, 1, 3]]) = .ok (some s) := by
  have hs : Simplices 3 [[0, 1, 2], [2, 1, 3]] := simplices_of_all (by decide)
  have hf : fromSimplices List.dedup 3 [[0, 1, 2], [2, 1, 3]] =
    .ok (built 3 [[0, 1, 2], [2, 1, 3]]) := by decide +kernel
  have hco : Coherent [[0, 1, 2], [2, 1, 3]] := by
    rw [← reorient_false [[0, 1, 2], [2, 1, 3]],
      ← (wf_built hs hf).satisfies_iff_coherent hs (fun _ => false)]
    decide +kernel
  obtain ⟨solve, hsat, hor⟩ := C08_coherent_some_solver uniqSpec_dedup hs hf (by simp) hco
  refine ⟨solve, (match subTopology List.dedup 2 (built 3 [[0, 1, 2], [2, 1, 3]])
    (bRows (built 3 [[0, 1, 2], [2, 1, 3]])) with | .ok s => s | .error _ => ⟨⟨[], [], []⟩, []⟩), ?_⟩
  rw [boundary_eq hor]
  decide +kernel

end Verif.Props
