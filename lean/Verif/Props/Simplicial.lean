/-
C03 - C06: simplicial topologies built by `TopologySimplicial.from_simplices`.
-/
import Verif.Lemmas.Chain

namespace Verif.Props

open Verif.Model Verif.Spec

variable {uniq : List (List Nat) → List (List Nat)} {nCorners : Nat}
  {simplices : List (List Nat)} {t : Topo}

theorem wf_of_ok (hu : UniqSpec uniq) (hs : Simplices nCorners simplices)
    (h : fromSimplices uniq nCorners simplices = .ok t) :
    ∃ n, nCorners = n + 1 ∧ 1 ≤ n ∧ WF n simplices t := by
  cases nCorners with
  | zero => simp [fromSimplices] at h
  | succ n =>
    obtain ⟨h1, h2⟩ := fromSimplices_wf hu hs h
    exact ⟨n, rfl, h1, h2⟩

/-! ## C03 -/

/-- C03: the product of any two consecutive incidence matrices exists (the shapes match) and is
zero, for every mesh, every dimension and every grouping order. -/
theorem C03_boundary_of_boundary (hu : UniqSpec uniq) (hs : Simplices nCorners simplices)
    (h : fromSimplices uniq nCorners simplices = .ok t) (k : Nat)
    (hk : k + 1 < t.boundary.length) :
    ∃ M, (t.matrix k).mul (t.matrix (k + 1)) = .ok M ∧
      M.rows = t.nElements k ∧ M.cols = t.nElements (k + 2) ∧
      ∀ i < M.rows, ∀ j < M.cols, M.entry i j = 0 := by
  obtain ⟨n, rfl, hn, wf⟩ := wf_of_ok hu hs h
  rw [wf.lenB] at hk
  have s1 := wf.shape (k := k) (by omega)
  have s2 := wf.shape (k := k + 1) hk
  refine ⟨⟨_, _, _⟩, if_pos (by rw [s1.2, s2.1]), s1.1, s2.2, ?_⟩
  intro i hi j hj
  simp only
  rw [s1.2]
  exact wf.chain hk (by rw [← s1.1]; exact hi) (by rw [← s2.2]; exact hj)

/-- C03, domain of the theorem: for simplices with at least two corners, all distinct,
construction succeeds exactly when the corners used are `0, ..., m-1` for some `m`. -/
theorem C03_accepts_iff (hu : UniqSpec uniq) (hs : Simplices (nCorners + 2) simplices) :
    (∃ t, fromSimplices uniq (nCorners + 2) simplices = .ok t) ↔
      ∃ m, ∀ v, (∃ l ∈ simplices, v ∈ l) ↔ v < m := by
  obtain ⟨t', ht', hb⟩ := lowerLevels_built hu (nCorners + 1) hs
  have h0 := hb.faces_zero hs (nCorners + 1) 0 (by omega)
  obtain ⟨E, F, B, O, g1, g2, g3, g4, g5, g6, g7, g8, g9⟩ := hb.level 0 (by omega)
  rw [g1, Option.getD_some] at h0
  have hE : t'.elements ≠ [] := by
    intro he; rw [he] at g1; simp at g1
  obtain ⟨e0, rest, he⟩ := List.exists_cons_of_ne_nil hE
  have : e0 = E := by rw [he] at g1; simpa using g1
  subst this
  have hfr : fromSimplices uniq (nCorners + 2) simplices =
      if e0.flatten = List.range e0.length then .ok t' else .error .valueError := by
    simp only [fromSimplices, ht', bind, Except.bind, checkTopo, he]
  -- vertices are singletons
  have hsing : ∀ e ∈ e0, ∃ v, e = [v] := by
    intro e hee
    have := (g5 e hee).1
    rcases e with _ | ⟨a, _ | ⟨b, c⟩⟩
    · simp at this
    · exact ⟨a, rfl⟩
    · simp at this
  have hmemf : ∀ v, v ∈ e0.flatten ↔ ∃ l ∈ simplices, v ∈ l := by
    intro v
    rw [← h0 v, List.mem_flatten]
  rw [hfr]
  constructor
  · rintro ⟨t, ht⟩
    split at ht
    · next hc =>
      refine ⟨e0.length, fun v => ?_⟩
      rw [← hmemf, hc, List.mem_range]
    · simp at ht
  · rintro ⟨m, hm⟩
    -- the vertex level is the sorted list of distinct vertices
    have hsorted : ∃ L : List Nat, e0 = (npUnique L).map (fun v => [v]) := by
      have key : ∀ n (F : List (List Nat)) t, lowerLevels uniq (n + 1) F = .ok t →
          Simplices (n + 2) F →
          ∃ L : List Nat, t.elements[0]? = some ((npUnique L).map (fun v => [v])) := by
        intro n
        induction n with
        | zero =>
          intro F t h _
          simp only [lowerLevels, constructLower, if_true, bind, Except.bind] at h
          have := Except.ok.inj h
          subst this
          exact ⟨F.flatten, rfl⟩
        | succ n ih =>
          intro F t h hF
          obtain ⟨E1, B1, O1, q1, q2, -⟩ := constructLower_general hu (k := n + 1) (by omega) hF
          rw [lowerLevels] at h
          simp only [q1, bind, Except.bind] at h
          obtain ⟨t1, ht1, hb1⟩ := lowerLevels_built hu (n + 1) q2
          rw [ht1] at h
          have := Except.ok.inj h
          subst this
          obtain ⟨L, hL⟩ := ih E1 t1 ht1 q2
          refine ⟨L, ?_⟩
          simp only
          rw [List.getElem?_append_left (by rw [hb1.lenE]; omega)]
          exact hL
      obtain ⟨L, hL⟩ := key nCorners simplices t' ht' hs
      rw [g1] at hL
      exact ⟨L, Option.some.inj hL⟩
    obtain ⟨L, hL⟩ := hsorted
    have hfl : e0.flatten = npUnique L := by
      rw [hL]
      generalize npUnique L = l
      induction l with
      | nil => rfl
      | cons a t ih => simp [ih]
    have hlen : e0.length = (npUnique L).length := by rw [hL, List.length_map]
    have hmem' : ∀ v, v ∈ npUnique L ↔ v < m := by
      intro v; rw [← hfl, hmemf, hm]
    have hperm : (npUnique L).Perm (List.range m) := by
      rw [List.perm_ext_iff_of_nodup (npUnique_nodup L) List.nodup_range]
      intro a; rw [hmem', List.mem_range]
    have heq : npUnique L = List.range m :=
      List.Perm.eq_of_pairwise' (r := (· ≤ ·)) (sortRow_sorted _) List.pairwise_le_range hperm
    refine ⟨t', ?_⟩
    rw [if_pos]
    rw [hfl, hlen, heq, List.length_range]

/-- C03: one-cornered input (isolated points) is rejected with an assertion error. -/
theorem C03_points_rejected (uniq : List (List Nat) → List (List Nat)) (s : List (List Nat)) :
    fromSimplices uniq 1 s = .error .assertionError := rfl

/-! ## C04 -/

/-- C04: below the top level, a corner list `s` is (a rearrangement of) a stored `k`-element
exactly when it consists of `k + 1` corners of one input simplex. -/
theorem C04_elements_are_faces (hu : UniqSpec uniq) (hs : Simplices nCorners simplices)
    (h : fromSimplices uniq nCorners simplices = .ok t) (k : Nat)
    (hk : k + 1 ≤ nCorners) (s : List Nat) :
    (∃ e ∈ t.elements[k]?.getD [], e.Perm s) ↔
      s.length = k + 1 ∧ ∃ l ∈ simplices, s.Subperm l := by
  obtain ⟨n, rfl, hn, wf⟩ := wf_of_ok hu hs h
  exact wf.faces hs (n - k) k (by omega) s

/-- C04: no two `k`-elements below the top level have the same corner set. -/
theorem C04_elements_distinct (hu : UniqSpec uniq) (hs : Simplices nCorners simplices)
    (h : fromSimplices uniq nCorners simplices = .ok t) (k : Nat) (hk : k + 1 < nCorners)
    (i j : Nat) (a b : List Nat) (hi : (t.elements[k]?.getD [])[i]? = some a)
    (hj : (t.elements[k]?.getD [])[j]? = some b) (hab : a.Perm b) : i = j := by
  obtain ⟨n, rfl, hn, wf⟩ := wf_of_ok hu hs h
  obtain ⟨h1, h2, h3, h4, h5⟩ := wf.get (k := k) (by omega)
  exact distinct_index h3 hi hj hab

/-- C04: the top level is the input array itself (repeated simplices stay repeated). -/
theorem C04_top_level (hu : UniqSpec uniq) (hs : Simplices nCorners simplices)
    (h : fromSimplices uniq nCorners simplices = .ok t) :
    t.elements.length = nCorners ∧ t.elements[nCorners - 1]? = some simplices := by
  obtain ⟨n, rfl, hn, wf⟩ := wf_of_ok hu hs h
  exact ⟨wf.lenE, wf.top_eq⟩

/-! ## C05 -/

/-- C05: slot `c` of the boundary of a `(k+1)`-element refers to the `k`-element whose corners are
those of the element without the opposite corner (corner `c` itself for `k ≥ 1`; for edges the
stored end points are in corner order). -/
theorem C05_boundary_slot (hu : UniqSpec uniq) (hs : Simplices nCorners simplices)
    (h : fromSimplices uniq nCorners simplices = .ok t) (k : Nat) (hk : k + 1 < nCorners)
    (j : Nat) (l : List Nat) (hj : (t.elements[k + 1]?.getD [])[j]? = some l)
    (c : Nat) (hc : c ≤ k + 1) :
    ∃ b i e, (t.boundary[k]?.getD [])[j]? = some b ∧ b.length = k + 2 ∧ b[c]? = some i ∧
      (t.elements[k]?.getD [])[i]? = some e ∧
      e.Perm (l.eraseIdx (if k = 0 then 1 - c else c)) := by
  obtain ⟨n, rfl, hn, wf⟩ := wf_of_ok hu hs h
  obtain ⟨h1, h2, h3, h4, h5⟩ := wf.get (k := k) (by omega)
  obtain ⟨b, o, q1, q2, q3, q4, q5⟩ := h5.2.2 j l hj
  obtain ⟨i, s, e, r1, r2, r3, r4, -⟩ := q5 c (by omega)
  exact ⟨b, i, e, q1, q3, r1, r3, r4⟩

/-- C05: an incidence entry is non-zero exactly when the row element is a face of the column
element, and is then `+1` or `-1`. -/
theorem C05_entry_nonzero_iff (hu : UniqSpec uniq) (hs : Simplices nCorners simplices)
    (h : fromSimplices uniq nCorners simplices = .ok t) (k : Nat) (hk : k + 1 < nCorners)
    (i j : Nat) (e l : List Nat) (hi : (t.elements[k]?.getD [])[i]? = some e)
    (hj : (t.elements[k + 1]?.getD [])[j]? = some l) :
    ((t.matrix k).entry i j = 1 ∨ (t.matrix k).entry i j = -1 ∨ (t.matrix k).entry i j = 0) ∧
    ((t.matrix k).entry i j ≠ 0 ↔ ∃ c < l.length, e.Perm (l.eraseIdx c)) := by
  obtain ⟨n, rfl, hn, wf⟩ := wf_of_ok hu hs h
  obtain ⟨h1, h2, h3, h4, h5⟩ := wf.get (k := k) (by omega)
  have hE := entry_eq_cob h2 h3 h5 hi hj
  have hl : l.Nodup := (h2 l (List.mem_of_getElem? hj)).2
  have he : e.Nodup := (h1 e (List.mem_of_getElem? hi)).2
  have hE' : (t.matrix k).entry i j = levelSign k * cob (relSign e) l := hE
  have hls : levelSign k = 1 ∨ levelSign k = -1 := by
    unfold levelSign; split <;> simp
  by_cases hf : ∃ c < l.length, e.Perm (l.eraseIdx c)
  · obtain ⟨c, hc, hp⟩ := hf
    rw [cob_relSign_face hl hc hp] at hE'
    have hsg := relSign_eq_one_or he hp.symm
    have hpw : ((-1 : ℤ) ^ c) = 1 ∨ ((-1 : ℤ) ^ c) = -1 := neg_one_pow_eq_or ℤ c
    have hv : (t.matrix k).entry i j = 1 ∨ (t.matrix k).entry i j = -1 := by
      rw [hE']
      rcases hls with a | a <;> rcases hsg with b | b <;> rcases hpw with d | d <;>
        rw [a, b, d] <;> decide
    refine ⟨by tauto, fun _ => ⟨c, hc, hp⟩, fun _ => ?_⟩
    rcases hv with a | a <;> rw [a] <;> decide
  · have : (t.matrix k).entry i j = 0 := by
      rw [hE', cob_relSign_not_face, mul_zero]
      intro c hc hp
      exact hf ⟨c, hc, hp⟩
    exact ⟨Or.inr (Or.inr this), fun hne => absurd this hne, fun hx => absurd hx hf⟩

/-- C05: every column of the `k`-th incidence matrix has exactly `k + 2` non-zero entries. -/
theorem C05_column_count (hu : UniqSpec uniq) (hs : Simplices nCorners simplices)
    (h : fromSimplices uniq nCorners simplices = .ok t) (k : Nat) (hk : k + 1 < nCorners)
    (j : Nat) (hj : j < t.nElements (k + 1)) :
    ((List.range (t.nElements k)).filter fun i => (t.matrix k).entry i j ≠ 0).length = k + 2 := by
  have hwf := wf_of_ok hu hs h
  obtain ⟨n, rfl, hn, wf⟩ := hwf
  obtain ⟨h1, h2, h3, h4, h5⟩ := wf.get (k := k) (by omega)
  unfold Topo.nElements at hj
  obtain ⟨b, o, q1, q2, q3, q4, q5⟩ := h5.2.2 j _ (List.getElem?_eq_getElem hj)
  have hlmem := List.getElem_mem hj
  set l := (t.elements[k + 1]?.getD [])[j] with hl
  obtain ⟨hlen, hnd⟩ := h2 l hlmem
  -- the non-zero rows are a rearrangement of the boundary slots
  have hb : ((List.range (t.nElements k)).filter fun i => (t.matrix k).entry i j ≠ 0).Perm b := by
    rw [List.perm_ext_iff_of_nodup (List.nodup_range.filter _)]
    · intro i
      rw [List.mem_filter, List.mem_range]
      simp only [decide_eq_true_eq]
      constructor
      · rintro ⟨hi, hne⟩
        unfold Topo.nElements at hi
        obtain ⟨c, hc, hp⟩ := (C05_entry_nonzero_iff hu hs h k hk i j _ l
          (List.getElem?_eq_getElem hi) (List.getElem?_eq_getElem hj)).2.1 hne
        have hopp : ∃ d < k + 2, oppositeCorner k d = c := by
          unfold oppositeCorner
          rcases Nat.eq_zero_or_pos k with rfl | hk0
          · exact ⟨1 - c, by omega, by simp; omega⟩
          · exact ⟨c, by omega, by rw [if_neg (by omega)]⟩
        obtain ⟨d, hd, rfl⟩ := hopp
        obtain ⟨i', s, e, r1, r2, r3, r4, -⟩ := q5 d hd
        have : i' = i := distinct_index h3 r3 (List.getElem?_eq_getElem hi) (r4.trans hp.symm)
        subst this
        exact List.mem_of_getElem? r1
      · intro hi
        obtain ⟨c, hc, rfl⟩ := List.getElem_of_mem hi
        obtain ⟨i', s, e, r1, r2, r3, r4, -⟩ := q5 c (by omega)
        rw [List.getElem?_eq_getElem hc] at r1
        have := Option.some.inj r1
        rw [this]
        refine ⟨(List.getElem?_eq_some_iff.1 r3).1, ?_⟩
        refine (C05_entry_nonzero_iff hu hs h k hk i' j e l r3
          (List.getElem?_eq_getElem hj)).2.2 ⟨_, ?_, r4⟩
        unfold oppositeCorner
        split <;> omega
    · rw [List.nodup_iff_injective_getElem]
      intro c d hcd
      obtain ⟨i, s, e, r1, r2, r3, r4, -⟩ := q5 c (by have := c.2; omega)
      obtain ⟨i', s', e', r1', r2', r3', r4', -⟩ := q5 d (by have := d.2; omega)
      rw [List.getElem?_eq_getElem c.2] at r1
      rw [List.getElem?_eq_getElem d.2] at r1'
      have e1 := Option.some.inj r1
      have e2 := Option.some.inj r1'
      simp only at hcd
      rw [e1, e2] at hcd
      subst hcd
      rw [r3] at r3'
      have e3 := Option.some.inj r3'
      subst e3
      have e4 := eraseIdx_perm_inj hnd (c := oppositeCorner k c) (d := oppositeCorner k d)
        (by have := c.2; unfold oppositeCorner; split <;> omega) (r4.symm.trans r4')
      unfold oppositeCorner at e4
      have := c.2
      have := d.2
      split at e4 <;> apply Fin.ext <;> omega
  rw [hb.length_eq, q3]

/-! ## C06 -/

/-- C06: the incidence sign between an element and its face opposite corner `c` is, up to the
convention `+1` for edges and `-1` above, `(-1)^c` times the sign of the rearrangement between
the element's remaining corners and the stored corner order of the face. -/
theorem C06_induced_sign (hu : UniqSpec uniq) (hs : Simplices nCorners simplices)
    (h : fromSimplices uniq nCorners simplices = .ok t) (k : Nat) (hk : k + 1 < nCorners)
    (i j : Nat) (e l : List Nat) (hi : (t.elements[k]?.getD [])[i]? = some e)
    (hj : (t.elements[k + 1]?.getD [])[j]? = some l) (c : Nat) (hc : c < l.length)
    (hp : e.Perm (l.eraseIdx c)) :
    (t.matrix k).entry i j =
      (if k = 0 then 1 else -1) * ((-1) ^ c * relSign e (l.eraseIdx c)) := by
  obtain ⟨n, rfl, hn, wf⟩ := wf_of_ok hu hs h
  obtain ⟨h1, h2, h3, h4, h5⟩ := wf.get (k := k) (by omega)
  have hE : (t.matrix k).entry i j = levelSign k * cob (relSign e) l :=
    entry_eq_cob h2 h3 h5 hi hj
  rw [hE, cob_relSign_face (h2 l (List.mem_of_getElem? hj)).2 hc hp]
  rfl

/-! ## non-vacuity: two tetrahedra glued along a face -/

theorem uniqSpec_dedup : UniqSpec List.dedup := fun rows =>
  ⟨List.nodup_dedup rows, fun _ => List.mem_dedup⟩

example : Simplices 4 [[0, 1, 2, 3], [4, 2, 1, 3]] := by
  intro e he
  simp only [List.mem_cons, List.not_mem_nil, or_false] at he
  rcases he with rfl | rfl <;> exact ⟨rfl, by decide⟩

example : ∃ t, fromSimplices List.dedup 4 [[0, 1, 2, 3], [4, 2, 1, 3]] = .ok t ∧
    1 + 1 < t.boundary.length ∧ t.nElements 2 = 7 ∧ t.nElements 1 = 9 := by
  refine ⟨_, rfl, ?_⟩
  decide +kernel

example : ∃ v, ¬ ∃ t, fromSimplices List.dedup 3 [[0, 1, v]] = .ok t := by
  refine ⟨3, ?_⟩
  rintro ⟨t, ht⟩
  have : (fromSimplices List.dedup 3 [[0, 1, 3]]) = .error .valueError := by decide +kernel
  rw [this] at ht
  simp at ht

end Verif.Props
