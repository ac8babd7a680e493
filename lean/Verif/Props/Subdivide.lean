/-
C14, C15: fundamental domains and the subdivision into them.
-/
import Verif.Lemmas.Fundamental
import Verif.Props.Boundary

namespace Verif.Props

open Verif.Model Verif.Spec

variable {uniq : List (List Nat) → List (List Nat)} {nCorners : Nat}
  {simplices : List (List Nat)} {t : Topo}

/-! ## C14 -/

theorem flag_inj {n : Nat} {top : List (List Nat)} (wf : WF (n + 1) top t)
    (htop : Simplices (n + 2) top) {l w w' : List Nat} (hl : l ∈ top) (hw : w.Perm l)
    (hw' : w'.Perm l) (he : flagOf t.elements n w = flagOf t.elements n w') : w = w' := by
  have l1 := hw.length_eq.trans (htop l hl).1
  have l2 := hw'.length_eq.trans (htop l hl).1
  apply eq_of_take_perm (by omega)
  intro k hk
  rcases Nat.lt_or_ge k (n + 2) with h | h
  · cases k with
    | zero => simp
    | succ k => exact wf.flagOf_eq_take htop hl hl hw hw' (by omega) (by rw [he])
  · rw [List.take_of_length_le (by omega), List.take_of_length_le (by omega)]
    exact hw.trans hw'.symm

/-- C14: `fundamental_domains` succeeds on every constructed topology.  The block of the `j`-th
simplex has `(n+1)!` rows, no row twice, and a row of element numbers occurs in it exactly when it
is a complete flag (vertex in edge in ... in simplex `j`). -/
theorem C14_domains_are_flags (hu : UniqSpec uniq) (hs : Simplices nCorners simplices)
    (h : fromSimplices uniq nCorners simplices = .ok t) :
    ∃ doms, fundamentalDomains t = .ok doms ∧ doms.length = simplices.length ∧
      ∀ (j : Nat) (ds : List (List Nat)), doms[j]? = some ds →
        ds.length = nCorners.factorial ∧ ds.Nodup ∧
        ∀ d, d ∈ ds ↔ IsFlag t.elements (nCorners - 1) j d := by
  obtain ⟨n, rfl, hn, wf⟩ := wf_of_ok hu hs h
  obtain ⟨m, rfl⟩ : ∃ m, n = m + 1 := ⟨n - 1, by omega⟩
  refine ⟨_, wf.domains_eq hs, by simp, ?_⟩
  intro j ds hj
  rw [List.getElem?_mapIdx, Option.map_eq_some_iff] at hj
  obtain ⟨l, hl, rfl⟩ := hj
  have hlm := List.mem_of_getElem? hl
  obtain ⟨hlen, hnd⟩ := hs l hlm
  refine ⟨by rw [List.length_map, wRows_length m l hlen], ?_, ?_⟩
  · refine List.Nodup.map_on ?_ (wRows_nodup m l hlen hnd)
    intro w hw w' hw' he
    rw [mem_wRows m l hlen hnd] at hw hw'
    exact flag_inj wf hs hlm hw hw' (List.append_cancel_right he)
  · intro d
    constructor
    · intro hd
      obtain ⟨w, hw, rfl⟩ := List.mem_map.1 hd
      rw [mem_wRows m l hlen hnd] at hw
      exact wf.flagOf_isFlag hs hl hw
    · intro hd
      obtain ⟨w, hw, hk⟩ := wf.flag_order hd hl
      refine List.mem_map.2 ⟨w, (mem_wRows m l hlen hnd w).2 hw, ?_⟩
      obtain ⟨d1, d2, -⟩ := hd
      apply List.ext_getElem?
      intro k
      have hfl : (flagOf t.elements m w).length = m + 1 := by simp [flagOf]
      rcases Nat.lt_trichotomy k (m + 1) with hlt | rfl | hgt
      · obtain ⟨x, e, q1, q2, q3⟩ := hk k hlt
        rw [q1, List.getElem?_append_left (by omega)]
        unfold flagOf
        rw [List.getElem?_map, List.getElem?_range hlt, Option.map_some,
          elIdx_unique (wf.get hlt).2.2.1 q2 q3]
      · rw [List.getElem?_append_right (by omega), hfl, Nat.sub_self]
        exact d2.symm
      · rw [List.getElem?_eq_none (by simp; omega), List.getElem?_eq_none (by omega)]

/-! ## C15 -/

theorem flag_inLevels {n j : Nat} {top : List (List Nat)} (wf : WF n top t)
    (hj : j < top.length) {d : List Nat} (h : IsFlag t.elements n j d) :
    InLevels t (n + 1) d := by
  refine ⟨h.1, ?_⟩
  intro k x hx
  have hk : k < n + 1 := by rw [← h.1]; exact (List.getElem?_eq_some_iff.1 hx).1
  rcases Nat.lt_or_ge k n with hlt | hge
  · obtain ⟨x', y, e, f, h1, -, h3, -, -⟩ := h.2.2 k hlt
    rw [hx] at h1
    obtain rfl := Option.some.inj h1
    exact (List.getElem?_eq_some_iff.1 h3).1
  · obtain rfl : k = n := by omega
    rw [h.2.1] at hx
    obtain rfl := Option.some.inj hx
    unfold Topo.nElements
    rw [wf.top_eq]; exact hj

/-- the rows handed to `from_simplices`, one for every ordering of the corners of a simplex -/
theorem fundamentalSimplices_eq {n : Nat} {top : List (List Nat)} (wf : WF (n + 1) top t)
    (hs : Simplices (n + 2) top) (b : Bool) :
    fundamentalSimplices t b = .ok (top.mapIdx fun j l =>
      (wRows n l).mapIdx fun i w =>
        if b ∧ i % 2 = 1 then swapLast (addOffsets t (flagOf t.elements n w ++ [j]))
        else addOffsets t (flagOf t.elements n w ++ [j])) := by
  unfold fundamentalSimplices
  rw [wf.domains_eq hs]
  simp only [bind, Except.bind]
  congr 1
  apply List.ext_getElem?
  intro j
  rw [List.getElem?_map, List.getElem?_mapIdx, List.getElem?_mapIdx]
  cases top[j]? with
  | none => rfl
  | some l =>
    simp only [Option.map_some]
    congr 1
    apply List.ext_getElem?
    intro i
    rw [List.getElem?_mapIdx, List.getElem?_mapIdx, List.getElem?_map]
    cases (wRows n l)[i]? <;> rfl

/-- the row number `I` of the subdivision -/
theorem fundamental_row {n : Nat} {top : List (List Nat)} (hs : Simplices (n + 2) top) (b : Bool)
    (I : Nat) (r : List Nat) :
    (top.mapIdx fun j l => (wRows n l).mapIdx fun i w =>
        if b ∧ i % 2 = 1 then swapLast (addOffsets t (flagOf t.elements n w ++ [j]))
        else addOffsets t (flagOf t.elements n w ++ [j])).flatten[I]? = some r ↔
    ∃ l w : List Nat, top[I / (n + 2).factorial]? = some l ∧
      (wRows n l)[I % (n + 2).factorial]? = some w ∧
      r = if b ∧ (I % (n + 2).factorial) % 2 = 1
        then swapLast (addOffsets t (flagOf t.elements n w ++ [I / (n + 2).factorial]))
        else addOffsets t (flagOf t.elements n w ++ [I / (n + 2).factorial]) := by
  rw [flatten_uniform (Nat.factorial_pos (n + 2))]
  · rw [List.getElem?_mapIdx]
    cases hl : top[I / (n + 2).factorial]? with
    | none => simp
    | some l =>
      simp only [Option.map_some, Option.bind_some, List.getElem?_mapIdx]
      cases hw : (wRows n l)[I % (n + 2).factorial]? with
      | none => simp [hw]
      | some w => simp [hw, eq_comm]
  · intro L hL
    obtain ⟨j, hj⟩ := List.mem_iff_getElem?.1 hL
    rw [List.getElem?_mapIdx, Option.map_eq_some_iff] at hj
    obtain ⟨l, hl, rfl⟩ := hj
    rw [List.length_mapIdx]
    exact wRows_length n l (hs l (List.mem_of_getElem? hl)).1

/-- what is known about row `I` -/
theorem row_facts {n : Nat} {top : List (List Nat)} (wf : WF (n + 1) top t)
    (hs : Simplices (n + 2) top) {j : Nat} {l w : List Nat} (hj : top[j]? = some l)
    (hw : w.Perm l) : InLevels t (n + 2) (flagOf t.elements n w ++ [j]) :=
  flag_inLevels wf (List.getElem?_eq_some_iff.1 hj).1 (wf.flagOf_isFlag hs hj hw)

theorem neg_one_pow_mod (i : Nat) (r : ℤ) :
    (if i % 2 = 1 then -r else r) = (-1) ^ i * r := by
  split
  · next h => rw [Odd.neg_one_pow (Nat.odd_iff.2 h)]; ring
  · next h => rw [Even.neg_one_pow (Nat.even_iff.2 (by omega))]; ring

/-- the oriented rows are coherent -/
theorem fundamental_coherent {n : Nat} {top : List (List Nat)} (wf : WF (n + 1) top t)
    (hs : Simplices (n + 2) top) (hcoh : Coherent top) :
    Coherent (top.mapIdx fun j l => (wRows n l).mapIdx fun i w =>
        if true = true ∧ i % 2 = 1 then swapLast (addOffsets t (flagOf t.elements n w ++ [j]))
        else addOffsets t (flagOf t.elements n w ++ [j])).flatten := by
  obtain ⟨ε, hε, hsign⟩ := wRows_sign n
  have hfac := Nat.factorial_pos (n + 2)
  have heven := factorial_even n
  -- faces of a row do not depend on the swap
  have hface : ∀ (e : List Nat) {I j : Nat} {l w : List Nat}, top[j]? = some l → w.Perm l →
      (IsFace e (if true = true ∧ (I % (n + 2).factorial) % 2 = 1
        then swapLast (addOffsets t (flagOf t.elements n w ++ [j]))
        else addOffsets t (flagOf t.elements n w ++ [j])) ↔
       IsFace e (addOffsets t (flagOf t.elements n w ++ [j]))) := by
    intro e I j l w hj hw
    have hin := row_facts wf hs hj hw
    split
    · exact (isFace_perm_iff (swapLast_perm _).symm (addOffsets_nodup hin)).symm
    · exact Iff.rfl
  intro e I1 I2 r1 r2 hr1 hr2 hsh
  obtain ⟨l1, w1, hj1, hi1, hr1'⟩ := (fundamental_row hs true I1 r1).1 hr1
  obtain ⟨l2, w2, hj2, hi2, hr2'⟩ := (fundamental_row hs true I2 r2).1 hr2
  set j1 := I1 / (n + 2).factorial with hj1d
  set j2 := I2 / (n + 2).factorial with hj2d
  set i1 := I1 % (n + 2).factorial with hi1d
  set i2 := I2 % (n + 2).factorial with hi2d
  have hm1 := List.mem_of_getElem? hj1
  have hm2 := List.mem_of_getElem? hj2
  obtain ⟨hlen1, hnd1⟩ := hs l1 hm1
  obtain ⟨hlen2, hnd2⟩ := hs l2 hm2
  have hw1 := (mem_wRows n l1 hlen1 hnd1 w1).1 (List.mem_of_getElem? hi1)
  have hw2 := (mem_wRows n l2 hlen2 hnd2 w2).1 (List.mem_of_getElem? hi2)
  have hin1 := row_facts wf hs hj1 hw1
  have hin2 := row_facts wf hs hj2 hw2
  have hs1 := hsign l1 hlen1 hnd1 i1 w1 hi1
  have hs2 := hsign l2 hlen2 hnd2 i2 w2 hi2
  set V1 := addOffsets t (flagOf t.elements n w1 ++ [j1]) with hV1
  set V2 := addOffsets t (flagOf t.elements n w2 ++ [j2]) with hV2
  have hlV1 : V1.length = n + 2 := by rw [hV1, addOffsets_length, hin1.1]
  have hlV2 : V2.length = n + 2 := by rw [hV2, addOffsets_length, hin2.1]
  obtain ⟨hne, hlt1, hlt2, hall⟩ := hsh
  have hf1 : IsFace e V1 := by
    have := (hall I1 r1 hr1).2 (Or.inl rfl)
    rw [hr1'] at this
    exact (hface e hj1 hw1).1 this
  have hf2 : IsFace e V2 := by
    have := (hall I2 r2 hr2).2 (Or.inr rfl)
    rw [hr2'] at this
    exact (hface e hj2 hw2).1 this
  obtain ⟨c1, hc1, hp1⟩ := hf1
  obtain ⟨c2, hc2, hp2⟩ := hf2
  obtain ⟨hcc, hE, hentries⟩ := addOffsets_face hin1 hin2 (by rw [← hlV1]; exact hc1)
    (hp1.symm.trans hp2)
  subst hcc
  -- signs
  have hsg : inducedSign e V1 = inducedSign e V2 := by
    rw [inducedSign_eq_cob, inducedSign_eq_cob,
      cob_relSign_face (addOffsets_nodup hin1) hc1 hp1,
      cob_relSign_face (addOffsets_nodup hin2) hc2 hp2, hE]
  have hr1s : inducedSign e r1 = (-1) ^ i1 * inducedSign e V1 := by
    rw [hr1', ← neg_one_pow_mod]
    by_cases h : i1 % 2 = 1
    · rw [if_pos ⟨rfl, h⟩, if_pos h, inducedSign_swapLast _ (by omega)]
    · rw [if_neg (fun x => h x.2), if_neg h]
  have hr2s : inducedSign e r2 = (-1) ^ i2 * inducedSign e V2 := by
    rw [hr2', ← neg_one_pow_mod]
    by_cases h : i2 % 2 = 1
    · rw [if_pos ⟨rfl, h⟩, if_pos h, inducedSign_swapLast _ (by omega)]
    · rw [if_neg (fun x => h x.2), if_neg h]
  suffices hpar : ((-1 : ℤ) ^ i1) = - (-1) ^ i2 by
    rw [hr1s, hr2s, hsg, hpar]; ring
  have hsuff : relSign l1 w1 = - relSign l2 w2 → ((-1 : ℤ) ^ i1) = - (-1) ^ i2 := by
    intro h
    rw [hs1, hs2] at h
    rcases hε with rfl | rfl <;> linarith
  apply hsuff
  have hwl1 : w1.length = n + 2 := hw1.length_eq.trans hlen1
  have hwl2 : w2.length = n + 2 := hw2.length_eq.trans hlen2
  have hfl : ∀ w, (flagOf t.elements n w).length = n + 1 := by intro w; simp [flagOf]
  have htake : ∀ k ≤ n, k ≠ c1 → (w1.take (k + 1)).Perm (w2.take (k + 1)) := by
    intro k hk hkc
    have := hentries k hkc
    rw [List.getElem?_append_left (by rw [hfl]; omega),
      List.getElem?_append_left (by rw [hfl]; omega)] at this
    exact wf.flagOf_eq_take hs hm1 hm2 hw1 hw2 hk this
  have hIeq : j1 = j2 → i1 = i2 → I1 = I2 := by
    intro a b
    rw [← Nat.div_add_mod I1 (n + 2).factorial, ← Nat.div_add_mod I2 (n + 2).factorial,
      ← hj1d, ← hj2d, ← hi1d, ← hi2d, a, b]
  have hweq : j1 = j2 → w1 ≠ w2 := by
    intro hj hw
    apply hne
    apply hIeq hj
    have hl : l1 = l2 := by
      rw [hj, hj2] at hj1; exact (Option.some.inj hj1).symm
    subst hl
    rw [← hw] at hi2
    obtain ⟨q1, e1⟩ := List.getElem?_eq_some_iff.1 hi1
    obtain ⟨q2, e2⟩ := List.getElem?_eq_some_iff.1 hi2
    exact (List.Nodup.getElem_inj_iff (wRows_nodup n l1 hlen1 hnd1)).1 (e1.trans e2.symm)
  rw [hlV1] at hc1
  rcases Nat.lt_or_ge c1 (n + 1) with hcn | hcn
  · -- same parent simplex
    have hjj : j1 = j2 := by
      have := hentries (n + 1) (by omega)
      rw [List.getElem?_append_right (by rw [hfl]), List.getElem?_append_right (by rw [hfl]),
        hfl, hfl] at this
      simpa using this
    have hl : l1 = l2 := by
      rw [hjj, hj2] at hj1; exact (Option.some.inj hj1).symm
    have hwne := hweq hjj
    subst hl
    obtain ⟨A, x, y, B, rfl, rfl⟩ := adjacent_orders (c := c1) (by omega) (by omega) hwne (by
      intro m hm hmc
      rcases m with _ | m
      · simp
      · rcases Nat.lt_or_ge m (n + 1) with h | h
        · exact htake m (by omega) (by omega)
        · rw [List.take_of_length_le (by omega), List.take_of_length_le (by omega)]
          exact hw1.trans hw2.symm)
    exact alt_relSign l1 A x y B
  · -- neighbouring parent simplices
    have hc : c1 = n + 1 := by omega
    subst hc
    have htk : w1.take (n + 1) = w2.take (n + 1) := by
      apply eq_of_take_perm (by simp; omega)
      intro k hk
      simp only [List.length_take] at hk
      rw [List.take_take, List.take_take, Nat.min_eq_left (by omega)]
      rcases k with _ | k
      · simp
      · exact htake k (by omega) (by omega)
    have hjj : j1 ≠ j2 := by
      intro hj
      apply hweq hj
      have hl : l1 = l2 := by
        rw [hj, hj2] at hj1; exact (Option.some.inj hj1).symm
      subst hl
      apply eq_of_take_perm (by omega)
      intro k hk
      rcases Nat.lt_or_ge k (n + 2) with h | h
      · rcases k with _ | k
        · simp
        · exact htake k (by omega) (by omega)
      · rw [List.take_of_length_le (by omega), List.take_of_length_le (by omega)]
        exact hw1.trans hw2.symm
    set u := w1.take (n + 1) with hu
    have hdec : ∀ w : List Nat, w.length = n + 2 → ∃ x, w = w.take (n + 1) ++ [x] := by
      intro w hw
      refine ⟨w[n + 1], ?_⟩
      conv_lhs => rw [← List.take_append_drop (n + 1) w, List.drop_eq_getElem_cons (by omega),
        List.drop_of_length_le (by omega)]
    obtain ⟨x1, hx1⟩ := hdec w1 hwl1
    obtain ⟨x2, hx2⟩ := hdec w2 hwl2
    rw [← hu] at hx1
    rw [← htk] at hx2
    have hul : u.length = n + 1 := by rw [hu]; simp; omega
    have hun : u.Nodup := (hw1.nodup_iff.2 hnd1).sublist (List.take_sublist _ _)
    -- u is a face of l exactly when it extends to an ordering of l
    have hufaceW : ∀ x, IsFace u (u ++ [x]) := by
      intro x
      refine ⟨n + 1, by simp [hul], ?_⟩
      rw [← hul, List.eraseIdx_append_of_length_le (by omega)]
      simp
    have huface : ∀ l : List Nat, l.Nodup → l.length = n + 2 →
        (IsFace u l ↔ ∃ x, (u ++ [x]).Perm l) := by
      intro l hl hll
      constructor
      · rintro ⟨c, hc, hp⟩
        exact ⟨l[c], (hp.append_right _).trans (eraseIdx_append_perm hc)⟩
      · rintro ⟨x, hp⟩
        exact (isFace_perm_iff hp (hp.nodup_iff.2 hl)).1 (hufaceW x)
    have hshared : SharedFace top u j1 j2 := by
      refine ⟨hjj, (List.getElem?_eq_some_iff.1 hj1).1, (List.getElem?_eq_some_iff.1 hj2).1, ?_⟩
      intro j l hj
      have hml := List.mem_of_getElem? hj
      obtain ⟨hlen, hnd⟩ := hs l hml
      constructor
      · intro hf
        obtain ⟨x, hx⟩ := (huface l hnd hlen).1 hf
        obtain ⟨i, hi, hiw⟩ := List.getElem_of_mem ((mem_wRows n l hlen hnd _).2 hx)
        have hilt : i < (n + 2).factorial := by rw [← wRows_length n l hlen]; exact hi
        have hdiv : ((n + 2).factorial * j + i) / (n + 2).factorial = j := by
          rw [Nat.mul_add_div hfac, Nat.div_eq_of_lt hilt, Nat.add_zero]
        have hmod : ((n + 2).factorial * j + i) % (n + 2).factorial = i := by
          rw [Nat.mul_add_mod, Nat.mod_eq_of_lt hilt]
        have hrow := (fundamental_row (t := t) hs true ((n + 2).factorial * j + i) _).2
          ⟨l, u ++ [x], by rw [hdiv]; exact hj, by rw [hmod, ← hiw]; exact List.getElem?_eq_getElem hi, rfl⟩
        have hfe : IsFace e (addOffsets t (flagOf t.elements n (u ++ [x]) ++ [j])) := by
          have hin := row_facts wf hs hj hx
          have hflu : flagOf t.elements n (u ++ [x]) = flagOf t.elements n w1 := by
            unfold flagOf
            apply List.map_congr_left
            intro k hk
            have hk := List.mem_range.1 hk
            rw [List.take_append_of_le_length (by omega), hx1,
              List.take_append_of_le_length (by omega)]
          refine ⟨n + 1, by rw [addOffsets_length, hin.1]; omega, ?_⟩
          have heq : (addOffsets t (flagOf t.elements n (u ++ [x]) ++ [j])).eraseIdx (n + 1) =
              V1.eraseIdx (n + 1) := by
            rw [hV1, hflu]
            apply List.ext_getElem?
            intro k
            rw [List.getElem?_eraseIdx, List.getElem?_eraseIdx]
            split
            · rw [addOffsets_get, addOffsets_get, List.getElem?_append_left (by rw [hfl]; omega),
                List.getElem?_append_left (by rw [hfl]; omega)]
            · rw [addOffsets_get, addOffsets_get,
                List.getElem?_eq_none (l := flagOf t.elements n w1 ++ [j]) (by simp [hfl]; omega),
                List.getElem?_eq_none (l := flagOf t.elements n w1 ++ [j1]) (by simp [hfl]; omega)]
          rw [heq]; exact hp1
        have hfr := (hface e (I := (n + 2).factorial * j + i) hj hx).2 hfe
        rw [hdiv] at hrow
        rcases (hall _ _ hrow).1 hfr with hI | hI
        · left; rw [hj1d, ← hI, hdiv]
        · right; rw [hj2d, ← hI, hdiv]
      · rintro (rfl | rfl)
        · rw [hj1] at hj
          obtain rfl := Option.some.inj hj
          exact (huface _ hnd hlen).2 ⟨x1, hx1 ▸ hw1⟩
        · rw [hj2] at hj
          obtain rfl := Option.some.inj hj
          exact (huface _ hnd hlen).2 ⟨x2, hx2 ▸ hw2⟩
    have hco := hcoh u j1 j2 l1 l2 hj1 hj2 hshared
    have hind : ∀ (l w : List Nat) (x : Nat), l.Nodup → w.Perm l → w = u ++ [x] →
        inducedSign u l = relSign l w * (-1) ^ (n + 1) := by
      intro l w x hl hw hwx
      have hwn : w.Nodup := hw.nodup_iff.2 hl
      have h1 := ((alt_relSign u).cob).eq_relSign hl hw
      rw [inducedSign_eq_cob]
      have h2 : cob (relSign u) w = (-1) ^ (n + 1) := by
        have he : w.eraseIdx (n + 1) = u := by
          rw [hwx, ← hul, List.eraseIdx_append_of_length_le (by omega)]; simp
        rw [cob_relSign_face hwn (c := n + 1) (by rw [hwx]; simp [hul]) (by rw [he]), he,
          relSign_self hun, mul_one]
      rw [h2] at h1
      rcases relSign_eq_one_or hl hw with h3 | h3 <;> rw [h3] at h1 ⊢
      · simp at h1 ⊢; exact h1.symm
      · simp at h1 ⊢; linarith
    rw [hind l1 w1 x1 hnd1 hw1 hx1, hind l2 w2 x2 hnd2 hw2 hx2] at hco
    rcases neg_one_pow_eq_or ℤ (n + 1) with h3 | h3 <;> rw [h3] at hco <;> linarith

/-- every vertex number of the subdivision is used, and no others -/
theorem fundamental_used {n : Nat} {top : List (List Nat)} (wf : WF (n + 1) top t)
    (hs : Simplices (n + 2) top) (b : Bool) (v : Nat) :
    (∃ r ∈ (top.mapIdx fun j l => (wRows n l).mapIdx fun i w =>
        if b ∧ i % 2 = 1 then swapLast (addOffsets t (flagOf t.elements n w ++ [j]))
        else addOffsets t (flagOf t.elements n w ++ [j])).flatten, v ∈ r) ↔
      v < offs t.nElements (n + 2) := by
  have hmem : ∀ (I j : Nat) (w : List Nat), v ∈ (if b ∧ (I % (n + 2).factorial) % 2 = 1
        then swapLast (addOffsets t (flagOf t.elements n w ++ [j]))
        else addOffsets t (flagOf t.elements n w ++ [j])) ↔
      v ∈ addOffsets t (flagOf t.elements n w ++ [j]) := by
    intro I j w
    split
    · exact (swapLast_perm _).mem_iff
    · exact Iff.rfl
  constructor
  · rintro ⟨r, hr, hv⟩
    obtain ⟨I, hI⟩ := List.mem_iff_getElem?.1 hr
    obtain ⟨l, w, hl, hw, rfl⟩ := (fundamental_row hs b I r).1 hI
    rw [hmem] at hv
    obtain ⟨hlen, hnd⟩ := hs l (List.mem_of_getElem? hl)
    have hin := row_facts wf hs hl ((mem_wRows n l hlen hnd w).1 (List.mem_of_getElem? hw))
    obtain ⟨k, hk⟩ := List.mem_iff_getElem?.1 hv
    rw [addOffsets_get, Option.map_eq_some_iff] at hk
    obtain ⟨x, hx, rfl⟩ := hk
    have h1 := hin.2 k x hx
    have h2 : k < n + 2 := by rw [← hin.1]; exact (List.getElem?_eq_some_iff.1 hx).1
    have h3 := offs_mono t.nElements (show k + 1 ≤ n + 2 by omega)
    have h4 := offs_succ t.nElements k
    omega
  · intro hv
    have hex : ∀ m, v < offs t.nElements m → ∃ k < m, ∃ x < t.nElements k,
        v = x + offs t.nElements k := by
      intro m
      induction m with
      | zero => intro h; simp [offs] at h
      | succ m ih =>
        intro h
        rcases Nat.lt_or_ge v (offs t.nElements m) with h1 | h1
        · obtain ⟨k, hk, hx⟩ := ih h1
          exact ⟨k, by omega, hx⟩
        · rw [offs_succ] at h
          exact ⟨m, by omega, v - offs t.nElements m, by omega, by omega⟩
    obtain ⟨k, hk, x, hx, rfl⟩ := hex _ hv
    have hord : ∃ (j : Nat) (l w : List Nat), top[j]? = some l ∧ w.Perm l ∧
        (flagOf t.elements n w ++ [j])[k]? = some x := by
      have hfl : ∀ w, (flagOf t.elements n w).length = n + 1 := by intro w; simp [flagOf]
      rcases Nat.lt_or_ge k (n + 1) with h | h
      · have hxe := List.getElem?_eq_getElem hx
        set e := (t.elements[k]?.getD [])[x] with he
        obtain ⟨he1, l, hl, hsub⟩ := (wf.faces hs (n + 1 - k) k (by omega) e).1
          ⟨e, List.getElem_mem _, List.Perm.refl _⟩
        obtain ⟨j, hj⟩ := List.mem_iff_getElem?.1 hl
        obtain ⟨r, hr⟩ : ∃ r, l.Perm (e ++ r) := by
          obtain ⟨e', hp, hs'⟩ := hsub
          obtain ⟨r, hr⟩ := hs'.exists_perm_append
          exact ⟨r, hr.trans (hp.append_right r)⟩
        refine ⟨j, l, e ++ r, hj, hr.symm, ?_⟩
        rw [List.getElem?_append_left (by rw [hfl]; exact h)]
        unfold flagOf
        rw [List.getElem?_map, List.getElem?_range h, Option.map_some, ← he1, List.take_left]
        rw [← elIdx_unique (wf.get h).2.2.1 hxe (List.Perm.refl _)]
      · obtain rfl : k = n + 1 := by omega
        have hx' : x < top.length := by
          have := hx; unfold Topo.nElements at this; rwa [wf.top_eq] at this
        refine ⟨x, top[x], top[x], List.getElem?_eq_getElem hx', List.Perm.refl _, ?_⟩
        rw [List.getElem?_append_right (by rw [hfl]), hfl]
        simp
    obtain ⟨j, l, w, hj, hw, hwx⟩ := hord
    obtain ⟨hlen, hnd⟩ := hs l (List.mem_of_getElem? hj)
    obtain ⟨i, hi, hiw⟩ := List.getElem_of_mem ((mem_wRows n l hlen hnd _).2 hw)
    have hilt : i < (n + 2).factorial := by rw [← wRows_length n l hlen]; exact hi
    have hfac := Nat.factorial_pos (n + 2)
    have hdiv : ((n + 2).factorial * j + i) / (n + 2).factorial = j := by
      rw [Nat.mul_add_div hfac, Nat.div_eq_of_lt hilt, Nat.add_zero]
    have hmod : ((n + 2).factorial * j + i) % (n + 2).factorial = i := by
      rw [Nat.mul_add_mod, Nat.mod_eq_of_lt hilt]
    have hrow := (fundamental_row (t := t) hs b ((n + 2).factorial * j + i) _).2
      ⟨l, w, by rw [hdiv]; exact hj, by rw [hmod, ← hiw]; exact List.getElem?_eq_getElem hi, rfl⟩
    refine ⟨_, List.mem_of_getElem? hrow, ?_⟩
    rw [hdiv, hmem]
    apply List.mem_of_getElem? (i := k)
    rw [addOffsets_get, hwx]; rfl

theorem fundamental_simplices {n : Nat} {top : List (List Nat)} (wf : WF (n + 1) top t)
    (hs : Simplices (n + 2) top) (b : Bool) :
    Simplices (n + 2) (top.mapIdx fun j l => (wRows n l).mapIdx fun i w =>
        if b ∧ i % 2 = 1 then swapLast (addOffsets t (flagOf t.elements n w ++ [j]))
        else addOffsets t (flagOf t.elements n w ++ [j])).flatten := by
  intro r hr
  obtain ⟨I, hI⟩ := List.mem_iff_getElem?.1 hr
  obtain ⟨l, w, hl, hw, rfl⟩ := (fundamental_row hs b I r).1 hI
  obtain ⟨hlen, hnd⟩ := hs l (List.mem_of_getElem? hl)
  have hin := row_facts wf hs hl ((mem_wRows n l hlen hnd w).1 (List.mem_of_getElem? hw))
  have h1 : (addOffsets t (flagOf t.elements n w ++ [I / (n + 2).factorial])).length = n + 2 := by
    rw [addOffsets_length, hin.1]
  have h2 := addOffsets_nodup hin
  split
  · exact ⟨(swapLast_perm _).length_eq.trans h1, (swapLast_perm _).nodup_iff.2 h2⟩
  · exact ⟨h1, h2⟩

theorem subdivideFundamental_ok {n : Nat} {top : List (List Nat)} (hu : UniqSpec uniq)
    (wf : WF (n + 1) top t) (hs : Simplices (n + 2) top) (b : Bool) :
    ∃ t', subdivideFundamental uniq t b = .ok t' ∧
      WF (n + 1) (top.mapIdx fun j l => (wRows n l).mapIdx fun i w =>
        if b ∧ i % 2 = 1 then swapLast (addOffsets t (flagOf t.elements n w ++ [j]))
        else addOffsets t (flagOf t.elements n w ++ [j])).flatten t' := by
  have hsim := fundamental_simplices wf hs b
  obtain ⟨t', ht'⟩ := (C03_accepts_iff hu hsim).2 ⟨_, fundamental_used wf hs b⟩
  refine ⟨t', ?_, (fromSimplices_wf hu (n := n + 1) hsim ht').2⟩
  unfold subdivideFundamental
  rw [fundamentalSimplices_eq wf hs b]
  simp only [bind, Except.bind, wf.lenB]
  exact ht'

/-- C15: subdivision into fundamental domains succeeds.  There is one vertex per element of any
level of the original, and one simplex per domain: simplex number `(n+1)! * j + i` is domain `i` of
the original simplex `j`; its corner in the place of level `k` is the number of the flag's
`k`-element plus the number of all lower-dimensional elements, and (if `oriented`) for odd `i` the
corners of the last two levels are exchanged. -/
theorem C15_simplices (hu : UniqSpec uniq) (hs : Simplices nCorners simplices)
    (h : fromSimplices uniq nCorners simplices = .ok t) (oriented : Bool) :
    ∃ doms t' rows, fundamentalDomains t = .ok doms ∧ subdivideFundamental uniq t oriented = .ok t' ∧
      t'.elements[nCorners - 1]? = some rows ∧
      rows.length = nCorners.factorial * simplices.length ∧
      t'.nElements 0 = ((List.range nCorners).map t.nElements).sum ∧
      ∀ (j i : Nat) (ds : List (List Nat)) (d : List Nat), doms[j]? = some ds → ds[i]? = some d →
        ∃ r : List Nat, rows[nCorners.factorial * j + i]? = some r ∧ r.length = nCorners ∧
          ∀ k < nCorners, ∃ x : Nat, d[k]? = some x ∧
            r[if oriented ∧ i % 2 = 1 then
                (if k + 1 = nCorners then k - 1 else if k + 2 = nCorners then k + 1 else k)
              else k]? = some (x + ((List.range k).map t.nElements).sum) := by
  obtain ⟨n, rfl, hn, wf⟩ := wf_of_ok hu hs h
  obtain ⟨m, rfl⟩ : ∃ m, n = m + 1 := ⟨n - 1, by omega⟩
  obtain ⟨t', ht', wf'⟩ := subdivideFundamental_ok hu wf hs oriented
  have hsim := fundamental_simplices wf hs oriented
  refine ⟨_, t', _, wf.domains_eq hs, ht', wf'.top_eq, ?_, ?_, ?_⟩
  · rw [List.length_flatten]
    have : ∀ L ∈ (simplices.mapIdx fun j l => (wRows m l).mapIdx fun i w =>
        if oriented ∧ i % 2 = 1 then swapLast (addOffsets t (flagOf t.elements m w ++ [j]))
        else addOffsets t (flagOf t.elements m w ++ [j])), L.length = (m + 2).factorial := by
      intro L hL
      obtain ⟨j, hj⟩ := List.mem_iff_getElem?.1 hL
      rw [List.getElem?_mapIdx, Option.map_eq_some_iff] at hj
      obtain ⟨l, hl, rfl⟩ := hj
      rw [List.length_mapIdx]
      exact wRows_length m l (hs l (List.mem_of_getElem? hl)).1
    rw [List.map_congr_left this, List.map_const', List.sum_replicate, List.length_mapIdx,
      smul_eq_mul, Nat.mul_comm]
  · -- vertices
    have hE0 : ∀ v, v < t'.nElements 0 ↔ v < offs t.nElements (m + 2) := by
      intro v
      rw [← fundamental_used wf hs oriented v]
      constructor
      · intro hv
        have hg := List.getElem?_eq_getElem hv
        have hv' := wf'.vertex (by omega) hg
        obtain ⟨-, l, hl, hsub⟩ := (wf'.faces hsim (m + 1) 0 (by omega) [v]).1
          ⟨_, List.mem_of_getElem? hg, by rw [hv']⟩
        exact ⟨l, hl, hsub.subset (by simp)⟩
      · rintro ⟨l, hl, hvl⟩
        obtain ⟨e, he, hp⟩ := (wf'.faces hsim (m + 1) 0 (by omega) [v]).2
          ⟨rfl, l, hl, List.singleton_subperm_iff.2 hvl⟩
        obtain ⟨p, hp'⟩ := List.mem_iff_getElem?.1 he
        have := wf'.vertex (by omega) hp'
        rw [this] at hp
        have hpv : p = v := by simpa using List.perm_singleton.1 hp
        rw [← hpv]
        exact (List.getElem?_eq_some_iff.1 hp').1
    have h1 := hE0 (t'.nElements 0)
    have h2 := hE0 (offs t.nElements (m + 2))
    show _ = offs t.nElements (m + 2)
    omega
  · intro j i ds d hds hd
    rw [List.getElem?_mapIdx, Option.map_eq_some_iff] at hds
    obtain ⟨l, hl, rfl⟩ := hds
    rw [List.getElem?_map, Option.map_eq_some_iff] at hd
    obtain ⟨w, hw, rfl⟩ := hd
    obtain ⟨hlen, hnd⟩ := hs l (List.mem_of_getElem? hl)
    have hin := row_facts wf hs hl ((mem_wRows m l hlen hnd w).1 (List.mem_of_getElem? hw))
    have hilt : i < (m + 2).factorial := by
      rw [← wRows_length m l hlen]; exact (List.getElem?_eq_some_iff.1 hw).1
    have hfac := Nat.factorial_pos (m + 2)
    have hdiv : ((m + 2).factorial * j + i) / (m + 2).factorial = j := by
      rw [Nat.mul_add_div hfac, Nat.div_eq_of_lt hilt, Nat.add_zero]
    have hmod : ((m + 2).factorial * j + i) % (m + 2).factorial = i := by
      rw [Nat.mul_add_mod, Nat.mod_eq_of_lt hilt]
    have hrow := (fundamental_row (t := t) hs oriented ((m + 2).factorial * j + i) _).2
      ⟨l, w, by rw [hdiv]; exact hl, by rw [hmod]; exact hw, rfl⟩
    rw [hdiv, hmod] at hrow
    refine ⟨_, hrow, (hsim _ (List.mem_of_getElem? hrow)).1, ?_⟩
    intro k hk
    have hk' : k < (flagOf t.elements m w ++ [j]).length := by rw [hin.1]; exact hk
    refine ⟨_, List.getElem?_eq_getElem hk', ?_⟩
    have hg : ∀ q, (addOffsets t (flagOf t.elements m w ++ [j]))[q]? =
        ((flagOf t.elements m w ++ [j])[q]?).map fun x => x + offs t.nElements q :=
      fun q => addOffsets_get t _ q
    by_cases hodd : oriented = true ∧ i % 2 = 1
    · rw [if_pos hodd, if_pos hodd]
      have hlenV : (addOffsets t (flagOf t.elements m w ++ [j])).length = m + 2 := by
        rw [addOffsets_length, hin.1]
      have hsw : ∀ (V : List Nat), V.length = m + 2 → ∀ q < m + 2,
          (swapLast V)[if q + 1 = m + 2 then q - 1 else if q + 2 = m + 2 then q + 1 else q]?
            = V[q]? := by
        intro V hV q hq
        rcases hr : V.reverse with _ | ⟨a, _ | ⟨b, r⟩⟩
        · have : V.reverse.length = 0 := by rw [hr]; rfl
          simp at this; rw [this] at hV; simp at hV
        · have : V.reverse.length = 1 := by rw [hr]; rfl
          simp at this; omega
        · have hVr : V = r.reverse ++ [b, a] := by
            have := congrArg List.reverse hr
            simpa using this
          have hsV : swapLast V = r.reverse ++ [a, b] := by
            unfold swapLast; rw [hr]; simp [swap01]
          have hrl : r.length = m := by rw [hVr] at hV; simp at hV; omega
          rw [hsV, hVr]
          by_cases h1 : q + 1 = m + 2
          · rw [if_pos h1, List.getElem?_append_right (by simp; omega),
              List.getElem?_append_right (by simp; omega)]
            simp only [List.length_reverse, hrl]
            rw [show q - 1 - m = 0 by omega, show q - m = 1 by omega]; rfl
          · rw [if_neg h1]
            by_cases h2 : q + 2 = m + 2
            · rw [if_pos h2, List.getElem?_append_right (by simp; omega),
                List.getElem?_append_right (by simp; omega)]
              simp only [List.length_reverse, hrl]
              rw [show q + 1 - m = 1 by omega, show q - m = 0 by omega]; rfl
            · rw [if_neg h2, List.getElem?_append_left (by simp; omega),
                List.getElem?_append_left (by simp; omega)]
      rw [hsw _ hlenV k hk, hg, List.getElem?_eq_getElem hk']
      rfl
    · rw [if_neg hodd, if_neg hodd, hg, List.getElem?_eq_getElem hk']
      rfl

/-- C15: "if True, orientedness of self is preserved": when the mesh is coherently oriented, so is
the mesh of its fundamental domains made with `oriented=True`, in every dimension. -/
theorem C15_preserves_orientation (hu : UniqSpec uniq) (hs : Simplices nCorners simplices)
    (h : fromSimplices uniq nCorners simplices = .ok t) (hcoh : Coherent simplices) :
    ∃ t' rows, subdivideFundamental uniq t true = .ok t' ∧
      t'.elements[nCorners - 1]? = some rows ∧ Simplices nCorners rows ∧ Coherent rows := by
  obtain ⟨n, rfl, hn, wf⟩ := wf_of_ok hu hs h
  obtain ⟨m, rfl⟩ : ∃ m, n = m + 1 := ⟨n - 1, by omega⟩
  obtain ⟨t', ht', wf'⟩ := subdivideFundamental_ok hu wf hs true
  exact ⟨t', _, ht', wf'.top_eq, fundamental_simplices wf hs true, fundamental_coherent wf hs hcoh⟩

/-- C15: with `oriented=False` every two domains that alone share a face induce the same sign on
it, whatever the orientation of the mesh: neighbours always have opposing orientation. -/
theorem C15_unoriented_opposes (hu : UniqSpec uniq) (hs : Simplices nCorners simplices)
    (h : fromSimplices uniq nCorners simplices = .ok t) :
    ∃ t' rows, subdivideFundamental uniq t false = .ok t' ∧
      t'.elements[nCorners - 1]? = some rows ∧
      ∀ e j1 j2 r1 r2, rows[j1]? = some r1 → rows[j2]? = some r2 → SharedFace rows e j1 j2 →
        inducedSign e r1 = inducedSign e r2 := by
  obtain ⟨n, rfl, hn, wf⟩ := wf_of_ok hu hs h
  obtain ⟨m, rfl⟩ : ∃ m, n = m + 1 := ⟨n - 1, by omega⟩
  obtain ⟨t', ht', wf'⟩ := subdivideFundamental_ok hu wf hs false
  refine ⟨t', _, ht', wf'.top_eq, ?_⟩
  intro e I1 I2 r1 r2 hr1 hr2 hsh
  obtain ⟨hne, hlt1, hlt2, hall⟩ := hsh
  have hf1 := (hall I1 r1 hr1).2 (Or.inl rfl)
  have hf2 := (hall I2 r2 hr2).2 (Or.inr rfl)
  obtain ⟨l1, w1, hj1, hi1, hr1'⟩ := (fundamental_row hs false I1 r1).1 hr1
  obtain ⟨l2, w2, hj2, hi2, hr2'⟩ := (fundamental_row hs false I2 r2).1 hr2
  rw [if_neg (by simp)] at hr1' hr2'
  obtain ⟨hlen1, hnd1⟩ := hs l1 (List.mem_of_getElem? hj1)
  obtain ⟨hlen2, hnd2⟩ := hs l2 (List.mem_of_getElem? hj2)
  have hin1 := row_facts wf hs hj1 ((mem_wRows m l1 hlen1 hnd1 w1).1 (List.mem_of_getElem? hi1))
  have hin2 := row_facts wf hs hj2 ((mem_wRows m l2 hlen2 hnd2 w2).1 (List.mem_of_getElem? hi2))
  rw [hr1'] at hf1 ⊢
  rw [hr2'] at hf2 ⊢
  obtain ⟨c1, hc1, hp1⟩ := hf1
  obtain ⟨c2, hc2, hp2⟩ := hf2
  obtain ⟨hcc, hE, -⟩ := addOffsets_face hin1 hin2
    (by have := hc1; rwa [addOffsets_length, hin1.1] at this) (hp1.symm.trans hp2)
  subst hcc
  rw [inducedSign_eq_cob, inducedSign_eq_cob,
      cob_relSign_face (addOffsets_nodup hin1) hc1 hp1,
      cob_relSign_face (addOffsets_nodup hin2) hc2 hp2, hE]

/-! ### a concrete case: two triangles with a common edge -/

/-- two triangles meet the hypotheses of C14 and C15, including coherence -/
example : ∃ t, Simplices 3 [[0, 1, 2], [2, 1, 3]] ∧
    fromSimplices List.dedup 3 [[0, 1, 2], [2, 1, 3]] = .ok t ∧
    Coherent [[0, 1, 2], [2, 1, 3]] := by
  have hs : Simplices 3 [[0, 1, 2], [2, 1, 3]] := simplices_of_all (by decide)
  have hf : fromSimplices List.dedup 3 [[0, 1, 2], [2, 1, 3]] =
    .ok (built 3 [[0, 1, 2], [2, 1, 3]]) := by decide +kernel
  refine ⟨_, hs, hf, ?_⟩
  rw [← reorient_false [[0, 1, 2], [2, 1, 3]],
    ← (wf_built hs hf).satisfies_iff_coherent hs (fun _ => false)]
  decide +kernel

example : (do
    let t ← fromSimplices List.dedup 3 [[0, 1, 2], [2, 1, 3]]
    fundamentalDomains t) = .ok
    [[[1, 4, 0], [2, 4, 0], [2, 0, 0], [0, 0, 0], [0, 1, 0], [1, 1, 0]],
     [[1, 2, 1], [3, 2, 1], [3, 3, 1], [2, 3, 1], [2, 4, 1], [1, 4, 1]]] := by decide +kernel

example : (do
    let t ← fromSimplices List.dedup 3 [[0, 1, 2], [2, 1, 3]]
    let t' ← subdivideFundamental List.dedup t true
    Except.ok (t'.nElements 0, (t'.elements[2]?.getD []).take 4)) = .ok
    (11, [[1, 8, 9], [2, 9, 8], [2, 4, 9], [0, 9, 4]]) := by decide +kernel

end Verif.Props
