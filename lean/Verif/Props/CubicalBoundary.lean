/-
C76: orientation, subsets and boundaries of cubical topologies.
-/
import Verif.Lemmas.CubicalOrient

set_option linter.unusedSectionVars false

namespace Verif

open Verif.Model Verif.Spec Verif.Props

variable {uniq : List (List Nat) → List (List Nat)} {n m : Nat} {cubes : List (List Nat)} {t : Topo}
  {solve : List (List Int) → Option (List Int)}

theorem CSubOK.idx_zero {k : Nat} {top : List (List Nat)} {rows : List (List Nat)} {s : Sub} (hk : 0 < k) (hn : 0 < n)
    (h : CWF n top t) (hsn : Cubes k (relabel rows).2) (hu : UniqSpec uniq) (hs : CSubOK uniq k t rows s) :
    s.parentIdx[0]? = some (relabel rows).1 := by
  obtain ⟨P, hP, hlen, hidx⟩ := hs.idx 0 (by omega)
  rw [hP]
  congr 1
  have hsv : ∀ v e, (s.topo.elements[0]?.getD [])[v]? = some e → e = [v] :=
    fun v e => hs.wf.point hk
  have hns : s.topo.nElements 0 = (relabel rows).1.length := by
    apply Nat.le_antisymm
    · by_contra hlt
      push Not at hlt
      unfold Topo.nElements at hlt
      have := hs.bound 0 (by omega) _ (List.getElem_mem hlt) (relabel rows).1.length
        (by rw [hsv _ _ (List.getElem?_eq_getElem hlt)]; simp)
      omega
    · by_contra hlt
      push Not at hlt
      obtain ⟨r, hr, hv⟩ := (relabel_used rows (s.topo.nElements 0)).2 hlt
      obtain ⟨b, hb, hbv⟩ := exists_cubeAt (hsn r hr).1 hv
      -- every corner is a face
      have hpt : ∀ (d : Nat) (l : List Nat), l.length = 2 ^ d → ∀ v ∈ l, IsCubeFace d 0 l [v] := by
        intro d
        induction d with
        | zero =>
          intro l hl v hv
          obtain ⟨w, rfl⟩ := List.length_eq_one_iff.1 hl
          rw [List.mem_singleton] at hv
          subst hv
          rfl
        | succ d ih =>
          intro l hl v hv
          obtain ⟨b, hb, rfl⟩ := exists_cubeAt hl hv
          obtain ⟨s0, b', rfl⟩ : ∃ s0 b', b = s0 :: b' := List.exists_cons_of_length_eq_add_one hb
          refine ⟨0, by omega, s0, ?_⟩
          rw [Nat.zero_add]
          refine ih _ (side_length (by omega) _ _) _ ?_
          exact List.mem_map.2 ⟨_, List.mem_filter.2 ⟨mem_cubeIndices.2 hb, by simp⟩, rfl⟩
      obtain ⟨e, he, σ, hσ⟩ := (C19_elements_are_faces hu hsn hs.built k 0 (by omega)).2 r hr _
        (hpt k r (hsn r hr).1 _ hv)
      obtain ⟨i, hi, rfl⟩ := List.getElem_of_mem he
      have h1 := hsv i _ (List.getElem?_eq_getElem hi)
      rw [h1] at hσ
      have hp := hσ.perm (by simp)
      have : s.topo.nElements 0 = i := by simpa using hp
      unfold Topo.nElements at this
      omega
  apply List.ext_getElem?
  intro v
  by_cases hv : v < (relabel rows).1.length
  · have hv' : v < (s.topo.elements[0]?.getD []).length := by
      rw [← hns] at hv; exact hv
    obtain ⟨p, e', h1, h2, h3⟩ := hidx v _ (List.getElem?_eq_getElem hv')
    rw [hsv v _ (List.getElem?_eq_getElem hv'), h.point hn h2] at h3
    have : p = back rows v := by simpa using h3
    rw [h1, this]
    unfold back
    rw [List.getElem?_eq_getElem hv]; rfl
  · rw [List.getElem?_eq_none (by omega), List.getElem?_eq_none (by omega)]

theorem CSubOK.corresponds {k : Nat} {top : List (List Nat)} {rows : List (List Nat)} {s : Sub} (hk : 0 < k) (hkn : k ≤ n)
    (h : CWF n top t) (hsn : Cubes k (relabel rows).2) (hu : UniqSpec uniq) (hs : CSubOK uniq k t rows s) :
    Corresponds t.elements s.topo.elements s.parentIdx := by
  refine ⟨by rw [hs.lenIdx, hs.wf.lenE], _, hs.idx_zero hk (by omega) h hsn hu, ?_⟩
  intro j E hE
  have hj : j ≤ k := by
    have := (List.getElem?_eq_some_iff.1 hE).1
    rw [hs.wf.lenE] at this
    omega
  obtain ⟨P, hP, hlen, hidx⟩ := hs.idx j hj
  have hb := hs.bound j hj
  unfold Topo.nElements at hlen
  rw [hE, Option.getD_some] at hlen hidx hb
  have hjt : j < t.elements.length := by rw [h.lenE]; omega
  refine ⟨P, _, hP, List.getElem?_eq_getElem hjt, hlen, ?_⟩
  intro i e hi
  refine ⟨hb e (List.mem_of_getElem? hi), ?_⟩
  obtain ⟨p, e', h1, h2, h3⟩ := hidx i e hi
  rw [List.getElem?_eq_getElem hjt, Option.getD_some] at h2
  exact ⟨p, e', h1, h2, h3⟩

/-! ### the chain of boundary sides -/

theorem cubes_bIdx_eq (h : CWF (m + 1) cubes t) :
    bIdx t = (List.range (t.nElements m)).filter fun i => wrap8 (rowSum t m i) ≠ 0 := by
  have : boundaryChain t = (List.range (t.nElements m)).map fun i => wrap8 (rowSum t m i) := by
    unfold boundaryChain rowSum
    simp only
    rw [h.lenB, Nat.add_sub_cancel, (h.shape (k := m) (by omega)).1]
  unfold bIdx
  rw [this, flatnonzero_map_range]

theorem cubes_bRows_eq (h : CWF (m + 1) cubes t) :
    bRows t = (bIdx t).map fun i => (t.elements[m]?.getD [])[i]?.getD [] := by
  unfold bRows
  rw [h.lenB, Nat.add_sub_cancel]
  apply takeRows_eq
  intro i hi
  rw [cubes_bIdx_eq h, List.mem_filter, List.mem_range] at hi
  exact hi.1

theorem cubes_bRows_mem (h : CWF (m + 1) cubes t) : ∀ r ∈ bRows t, r ∈ t.elements[m]?.getD [] := by
  intro r hr
  rw [cubes_bRows_eq h] at hr
  obtain ⟨i, hi, rfl⟩ := List.mem_map.1 hr
  rw [cubes_bIdx_eq h, List.mem_filter, List.mem_range] at hi
  rw [List.getElem?_eq_getElem hi.1]
  exact List.getElem_mem _

theorem cubes_rowSum_closed (h : CWF (m + 2) cubes t) {a : Nat} (ha : a < t.nElements m) :
    ((List.range (t.nElements (m + 1))).map fun i =>
      (t.matrix m).entry a i * rowSum t (m + 1) i).sum = 0 := by
  have e1 : ∀ i ∈ List.range (t.nElements (m + 1)),
      (t.matrix m).entry a i * rowSum t (m + 1) i =
      ((List.range (t.nElements (m + 2))).map fun j =>
        (t.matrix m).entry a i * (t.matrix (m + 1)).entry i j).sum := by
    intro i _
    unfold rowSum
    rw [list_mul_sum, (h.shape (k := m + 1) (by omega)).2]
  rw [List.map_congr_left e1, sum_sum_comm]
  apply List.sum_eq_zero
  intro x hx
  obtain ⟨j, hj, rfl⟩ := List.mem_map.1 hx
  exact h.chain (k := m) (by omega) ha (List.mem_range.1 hj)

/-- the sum of a row of the last matrix, for coherently oriented cubes -/
theorem cubes_rowSum_coherent (hu : UniqSpec uniq) (hc : Cubes (m + 1) cubes) (hm : 1 ≤ m)
    (h : fromCubes uniq true (m + 1) cubes = .ok t) (h2 : SidesAtMostTwo m cubes) (hco : CubesCoherent m cubes)
    {i : Nat} {e : List Nat} (hi : (t.elements[m]?.getD [])[i]? = some e) :
    (BoundarySide m cubes e ∧ rowSum t m i = -1) ∨ (¬ BoundarySide m cubes e ∧ rowSum t m i = 0) := by
  have wf := fromCubes_wf hu hc h
  have htop : t.elements[m + 1]?.getD [] = cubes := by rw [wf.top_eq]; rfl
  have hmem := mem_nonzeroCols_cubes hu hc h hi
  have hee := wf.cubes hc (k := m) (by omega) e (List.mem_of_getElem? hi)
  obtain ⟨l, hl, hone⟩ := stored_first hu hc hm h e (List.mem_of_getElem? hi)
  obtain ⟨j, hj, rfl⟩ := List.getElem_of_mem hl
  have hj' := List.getElem?_eq_getElem hj
  have hside := SideSign.isSide hee.1 hone
  have hjm : j ∈ nonzeroCols (t.matrix m) i := (hmem j).2 ⟨_, hj', hside⟩
  have hnd := WF.nonzeroCols_nodup (t.matrix m) i
  rw [rowSum_eq]
  rcases hz : nonzeroCols (t.matrix m) i with _ | ⟨a, _ | ⟨b, _ | ⟨d, r⟩⟩⟩
  · rw [hz] at hjm; simp at hjm
  · left
    rw [hz] at hjm hmem
    have : j = a := by simpa using hjm
    subst this
    refine ⟨⟨j, _, hj', hside, ?_⟩, ?_⟩
    · intro j' l' hj' hf
      have := (hmem j').2 ⟨l', hj', hf⟩
      simpa using this
    · simp only [List.map_cons, List.map_nil, List.sum_cons, List.sum_nil, add_zero]
      obtain ⟨τ, -, -, he, hun⟩ := entry_isSide hu hc h (k := m) (by omega) hi (by rw [htop]; exact hj') hside
      rw [he, ← hun 1 hone]
  · right
    have hsh := shared_of_pair_cubes hu hc h hi hz
    have h1 := List.getElem?_eq_getElem hsh.2.1
    have h2 := List.getElem?_eq_getElem hsh.2.2.1
    refine ⟨?_, ?_⟩
    · rintro ⟨j', l', -, -, huniq⟩
      have e1 := huniq a _ h1 ((hsh.2.2.2 a _ h1).2 (Or.inl rfl))
      have e2 := huniq b _ h2 ((hsh.2.2.2 b _ h2).2 (Or.inr rfl))
      exact hsh.1 (e1.trans e2.symm)
    · simp only [List.map_cons, List.map_nil, List.sum_cons, List.sum_nil, add_zero]
      refine (coherent_iff_rows hu hc h).1 hco i ?_ a b hz
      rw [rows_cubes hu hc h]
      exact (List.getElem?_eq_some_iff.1 hi).1
  · exfalso
    rw [hz] at hmem hnd
    obtain ⟨la, ha, fa⟩ := (hmem a).1 (by simp)
    obtain ⟨lb, hb, fb⟩ := (hmem b).1 (by simp)
    obtain ⟨ld, hd, fd⟩ := (hmem d).1 (by simp)
    have := h2 e a b d la lb ld ha hb hd fa fb fd
    simp at hnd
    omega

theorem cubes_bIdx_coherent (hu : UniqSpec uniq) (hc : Cubes (m + 1) cubes) (hm : 1 ≤ m)
    (h : fromCubes uniq true (m + 1) cubes = .ok t) (h2 : SidesAtMostTwo m cubes) (hco : CubesCoherent m cubes) :
    bIdx t = (List.range (t.nElements m)).filter fun i => rowSum t m i = -1 := by
  rw [cubes_bIdx_eq (fromCubes_wf hu hc h)]
  apply List.filter_congr
  intro i hi
  have hi' : i < (t.elements[m]?.getD []).length := List.mem_range.1 hi
  rcases cubes_rowSum_coherent hu hc hm h h2 hco (List.getElem?_eq_getElem hi') with ⟨-, hr⟩ | ⟨-, hr⟩ <;>
    rw [hr] <;> decide

/-- the orientations that the boundary sides induce on a stored ridge cancel -/
theorem cubes_ridge_sum (hu : UniqSpec uniq) (hc : Cubes (m + 2) cubes)
    (h : fromCubes uniq true (m + 2) cubes = .ok t) (h2 : SidesAtMostTwo (m + 1) cubes) (hco : CubesCoherent (m + 1) cubes)
    {a : Nat} {e : List Nat} (ha : (t.elements[m]?.getD [])[a]? = some e) :
    ((bRows t).map fun r => ccob m (csign m e) r).sum = 0 := by
  have wf := fromCubes_wf hu hc h
  have ha' : a < t.nElements m := (List.getElem?_eq_some_iff.1 ha).1
  have hcl := cubes_rowSum_closed wf ha'
  rw [cubes_bRows_eq wf, List.map_map, cubes_bIdx_coherent hu hc (by omega) h h2 hco, sum_filter_ite]
  have e1 : ∀ i ∈ List.range (t.nElements (m + 1)),
      (t.matrix m).entry a i * rowSum t (m + 1) i =
      (if rowSum t (m + 1) i = -1 then
        ccob m (csign m e) ((t.elements[m + 1]?.getD [])[i]?.getD []) else 0) := by
    intro i hi
    have hi' : i < (t.elements[m + 1]?.getD []).length := List.mem_range.1 hi
    have hent := wf.entry (k := m) (by omega) ha' (List.mem_range.1 hi)
    rw [ha, Option.getD_some] at hent
    rw [hent]
    rcases cubes_rowSum_coherent hu hc (by omega) h h2 hco (List.getElem?_eq_getElem hi')
      with ⟨-, hr⟩ | ⟨-, hr⟩
    · rw [hr]; simp
    · rw [hr]; simp
  rw [List.map_congr_left e1] at hcl
  simpa [Function.comp] using hcl

theorem csign_map {k : Nat} {e l : List Nat} {φ ψ : Nat → Nat} (he : e.length = 2 ^ k) (hn : e.Nodup)
    (hee : ∀ x ∈ e, ψ (φ x) = x) (hll : ∀ x ∈ l, ψ (φ x) = x) : csign k (e.map φ) (l.map φ) = csign k e l := by
  have hmn : (e.map φ).Nodup := by
    apply List.Nodup.of_map ψ
    rw [map_leftInverse hee]
    exact hn
  by_cases hs : ∃ σ, SymmetricCube k e l σ
  · obtain ⟨σ, hσ⟩ := hs
    rw [csign_eq he hn hσ, csign_eq (by simpa using he) hmn (SymmetricCube.map he hσ φ)]
  · rw [csign_none hs, csign_none]
    rintro ⟨σ, hσ⟩
    exact hs ⟨σ, (symmetricCube_map_iff he hee hll).1 hσ⟩

theorem ccob_csign_map {k : Nat} {e l : List Nat} {φ ψ : Nat → Nat} (he : e.length = 2 ^ k) (hn : e.Nodup)
    (hl : l.length = 2 ^ (k + 1)) (hee : ∀ x ∈ e, ψ (φ x) = x) (hll : ∀ x ∈ l, ψ (φ x) = x) :
    ccob k (csign k (e.map φ)) (l.map φ) = ccob k (csign k e) l := by
  unfold ccob
  refine Finset.sum_congr rfl fun i hi => ?_
  have hi : i ≤ k := by have := Finset.mem_range.1 hi; omega
  have hs : ∀ s, csign k (e.map φ) (sliceAxis k i s (l.map φ)) = csign k e (sliceAxis k i s l) := by
    intro s
    rw [← side_eq hi, side_map hl, csign_map he hn hee, side_eq hi]
    intro x hx
    obtain ⟨b, hb, rfl⟩ := List.mem_map.1 hx
    exact hll _ (cubeAt_mem hl (mem_cubeIndices.1 (List.mem_filter.1 hb).1))
  unfold sideDiff
  rw [hs, hs]

theorem boundaryCubes_sums (hu : UniqSpec uniq) (hc : Cubes (m + 2) cubes)
    (h : fromCubes uniq true (m + 2) cubes = .ok t) (h2 : SidesAtMostTwo (m + 1) cubes) (hco : CubesCoherent (m + 1) cubes)
    {s : Sub} (hok : CSubOK uniq (m + 1) t (bRows t) s) (hsn : Cubes (m + 1) (relabel (bRows t)).2)
    {e : List Nat} (he : e ∈ s.topo.elements[m]?.getD []) :
    ((relabel (bRows t)).2.map fun l => ccob m (csign m e) l).sum = 0 := by
  have wf := fromCubes_wf hu hc h
  obtain ⟨e', he', σ, hσ⟩ := hok.parent m (by omega) e he
  have hce' := wf.cubes hc (k := m) (by omega) e' he'
  have hce := hok.wf.cubes hsn (k := m) (by omega) e he
  obtain ⟨a, ha, rfl⟩ := List.getElem_of_mem he'
  have hsum := cubes_ridge_sum hu hc h h2 hco (List.getElem?_eq_getElem ha)
  set e' := (t.elements[m]?.getD [])[a]
  have h1 : ((relabel (bRows t)).2.map fun l => ccob m (csign m e) l) =
      (relabel (bRows t)).2.map fun l => ccob m (csign m (e.map (back (bRows t)))) (l.map (back (bRows t))) := by
    apply List.map_congr_left
    intro l hl
    refine (ccob_csign_map (ψ := fresh (bRows t)) hce.1 hce.2 (hsn l hl).1 ?_ ?_).symm
    · exact fun x hx => fresh_back _ (hok.bound m (by omega) e he x hx)
    · exact fun x hx => fresh_back _ ((relabel_used _ x).1 ⟨l, hl, hx⟩)
  have h3 : ((relabel (bRows t)).2.map fun l => ccob m (csign m (e.map (back (bRows t)))) (l.map (back (bRows t)))) =
      (bRows t).map fun r => ccob m (csign m (e.map (back (bRows t)))) r := by
    have := congrArg (List.map fun r => ccob m (csign m (e.map (back (bRows t)))) r) (relabel_back (bRows t))
    rw [List.map_map] at this
    exact this
  have h4 : ((bRows t).map fun r => ccob m (csign m (e.map (back (bRows t)))) r) =
      (bRows t).map fun r => σ * ccob m (csign m e') r := by
    apply List.map_congr_left
    intro r _
    have : csign m (e.map (back (bRows t))) = fun l => σ * csign m e' l :=
      funext fun l => csign_of_symmetric hce'.1 hce'.2 hσ l
    rw [this]
    unfold ccob sideDiff
    rw [Finset.mul_sum]
    exact Finset.sum_congr rfl fun i _ => by ring
  rw [h1, h3, h4, List.sum_map_mul_left, hsum, mul_zero]

end Verif

namespace Verif.Props

open Verif.Model Verif.Spec

variable {uniq : List (List Nat) → List (List Nat)} {n : Nat} {cubes : List (List Nat)} {t : Topo}
  {solve : List (List Int) → Option (List Int)}

/-! ### orientation -/

theorem cubes_pm (hu : UniqSpec uniq) (hc : Cubes (n + 1) cubes) (h : fromCubes uniq true (n + 1) cubes = .ok t) :
    ∀ i < (t.matrix n).rows, ∀ j1 j2, nonzeroCols (t.matrix n) i = [j1, j2] →
      ((t.matrix n).entry i j1 = 1 ∨ (t.matrix n).entry i j1 = -1) ∧
      ((t.matrix n).entry i j2 = 1 ∨ (t.matrix n).entry i j2 = -1) := by
  intro i hi j1 j2 hz
  have wf := fromCubes_wf hu hc h
  have htop : t.elements[n + 1]?.getD [] = cubes := by rw [wf.top_eq]; rfl
  rw [rows_cubes hu hc h] at hi
  have hi' := List.getElem?_eq_getElem hi
  have hsh := shared_of_pair_cubes hu hc h hi' hz
  have h1 := List.getElem?_eq_getElem hsh.2.1
  have h2 := List.getElem?_eq_getElem hsh.2.2.1
  obtain ⟨τ1, -, p1, e1, -⟩ := entry_isSide hu hc h (k := n) (by omega) hi' (by rw [htop]; exact h1)
    ((hsh.2.2.2 _ _ h1).2 (Or.inl rfl))
  obtain ⟨τ2, -, p2, e2, -⟩ := entry_isSide hu hc h (k := n) (by omega) hi' (by rw [htop]; exact h2)
    ((hsh.2.2.2 _ _ h2).2 (Or.inr rfl))
  rw [e1, e2]
  omega

/-- C76: if `is_oriented` of a cubical topology is `True`, every side shared by two cubes receives opposite
orientations from them. -/
theorem C76_oriented_sound (hu : UniqSpec uniq) (hc : Cubes (n + 1) cubes) (hsat : SatSpec solve)
    (h : fromCubes uniq true (n + 1) cubes = .ok t) (ho : isOriented solve t = .ok true) : CubesCoherent n cubes :=
  (coherent_iff_rows hu hc h).2
    (isOriented_matrix_sound hsat (fromCubes_wf hu hc h).lenB (cubes_pm hu hc h) ho)

/-- C76: for cubes connected through shared sides `is_oriented` is `True` exactly if every shared side receives
opposite orientations. -/
theorem C76_oriented_exact (hu : UniqSpec uniq) (hc : Cubes (n + 1) cubes) (hsat : SatSpec solve)
    (h : fromCubes uniq true (n + 1) cubes = .ok t) (hcon : CubesConnected n cubes) :
    isOriented solve t = .ok true ↔ CubesCoherent n cubes := by
  refine ⟨C76_oriented_sound hu hc hsat h, fun hco => ?_⟩
  have wf := fromCubes_wf hu hc h
  refine isOriented_of_matrix hsat wf.lenB ?_ ?_
  · intro i hi j1 j2 hz
    exact ⟨(cubes_pm hu hc h i hi j1 j2 hz).1, (coherent_iff_rows hu hc h).1 hco i hi j1 j2 hz⟩
  · intro f hf j1 hj1 j2 hj2
    have hcols : (t.matrix n).cols = cubes.length := by
      rw [(wf.shape (k := n) (by omega)).2, Topo.nElements, wf.top_eq]; rfl
    rw [hcols] at hj1 hj2
    have hstep : ∀ a b, (∃ e, SharedSide n cubes e a b) → f a = f b := by
      rintro a b ⟨e, hsh⟩
      have ha := List.getElem?_eq_getElem hsh.2.1
      have hb := List.getElem?_eq_getElem hsh.2.2.1
      have hsa := (hsh.2.2.2 _ _ ha).2 (Or.inl rfl)
      have hsb := (hsh.2.2.2 _ _ hb).2 (Or.inr rfl)
      obtain ⟨x, e', he', hp⟩ := stored_of_isSide hu hc h (List.mem_of_getElem? ha) hsa
      have hmem := mem_nonzeroCols_cubes hu hc h he'
      have hnd := WF.nonzeroCols_nodup (t.matrix n) x
      have hiff : ∀ j, j ∈ nonzeroCols (t.matrix n) x ↔ j = a ∨ j = b := by
        intro j
        rw [hmem]
        constructor
        · rintro ⟨l, hl, hs⟩
          exact (hsh.2.2.2 j l hl).1 ((isSide_perm hp).2 hs)
        · rintro (rfl | rfl)
          · exact ⟨_, ha, (isSide_perm hp).1 hsa⟩
          · exact ⟨_, hb, (isSide_perm hp).1 hsb⟩
      have hperm : (nonzeroCols (t.matrix n) x).Perm [a, b] := by
        rw [List.perm_ext_iff_of_nodup hnd (by simpa using hsh.1)]
        intro j
        rw [hiff]; simp
      have hx : x < (t.matrix n).rows := by
        rw [rows_cubes hu hc h]; exact (List.getElem?_eq_some_iff.1 he').1
      rcases hzz : nonzeroCols (t.matrix n) x with _ | ⟨a', _ | ⟨b', _ | ⟨c, r⟩⟩⟩
      · rw [hzz] at hperm; simpa using hperm.length_eq
      · rw [hzz] at hperm; simpa using hperm.length_eq
      · have := hf x hx a' b' hzz
        rw [hzz] at hiff hnd
        have ha' := (hiff a').1 (by simp)
        have hb' := (hiff b').1 (by simp)
        have hab : a' ≠ b' := by simpa using hnd
        rcases ha' with rfl | rfl <;> rcases hb' with rfl | rfl
        · exact absurd rfl hab
        · exact this
        · exact this.symm
        · exact absurd rfl hab
      · rw [hzz] at hperm; simpa using hperm.length_eq
    have hpath : ∀ a b, Relation.ReflTransGen (fun a b => ∃ e, SharedSide n cubes e a b) a b → f a = f b := by
      intro a b hr
      induction hr with
      | refl => rfl
      | tail _ hb ih => exact ih.trans (hstep _ _ hb)
    exact hpath _ _ (hcon j1 hj1 j2 hj2)

/-! ### subsets -/

theorem cubes_limit (hu : UniqSpec uniq) (hc : Cubes (n + 1) cubes) (h : fromCubes uniq true (n + 1) cubes = .ok t) :
    1 ≤ n → 2 ^ n < 128 := ((C19_accepts_iff hu hc).1 ⟨t, h⟩).1

/-- C76: selecting a subset of the cubes never fails for a chain of the right length.  It keeps exactly the cubes
with a non-zero chain value, in order (read through the vertex map `P0 = parent_idx[0]`), numbers its
vertices without gaps in the order of the original numbers, and on every level `parent_idx` points to the
original element with the same corners. -/
theorem C76_select_subset (hu : UniqSpec uniq) (hc : Cubes (n + 1) cubes)
    (h : fromCubes uniq true (n + 1) cubes = .ok t) (chain : List Int) (hlen : chain.length = cubes.length) :
    ∃ s P0 new, selectCubes uniq t chain = .ok s ∧ s.parentIdx[0]? = some P0 ∧
      s.topo.elements[n + 1]? = some new ∧
      new.map (fun r => r.map fun v => P0[v]?.getD 0) = picked chain cubes ∧
      P0.Pairwise (· < ·) ∧ (∀ v, (∃ r ∈ new, v ∈ r) ↔ v < P0.length) ∧
      Corresponds t.elements s.topo.elements s.parentIdx := by
  have wf := fromCubes_wf hu hc h
  have hrows : ∀ r ∈ picked chain cubes, r ∈ t.elements[n + 1]?.getD [] := by
    intro r hr
    rw [wf.top_eq, Option.getD_some]
    unfold picked at hr
    obtain ⟨cr, hcr, rfl⟩ := List.mem_map.1 hr
    exact (List.of_mem_zip (List.mem_filter.1 hcr).1).2
  have hsn : Cubes (n + 1) (relabel (picked chain cubes)).2 := by
    apply relabel_cubes
    intro r hr
    have := hrows r hr
    rw [wf.top_eq, Option.getD_some] at this
    exact hc r this
  obtain ⟨s, hsub, hok⟩ := subCubes_ok hu wf hc (k := n) (Nat.le_refl _) (cubes_limit hu hc h) hrows
  refine ⟨s, _, _, ?_, hok.idx_zero (by omega) (by omega) wf hsn hu, hok.wf.top_eq, relabel_back _,
    mapping_sorted _, relabel_used _, hok.corresponds (by omega) (Nat.le_refl _) wf hsn hu⟩
  unfold selectCubes
  simp only [wf.lenB, Topo.nElements, wf.top_eq, Option.getD_some]
  rw [if_neg (by simpa using hlen), takeRows_flatnonzero _ _ hlen]
  exact hsub

/-- C76: a chain of the wrong length is rejected with `ValueError`. -/
theorem C76_wrong_length (hu : UniqSpec uniq) (hc : Cubes n cubes)
    (h : fromCubes uniq true n cubes = .ok t) (chain : List Int) (hlen : chain.length ≠ cubes.length) :
    selectCubes uniq t chain = .error .valueError := by
  have wf := fromCubes_wf hu hc h
  unfold selectCubes
  simp only [wf.lenB, Topo.nElements, wf.top_eq, Option.getD_some]
  rw [if_pos hlen]

/-! ### boundary -/

theorem cubicalBoundary_eq (hor : isOriented solve t = .ok true) :
    cubicalBoundary solve uniq t = if (bIdx t).length = 0 then .ok none else
      (subCubes uniq (t.boundary.length - 1) t (bRows t)).map some := by
  unfold cubicalBoundary
  rw [hor]
  simp only [bind, Except.bind, Bool.not_true]
  unfold bIdx bRows bIdx
  split
  · rename_i hf; simp at hf
  · split
    · rfl
    · cases subCubes uniq (t.boundary.length - 1) t
        (takeRows (t.elements[t.boundary.length - 1]?.getD []) (flatnonzero (boundaryChain t))) <;>
        rfl

theorem bRows_cubes (hu : UniqSpec uniq) (hc : Cubes (n + 2) cubes) (h : fromCubes uniq true (n + 2) cubes = .ok t) :
    Cubes (n + 1) (relabel (bRows t)).2 ∧
      ∃ s, subCubes uniq (n + 1) t (bRows t) = .ok s ∧ CSubOK uniq (n + 1) t (bRows t) s := by
  have wf := fromCubes_wf hu hc h
  have hmem := cubes_bRows_mem wf
  refine ⟨relabel_cubes fun r hr => wf.cubes hc (k := n + 1) (by omega) r (hmem r hr), ?_⟩
  refine subCubes_ok hu wf hc (k := n) (by omega) ?_ hmem
  intro _
  exact lt_of_le_of_lt (Nat.pow_le_pow_right (by omega) (by omega : n ≤ n + 1)) (cubes_limit hu hc h (by omega))

/-- C76: the boundary of an oriented cubical topology of dimension at least two, no side of which has three cubes,
never fails, and is `None` exactly if no side belongs to one cube only. -/
theorem C76_closed_iff (hu : UniqSpec uniq) (hc : Cubes (n + 2) cubes) (hsat : SatSpec solve)
    (h : fromCubes uniq true (n + 2) cubes = .ok t) (h2 : SidesAtMostTwo (n + 1) cubes)
    (hor : isOriented solve t = .ok true) :
    (∃ b, cubicalBoundary solve uniq t = .ok b) ∧
    (cubicalBoundary solve uniq t = .ok none ↔ ∀ e, ¬ BoundarySide (n + 1) cubes e) := by
  have wf := fromCubes_wf hu hc h
  have hco := C76_oriented_sound hu hc hsat h hor
  obtain ⟨hsn, s, hsub, hok⟩ := bRows_cubes hu hc h
  rw [cubicalBoundary_eq hor, wf.lenB, show n + 2 - 1 = n + 1 from rfl, hsub]
  have hnil : (bIdx t).length = 0 ↔ ∀ e, ¬ BoundarySide (n + 1) cubes e := by
    rw [cubes_bIdx_coherent hu hc (by omega) h h2 hco, List.length_eq_zero_iff, List.filter_eq_nil_iff]
    constructor
    · rintro hno e ⟨j, l, hl, hs, hun⟩
      obtain ⟨x, e', he', hp⟩ := stored_of_isSide hu hc h (List.mem_of_getElem? hl) hs
      rcases cubes_rowSum_coherent hu hc (by omega) h h2 hco he' with ⟨-, hr⟩ | ⟨hnb, -⟩
      · exact hno x (List.mem_range.2 (List.getElem?_eq_some_iff.1 he').1) (by simpa using hr)
      · apply hnb
        exact ⟨j, l, hl, (isSide_perm hp).1 hs, fun j' l' hj' hs' => hun j' l' hj' ((isSide_perm hp).2 hs')⟩
    · intro hno i hi
      have hi' := List.getElem?_eq_getElem (List.mem_range.1 hi)
      rcases cubes_rowSum_coherent hu hc (by omega) h h2 hco hi' with ⟨hb, -⟩ | ⟨-, hr⟩
      · exact absurd hb (hno _)
      · rw [hr]; decide
  refine ⟨?_, ?_⟩
  · split
    · exact ⟨_, rfl⟩
    · exact ⟨_, rfl⟩
  · rw [← hnil]
    split
    · next h0 => simp [h0]
    · next h0 => simp [h0, Except.map]

/-- C76: the boundary consists of exactly those stored sides that belong to one cube, in their stored order and
orientation (read through the vertex map `P0`); its vertices are numbered without gaps, and `parent_idx` points
to the matching original elements on every level. -/
theorem C76_boundary_elements (hu : UniqSpec uniq) (hc : Cubes (n + 2) cubes) (hsat : SatSpec solve)
    (h : fromCubes uniq true (n + 2) cubes = .ok t) (h2 : SidesAtMostTwo (n + 1) cubes)
    (hor : isOriented solve t = .ok true) {s : Sub} (hb : cubicalBoundary solve uniq t = .ok (some s)) :
    ∃ P0 new sides, s.parentIdx[0]? = some P0 ∧ s.topo.elements[n + 1]? = some new ∧
      new.map (fun r => r.map fun v => P0[v]?.getD 0) = sides ∧
      sides.Sublist (t.elements[n + 1]?.getD []) ∧
      (∀ e ∈ t.elements[n + 1]?.getD [], e ∈ sides ↔ BoundarySide (n + 1) cubes e) ∧
      P0.Pairwise (· < ·) ∧ (∀ v, (∃ r ∈ new, v ∈ r) ↔ v < P0.length) ∧
      Corresponds t.elements s.topo.elements s.parentIdx := by
  have wf := fromCubes_wf hu hc h
  have hco := C76_oriented_sound hu hc hsat h hor
  obtain ⟨hsn, s', hsub, hok⟩ := bRows_cubes hu hc h
  rw [cubicalBoundary_eq hor, wf.lenB, show n + 2 - 1 = n + 1 from rfl, hsub] at hb
  split at hb
  · simp at hb
  · have : s' = s := by simpa [Except.map] using hb
    subst this
    refine ⟨_, _, bRows t, hok.idx_zero (by omega) (by omega) wf hsn hu, hok.wf.top_eq, relabel_back _,
      ?_, ?_, mapping_sorted _, relabel_used _, hok.corresponds (by omega) (by omega) wf hsn hu⟩
    · rw [cubes_bRows_eq wf, cubes_bIdx_eq wf]
      have hid : t.elements[n + 1]?.getD [] =
          (List.range (t.nElements (n + 1))).map
            fun i => (t.elements[n + 1]?.getD [])[i]?.getD [] := by
        apply List.ext_getElem
        · simp [Topo.nElements]
        · intro i h1 h2
          simp [List.getElem?_eq_getElem h1]
      conv_rhs => rw [hid]
      exact List.filter_sublist.map _
    · intro e he
      obtain ⟨i, hi, rfl⟩ := List.getElem_of_mem he
      have hi' := List.getElem?_eq_getElem hi
      have hd := (wf.get (k := n + 1) (by omega)).2.2.1
      rw [cubes_bRows_eq wf, cubes_bIdx_coherent hu hc (by omega) h h2 hco]
      constructor
      · intro hm
        obtain ⟨i', hi1, he⟩ := List.mem_map.1 hm
        obtain ⟨hr1, hr2⟩ := List.mem_filter.1 hi1
        have hi1' := List.getElem?_eq_getElem (List.mem_range.1 hr1)
        rw [hi1', Option.getD_some] at he
        have : i' = i := distinct_index hd hi1' hi' (by rw [he])
        subst this
        rcases cubes_rowSum_coherent hu hc (by omega) h h2 hco hi' with ⟨hbf, -⟩ | ⟨-, hr⟩
        · exact hbf
        · rw [hr] at hr2; simp at hr2
      · intro hbf
        refine List.mem_map.2 ⟨i, List.mem_filter.2 ⟨List.mem_range.2 hi, ?_⟩, by rw [hi']; rfl⟩
        rcases cubes_rowSum_coherent hu hc (by omega) h h2 hco hi' with ⟨-, hr⟩ | ⟨hnb, -⟩
        · rw [hr]; rfl
        · exact absurd hbf hnb

/-- C76: the boundary cubes are coherently oriented, and the boundary has no boundary: its own sums vanish at every
element, and asking for its boundary gives `None` if it is in one piece. -/
theorem C76_boundary_coherent_and_closed (hu : UniqSpec uniq) (hc : Cubes (n + 2) cubes) (hsat : SatSpec solve)
    (h : fromCubes uniq true (n + 2) cubes = .ok t) (h2 : SidesAtMostTwo (n + 1) cubes)
    (hor : isOriented solve t = .ok true) {s : Sub} (hb : cubicalBoundary solve uniq t = .ok (some s)) :
    (∀ i < s.topo.nElements n, ((List.range (s.topo.nElements (n + 1))).map fun j =>
      (s.topo.matrix n).entry i j).sum = 0) ∧
    CubesCoherent n (s.topo.elements[n + 1]?.getD []) ∧
    (isOriented solve s.topo = .ok true → cubicalBoundary solve uniq s.topo = .ok none) ∧
    (CubesConnected n (s.topo.elements[n + 1]?.getD []) → isOriented solve s.topo = .ok true) := by
  have wf := fromCubes_wf hu hc h
  have hco := C76_oriented_sound hu hc hsat h hor
  obtain ⟨hsn, s', hsub, hok⟩ := bRows_cubes hu hc h
  rw [cubicalBoundary_eq hor, wf.lenB, show n + 2 - 1 = n + 1 from rfl, hsub] at hb
  split at hb
  · simp at hb
  · have : s' = s := by simpa [Except.map] using hb
    subst this
    have hrow : ∀ i < s'.topo.nElements n, ((List.range (s'.topo.nElements (n + 1))).map fun j =>
        (s'.topo.matrix n).entry i j).sum = 0 := by
      intro i hi
      have hi' : i < (s'.topo.elements[n]?.getD []).length := hi
      have hs := boundaryCubes_sums hu hc h h2 hco hok hsn (List.getElem_mem hi')
      have e1 : ∀ j ∈ List.range (s'.topo.nElements (n + 1)), (s'.topo.matrix n).entry i j = (-1) *
          ccob n (csign n (s'.topo.elements[n]?.getD [])[i]) ((relabel (bRows t)).2[j]?.getD []) := by
        intro j hj
        rw [hok.wf.entry (k := n) (by omega) hi (List.mem_range.1 hj), List.getElem?_eq_getElem hi', hok.wf.top_eq]
        simp
      rw [List.map_congr_left e1, List.sum_map_mul_left]
      have e2 : ((List.range (s'.topo.nElements (n + 1))).map fun j =>
          ccob n (csign n (s'.topo.elements[n]?.getD [])[i]) ((relabel (bRows t)).2[j]?.getD [])) =
          (relabel (bRows t)).2.map fun l => ccob n (csign n (s'.topo.elements[n]?.getD [])[i]) l := by
        unfold Topo.nElements
        rw [hok.wf.top_eq, Option.getD_some]
        apply List.ext_getElem
        · simp
        · intro j h1 h2
          simp at h1
          simp [List.getElem?_eq_getElem h1]
      rw [e2, hs, mul_zero]
    have hsum0 : ∀ i < (s'.topo.matrix n).rows, rowSum s'.topo n i = 0 := by
      intro i hi
      obtain ⟨h1, h3⟩ := hok.wf.shape (k := n) (by omega)
      unfold rowSum
      rw [h3]
      exact hrow i (by rw [← h1]; exact hi)
    have hcs : CubesCoherent n (relabel (bRows t)).2 := by
      rw [coherent_iff_rows hu hsn hok.built]
      intro x hx j1 j2 hz
      have := hsum0 x hx
      rw [rowSum_eq, hz] at this
      simpa using this
    refine ⟨hrow, ?_, ?_, ?_⟩
    · rw [hok.wf.top_eq, Option.getD_some]
      exact hcs
    · intro hor'
      rw [cubicalBoundary_eq hor', if_pos]
      rw [cubes_bIdx_eq hok.wf, List.length_eq_zero_iff, List.filter_eq_nil_iff]
      intro i hi
      rw [hsum0 i (by rw [(hok.wf.shape (k := n) (by omega)).1]; exact List.mem_range.1 hi)]
      decide
    · rw [hok.wf.top_eq, Option.getD_some]
      intro hcon
      exact (C76_oriented_exact hu hsn hsat hok.built hcon).2 hcs

/-- C76: the boundary of cubes that are not coherently oriented is refused with `ValueError`. -/
theorem C76_incoherent_rejected (hu : UniqSpec uniq) (hc : Cubes (n + 1) cubes) (hsat : SatSpec solve)
    (h : fromCubes uniq true (n + 1) cubes = .ok t) (hco : ¬ CubesCoherent n cubes) :
    cubicalBoundary solve uniq t = .error .valueError := by
  have hno : isOriented solve t ≠ .ok true := fun ho => hco (C76_oriented_sound hu hc hsat h ho)
  have hcases : isOriented solve t = .ok true ∨ isOriented solve t = .ok false ∨
      isOriented solve t = .error .valueError := by
    unfold isOriented relativeParity
    simp only [bind, Except.bind]
    split
    · next e he =>
      split at he
      · simp at he
      · split at he
        · simp at he
        · split at he
          · right; right
            rw [Except.error.inj he]
          · simp at he
    · next p hp =>
      cases allEqual p
      · right; left; rfl
      · left; rfl
  unfold cubicalBoundary
  rcases hcases with h1 | h1 | h1
  · exact absurd h1 hno
  · rw [h1]; rfl
  · rw [h1]; rfl

/-! ### concrete cases -/

instance (k : Nat) (e l : List Nat) : Decidable (IsCubeSide k e l) :=
  decidable_of_iff ((List.range (k + 1)).any fun i => [false, true].any fun s => decide (e.Perm (side k i s l))) (by
    unfold IsCubeSide
    simp only [List.any_eq_true, decide_eq_true_eq]
    constructor
    · rintro ⟨i, hi, s, -, h⟩
      exact ⟨i, by have := List.mem_range.1 hi; omega, s, h⟩
    · rintro ⟨i, hi, s, h⟩
      exact ⟨i, List.mem_range.2 (by omega), s, by cases s <;> simp, h⟩)

/-- finite check of `SharedSide`, used for the cases only -/
theorem sharedSide_of_check {k : Nat} {cubes : List (List Nat)} {e : List Nat} {j1 j2 : Nat}
    (h1 : j1 ≠ j2 ∧ j1 < cubes.length ∧ j2 < cubes.length)
    (h : ∀ j < cubes.length, IsCubeSide k e (cubes[j]?.getD []) ↔ j = j1 ∨ j = j2) : SharedSide k cubes e j1 j2 := by
  refine ⟨h1.1, h1.2.1, h1.2.2, fun j l hl => ?_⟩
  have := h j (List.getElem?_eq_some_iff.1 hl).1
  rwa [hl, Option.getD_some] at this

/-- two cubes: no side can have three of them -/
theorem sidesAtMostTwo_of_length {k : Nat} {cubes : List (List Nat)} (h : cubes.length ≤ 2) : SidesAtMostTwo k cubes := by
  intro e j1 j2 j3 l1 l2 l3 h1 h2 h3 _ _ _
  have := (List.getElem?_eq_some_iff.1 h1).1
  have := (List.getElem?_eq_some_iff.1 h2).1
  have := (List.getElem?_eq_some_iff.1 h3).1
  omega

/-- the topology of a list of cubes, for the cases -/
def builtCubes (n : Nat) (cubes : List (List Nat)) : Topo :=
  match fromCubes List.dedup true n cubes with | .ok t => t | .error _ => ⟨[], [], []⟩

theorem twoSquares_case (hsat : SatSpec solve) :
    Cubes 2 [[0, 1, 2, 3], [2, 3, 4, 5]] ∧
    fromCubes List.dedup true 2 [[0, 1, 2, 3], [2, 3, 4, 5]] = .ok (builtCubes 2 [[0, 1, 2, 3], [2, 3, 4, 5]]) ∧
    SidesAtMostTwo 1 [[0, 1, 2, 3], [2, 3, 4, 5]] ∧ CubesConnected 1 [[0, 1, 2, 3], [2, 3, 4, 5]] ∧
    CubesCoherent 1 [[0, 1, 2, 3], [2, 3, 4, 5]] ∧
    isOriented solve (builtCubes 2 [[0, 1, 2, 3], [2, 3, 4, 5]]) = .ok true := by
  have hc : Cubes 2 [[0, 1, 2, 3], [2, 3, 4, 5]] := by
    intro l hl; revert l; decide
  have hf : fromCubes List.dedup true 2 [[0, 1, 2, 3], [2, 3, 4, 5]] =
    .ok (builtCubes 2 [[0, 1, 2, 3], [2, 3, 4, 5]]) := by decide +kernel
  have hsh : SharedSide 1 [[0, 1, 2, 3], [2, 3, 4, 5]] [2, 3] 0 1 :=
    sharedSide_of_check (by decide) (by decide +kernel)
  have hsh' : SharedSide 1 [[0, 1, 2, 3], [2, 3, 4, 5]] [2, 3] 1 0 :=
    sharedSide_of_check (by decide) (by decide +kernel)
  have hcon : CubesConnected 1 [[0, 1, 2, 3], [2, 3, 4, 5]] := by
    intro j1 h1 j2 h2
    simp only [List.length_cons, List.length_nil] at h1 h2
    have c1 : j1 = 0 ∨ j1 = 1 := by omega
    have c2 : j2 = 0 ∨ j2 = 1 := by omega
    rcases c1 with rfl | rfl <;> rcases c2 with rfl | rfl
    · exact .refl
    · exact .single ⟨_, hsh⟩
    · exact .single ⟨_, hsh'⟩
    · exact .refl
  have hco : CubesCoherent 1 [[0, 1, 2, 3], [2, 3, 4, 5]] := by
    rw [coherent_iff_rows uniqSpec_dedup hc hf]
    intro i hi j1 j2 hz
    have key : ∀ i < ((builtCubes 2 [[0, 1, 2, 3], [2, 3, 4, 5]]).matrix 1).rows,
        (nonzeroCols ((builtCubes 2 [[0, 1, 2, 3], [2, 3, 4, 5]]).matrix 1) i).length = 2 →
        ((nonzeroCols ((builtCubes 2 [[0, 1, 2, 3], [2, 3, 4, 5]]).matrix 1) i).map
          fun j => ((builtCubes 2 [[0, 1, 2, 3], [2, 3, 4, 5]]).matrix 1).entry i j).sum = 0 := by decide +kernel
    have := key i hi (by rw [hz]; rfl)
    rw [hz] at this
    simpa using this
  exact ⟨hc, hf, sidesAtMostTwo_of_length (by decide), hcon, hco,
    (C76_oriented_exact uniqSpec_dedup hc hsat hf hcon).2 hco⟩

/-- C76, a case: two squares on a common edge meet all hypotheses; the boundary consists of the six other edges, in
one piece. -/
theorem C76_case (hsat : SatSpec solve) :
    ∃ t s, fromCubes List.dedup true 2 [[0, 1, 2, 3], [2, 3, 4, 5]] = .ok t ∧ isOriented solve t = .ok true ∧
      cubicalBoundary solve List.dedup t = .ok (some s) ∧ s.parentIdx[0]? = some [0, 1, 2, 3, 4, 5] ∧
      s.topo.nElements 1 = 6 ∧ s.topo.nElements 0 = 6 := by
  obtain ⟨-, hf, -, -, -, hor⟩ := twoSquares_case hsat
  refine ⟨_, (match subCubes List.dedup 1 (builtCubes 2 [[0, 1, 2, 3], [2, 3, 4, 5]])
    (bRows (builtCubes 2 [[0, 1, 2, 3], [2, 3, 4, 5]])) with | .ok s => s | .error _ => ⟨⟨[], [], []⟩, []⟩), hf, hor, ?_⟩
  rw [cubicalBoundary_eq hor]
  decide +kernel

/-- C76, a case: two squares of opposite orientation -/
example : ∃ t, Cubes 2 [[0, 1, 2, 3], [3, 2, 5, 4]] ∧
    fromCubes List.dedup true 2 [[0, 1, 2, 3], [3, 2, 5, 4]] = .ok t ∧
    ¬ CubesCoherent 1 [[0, 1, 2, 3], [3, 2, 5, 4]] := by
  have hc : Cubes 2 [[0, 1, 2, 3], [3, 2, 5, 4]] := by
    intro l hl; revert l; decide
  have hf : fromCubes List.dedup true 2 [[0, 1, 2, 3], [3, 2, 5, 4]] =
    .ok (builtCubes 2 [[0, 1, 2, 3], [3, 2, 5, 4]]) := by decide +kernel
  refine ⟨_, hc, hf, ?_⟩
  rw [coherent_iff_rows uniqSpec_dedup hc hf]
  intro hall
  have key : ∃ i ∈ List.range ((builtCubes 2 [[0, 1, 2, 3], [3, 2, 5, 4]]).matrix 1).rows,
      nonzeroCols ((builtCubes 2 [[0, 1, 2, 3], [3, 2, 5, 4]]).matrix 1) i = [0, 1] ∧
      ((builtCubes 2 [[0, 1, 2, 3], [3, 2, 5, 4]]).matrix 1).entry i 0 +
      ((builtCubes 2 [[0, 1, 2, 3], [3, 2, 5, 4]]).matrix 1).entry i 1 ≠ 0 := by decide +kernel
  obtain ⟨i, hi, hz, hne⟩ := key
  exact hne (hall i (List.mem_range.1 hi) 0 1 hz)

/-- C76, a case: the second of two squares -/
example : ∃ t s, fromCubes List.dedup true 2 [[0, 1, 2, 3], [2, 3, 4, 5]] = .ok t ∧
    selectCubes List.dedup t [0, 1] = .ok s ∧ s.parentIdx[0]? = some [2, 3, 4, 5] ∧
    s.topo.elements[2]? = some [[0, 1, 2, 3]] := by
  refine ⟨builtCubes 2 [[0, 1, 2, 3], [2, 3, 4, 5]], ?_⟩
  refine ⟨match selectCubes List.dedup (builtCubes 2 [[0, 1, 2, 3], [2, 3, 4, 5]]) [0, 1] with
    | .ok s => s | .error _ => ⟨⟨[], [], []⟩, []⟩, ?_⟩
  decide +kernel

/-- C76, a case: the boundary of a cube is six squares with eight vertices -/
theorem C76_cube (hsat : SatSpec solve) :
    ∃ t s, Cubes 3 [[0, 1, 2, 3, 4, 5, 6, 7]] ∧ fromCubes List.dedup true 3 [[0, 1, 2, 3, 4, 5, 6, 7]] = .ok t ∧
      SidesAtMostTwo 2 [[0, 1, 2, 3, 4, 5, 6, 7]] ∧ isOriented solve t = .ok true ∧
      cubicalBoundary solve List.dedup t = .ok (some s) ∧ s.topo.nElements 2 = 6 ∧ s.topo.nElements 0 = 8 := by
  have hc : Cubes 3 [[0, 1, 2, 3, 4, 5, 6, 7]] := by
    intro l hl; revert l; decide
  have hf : fromCubes List.dedup true 3 [[0, 1, 2, 3, 4, 5, 6, 7]] = .ok (builtCubes 3 [[0, 1, 2, 3, 4, 5, 6, 7]]) := by
    decide +kernel
  have hor : isOriented solve (builtCubes 3 [[0, 1, 2, 3, 4, 5, 6, 7]]) = .ok true := by
    refine (C76_oriented_exact uniqSpec_dedup hc hsat hf ?_).2 ?_
    · intro j1 h1 j2 h2
      simp only [List.length_cons, List.length_nil] at h1 h2
      obtain rfl : j1 = j2 := by omega
      exact .refl
    · intro e j1 j2 l1 l2 h1 h2 hsh
      have a := hsh.1
      have b := hsh.2.1
      have c := hsh.2.2.1
      simp only [List.length_cons, List.length_nil] at b c
      omega
  refine ⟨_, (match subCubes List.dedup 2 (builtCubes 3 [[0, 1, 2, 3, 4, 5, 6, 7]])
    (bRows (builtCubes 3 [[0, 1, 2, 3, 4, 5, 6, 7]])) with | .ok s => s | .error _ => ⟨⟨[], [], []⟩, []⟩), hc, hf,
    sidesAtMostTwo_of_length (by decide), hor, ?_⟩
  rw [cubicalBoundary_eq hor]
  decide +kernel

end Verif.Props
