/-
Distinct rows listed in lexicographic order make the boundary be numbered in the order of the mesh.
-/
import Verif.Lemmas.DualCubical

set_option linter.unusedSectionVars false

namespace Verif

open Verif.Model Verif.Spec Verif.Props

/-- the elements of a level, corners sorted, are in lexicographic order -/
def LevelSorted (t : Topo) (k : Nat) : Prop := ((t.elements[k]?.getD []).map sortRow).Pairwise (· < ·)

theorem sortRow_id {l : List Nat} (h : l.Pairwise (· ≤ ·)) : sortRow l = l :=
  List.Perm.eq_of_pairwise' (sortRow_sorted l) h (sortRow_perm l)

theorem keys_sorted {corners keys : List (List Nat)} (h : ∀ k ∈ keys, k ∈ corners.map sortRow) :
    (keys.map fun k => (corners[(corners.map sortRow).idxOf k]?).getD []).map sortRow = keys := by
  rw [List.map_map]
  conv_rhs => rw [← List.map_id keys]
  apply List.map_congr_left
  intro k hk
  have hlt := List.idxOf_lt_length_of_mem (h k hk)
  have hlt' : (corners.map sortRow).idxOf k < corners.length := by simpa using hlt
  have := List.getElem_idxOf hlt
  rw [List.getElem_map] at this
  simp only [Function.comp_apply, List.getElem?_eq_getElem hlt', Option.getD_some, id_eq]
  exact this

theorem npUnique_sorted (l : List Nat) : (((npUnique l).map fun v => [v]).map sortRow).Pairwise (· < ·) := by
  rw [List.map_map]
  have h1 : (npUnique l).Pairwise (· < ·) := by
    have h2 : (npUnique l).Pairwise (· ≤ ·) := sortRow_sorted _
    have h3 : (npUnique l).Nodup := (sortRow_perm _).nodup_iff.2 l.nodup_dedup
    exact (h2.and h3).imp fun ⟨a, b⟩ => Nat.lt_of_le_of_ne a b
  rw [List.pairwise_map]
  refine h1.imp fun {a b} hab => ?_
  show sortRow [a] < sortRow [b]
  rw [sortRow_id (by simp), sortRow_id (by simp)]
  exact List.cons_lt_cons_iff.2 (Or.inl hab)

variable {uniq : List (List Nat) → List (List Nat)}

theorem lower_sorted (hu : UniqSpec uniq) (hlex : ∀ l, (uniq l).Pairwise (· < ·)) {n : Nat} {F En0 ENn : List (List Nat)}
    {o : List (List Int)} (h : constructLower uniq n F = .ok (En0, ENn, o)) : (En0.map sortRow).Pairwise (· < ·) := by
  unfold constructLower at h
  split at h
  · have := Except.ok.inj h
    rw [← (Prod.mk.inj this).1]
    exact npUnique_sorted _
  · simp only [bind, Except.bind] at h
    split at h
    · cases h
    · split at h
      · cases h
      · have := Except.ok.inj h
        rw [← (Prod.mk.inj this).1, keys_sorted fun k hk => ((hu _).2 k).1 hk]
        exact hlex _

theorem lowerCubes_sorted (hu : UniqSpec uniq) (hlex : ∀ l, (uniq l).Pairwise (· < ·)) {n : Nat} {mirror : Bool}
    {F En0 ENn : List (List Nat)}
    {o : List (List Int)} (h : lowerCubes uniq mirror n F = .ok (En0, ENn, o)) : (En0.map sortRow).Pairwise (· < ·) := by
  unfold lowerCubes at h
  split at h
  · have := Except.ok.inj h
    rw [← (Prod.mk.inj this).1]
    exact npUnique_sorted _
  · split at h
    · cases h
    · simp only [bind, Except.bind] at h
      split at h
      · cases h
      · have := Except.ok.inj h
        rw [← (Prod.mk.inj this).1, keys_sorted fun k hk => ((hu _).2 k).1 hk]
        exact hlex _

theorem sorted_append {E : List (List (List Nat))} {F : List (List Nat)} {n : Nat} (hlen : E.length = n + 1)
    (h : ∀ k ≤ n, (((E[k]?).getD []).map sortRow).Pairwise (· < ·)) {k : Nat} (hk : k ≤ n) :
    ((((E ++ [F])[k]?).getD []).map sortRow).Pairwise (· < ·) := by
  rw [List.getElem?_append_left (by omega)]
  exact h k hk

theorem lowerLevels_sorted (hu : UniqSpec uniq) (hlex : ∀ l, (uniq l).Pairwise (· < ·)) : ∀ {n : Nat} {F : List (List Nat)} {t : Topo},
    lowerLevels uniq n F = .ok t → t.elements.length = n + 1 ∧ t.elements[n]? = some F ∧ ∀ k < n, LevelSorted t k := by
  intro n
  induction n with
  | zero =>
    intro F t h
    obtain rfl := Except.ok.inj h
    exact ⟨rfl, rfl, fun k hk => absurd hk (Nat.not_lt_zero _)⟩
  | succ n ih =>
    intro F t h
    simp only [lowerLevels, bind, Except.bind] at h
    split at h
    · cases h
    · next p hp =>
      obtain ⟨En0, ENn, o⟩ := p
      simp only at h
      split at h
      · cases h
      · next t' ht' =>
        obtain rfl := Except.ok.inj h
        obtain ⟨h1, h2, h3⟩ := ih ht'
        refine ⟨by simp [h1], by simp [h1], fun k hk => sorted_append h1 (fun j hj => ?_) (by omega)⟩
        rcases Nat.lt_or_ge j n with hlt | hge
        · exact h3 j hlt
        · obtain rfl : j = n := by omega
          rw [h2, Option.getD_some]
          exact lower_sorted hu hlex hp

theorem cubeLevels_sorted (hu : UniqSpec uniq) (hlex : ∀ l, (uniq l).Pairwise (· < ·)) {mirror : Bool} :
    ∀ {n : Nat} {F : List (List Nat)} {t : Topo},
    cubeLevels uniq mirror n F = .ok t → t.elements.length = n + 1 ∧ t.elements[n]? = some F ∧ ∀ k < n, LevelSorted t k := by
  intro n
  induction n with
  | zero =>
    intro F t h
    obtain rfl := Except.ok.inj h
    exact ⟨rfl, rfl, fun k hk => absurd hk (Nat.not_lt_zero _)⟩
  | succ n ih =>
    intro F t h
    simp only [cubeLevels, bind, Except.bind] at h
    split at h
    · cases h
    · next p hp =>
      obtain ⟨En0, ENn, o⟩ := p
      simp only at h
      split at h
      · cases h
      · next t' ht' =>
        obtain rfl := Except.ok.inj h
        obtain ⟨h1, h2, h3⟩ := ih ht'
        refine ⟨by simp [h1], by simp [h1], fun k hk => sorted_append h1 (fun j hj => ?_) (by omega)⟩
        rcases Nat.lt_or_ge j n with hlt | hge
        · exact h3 j hlt
        · obtain rfl : j = n := by omega
          rw [h2, Option.getD_some]
          exact lowerCubes_sorted hu hlex hp

theorem checkTopo_ok {t t' : Topo} (h : checkTopo t = .ok t') : t' = t := by
  unfold checkTopo at h
  split at h
  · cases h
  · split at h
    · exact (Except.ok.inj h).symm
    · cases h

theorem fromSimplices_sorted (hu : UniqSpec uniq) (hlex : ∀ l, (uniq l).Pairwise (· < ·)) {n : Nat} {F : List (List Nat)} {t : Topo}
    (h : fromSimplices uniq (n + 1) F = .ok t) : ∀ k < n, LevelSorted t k := by
  cases n with
  | zero => simp [fromSimplices] at h
  | succ n =>
    simp only [fromSimplices, bind, Except.bind] at h
    split at h
    · cases h
    · next t' ht' =>
      rw [checkTopo_ok h]
      exact (lowerLevels_sorted hu hlex ht').2.2

theorem fromCubes_sorted (hu : UniqSpec uniq) (hlex : ∀ l, (uniq l).Pairwise (· < ·)) {n : Nat} {mirror : Bool}
    {F : List (List Nat)} {t : Topo} (h : fromCubes uniq mirror n F = .ok t) : ∀ k < n, LevelSorted t k := by
  unfold fromCubes at h
  split at h
  · simp only [bind, Except.bind] at h
    split at h
    · cases h
    · next t' ht' =>
      rw [checkTopo_ok h]
      exact (cubeLevels_sorted hu hlex ht').2.2
  · cases h

/-! ### relabelling keeps the order -/

theorem map_lt_map {φ : Nat → Nat} {N : Nat} (hφ : ∀ x y, x < y → y < N → φ x < φ y) : ∀ {a b : List Nat},
    (∀ x ∈ a, x < N) → (∀ x ∈ b, x < N) → a < b → a.map φ < b.map φ := by
  intro a
  induction a with
  | nil =>
    intro b _ _ h
    cases b with
    | nil => exact absurd h (List.not_lt_nil _)
    | cons y b => exact List.nil_lt_cons _ _
  | cons x a ih =>
    intro b ha hb h
    cases b with
    | nil => exact absurd h (List.not_lt_nil _)
    | cons y b =>
      rw [List.map_cons, List.map_cons]
      rcases List.cons_lt_cons_iff.1 h with h | ⟨rfl, h'⟩
      · exact List.cons_lt_cons_iff.2 (Or.inl (hφ x y h (hb y List.mem_cons_self)))
      · exact List.cons_lt_cons_iff.2 (Or.inr ⟨rfl, ih (fun z hz => ha z (List.mem_cons_of_mem _ hz))
          (fun z hz => hb z (List.mem_cons_of_mem _ hz)) h'⟩)

theorem back_mono (rows : List (List Nat)) : ∀ x y, x < y → y < (relabel rows).1.length → back rows x < back rows y := by
  intro x y hxy hy
  unfold back
  rw [List.getElem?_eq_getElem hy, List.getElem?_eq_getElem (by omega), Option.getD_some, Option.getD_some]
  exact List.pairwise_iff_getElem.1 (mapping_sorted rows) x y (by omega) hy hxy

theorem sortRow_map_back {rows : List (List Nat)} {e : List Nat} (he : ∀ v ∈ e, v < (relabel rows).1.length) :
    sortRow (e.map (back rows)) = (sortRow e).map (back rows) := by
  have hs : ((sortRow e).map (back rows)).Pairwise (· ≤ ·) := by
    rw [List.pairwise_map]
    refine (sortRow_sorted e).imp_of_mem fun {a b} ha hb hab => ?_
    rcases Nat.lt_or_ge a b with h | h
    · exact (back_mono rows a b h (he b ((sortRow_perm e).mem_iff.1 hb))).le
    · rw [show a = b by omega]
  rw [← sortRow_id hs, sortRow_eq_iff]
  exact (sortRow_perm e).symm.map _

/-- parents of a level sorted in the same way -/
theorem level_inOrder {t : Topo} {s : Sub} {rows : List (List Nat)} {k : Nat} {P : List Nat} (ht : LevelSorted t k)
    (hs : LevelSorted s.topo k) (hb : ∀ e ∈ s.topo.elements[k]?.getD [], ∀ v ∈ e, v < (relabel rows).1.length)
    (hlen : P.length = s.topo.nElements k)
    (hidx : ∀ (i : Nat) (e : List Nat), (s.topo.elements[k]?.getD [])[i]? = some e → ∃ (p : Nat) (e' : List Nat), P[i]? = some p ∧
      (t.elements[k]?.getD [])[p]? = some e' ∧ e'.Perm (e.map (back rows))) : P.Pairwise (· < ·) := by
  rw [List.pairwise_iff_getElem]
  intro i j hi hj hij
  have hi' : i < (s.topo.elements[k]?.getD []).length := by rw [hlen] at hi; exact hi
  have hj' : j < (s.topo.elements[k]?.getD []).length := by rw [hlen] at hj; exact hj
  obtain ⟨p, e', a1, a2, a3⟩ := hidx i _ (List.getElem?_eq_getElem hi')
  obtain ⟨q, f', b1, b2, b3⟩ := hidx j _ (List.getElem?_eq_getElem hj')
  rw [List.getElem?_eq_getElem hi] at a1
  rw [List.getElem?_eq_getElem hj] at b1
  rw [Option.some.inj a1, Option.some.inj b1]
  have hlt : sortRow e' < sortRow f' := by
    have h1 := List.pairwise_iff_getElem.1 hs i j (by simpa using hi') (by simpa using hj') hij
    rw [List.getElem_map, List.getElem_map] at h1
    rw [(sortRow_eq_iff _ _).2 a3, (sortRow_eq_iff _ _).2 b3, sortRow_map_back (hb _ (List.getElem_mem _)),
      sortRow_map_back (hb _ (List.getElem_mem _))]
    exact map_lt_map (back_mono rows)
      (fun x hx => hb _ (List.getElem_mem hi') x ((sortRow_perm _).mem_iff.1 hx))
      (fun x hx => hb _ (List.getElem_mem hj') x ((sortRow_perm _).mem_iff.1 hx)) h1
  obtain ⟨hp, hp'⟩ := List.getElem?_eq_some_iff.1 a2
  obtain ⟨hq, hq'⟩ := List.getElem?_eq_some_iff.1 b2
  by_contra hge
  rcases Nat.lt_or_ge q p with h | h
  · have h1 := List.pairwise_iff_getElem.1 ht q p (by simpa using hq) (by simpa using hp) h
    rw [List.getElem_map, List.getElem_map, hp', hq'] at h1
    exact lt_asymm h1 hlt
  · obtain rfl : p = q := by omega
    rw [← hp', ← hq'] at hlt
    exact lt_irrefl _ hlt

theorem inOrder_of_levels {s : Sub} {m : Nat} (hl : s.parentIdx.length = m + 1)
    (h : ∀ k ≤ m, ∀ P, s.parentIdx[k]? = some P → P.Pairwise (· < ·)) : InOrder s.parentIdx := by
  intro P hP
  obtain ⟨k, hk⟩ := List.mem_iff_getElem?.1 hP
  have := (List.getElem?_eq_some_iff.1 hk).1
  exact h k (by omega) P hk

theorem bIdx_sorted (t : Topo) : (bIdx t).Pairwise (· < ·) := by
  unfold bIdx flatnonzero
  exact List.Pairwise.filter _ List.pairwise_lt_range

theorem simplicial_inOrder_lex (hu : UniqSpec uniq) (hlex : ∀ l, (uniq l).Pairwise (· < ·)) {m : Nat}
    {simplices : List (List Nat)} {t : Topo} {s : Sub} (h : fromSimplices uniq (m + 3) simplices = .ok t)
    (wf : WF (m + 2) simplices t) (hok : SubOK (m + 1) t (bRows t) s)
    (hbuilt : fromSimplices uniq (m + 2) (relabel (bRows t)).2 = .ok s.topo) : InOrder s.parentIdx := by
  refine inOrder_of_levels hok.lenIdx fun k hk P hP => ?_
  rcases Nat.lt_or_ge k (m + 1) with hlt | hge
  · obtain ⟨P', hP', hlen, hidx⟩ := hok.idx k hk
    obtain rfl := Option.some.inj (hP.symm.trans hP')
    exact level_inOrder (fromSimplices_sorted hu hlex h k (by omega)) (fromSimplices_sorted hu hlex hbuilt k (by omega))
      (hok.bound k hk) hlen hidx
  · obtain rfl : k = m + 1 := by omega
    have hlt : ∀ i ∈ bIdx t, i < t.nElements (m + 1) := by
      intro i hi
      rw [bIdx_eq wf] at hi
      exact List.mem_range.1 (List.mem_filter.1 hi).1
    have := hok.idx_top wf (wf.get (k := m + 1) (by omega)).2.2.1 hlt (bRows_eq wf)
    rw [← Option.some.inj (this.symm.trans hP)]
    exact bIdx_sorted t

theorem simplicial_inOrder_plane {simplices : List (List Nat)} {t : Topo} {s : Sub}
    (wf : WF 2 simplices t) (hok : SubOK 1 t (bRows t) s) : InOrder s.parentIdx := by
  refine inOrder_of_levels hok.lenIdx fun k hk P hP => ?_
  rcases Nat.lt_or_ge k 1 with hlt | hge
  · obtain rfl : k = 0 := by omega
    rw [← Option.some.inj ((hok.idx_zero (by omega) (by omega) wf).symm.trans hP)]
    exact mapping_sorted _
  · obtain rfl : k = 1 := by omega
    have hlt : ∀ i ∈ bIdx t, i < t.nElements 1 := by
      intro i hi
      rw [bIdx_eq wf] at hi
      exact List.mem_range.1 (List.mem_filter.1 hi).1
    have := hok.idx_top wf (wf.get (k := 1) (by omega)).2.2.1 hlt (bRows_eq wf)
    rw [← Option.some.inj (this.symm.trans hP)]
    exact bIdx_sorted t

theorem cubes_idx_top {m : Nat} {cubes : List (List Nat)} {t : Topo} {s : Sub} (wf : CWF (m + 2) cubes t) (hc : Cubes (m + 2) cubes)
    (hok : CSubOK uniq (m + 1) t (bRows t) s) {P : List Nat} (hP : s.parentIdx[m + 1]? = some P) : P = bIdx t := by
  obtain ⟨P', hP', hlen, -⟩ := hok.idx (m + 1) (by omega)
  obtain rfl := Option.some.inj (hP.symm.trans hP')
  have hn := cube_boundary_count wf hok
  have hbl : (bRows t).length = (bIdx t).length := by rw [cubes_bRows_eq wf, List.length_map]
  apply List.ext_getElem
  · omega
  · intro r h1 h2
    obtain ⟨p, hp, hp'⟩ := cube_top_parent wf hc hok (r := r) (by omega)
    rw [hP, Option.getD_some, List.getElem?_eq_getElem h1] at hp
    obtain rfl := Option.some.inj hp
    have hpl := (hok.at_parent wf hc (by omega) (k := m + 1) (by omega)
      (by rw [hP, Option.getD_some, List.getElem?_eq_getElem h1])).2.1
    have hbi : (bIdx t)[r] < t.nElements (m + 1) := by
      have hb : ∀ i ∈ bIdx t, i < t.nElements (m + 1) := by
        intro i hi
        rw [cubes_bIdx_eq wf] at hi
        exact List.mem_range.1 (List.mem_filter.1 hi).1
      exact hb _ (List.getElem_mem h2)
    rw [cubes_bRows_eq wf, List.getElem?_map, List.getElem?_eq_getElem h2] at hp'
    exact distinct_index (wf.get (k := m + 1) (by omega)).2.2.1 (WF.corners_get hpl) (WF.corners_get hbi)
      (by rw [hp']; exact List.Perm.refl _)

theorem cubical_inOrder_lex (hu : UniqSpec uniq) (hlex : ∀ l, (uniq l).Pairwise (· < ·)) {m : Nat}
    {cubes : List (List Nat)} {t : Topo} {s : Sub} (h : fromCubes uniq true (m + 2) cubes = .ok t)
    (wf : CWF (m + 2) cubes t) (hc : Cubes (m + 2) cubes) (hok : CSubOK uniq (m + 1) t (bRows t) s) : InOrder s.parentIdx := by
  refine inOrder_of_levels hok.lenIdx fun k hk P hP => ?_
  rcases Nat.lt_or_ge k (m + 1) with hlt | hge
  · obtain ⟨P', hP', hlen, hidx⟩ := hok.idx k hk
    obtain rfl := Option.some.inj (hP.symm.trans hP')
    exact level_inOrder (fromCubes_sorted hu hlex h k (by omega)) (fromCubes_sorted hu hlex hok.built k (by omega))
      (hok.bound k hk) hlen hidx
  · obtain rfl : k = m + 1 := by omega
    rw [cubes_idx_top wf hc hok hP]
    exact bIdx_sorted t

end Verif
