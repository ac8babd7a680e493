/-
Boundary matrices of products.
-/
import Verif.Lemmas.ProductTopo
import Verif.Lemmas.GridOrient

set_option linter.unusedSectionVars false

namespace Verif

open Verif.Model Verif.Spec Verif.Props

theorem slice_subset {k i : Nat} {s : Bool} {l : List Nat} (hi : i ≤ k) (hl : l.length = 2 ^ (k + 1)) :
    ∀ x ∈ sliceAxis k i s l, x ∈ l := by
  intro x hx
  refine face_subset (d := 1) (k := k) hl (f := sliceAxis k i s l) ⟨i, hi, s, (side_eq hi s l).symm⟩ x hx

/-- coboundary of a function on products -/
theorem ccob_pairCube {nv k k1 k2 : Nat} (hk : k1 + k2 = k + 1) (φ : List Nat → ℤ) (h g : List Nat) :
    ccob k φ (pairCube nv k1 k2 h g) =
      ∑ i ∈ Finset.range k1, (-1) ^ i * (φ (pairCube nv (k1 - 1) k2 (sliceAxis (k1 - 1) i false h) g) -
        φ (pairCube nv (k1 - 1) k2 (sliceAxis (k1 - 1) i true h) g)) +
      ∑ i ∈ Finset.range k2, (-1) ^ (k1 + i) * (φ (pairCube nv k1 (k2 - 1) h (sliceAxis (k2 - 1) i false g)) -
        φ (pairCube nv k1 (k2 - 1) h (sliceAxis (k2 - 1) i true g))) := by
  unfold ccob
  rw [← hk, Finset.sum_range_add]
  congr 1
  · refine Finset.sum_congr rfl fun i hi => ?_
    have hi := Finset.mem_range.1 hi
    obtain ⟨q, rfl⟩ : ∃ q, k1 = q + 1 := ⟨k1 - 1, by omega⟩
    obtain rfl : k = q + k2 := by omega
    unfold sideDiff
    rw [slice_pair_left _ _ _ (by omega), slice_pair_left _ _ _ (by omega)]
    rfl
  · refine Finset.sum_congr rfl fun i hi => ?_
    have hi := Finset.mem_range.1 hi
    obtain ⟨q, rfl⟩ : ∃ q, k2 = q + 1 := ⟨k2 - 1, by omega⟩
    obtain rfl : k = k1 + q := by omega
    unfold sideDiff
    rw [slice_pair_right _ _ _ (by omega), slice_pair_right _ _ _ (by omega)]
    rfl

section

variable {nv k1 k2 : Nat} {f g h g' : List Nat}

theorem ccob_pair_left (hf : f.length = 2 ^ k1) (hfn : f.Nodup) (hflt : ∀ x ∈ f, x < nv)
    (hg : g.length = 2 ^ k2) (hgn : g.Nodup) (hh : h.length = 2 ^ (k1 + 1)) (hhn : h.Nodup) (hhlt : ∀ x ∈ h, x < nv)
    (hg' : g'.length = 2 ^ k2) (hgn' : g'.Nodup)
    (s1 : ∀ i ≤ k1, ∀ s, f.Perm (sliceAxis k1 i s h) → ∃ σ, SymmetricCube k1 f (sliceAxis k1 i s h) σ)
    (s2 : g.Perm g' → ∃ σ, SymmetricCube k2 g g' σ) :
    ccob (k1 + k2) (csign (k1 + k2) (pairCube nv k1 k2 f g)) (pairCube nv (k1 + 1) k2 h g') =
      ccob k1 (csign k1 f) h * csign k2 g g' := by
  rw [ccob_pairCube (by omega)]
  have hz : ∀ i ∈ Finset.range k2, (-1 : ℤ) ^ (k1 + 1 + i) *
      (csign (k1 + k2) (pairCube nv k1 k2 f g) (pairCube nv (k1 + 1) (k2 - 1) h (sliceAxis (k2 - 1) i false g')) -
       csign (k1 + k2) (pairCube nv k1 k2 f g) (pairCube nv (k1 + 1) (k2 - 1) h (sliceAxis (k2 - 1) i true g'))) = 0 := by
    intro i hi
    have hi := Finset.mem_range.1 hi
    have key : ∀ s, csign (k1 + k2) (pairCube nv k1 k2 f g)
        (pairCube nv (k1 + 1) (k2 - 1) h (sliceAxis (k2 - 1) i s g')) = 0 := fun s =>
      csign_pair_ne hf hfn hflt hg hgn hh hhn hhlt (sliceAxis_length _ _ _ _)
        (sliceAxis_nodup (by omega) s (by rw [hg']; congr 1; omega) hgn') (by omega)
    rw [key, key]
    ring
  rw [Finset.sum_eq_zero hz, add_zero]
  simp only [Nat.add_sub_cancel]
  unfold ccob
  rw [Finset.sum_mul]
  refine Finset.sum_congr rfl fun i hi => ?_
  have hi : i ≤ k1 := by have := Finset.mem_range.1 hi; omega
  have key : ∀ s, csign (k1 + k2) (pairCube nv k1 k2 f g) (pairCube nv k1 k2 (sliceAxis k1 i s h) g') =
      csign k1 f (sliceAxis k1 i s h) * csign k2 g g' := fun s =>
    csign_pair hf hfn hflt hg hgn (sliceAxis_length _ _ _ _) (sliceAxis_nodup hi s hh hhn)
      (fun x hx => hhlt x (slice_subset hi hh x hx)) hg' hgn' (s1 i hi s) s2
  rw [key, key]
  unfold sideDiff
  ring

theorem ccob_pair_right (hf : f.length = 2 ^ k1) (hfn : f.Nodup) (hflt : ∀ x ∈ f, x < nv)
    (hg : g.length = 2 ^ k2) (hgn : g.Nodup) (hh : h.length = 2 ^ k1) (hhn : h.Nodup) (hhlt : ∀ x ∈ h, x < nv)
    (hg' : g'.length = 2 ^ (k2 + 1)) (hgn' : g'.Nodup) (s1 : f.Perm h → ∃ σ, SymmetricCube k1 f h σ)
    (s2 : ∀ i ≤ k2, ∀ s, g.Perm (sliceAxis k2 i s g') → ∃ σ, SymmetricCube k2 g (sliceAxis k2 i s g') σ) :
    ccob (k1 + k2) (csign (k1 + k2) (pairCube nv k1 k2 f g)) (pairCube nv k1 (k2 + 1) h g') =
      (-1) ^ k1 * (csign k1 f h * ccob k2 (csign k2 g) g') := by
  rw [ccob_pairCube (by omega)]
  have hz : ∀ i ∈ Finset.range k1, (-1 : ℤ) ^ i *
      (csign (k1 + k2) (pairCube nv k1 k2 f g) (pairCube nv (k1 - 1) (k2 + 1) (sliceAxis (k1 - 1) i false h) g') -
       csign (k1 + k2) (pairCube nv k1 k2 f g) (pairCube nv (k1 - 1) (k2 + 1) (sliceAxis (k1 - 1) i true h) g')) = 0 := by
    intro i hi
    have hi := Finset.mem_range.1 hi
    have hh2 : h.length = 2 ^ (k1 - 1 + 1) := by rw [hh]; congr 1; omega
    have key : ∀ s, csign (k1 + k2) (pairCube nv k1 k2 f g)
        (pairCube nv (k1 - 1) (k2 + 1) (sliceAxis (k1 - 1) i s h) g') = 0 := fun s =>
      csign_pair_ne hf hfn hflt hg hgn (sliceAxis_length _ _ _ _) (sliceAxis_nodup (by omega) s hh2 hhn)
        (fun x hx => hhlt x (slice_subset (by omega) hh2 x hx)) hg' hgn' (by omega)
    rw [key, key]
    ring
  rw [Finset.sum_eq_zero hz, zero_add]
  simp only [Nat.add_sub_cancel]
  unfold ccob
  rw [Finset.mul_sum, Finset.mul_sum]
  refine Finset.sum_congr rfl fun i hi => ?_
  have hi : i ≤ k2 := by have := Finset.mem_range.1 hi; omega
  have key : ∀ s, csign (k1 + k2) (pairCube nv k1 k2 f g) (pairCube nv k1 k2 h (sliceAxis k2 i s g')) =
      csign k1 f h * csign k2 g (sliceAxis k2 i s g') := fun s =>
    csign_pair hf hfn hflt hg hgn hh hhn hhlt (sliceAxis_length _ _ _ _) (sliceAxis_nodup hi s hg' hgn') s1 (s2 i hi s)
  rw [key, key]
  unfold sideDiff
  ring

theorem ccob_pair_other {k k1' k2' : Nat} (hk : k1 + k2 = k) (hk' : k1' + k2' = k + 1) (h1 : k1' ≠ k1 + 1)
    (h2 : k2' ≠ k2 + 1) (hf : f.length = 2 ^ k1) (hfn : f.Nodup) (hflt : ∀ x ∈ f, x < nv)
    (hg : g.length = 2 ^ k2) (hgn : g.Nodup) (hh : h.length = 2 ^ k1') (hhn : h.Nodup) (hhlt : ∀ x ∈ h, x < nv)
    (hg' : g'.length = 2 ^ k2') (hgn' : g'.Nodup) :
    ccob k (csign k (pairCube nv k1 k2 f g)) (pairCube nv k1' k2' h g') = 0 := by
  rw [ccob_pairCube hk']
  subst hk
  rw [Finset.sum_eq_zero, Finset.sum_eq_zero, add_zero]
  · intro i hi
    have hi := Finset.mem_range.1 hi
    have key : ∀ s, csign (k1 + k2) (pairCube nv k1 k2 f g)
        (pairCube nv k1' (k2' - 1) h (sliceAxis (k2' - 1) i s g')) = 0 := fun s =>
      csign_pair_ne hf hfn hflt hg hgn hh hhn hhlt (sliceAxis_length _ _ _ _)
        (sliceAxis_nodup (by omega) s (by rw [hg']; congr 1; omega) hgn') (by omega)
    rw [key, key]
    ring
  · intro i hi
    have hi := Finset.mem_range.1 hi
    have hh2 : h.length = 2 ^ (k1' - 1 + 1) := by rw [hh]; congr 1; omega
    have key : ∀ s, csign (k1 + k2) (pairCube nv k1 k2 f g)
        (pairCube nv (k1' - 1) k2' (sliceAxis (k1' - 1) i s h) g') = 0 := fun s =>
      csign_pair_ne hf hfn hflt hg hgn (sliceAxis_length _ _ _ _) (sliceAxis_nodup (by omega) s hh2 hhn)
        (fun x hx => hhlt x (slice_subset (by omega) hh2 x hx)) hg' hgn' (by omega)
    rw [key, key]
    ring

end

/-! ### elements of a factor -/

/-- a side of a stored cube on the corners of a stored cube is symmetric to it -/
theorem stored_side {k : Nat} {E F : List (List Nat)} (hE : Cubes k E) (hd : DistinctElements E) (hs : SidesOf k E F)
    {f l : List Nat} (hf : f ∈ E) (hl : l ∈ F) (i : Nat) (hi : i ≤ k) (s : Bool) (hp : f.Perm (sliceAxis k i s l)) :
    ∃ σ, SymmetricCube k f (sliceAxis k i s l) σ := by
  obtain ⟨e, he, σ, hσ⟩ := hs.1 l hl i hi s
  rw [side_eq hi] at hσ
  rw [distinct_eq hd hf he (hp.trans (hσ.perm (hE e he).1))]
  exact ⟨σ, hσ⟩

/-- entries of boundary matrices of cubes -/
theorem cube_entry_pm {uniq : List (List Nat) → List (List Nat)} (hu : UniqSpec uniq) {n : Nat} {F : List (List Nat)}
    {t : Topo} (hF : Cubes n F) (h : fromCubes uniq true n F = .ok t) {k : Nat} (hk : k < n) {x j : Nat}
    (hx : x < t.nElements k) (hj : j < t.nElements (k + 1)) (hne : (t.matrix k).entry x j ≠ 0) :
    (t.matrix k).entry x j = 1 ∨ (t.matrix k).entry x j = -1 := by
  have wf := fromCubes_wf hu hF h
  obtain ⟨g1, g2, g3, g4, -⟩ := wf.get hk
  have e1 := List.getElem?_eq_getElem (show x < (t.elements[k]?.getD []).length from hx)
  have e2 := List.getElem?_eq_getElem (show j < (t.elements[k + 1]?.getD []).length from hj)
  obtain ⟨c1, c2⟩ := C19_entries hu hF h k hk x j _ _ e1 e2
  by_cases hex : ∃ i ≤ k, ∃ s, ((t.elements[k]?.getD [])[x]'hx).Perm (side k i s ((t.elements[k + 1]?.getD [])[j]'hj))
  · obtain ⟨i, hi, s, hp⟩ := hex
    rw [side_eq hi] at hp
    obtain ⟨σ, hσ⟩ := stored_side g1 g3 g4 (List.getElem_mem hx) (List.getElem_mem hj) i hi s hp
    rw [← side_eq hi] at hσ
    rw [c1 i hi s σ hσ]
    rcases neg_one_pow_eq (i + s.toNat) with a | a <;> rcases hσ.sign with b | b <;> rw [a, b] <;> decide
  · push Not at hex
    exact absurd (c2 hex) hne

/-! ### orientation of cubes -/

theorem twoColumns_of {M : Mat Int} {i j1 j2 : Nat} (hi : i < M.rows) (hz : nonzeroCols M i = [j1, j2]) :
    TwoColumns M i j1 j2 := by
  have hmem : ∀ j, j ∈ nonzeroCols M i ↔ j < M.cols ∧ M.entry i j ≠ 0 := by
    intro j
    simp [nonzeroCols]
  have hnd := WF.nonzeroCols_nodup M i
  rw [hz] at hnd hmem
  refine ⟨hi, by simpa using hnd, ((hmem j1).1 (by simp)).1, ((hmem j2).1 (by simp)).1, ?_⟩
  intro j hj
  have := hmem j
  simp only [List.mem_cons, List.not_mem_nil, or_false] at this
  rw [this]
  exact ⟨fun h => ⟨hj, h⟩, fun h => h.2⟩

theorem of_twoColumns {M : Mat Int} {i j1 j2 : Nat} (h : TwoColumns M i j1 j2) :
    nonzeroCols M i = [j1, j2] ∨ nonzeroCols M i = [j2, j1] := by
  obtain ⟨hi, hne, h1, h2, hall⟩ := h
  have hp : (nonzeroCols M i).Perm [j1, j2] := by
    rw [List.perm_ext_iff_of_nodup (WF.nonzeroCols_nodup M i) (by simpa using hne)]
    intro j
    simp only [nonzeroCols, List.mem_filter, List.mem_range, decide_eq_true_eq, List.mem_cons, List.not_mem_nil, or_false]
    constructor
    · rintro ⟨hj, hz⟩
      exact (hall j hj).1 hz
    · intro hj
      have hjc : j < M.cols := by rcases hj with rfl | rfl <;> assumption
      exact ⟨hjc, (hall j hjc).2 hj⟩
  have hl : (nonzeroCols M i).length = 2 := hp.length_eq
  obtain ⟨a, b, hab⟩ := length_two hl
  rw [hab] at hp ⊢
  have ha : a = j1 ∨ a = j2 := by simpa using hp.subset (List.mem_cons_self (a := a) (l := [b]))
  have hb : b = j1 ∨ b = j2 := by simpa using hp.subset (show b ∈ [a, b] by simp)
  have hnab : a ≠ b := by simpa using hp.nodup_iff.2 (by simpa using hne)
  rcases ha with rfl | rfl <;> rcases hb with rfl | rfl <;> simp_all

section

variable {uniq : List (List Nat) → List (List Nat)} {n : Nat} {F : List (List Nat)} {t : Topo}
  {solve : List (List Int) → Option (List Int)}

theorem isOriented_of_pairsCancel (hsat : SatSpec solve) (hu : UniqSpec uniq) (hF : Cubes (n + 1) F)
    (h : fromCubes uniq true (n + 1) F = .ok t) (hp : PairsCancel (t.matrix n)) (hl : Linked (t.matrix n)) :
    isOriented solve t = .ok true := by
  have wf := fromCubes_wf hu hF h
  obtain ⟨hr, hc⟩ := wf.shape (k := n) (by omega)
  refine isOriented_of_matrix hsat (n := n) wf.lenB ?_ ?_
  · intro i hi j1 j2 hz
    have htc := twoColumns_of hi hz
    refine ⟨cube_entry_pm hu hF h (by omega) (by rw [← hr]; exact hi) (by rw [← hc]; exact htc.2.2.1)
      ((htc.2.2.2.2 j1 htc.2.2.1).2 (Or.inl rfl)), hp i j1 j2 htc⟩
  · intro f hf j1 h1 j2 h2
    have := hl j1 h1 j2 h2
    induction this with
    | refl => rfl
    | tail hab hbc ih =>
      obtain ⟨i, htc⟩ := hbc
      rw [ih htc.2.2.1]
      rcases of_twoColumns htc with hz | hz
      · exact hf i htc.1 _ _ hz
      · exact (hf i htc.1 _ _ hz).symm

theorem pairsCancel_of_isOriented (hsat : SatSpec solve) (hu : UniqSpec uniq) (hF : Cubes (n + 1) F)
    (h : fromCubes uniq true (n + 1) F = .ok t) (ho : isOriented solve t = .ok true) : PairsCancel (t.matrix n) := by
  have wf := fromCubes_wf hu hF h
  obtain ⟨hr, hc⟩ := wf.shape (k := n) (by omega)
  have hB := wf.lenB
  set M := t.matrix n with hM
  have hpm : ∀ i j1 j2, TwoColumns M i j1 j2 →
      (M.entry i j1 = 1 ∨ M.entry i j1 = -1) ∧ (M.entry i j2 = 1 ∨ M.entry i j2 = -1) := by
    rintro i j1 j2 ⟨hi, -, h1, h2, hall⟩
    exact ⟨cube_entry_pm hu hF h (by omega) (by rw [← hr]; exact hi) (by rw [← hc]; exact h1) ((hall j1 h1).2 (Or.inl rfl)),
      cube_entry_pm hu hF h (by omega) (by rw [← hr]; exact hi) (by rw [← hc]; exact h2) ((hall j2 h2).2 (Or.inr rfl))⟩
  have hmain : ∀ i < M.rows, ∀ j1 j2, nonzeroCols M i = [j1, j2] → M.entry i j1 + M.entry i j2 = 0 := by
    intro i hi j1 j2 hz
    have htc := twoColumns_of hi hz
    obtain ⟨p1, p2⟩ := hpm i j1 j2 htc
    have hin := mem_interiorClauses.2 ⟨i, hi, j1, j2, hz, rfl⟩
    have hcn : interiorClauses M ≠ [] := List.ne_nil_of_mem hin
    have hrp : relativeParity solve t = match solve (allClauses M) with
        | none => .error .valueError
        | some m => .ok (m.map orientationToParity) := by
      unfold relativeParity allClauses
      simp only [hB, hcn, Nat.add_sub_cancel, if_false, Nat.add_one_ne_zero, ← hM]
      rfl
    have hnz : ∀ c ∈ allClauses M, ∀ v ∈ c, v ≠ 0 := by
      have hpos : ∀ c ∈ interiorClauses M, ∀ v ∈ c, v ≠ 0 := by
        intro c hcm v hv
        obtain ⟨i, hi, j1, j2, hz, rfl⟩ := mem_interiorClauses.1 hcm
        obtain ⟨p1, p2⟩ := hpm i j1 j2 (twoColumns_of hi hz)
        simp only [List.mem_cons, List.not_mem_nil, or_false] at hv
        rcases hv with rfl | rfl
        · rcases p1 with p | p <;> rw [p] <;> omega
        · rcases p2 with p | p <;> rw [p] <;> omega
      intro c hcm v hv
      rcases List.mem_append.1 hcm with h | h
      · exact hpos c h v hv
      · obtain ⟨c', hc', rfl⟩ := List.mem_map.1 h
        obtain ⟨w, hw, rfl⟩ := List.mem_map.1 hv
        have := hpos c' hc' w hw
        omega
    obtain ⟨hok, -⟩ := hsat (allClauses M) hnz
    cases hs : solve (allClauses M) with
    | none =>
      rw [hs] at hrp
      unfold isOriented at ho
      rw [hrp] at ho
      simp [bind, Except.bind] at ho
    | some w =>
      obtain ⟨σ, hm, hσ⟩ := hok w hs
      rw [hs] at hrp
      rw [isOriented_of hrp, hm, List.map_map] at ho
      have ho := Except.ok.inj ho
      rw [show (orientationToParity ∘ fun (v : Nat) => if σ (v + 1) = true then (v : Int) + 1 else -((v : Int) + 1)) =
        fun v => !σ (v + 1) from by
          funext v
          simp only [Function.comp, orientationToParity]
          by_cases hb : σ (v + 1) = true
          · simp [hb]; omega
          · simp [hb]; omega, allEqual_map] at ho
      have hin' : [((j1 : Int) + 1) * M.entry i j1, ((j2 : Int) + 1) * M.entry i j2] ∈ allClauses M :=
        List.mem_append_left _ hin
      have hle : ∀ j : Nat, ∀ s : Int, s = 1 ∨ s = -1 → (((j : Int) + 1) * s) ∈
          [((j1 : Int) + 1) * M.entry i j1, ((j2 : Int) + 1) * M.entry i j2] →
          j < ((allClauses M).flatten.map Int.natAbs).foldl max 0 := by
        intro j s hs hmem
        have := le_foldl_max (a := 0) (l := (allClauses M).flatten.map Int.natAbs) (List.mem_map.2
          ⟨_, List.mem_flatten.2 ⟨_, hin', hmem⟩, rfl⟩)
        have h2 : (((j : Int) + 1) * s).natAbs = j + 1 := by
          rcases hs with rfl | rfl <;> omega
        omega
      have heq := ho j1 (hle j1 _ p1 (by simp)) j2 (hle j2 _ p2 (by simp))
      have := (satisfies_pair σ j1 j2 p1 p2).1 ⟨hσ _ hin', hσ _ (List.mem_append_right _ (List.mem_map.2 ⟨_, hin, rfl⟩))⟩
      unfold sg at this
      have heq : σ (j1 + 1) = σ (j2 + 1) := by simpa using heq
      rw [heq] at this
      cases hb : σ (j2 + 1) <;> simp only [hb] at this <;> simp at this <;> omega
  rintro i j1 j2 htc
  rcases of_twoColumns htc with hz | hz
  · exact hmain i htc.1 _ _ hz
  · rw [add_comm]
    exact hmain i htc.1 _ _ hz

end

/-! ### numbering of pairs of cubes -/

theorem pair_lt {p q z1 z2 : Nat} (h1 : z1 < p) (h2 : z2 < q) : z1 * q + z2 < p * q := by
  calc z1 * q + z2 < z1 * q + q := by omega
    _ = (z1 + 1) * q := by ring
    _ ≤ p * q := Nat.mul_le_mul_right _ h1

theorem pair_inj {q z1 z2 w1 w2 : Nat} (h2 : z2 < q) (hw : w2 < q) (h : z1 * q + z2 = w1 * q + w2) :
    z1 = w1 ∧ z2 = w2 := by
  have := decode (nv := q) h2 hw (by rw [Nat.add_comm z2, Nat.add_comm w2]; exact h)
  exact ⟨this.2, this.1⟩

theorem pair_exists {p q j : Nat} (h : j < p * q) : ∃ z1 z2, z1 < p ∧ z2 < q ∧ j = z1 * q + z2 := by
  have hq : 0 < q := by
    rcases Nat.eq_zero_or_pos q with h0 | h0
    · rw [h0, Nat.mul_zero] at h; omega
    · exact h0
  refine ⟨j / q, j % q, (Nat.div_lt_iff_lt_mul hq).2 h, Nat.mod_lt _ hq, ?_⟩
  rw [Nat.mul_comm]
  exact (Nat.div_add_mod j q).symm

theorem product_shape {uniq : List (List Nat) → List (List Nat)} {n m : Nat} {F G : List (List Nat)} {a b t : Topo}
    (hu : UniqSpec uniq) (hF : Cubes (n + 1) F) (hG : Cubes (m + 1) G) (ha : fromCubes uniq true (n + 1) F = .ok a)
    (hb : fromCubes uniq true (m + 1) G = .ok b) (h : productTopology uniq a b = .ok t) :
    (t.matrix (n + 1 + m)).rows = t.nElements (n + 1 + m) ∧ (t.matrix (n + 1 + m)).cols = F.length * G.length := by
  rw [productTopology_eq hu hF hG ha hb] at h
  have wt := fromCubes_wf hu (productCubes_cubes (nv := a.nElements 0) hF hG (top_lt hu hF ha)) h
  obtain ⟨h1, h2⟩ := wt.shape (k := n + 1 + m) (by omega)
  refine ⟨h1, ?_⟩
  rw [h2]
  unfold Topo.nElements
  rw [show n + 1 + m + 1 = n + 1 + (m + 1) by omega, wt.top_eq]
  simp [productCubes, List.length_flatMap]

end Verif
