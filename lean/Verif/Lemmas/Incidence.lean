/-
Entries of the incidence matrices in terms of corner lists.
-/
import Verif.Lemmas.Construct
import Mathlib.Algebra.BigOperators.Ring.List

namespace Verif

open Verif.Model Verif.Spec

theorem sum_map_ite_eq {ι : Type} [DecidableEq ι] (l : List ι) (hl : l.Nodup) (a : ι) (f : ι → ℤ)
    (ha : a ∈ l) : (l.map fun x => if x = a then f x else 0).sum = f a := by
  induction l with
  | nil => simp at ha
  | cons b t ih =>
    rw [List.nodup_cons] at hl
    rw [List.map_cons, List.sum_cons]
    by_cases h : b = a
    · subst h
      rw [if_pos rfl]
      have : (t.map fun x => if x = b then f x else 0) = t.map fun _ => 0 := by
        apply List.map_congr_left
        intro x hx
        rw [if_neg]
        rintro rfl
        exact hl.1 hx
      rw [this]; simp
    · rw [if_neg h, zero_add]
      apply ih hl.2
      rcases List.mem_cons.1 ha with rfl | ha
      · exact absurd rfl h
      · exact ha

theorem sum_map_eq_single {ι : Type} [DecidableEq ι] (l : List ι) (hl : l.Nodup) (a : ι)
    (f : ι → ℤ) (ha : a ∈ l) (h0 : ∀ x ∈ l, x ≠ a → f x = 0) : (l.map f).sum = f a := by
  rw [← sum_map_ite_eq l hl a f ha]
  congr 1
  apply List.map_congr_left
  intro x hx
  split
  · rfl
  · next h => exact h0 x hx h

theorem zip_map_sum {b : List Nat} {o : List Int} {n : Nat} (hb : b.length = n) (ho : o.length = n)
    (g : Nat → Int → Int) :
    ((b.zip o).map fun bo => g bo.1 bo.2).sum =
      ((List.range n).map fun c => g ((b[c]?).getD 0) ((o[c]?).getD 0)).sum := by
  congr 1
  apply List.ext_getElem
  · simp [hb, ho]
  · intro i h1 h2
    simp at h1 h2
    simp [List.getElem?_eq_getElem h1.1, List.getElem?_eq_getElem h1.2]

theorem distinct_index {E : List (List Nat)} (hd : DistinctElements E) {i j : Nat}
    {a b : List Nat} (hi : E[i]? = some a) (hj : E[j]? = some b) (hp : a.Perm b) : i = j := by
  obtain ⟨hi', rfl⟩ := List.getElem?_eq_some_iff.1 hi
  obtain ⟨hj', rfl⟩ := List.getElem?_eq_some_iff.1 hj
  unfold DistinctElements at hd
  rw [List.pairwise_iff_getElem] at hd
  by_contra hne
  rcases Nat.lt_or_gt_of_ne hne with h | h
  · exact hd i j hi' hj' h hp
  · exact hd j i hj' hi' h hp.symm

/-- the incidence matrix entry is the alternating sum of relative signs of the faces -/
theorem entry_eq_cob {k : Nat} {E F : List (List Nat)} {B : List (List Nat)}
    {O : List (List Int)} (hF : Simplices (k + 2) F)
    (hd : DistinctElements E) (hI : InducedBoundary k E F B O) {i j : Nat} {e l : List Nat}
    (hi : E[i]? = some e) (hj : F[j]? = some l) :
    (topologyMatrix B O).entry i j = levelSign k * cob (relSign e) l := by
  obtain ⟨b, o, hb, ho, hbl, hol, hc⟩ := hI.2.2 j l hj
  have hl : l.length = k + 2 := (hF l (List.mem_of_getElem? hj)).1
  simp only [topologyMatrix, hb, ho, Option.getD_some]
  rw [zip_map_sum hbl hol (fun x s => if x = i then s else 0)]
  have hterm : ∀ c ∈ List.range (k + 2),
      (if (b[c]?).getD 0 = i then (o[c]?).getD 0 else 0) =
        levelSign k * ((-1) ^ (oppositeCorner k c) *
          relSign e (l.eraseIdx (oppositeCorner k c))) := by
    intro c hcm
    obtain ⟨i', s, e', h1, h2, h3, h4, h5⟩ := hc c (List.mem_range.1 hcm)
    rw [h1, h2, Option.getD_some, Option.getD_some]
    by_cases hii : i' = i
    · subst hii
      have : e' = e := by rw [hi] at h3; exact (Option.some.inj h3).symm
      subst this
      rw [if_pos rfl, h5]; ring
    · rw [if_neg hii, relSign_of_not_perm, mul_zero, mul_zero]
      intro hp
      exact hii (distinct_index hd h3 hi (h4.trans hp))
  rw [List.map_congr_left hterm, List.sum_map_mul_left]
  congr 1
  unfold cob
  rw [hl]
  rcases Nat.eq_zero_or_pos k with rfl | hk
  · simp only [oppositeCorner, if_true, zero_add, List.range_succ, List.range_zero, List.nil_append,
      List.map_cons, List.map_nil, List.sum_cons, List.sum_nil,
      List.cons_append, smul_eq_mul]
    simp
    ring
  · congr 1
    apply List.map_congr_left
    intro c _
    rw [show oppositeCorner k c = c by unfold oppositeCorner; rw [if_neg (by omega)]]
    simp

theorem mem_eraseIdx_ne {l : List Nat} {c d : Nat} (hc : c < l.length) (hcd : c ≠ d) :
    l[c] ∈ l.eraseIdx d := by
  rw [List.mem_eraseIdx_iff_getElem]
  exact ⟨c, hc, hcd, rfl⟩

theorem not_mem_eraseIdx {l : List Nat} (hn : l.Nodup) {c : Nat} (hc : c < l.length) :
    l[c] ∉ l.eraseIdx c := by
  intro h
  rw [List.mem_eraseIdx_iff_getElem] at h
  obtain ⟨i, hi, hne, he⟩ := h
  exact hne ((List.Nodup.getElem_inj_iff hn).1 he)

/-- different corner deletions of a simplex are different faces -/
theorem eraseIdx_perm_inj {l : List Nat} (hn : l.Nodup) {c d : Nat} (hc : c < l.length)
    (hp : (l.eraseIdx c).Perm (l.eraseIdx d)) : c = d := by
  by_contra hne
  exact not_mem_eraseIdx hn hc (hp.mem_iff.2 (mem_eraseIdx_ne hc hne))

theorem cob_relSign_face {e l : List Nat} (hn : l.Nodup) {c : Nat} (hc : c < l.length)
    (hp : e.Perm (l.eraseIdx c)) :
    cob (relSign e) l = (-1) ^ c * relSign e (l.eraseIdx c) := by
  unfold cob
  rw [sum_map_eq_single (List.range l.length) List.nodup_range c _ (List.mem_range.2 hc)]
  · simp
  · intro d _ hne
    rw [relSign_of_not_perm, smul_zero]
    intro h
    exact hne (eraseIdx_perm_inj hn hc (hp.symm.trans h.symm)).symm

theorem cob_relSign_not_face {e l : List Nat}
    (h : ∀ c < l.length, ¬ e.Perm (l.eraseIdx c)) : cob (relSign e) l = 0 := by
  unfold cob
  have : ∀ c ∈ List.range l.length, ((-1 : ℤ) ^ c) • relSign e (l.eraseIdx c) = 0 := by
    intro c hc
    rw [relSign_of_not_perm, smul_zero]
    exact fun hp => h c (List.mem_range.1 hc) hp.symm
  rw [List.map_congr_left this]
  simp

/-- an alternating function on a Nodup list is recovered from its values on the elements -/
theorem sum_relSign {k : Nat} {E : List (List Nat)} (hE : Simplices k E)
    (hd : DistinctElements E) {φ : List Nat → ℤ} (hφ : Alt φ) {l : List Nat}
    (hl : ∃ e ∈ E, e.Perm l) :
    ((List.range E.length).map fun j =>
      φ ((E[j]?).getD []) * relSign ((E[j]?).getD []) l).sum = φ l := by
  obtain ⟨e, he, hp⟩ := hl
  obtain ⟨j, hj, rfl⟩ := List.getElem_of_mem he
  rw [sum_map_eq_single (List.range E.length) List.nodup_range j _ (List.mem_range.2 hj)]
  · rw [List.getElem?_eq_getElem hj, Option.getD_some,
      hφ.eq_relSign (c := E[j]) (l := l) (hE _ he).2 hp.symm]
    simp [mul_comm]
  · intro m hm hne
    rw [List.mem_range] at hm
    rw [List.getElem?_eq_getElem hm, Option.getD_some, relSign_of_not_perm, mul_zero]
    intro h
    exact hne (distinct_index hd (List.getElem?_eq_getElem hm) (List.getElem?_eq_getElem hj)
      (h.symm.trans hp.symm))

theorem foldl_max_le {l : List Nat} {a n : Nat} (ha : a ≤ n) (h : ∀ x ∈ l, x ≤ n) :
    l.foldl max a ≤ n := by
  induction l generalizing a with
  | nil => exact ha
  | cons b t ih =>
    rw [List.foldl_cons]
    exact ih (max_le ha (h b (by simp))) (fun x hx => h x (by simp [hx]))

theorem le_foldl_max_init (l : List Nat) (a : Nat) : a ≤ l.foldl max a := by
  induction l generalizing a with
  | nil => exact Nat.le_refl _
  | cons b t ih => rw [List.foldl_cons]; exact le_trans (le_max_left _ _) (ih _)

theorem le_foldl_max {l : List Nat} {a x : Nat} (h : x ∈ l) : x ≤ l.foldl max a := by
  induction l generalizing a with
  | nil => simp at h
  | cons b t ih =>
    rw [List.foldl_cons]
    rcases List.mem_cons.1 h with rfl | h
    · exact le_trans (le_max_right _ _) (le_foldl_max_init _ _)
    · exact ih h

/-- the inferred shape of an incidence matrix is the number of elements on both levels -/
theorem topologyMatrix_shape {k : Nat} {E F : List (List Nat)} {B : List (List Nat)}
    {O : List (List Int)} (hF : Simplices (k + 2) F) (hd : DistinctElements E)
    (hf : FacesOf E F) (hI : InducedBoundary k E F B O) :
    (topologyMatrix B O).rows = E.length ∧ (topologyMatrix B O).cols = F.length := by
  refine ⟨?_, hI.1⟩
  have hB : ∀ (j : Nat) b, B[j]? = some b → ∃ l, F[j]? = some l := by
    intro j b hb
    have : j < F.length := by
      rw [← hI.1]; exact (List.getElem?_eq_some_iff.1 hb).1
    exact ⟨F[j], List.getElem?_eq_getElem this⟩
  apply Nat.le_antisymm
  · apply foldl_max_le (Nat.zero_le _)
    intro x hx
    obtain ⟨y, hy, rfl⟩ := List.mem_map.1 hx
    obtain ⟨b, hb, hyb⟩ := List.mem_flatten.1 hy
    obtain ⟨j, hj, rfl⟩ := List.getElem_of_mem hb
    obtain ⟨l, hl⟩ := hB j _ (List.getElem?_eq_getElem hj)
    obtain ⟨b', o', h1, -, h3, -, h5⟩ := hI.2.2 j l hl
    rw [List.getElem?_eq_getElem hj] at h1
    have h1 := Option.some.inj h1
    obtain ⟨c, hc, rfl⟩ := List.getElem_of_mem hyb
    subst h1
    obtain ⟨i, s, e, g1, -, g3, -⟩ := h5 c (by omega)
    rw [List.getElem?_eq_getElem hc] at g1
    have := Option.some.inj g1
    rw [this]
    exact (List.getElem?_eq_some_iff.1 g3).1
  · by_contra hlt
    have hlt := Nat.lt_of_not_le hlt
    obtain ⟨l, hl, c, hc, hp⟩ := hf.2 (E[(topologyMatrix B O).rows]) (List.getElem_mem _)
    obtain ⟨j, hj, rfl⟩ := List.getElem_of_mem hl
    obtain ⟨b, o, h1, h2, h3, h4, h5⟩ := hI.2.2 j _ (List.getElem?_eq_getElem hj)
    have hlen := (hF _ hl).1
    have hopp : ∃ d < k + 2, oppositeCorner k d = c := by
      unfold oppositeCorner
      rcases Nat.eq_zero_or_pos k with rfl | hk
      · exact ⟨1 - c, by omega, by simp; omega⟩
      · exact ⟨c, by omega, by rw [if_neg (by omega)]⟩
    obtain ⟨d, hd', rfl⟩ := hopp
    obtain ⟨i, s, e, g1, g2, g3, g4, -⟩ := h5 d hd'
    have hii : i = (topologyMatrix B O).rows :=
      distinct_index hd g3 (List.getElem?_eq_getElem hlt) (g4.trans hp.symm)
    have : i + 1 ≤ (topologyMatrix B O).rows := by
      apply le_foldl_max
      apply List.mem_map.2
      exact ⟨i, List.mem_flatten.2 ⟨b, List.mem_of_getElem? h1, List.mem_of_getElem? g1⟩, rfl⟩
    omega

end Verif
