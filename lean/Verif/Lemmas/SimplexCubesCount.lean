/-
Counting the faces of the cubes at the corners of simplices.
-/
import Verif.Lemmas.SimplexCubesOrient
import Verif.Lemmas.CubeCount
import Verif.Props.Cubical
import Mathlib.Data.List.Sublists

set_option linter.unusedSectionVars false

namespace Verif

open Verif.Model Verif.Spec

section

variable {n : Nat} {top : List (List Nat)} {t s : Topo} {order : List Nat → Nat → List Nat} {uniq : List (List Nat) → List (List Nat)}

/-- the cubes are different -/
theorem cornerCubes_distinct (wf : WF n top t) (htop : Simplices (n + 1) top) (ho : Others n order) :
    DistinctElements (cornerCubes t n order top).flatten := by
  refine distinctElements_of ?_
  intro x y c c' hx hy hp
  obtain ⟨j, l, i, hj, hi, rfl, rfl⟩ := get_cornerCubes_inv hx
  obtain ⟨j', l', i', hj', hi', rfl, rfl⟩ := get_cornerCubes_inv hy
  obtain ⟨hl, hn⟩ := htop l (List.mem_of_getElem? hj)
  obtain ⟨hl', hn'⟩ := htop l' (List.mem_of_getElem? hj')
  obtain ⟨h1, -, h3⟩ := between_inj wf htop hj hj' (by simpa using (ho l i hl hi).subperm) (by simpa using (ho l' i' hl' hi').subperm)
    (by simp) (by simp) hp
  obtain rfl := h3 (by simp [ho.length hl hi])
  obtain rfl := Option.some.inj (hj.symm.trans hj')
  have hv : l[i]?.getD 0 = l[i']?.getD 0 := by simpa using List.perm_singleton.1 h1
  rw [getD_inj hn (by omega) (by omega) hv]

/-- every stored element is contained in a simplex -/
theorem stored_in_top (wf : WF n top t) (htop : Simplices (n + 1) top) {k x : Nat} {e : List Nat} (hk : k ≤ n)
    (hst : Stored t k x e) : ∃ (j : Nat) (l : List Nat), top[j]? = some l ∧ e.Subperm l ∧ e.length = k + 1 ∧ (k = n → j = x) := by
  by_cases hkn : k = n
  · subst hkn
    have := hst
    unfold Stored at this
    rw [wf.top_eq] at this
    exact ⟨x, e, this, List.Subperm.refl _, (htop e (List.mem_of_getElem? this)).1, fun _ => rfl⟩
  · obtain ⟨h1, l, h2, h3⟩ := (wf.faces htop (n - k) k (by omega) e).1 ⟨e, List.mem_of_getElem? hst, List.Perm.refl _⟩
    obtain ⟨j, hj, rfl⟩ := List.getElem_of_mem h2
    exact ⟨j, _, List.getElem?_eq_getElem hj, h3, h1, fun h => absurd h hkn⟩

/-- the row of a stored element -/
def rowOf (t : Topo) (m x : Nat) : List Nat := (t.elements[m]?.getD [])[x]?.getD []

/-- all ways to mark `k` corners, but not all, of an element -/
def splits (t : Topo) (n k : Nat) : List (Nat × Nat × List Nat) :=
  (List.range (n + 1)).flatMap fun m => if k ≤ m then
    (List.range (t.nElements m)).flatMap fun x => ((rowOf t m x).sublistsLen k).map fun Q => (m, x, Q) else []

theorem mem_splits {k m x : Nat} {Q : List Nat} : (m, x, Q) ∈ splits t n k ↔
    k ≤ m ∧ m ≤ n ∧ x < t.nElements m ∧ Q.Sublist (rowOf t m x) ∧ Q.length = k := by
  simp only [splits, List.mem_flatMap, List.mem_range]
  constructor
  · rintro ⟨m', h1, h2⟩
    split at h2
    · simp only [List.mem_flatMap, List.mem_range, List.mem_map, Prod.mk.injEq, List.mem_sublistsLen] at h2
      obtain ⟨x', h3, Q', h4, rfl, rfl, rfl⟩ := h2
      exact ⟨‹_›, by omega, h3, h4.1, h4.2⟩
    · simp at h2
  · rintro ⟨h1, h2, h3, h4, h5⟩
    refine ⟨m, by omega, ?_⟩
    rw [if_pos h1]
    simp only [List.mem_flatMap, List.mem_range, List.mem_map, Prod.mk.injEq, List.mem_sublistsLen]
    exact ⟨x, h3, Q, ⟨h4, h5⟩, trivial, rfl, rfl⟩

theorem rowOf_stored {m x : Nat} (hx : x < t.nElements m) : Stored t m x (rowOf t m x) := by
  unfold Stored rowOf
  rw [List.getElem?_eq_getElem hx, Option.getD_some]

theorem rowOf_simplex (wf : WF n top t) (htop : Simplices (n + 1) top) {m x : Nat} (hm : m ≤ n) (hx : x < t.nElements m) :
    (rowOf t m x).length = m + 1 ∧ (rowOf t m x).Nodup := by
  obtain ⟨j, l, hj, h1, h2, -⟩ := stored_in_top wf htop hm (rowOf_stored hx)
  exact ⟨h2, nodup_of_subperm h1 (htop l (List.mem_of_getElem? hj)).2⟩

theorem splits_nodup (wf : WF n top t) (htop : Simplices (n + 1) top) (k : Nat) : (splits t n k).Nodup := by
  unfold splits
  rw [List.nodup_flatMap]
  constructor
  · intro m hm
    have hm := List.mem_range.1 hm
    split
    · rw [List.nodup_flatMap]
      constructor
      · intro x hx
        refine List.Nodup.map (fun B B' h => by simpa using h) ?_
        exact List.nodup_sublistsLen _ (rowOf_simplex wf htop (by omega) (List.mem_range.1 hx)).2
      · refine List.nodup_range.imp ?_
        intro i i' hne x h1 h2
        obtain ⟨B, -, rfl⟩ := List.mem_map.1 h1
        obtain ⟨B', -, h⟩ := List.mem_map.1 h2
        simp at h
        exact hne h.1.symm
    · exact List.nodup_nil
  · refine List.nodup_range.imp ?_
    intro K K' hne x h1 h2
    simp only at h1 h2
    split at h1
    · split at h2
      · obtain ⟨i, -, h1⟩ := List.mem_flatMap.1 h1
        obtain ⟨i', -, h2⟩ := List.mem_flatMap.1 h2
        obtain ⟨B, -, rfl⟩ := List.mem_map.1 h1
        obtain ⟨B', -, h⟩ := List.mem_map.1 h2
        simp at h
        exact hne h.1.symm
      · simp at h2
    · simp at h1

theorem splits_length (wf : WF n top t) (htop : Simplices (n + 1) top) (k : Nat) : (splits t n k).length =
    ((List.range (n + 1)).map fun m => if k ≤ m then t.nElements m * (m + 1).choose k else 0).sum := by
  unfold splits
  rw [List.length_flatMap]
  congr 1
  refine List.map_congr_left fun m hm => ?_
  have hm := List.mem_range.1 hm
  split
  · rw [List.length_flatMap, List.map_congr_left (g := fun _ => (m + 1).choose k)
      (fun x hx => by
        rw [List.length_map, List.length_sublistsLen, (rowOf_simplex wf htop (by omega) (List.mem_range.1 hx)).1])]
    simp
  · rfl

/-- the cube `e` lies between the unmarked corners and all corners of an element -/
def IsSplit (t : Topo) (n : Nat) (top : List (List Nat)) (e : List Nat) (m x : Nat) (Q : List Nat) : Prop :=
  ∃ (j : Nat) (l A : List Nat), top[j]? = some l ∧ (A ++ Q).Subperm l ∧ A ≠ [] ∧ (A ++ Q).Perm (rowOf t m x) ∧ (m = n → j = x) ∧
    e.Perm (between (snum t n j) A Q)

theorem sublist_eq_of_perm {D Q Q' : List Nat} (hD : D.Nodup) (h : Q.Sublist D) (h' : Q'.Sublist D) (hp : Q.Perm Q') : Q = Q' := by
  obtain ⟨b, hb, rfl⟩ := exists_marks h
  obtain ⟨b', hb', rfl⟩ := exists_marks h'
  rw [marked_inj hD hb hb' hp]

theorem isSplit_unique (wf : WF n top t) (htop : Simplices (n + 1) top) {e e' : List Nat} {k m m' x x' : Nat} {Q Q' : List Nat}
    (hp : e.Perm e') (hq : (m, x, Q) ∈ splits t n k) (hq' : (m', x', Q') ∈ splits t n k)
    (h : IsSplit t n top e m x Q) (h' : IsSplit t n top e' m' x' Q') : (m, x, Q) = (m', x', Q') := by
  obtain ⟨-, q2, q3, q4, q5⟩ := mem_splits.1 hq
  obtain ⟨-, r2, r3, r4, r5⟩ := mem_splits.1 hq'
  obtain ⟨j, l, A, a1, a2, a3, a4, a5, a6⟩ := h
  obtain ⟨j', l', A', b1, b2, b3, b4, b5, b6⟩ := h'
  obtain ⟨c1, c2, c3⟩ := between_inj wf htop a1 b1 a2 b2 a3 b3 (a6.symm.trans (hp.trans b6))
  obtain ⟨s1, s2⟩ := rowOf_simplex wf htop q2 q3
  obtain ⟨s3, s4⟩ := rowOf_simplex wf htop r2 r3
  have hrow : (rowOf t m x).Perm (rowOf t m' x') := a4.symm.trans ((c1.append c2).trans b4)
  have hm : m = m' := by
    have := hrow.length_eq
    omega
  subst hm
  have hx : x = x' := by
    by_cases hmn : m = n
    · have := c3 (by rw [a4.length_eq, s1, hmn])
      rw [← a5 hmn, ← b5 hmn, this]
    · exact distinct_index (wf.get (by omega)).2.2.1 (rowOf_stored q3) (rowOf_stored r3) hrow
  subst hx
  rw [sublist_eq_of_perm s2 q4 r4 c2]

theorem isSplit_perm (htop : Simplices (n + 1) top) {e e' : List Nat} {m x : Nat} {Q : List Nat} (hm : (rowOf t m x).length = m + 1)
    (h : IsSplit t n top e m x Q) (h' : IsSplit t n top e' m x Q) : e.Perm e' := by
  obtain ⟨j, l, A, a1, a2, a3, a4, a5, a6⟩ := h
  obtain ⟨j', l', A', b1, b2, b3, b4, b5, b6⟩ := h'
  have hA : A.Perm A' := (List.perm_append_right_iff Q).1 (a4.trans b4.symm)
  have hs := between_agree (t := t) (j := j) (j' := j') htop b1 b2 hA (List.Perm.refl Q) (by
    intro hlen
    rw [a4.length_eq, hm] at hlen
    rw [a5 (by omega), b5 (by omega)])
  exact a6.trans ((hs.perm (by rw [between_length])).symm.trans b6.symm)

/-- the number of stored `k`-cubes -/
theorem corner_count (hu : UniqSpec uniq) (wf : WF n top t) (htop : Simplices (n + 1) top) (ho : Others n order) (hn : 1 ≤ n)
    (hs : fromCubes uniq true n (cornerCubes t n order top).flatten = .ok s) {k : Nat} (hk : k ≤ n) :
    s.nElements k = ((List.range (n + 1)).map fun m => if k ≤ m then t.nElements m * (m + 1).choose k else 0).sum := by
  have hcub := cornerCubes_cubes wf htop ho
  have ws := fromCubes_wf hu hcub hs
  have hdist : DistinctElements (s.elements[k]?.getD []) := by
    rcases Nat.lt_or_ge k n with h | h
    · exact (ws.get h).2.2.1
    · obtain rfl : k = n := by omega
      rw [ws.top_eq]
      exact cornerCubes_distinct wf htop ho
  have hfaces := Props.C19_elements_are_faces hu hcub hs (n - k) k (by omega)
  classical
  have hex : ∀ x, x < s.nElements k → ∃ q : Nat × Nat × List Nat, q ∈ splits t n k ∧ IsSplit t n top (rowOf s k x) q.1 q.2.1 q.2.2 := by
    intro x hx
    obtain ⟨c, hc, f, σ, hf, hsym⟩ := hfaces.1 _ (List.mem_of_getElem? (rowOf_stored hx))
    have hlen : (rowOf s k x).length = 2 ^ k := (ws.cube hn hk (rowOf_stored hx)).1
    obtain ⟨j, l, A, D, h1, h2, h3, h4, rfl⟩ := face_cornerCubes htop ho (by omega) hc hf
    have hpos := List.length_pos_iff.2 h3
    have hle := h2.length_le
    obtain ⟨hl, hln⟩ := htop l (List.mem_of_getElem? h1)
    obtain ⟨i, e, g1, g2, g3, g4⟩ := snum_spec wf htop h1 h2 (by simp [h3])
    rw [List.length_append] at hle g1 g4
    have he : rowOf t (A.length + D.length - 1) i = e := by
      unfold rowOf
      rw [show (t.elements[A.length + D.length - 1]?.getD [])[i]? = some e from g1]
      rfl
    -- list the marked corners in the order of the element
    obtain ⟨Q, hQ1, hQ2⟩ : D.Subperm e := (List.sublist_append_right A D).subperm.trans g2.symm.subperm
    refine ⟨(A.length + D.length - 1, i, Q), mem_splits.2 ⟨by omega, by omega, g1.lt, by rw [he]; exact hQ2, by rw [hQ1.length_eq, h4]⟩,
      j, l, A, h1, ?_, h3, ?_, ?_, ?_⟩
    · exact (hQ1.append_left A).subperm.trans h2
    · rw [he]
      exact (hQ1.append_left A).trans g2.symm
    · intro h
      exact (g4 (by simp only at h; omega)).symm
    · have hag := between_agree (t := t) (j := j) (j' := j) (A := A) (D := D) (A' := A) (D' := Q) htop h1
        ((hQ1.append_left A).subperm.trans h2) (List.Perm.refl _) hQ1.symm (fun _ => rfl)
      exact (hsym.perm hlen).symm.trans (hag.perm (by rw [between_length])).symm
  let g : Nat → Nat × Nat × List Nat := fun x => if h : x < s.nElements k then (hex x h).choose else (0, 0, [])
  have hg : ∀ x, x < s.nElements k → g x ∈ splits t n k ∧ IsSplit t n top (rowOf s k x) (g x).1 (g x).2.1 (g x).2.2 := by
    intro x hx
    simp only [g, dif_pos hx]
    exact (hex x hx).choose_spec
  rw [← splits_length wf htop k]
  have hperm : ((List.range (s.nElements k)).map g).Perm (splits t n k) := by
    rw [List.perm_ext_iff_of_nodup _ (splits_nodup wf htop k)]
    · rintro ⟨m, i, Q⟩
      rw [List.mem_map]
      constructor
      · rintro ⟨x, hx, hq⟩
        rw [← hq]
        exact (hg x (List.mem_range.1 hx)).1
      · intro hm
        obtain ⟨h1, h2, h3, h4, h5⟩ := mem_splits.1 hm
        obtain ⟨j, l, hj, hsub, hlen, hjx⟩ := stored_in_top wf htop h2 (rowOf_stored h3)
        obtain ⟨R, hR⟩ := h4.exists_perm_append
        have hR' : (R ++ Q).Perm (rowOf t m i) := List.perm_append_comm.trans hR.symm
        have hR0 : R ≠ [] := by
          rintro rfl
          have := hR.length_eq
          simp at this
          omega
        obtain ⟨c, hc, f, hf, hfp⟩ := exists_face_cornerCubes (d := n - k) (t := t) htop ho hj (hR'.subperm.trans hsub) hR0 (by omega)
        rw [h5] at hf
        obtain ⟨e, he, σ, hsym⟩ := hfaces.2 c hc f hf
        obtain ⟨x, hx, rfl⟩ := List.getElem_of_mem he
        have hrow : (s.elements[k]?.getD [])[x] = rowOf s k x := by
          unfold rowOf
          rw [List.getElem?_eq_getElem hx, Option.getD_some]
        refine ⟨x, List.mem_range.2 hx, ?_⟩
        obtain ⟨g1, g2⟩ := hg x hx
        rw [hrow] at hsym
        have hl2 : (rowOf s k x).length = 2 ^ k := (ws.cube hn hk (rowOf_stored hx)).1
        have hsp : IsSplit t n top (rowOf s k x) m i Q :=
          ⟨j, l, R, hj, hR'.subperm.trans hsub, hR0, hR', hjx, (hsym.perm hl2).symm.trans hfp⟩
        exact isSplit_unique wf htop (List.Perm.refl _) g1 hm g2 hsp
    · refine List.Nodup.map_on ?_ List.nodup_range
      intro x hx y hy hxy
      rw [List.mem_range] at hx hy
      obtain ⟨g1, g2⟩ := hg x hx
      obtain ⟨-, g4⟩ := hg y hy
      rw [← hxy] at g4
      obtain ⟨-, r2, r3, -, -⟩ := mem_splits.1 (show ((g x).1, (g x).2.1, (g x).2.2) ∈ splits t n k from g1)
      exact distinct_index hdist (rowOf_stored hx) (rowOf_stored hy)
        (isSplit_perm htop (rowOf_simplex wf htop r2 r3).1 g2 g4)
  have := hperm.length_eq
  simpa using this

end

theorem alternating_choose_one (m : Nat) : ∑ k ∈ Finset.range (m + 1), (-1 : ℤ) ^ k * ((m + 1).choose k : ℕ) = (-1) ^ m := by
  have h := add_pow (-1 : ℤ) 1 (m + 1)
  rw [show (-1 : ℤ) + 1 = 0 by norm_num, zero_pow (by omega), Finset.sum_range_succ] at h
  simp only [one_pow, mul_one, Nat.choose_self, Nat.cast_one] at h
  have e : (-1 : ℤ) ^ (m + 1) = -(-1) ^ m := by ring
  linear_combination -h - e

/-- the alternating sum over the levels does not change -/
theorem corner_euler (N N' : Nat → Nat) (n : Nat)
    (h : ∀ k ≤ n, N' k = ((List.range (n + 1)).map fun m => if k ≤ m then N m * (m + 1).choose k else 0).sum) :
    ∑ k ∈ Finset.range (n + 1), (-1 : ℤ) ^ k * N' k = ∑ k ∈ Finset.range (n + 1), (-1 : ℤ) ^ k * N k := by
  have h1 : ∀ k ∈ Finset.range (n + 1), (-1 : ℤ) ^ k * N' k =
      ∑ m ∈ Finset.range (n + 1), (N m : ℤ) * (if k ≤ m then (-1 : ℤ) ^ k * ((m + 1).choose k : ℕ) else 0) := by
    intro k hk
    rw [h k (by have := Finset.mem_range.1 hk; omega)]
    have : (((List.range (n + 1)).map fun m => if k ≤ m then N m * (m + 1).choose k else 0).sum : ℤ) =
        ∑ m ∈ Finset.range (n + 1), ((if k ≤ m then N m * (m + 1).choose k else 0 : ℕ) : ℤ) := by
      rw [← list_range_sum]
      push_cast
      rw [List.map_map]
      refine congrArg List.sum (List.map_congr_left fun m _ => ?_)
      simp only [Function.comp]
      split <;> simp
    rw [this, Finset.mul_sum]
    refine Finset.sum_congr rfl fun m _ => ?_
    split
    · push_cast; ring
    · simp
  rw [Finset.sum_congr rfl h1, Finset.sum_comm]
  refine Finset.sum_congr rfl fun m hm => ?_
  rw [← Finset.mul_sum, ← Finset.sum_filter]
  have hm : m + 1 ≤ n + 1 := Finset.mem_range.1 hm
  have : (Finset.range (n + 1)).filter (fun k => k ≤ m) = Finset.range (m + 1) := by
    ext k
    simp only [Finset.mem_filter, Finset.mem_range]
    omega
  rw [this, alternating_choose_one]
  ring

end Verif
