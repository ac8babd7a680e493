/-
Lemmas on the boundary chain.
-/
import Verif.Lemmas.Relabel
import Verif.Spec.Boundary
import Mathlib.Tactic.LinearCombination

namespace Verif

open Verif.Model Verif.Spec

theorem sum_filter_ne_zero {ι : Type} (l : List ι) (f : ι → ℤ) :
    (l.map f).sum = ((l.filter fun i => f i ≠ 0).map f).sum := by
  induction l with
  | nil => rfl
  | cons a t ih =>
    rw [List.map_cons, List.sum_cons, ih, List.filter_cons]
    by_cases h : f a = 0
    · simp [h]
    · simp [h]

theorem sum_filter_ite {ι : Type} (l : List ι) (p : ι → Bool) (f : ι → ℤ) :
    ((l.filter p).map f).sum = (l.map fun i => if p i then f i else 0).sum := by
  induction l with
  | nil => rfl
  | cons a t ih =>
    rw [List.map_cons, List.sum_cons, ← ih, List.filter_cons]
    by_cases h : p a = true
    · simp [h]
    · simp [h]

/-- row sum of the top incidence matrix -/
def rowSum (t : Topo) (m i : Nat) : ℤ :=
  ((List.range (t.matrix m).cols).map fun j => (t.matrix m).entry i j).sum

theorem rowSum_eq (t : Topo) (m i : Nat) :
    rowSum t m i = ((nonzeroCols (t.matrix m) i).map fun j => (t.matrix m).entry i j).sum := by
  unfold rowSum nonzeroCols
  exact sum_filter_ne_zero _ _

theorem boundaryChain_eq {m : Nat} {top : List (List Nat)} {t : Topo} (h : WF (m + 1) top t) :
    boundaryChain t = (List.range (t.nElements m)).map fun i => wrap8 (rowSum t m i) := by
  unfold boundaryChain rowSum
  simp only
  rw [h.lenB, Nat.add_sub_cancel, (h.shape (k := m) (by omega)).1]

theorem flatnonzero_map_range (n : Nat) (f : Nat → Int) :
    flatnonzero ((List.range n).map f) = (List.range n).filter fun i => f i ≠ 0 := by
  unfold flatnonzero
  rw [List.length_map, List.length_range]
  apply List.filter_congr
  intro i hi
  rw [List.getElem?_map, List.getElem?_range (List.mem_range.1 hi)]
  rfl

namespace WF

variable {m : Nat} {top : List (List Nat)} {t : Topo}

/-- the boundary of the boundary chain vanishes, for every mesh -/
theorem rowSum_closed (h : WF (m + 2) top t) {a : Nat} (ha : a < t.nElements m) :
    ((List.range (t.nElements (m + 1))).map fun i =>
      (t.matrix m).entry a i * rowSum t (m + 1) i).sum = 0 := by
  have e1 : ∀ i ∈ List.range (t.nElements (m + 1)),
      (t.matrix m).entry a i * rowSum t (m + 1) i =
      ((List.range (t.nElements (m + 2))).map fun j =>
        (t.matrix m).entry a i * (t.matrix (m + 1)).entry i j).sum := by
    intro i _
    unfold rowSum
    rw [list_mul_sum, (h.shape (k := m + 1) (by omega)).2]
  rw [List.map_congr_left e1, sum_sum_comm]
  apply List.sum_eq_zero
  intro x hx
  obtain ⟨j, hj, rfl⟩ := List.mem_map.1 hx
  exact h.chain (k := m) (by omega) ha (List.mem_range.1 hj)

theorem nonzero_le_two (h : WF (m + 1) top t) (htop : Simplices (m + 2) top)
    (h2 : AtMostTwo top) {i : Nat} {e : List Nat}
    (hi : (t.elements[m]?.getD [])[i]? = some e) :
    (nonzeroCols (t.matrix m) i).length ≤ 2 := by
  have hn := nonzeroCols_nodup (t.matrix m) i
  have hm := h.mem_nonzeroCols htop hi
  by_contra hlt
  rcases hz : nonzeroCols (t.matrix m) i with _ | ⟨a, _ | ⟨b, _ | ⟨c, r⟩⟩⟩
  · rw [hz] at hlt; simp at hlt
  · rw [hz] at hlt; simp at hlt
  · rw [hz] at hlt; simp at hlt
  · rw [hz] at hn hm
    obtain ⟨la, ha, fa⟩ := (hm a).1 (by simp)
    obtain ⟨lb, hb, fb⟩ := (hm b).1 (by simp)
    obtain ⟨lc, hc, fc⟩ := (hm c).1 (by simp)
    have := h2 e a b c la lb lc ha hb hc fa fb fc
    simp at hn
    omega

theorem rowSum_coherent (h : WF (m + 1) top t) (hm : 1 ≤ m) (htop : Simplices (m + 2) top)
    (h2 : AtMostTwo top) (hco : Coherent top) {i : Nat} {e : List Nat}
    (hi : (t.elements[m]?.getD [])[i]? = some e) :
    (BoundaryFace top e ∧ rowSum t m i = -1) ∨ (¬ BoundaryFace top e ∧ rowSum t m i = 0) := by
  have hmem := h.mem_nonzeroCols htop hi
  have hle := h.nonzero_le_two htop h2 hi
  have he := ((h.get (k := m) (by omega)).1 e (List.mem_of_getElem? hi)).2
  obtain ⟨l, hl, c, hc, hp, hsg⟩ := h.inherited m hm (by omega) e (List.mem_of_getElem? hi)
  rw [h.top_eq, Option.getD_some] at hl
  have hln := (htop l hl).2
  have hone : inducedSign e l = 1 := by
    rw [inducedSign_eq_cob, cob_relSign_face hln hc hp]; exact hsg
  obtain ⟨j, hj, rfl⟩ := List.getElem_of_mem hl
  have hj' := List.getElem?_eq_getElem hj
  have hjm : j ∈ nonzeroCols (t.matrix m) i := (hmem j).2 ⟨_, hj', c, hc, hp⟩
  rw [rowSum_eq]
  rcases hz : nonzeroCols (t.matrix m) i with _ | ⟨a, _ | ⟨b, _ | ⟨d, r⟩⟩⟩
  · rw [hz] at hjm; simp at hjm
  · left
    rw [hz] at hjm hmem
    have : j = a := by simpa using hjm
    subst this
    refine ⟨⟨j, _, hj', ⟨c, hc, hp⟩, ?_⟩, ?_⟩
    · intro j' l' hj' hf
      have := (hmem j').2 ⟨l', hj', hf⟩
      simpa using this
    · simp only [List.map_cons, List.map_nil, List.sum_cons, List.sum_nil, add_zero]
      rw [h.top_entry hi hj', hone]
      unfold levelSign
      rw [if_neg (by omega)]
      rfl
  · right
    have hsh := h.shared_of_pair htop hi hz
    have h1 := List.getElem?_eq_getElem hsh.2.1
    have h2 := List.getElem?_eq_getElem hsh.2.2.1
    refine ⟨?_, ?_⟩
    · rintro ⟨j', l', -, -, huniq⟩
      have e1 := huniq a _ h1 ((hsh.2.2.2 a _ h1).2 (Or.inl rfl))
      have e2 := huniq b _ h2 ((hsh.2.2.2 b _ h2).2 (Or.inr rfl))
      exact hsh.1 (e1.trans e2.symm)
    · have := hco e a b _ _ h1 h2 hsh
      simp only [List.map_cons, List.map_nil, List.sum_cons, List.sum_nil, add_zero]
      rw [h.top_entry hi h1, h.top_entry hi h2, ← mul_add, this, mul_zero]
  · rw [hz] at hle; simp at hle

end WF

theorem wrap8_zero : wrap8 0 = 0 := rfl
theorem wrap8_neg_one : wrap8 (-1) = -1 := rfl

/-- indices of the boundary faces -/
def bIdx (t : Topo) : List Nat := flatnonzero (boundaryChain t)

theorem takeRows_eq {rows : List (List Nat)} {idx : List Nat} (h : ∀ i ∈ idx, i < rows.length) :
    takeRows rows idx = idx.map fun i => rows[i]?.getD [] := by
  unfold takeRows
  induction idx with
  | nil => rfl
  | cons a t ih =>
    rw [List.filterMap_cons, List.map_cons, List.getElem?_eq_getElem (h a (by simp))]
    simp only [Option.getD_some]
    rw [ih fun i hi => h i (by simp [hi])]

/-- the stored boundary faces -/
def bRows (t : Topo) : List (List Nat) :=
  takeRows (t.elements[t.boundary.length - 1]?.getD []) (bIdx t)

section bnd

variable {m : Nat} {top : List (List Nat)} {t : Topo}

theorem bIdx_eq (h : WF (m + 1) top t) :
    bIdx t = (List.range (t.nElements m)).filter fun i => wrap8 (rowSum t m i) ≠ 0 := by
  unfold bIdx
  rw [boundaryChain_eq h, flatnonzero_map_range]

theorem bRows_eq (h : WF (m + 1) top t) :
    bRows t = (bIdx t).map fun i => (t.elements[m]?.getD [])[i]?.getD [] := by
  unfold bRows
  rw [h.lenB, Nat.add_sub_cancel]
  apply takeRows_eq
  intro i hi
  rw [bIdx_eq h, List.mem_filter, List.mem_range] at hi
  exact hi.1

theorem bRows_mem (h : WF (m + 1) top t) : ∀ r ∈ bRows t, r ∈ t.elements[m]?.getD [] := by
  intro r hr
  rw [bRows_eq h] at hr
  obtain ⟨i, hi, rfl⟩ := List.mem_map.1 hr
  rw [bIdx_eq h, List.mem_filter, List.mem_range] at hi
  rw [List.getElem?_eq_getElem hi.1]
  exact List.getElem_mem _

theorem bIdx_coherent (h : WF (m + 1) top t) (hm : 1 ≤ m) (htop : Simplices (m + 2) top)
    (h2 : AtMostTwo top) (hco : Coherent top) :
    bIdx t = (List.range (t.nElements m)).filter fun i => rowSum t m i = -1 := by
  rw [bIdx_eq h]
  apply List.filter_congr
  intro i hi
  have hi' : i < (t.elements[m]?.getD []).length := List.mem_range.1 hi
  rcases h.rowSum_coherent hm htop h2 hco (List.getElem?_eq_getElem hi') with ⟨-, hr⟩ | ⟨-, hr⟩ <;>
    rw [hr] <;> decide

/-- the signed sum over the boundary faces of the orientations they induce on a ridge vanishes -/
theorem ridge_sum (h : WF (m + 2) top t) (htop : Simplices (m + 3) top)
    (h2 : AtMostTwo top) (hco : Coherent top) {a : Nat} {e : List Nat}
    (ha : (t.elements[m]?.getD [])[a]? = some e) :
    ((bRows t).map fun r => inducedSign e r).sum = 0 := by
  have ha' : a < t.nElements m := (List.getElem?_eq_some_iff.1 ha).1
  have hc := h.rowSum_closed ha'
  rw [bRows_eq h, List.map_map, bIdx_coherent h (by omega) htop h2 hco, sum_filter_ite]
  have e1 : ∀ i ∈ List.range (t.nElements (m + 1)),
      (t.matrix m).entry a i * rowSum t (m + 1) i =
      (- levelSign m) * (if rowSum t (m + 1) i = -1 then
        inducedSign e ((t.elements[m + 1]?.getD [])[i]?.getD []) else 0) := by
    intro i hi
    have hi' : i < (t.elements[m + 1]?.getD []).length := List.mem_range.1 hi
    have hent := h.entry (k := m) (by omega) ha' (List.mem_range.1 hi)
    rw [ha, Option.getD_some, ← inducedSign_eq_cob] at hent
    rw [hent]
    rcases h.rowSum_coherent (by omega) htop h2 hco (List.getElem?_eq_getElem hi')
      with ⟨-, hr⟩ | ⟨-, hr⟩
    · rw [hr]; simp
    · rw [hr]; simp
  rw [List.map_congr_left e1, List.sum_map_mul_left] at hc
  have hls : - levelSign m ≠ 0 := by
    rcases WF.levelSign_ne m with b | b <;> rw [b] <;> decide
  have := (mul_eq_zero.1 hc).resolve_left hls
  simpa [Function.comp] using this

end bnd

end Verif
