/-
Consequences of the incidence specification for a whole topology.
-/
import Verif.Lemmas.Incidence
import Mathlib.Algebra.BigOperators.Ring.List
import Mathlib.Data.List.Nodup

namespace Verif

open Verif.Model Verif.Spec

theorem sum_sum_comm {ι κ : Type} (l : List ι) (m : List κ) (f : ι → κ → ℤ) :
    (l.map fun i => (m.map fun j => f i j).sum).sum =
      (m.map fun j => (l.map fun i => f i j).sum).sum := by
  induction l with
  | nil => simp
  | cons a t ih =>
    simp only [List.map_cons, List.sum_cons, ih]
    clear ih
    induction m with
    | nil => simp
    | cons b m ih => simp only [List.map_cons, List.sum_cons, ← ih]; ring

theorem list_mul_sum {ι : Type} (l : List ι) (r : ℤ) (f : ι → ℤ) :
    r * (l.map f).sum = (l.map fun i => r * f i).sum := (List.sum_map_mul_left ..).symm

namespace WF

variable {n : Nat} {top : List (List Nat)} {t : Topo}

/-- level data as total functions of the level -/
theorem get (h : WF n top t) {k : Nat} (hk : k < n) :
    Simplices (k + 1) (t.elements[k]?.getD []) ∧ Simplices (k + 2) (t.elements[k + 1]?.getD []) ∧
    DistinctElements (t.elements[k]?.getD []) ∧
    FacesOf (t.elements[k]?.getD []) (t.elements[k + 1]?.getD []) ∧
    InducedBoundary k (t.elements[k]?.getD []) (t.elements[k + 1]?.getD [])
      (t.boundary[k]?.getD []) (t.orientation[k]?.getD []) := by
  obtain ⟨E, F, B, O, g1, g2, g3, g4, g5, g6, g7, g8, g9⟩ := h.level k hk
  rw [g1, g2, g3, g4]
  exact ⟨g5, g6, g7, g8, g9⟩

theorem shape (h : WF n top t) {k : Nat} (hk : k < n) :
    (t.matrix k).rows = t.nElements k ∧ (t.matrix k).cols = t.nElements (k + 1) := by
  obtain ⟨h1, h2, h3, h4, h5⟩ := h.get hk
  exact topologyMatrix_shape h2 h3 h4 h5

theorem entry (h : WF n top t) {k : Nat} (hk : k < n) {i j : Nat}
    (hi : i < t.nElements k) (hj : j < t.nElements (k + 1)) :
    (t.matrix k).entry i j = levelSign k *
      cob (relSign ((t.elements[k]?.getD [])[i]?.getD []))
        ((t.elements[k + 1]?.getD [])[j]?.getD []) := by
  obtain ⟨h1, h2, h3, h4, h5⟩ := h.get hk
  unfold Topo.nElements at hi hj
  rw [List.getElem?_eq_getElem hi, List.getElem?_eq_getElem hj]
  exact entry_eq_cob h2 h3 h5 (List.getElem?_eq_getElem hi) (List.getElem?_eq_getElem hj)

/-- the sum over all `k`-elements pairs an alternating function with the incidence column -/
theorem sum_entry (h : WF n top t) {k : Nat} (hk : k < n) {φ : List Nat → ℤ} (hφ : Alt φ)
    {j : Nat} (hj : j < t.nElements (k + 1)) :
    ((List.range (t.nElements k)).map fun i =>
      φ ((t.elements[k]?.getD [])[i]?.getD []) * (t.matrix k).entry i j).sum =
      levelSign k * cob φ ((t.elements[k + 1]?.getD [])[j]?.getD []) := by
  obtain ⟨h1, h2, h3, h4, h5⟩ := h.get hk
  have hl : (t.elements[k + 1]?.getD [])[j]?.getD [] ∈ t.elements[k + 1]?.getD [] := by
    unfold Topo.nElements at hj
    rw [List.getElem?_eq_getElem hj]; exact List.getElem_mem _
  set l := (t.elements[k + 1]?.getD [])[j]?.getD [] with hldef
  have e1 : ∀ i ∈ List.range (t.nElements k),
      φ ((t.elements[k]?.getD [])[i]?.getD []) * (t.matrix k).entry i j =
      ((List.range l.length).map fun c => (levelSign k * (-1) ^ c) *
        (φ ((t.elements[k]?.getD [])[i]?.getD []) *
          relSign ((t.elements[k]?.getD [])[i]?.getD []) (l.eraseIdx c))).sum := by
    intro i hi
    rw [h.entry hk (List.mem_range.1 hi) hj, cob, list_mul_sum, list_mul_sum]
    congr 1
    apply List.map_congr_left
    intro c _
    simp only [smul_eq_mul]
    ring
  rw [List.map_congr_left e1, sum_sum_comm]
  unfold cob
  rw [list_mul_sum]
  congr 1
  apply List.map_congr_left
  intro c hc
  rw [List.sum_map_mul_left]
  have := sum_relSign h1 h3 hφ (l := l.eraseIdx c) (h4.1 l hl c (List.mem_range.1 hc))
  unfold Topo.nElements
  rw [this]
  simp only [smul_eq_mul]
  ring

theorem chain (h : WF n top t) {k : Nat} (hk : k + 1 < n) {i m : Nat}
    (hi : i < t.nElements k) (hm : m < t.nElements (k + 2)) :
    ((List.range (t.nElements (k + 1))).map fun j =>
      (t.matrix k).entry i j * (t.matrix (k + 1)).entry j m).sum = 0 := by
  have e1 : ∀ j ∈ List.range (t.nElements (k + 1)),
      (t.matrix k).entry i j * (t.matrix (k + 1)).entry j m =
      levelSign k * (cob (relSign ((t.elements[k]?.getD [])[i]?.getD []))
        ((t.elements[k + 1]?.getD [])[j]?.getD []) * (t.matrix (k + 1)).entry j m) := by
    intro j hj
    rw [h.entry (by omega) hi (List.mem_range.1 hj)]
    ring
  rw [List.map_congr_left e1, List.sum_map_mul_left,
    h.sum_entry hk ((alt_relSign _).cob) hm, cob_cob]
  simp

end WF

/-! ### faces of faces -/

theorem sublist_extend {s l : List Nat} (h : s.Sublist l) (hlt : s.length < l.length) :
    ∃ l' : List Nat, l'.Sublist l ∧ ∃ c < l'.length, l'.eraseIdx c = s := by
  induction h with
  | slnil => simp at hlt
  | @cons s l a h ih =>
    rcases Nat.lt_or_ge s.length l.length with h1 | h1
    · obtain ⟨l', h2, h3⟩ := ih h1
      exact ⟨l', h2.cons a, h3⟩
    · have : s = l := h.eq_of_length (by have := h.length_le; omega)
      subst this
      exact ⟨a :: s, List.Sublist.refl _, 0, by simp, rfl⟩
  | @cons_cons s l a h ih =>
    simp only [List.length_cons] at hlt
    obtain ⟨l', h2, c, hc, h3⟩ := ih (by omega)
    exact ⟨a :: l', h2.cons_cons a, c + 1, by simp; omega, by simp [h3]⟩

theorem perm_eraseIdx {a b : List Nat} (h : a.Perm b) (hb : b.Nodup) {c : Nat}
    (hc : c < b.length) : ∃ d < a.length, (a.eraseIdx d).Perm (b.eraseIdx c) := by
  have ha : a.Nodup := h.nodup_iff.2 hb
  have hm : b[c] ∈ a := h.mem_iff.2 (List.getElem_mem _)
  obtain ⟨d, hd, hdc⟩ := List.getElem_of_mem hm
  refine ⟨d, hd, ?_⟩
  rw [← ha.erase_getElem d hd, ← hb.erase_getElem c hc, hdc]
  exact h.erase _

theorem subperm_extend {s l : List Nat} (h : s.Subperm l) (hlt : s.length < l.length) :
    ∃ l' : List Nat, l'.Subperm l ∧ l'.length = s.length + 1 ∧ ∃ c < l'.length, (l'.eraseIdx c).Perm s := by
  obtain ⟨s', hp, hs⟩ := h
  obtain ⟨l', h1, c, hc, rfl⟩ := sublist_extend hs (by rw [hp.length_eq]; exact hlt)
  refine ⟨l', h1.subperm, ?_, c, hc, hp⟩
  rw [← hp.length_eq, List.length_eraseIdx_of_lt hc]
  omega

theorem WF.faces {n : Nat} {top : List (List Nat)} {t : Topo} (h : WF n top t)
    (htop : Simplices (n + 1) top) (d : Nat) : ∀ k, k + d = n → ∀ s : List Nat,
    (∃ e ∈ t.elements[k]?.getD [], e.Perm s) ↔ s.length = k + 1 ∧ ∃ l ∈ top, s.Subperm l := by
  induction d with
  | zero =>
    intro k hk s
    have : k = n := by omega
    subst this
    rw [h.top_eq, Option.getD_some]
    constructor
    · rintro ⟨e, he, hp⟩
      exact ⟨by rw [← hp.length_eq]; exact (htop e he).1, e, he, hp.symm.subperm⟩
    · rintro ⟨hs, l, hl, hsp⟩
      exact ⟨l, hl, (hsp.perm_of_length_le (by rw [(htop l hl).1, hs])).symm⟩
  | succ d ih =>
    intro k hk s
    have hkn : k < n := by omega
    obtain ⟨h1, h2, h3, h4, h5⟩ := h.get hkn
    constructor
    · rintro ⟨e, he, hp⟩
      obtain ⟨l', hl', c, hc, hpe⟩ := h4.2 e he
      refine ⟨by rw [← hp.length_eq]; exact (h1 e he).1, ?_⟩
      obtain ⟨-, l, hl, hsub⟩ := (ih (k + 1) (by omega) l').1 ⟨l', hl', List.Perm.refl _⟩
      refine ⟨l, hl, ?_⟩
      exact (hp.symm.trans hpe).subperm.trans
        ((List.eraseIdx_sublist _ _).subperm.trans hsub)
    · rintro ⟨hs, l, hl, hsub⟩
      obtain ⟨l', h6, h7, c, hc, h8⟩ :=
        subperm_extend hsub (by rw [hs, (htop l hl).1]; omega)
      obtain ⟨e', he', hpe'⟩ := (ih (k + 1) (by omega) l').2 ⟨by omega, l, hl, h6⟩
      have hn : l'.Nodup := hpe'.nodup_iff.1 (h2 e' he').2
      obtain ⟨d', hd', hp'⟩ := perm_eraseIdx hpe' hn hc
      obtain ⟨e, he, hpe⟩ := h4.1 e' he' d' hd'
      exact ⟨e, he, hpe.trans (hp'.trans h8)⟩

/-- the loop's vertex level lists the corners used by the input -/
theorem Built.faces_zero {n : Nat} {top : List (List Nat)} {t : Topo} (h : Built n top t)
    (htop : Simplices (n + 1) top) (d : Nat) : ∀ k, k + d = n → ∀ v : Nat,
    (∃ e ∈ t.elements[k]?.getD [], v ∈ e) ↔ ∃ l ∈ top, v ∈ l := by
  induction d with
  | zero =>
    intro k hk v
    have : k = n := by omega
    subst this
    rw [h.top_eq, Option.getD_some]
  | succ d ih =>
    intro k hk v
    have hkn : k < n := by omega
    obtain ⟨E, F, B, O, g1, g2, g3, g4, g5, g6, g7, g8, g9⟩ := h.level k hkn
    rw [← ih (k + 1) (by omega) v, g1, g2, Option.getD_some, Option.getD_some]
    constructor
    · rintro ⟨e, he, hv⟩
      obtain ⟨l, hl, c, hc, hp⟩ := g8.2 e he
      exact ⟨l, hl, (List.eraseIdx_sublist _ _).subset (hp.mem_iff.1 hv)⟩
    · rintro ⟨l, hl, hv⟩
      obtain ⟨c, hc, rfl⟩ := List.getElem_of_mem hv
      have hlen := (g6 l hl).1
      obtain ⟨c', hc', hne⟩ : ∃ c' < l.length, c ≠ c' := by
        rcases Nat.eq_zero_or_pos c with rfl | h0
        · exact ⟨1, by omega, by omega⟩
        · exact ⟨0, by omega, by omega⟩
      obtain ⟨e, he, hp⟩ := g8.1 l hl c' hc'
      exact ⟨e, he, hp.mem_iff.2 (mem_eraseIdx_ne hc hne)⟩

end Verif
