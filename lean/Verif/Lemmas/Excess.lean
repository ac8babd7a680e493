/-
How sums over the boundary faces of the simplices of a complex are grouped.
-/
import Verif.Lemmas.Height
import Verif.Props.Metric

set_option linter.unusedSectionVars false

namespace Verif

open Verif.Model Verif.Spec

theorem lastOf_eq {α : Type} {xs : List α} {k : Nat} (h : xs.length = k + 1) {x : α} (hx : xs[k]? = some x) :
    lastOf xs = .ok x := by
  unfold lastOf
  rw [List.getLast?_eq_getElem?, h, Nat.add_sub_cancel, hx]

theorem lastButOne_eq {α : Type} {xs : List α} {k : Nat} (h : xs.length = k + 2) {x : α} (hx : xs[k]? = some x) :
    lastButOne xs = .ok x := by
  unfold lastButOne
  refine lastOf_eq (k := k) (by simp [h]) ?_
  rw [List.getElem?_dropLast, h, if_pos (by omega), hx]

/-- all positions of an array with `N` rows of length `P` -/
def cells (N P : Nat) : List (Nat × Nat) := (List.range N).flatMap fun j => (List.range P).map fun c => (j, c)

theorem mem_cells {N P : Nat} {p : Nat × Nat} : p ∈ cells N P ↔ p.1 < N ∧ p.2 < P := by
  unfold cells
  simp only [List.mem_flatMap, List.mem_range, List.mem_map]
  constructor
  · rintro ⟨j, hj, c, hc, rfl⟩
    exact ⟨hj, hc⟩
  · rintro ⟨h1, h2⟩
    exact ⟨p.1, h1, p.2, h2, rfl⟩

theorem flatten_cells {α : Type} (d : α) {A : List (List α)} {N P : Nat} (hN : A.length = N)
    (hP : ∀ r ∈ A, r.length = P) :
    A.flatten = (cells N P).map fun p => (A[p.1]?.getD [])[p.2]?.getD d := by
  unfold cells
  rw [List.map_flatMap, List.flatMap]
  congr 1
  apply List.ext_getElem
  · simp [hN]
  · intro j h1 h2
    rw [List.getElem_map, List.getElem_range, List.map_map]
    apply List.ext_getElem
    · simp [hP _ (List.getElem_mem h1)]
    · intro c h3 h4
      simp [List.getElem?_eq_getElem h1, List.getElem?_eq_getElem h3]

theorem sum_cells (N P : Nat) (f : Nat × Nat → ℝ) :
    ((cells N P).map f).sum = ((List.range N).map fun j => ((List.range P).map fun c => f (j, c)).sum).sum := by
  unfold cells
  rw [List.map_flatMap, List.flatMap, List.sum_flatten, List.map_map]
  simp only [Function.comp_def, List.map_map]

theorem sum_filter_real {α : Type} (L : List α) (p : α → Prop) [DecidablePred p] (g : α → ℝ) :
    ((L.filter fun q => decide (p q)).map g).sum = (L.map fun q => if p q then g q else 0).sum := by
  induction L with
  | nil => rfl
  | cons a L ih =>
    by_cases h : p a
    · simp [h, ih]
    · simp [h, ih]

section

variable {m : Nat} {top : List (List Nat)} {t : Topo}

/-- the boundary rows of a simplex -/
theorem WF.slots (wf : WF (m + 1) top t) :
    (t.boundary[m]?.getD []).length = top.length ∧ (t.orientation[m]?.getD []).length = top.length ∧
    ∀ (j : Nat) (l : List Nat), top[j]? = some l → ∃ b o, (t.boundary[m]?.getD [])[j]? = some b ∧
      (t.orientation[m]?.getD [])[j]? = some o ∧ b.length = m + 2 ∧ o.length = m + 2 ∧
      ∀ c < m + 2, ∃ (i : Nat) (e : List Nat), b[c]? = some i ∧ (t.elements[m]?.getD [])[i]? = some e ∧
        e.Perm (l.eraseIdx (oppositeCorner m c)) := by
  obtain ⟨-, -, -, -, h1, h2, h3⟩ := wf.get (k := m) (by omega)
  rw [wf.top_eq, Option.getD_some] at h1 h2 h3
  refine ⟨h1, h2, fun j l hl => ?_⟩
  obtain ⟨b, o, hb, ho, lb, lo, hc⟩ := h3 j l hl
  refine ⟨b, o, hb, ho, lb, lo, fun c hcm => ?_⟩
  obtain ⟨i, s, e, e1, -, e3, e4, -⟩ := hc c hcm
  exact ⟨i, e, e1, e3, e4⟩

theorem oppositeCorner_lt {m c : Nat} (hc : c < m + 2) : oppositeCorner m c < m + 2 := by
  unfold oppositeCorner
  split <;> omega

/-- which simplices and slots contribute to a face -/
theorem WF.slot_iff (wf : WF (m + 1) top t) {j c x : Nat} {l e : List Nat} (hl : top[j]? = some l)
    (hc : c < m + 2) (hx : (t.elements[m]?.getD [])[x]? = some e) :
    ((t.boundary[m]?.getD [])[j]?.getD [])[c]?.getD 0 = x ↔ (l.eraseIdx (oppositeCorner m c)).Perm e := by
  obtain ⟨-, -, hs⟩ := wf.slots
  obtain ⟨b, o, hb, -, lb, -, hcs⟩ := hs j l hl
  obtain ⟨i, e', h1, h2, h3⟩ := hcs c hc
  rw [hb, Option.getD_some, h1, Option.getD_some]
  obtain ⟨-, -, hd, -⟩ := wf.get (k := m) (by omega)
  constructor
  · rintro rfl
    rw [hx] at h2
    obtain rfl := Option.some.inj h2
    exact h3.symm
  · intro hp
    exact (elIdx_unique hd h2 (List.Perm.refl _)).trans (elIdx_unique hd hx (h3.trans hp).symm).symm

theorem WF.boundary_cells (wf : WF (m + 1) top t) :
    (t.boundary[m]?.getD []).flatten = (cells top.length (m + 2)).map fun p =>
      ((t.boundary[m]?.getD [])[p.1]?.getD [])[p.2]?.getD 0 := by
  obtain ⟨h1, -, hs⟩ := wf.slots
  refine flatten_cells 0 h1 fun r hr => ?_
  obtain ⟨j, hj, rfl⟩ := List.getElem_of_mem hr
  have hjt : j < top.length := by omega
  obtain ⟨b, -, hb, -, lb, -⟩ := hs j top[j] (List.getElem?_eq_getElem hjt)
  rw [List.getElem?_eq_getElem hj] at hb
  rw [Option.some.inj hb, lb]

theorem WF.boundary_keys (wf : WF (m + 1) top t) (x : Nat) :
    x ∈ (cells top.length (m + 2)).map (fun p => ((t.boundary[m]?.getD [])[p.1]?.getD [])[p.2]?.getD 0) ↔
      x < (t.elements[m]?.getD []).length := by
  obtain ⟨-, -, hs⟩ := wf.slots
  rw [List.mem_map]
  constructor
  · rintro ⟨p, hp, rfl⟩
    obtain ⟨h1, h2⟩ := mem_cells.1 hp
    obtain ⟨b, o, hb, -, -, -, hc⟩ := hs p.1 _ (List.getElem?_eq_getElem h1)
    obtain ⟨i, e, e1, e2, -⟩ := hc p.2 h2
    rw [hb, Option.getD_some, e1, Option.getD_some]
    exact (List.getElem?_eq_some_iff.1 e2).1
  · intro hx
    obtain ⟨-, hF, -, ⟨-, hf⟩, -⟩ := wf.get (k := m) (by omega)
    rw [wf.top_eq, Option.getD_some] at hf hF
    obtain ⟨l, hl, c, hc, hp⟩ := hf _ (List.getElem_mem hx)
    obtain ⟨j, hj, rfl⟩ := List.getElem_of_mem hl
    have hlen := (hF _ hl).1
    have hop : oppositeCorner m (oppositeCorner m c) = c := by
      unfold oppositeCorner
      by_cases h0 : m = 0
      · subst h0
        simp
        omega
      · simp [h0]
    have hc2 : c < m + 2 := by omega
    refine ⟨(j, oppositeCorner m c), mem_cells.2 ⟨hj, oppositeCorner_lt hc2⟩, ?_⟩
    rw [wf.slot_iff (List.getElem?_eq_getElem hj) (oppositeCorner_lt hc2) (List.getElem?_eq_getElem hx), hop]
    exact hp.symm

end

theorem missing_spec {l e : List Nat} {P : Nat} (hl : l.length = P + 1) (he : e.length = P)
    (hen : e.Nodup) (hs : e ⊆ l) : l.diff e = [missing l e] ∧ (e ++ [missing l e]).Perm l := by
  have hp := Props.diff_append hs hen
  have hlen : (l.diff e).length = 1 := by
    have := hp.length_eq
    rw [List.length_append] at this
    omega
  obtain ⟨v, hv⟩ := List.length_eq_one_iff.1 hlen
  have : missing l e = v := by simp [missing, hv]
  rw [this]
  refine ⟨hv, ?_⟩
  rw [← hv]
  exact hp

theorem missing_unique {l e : List Nat} {P : Nat} (hl : l.length = P + 1) (he : e.length = P)
    (hen : e.Nodup) {c : Nat} (hc : c < l.length) : (l.eraseIdx c).Perm e ↔ e ⊆ l ∧ l[c] = missing l e := by
  constructor
  · intro h
    have hs : e ⊆ l := fun u hu => List.mem_of_mem_eraseIdx (h.mem_iff.2 hu)
    refine ⟨hs, ?_⟩
    have h1 := (eraseIdx_append_perm hc).trans (missing_spec hl he hen hs).2.symm
    have h2 := (List.perm_append_left_iff e).1 ((h.symm.append_right [l[c]]).trans h1)
    simpa using h2
  · rintro ⟨hs, h⟩
    have h1 := (eraseIdx_append_perm hc).trans (missing_spec hl he hen hs).2.symm
    rw [h] at h1
    exact (List.perm_append_right_iff _).1 h1

/-- the sum over the slots of a simplex that hold a given face -/
theorem sum_slots {l e : List Nat} (hln : l.Nodup) {P : Nat} (hl : l.length = P + 1) (he : e.length = P)
    (hen : e.Nodup) (f : Nat → ℝ) :
    ((List.range (P + 1)).map fun c => if (l.eraseIdx c).Perm e then f (l[c]?.getD 0) else 0).sum =
      if e ⊆ l then f (missing l e) else 0 := by
  have h1 : ((List.range (P + 1)).map fun c => if (l.eraseIdx c).Perm e then f (l[c]?.getD 0) else 0) =
      (List.range (P + 1)).map fun c => (fun u => if e ⊆ l ∧ u = missing l e then f u else 0) (l[c]?.getD 0) := by
    apply List.map_congr_left
    intro c hc
    have hc : c < l.length := by rw [hl]; exact List.mem_range.1 hc
    rw [List.getElem?_eq_getElem hc, Option.getD_some]
    simp only [missing_unique hl he hen hc]
  rw [h1, ← hl, map_range_getElem l fun u => if e ⊆ l ∧ u = missing l e then f u else 0]
  by_cases hs : e ⊆ l
  · simp only [hs, true_and, if_true]
    have hm : missing l e ∈ l := (missing_spec hl he hen hs).2.mem_iff.1 (by simp)
    rw [← List.sum_toFinset _ hln, Finset.sum_ite_eq', if_pos (List.mem_toFinset.2 hm)]
  · simp [hs]

end Verif
