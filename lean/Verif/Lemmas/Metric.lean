/-
Sums over the domains of a simplicial topology, grouped by elements.
-/
import Verif.Model.Metric
import Verif.Lemmas.Flags
import Verif.Lemmas.FlagVolume
import Verif.Props.Triangles

set_option linter.unusedSectionVars false

namespace Verif

open Verif.Model Verif.Spec

/-- all domains: number of the simplex and ordering of its corners -/
def flagList (m : Nat) (top : List (List Nat)) : List (Nat × List Nat) :=
  (top.zipIdx.map fun lj => (wRows m lj.1).map fun w => (lj.2, w)).flatten

theorem mem_flagList {m : Nat} {top : List (List Nat)} (htop : Simplices (m + 2) top) (q : Nat × List Nat) :
    q ∈ flagList m top ↔ ∃ l, top[q.1]? = some l ∧ q.2.Perm l := by
  unfold flagList
  simp only [List.mem_flatten, List.mem_map]
  constructor
  · rintro ⟨_, ⟨⟨l, j⟩, hlj, rfl⟩, hw⟩
    obtain ⟨w, hw', rfl⟩ := List.mem_map.1 hw
    have hj := List.mem_zipIdx' hlj
    have hl : top[j]? = some l := by rw [hj.2]; exact List.getElem?_eq_getElem hj.1
    have hm := htop l (List.mem_of_getElem? hl)
    exact ⟨l, hl, (mem_wRows m l hm.1 hm.2 w).1 hw'⟩
  · rintro ⟨l, hl, hp⟩
    have hm := htop l (List.mem_of_getElem? hl)
    refine ⟨_, ⟨(l, q.1), ?_, rfl⟩, List.mem_map.2 ⟨q.2, (mem_wRows m l hm.1 hm.2 q.2).2 hp, rfl⟩⟩
    rw [List.mem_zipIdx_iff_getElem?]
    exact hl

theorem sum_zipIdx {α : Type} (L : List α) (f : α × Nat → ℝ) :
    (L.zipIdx.map f).sum = ∑ i : Fin L.length, f (L[i], i.val) := by
  rw [← List.sum_ofFn]
  congr 1
  apply List.ext_getElem
  · simp
  · intro i h1 h2
    simp

/-- grouped sums over all domains -/
theorem sum_flagList (m : Nat) (top : List (List Nat)) (p : Nat × List Nat → Bool)
    (g : Nat × List Nat → ℝ) :
    (((flagList m top).filter p).map g).sum = ∑ j : Fin top.length,
      (((wRows m top[j]).filter fun w => p (j.val, w)).map fun w => g (j.val, w)).sum := by
  unfold flagList
  rw [List.filter_flatten, sum_flatten_map, List.map_map, List.map_map]
  refine Eq.trans ?_ (sum_zipIdx top fun lj : List Nat × Nat =>
    (((wRows m lj.1).filter fun w => p (lj.2, w)).map fun w => g (lj.2, w)).sum)
  congr 1
  apply List.map_congr_left
  rintro ⟨l, j⟩ _
  simp only [Function.comp, List.filter_map, List.map_map]
  rfl

/-- the orderings that begin with the corners of `e` -/
theorem wRows_begin {m i : Nat} {l e : List Nat} (hl : l.length = m + 2) (hnd : l.Nodup)
    (hne : e.Nodup) (he : e.length = i + 1) (hs : e ⊆ l) (G : List Nat → ℝ) :
    (((wRows m l).filter fun w => decide ((w.take (i + 1)).Perm e)).map G).sum =
      (e.permutations.map fun u => ((l.diff e).permutations.map fun v => G (u ++ v)).sum).sum := by
  have hsp : e.Subperm l := List.subperm_of_subset hne hs
  have hle : (e ++ l.diff e).Perm l := List.subperm_append_diff_self_of_count_le (fun x _ => hsp.count_le x)
  have hp : ((wRows m l).filter fun w => decide ((w.take (i + 1)).Perm e)).Perm
      ((e.permutations.map fun u => (l.diff e).permutations.map fun v => u ++ v).flatten) := by
    refine (List.perm_ext_iff_of_nodup ?_ ?_).2 fun w => ?_
    · exact (wRows_nodup m l hl hnd).filter _
    · rw [List.nodup_flatten]
      constructor
      · intro L hL
        obtain ⟨u, _, rfl⟩ := List.mem_map.1 hL
        refine List.Nodup.map (fun x y h => List.append_cancel_left h) ?_
        exact List.nodup_permutations _ (hnd.diff)
      · rw [List.pairwise_map]
        refine List.Pairwise.imp_of_mem ?_ (List.nodup_permutations _ hne)
        intro u u' hu hu' hne' w hw hw'
        obtain ⟨v, _, rfl⟩ := List.mem_map.1 hw
        obtain ⟨v', _, h'⟩ := List.mem_map.1 hw'
        rw [List.mem_permutations] at hu hu'
        exact hne' (List.append_inj_left h' (hu'.length_eq.trans hu.length_eq.symm)).symm
    · rw [List.mem_filter, mem_wRows m l hl hnd, decide_eq_true_eq]
      simp only [List.mem_flatten, List.mem_map, List.mem_permutations]
      constructor
      · rintro ⟨h1, h2⟩
        refine ⟨_, ⟨w.take (i + 1), h2, rfl⟩, List.mem_map.2 ⟨w.drop (i + 1), ?_, List.take_append_drop _ _⟩⟩
        rw [List.mem_permutations]
        have h3 : (w.take (i + 1) ++ w.drop (i + 1)).Perm (e ++ l.diff e) := by
          rw [List.take_append_drop]
          exact h1.trans hle.symm
        exact (List.perm_append_left_iff e).1 ((h2.symm.append_right _).trans h3)
      · rintro ⟨_, ⟨u, hu, rfl⟩, hw⟩
        obtain ⟨v, hv, rfl⟩ := List.mem_map.1 hw
        rw [List.mem_permutations] at hv
        refine ⟨(hu.append hv).trans hle, ?_⟩
        rw [List.take_append_of_le_length (by rw [hu.length_eq]; omega),
          List.take_of_length_le (by rw [hu.length_eq]; omega)]
        exact hu
  rw [(hp.map G).sum_eq, sum_flatten_map, List.map_map]
  congr 1
  apply List.map_congr_left
  intro u _
  simp [Function.comp_def]

theorem wRows_begin_none {m i : Nat} {l e : List Nat} (hl : l.length = m + 2) (hnd : l.Nodup)
    (hs : ¬ e ⊆ l) (G : List Nat → ℝ) :
    (((wRows m l).filter fun w => decide ((w.take (i + 1)).Perm e)).map G).sum = 0 := by
  have : (wRows m l).filter (fun w => decide ((w.take (i + 1)).Perm e)) = [] := by
    rw [List.filter_eq_nil_iff]
    intro w hw
    rw [decide_eq_true_eq]
    intro hp
    apply hs
    intro x hx
    exact ((mem_wRows m l hl hnd w).1 hw).mem_iff.1 ((List.take_sublist _ _).subset (hp.mem_iff.2 hx))
  rw [this]
  rfl

/-- the orderings of a row, in any order -/
theorem wRows_permutations {k : Nat} {row : List Nat} (hl : row.length = k + 2) (hnd : row.Nodup) :
    (wRows k row).Perm row.permutations :=
  (List.perm_ext_iff_of_nodup (wRows_nodup k row hl hnd) (List.nodup_permutations _ hnd)).2 fun w => by
    rw [mem_wRows k row hl hnd, List.mem_permutations]

theorem zip_map_map {α β γ : Type} (L : List α) (f : α → β) (g : α → γ) :
    (L.map f).zip (L.map g) = L.map fun q => (f q, g q) := by
  induction L with
  | nil => rfl
  | cons a L ih => simp [ih]

theorem zipWith_map_map {α : Type} (L : List α) (f g : α → ℝ) :
    List.zipWith (· * ·) (L.map f) (L.map g) = L.map fun q => f q * g q := by
  induction L with
  | nil => rfl
  | cons a L ih => simp [ih]

theorem groupSum_eq {α : Type} (L : List α) (f : α → Nat) (g : α → ℝ) {N : Nat}
    (h : ∀ x, x ∈ L.map f ↔ x < N) :
    groupSum (L.map f) (L.map g) = (List.range N).map fun k =>
      ((L.filter fun q => f q = k).map g).sum := by
  unfold groupSum
  rw [Props.npUnique_range h]
  apply List.map_congr_left
  intro k _
  rw [zip_map_map, List.filter_map, List.map_map]
  rfl

theorem groupMean_eq {α : Type} (L : List α) (f : α → Nat) (g : α → ℝ) {N : Nat}
    (h : ∀ x, x ∈ L.map f ↔ x < N) :
    groupMean (L.map f) (L.map g) = (List.range N).map fun k =>
      ((L.filter fun q => f q = k).map g).sum / ((L.filter fun q => f q = k).map fun _ => (1 : ℝ)).sum := by
  unfold groupMean
  rw [Props.npUnique_range h]
  apply List.map_congr_left
  intro k _
  rw [zip_map_map, List.filter_map, List.map_map]
  congr 1
  rw [List.map_const', List.sum_replicate, nsmul_eq_mul, mul_one, List.count_eq_countP, List.countP_map,
    List.countP_eq_length_filter]
  rfl

theorem sum_map_range (f : Nat → ℝ) (N : Nat) :
    ((List.range N).map f).sum = ∑ k ∈ Finset.range N, f k := by
  induction N with
  | zero => simp
  | succ N ih => rw [List.range_succ, List.map_append, List.sum_append, ih, Finset.sum_range_succ]; simp

/-- a grouped sum takes the values one after the other -/
theorem groupSum_total {α : Type} (L : List α) (f : α → Nat) (g : α → ℝ) {N : Nat}
    (h : ∀ x, x ∈ L.map f ↔ x < N) : (groupSum (L.map f) (L.map g)).sum = (L.map g).sum := by
  rw [groupSum_eq L f g h]
  have hlt : ∀ q ∈ L, f q < N := fun q hq => (h _).1 (List.mem_map_of_mem hq)
  clear h
  induction L with
  | nil => simp
  | cons a L ih =>
    have ih := ih fun q hq => hlt q (List.mem_cons_of_mem _ hq)
    rw [List.map_cons, List.sum_cons, ← ih]
    have hk : ∀ k ∈ List.range N, (((a :: L).filter fun q => f q = k).map g).sum =
        (if f a = k then g a else 0) + ((L.filter fun q => f q = k).map g).sum := by
      intro k _
      by_cases ha : f a = k <;> simp [ha]
    rw [List.map_congr_left hk, List.sum_map_add]
    congr 1
    have := hlt a (by simp)
    rw [sum_map_range, Finset.sum_ite_eq, if_pos (Finset.mem_range.2 this)]

end Verif
