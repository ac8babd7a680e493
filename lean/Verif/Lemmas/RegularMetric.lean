/-
The metric of regular complexes: volumes of boxes, sums over groups, and the points of a cube.
-/
import Verif.Model.RegularMetric
import Verif.Spec.RegularMetric
import Verif.Lemmas.CubeTables
import Verif.Lemmas.CubeAveraging
import Verif.Props.Triangles
import Mathlib.Algebra.BigOperators.Fin
import Mathlib.Algebra.Order.BigOperators.Ring.Finset
import Mathlib.Algebra.Order.Ring.Abs
import Mathlib.Tactic.Ring

set_option linter.unusedSectionVars false

namespace Verif

open Verif.Model Verif.Spec

variable {K : Type} [Field K] [LinearOrder K] [IsStrictOrderedRing K] {d : Nat}

/-! ### volumes -/

/-- if `a` and `b` differ at most in the `m` coordinates `S` the volume is the product over these -/
theorem hypervolume_eq {a b : Vec K d} {S : Finset (Fin d)} {m : Nat} (hm : 0 < m) (hS : S.card = m)
    (h : ∀ q, q ∉ S → a q = b q) : hypervolume a b m = ∏ q ∈ S, |a q - b q| := by
  have hmd : m ≤ d := by
    have := Finset.card_le_univ S
    simpa [hS] using this
  set f : Fin d → K := fun q => |a q - b q| with hf
  set rest := (S.toList.map f).insertionSort (· ≤ ·) with hrest
  have hnn : ∀ x ∈ rest, 0 ≤ x := by
    intro x hx
    rw [hrest, List.mem_insertionSort] at hx
    obtain ⟨q, -, rfl⟩ := List.mem_map.1 hx
    exact abs_nonneg _
  have hsorted : (List.replicate (d - m) (0 : K) ++ rest).Pairwise (· ≤ ·) := by
    rw [List.pairwise_append]
    refine ⟨List.pairwise_replicate.2 (Or.inr le_rfl), List.pairwise_insertionSort _ _, fun x hx y hy => ?_⟩
    rw [List.eq_of_mem_replicate hx]
    exact hnn y hy
  have hperm : (List.ofFn f).Perm (List.replicate (d - m) (0 : K) ++ rest) := by
    have h1 : (List.ofFn f).Perm ((Finset.univ : Finset (Fin d)).toList.map f) := by
      rw [List.ofFn_eq_map]
      refine List.Perm.map _ ?_
      rw [List.perm_ext_iff_of_nodup (List.nodup_finRange d) (Finset.nodup_toList _)]
      simp
    have h2 : (Finset.univ : Finset (Fin d)).toList.Perm (Sᶜ.toList ++ S.toList) := by
      rw [List.perm_ext_iff_of_nodup (Finset.nodup_toList _)]
      · intro q
        simp only [Finset.mem_toList, Finset.mem_univ, List.mem_append, Finset.mem_compl, true_iff]
        exact (em (q ∈ S)).symm
      · refine (Finset.nodup_toList _).append (Finset.nodup_toList _) ?_
        intro q h1 h2
        simp only [Finset.mem_toList, Finset.mem_compl] at h1 h2
        exact h1 h2
    refine h1.trans ((h2.map f).trans ?_)
    rw [List.map_append]
    refine List.Perm.append ?_ (List.perm_insertionSort _ _).symm
    refine List.Perm.of_eq (List.eq_replicate_iff.2 ⟨?_, fun x hx => ?_⟩)
    · rw [List.length_map, Finset.length_toList, Finset.card_compl, Fintype.card_fin, hS]
    · obtain ⟨q, hq, rfl⟩ := List.mem_map.1 hx
      simp only [Finset.mem_toList, Finset.mem_compl] at hq
      simp [hf, h q hq]
  have hsort : (List.ofFn f).insertionSort (· ≤ ·) = List.replicate (d - m) (0 : K) ++ rest :=
    ((List.perm_insertionSort _ _).trans hperm).eq_of_pairwise (fun _ _ _ _ => le_antisymm)
      (List.pairwise_insertionSort _ _) hsorted
  unfold hypervolume
  simp only
  rw [hsort, if_neg (by omega), List.drop_left' (by simp), (List.perm_insertionSort _ _).prod_eq, ← List.prod_toFinset _ (Finset.nodup_toList S)]
  simp only [Finset.toList_toFinset]
  exact abs_of_nonneg (Finset.prod_nonneg fun q _ => abs_nonneg _)

/-! ### groups -/

theorem addAt_eq {α : Type} (L : List α) (f : α → Nat) (g : α → K) (A : List K) (h : ∀ x ∈ L, f x < A.length) :
    addAt A (groupSums (L.map f) (L.map g)) =
      .ok (A.mapIdx fun i a => a + ((L.filter fun x => f x = i).map g).sum) := by
  have hz : ∀ k : Nat, ((((L.map f).zip (L.map g)).filter fun p => p.1 = k).map Prod.snd).sum =
      ((L.filter fun x => f x = k).map g).sum := by
    intro k
    congr 1
    clear h
    induction L with
    | nil => rfl
    | cons x L ih =>
      simp only [List.map_cons, List.zip_cons_cons, List.filter_cons]
      by_cases hx : f x = k <;> simp [hx, ih]
  unfold addAt groupSums
  simp only [hz]
  have key : ∀ (ks : List Nat) (A : List K), ks.Nodup → (∀ k ∈ ks, k < A.length) →
      (ks.map fun k => (k, ((L.filter fun x => f x = k).map g).sum)).foldlM
        (fun A gv => if gv.1 < A.length then (Except.ok (A.modify gv.1 (· + gv.2)) : Except PyErr (List K))
          else .error .indexError) A =
      .ok (A.mapIdx fun i a => if i ∈ ks then a + ((L.filter fun x => f x = i).map g).sum else a) := by
    intro ks
    induction ks with
    | nil =>
      intro A _ _
      show Except.ok _ = _
      congr 1
      apply List.ext_getElem?
      intro i
      rw [List.getElem?_mapIdx]
      cases A[i]? <;> simp
    | cons k ks ih =>
      intro A hn hk
      rw [List.map_cons, List.foldlM_cons, if_pos (hk k List.mem_cons_self)]
      show List.foldlM _ _ _ = _
      rw [ih _ hn.of_cons (fun k' hk' => by rw [List.length_modify]; exact hk k' (List.mem_cons_of_mem _ hk'))]
      congr 1
      apply List.ext_getElem?
      intro i
      rw [List.getElem?_mapIdx, List.getElem?_mapIdx, List.getElem?_modify]
      have hkn := (List.nodup_cons.1 hn).1
      cases A[i]? with
      | none => rfl
      | some a =>
        simp only [Option.map_some, List.mem_cons]
        by_cases hi : k = i
        · subst hi
          simp [hkn]
        · simp [hi, Ne.symm hi]
  rw [key _ _ (npUnique_nodup _) (fun k hk => by
    obtain ⟨x, hx, rfl⟩ := List.mem_map.1 ((npUnique_mem _ _).1 hk)
    exact h x hx)]
  congr 1
  apply List.ext_getElem?
  intro i
  rw [List.getElem?_mapIdx, List.getElem?_mapIdx]
  cases A[i]? with
  | none => rfl
  | some a =>
    simp only [Option.map_some]
    congr 1
    split
    · rfl
    · next hi =>
      have : (L.filter fun x => f x = i) = [] := by
        rw [List.filter_eq_nil_iff]
        intro x hx
        simp only [decide_eq_true_eq]
        rintro rfl
        exact hi ((npUnique_mem _ _).2 (List.mem_map.2 ⟨x, hx, rfl⟩))
      rw [this]
      simp

theorem groupSums_all {α : Type} (L : List α) (f : α → Nat) (g : α → K) {N : Nat} (h : ∀ x, x ∈ L.map f ↔ x < N) :
    (groupSums (L.map f) (L.map g)).map Prod.snd =
      (List.range N).map fun i => ((L.filter fun x => f x = i).map g).sum := by
  have hz : ∀ k : Nat, ((((L.map f).zip (L.map g)).filter fun p => p.1 = k).map Prod.snd).sum =
      ((L.filter fun x => f x = k).map g).sum := by
    intro k
    congr 1
    clear h
    induction L with
    | nil => rfl
    | cons x L ih =>
      simp only [List.map_cons, List.zip_cons_cons, List.filter_cons]
      by_cases hx : f x = k <;> simp [hx, ih]
  have hu : npUnique (L.map f) = List.range N := Props.npUnique_range h
  unfold groupSums
  rw [hu, List.map_map]
  refine List.map_congr_left fun k _ => ?_
  exact hz k

/-- the loop over the corners -/
theorem addCorners_eq {α : Type} (L : List α) (dom : α → Nat → Nat) (cub : α → List (Vec K d)) (domains : List (List Nat))
    (hdom : ∀ i, domainColumn domains i = L.map fun x => dom x i) (level : List Bool → Nat)
    (value : Nat → List Bool → List (Vec K d) → K) : ∀ (corners : List (List Bool × Nat)) (M : List (List K)),
    (∀ ci ∈ corners, ∀ x ∈ L, dom x ci.2 < (M[level ci.1]?.getD []).length) →
    addCorners domains (L.map cub) level value M corners =
      .ok (M.mapIdx fun k A => A.mapIdx fun i a => a + ((corners.filter fun ci => level ci.1 = k).map fun ci =>
        ((L.filter fun x => dom x ci.2 = i).map fun x => value ci.2 ci.1 (cub x)).sum).sum)
  | [], M, _ => by
    show Except.ok _ = _
    congr 1
    apply List.ext_getElem?
    intro k
    rw [List.getElem?_mapIdx]
    cases M[k]? with
    | none => rfl
    | some A =>
      simp only [Option.map_some, List.filter_nil, List.map_nil, List.sum_nil, add_zero]
      congr 1
      apply List.ext_getElem?
      intro i
      rw [List.getElem?_mapIdx]
      cases A[i]? <;> rfl
  | ci :: corners, M, h => by
    unfold addCorners
    rw [List.foldlM_cons]
    have h1 := addAt_eq L (fun x => dom x ci.2) (fun x => value ci.2 ci.1 (cub x)) (M[level ci.1]?.getD [])
      (h ci List.mem_cons_self)
    rw [← hdom, ← show ((L.map cub).map (value ci.2 ci.1)) = L.map fun x => value ci.2 ci.1 (cub x) from List.map_map] at h1
    simp only [h1]
    show addCorners domains (L.map cub) level value _ corners = _
    rw [addCorners_eq L dom cub domains hdom level value corners]
    · congr 1
      apply List.ext_getElem?
      intro k
      rw [List.getElem?_mapIdx, List.getElem?_mapIdx, List.getElem?_set]
      by_cases hk : level ci.1 = k
      · subst hk
        rw [if_pos rfl]
        cases hM : M[level ci.1]? with
        | none =>
          have := List.getElem?_eq_none_iff.1 hM
          rw [if_neg (by omega)]
          rfl
        | some A =>
          rw [if_pos (List.getElem?_eq_some_iff.1 hM).1]
          simp only [Option.map_some, Option.getD_some]
          congr 1
          apply List.ext_getElem?
          intro i
          rw [List.getElem?_mapIdx, List.getElem?_mapIdx, List.getElem?_mapIdx]
          cases A[i]? with
          | none => rfl
          | some a =>
            simp [add_assoc]
      · rw [if_neg hk]
        cases M[k]? with
        | none => rfl
        | some A => simp [hk]
    · intro ci' hci' x hx
      have := h ci' (List.mem_cons_of_mem _ hci') x hx
      rw [List.getElem?_set]
      split
      · next he =>
        split
        · simp only [Option.getD_some, List.length_mapIdx]
          rw [he]
          exact this
        · next hlt =>
          rw [List.getElem?_eq_none (by omega)] at this
          simp at this
      · exact this

/-! ### the points of a cube -/

/-- all grid points of the `n`-cube -/
def points : Nat → List (List Nat)
  | 0 => [[]]
  | n + 1 => (points n).map (0 :: ·) ++ (points n).map (1 :: ·) ++ (points n).map (2 :: ·)

theorem mem_points : ∀ {n : Nat} {x : List Nat}, x ∈ points n ↔ IsPoint x ∧ x.length = n
  | 0, x => by
    simp only [points, List.mem_singleton, List.length_eq_zero_iff]
    constructor
    · rintro rfl
      exact ⟨by simp [IsPoint], rfl⟩
    · exact fun h => h.2
  | n + 1, [] => by simp [points]
  | n + 1, a :: x => by
    simp only [points, List.mem_append, List.mem_map, List.cons.injEq, mem_points, IsPoint.cons, List.length_cons]
    constructor
    · rintro ((⟨y, hy, rfl, rfl⟩ | ⟨y, hy, rfl, rfl⟩) | ⟨y, hy, rfl, rfl⟩) <;> exact ⟨⟨by omega, hy.1⟩, by omega⟩
    · rintro ⟨⟨ha, hx⟩, hl⟩
      interval_cases a
      · exact Or.inl (Or.inl ⟨x, ⟨hx, by omega⟩, rfl, rfl⟩)
      · exact Or.inl (Or.inr ⟨x, ⟨hx, by omega⟩, rfl, rfl⟩)
      · exact Or.inr ⟨x, ⟨hx, by omega⟩, rfl, rfl⟩

theorem points_nodup : ∀ n : Nat, (points n).Nodup
  | 0 => by simp [points]
  | n + 1 => by
    have ih := points_nodup n
    have hm : ∀ a : Nat, ((points n).map (a :: ·)).Nodup := fun a => ih.map fun x y h => by simpa using h
    have hd : ∀ a b : Nat, a ≠ b → ((points n).map (a :: ·)).Disjoint ((points n).map (b :: ·)) := by
      intro a b hab x hx hy
      obtain ⟨y, -, rfl⟩ := List.mem_map.1 hx
      obtain ⟨z, -, hz⟩ := List.mem_map.1 hy
      simp only [List.cons.injEq] at hz
      exact hab hz.1.symm
    refine ((hm 0).append (hm 1) (hd 0 1 (by decide))).append (hm 2) ?_
    rw [List.disjoint_append_left]
    exact ⟨hd 0 2 (by decide), hd 1 2 (by decide)⟩

/-- the grid point at corner `c` of the part of a cube at corner `p` -/
def partPoint (p c : List Bool) : List Nat := List.zipWith (fun p q => if q then 1 else 2 * p.toNat) p c

theorem sum_partPoint : ∀ (n : Nat) (F : List Nat → K),
    ((cubeIndices n).map fun c => ((cubeIndices n).map fun p => F (partPoint p c)).sum).sum =
      ((points n).map fun x => 2 ^ x.count 1 * F x).sum
  | 0, F => by simp [cubeIndices, points, partPoint]
  | n + 1, F => by
    have ih := fun F => sum_partPoint n F
    have h0 := ih fun x => F (0 :: x)
    have h1 := ih fun x => F (1 :: x)
    have h2 := ih fun x => F (2 :: x)
    simp only [cubeIndices, points, List.map_append, List.map_map, List.sum_append, Function.comp_def, partPoint,
      List.zipWith_cons_cons, Bool.false_eq_true, if_false, if_true, Bool.toNat_false, Bool.toNat_true, Nat.mul_zero,
      Nat.mul_one, List.sum_map_add, List.count_cons, beq_self_eq_true] at h0 h1 h2 ⊢
    rw [h0, h1, h2]
    have e1 : ((points n).map fun x => (2 : K) ^ (x.count 1 + 1) * F (1 :: x)).sum =
        2 * ((points n).map fun x => (2 : K) ^ x.count 1 * F (1 :: x)).sum := by
      rw [← List.sum_map_mul_left]
      congr 1
      exact List.map_congr_left fun x _ => by ring
    simp [e1]
    ring

theorem sum_unique {α : Type} [DecidableEq α] {L : List α} (hL : L.Nodup) {a : α} (ha : a ∈ L) (F : α → K) (h : ∀ x ∈ L, x ≠ a → F x = 0) :
    (L.map F).sum = F a := by
  rw [← List.sum_toFinset _ hL]
  exact Finset.sum_eq_single a (fun x hx hxa => h x (by simpa using hx) hxa) (fun h' => absurd (by simpa using ha) h')

end Verif
