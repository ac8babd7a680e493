/-
Alternating functions on lists, their coboundary, and signs.
-/
import Verif.Model.Combinatorial
import Verif.Spec.Sign
import Mathlib.Algebra.Module.Basic
import Mathlib.Algebra.BigOperators.Group.List.Basic
import Mathlib.Algebra.Module.BigOperators
import Mathlib.Data.List.Perm.Basic
import Mathlib.Tactic.Ring
import Mathlib.Tactic.Abel
import Mathlib.Tactic.Linarith

namespace Verif

open Verif.Model Verif.Spec

variable {α : Type} {M : Type} [AddCommGroup M]

/-- A function on lists that changes sign whenever two adjacent entries are exchanged. -/
def Alt (φ : List α → M) : Prop :=
  ∀ u a b v, φ (u ++ a :: b :: v) = - φ (u ++ b :: a :: v)

/-- alternating sum over deletions of one entry -/
def cob (φ : List α → M) (l : List α) : M :=
  ((List.range l.length).map fun c => ((-1 : ℤ) ^ c) • φ (l.eraseIdx c)).sum

theorem sum_map_neg' {ι : Type} (l : List ι) (f : ι → M) :
    (l.map fun x => - f x).sum = - (l.map f).sum := by
  induction l with
  | nil => simp
  | cons a t ih => simp only [List.map_cons, List.sum_cons, ih]; abel

theorem cob_nil (φ : List α → M) : cob φ [] = 0 := by simp [cob]

theorem cob_cons (φ : List α → M) (a : α) (t : List α) :
    cob φ (a :: t) = φ t - cob (fun s => φ (a :: s)) t := by
  simp only [cob, List.length_cons, List.range_succ_eq_map, List.map_cons, List.map_map,
    List.sum_cons]
  simp only [pow_zero, List.eraseIdx_zero, List.tail_cons, one_smul, sub_eq_add_neg]
  congr 1
  rw [← sum_map_neg']
  congr 1
  apply List.map_congr_left
  intro c _
  simp only [Function.comp, Nat.succ_eq_add_one, List.eraseIdx_cons_succ, pow_succ, mul_neg, mul_one,
    neg_smul]

theorem Alt.cons {φ : List α → M} (h : Alt φ) (x : α) : Alt (fun s => φ (x :: s)) := by
  intro u a b v
  exact h (x :: u) a b v

theorem Alt.append {φ : List α → M} (h : Alt φ) (x : List α) : Alt (fun s => φ (x ++ s)) := by
  intro u a b v
  simpa using h (x ++ u) a b v

theorem cob_neg (φ : List α → M) (l : List α) : cob (fun s => - φ s) l = - cob φ l := by
  induction l generalizing φ with
  | nil => simp [cob_nil]
  | cons a t ih => rw [cob_cons, cob_cons, ih]; abel

theorem cob_sub (φ ψ : List α → M) (l : List α) :
    cob (fun s => φ s - ψ s) l = cob φ l - cob ψ l := by
  induction l generalizing φ ψ with
  | nil => simp [cob_nil]
  | cons a t ih => rw [cob_cons, cob_cons, cob_cons, ih]; abel

theorem cob_cob (φ : List α → M) (l : List α) : cob (cob φ) l = 0 := by
  induction l generalizing φ with
  | nil => simp [cob_nil]
  | cons a t ih =>
    rw [cob_cons]
    have : (fun s => cob φ (a :: s)) = fun s => φ s - cob (fun s => φ (a :: s)) s := by
      funext s; rw [cob_cons]
    rw [this, cob_sub, ih]
    abel

theorem Alt.cob {φ : List α → M} (h : Alt φ) : Alt (cob φ) := by
  intro u
  induction u generalizing φ with
  | nil =>
    intro a b v
    simp only [List.nil_append, cob_cons]
    have : (fun s => φ (a :: b :: s)) = fun s => - φ (b :: a :: s) := by
      funext s; exact h [] a b s
    rw [this, cob_neg]
    abel
  | cons x u ih =>
    intro a b v
    simp only [List.cons_append, cob_cons]
    rw [h u a b v, ih (h.cons x) a b v]
    abel

/-- moving the head `i` places to the right costs `i` signs -/
theorem Alt.insert {φ : List α → M} (h : Alt φ) (a : α) (p : List α) :
    ∀ i, i ≤ p.length → φ (p.take i ++ a :: p.drop i) = ((-1 : ℤ) ^ i) • φ (a :: p) := by
  intro i
  induction i with
  | zero => intro _; simp
  | succ i ih =>
    intro hi
    have hi' : i < p.length := hi
    rw [List.take_succ_eq_append_getElem hi']
    have hd : p.drop i = p[i] :: p.drop (i + 1) := List.drop_eq_getElem_cons hi'
    have e := ih (by omega)
    rw [hd] at e
    rw [List.append_assoc, List.singleton_append, h (p.take i) (p[i]) a, e, pow_succ, mul_comm,
      mul_smul]
    simp

theorem permutations_length_eq {l : List α} {p : Nat} {c : List α}
    (h : (p, c) ∈ permutations l) : c.length = l.length := by
  induction l using permutations.induct generalizing p c with
  | case1 => simp [permutations] at h
  | case2 a => simp [permutations] at h; simp [h.2]
  | case3 x a t ih =>
    simp only [permutations, List.mem_flatMap, List.mem_map, List.mem_range, Prod.mk.injEq,
      Prod.exists] at h
    obtain ⟨p', c', hm, i, hi, -, rfl⟩ := h
    have := ih hm
    simp at this ⊢
    omega

theorem permutations_parity_lt {l : List α} {p : Nat} {c : List α}
    (h : (p, c) ∈ permutations l) : p < 2 := by
  rcases l with _ | ⟨x, _ | ⟨a, t⟩⟩
  · simp [permutations] at h
  · simp [permutations] at h; omega
  · simp only [permutations, List.mem_flatMap, List.mem_map, List.mem_range, Prod.mk.injEq,
      Prod.exists] at h
    obtain ⟨p', c', -, i, -, rfl, -⟩ := h
    omega

/-- every yielded pair of `permutations` carries the sign by which any alternating function
changes -/
theorem Alt.permutations {φ : List α → M} (h : Alt φ) {l : List α} {p : Nat} {c : List α}
    (hm : (p, c) ∈ permutations l) : φ c = ((-1 : ℤ) ^ p) • φ l := by
  induction l using Model.permutations.induct generalizing p c φ with
  | case1 => simp [Model.permutations] at hm
  | case2 a => simp [Model.permutations] at hm; simp [hm]
  | case3 x a t ih =>
    simp only [Model.permutations, List.mem_flatMap, List.mem_map, List.mem_range,
      Prod.mk.injEq, Prod.exists] at hm
    obtain ⟨p', c', hm, i, hi, rfl, rfl⟩ := hm
    rw [List.append_assoc, List.singleton_append, h.insert x c' i (by omega)]
    have := ih (h.cons x) hm
    rw [this, smul_smul]
    congr 1
    rw [← pow_add, Nat.add_comm]
    rcases Nat.mod_two_eq_zero_or_one (p' + i) with h0 | h0 <;> rw [h0]
    · rw [Even.neg_one_pow (Nat.even_iff.2 h0)]; simp
    · rw [Odd.neg_one_pow (Nat.odd_iff.2 h0)]; simp

/-- permutations is natural under mapping the entries -/
theorem permutations_map {β : Type} (f : α → β) (l : List α) :
    permutations (l.map f) = (permutations l).map fun pc => (pc.1, pc.2.map f) := by
  induction l using Model.permutations.induct with
  | case1 => simp [permutations]
  | case2 a => simp [permutations]
  | case3 x a t ih =>
    simp only [List.map_cons] at ih
    simp only [List.map_cons, permutations, ih, List.flatMap_map, List.map_flatMap, List.map_map]
    congr 1
    funext pp
    simp [List.map_take, List.map_drop, Function.comp_def]

theorem permutations_perm {l : List α} {p : Nat} {c : List α}
    (hm : (p, c) ∈ permutations l) : c.Perm l := by
  induction l using Model.permutations.induct generalizing p c with
  | case1 => simp [permutations] at hm
  | case2 a => simp [permutations] at hm; simp [hm]
  | case3 x a t ih =>
    simp only [permutations, List.mem_flatMap, List.mem_map, List.mem_range,
      Prod.mk.injEq, Prod.exists] at hm
    obtain ⟨p', c', hm, i, hi, rfl, rfl⟩ := hm
    have h1 := ih hm
    rw [List.append_assoc, List.singleton_append]
    refine List.perm_middle.trans ?_
    simpa using h1

/-- every rearrangement of a non-empty list is yielded -/
theorem exists_mem_permutations {l : List α} (hl : l ≠ []) {c : List α} (hc : c.Perm l) :
    ∃ p, (p, c) ∈ permutations l := by
  induction l using Model.permutations.induct generalizing c with
  | case1 => exact absurd rfl hl
  | case2 a =>
    have : c = [a] := List.perm_singleton.1 hc
    exact ⟨0, by simp [permutations, this]⟩
  | case3 x a t ih =>
    have hx : x ∈ c := hc.mem_iff.2 (by simp)
    obtain ⟨s, r, rfl⟩ := List.append_of_mem hx
    have h1 : (s ++ r).Perm (a :: t) := by
      have := (List.perm_middle (a := x) (l₁ := s) (l₂ := r)).symm.trans hc
      exact List.Perm.cons_inv this
    obtain ⟨p, hp⟩ := ih (by simp) h1
    refine ⟨(p + s.length) % 2, ?_⟩
    simp only [permutations, List.mem_flatMap, List.mem_map, List.mem_range, Prod.mk.injEq,
      Prod.exists]
    exact ⟨p, s ++ r, hp, s.length, by simp; omega, rfl, by simp⟩

/-! ### signs -/

theorem alt_perm_sign {l c : List α} (h : l.Perm c) :
    ∃ ε : ℤ, (ε = 1 ∨ ε = -1) ∧
      ∀ {M : Type} [AddCommGroup M] (φ : List α → M), Alt φ → φ l = ε • φ c := by
  induction h with
  | nil => exact ⟨1, Or.inl rfl, by intros; simp⟩
  | cons x _ ih =>
    obtain ⟨ε, h1, h2⟩ := ih
    exact ⟨ε, h1, fun φ h => h2 _ (h.cons x)⟩
  | swap x y l => exact ⟨-1, Or.inr rfl, fun φ h => by
      have := h [] y x l
      simp only [List.nil_append] at this
      rw [this]; simp⟩
  | trans _ _ ih1 ih2 =>
    obtain ⟨ε, h1, h2⟩ := ih1
    obtain ⟨η, h3, h4⟩ := ih2
    refine ⟨ε * η, ?_, fun φ h => ?_⟩
    · rcases h1 with rfl | rfl <;> rcases h3 with rfl | rfl <;> simp
    · rw [h2 φ h, h4 φ h, smul_smul]

theorem inversions_swap (u : List Nat) (a b : Nat) (v : List Nat) (hab : a < b) :
    inversions (u ++ b :: a :: v) = inversions (u ++ a :: b :: v) + 1 := by
  induction u with
  | nil =>
    have : ¬ b < a := by omega
    simp [inversions, hab, this]; omega
  | cons x u ih =>
    simp only [List.cons_append, inversions, ih, List.countP_append, List.countP_cons]
    omega

theorem nodup_swap (u : List α) (a b : α) (v : List α) :
    (u ++ a :: b :: v).Nodup ↔ (u ++ b :: a :: v).Nodup := by
  apply List.Perm.nodup_iff
  exact List.Perm.append_left _ (List.Perm.swap _ _ _)

theorem alt_sgn : Alt sgn := by
  intro u a b v
  unfold sgn
  by_cases h : (u ++ a :: b :: v).Nodup
  · have h' := (nodup_swap u a b v).1 h
    rw [if_pos h, if_pos h']
    have hne : a ≠ b := by
      rw [List.nodup_append] at h
      have := h.2.1
      simp at this
      exact fun e => this.1.1 e
    rcases Nat.lt_or_gt_of_ne hne with hlt | hlt
    · rw [inversions_swap u a b v hlt, pow_succ]; ring
    · rw [inversions_swap u b a v hlt, pow_succ]; ring
  · have h' : ¬ (u ++ b :: a :: v).Nodup := fun e => h ((nodup_swap u a b v).2 e)
    rw [if_neg h, if_neg h']; rfl

variable [BEq α] [LawfulBEq α]

theorem isPerm_swap (c u : List α) (a b : α) (v : List α) :
    (u ++ a :: b :: v).isPerm c = (u ++ b :: a :: v).isPerm c := by
  rw [Bool.eq_iff_iff, List.isPerm_iff, List.isPerm_iff]
  have : (u ++ a :: b :: v).Perm (u ++ b :: a :: v) :=
    List.Perm.append_left _ (List.Perm.swap _ _ _)
  exact ⟨fun h => this.symm.trans h, fun h => this.trans h⟩

theorem alt_relSign (c : List α) : Alt (relSign c) := by
  intro u a b v
  unfold relSign
  rw [isPerm_swap]
  split
  · simp only [List.map_append, List.map_cons]
    exact alt_sgn _ _ _ _
  · rfl

theorem inversions_of_sorted {l : List Nat} (h : l.Pairwise (· ≤ ·)) : inversions l = 0 := by
  induction l with
  | nil => rfl
  | cons a t ih =>
    rw [List.pairwise_cons] at h
    simp only [inversions, ih h.2, Nat.add_zero, List.countP_eq_zero]
    intro b hb
    have := h.1 b hb
    simp; omega

theorem map_idxOf_self {c : List α} (h : c.Nodup) :
    c.map (fun x => c.idxOf x) = List.range c.length := by
  apply List.ext_getElem
  · simp
  · intro i h1 h2
    simp only [List.getElem_map, List.getElem_range]
    simp at h1
    exact List.Nodup.idxOf_getElem h i h1

theorem relSign_self {c : List α} (h : c.Nodup) : relSign c c = 1 := by
  have hp : c.isPerm c = true := List.isPerm_iff.2 (List.Perm.refl _)
  unfold relSign
  rw [if_pos hp, map_idxOf_self h]
  unfold sgn
  rw [if_pos List.nodup_range, inversions_of_sorted]
  · rfl
  · exact List.pairwise_le_range

theorem relSign_of_not_perm {c l : List α} (h : ¬ l.Perm c) : relSign c l = 0 := by
  unfold relSign
  rw [if_neg]
  rwa [List.isPerm_iff]

/-- an alternating function on a rearrangement of `c` -/
theorem Alt.eq_relSign {φ : List α → M} (h : Alt φ) {c l : List α} (hc : c.Nodup)
    (hp : l.Perm c) : φ l = relSign c l • φ c := by
  obtain ⟨ε, _, h2⟩ := alt_perm_sign hp
  have := h2 (relSign c) (alt_relSign c)
  rw [relSign_self hc] at this
  rw [h2 φ h, this]
  simp

theorem relSign_eq_one_or {c l : List α} (hc : c.Nodup) (hp : l.Perm c) :
    relSign c l = 1 ∨ relSign c l = -1 := by
  obtain ⟨ε, h1, h2⟩ := alt_perm_sign hp
  have := h2 (relSign c) (alt_relSign c)
  rw [relSign_self hc] at this
  simp at this
  rw [this]; exact h1

theorem relSign_ne_zero_iff {c l : List α} (hc : c.Nodup) : relSign c l ≠ 0 ↔ l.Perm c := by
  constructor
  · intro h
    by_contra hn
    exact h (relSign_of_not_perm hn)
  · intro h
    rcases relSign_eq_one_or hc h with e | e <;> rw [e] <;> decide

end Verif
