/-
C01, C02: `pycomplex/math/combinatorial.py`.
-/
import Verif.Lemmas.Alternating
import Mathlib.Data.List.Permutation
import Mathlib.Data.List.Sublists
import Mathlib.Data.Nat.Choose.Basic
import Mathlib.Tactic.IntervalCases

namespace Verif.Props

open Verif.Model Verif.Spec

variable {α : Type}

/-! ## C01 -/

/-- C01, count: a non-empty list of length `n` has `n!` yielded items. -/
theorem C01_permutations_count (L : List α) (hL : L ≠ []) :
    (permutations L).length = L.length.factorial := by
  induction L using Model.permutations.induct with
  | case1 => exact absurd rfl hL
  | case2 a => simp [permutations]
  | case3 x a t ih =>
    have ih := ih (by simp)
    simp only [permutations, List.length_flatMap, List.length_map, List.length_range]
    have : ∀ pp ∈ permutations (a :: t), pp.2.length + 1 = t.length + 2 := by
      intro pp hpp
      have := permutations_length_eq (p := pp.1) (c := pp.2) hpp
      simpa using this
    rw [List.map_congr_left this, List.map_const', List.sum_replicate, ih]
    simp only [List.length_cons, smul_eq_mul]
    rw [Nat.factorial_succ (t.length + 1), Nat.mul_comm]

/-- C01, main: for distinct items, `permutations` yields exactly the rearrangements of `L`, and
the parity is that of the number of inversions of the positions. -/
theorem C01_permutations_exact [DecidableEq α] (L : List α) (hL : L ≠ []) (hn : L.Nodup)
    (p : Nat) (c : List α) :
    (p, c) ∈ permutations L ↔
      c.Perm L ∧ p = inversions (c.map fun x => L.idxOf x) % 2 := by
  have key : ∀ q, (q, c) ∈ permutations L →
      q = inversions (c.map fun x => L.idxOf x) % 2 := by
    intro q hq
    have hperm := permutations_perm hq
    have h2 : q < 2 := permutations_parity_lt hq
    have h1 := (alt_relSign L).permutations hq
    rw [relSign_self hn] at h1
    unfold relSign at h1
    rw [if_pos (List.isPerm_iff.2 hperm)] at h1
    unfold sgn at h1
    have hnd : (c.map fun x => L.idxOf x).Nodup := by
      have : (L.map fun x => L.idxOf x).Nodup := by
        rw [map_idxOf_self hn]; exact List.nodup_range
      exact ((hperm.map _).nodup_iff).2 this
    rw [if_pos hnd] at h1
    simp only [smul_eq_mul, mul_one] at h1
    rcases Nat.mod_two_eq_zero_or_one (inversions (c.map fun x => L.idxOf x)) with h0 | h0
    · rw [Even.neg_one_pow (Nat.even_iff.2 h0)] at h1
      rw [h0]
      interval_cases q
      · rfl
      · simp at h1
    · rw [Odd.neg_one_pow (Nat.odd_iff.2 h0)] at h1
      rw [h0]
      interval_cases q
      · simp at h1
      · rfl
  constructor
  · intro h
    exact ⟨permutations_perm h, key p h⟩
  · rintro ⟨h1, rfl⟩
    obtain ⟨q, hq⟩ := exists_mem_permutations hL h1
    rw [key q hq] at hq
    exact hq

/-- C01, no repetition: for distinct items no arrangement is yielded twice. -/
theorem C01_permutations_nodup [DecidableEq α] (L : List α) (hL : L ≠ []) (hn : L.Nodup) :
    ((permutations L).map Prod.snd).Nodup := by
  have h1 : L.permutations.Nodup := List.nodup_permutations L hn
  have hsub : L.permutations ⊆ (permutations L).map Prod.snd := by
    intro c hc
    rw [List.mem_permutations] at hc
    obtain ⟨q, hq⟩ := exists_mem_permutations hL hc
    exact List.mem_map.2 ⟨(q, c), hq, rfl⟩
  have hsp := h1.subperm hsub
  have hlen : ((permutations L).map Prod.snd).length ≤ L.permutations.length := by
    rw [List.length_map, C01_permutations_count L hL, List.length_permutations]
  exact (hsp.perm_of_length_le hlen).nodup_iff.1 h1

/-- The empty list yields nothing at all (not even the empty arrangement). -/
theorem C01_permutations_empty : permutations ([] : List α) = [] := rfl

example : (1, ["b", "a", "c"]) ∈ permutations ["a", "b", "c"] := by decide
example : (["a", "b", "c"] : List String) ≠ [] ∧ (["a", "b", "c"] : List String).Nodup := by
  decide

/-! ## C02 -/

/-- The model's loop over `i` rephrased: choose the first item or skip it. -/
theorem combinations_cons (n : Nat) (x : α) (t : List α) (h : n ≤ t.length) :
    combinations (n + 1) (x :: t) =
      ((combinations n t).map fun pt => (pt.1 % 2, x :: pt.2)) ++
      (if n + 1 ≤ t.length then
        (combinations (n + 1) t).map fun pt => ((pt.1 + 1) % 2, pt.2) else []) := by
  have h0 : ¬ (n + 1 > (x :: t).length) := by simp; omega
  rw [combinations, if_neg h0]
  rw [show (x :: t).length - (n + 1) + 1 = (t.length - n) + 1 by simp,
    List.range_succ_eq_map, List.flatMap_cons]
  congr 1
  rw [List.flatMap_map]
  split
  · next h1 =>
    rw [combinations, if_neg (by omega), List.map_flatMap,
      show t.length - (n + 1) + 1 = t.length - n by omega]
    congr 1
    funext i
    simp only [Nat.succ_eq_add_one, List.getElem?_cons_succ, List.drop_succ_cons]
    cases t[i]? with
    | none => rfl
    | some y =>
      simp only [List.map_map]
      congr 1
      funext pt
      simp only [Function.comp, Prod.mk.injEq, and_true]
      omega
  · next h1 =>
    have : t.length - n = 0 := by omega
    simp [this]

theorem combinations_mem (L : List α) : ∀ (n : Nat), n ≤ L.length → ∀ c,
    (c ∈ (combinations n L).map Prod.snd ↔ c.Sublist L ∧ c.length = n) := by
  induction L with
  | nil =>
    intro n hn c
    have : n = 0 := by simpa using hn
    subst this
    simp [combinations]
  | cons x t ih =>
    intro n hn c
    cases n with
    | zero =>
      simp only [combinations, List.map_cons, List.map_nil, List.mem_singleton,
        List.length_eq_zero_iff]
      constructor
      · rintro rfl; exact ⟨List.nil_sublist _, rfl⟩
      · exact fun h => h.2
    | succ n =>
      have hn' : n ≤ t.length := by simpa using hn
      rw [combinations_cons n x t hn', List.map_append, List.mem_append, List.map_map]
      have e1 : (Prod.snd ∘ fun pt : Nat × List α => (pt.1 % 2, x :: pt.2))
          = (fun c => x :: c) ∘ Prod.snd := rfl
      rw [e1, ← List.map_map, List.mem_map]
      constructor
      · rintro (⟨c', hc', rfl⟩ | h)
        · rw [ih n hn'] at hc'
          exact ⟨hc'.1.cons_cons x, by simp [hc'.2]⟩
        · split at h
          · next h1 =>
            rw [List.map_map] at h
            have := (ih (n + 1) h1 c).1 h
            exact ⟨this.1.cons x, this.2⟩
          · simp at h
      · rintro ⟨hs, hl⟩
        rcases hs with _ | ⟨_, hs⟩ | ⟨_, hs⟩
        · right
          have h1 : n + 1 ≤ t.length := by rw [← hl]; exact hs.length_le
          rw [if_pos h1, List.map_map]
          exact (ih (n + 1) h1 c).2 ⟨hs, hl⟩
        · left
          rename_i c'
          exact ⟨c', (ih n hn' c').2 ⟨hs, by simpa using hl⟩, rfl⟩

/-- C02, exactness: for `n ≤ len(L)` the yielded combinations are the length-`n` sublists. -/
theorem C02_combinations_exact (L : List α) (n : Nat) (hn : n ≤ L.length) (c : List α) :
    (∃ p, (p, c) ∈ combinations n L) ↔ c.Sublist L ∧ c.length = n := by
  rw [← combinations_mem L n hn c]
  simp

/-- C02, count. -/
theorem C02_combinations_count (L : List α) : ∀ (n : Nat), n ≤ L.length →
    (combinations n L).length = L.length.choose n := by
  induction L with
  | nil =>
    intro n hn
    have : n = 0 := by simpa using hn
    subst this; simp [combinations]
  | cons x t ih =>
    intro n hn
    cases n with
    | zero => simp [combinations]
    | succ n =>
      have hn' : n ≤ t.length := by simpa using hn
      rw [combinations_cons n x t hn', List.length_append, List.length_map, ih n hn',
        List.length_cons, Nat.choose_succ_succ]
      split
      · next h1 => rw [List.length_map, ih (n + 1) h1]
      · next h1 => rw [Nat.choose_eq_zero_of_lt (show t.length < n.succ by omega)]; rfl

/-- C02, no repetition: with distinct items no combination is yielded twice. -/
theorem C02_combinations_nodup (L : List α) (hL : L.Nodup) : ∀ (n : Nat), n ≤ L.length →
    ((combinations n L).map Prod.snd).Nodup := by
  induction L with
  | nil =>
    intro n hn
    have : n = 0 := by simpa using hn
    subst this; simp [combinations]
  | cons x t ih =>
    rw [List.nodup_cons] at hL
    intro n hn
    cases n with
    | zero => simp [combinations]
    | succ n =>
      have hn' : n ≤ t.length := by simpa using hn
      rw [combinations_cons n x t hn', List.map_append, List.map_map]
      have e1 : (Prod.snd ∘ fun pt : Nat × List α => (pt.1 % 2, x :: pt.2))
          = (fun c => x :: c) ∘ Prod.snd := rfl
      rw [e1, ← List.map_map, List.nodup_append]
      refine ⟨(ih hL.2 n hn').map (fun a b h => by simpa using h), ?_, ?_⟩
      · split
        · next h1 => rw [List.map_map]; exact ih hL.2 (n + 1) h1
        · simp
      · intro a ha b hb hab
        subst hab
        rw [List.mem_map] at ha
        obtain ⟨c, -, rfl⟩ := ha
        split at hb
        · next h1 =>
          rw [List.map_map] at hb
          have := (combinations_mem t (n + 1) h1 _).1 hb
          exact hL.1 (this.1.subset (by simp))
        · simp at hb

/-- C02, parity: for distinct items the parity yielded with a combination of `n + 1` items is the
parity of (position of the last chosen item) - `n`. -/
theorem C02_combinations_parity [DecidableEq α] (L : List α) (hL : L.Nodup) : ∀ (n : Nat),
    n + 1 ≤ L.length → ∀ (p : Nat) (c : List α), (p, c) ∈ combinations (n + 1) L →
    ∃ z ∈ c.getLast?, n ≤ L.idxOf z ∧ p = (L.idxOf z - n) % 2 := by
  induction L with
  | nil => intro n hn; simp at hn
  | cons x t ih =>
    rw [List.nodup_cons] at hL
    intro n hn p c hc
    have hn' : n ≤ t.length := by simpa using hn
    rw [combinations_cons n x t hn', List.mem_append] at hc
    rcases hc with hc | hc
    · rw [List.mem_map] at hc
      obtain ⟨⟨q, d⟩, hd, he⟩ := hc
      simp only [Prod.mk.injEq] at he
      obtain ⟨rfl, rfl⟩ := he
      cases n with
      | zero =>
        simp [combinations] at hd
        obtain ⟨rfl, rfl⟩ := hd
        exact ⟨x, by simp, by simp, by simp⟩
      | succ n =>
        obtain ⟨z, hz, h1, h2⟩ := ih hL.2 n hn' q d hd
        have hzt : z ∈ t := by
          have := (C02_combinations_exact t (n + 1) hn' d).1 ⟨q, hd⟩
          exact this.1.subset (List.mem_of_getLast? hz)
        have hxz : x ≠ z := fun e => hL.1 (e ▸ hzt)
        have hi : (x :: t).idxOf z = t.idxOf z + 1 := List.idxOf_cons_ne t hxz
        refine ⟨z, ?_, ?_, ?_⟩
        · cases d with
          | nil => simp at hz
          | cons a d => simpa using hz
        · omega
        · rw [hi]; omega
    · split at hc
      · next h1 =>
        rw [List.mem_map] at hc
        obtain ⟨⟨q, d⟩, hd, he⟩ := hc
        simp only [Prod.mk.injEq] at he
        obtain ⟨rfl, rfl⟩ := he
        obtain ⟨z, hz, h3, h2⟩ := ih hL.2 n h1 q d hd
        have hzt : z ∈ t := by
          have := (C02_combinations_exact t (n + 1) h1 d).1 ⟨q, hd⟩
          exact this.1.subset (List.mem_of_getLast? hz)
        have hxz : x ≠ z := fun e => hL.1 (e ▸ hzt)
        have hi : (x :: t).idxOf z = t.idxOf z + 1 := List.idxOf_cons_ne t hxz
        refine ⟨z, hz, by omega, ?_⟩
        rw [hi]; omega
      · simp at hc

/-- C02: choosing one item yields the parity of its position: the sign with which a cube face
normal to that axis enters the boundary. -/
theorem C02_combinations_one [DecidableEq α] (L : List α) (hL : L.Nodup) (h0 : 1 ≤ L.length)
    (p : Nat) (x : α) :
    (p, [x]) ∈ combinations 1 L ↔ x ∈ L ∧ p = L.idxOf x % 2 := by
  constructor
  · intro h
    obtain ⟨z, hz, -, h2⟩ := C02_combinations_parity L hL 0 h0 p [x] h
    simp at hz
    subst hz
    have := (C02_combinations_exact L 1 h0 [x]).1 ⟨p, h⟩
    exact ⟨this.1.subset (by simp), by simpa using h2⟩
  · rintro ⟨hx, rfl⟩
    obtain ⟨q, hq⟩ := (C02_combinations_exact L 1 h0 [x]).2 ⟨by simpa using hx, rfl⟩
    obtain ⟨z, hz, -, h2⟩ := C02_combinations_parity L hL 0 h0 q [x] hq
    simp at hz
    subst hz
    simp only [Nat.sub_zero] at h2
    rw [← h2]; exact hq

/-- C02, refutation: the parity is not the sign of the shuffle that brings the chosen items to
the front: for items 1, 2 out of 0..3 the arrangement [1, 2, 0, 3] is even, the yielded parity is
odd. -/
theorem C02_combinations_not_shuffle_sign :
    (1, [1, 2]) ∈ combinations 2 [0, 1, 2, 3] ∧ inversions [1, 2, 0, 3] % 2 = 0 := by
  decide

/-- C02: asking for more items than there are yields one spurious empty combination. -/
theorem C02_combinations_too_many (L : List α) (n : Nat) (h : n > L.length) :
    combinations n L = [(0, [])] := by
  cases n with
  | zero => omega
  | succ n => rw [combinations, if_pos h]

example : ([0, 1, 2, 3] : List Nat).Nodup ∧ 1 + 1 ≤ [0, 1, 2, 3].length := by decide

end Verif.Props
