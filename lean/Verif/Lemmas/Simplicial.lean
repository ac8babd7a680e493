/-
Helper lemmas for the construction of simplicial topologies.
-/
import Verif.Lemmas.Alternating
import Verif.Model.Simplicial
import Verif.Spec.Simplicial
import Mathlib.Data.List.Sort
import Mathlib.Data.List.Range
import Mathlib.Algebra.BigOperators.Ring.List

namespace Verif

open Verif.Model Verif.Spec

/-! ### monadic map -/

theorem mapM_ok {α β : Type} (f : α → Except PyErr β) (g : α → β) :
    ∀ l : List α, (∀ x ∈ l, f x = .ok (g x)) → l.mapM f = .ok (l.map g)
  | [], _ => rfl
  | a :: t, h => by
    rw [List.mapM_cons, h a (by simp), mapM_ok f g t (fun x hx => h x (by simp [hx]))]
    rfl

/-! ### sorting -/

theorem sortRow_perm (l : List Nat) : (sortRow l).Perm l := List.perm_insertionSort _ _

theorem sortRow_sorted (l : List Nat) : (sortRow l).Pairwise (· ≤ ·) :=
  List.pairwise_insertionSort _ _

theorem sortRow_eq_iff (a b : List Nat) : sortRow a = sortRow b ↔ a.Perm b := by
  constructor
  · intro h
    exact (sortRow_perm a).symm.trans (h ▸ sortRow_perm b)
  · intro h
    exact List.Perm.eq_of_pairwise' (sortRow_sorted a) (sortRow_sorted b)
      ((sortRow_perm a).trans (h.trans (sortRow_perm b).symm))

theorem argsort_perm (l : List Nat) : (argsort l).Perm (List.range l.length) := by
  unfold argsort
  refine ((List.perm_insertionSort _ _).map _).trans ?_
  rw [List.zipIdx_map_snd, List.range_eq_range']

theorem argsort_length (l : List Nat) : (argsort l).length = l.length := by
  rw [(argsort_perm l).length_eq, List.length_range]

theorem argsort_map (l : List Nat) :
    (argsort l).map (fun i => (l[i]?).getD 0) = sortRow l := by
  have h1 : (argsort l).map (fun i => (l[i]?).getD 0) =
      (l.zipIdx.insertionSort fun a b => a.1 ≤ b.1).map Prod.fst := by
    unfold argsort
    rw [List.map_map]
    apply List.map_congr_left
    intro x hx
    have hx' : x ∈ l.zipIdx := (List.perm_insertionSort _ _).mem_iff.1 hx
    have := List.mem_zipIdx_iff_getElem?.1 hx'
    simp [this]
  rw [h1]
  apply List.Perm.eq_of_pairwise' (r := (· ≤ ·))
  · rw [List.pairwise_map]
    exact List.pairwise_insertionSort (r := fun a b : Nat × Nat => a.1 ≤ b.1) _
  · exact sortRow_sorted l
  · refine ((List.perm_insertionSort _ _).map _).trans ?_
    rw [List.zipIdx_map_fst]
    exact (sortRow_perm l).symm

/-! ### scatter -/

theorem scatter_length (ps : List (Nat × Nat)) (acc : List Nat) :
    (ps.foldl (fun acc iv => acc.set iv.1 iv.2) acc).length = acc.length := by
  induction ps generalizing acc with
  | nil => rfl
  | cons p ps ih => rw [List.foldl_cons, ih]; simp

theorem scatter_getElem?_not_mem (ps : List (Nat × Nat)) (acc : List Nat) (i : Nat)
    (h : i ∉ ps.map Prod.fst) :
    (ps.foldl (fun acc iv => acc.set iv.1 iv.2) acc)[i]? = acc[i]? := by
  induction ps generalizing acc with
  | nil => rfl
  | cons p ps ih =>
    simp only [List.map_cons, List.mem_cons, not_or] at h
    rw [List.foldl_cons, ih _ h.2, List.getElem?_set_ne (Ne.symm h.1)]

theorem scatter_getElem? (ps : List (Nat × Nat)) (acc : List Nat)
    (hn : (ps.map Prod.fst).Nodup) (iv : Nat × Nat) (hm : iv ∈ ps) (hi : iv.1 < acc.length) :
    (ps.foldl (fun acc iv => acc.set iv.1 iv.2) acc)[iv.1]? = some iv.2 := by
  induction ps generalizing acc with
  | nil => simp at hm
  | cons p ps ih =>
    rw [List.map_cons, List.nodup_cons] at hn
    rw [List.foldl_cons]
    rcases List.mem_cons.1 hm with rfl | hm
    · rw [scatter_getElem?_not_mem _ _ _ hn.1, List.getElem?_set_self hi]
    · exact ih _ hn.2 hm (by simpa using hi)

/-- the relative permutation of two rows with the same sorted row takes one to the other -/
theorem relativePermutation_map {b c : List Nat} (h : b.Perm c) :
    (relativePermutation (argsort b) (argsort c)).map (fun i => (b[i]?).getD 0) = c := by
  have hlen : b.length = c.length := h.length_eq
  have hs : sortRow b = sortRow c := (sortRow_eq_iff b c).2 h
  have hl : (relativePermutation (argsort b) (argsort c)).length = c.length := by
    unfold relativePermutation
    rw [scatter_length, List.length_replicate, argsort_length, hlen]
  apply List.ext_getElem?
  intro q
  by_cases hq : q < c.length
  · have hqm : q ∈ argsort c := (argsort_perm c).mem_iff.2 (by simpa using hq)
    obtain ⟨m, hm, hmq⟩ := List.getElem_of_mem hqm
    have hmc : m < c.length := by rwa [argsort_length] at hm
    have hmb : m < (argsort b).length := by rw [argsort_length, hlen]; exact hmc
    have hmem : (q, (argsort b)[m]) ∈ (argsort c).zip (argsort b) := by
      have : ((argsort c).zip (argsort b))[m]? = some (q, (argsort b)[m]) := by
        rw [List.getElem?_zip_eq_some]
        exact ⟨by rw [List.getElem?_eq_getElem hm, hmq], List.getElem?_eq_getElem hmb⟩
      exact List.mem_of_getElem? this
    have hfst : ((argsort c).zip (argsort b)).map Prod.fst = argsort c := by
      rw [List.map_fst_zip]; rw [argsort_length, argsort_length, hlen]
    have e1 : (relativePermutation (argsort b) (argsort c))[q]? = some (argsort b)[m] := by
      unfold relativePermutation
      refine scatter_getElem? _ _ ?_ (q, (argsort b)[m]) hmem ?_
      · rw [hfst, (argsort_perm c).nodup_iff]; exact List.nodup_range
      · rw [List.length_replicate, argsort_length, hlen]; exact hq
    rw [List.getElem?_map, e1, Option.map_some, List.getElem?_eq_getElem hq]
    have e2 : (sortRow b)[m]? = some ((b[(argsort b)[m]]?).getD 0) := by
      rw [← argsort_map b, List.getElem?_map, List.getElem?_eq_getElem hmb]; rfl
    have e3 : (sortRow c)[m]? = some ((c[q]?).getD 0) := by
      rw [← argsort_map c, List.getElem?_map, List.getElem?_eq_getElem hm, hmq]; rfl
    rw [hs, e3, List.getElem?_eq_getElem hq] at e2
    exact e2.symm
  · rw [List.getElem?_eq_none (by simpa [hl] using hq), List.getElem?_eq_none (by omega)]

theorem relativePermutation_length {b c : List Nat} :
    (relativePermutation (argsort b) (argsort c)).length = b.length := by
  unfold relativePermutation
  rw [scatter_length, List.length_replicate, argsort_length]

theorem relativePermutation_lt {b c : List Nat} (h : b.Perm c) :
    ∀ x ∈ relativePermutation (argsort b) (argsort c), x < b.length := by
  -- every entry was written from `argsort b`
  intro x hx
  have hlen : b.length = c.length := h.length_eq
  obtain ⟨q, hq, rfl⟩ := List.getElem_of_mem hx
  have hqc : q < c.length := by rw [relativePermutation_length, hlen] at hq; exact hq
  have hqm : q ∈ argsort c := (argsort_perm c).mem_iff.2 (by simpa using hqc)
  obtain ⟨m, hm, hmq⟩ := List.getElem_of_mem hqm
  have hmc : m < c.length := by rwa [argsort_length] at hm
  have hmb : m < (argsort b).length := by rw [argsort_length, hlen]; exact hmc
  have hmem : (q, (argsort b)[m]) ∈ (argsort c).zip (argsort b) := by
    have : ((argsort c).zip (argsort b))[m]? = some (q, (argsort b)[m]) := by
      rw [List.getElem?_zip_eq_some]
      exact ⟨by rw [List.getElem?_eq_getElem hm, hmq], List.getElem?_eq_getElem hmb⟩
    exact List.mem_of_getElem? this
  have hfst : ((argsort c).zip (argsort b)).map Prod.fst = argsort c := by
    rw [List.map_fst_zip]; rw [argsort_length, argsort_length, hlen]
  have e1 : (relativePermutation (argsort b) (argsort c))[q]? = some (argsort b)[m] := by
    unfold relativePermutation
    refine scatter_getElem? _ _ ?_ (q, (argsort b)[m]) hmem ?_
    · rw [hfst, (argsort_perm c).nodup_iff]; exact List.nodup_range
    · rw [List.length_replicate, argsort_length, hlen]; exact hqc
  rw [List.getElem?_eq_getElem hq] at e1
  have e2 := Option.some.inj e1
  rw [e2]
  have : (argsort b)[m] ∈ argsort b := List.getElem_mem _
  simpa using (argsort_perm b).mem_iff.1 this

theorem perm_range_of_nodup {l : List Nat} {n : Nat} (hn : l.Nodup) (hl : l.length = n)
    (hlt : ∀ x ∈ l, x < n) : l.Perm (List.range n) := by
  have hsub : l ⊆ List.range n := fun x hx => List.mem_range.2 (hlt x hx)
  exact (hn.subperm hsub).perm_of_length_le (by simp [hl])

/-- the parity found for a rearrangement is its sign -/
theorem relativeSimplexParity_ok {b c : List Nat} (h : b.Perm c) (hb : b.Nodup) (h0 : b ≠ []) :
    ∃ p, relativeSimplexParity (relativePermutation (argsort b) (argsort c)) = .ok p ∧
      parityToOrientation p = - relSign c b := by
  set rel := relativePermutation (argsort b) (argsort c) with hrel
  have hmap := relativePermutation_map h
  have hc : c.Nodup := h.nodup_iff.1 hb
  have hn : rel.Nodup := by
    apply List.Nodup.of_map (fun i => (b[i]?).getD 0)
    rw [hmap]; exact hc
  have hl : rel.length = b.length := relativePermutation_length
  have hperm : rel.Perm (List.range b.length) :=
    perm_range_of_nodup hn hl (relativePermutation_lt h)
  have hne : List.range rel.length ≠ [] := by
    rw [hl, Ne, List.range_eq_nil, List.length_eq_zero_iff]; exact h0
  have hperm' : rel.Perm (List.range rel.length) := by rw [hl]; exact hperm
  obtain ⟨p0, hp0⟩ := exists_mem_permutations hne hperm'
  unfold relativeSimplexParity
  cases hf : (permutations (List.range rel.length)).find? (fun pc => pc.2 == rel) with
  | none =>
    exfalso
    have := List.find?_eq_none.1 hf (p0, rel) hp0
    simp at this
  | some pc =>
    refine ⟨pc.1, rfl, ?_⟩
    have hm := List.mem_of_find?_eq_some hf
    have he := List.find?_some hf
    simp only [beq_iff_eq] at he
    obtain ⟨p, r⟩ := pc
    simp only at he
    subst he
    have hbm : (List.range rel.length).map (fun i => (b[i]?).getD 0) = b := by
      apply List.ext_getElem
      · simp [hl]
      · intro i h1 h2
        simp [List.getElem?_eq_getElem h2]
    have hm2 : (p, c) ∈ permutations b := by
      have := permutations_map (fun i => (b[i]?).getD 0) (List.range rel.length)
      rw [hbm] at this
      rw [this]
      exact List.mem_map.2 ⟨(p, rel), hm, by rw [hmap]⟩
    have h1 := (alt_relSign c).permutations hm2
    rw [relSign_self hc] at h1
    have hs := relSign_eq_one_or hc h
    have hp2 : p < 2 := permutations_parity_lt hm
    have hp : p = 0 ∨ p = 1 := by omega
    rcases hp with rfl | rfl
    · simp at h1
      simp [parityToOrientation, ← h1]
    · simp at h1
      simp only [parityToOrientation]
      omega

/-! ### faces -/

theorem simplexFace_perm {l : List Nat} {c : Nat} (hc : c < l.length) :
    (simplexFace l c).Perm (l.eraseIdx c) := by
  have h1 : ((rollLeft c l).drop 1).Perm (l.eraseIdx c) := by
    unfold rollLeft
    rw [List.drop_append_of_le_length (by simp; omega), List.drop_drop,
      List.eraseIdx_eq_take_drop_succ]
    exact List.perm_append_comm
  unfold simplexFace
  simp only
  split
  · refine List.Perm.trans ?_ h1
    rcases (rollLeft c l).drop 1 with _ | ⟨x, _ | ⟨y, t⟩⟩
    · exact List.Perm.refl _
    · exact List.Perm.refl _
    · exact List.Perm.swap _ _ _
  · exact h1

theorem Alt.append_comm {α M : Type} [AddCommGroup M] {φ : List α → M} (h : Alt φ)
    (A B : List α) : φ (A ++ B) = ((-1 : ℤ) ^ (A.length * B.length)) • φ (B ++ A) := by
  induction A generalizing φ with
  | nil => simp
  | cons a A ih =>
    have h1 := ih (h.cons a)
    rw [List.cons_append, h1]
    have h2 := (h.insert a (B ++ A) B.length (by simp))
    rw [List.take_left, List.drop_left] at h2
    rw [h2, smul_smul, ← pow_add, List.length_cons]
    have : A.length * B.length + 0 = A.length * B.length := rfl
    rw [show ((-1 : ℤ) ^ ((A.length + 1) * B.length + B.length)) =
      (-1 : ℤ) ^ (A.length * B.length) by
        rw [show (A.length + 1) * B.length + B.length = A.length * B.length + 2 * B.length by ring,
          pow_add, pow_mul]; simp]

/-- the generated face number `c` is, up to the sign `(-1)^c`, the face with corner `c` deleted -/
theorem Alt.simplexFace {M : Type} [AddCommGroup M] {φ : List Nat → M} (h : Alt φ)
    {l : List Nat} {c : Nat} (hc : c < l.length) (hl : 3 ≤ l.length) :
    φ (simplexFace l c) = ((-1 : ℤ) ^ c) • φ (l.eraseIdx c) := by
  have e : (rollLeft c l).drop 1 = l.drop (c + 1) ++ l.take c := by
    unfold rollLeft
    rw [List.drop_append_of_le_length (by simp; omega), List.drop_drop]
  have h1 := h.append_comm (l.drop (c + 1)) (l.take c)
  rw [← List.eraseIdx_eq_take_drop_succ, ← e, List.length_drop, List.length_take,
    Nat.min_eq_left (by omega)] at h1
  have hlen : 2 ≤ ((rollLeft c l).drop 1).length := by
    rw [e]; simp; omega
  unfold Model.simplexFace
  simp only
  split
  · next hodd =>
    have h2 : φ (swap01 ((rollLeft c l).drop 1)) = - φ ((rollLeft c l).drop 1) := by
      rcases hr : (rollLeft c l).drop 1 with _ | ⟨x, _ | ⟨y, t⟩⟩
      · rw [hr] at hlen; simp at hlen
      · rw [hr] at hlen; simp at hlen
      · exact h [] y x t
    rw [h2, h1, Odd.neg_one_pow (Nat.odd_iff.2 hodd.1), Even.neg_one_pow]
    · simp
    · rw [Nat.even_mul]; left; rw [Nat.even_iff]; omega
  · next hodd =>
    rw [h1]
    congr 1
    rcases Nat.mod_two_eq_zero_or_one c with h0 | h0
    · rw [Even.neg_one_pow (Nat.even_iff.2 h0), Even.neg_one_pow]
      rw [Nat.even_mul]; right; exact Nat.even_iff.2 h0
    · rw [Odd.neg_one_pow (Nat.odd_iff.2 h0), Odd.neg_one_pow]
      rw [Nat.odd_mul]
      refine ⟨?_, Nat.odd_iff.2 h0⟩
      rw [Nat.odd_iff]; omega

end Verif
