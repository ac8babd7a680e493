/-
Fundamental domains correspond to the orderings of the corners of a simplex.
-/
import Verif.Model.Subdivide
import Verif.Spec.Subdivide
import Verif.Lemmas.Relabel
import Mathlib.Data.Nat.Factorial.Basic

namespace Verif

open Verif.Model Verif.Spec

/-- orderings of the corners of a row with `k + 2` corners, in the order of the domains -/
def wRows : Nat → List Nat → List (List Nat)
  | 0, row => [row, row.reverse]
  | k + 1, row => ((List.range row.length).map fun c =>
      (wRows k (simplexFace row c)).map fun w => w ++ [row[c]?.getD 0]).flatten

/-- number of the element with the given corners -/
def elIdx (E : List (List Nat)) (s : List Nat) : Nat := (E.map sortRow).idxOf (sortRow s)

/-- the flag of an ordering: its initial segments -/
def flagOf (E : List (List (List Nat))) (k : Nat) (w : List Nat) : List Nat :=
  (List.range (k + 1)).map fun i => elIdx (E[i]?.getD []) (w.take (i + 1))

theorem simplexFace_length {l : List Nat} {c : Nat} (hc : c < l.length) :
    (simplexFace l c).length = l.length - 1 := by
  rw [(simplexFace_perm hc).length_eq, List.length_eraseIdx_of_lt hc]

theorem simplexFace_nodup {l : List Nat} (hl : l.Nodup) {c : Nat} (hc : c < l.length) :
    (simplexFace l c).Nodup :=
  (simplexFace_perm hc).nodup_iff.2 (eraseIdx_nodup hl c)

theorem eraseIdx_append_perm {l : List Nat} {c : Nat} (hc : c < l.length) :
    (l.eraseIdx c ++ [l[c]]).Perm l := by
  refine List.perm_append_comm.trans ?_
  simp only [List.singleton_append]
  exact List.getElem_cons_eraseIdx_perm hc

theorem mem_wRows : ∀ (k : Nat) (row : List Nat), row.length = k + 2 → row.Nodup →
    ∀ w, w ∈ wRows k row ↔ w.Perm row := by
  intro k
  induction k with
  | zero =>
    intro row hl hn w
    obtain ⟨a, b, rfl⟩ := length_two hl
    simp only [wRows, List.mem_cons, List.not_mem_nil, or_false]
    constructor
    · rintro (rfl | rfl)
      · exact List.Perm.refl _
      · exact List.reverse_perm _
    · intro hp
      have := hp.length_eq
      obtain ⟨x, y, rfl⟩ := length_two (this.trans hl)
      have hx : x ∈ [a, b] := hp.mem_iff.1 (by simp)
      have hy : y ∈ [a, b] := hp.mem_iff.1 (by simp)
      have hxy : x ≠ y := by
        have := hp.nodup_iff.2 hn
        simpa using this
      simp at hx hy ⊢
      omega
  | succ k ih =>
    intro row hl hn w
    simp only [wRows, List.mem_flatten, List.mem_map, List.mem_range]
    constructor
    · rintro ⟨_, ⟨c, hc, rfl⟩, hw⟩
      obtain ⟨w', hw', rfl⟩ := List.mem_map.1 hw
      rw [ih _ (by rw [simplexFace_length hc]; omega) (simplexFace_nodup hn hc)] at hw'
      rw [List.getElem?_eq_getElem hc, Option.getD_some]
      exact ((hw'.trans (simplexFace_perm hc)).append_right _).trans (eraseIdx_append_perm hc)
    · intro hp
      have hlw : w.length = k + 3 := hp.length_eq.trans hl
      have hw0 : w ≠ [] := by intro h; rw [h] at hlw; simp at hlw
      obtain ⟨c, hc, hcx⟩ := List.getElem_of_mem (hp.mem_iff.1 (List.getLast_mem hw0))
      refine ⟨_, ⟨c, hc, rfl⟩, List.mem_map.2 ⟨w.dropLast, ?_, ?_⟩⟩
      · rw [ih _ (by rw [simplexFace_length hc]; omega) (simplexFace_nodup hn hc)]
        refine List.Perm.trans ?_ (simplexFace_perm hc).symm
        have h1 : (w.dropLast ++ [row[c]]).Perm (row.eraseIdx c ++ [row[c]]) := by
          rw [hcx, List.dropLast_append_getLast]
          rw [← hcx]
          exact hp.trans (eraseIdx_append_perm hc).symm
        exact (List.perm_append_right_iff _).1 h1
      · rw [List.getElem?_eq_getElem hc, Option.getD_some, hcx, List.dropLast_append_getLast]

theorem wRows_length : ∀ (k : Nat) (row : List Nat), row.length = k + 2 →
    (wRows k row).length = (k + 2).factorial := by
  intro k
  induction k with
  | zero => intro row _; rfl
  | succ k ih =>
    intro row hl
    simp only [wRows, List.length_flatten, List.map_map]
    have : ∀ c ∈ List.range row.length, (List.length ∘ fun c =>
        (wRows k (simplexFace row c)).map fun w => w ++ [row[c]?.getD 0]) c = (k + 2).factorial := by
      intro c hc
      have hc' := List.mem_range.1 hc
      simp only [Function.comp, List.length_map]
      exact ih _ (by rw [simplexFace_length hc']; omega)
    rw [List.map_congr_left this]
    rw [List.map_const', List.sum_replicate, List.length_range, hl, smul_eq_mul]
    rfl

theorem wRows_nodup : ∀ (k : Nat) (row : List Nat), row.length = k + 2 → row.Nodup →
    (wRows k row).Nodup := by
  intro k
  induction k with
  | zero =>
    intro row hl hn
    obtain ⟨a, b, rfl⟩ := length_two hl
    simp at hn
    simp [wRows]
    exact fun h => absurd h hn
  | succ k ih =>
    intro row hl hn
    simp only [wRows]
    rw [List.nodup_flatten]
    constructor
    · intro l' hl'
      obtain ⟨c, hc, rfl⟩ := List.mem_map.1 hl'
      have hc := List.mem_range.1 hc
      refine List.Nodup.map ?_ (ih _ (by rw [simplexFace_length hc]; omega) (simplexFace_nodup hn hc))
      intro x y hxy
      exact List.append_cancel_right hxy
    · rw [List.pairwise_map]
      refine List.Pairwise.imp_of_mem ?_ (List.nodup_range (n := row.length))
      intro c d hc hd hne
      have hc := List.mem_range.1 hc
      have hd := List.mem_range.1 hd
      intro x hx hy
      obtain ⟨w, _, rfl⟩ := List.mem_map.1 hx
      obtain ⟨w', _, he⟩ := List.mem_map.1 hy
      have := (List.append_inj' he rfl).2
      rw [List.getElem?_eq_getElem hc, List.getElem?_eq_getElem hd] at this
      simp at this
      exact hne ((List.Nodup.getElem_inj_iff hn).1 this.symm)

theorem flatten_parity {α : Type} : ∀ (L : List (List α)), (∀ l ∈ L, l.length % 2 = 0) →
    ∀ (i : Nat) (w : α), L.flatten[i]? = some w →
    ∃ (c i' : Nat) (l : List α), L[c]? = some l ∧ l[i']? = some w ∧ i % 2 = i' % 2 := by
  intro L
  induction L with
  | nil => intro _ i w h; simp at h
  | cons a t ih =>
    intro hL i w h
    rw [List.flatten_cons, List.getElem?_append] at h
    split at h
    · exact ⟨0, i, a, rfl, h, rfl⟩
    · obtain ⟨c, i', l, h1, h2, h3⟩ := ih (fun l hl => hL l (List.mem_cons_of_mem _ hl)) _ _ h
      have := hL a List.mem_cons_self
      exact ⟨c + 1, i', l, h1, h2, by omega⟩

theorem factorial_even (k : Nat) : (k + 2).factorial % 2 = 0 :=
  Nat.mod_eq_zero_of_dvd (Nat.dvd_factorial (by decide) (by omega))

/-- the ordering at position `i` has sign `(-1)^i`, up to a sign that depends on the dimension -/
theorem wRows_sign : ∀ k : Nat, ∃ ε : ℤ, (ε = 1 ∨ ε = -1) ∧ ∀ (row : List Nat),
    row.length = k + 2 → row.Nodup → ∀ (i : Nat) (w : List Nat), (wRows k row)[i]? = some w →
      relSign row w = ε * (-1) ^ i := by
  intro k
  induction k with
  | zero =>
    refine ⟨1, Or.inl rfl, ?_⟩
    intro row hl hn i w h
    obtain ⟨a, b, rfl⟩ := length_two hl
    simp only [wRows] at h
    rcases i with _ | _ | i
    · simp at h; subst h; rw [relSign_self hn]; simp
    · simp at h; subst h
      have := alt_relSign [a, b] [] b a []
      simp only [List.nil_append] at this
      rw [this, relSign_self hn]; simp
    · simp at h
  | succ k ih =>
    obtain ⟨ε, hε, ih⟩ := ih
    refine ⟨ε * (-1) ^ (k + 2), ?_, ?_⟩
    · rcases hε with rfl | rfl <;> rcases neg_one_pow_eq_or ℤ (k + 2) with h | h <;> rw [h] <;> simp
    · intro row hl hn i w h
      simp only [wRows] at h
      obtain ⟨c, i', l, h1, h2, h3⟩ := flatten_parity _ (by
        intro l hl'
        obtain ⟨c, hc, rfl⟩ := List.mem_map.1 hl'
        have hc := List.mem_range.1 hc
        rw [List.length_map, wRows_length k _ (by rw [simplexFace_length hc]; omega)]
        exact factorial_even k) i w h
      rw [List.getElem?_map, Option.map_eq_some_iff] at h1
      obtain ⟨c', hc', rfl⟩ := h1
      obtain ⟨hc, rfl⟩ := List.getElem?_eq_some_iff.1 hc'
      rw [List.length_range] at hc
      rw [List.getElem_range, List.getElem?_map, Option.map_eq_some_iff] at h2
      obtain ⟨w', hw', rfl⟩ := h2
      have hfl : (simplexFace row c).length = k + 2 := by rw [simplexFace_length hc]; omega
      have hfn := simplexFace_nodup hn hc
      have hs := ih _ hfl hfn i' w' hw'
      have hwp : w'.Perm (simplexFace row c) :=
        (mem_wRows k _ hfl hfn w').1 (List.mem_of_getElem? hw')
      rw [List.getElem?_eq_getElem hc, Option.getD_some]
      have hA : Alt (fun s : List Nat => relSign row (s ++ [row[c]])) := by
        intro u a b v
        have := alt_relSign row u a b (v ++ [row[c]])
        simpa using this
      have e1 := hA.eq_relSign hfn hwp
      have e2 := hA.simplexFace hc (by omega)
      have e3 := (alt_relSign row).append (row.take c)
      have e4 := e3.append_comm (row.drop (c + 1)) [row[c]]
      have e5 : row.take c ++ ([row[c]] ++ row.drop (c + 1)) = row := by simp
      rw [e5, relSign_self hn] at e4
      rw [e1, hs, e2, List.eraseIdx_eq_take_drop_succ, List.append_assoc, e4]
      simp only [List.length_drop, List.length_singleton, smul_eq_mul, mul_one]
      have hpar : (-1 : ℤ) ^ i' = (-1) ^ i := by
        rcases Nat.mod_two_eq_zero_or_one i with h0 | h0
        · rw [Even.neg_one_pow (Nat.even_iff.2 h0), Even.neg_one_pow (Nat.even_iff.2 (by omega))]
        · rw [Odd.neg_one_pow (Nat.odd_iff.2 h0), Odd.neg_one_pow (Nat.odd_iff.2 (by omega))]
      rw [hpar, ← pow_add, hl]
      rw [show c + (k + 1 + 2 - (c + 1)) = k + 2 by omega]
      ring

end Verif
