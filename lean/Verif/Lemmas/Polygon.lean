/-
Closed polygons: their topology, and what subdivision and smoothing do to them.
-/
import Verif.Props.CubicalBoundary
import Verif.Props.CubicalComplex
import Verif.Props.Smooth
import Verif.Spec.Circle

namespace Verif

open Verif.Model Verif.Spec Verif.Props

variable {uniq : List (List Nat) → List (List Nat)} {N : Nat} {edges : List (List Nat)} {t : Topo} {c : Nat → Nat}

/-- a round that starts elsewhere -/
theorem range_shift {α : Type} {g : Nat → α} (hg : ∀ k, g (k + N) = g k) (k : Nat) :
    ((List.range N).map fun i => g (i + k)).Perm ((List.range N).map g) := by
  induction k with
  | zero => exact .refl _
  | succ k ih =>
    refine List.Perm.trans ?_ ih
    cases N with
    | zero => simp
    | succ M =>
      conv_lhs => rw [List.range_succ, List.map_append]
      conv_rhs => rw [List.range_succ_eq_map, List.map_cons, List.map_map]
      have h1 : g (M + (k + 1)) = g (0 + k) := by
        rw [show M + (k + 1) = k + (M + 1) by omega, hg, Nat.zero_add]
      simp only [List.map_cons, List.map_nil]
      rw [h1]
      refine (List.perm_append_singleton _ _).trans ?_
      rw [show (List.map ((fun i => g (i + k)) ∘ Nat.succ) (List.range M)) = List.map (fun i => g (i + (k + 1))) (List.range M) from
        List.map_congr_left fun i _ => by simp only [Function.comp, Nat.succ_eq_add_one]; congr 1; omega]

theorem range_double {α : Type} (g : Nat → α) (N : Nat) :
    (List.range N).flatMap (fun k => [g (2 * k), g (2 * k + 1)]) = (List.range (2 * N)).map g := by
  induction N with
  | zero => rfl
  | succ N ih =>
    rw [List.range_succ, List.flatMap_append, ih, show 2 * (N + 1) = 2 * N + 1 + 1 by omega, List.range_succ, List.range_succ]
    simp

namespace Spec.ClosedPolygon

theorem next (h : ClosedPolygon N edges c) (k : Nat) : c (k + N) = c k := (h.period _ _).2 (by simp [Nat.ModEq])

theorem inj (h : ClosedPolygon N edges c) {k l : Nat} (hk : k < N) (hl : l < N) (e : c k = c l) : k = l :=
  Nat.ModEq.eq_of_lt_of_lt ((h.period _ _).1 e) hk hl

theorem length (h : ClosedPolygon N edges c) : edges.length = N := by rw [h.edges.length_eq]; simp

theorem pos (h : ClosedPolygon N edges c) : 0 < N := lt_of_le_of_lt (Nat.zero_le _) (h.lt 0)

theorem mem (h : ClosedPolygon N edges c) (k : Nat) : [c k, c (k + 1)] ∈ edges := by
  rw [h.edges.mem_iff, List.mem_map]
  refine ⟨k % N, List.mem_range.2 (Nat.mod_lt _ h.pos), ?_⟩
  rw [(h.period (k % N) k).2 (Nat.mod_modEq _ _),
    (h.period (k % N + 1) (k + 1)).2 ((Nat.mod_modEq _ _).add_right 1)]

theorem exists_of_mem (h : ClosedPolygon N edges c) {l : List Nat} (hl : l ∈ edges) : ∃ k < N, l = [c k, c (k + 1)] := by
  rw [h.edges.mem_iff, List.mem_map] at hl
  obtain ⟨k, hk, rfl⟩ := hl
  exact ⟨k, List.mem_range.1 hk, rfl⟩

theorem nodup (h : ClosedPolygon N edges c) : edges.Nodup := by
  rw [h.edges.nodup_iff]
  refine List.Nodup.map_on ?_ List.nodup_range
  intro x hx y hy e
  exact h.inj (List.mem_range.1 hx) (List.mem_range.1 hy) (by simpa using (List.cons.inj e).1)

theorem ne (h : ClosedPolygon N edges c) (hN : 2 ≤ N) (k : Nat) : c k ≠ c (k + 1) := by
  intro e
  have := (h.period _ _).1 e
  have h2 : (0 : Nat) ≡ 1 [MOD N] := Nat.ModEq.add_left_cancel' k this
  have := Nat.ModEq.eq_of_lt_of_lt h2 (by omega) (by omega)
  omega

theorem cubes (h : ClosedPolygon N edges c) (hN : 2 ≤ N) : Cubes 1 edges := by
  intro l hl
  obtain ⟨k, -, rfl⟩ := h.exists_of_mem hl
  exact ⟨rfl, by simpa using h.ne hN k⟩

/-- every vertex is passed -/
theorem surj (h : ClosedPolygon N edges c) {v : Nat} (hv : v < N) : ∃ k < N, c k = v := by
  have hi : Set.InjOn c (Finset.range N) := fun x hx y hy e => h.inj (by simpa using hx) (by simpa using hy) e
  have := Finset.surjOn_of_injOn_of_card_le (s := Finset.range N) (t := Finset.range N) c
    (fun x _ => by simpa using h.lt x) hi (by simp)
  obtain ⟨k, hk, e⟩ := this (by simpa using hv)
  exact ⟨k, by simpa using hk, e⟩

theorem used (h : ClosedPolygon N edges c) (v : Nat) : (∃ l ∈ edges, v ∈ l) ↔ v < N := by
  constructor
  · rintro ⟨l, hl, hv⟩
    obtain ⟨k, -, rfl⟩ := h.exists_of_mem hl
    rcases (by simpa using hv : v = c k ∨ v = c (k + 1)) with rfl | rfl <;> exact h.lt _
  · intro hv
    obtain ⟨k, -, rfl⟩ := h.surj hv
    exact ⟨_, h.mem k, by simp⟩

theorem accepted (h : ClosedPolygon N edges c) (hN : 2 ≤ N) (hu : UniqSpec uniq) :
    ∃ t, fromCubes uniq true 1 edges = .ok t := by
  rw [C19_accepts_iff hu (h.cubes hN)]
  refine ⟨by omega, ?_, N, h.used⟩
  intro k d h1 h2
  omega

theorem nVertices (h : ClosedPolygon N edges c) (hN : 2 ≤ N) (hu : UniqSpec uniq) (ht : fromCubes uniq true 1 edges = .ok t) :
    t.nElements 0 = N := by
  have wf := fromCubes_wf hu (h.cubes hN) ht
  have hlt := top_lt hu (h.cubes hN) ht
  apply Nat.le_antisymm
  · by_contra hc
    push Not at hc
    have hc' : N < (t.elements[0]?.getD []).length := hc
    obtain ⟨-, -, -, hso, -⟩ := wf.get (k := 0) (by omega)
    obtain ⟨l, hl, i, hi, s, σ, hσ⟩ := hso.2 _ (List.getElem_mem hc')
    rw [wf.point (by omega) (List.getElem?_eq_getElem hc')] at hσ
    have hp := hσ.perm (by simp)
    rw [show (0 : Nat) + 1 = 1 from rfl, wf.top_eq, Option.getD_some] at hl
    have hm : N ∈ side 0 i s l := hp.mem_iff.2 (by simp)
    obtain ⟨b, hb, hbN⟩ := List.mem_map.1 hm
    have : N ∈ l := hbN ▸ cubeAt_mem ((h.cubes hN) l hl).1 (mem_cubeIndices.1 (List.mem_filter.1 hb).1)
    exact absurd ((h.used N).1 ⟨l, hl, this⟩) (by omega)
  · by_contra hc
    push Not at hc
    obtain ⟨l, hl, hv⟩ := (h.used (t.nElements 0)).2 hc
    exact absurd (hlt l hl _ hv) (by omega)

/-- the two edges at a vertex -/
theorem at_vertex (h : ClosedPolygon N edges c) (hN : 3 ≤ N) (k : Nat) :
    (edges.filter fun l => l.contains (c (k + 1))).Perm [[c k, c (k + 1)], [c (k + 1), c (k + 2)]] := by
  have hg : ∀ i, (fun i => [c i, c (i + 1)]) (i + N) = (fun i => [c i, c (i + 1)]) i := by
    intro i
    simp only
    rw [h.next, show i + N + 1 = (i + 1) + N by omega, h.next]
  have hp := (h.edges.trans (range_shift hg k).symm).filter fun l => l.contains (c (k + 1))
  refine hp.trans ?_
  obtain ⟨M, rfl⟩ : ∃ M, N = M + 2 := ⟨N - 2, by omega⟩
  rw [List.range_succ_eq_map, List.range_succ_eq_map]
  simp only [List.map_cons, List.map_map, List.filter_cons]
  rw [if_pos (by simp), if_pos (by simp; left; congr 1; omega)]
  rw [List.filter_eq_nil_iff.2]
  · simp only [Nat.succ_eq_add_one, Nat.zero_add]
    rw [show 1 + k = k + 1 by omega, show k + 1 + 1 = k + 2 by omega]
  · intro l hl
    obtain ⟨i, hi, rfl⟩ := List.mem_map.1 hl
    have hi := List.mem_range.1 hi
    simp only [Function.comp, Nat.succ_eq_add_one, List.contains_cons, List.contains_nil, Bool.or_false, Bool.or_eq_true,
      beq_iff_eq, not_or]
    constructor
    · intro e
      have h1 := (h.period _ _).1 e
      rw [show i + 1 + 1 + k = k + (i + 2) by omega] at h1
      have := Nat.ModEq.eq_of_lt_of_lt (Nat.ModEq.add_left_cancel' k h1) (by omega) (by omega)
      omega
    · intro e
      have h1 := (h.period _ _).1 e
      rw [show i + 1 + 1 + k + 1 = k + 1 + (i + 2) by omega] at h1
      have h2 : k + 1 + 0 ≡ k + 1 + (i + 2) [MOD M + 2] := h1
      have := Nat.ModEq.eq_of_lt_of_lt (Nat.ModEq.add_left_cancel' (k + 1) h2) (by omega) (by omega)
      omega

end Spec.ClosedPolygon

end Verif
