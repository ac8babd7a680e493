/-
Subdivision and smoothing of closed polygons.
-/
import Verif.Lemmas.PolygonOrient
import Verif.Model.Circle

namespace Verif

open Verif.Model Verif.Spec Verif.Props

variable {uniq : List (List Nat) → List (List Nat)} {N : Nat} {edges : List (List Nat)} {t : Topo} {c : Nat → Nat}

/-- the edges of a subdivided polygon -/
def fineEdges (N : Nat) (edges : List (List Nat)) : List (List Nat) :=
  (List.range edges.length).flatMap fun j =>
    [[(edges[j]?.getD [])[0]?.getD 0, N + j], [N + j, (edges[j]?.getD [])[1]?.getD 0]]

/-- the way around a subdivided polygon -/
def fineRound (N : Nat) (edges : List (List Nat)) (c : Nat → Nat) (k : Nat) : Nat :=
  if k % 2 = 0 then c (k / 2) else N + edges.idxOf [c (k / 2), c (k / 2 + 1)]

theorem fineRound_even (N : Nat) (edges : List (List Nat)) (c : Nat → Nat) (k : Nat) : fineRound N edges c (2 * k) = c k := by
  unfold fineRound
  rw [if_pos (by omega), show 2 * k / 2 = k by omega]

theorem fineRound_odd (N : Nat) (edges : List (List Nat)) (c : Nat → Nat) (k : Nat) :
    fineRound N edges c (2 * k + 1) = N + edges.idxOf [c k, c (k + 1)] := by
  unfold fineRound
  rw [if_neg (by omega), show (2 * k + 1) / 2 = k by omega]

theorem subdivideCubes_edges (wf : CWF 1 edges t) (hc : Cubes 1 edges) :
    ∃ S, subdivideCubes t = .ok S ∧ S.flatten = fineEdges (t.nElements 0) edges := by
  refine ⟨edges.zipIdx.map fun lj => [[lj.1[0]?.getD 0, t.nElements 0 + lj.2], [t.nElements 0 + lj.2, lj.1[1]?.getD 0]], ?_, ?_⟩
  · unfold subdivideCubes
    simp only [wf.lenB, wf.top_eq, Option.getD_some]
    refine mapM_ok _ _ _ ?_
    rintro ⟨l, j⟩ hlj
    have hl := (hc l (List.mem_of_getElem? (List.mem_zipIdx_iff_getElem?.1 hlj))).1
    obtain ⟨a, b, rfl⟩ := List.length_eq_two.1 hl
    have h1 : domainTables t.elements 1 [a, b] = .ok [] := rfl
    simp only [h1, bind, Except.bind]
    congr 1
    have o0 : levelOffset t 0 = 0 := rfl
    have o1 : levelOffset t 1 = t.nElements 0 := by simp [levelOffset]
    have e0 : flipAxes 1 [false] (cubeOf 1 fun b' => domainAt j [a, b] [] [false] b' + levelOffset t (b'.count true)) =
        [a + levelOffset t 0, j + levelOffset t 1] := rfl
    have e1 : flipAxes 1 [true] (cubeOf 1 fun b' => domainAt j [a, b] [] [true] b' + levelOffset t (b'.count true)) =
        [j + levelOffset t 1, b + levelOffset t 0] := rfl
    have hi : cubeIndices 1 = [[false], [true]] := rfl
    rw [hi]
    simp only [List.map_cons, List.map_nil]
    rw [e0, e1, o0, o1]
    simp [Nat.add_comm]
  · unfold fineEdges
    rw [List.flatten_eq_flatMap, List.flatMap_map]
    have : edges.zipIdx = (List.range edges.length).map fun j => (edges[j]?.getD [], j) := by
      apply List.ext_getElem
      · simp
      · intro i h1 h2
        simp at h1
        simp [h1]
    rw [this, List.flatMap_map]
    simp

namespace Spec.ClosedPolygon

theorem idxOf_lt (h : ClosedPolygon N edges c) (k : Nat) : edges.idxOf [c k, c (k + 1)] < N := by
  rw [← h.length]
  exact List.idxOf_lt_length_of_mem (h.mem k)

theorem idxOf_inj (h : ClosedPolygon N edges c) {k l : Nat} :
    edges.idxOf [c k, c (k + 1)] = edges.idxOf [c l, c (l + 1)] ↔ k ≡ l [MOD N] := by
  rw [← h.period]
  constructor
  · intro e
    have := (List.idxOf_inj (h.mem k)).1 e
    exact (List.cons.inj this).1
  · intro e
    rw [e, (h.period (k + 1) (l + 1)).2 (((h.period _ _).1 e).add_right 1)]

theorem fine (h : ClosedPolygon N edges c) : ClosedPolygon (2 * N) (fineEdges N edges) (fineRound N edges c) := by
  have hpar : ∀ k, (∃ a, k = 2 * a) ∨ ∃ a, k = 2 * a + 1 := fun k => by
    rcases Nat.even_or_odd' k with ⟨a, ha | ha⟩
    · exact Or.inl ⟨a, ha⟩
    · exact Or.inr ⟨a, ha⟩
  have hpos := h.pos
  refine ⟨fun k => ?_, fun k l => ?_, ?_⟩
  · rcases hpar k with ⟨a, rfl⟩ | ⟨a, rfl⟩
    · rw [fineRound_even]; have := h.lt a; omega
    · rw [fineRound_odd]; have := h.idxOf_lt a; omega
  · rcases hpar k with ⟨a, rfl⟩ | ⟨a, rfl⟩ <;> rcases hpar l with ⟨b, rfl⟩ | ⟨b, rfl⟩
    · rw [fineRound_even, fineRound_even, h.period]
      exact ⟨fun e => Nat.ModEq.mul_left' 2 e, fun e => Nat.ModEq.mul_left_cancel' (by omega) e⟩
    · rw [fineRound_even, fineRound_odd]
      refine ⟨fun e => ?_, fun e => ?_⟩
      · have := h.lt a; omega
      · have := e.of_mul_right N
        unfold Nat.ModEq at this
        omega
    · rw [fineRound_even, fineRound_odd]
      refine ⟨fun e => ?_, fun e => ?_⟩
      · have := h.lt b; omega
      · have := e.of_mul_right N
        unfold Nat.ModEq at this
        omega
    · rw [fineRound_odd, fineRound_odd, Nat.add_left_cancel_iff, h.idxOf_inj]
      exact ⟨fun e => (Nat.ModEq.mul_left' 2 e).add_right 1,
        fun e => Nat.ModEq.mul_left_cancel' (by omega) (Nat.ModEq.add_right_cancel' 1 e)⟩
  · have hπ : ((List.range N).map fun k => edges.idxOf [c k, c (k + 1)]).Perm (List.range N) := by
      apply List.Subperm.perm_of_length_le
      · apply List.subperm_of_subset
        · refine List.Nodup.map_on ?_ List.nodup_range
          intro x hx y hy e
          exact Nat.ModEq.eq_of_lt_of_lt (h.idxOf_inj.1 e) (List.mem_range.1 hx) (List.mem_range.1 hy)
        · intro x hx
          obtain ⟨k, -, rfl⟩ := List.mem_map.1 hx
          exact List.mem_range.2 (h.idxOf_lt k)
      · simp
    unfold fineEdges
    rw [h.length]
    refine (hπ.symm.flatMap_right _).trans ?_
    rw [List.flatMap_map, ← range_double]
    apply List.Perm.of_eq
    apply List.flatMap_congr
    intro k _
    have hm := h.mem k
    have hget : edges[edges.idxOf [c k, c (k + 1)]]? = some [c k, c (k + 1)] := by
      rw [List.getElem?_eq_getElem (List.idxOf_lt_length_of_mem hm), List.getElem_idxOf]
    rw [hget, fineRound_even, fineRound_odd, show 2 * k + 1 + 1 = 2 * (k + 1) by omega, fineRound_even]
    rfl

/-- what smoothing does to a polygon -/
theorem smoothed_eq {K : Type} [Field K] [CharZero K] (h : ClosedPolygon N edges c) (hN : 3 ≤ N) (hu : UniqSpec uniq)
    (ht : fromCubes uniq true 1 edges = .ok t) (x : Nat → K) (k : Nat) :
    smoothed t 1 [] x (fun k i => mean (((t.elements[k]?.getD [])[i]?.getD []).map x)) (c (k + 1)) =
      (x (c k) + 2 * x (c (k + 1)) + x (c (k + 2))) / 4 := by
  have wf := fromCubes_wf hu (h.cubes (by omega)) ht
  have hperm : ∀ y : List Nat → K, ((creasesAt t 1 [] 1 (c (k + 1))).map fun i =>
      y ((t.elements[1]?.getD [])[i]?.getD [])).Perm [y [c k, c (k + 1)], y [c (k + 1), c (k + 2)]] := by
    intro y
    have h1 : (creasesAt t 1 [] 1 (c (k + 1))).map (fun i => (t.elements[1]?.getD [])[i]?.getD []) =
        edges.filter fun l => l.contains (c (k + 1)) := by
      unfold creasesAt Topo.nElements
      rw [wf.top_eq, Option.getD_some]
      have hid : edges = (List.range edges.length).map fun i => edges[i]?.getD [] := by
        apply List.ext_getElem
        · simp
        · intro i h1 h2
          simp [h1]
      conv_rhs => rw [hid]
      rw [List.filter_map]
      congr 1
    have := (h.at_vertex hN k).map y
    rw [← h1, List.map_map] at this
    exact this
  have hlevel : creaseLevel t 1 [] (c (k + 1)) = some 1 := by
    have h0 : creasesAt t 1 [] 0 (c (k + 1)) = [] := by
      unfold creasesAt
      rw [List.filter_eq_nil_iff]
      intro i _
      simp [isCrease]
    have h1 : (creasesAt t 1 [] 1 (c (k + 1))).isEmpty = false := by
      have := (hperm fun _ => 0).length_eq
      rw [List.length_map] at this
      cases hz : creasesAt t 1 [] 1 (c (k + 1)) with
      | nil => rw [hz] at this; simp at this
      | cons a l => rfl
    unfold creaseLevel
    rw [show List.range (1 + 1) = [0, 1] from rfl, List.find?_cons, List.find?_cons, h0, h1]
    rfl
  unfold smoothed
  rw [hlevel]
  simp only
  have hp := hperm fun l => mean (l.map x)
  unfold mean at hp ⊢
  rw [hp.sum_eq, hp.length_eq]
  simp
  ring

end Spec.ClosedPolygon

end Verif
