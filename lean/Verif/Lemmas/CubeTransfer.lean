/-
The transfer matrices of `subdivide_cubical`: which fine elements lie in which coarse elements.
-/
import Verif.Lemmas.CubeCount
import Verif.Lemmas.LoopTransfer
import Verif.Props.CubicalSub

set_option linter.unusedSectionVars false

namespace Verif

open Verif.Model Verif.Spec

theorem corner_count_zero : ∀ {p b : List Bool}, b.length = p.length → ((corner (p.map Bool.toNat) b).count 1 = 0 ↔ b = p)
  | [], b, h => by
    obtain rfl := List.length_eq_zero_iff.1 h
    simp [corner]
  | a :: p, [], h => by simp at h
  | a :: p, c :: b, h => by
    have ih := corner_count_zero (p := p) (b := b) (by simpa using h)
    unfold corner at ih ⊢
    simp only [List.map_cons, List.zipWith_cons_cons, List.count_cons, List.cons.injEq, Nat.add_eq_zero_iff, ih]
    cases a <;> cases c <;> simp

theorem corner_count_full : ∀ {p b : List Bool}, b.length = p.length →
    ((corner (p.map Bool.toNat) b).count 1 = p.length ↔ b = p.map not)
  | [], b, h => by
    obtain rfl := List.length_eq_zero_iff.1 h
    simp [corner]
  | a :: p, [], h => by simp at h
  | a :: p, c :: b, h => by
    have ih := corner_count_full (p := p) (b := b) (by simpa using h)
    have hle : (corner (p.map Bool.toNat) b).count 1 ≤ p.length := by
      refine (List.count_le_length).trans ?_
      simp [corner]
    have hc : corner ((a :: p).map Bool.toNat) (c :: b) = (a.toNat + c.toNat) :: corner (p.map Bool.toNat) b := rfl
    rw [hc, List.count_cons, List.map_cons, List.cons.injEq, ← ih]
    generalize (corner (p.map Bool.toNat) b).count 1 = c' at hle
    cases a <;> cases c <;> simp [List.length_cons] <;> omega

theorem corner_not : ∀ (p : List Bool), corner (p.map Bool.toNat) (p.map not) = List.replicate p.length 1
  | [] => rfl
  | a :: p => by
    have ih := corner_not p
    unfold corner at ih ⊢
    simp only [List.map_cons, List.zipWith_cons_cons, ih, List.length_cons, List.replicate_succ]
    cases a <;> rfl

/-- an open box with a corner off the middle of all axes extends along all axes -/
theorem free_of_count_zero : ∀ {B : Box} {b : List Bool}, OpenBox B → (point B b).count 1 = 0 → free B = B.length
  | [], _, _, _ => rfl
  | (a, false) :: B, b, ho, h => by
    have := (OpenBox.cons.1 ho).1
    simp at this
    simp [point, this] at h
  | (a, true) :: B, b, ho, h => by
    simp only [point, List.count_cons, Nat.add_eq_zero_iff] at h
    simp [free, free_of_count_zero (OpenBox.cons.1 ho).2 h.1]

theorem filter_eq_singleton {α : Type} {L : List α} (hn : L.Nodup) {f : α → Bool} {a : α} (ha : a ∈ L)
    (hf : ∀ b ∈ L, f b = true ↔ b = a) : L.filter f = [a] := by
  classical
  rw [List.filter_congr (q := fun b => decide (b = a)) (fun b hb => by rw [Bool.eq_iff_iff]; simpa using hf b hb)]
  clear hf
  induction L with
  | nil => simp at ha
  | cons x L ih =>
    rw [List.nodup_cons] at hn
    rw [List.filter_cons]
    rcases List.mem_cons.1 ha with rfl | ha
    · simp only [decide_true, if_true]
      congr 1
      rw [List.filter_eq_nil_iff]
      intro b hb
      simp only [decide_eq_true_eq]
      rintro rfl
      exact hn.1 hb
    · have : x ≠ a := by rintro rfl; exact hn.1 ha
      simp only [this, decide_false, Bool.false_eq_true, if_false]
      exact ih hn.2 ha

section

variable {n : Nat} {top : List (List Nat)} {t : Topo} {uniq : List (List Nat) → List (List Nat)} {s : Topo}

theorem sum_take_eq (t : Topo) : ∀ {m : Nat}, m ≤ t.elements.length →
    ((t.elements.map List.length).take m).sum = levelOffset t m
  | 0, _ => rfl
  | m + 1, h => by
    have ih := sum_take_eq t (m := m) (by omega)
    have : levelOffset t (m + 1) = levelOffset t m + t.nElements m := offs_succ t.nElements m
    rw [List.take_succ_eq_append_getElem (by simp; omega), List.sum_append, ih, this]
    simp [Topo.nElements, List.getElem?_eq_getElem (show m < t.elements.length by omega)]

theorem relation_vertex (w : CWF n top t) {m r : Nat} (hm : m ≤ n) (hr : r < t.nElements m) :
    cubicalRelation (t.elements.map List.length) (levelOffset t m + r) = (m, (r : Int)) := by
  have hlen := w.lenE
  rw [← sum_take_eq t (by omega)]
  refine Props.C17_decode_encode _ m r (t.nElements m) ?_ hr
  rw [List.getElem?_map, List.getElem?_eq_getElem (by omega)]
  simp [Topo.nElements, List.getElem?_eq_getElem (show m < t.elements.length by omega)]

/-- the decoded corners of a cell -/
theorem relation_cell (w : CWF n top t) (hn : 1 ≤ n) {K i : Nat} {e : List Nat} (hK : K ≤ n) (he : Stored t K i e)
    {B : Box} (hB : InCube B) (hlen : B.length = K) {b : List Bool} :
    ∃ r : Nat, cubicalRelation (t.elements.map List.length) (vnum t K i (gridFace e (point B b))) =
      ((point B b).count 1, (r : Int)) ∧ (point B b = List.replicate K 1 → r = i) := by
  obtain ⟨i', e', h1, h2, h3, h4⟩ := vnum_gridFace w hn hK he (point_isPoint b hB) (by rw [point_length, hlen])
  refine ⟨i', ?_, h3⟩
  rw [h4, relation_vertex w _ h1.lt]
  have := List.count_le_length (a := 1) (l := point B b)
  rw [point_length] at this
  omega

/-- what `subdivide_cubical_transfers` reads off the corners of a fine element -/
theorem relation_isCell (w : CWF n top t) (hn : 1 ≤ n) {e' : List Nat} {k K i : Nat} {B : Box} (hK : K ≤ n)
    (hl : e'.length = 2 ^ k) (h : IsCell t e' k K i B) :
    ((e'.map (cubicalRelation (t.elements.map List.length))).filter fun x => x.1 == 0).length = (if K = k then 1 else 0) ∧
    (K = k → ((e'.map (cubicalRelation (t.elements.map List.length))).filter fun x => x.1 == k).map (fun x => x.2.toNat) =
      [i]) := by
  obtain ⟨e, h1, h2, h3, h4, h5, τ, hτ⟩ := h
  set ρ := cubicalRelation (t.elements.map List.length) with hρ
  have hperm := hτ.perm hl
  have hmap : ∀ m : Nat, (((e'.map ρ).filter fun x => x.1 == m)).Perm
      (((cubeIndices (free B)).filter fun b => (point B b).count 1 == m).map fun b => ρ (vnum t K i (gridFace e (point B b)))) := by
    intro m
    have h6 := (hperm.symm.map ρ).filter (fun x => x.1 == m)
    refine h6.trans (List.Perm.of_eq ?_)
    unfold cell cubeOf
    rw [List.map_map, List.filter_map]
    congr 1
    refine List.filter_congr fun b _ => ?_
    obtain ⟨r, hr, -⟩ := relation_cell w hn hK h1 h3 h2 (b := b)
    simp only [Function.comp_apply]
    rw [hρ, hr]
  constructor
  · rw [(hmap 0).length_eq, List.length_map]
    split
    · next hKk =>
      obtain ⟨p, hp, rfl⟩ := cellBox_of_free h3 (by omega)
      rw [cellBox_length, List.length_map] at hp h2
      rw [filter_eq_singleton (cubeIndices_nodup _) (a := p)]
      · rfl
      · rw [mem_cubeIndices, cellBox_free, List.length_map]
      · intro b hb
        rw [mem_cubeIndices, cellBox_free, List.length_map] at hb
        rw [beq_iff_eq, point_cellBox (by simpa using hb), corner_count_zero hb]
    · next hKk =>
      rw [List.length_eq_zero_iff, List.filter_eq_nil_iff]
      intro b _ hb
      rw [beq_iff_eq] at hb
      have := free_of_count_zero h4 hb
      omega
  · intro hKk
    have hf : free B = B.length := by omega
    obtain ⟨p, hp, rfl⟩ := cellBox_of_free h3 hf
    rw [cellBox_length, List.length_map] at hp h2
    have hsing : ((cubeIndices (free (cellBox (p.map Bool.toNat)))).filter
        fun b => (point (cellBox (p.map Bool.toNat)) b).count 1 == k) = [p.map not] := by
      apply filter_eq_singleton (cubeIndices_nodup _)
      · rw [mem_cubeIndices, cellBox_free, List.length_map, List.length_map]
      · intro b hb
        rw [mem_cubeIndices, cellBox_free, List.length_map] at hb
        rw [beq_iff_eq, point_cellBox (by simpa using hb), show k = p.length by omega, corner_count_full hb]
    have h7 := hmap k
    rw [hsing, List.map_cons, List.map_nil] at h7
    rw [List.perm_singleton.1 h7]
    obtain ⟨r, hr, hri⟩ := relation_cell w hn hK h1 h3 (by simp [cellBox]; omega) (b := p.map not)
    rw [List.map_cons, List.map_nil, hρ, hr]
    rw [point_cellBox (by simp), corner_not] at hri
    rw [hri (by rw [h2])]
    rfl

theorem flatMap_if_range (P : Nat → Prop) [DecidablePred P] {α : Type} (L : List α) :
    L.zipIdx.flatMap (fun ri => if P ri.2 then [ri.2] else []) = (List.range L.length).filter (fun x => decide (P x)) := by
  have h : ∀ (L : List α) (k : Nat), (L.zipIdx k).flatMap (fun ri => if P ri.2 then [ri.2] else []) =
      (List.range' k L.length).filter (fun x => decide (P x)) := by
    intro L
    induction L with
    | nil => intro k; rfl
    | cons a L ih =>
      intro k
      rw [List.zipIdx_cons, List.flatMap_cons, ih, List.length_cons, List.range'_succ, List.filter_cons]
      by_cases hp : P k <;> simp [hp]
  rw [h L 0, ← List.range_eq_range']

/-- the transfer matrix: one where the fine element lies in the coarse one -/
theorem transfer_entry (hu : UniqSpec uniq) (w : CWF n top t) (hn : 1 ≤ n) (hs : fromCubes uniq true n (allFine t n top) = .ok s)
    {k : Nat} (hk : k ≤ n) {x K i : Nat} {e' : List Nat} {B : Box} (hx : Stored s k x e') (hK : K ≤ n)
    (hc : IsCell t e' k K i B) (j nr nc : Nat) :
    let fc := cubicalTransfer (t.elements.map List.length) k (s.elements[k]?.getD [])
    (transferMatrix fc.1 fc.2 nr nc).entry x j = if K = k ∧ i = j then 1 else 0 := by
  intro fc
  have ws := fromCubes_wf hu (allFine_cubes w hn) hs
  classical
  set rows := s.elements[k]?.getD [] with hrows
  set ρ := cubicalRelation (t.elements.map List.length) with hρ
  -- fine elements that lie in coarse elements of the same dimension
  let P : Nat → Prop := fun x => ∃ e' i B, Stored s k x e' ∧ IsCell t e' k k i B
  have hlev : ∀ {x : Nat} {e' : List Nat}, Stored s k x e' →
      ((e'.map ρ).filter fun x => x.1 == 0).length = (if P x then 1 else 0) := by
    intro x e' hx
    obtain ⟨K, hK, i, B, hc⟩ := fine_isCell hu w hn hs hk hx
    have hl := (ws.cube hn hk hx).1
    rw [(relation_isCell w hn hK hl hc).1]
    by_cases hKk : K = k
    · subst hKk
      rw [if_pos rfl, if_pos ⟨e', i, B, hx, hc⟩]
    · rw [if_neg hKk, if_neg]
      rintro ⟨e2, i2, B2, h1, h2⟩
      obtain rfl := hx.unique h1
      exact hKk (IsCell.unique w hn hK hk hl hl (List.Perm.refl _) hc h2).1
  have hf : fc.1 = (List.range rows.length).filter (fun x => decide (P x)) := by
    have hz : (rows.map fun e => e.map ρ).length = rows.length := by simp
    rw [← hz, ← flatMap_if_range P (rows.map fun e => e.map ρ)]
    simp only [fc, cubicalTransfer]
    rw [List.flatMap_def, List.flatMap_def]
    congr 1
    refine List.map_congr_left ?_
    rintro ⟨r, x⟩ hrx
    have hm := List.mem_zipIdx hrx
    obtain ⟨-, hm1, hm2⟩ := hm
    have hxl : x < rows.length := by simpa using hm1
    have hst : Stored s k x (rows[x]'hxl) := List.getElem?_eq_getElem _
    have h1 := hlev hst
    have hr : r = (rows[x]'hxl).map ρ := by simpa using hm2
    simp only
    rw [hr, List.map_const', h1]
    split <;> rfl
  have hpar : ∀ {x e' i B}, Stored s k x e' → IsCell t e' k k i B →
      ((((rows.map fun e => e.map ρ)[x]?.getD []).filter fun x => x.1 == k).map fun x => x.2.toNat) = [i] := by
    intro x e' i B hx hc
    rw [List.getElem?_map, show rows[x]? = some e' from hx, Option.map_some, Option.getD_some]
    exact (relation_isCell w hn hk (ws.cube hn hk hx).1 hc).2 rfl
  let q : Nat → Nat := fun x => ((((rows.map fun e => e.map ρ)[x]?.getD []).filter fun x => x.1 == k).map fun x => x.2.toNat).headD 0
  have hcq : fc.2 = fc.1.map q := by
    have : fc.2 = fc.1.flatMap fun x =>
        (((rows.map fun e => e.map ρ)[x]?.getD []).filter fun x => x.1 == k).map fun x => x.2.toNat := rfl
    rw [this, List.flatMap_def, hf, List.map_congr_left (g := fun x => [q x])]
    · rw [← List.flatMap_def]
      exact (List.map_eq_flatMap ..).symm
    · intro x hx
      obtain ⟨-, hP⟩ := List.mem_filter.1 hx
      obtain ⟨e', i, B, h1, h2⟩ := of_decide_eq_true hP
      simp only [q]
      rw [hpar h1 h2]
      rfl
  have hnd : fc.1.Nodup := by
    rw [hf]
    exact List.nodup_range.filter _
  have hl := (ws.cube hn hk hx).1
  by_cases hP : P x
  · obtain ⟨e2, i2, B2, h1, h2⟩ := hP
    obtain rfl := hx.unique h1
    obtain ⟨rfl, rfl, rfl⟩ := IsCell.unique w hn hK hk hl hl (List.Perm.refl _) hc h2
    have hm : x ∈ fc.1 := by
      rw [hf, List.mem_filter, List.mem_range]
      exact ⟨hx.lt, decide_eq_true ⟨e', i, B, hx, hc⟩⟩
    obtain ⟨m, hm⟩ := List.mem_iff_getElem?.1 hm
    have hq : q x = i := by
      simp only [q]
      rw [hpar hx hc]
      rfl
    rw [transferMatrix_entry hnd (by rw [hcq, List.length_map]) hm, hcq, List.getElem?_map, hm, Option.map_some, hq]
    simp
  · rw [transferMatrix_zero, if_neg]
    · rintro ⟨rfl, -⟩
      exact hP ⟨e', i, B, hx, hc⟩
    · rw [hf, List.mem_filter]
      rintro ⟨-, h⟩
      exact hP (of_decide_eq_true h)

end

end Verif
