/-
The metric of regular complexes: the sums over the parts of the cubes.
-/
import Verif.Lemmas.RegularBox

set_option linter.unusedSectionVars false

namespace Verif

open Verif.Model Verif.Spec

variable {K : Type} [Field K] [LinearOrder K] [IsStrictOrderedRing K] {n : Nat} {top : List (List Nat)} {t : Topo}

/-- the parts of the cubes: a cube with its number, and a corner -/
def cubeParts (n : Nat) (top : List (List Nat)) : List ((List Nat × Nat) × List Bool) :=
  top.zipIdx.flatMap fun lj => (cubeIndices n).map fun p => (lj, p)

theorem mem_cubeParts {r : (List Nat × Nat) × List Bool} : r ∈ cubeParts n top ↔ top[r.1.2]? = some r.1.1 ∧ r.2.length = n := by
  obtain ⟨⟨l, j⟩, p⟩ := r
  simp only [cubeParts, List.mem_flatMap, List.mem_map, Prod.mk.injEq, mem_cubeIndices]
  constructor
  · rintro ⟨lj, h1, p', h2, rfl, rfl⟩
    exact ⟨List.mem_zipIdx_iff_getElem?.1 h1, h2⟩
  · rintro ⟨h1, h2⟩
    exact ⟨(l, j), List.mem_zipIdx_iff_getElem?.2 h1, p, h2, rfl, rfl⟩

/-- the number of the element at corner `b` of a part -/
def domOf (t : Topo) (n : Nat) (r : (List Nat × Nat) × List Bool) (b : List Bool) : Nat :=
  vnum t n r.1.2 (gridFace r.1.1 (partPoint r.2 b)) - levelOffset t (b.count true)

theorem domOf_spec (w : CWF n top t) (hn : 1 ≤ n) {r : (List Nat × Nat) × List Bool} (hr : r ∈ cubeParts n top) {b : List Bool}
    (hb : b.length = n) : ∃ e, Stored t (b.count true) (domOf t n r b) e ∧ (gridFace r.1.1 (partPoint r.2 b)).Perm e ∧
      (b.count true = n → domOf t n r b = r.1.2) := by
  obtain ⟨h1, h2⟩ := mem_cubeParts.1 hr
  have hcnt : (partPoint r.2 b).count 1 = b.count true := partPoint_count (by omega)
  obtain ⟨i, e, g1, g2, g3, g4⟩ := vnum_gridFace w hn (le_refl n) ((stored_top w).2 h1) (partPoint_isPoint r.2 b)
    (partPoint_length h2 hb)
  rw [hcnt] at g1 g4
  have : domOf t n r b = i := by
    unfold domOf
    rw [g4, Nat.add_sub_cancel_left]
  rw [this]
  refine ⟨e, g1, g2, fun hbn => g3 ?_⟩
  exact count_eq_length (partPoint_length h2 hb) (by rw [hcnt, hbn])

theorem domOf_iff (w : CWF n top t) (hn : 1 ≤ n) {r : (List Nat × Nat) × List Bool} (hr : r ∈ cubeParts n top) {b : List Bool}
    (hb : b.length = n) (hbn : b.count true < n) {i : Nat} {e : List Nat} (he : Stored t (b.count true) i e) :
    domOf t n r b = i ↔ (gridFace r.1.1 (partPoint r.2 b)).Perm e := by
  obtain ⟨e', h1, h2, -⟩ := domOf_spec w hn hr hb
  constructor
  · intro h
    rw [h] at h1
    rwa [h1.unique he] at h2
  · intro h
    have hd := (w.get hbn).2.2.1
    rw [← idxOf_stored hd h1 h2, idxOf_stored hd he h]

theorem cubicalDomains_ok (w : CWF n top t) (hn : 1 ≤ n) :
    cubicalDomains t = .ok ((cubeParts n top).map fun r => (cubeIndices n).map (domOf t n r)) := by
  unfold cubicalDomains
  simp only [w.lenB, w.top_eq, Option.getD_some]
  rw [mapM_ok _ (fun lj => (cubeIndices n).map fun p => (cubeIndices n).map (domOf t n (lj, p)))]
  · show Except.ok _ = _
    congr 1
    unfold cubeParts
    rw [List.map_flatMap, List.flatMap_def]
    congr 1
    refine List.map_congr_left fun lj _ => ?_
    rw [List.map_map]
    rfl
  · intro lj hlj
    have hst := (stored_top w).2 (List.mem_zipIdx_iff_getElem?.1 hlj)
    obtain ⟨tables, h1, -⟩ := domainTables_ok w hn hst
    rw [h1]
    show Except.ok _ = _
    congr 1
    refine List.map_congr_left fun p hp => List.map_congr_left fun b hb => ?_
    have := domainAt_eq w hn hst h1 (mem_cubeIndices.1 hp) (mem_cubeIndices.1 hb)
    unfold domOf partPoint
    rw [← this, Nat.add_sub_cancel]

theorem domainPositions_ok (w : CWF n top t) (hn : 1 ≤ n) {V : List (Vec K n)} :
    domainPositions n (t.elements.map fun rows => rows.map (centerOf V))
      ((cubeParts n top).map fun r => (cubeIndices n).map (domOf t n r)) =
    .ok ((cubeParts n top).map fun r => (cubeIndices n).map fun b => centerOf V (gridFace r.1.1 (partPoint r.2 b))) := by
  unfold domainPositions
  rw [List.mapM_map]
  refine mapM_ok _ _ _ fun r hr => ?_
  have hz : (cubeIndices n).zip ((cubeIndices n).map (domOf t n r)) = (cubeIndices n).map fun b => (b, domOf t n r b) := by
    have := List.zip_map' (f := id) (g := domOf t n r) (l := cubeIndices n)
    rw [List.map_id] at this
    exact this
  simp only [Function.comp_apply]
  rw [hz, List.mapM_map]
  refine mapM_ok _ _ _ fun b hb => ?_
  obtain ⟨e, h1, h2, -⟩ := domOf_spec w hn hr (mem_cubeIndices.1 hb)
  unfold Stored at h1
  simp only [Function.comp_apply, List.getElem?_map]
  cases hE : t.elements[b.count true]? with
  | none => rw [hE] at h1; simp at h1
  | some E =>
    rw [hE] at h1
    have h1 : E[domOf t n r b]? = some e := h1
    simp only [Option.map_some]
    unfold vertexAt
    rw [List.getElem?_map, h1, centerOf_perm h2]
    rfl

/-! ### sums -/

theorem sum_where {α : Type} (p : α → Bool) (f : α → K) (L : List α) :
    ((L.filter p).map f).sum = (L.map fun x => if p x then f x else 0).sum := by
  induction L with
  | nil => rfl
  | cons x L ih =>
    rw [List.filter_cons, List.map_cons, List.sum_cons, ← ih]
    split <;> simp_all

theorem sum_list_comm {ι κ : Type} (l : List ι) (m : List κ) (f : ι → κ → K) :
    (l.map fun i => (m.map fun j => f i j).sum).sum = (m.map fun j => (l.map fun i => f i j).sum).sum := by
  induction l with
  | nil => simp
  | cons a l ih => simp [ih, List.sum_map_add]

theorem sum_zipIdx_where (L : List (List Nat)) (p : List Nat → Bool) (C : Nat → K) :
    (L.zipIdx.map fun lj => if p lj.1 then C lj.2 else 0).sum =
      (((List.range L.length).filter fun j => p (L[j]?.getD [])).map C).sum := by
  rw [sum_where]
  congr 1
  apply List.ext_getElem?
  intro j
  rw [List.getElem?_map, List.getElem?_map, List.getElem?_zipIdx]
  rcases Nat.lt_or_ge j L.length with h | h
  · rw [List.getElem?_range h, List.getElem?_eq_getElem h]
    simp [List.getElem?_eq_getElem h]
  · rw [List.getElem?_eq_none h, List.getElem?_eq_none (by simpa using h)]
    rfl

/-- the parts of a cube at a face of it -/
theorem sum_cube {k : Nat} (hk : k ≤ n) {l e : List Nat} (hl : l.length = 2 ^ n) (hnd : l.Nodup) (he : e.length = 2 ^ k) (C : K) :
    ((cubeIndices n).map fun c => ((cubeIndices n).map fun p =>
      if (gridFace l (partPoint p c)).Perm e then C else 0).sum).sum = if hasFace (n - k) k l e then 2 ^ k * C else 0 := by
  rw [sum_partPoint n fun x => if (gridFace l x).Perm e then C else 0]
  have hiff := hasFace_iff he (d := n - k) (l := l) (by rw [hl]; congr 1; omega) hnd
  rw [show k + (n - k) = n by omega] at hiff
  split
  · next h =>
    obtain ⟨x, x1, x2, x3⟩ := hiff.1 h
    rw [sum_unique (points_nodup n) (mem_points.2 ⟨x1, x2⟩), if_pos x3, faceOf_length x1 he x3]
    intro y hy hne
    obtain ⟨y1, y2⟩ := mem_points.1 hy
    rw [if_neg, mul_zero]
    intro hyp
    exact hne (gridFace_perm_inj (by rw [hl, y2]) hnd y1 x1 (by omega) (hyp.trans x3.symm))
  · next h =>
    apply List.sum_eq_zero
    intro y hy
    obtain ⟨x, hx, rfl⟩ := List.mem_map.1 hy
    obtain ⟨x1, x2⟩ := mem_points.1 hx
    rw [if_neg, mul_zero]
    intro hp
    exact h (hiff.2 ⟨x, x1, x2, hp⟩)

/-- the sum over the parts that have element `i` of dimension `k` at a corner -/
theorem sum_cubeParts (w : CWF n top t) (hn : 1 ≤ n) {k i : Nat} {e : List Nat} (hk : k < n) (he : Stored t k i e)
    (val : (List Nat × Nat) × List Bool → List Bool → K) (C : Nat → K)
    (hval : ∀ r ∈ cubeParts n top, ∀ c : List Bool, c.length = n → c.count true = k →
      (gridFace r.1.1 (partPoint r.2 c)).Perm e → val r c = C r.1.2) :
    (((cubeIndices n).filter fun c => c.count true = k).map fun c =>
      (((cubeParts n top).filter fun r => domOf t n r c = i).map fun r => val r c).sum).sum =
      ((cubesAround n k top e).map fun j => 2 ^ k * C j).sum := by
  have hel := (w.cube hn (by omega) he).1
  have h1 : ∀ c ∈ (cubeIndices n), (if decide (c.count true = k) then (((cubeParts n top).filter fun r => domOf t n r c = i).map fun r => val r c).sum
      else 0) = (top.zipIdx.map fun lj => ((cubeIndices n).map fun p => if (gridFace lj.1 (partPoint p c)).Perm e then C lj.2 else 0).sum).sum := by
    intro c hc
    have hcl := mem_cubeIndices.1 hc
    split
    · next hck =>
      have hck := of_decide_eq_true hck
      rw [sum_where]
      unfold cubeParts
      rw [List.map_flatMap, List.flatMap_def, List.sum_flatten, List.map_map]
      congr 1
      refine List.map_congr_left fun lj hlj => ?_
      rw [Function.comp_apply, List.map_map]
      congr 1
      refine List.map_congr_left fun p hp => ?_
      have hr : ((lj, p) : (List Nat × Nat) × List Bool) ∈ cubeParts n top :=
        mem_cubeParts.2 ⟨List.mem_zipIdx_iff_getElem?.1 hlj, mem_cubeIndices.1 hp⟩
      have hiff := domOf_iff w hn hr hcl (by omega) (i := i) (e := e) (by rw [hck]; exact he)
      rw [Function.comp_apply]
      simp only [decide_eq_true_eq]
      by_cases hp' : (gridFace lj.1 (partPoint p c)).Perm e
      · rw [if_pos (hiff.2 hp'), if_pos hp', hval _ hr c hcl hck hp']
      · rw [if_neg (fun h => hp' (hiff.1 h)), if_neg hp']
    · next hck =>
      symm
      apply List.sum_eq_zero
      intro y hy
      obtain ⟨lj, hlj, rfl⟩ := List.mem_map.1 hy
      apply List.sum_eq_zero
      intro y hy
      obtain ⟨p, hp, rfl⟩ := List.mem_map.1 hy
      rw [if_neg]
      intro hpe
      have hlen := hpe.length_eq
      rw [gridFace_length (partPoint_isPoint p c), partPoint_count (by rw [mem_cubeIndices.1 hp, hcl]), hel] at hlen
      exact hck (decide_eq_true (Nat.pow_right_injective (le_refl 2) hlen))
  rw [sum_where, List.map_congr_left h1, sum_list_comm]
  unfold cubesAround
  rw [← sum_zipIdx_where top (fun l => hasFace (n - k) k l e)]
  congr 1
  refine List.map_congr_left fun lj hlj => ?_
  obtain ⟨g1, g2⟩ := w.cube hn (le_refl n) ((stored_top w).2 (List.mem_zipIdx_iff_getElem?.1 hlj))
  exact sum_cube (by omega) g1 g2 hel _

/-! ### the corners but the first and the last -/

theorem cubeIndices_first : ∀ n : Nat, ∃ L, cubeIndices n = List.replicate n false :: L
  | 0 => ⟨[], rfl⟩
  | n + 1 => by
    obtain ⟨L, hL⟩ := cubeIndices_first n
    exact ⟨L.map (false :: ·) ++ (cubeIndices n).map (true :: ·), by rw [cubeIndices, hL]; rfl⟩

theorem cubeIndices_last : ∀ n : Nat, ∃ L, cubeIndices n = L ++ [List.replicate n true]
  | 0 => ⟨[], rfl⟩
  | n + 1 => by
    obtain ⟨L, hL⟩ := cubeIndices_last n
    refine ⟨(cubeIndices n).map (false :: ·) ++ L.map (true :: ·), ?_⟩
    rw [cubeIndices]
    conv_lhs => rw [hL]
    rw [hL]
    simp [List.replicate_succ]

theorem sum_inner (hn : 1 ≤ n) (level : List Bool → Bool) (h0 : level (List.replicate n false) = false)
    (h1 : level (List.replicate n true) = false) (f : List Bool × Nat → K) (F : List Bool → K)
    (hf : ∀ ci ∈ (cubeIndices n).zipIdx, f ci = F ci.1) :
    (((cubeIndices n).zipIdx.tail.dropLast.filter fun ci => level ci.1).map f).sum = (((cubeIndices n).filter level).map F).sum := by
  have hmem : ∀ ci ∈ (cubeIndices n).zipIdx.tail.dropLast, ci ∈ (cubeIndices n).zipIdx :=
    fun ci hci => List.mem_of_mem_tail (List.mem_of_mem_dropLast hci)
  rw [sum_where, sum_where, List.map_congr_left (g := fun ci => if level ci.1 then F ci.1 else 0)
    (fun ci hci => by rw [hf ci (hmem ci hci)])]
  have h2 : (cubeIndices n).zipIdx.tail.dropLast.map (fun ci => if level ci.1 then F ci.1 else 0) =
      (cubeIndices n).tail.dropLast.map fun c => if level c then F c else 0 := by
    have h3 : (cubeIndices n).tail.dropLast = (cubeIndices n).zipIdx.tail.dropLast.map Prod.fst := by
      rw [List.map_dropLast, List.map_tail, List.zipIdx_map_fst]
    rw [h3, List.map_map]
    rfl
  rw [h2]
  obtain ⟨L, hL⟩ := cubeIndices_first n
  obtain ⟨L', hL'⟩ := cubeIndices_last n
  have hLne : L ≠ [] := by
    rintro rfl
    have : (cubeIndices n).length = 1 := by rw [hL]; rfl
    rw [cubeIndices_length] at this
    have h4 : 2 ^ 1 ≤ 2 ^ n := Nat.pow_le_pow_right (by decide) hn
    omega
  have hlast : L = L.dropLast ++ [List.replicate n true] := by
    have h4 : (cubeIndices n).getLast? = some (List.replicate n true) := by rw [hL']; simp
    rw [hL, List.getLast?_cons_of_ne_nil hLne] at h4
    exact (List.dropLast_append_getLast? _ h4).symm
  rw [hL, List.tail_cons, List.map_cons, List.sum_cons, h0]
  conv_rhs => rw [hlast]
  rw [List.map_append, List.sum_append]
  simp [h1]

theorem all_false {c : List Bool} (hc : c.length = n) (h : c.count true = 0) : c = List.replicate n false := by
  rw [List.eq_replicate_iff]
  refine ⟨hc, fun b hb => ?_⟩
  cases b
  · rfl
  · exact absurd hb (List.count_eq_zero.1 h)

theorem all_true {c : List Bool} (hc : c.length = n) (h : c.count true = n) : c = List.replicate n true := by
  have h1 := count_false_add_true c
  rw [List.eq_replicate_iff]
  refine ⟨hc, fun b hb => ?_⟩
  cases b
  · exact absurd hb (List.count_eq_zero.1 (by omega))
  · rfl

theorem mem_inner {ci : List Bool × Nat} (h : ci ∈ (cubeIndices n).zipIdx.tail.dropLast) :
    0 < ci.1.count true ∧ ci.1.count true < n := by
  have h1 : ci ∈ (cubeIndices n).zipIdx := List.mem_of_mem_tail (List.mem_of_mem_dropLast h)
  have h2 := mem_cubeIndices.1 (List.mem_of_getElem? (List.mem_zipIdx_iff_getElem?.1 h1))
  have h3 : ci.1 ∈ (cubeIndices n).tail.dropLast := by
    have h4 : (cubeIndices n).tail.dropLast = (cubeIndices n).zipIdx.tail.dropLast.map Prod.fst := by
      rw [List.map_dropLast, List.map_tail, List.zipIdx_map_fst]
    rw [h4]
    exact List.mem_map_of_mem h
  have hle : ci.1.count true ≤ n := h2 ▸ List.count_le_length
  have hnd := cubeIndices_nodup n
  constructor
  · rw [Nat.pos_iff_ne_zero]
    intro h0
    have h4 := List.mem_of_mem_dropLast h3
    rw [all_false h2 h0] at h4
    obtain ⟨L, hL⟩ := cubeIndices_first n
    rw [hL] at hnd h4
    exact (List.nodup_cons.1 hnd).1 h4
  · refine lt_of_le_of_ne hle fun hn => ?_
    obtain ⟨L, hL⟩ := cubeIndices_last n
    rw [all_true h2 hn] at h3
    rw [hL] at hnd
    have h5 : List.replicate n true ∉ L := by
      intro h6
      exact (List.nodup_append.1 hnd).2.2 _ h6 _ (by simp) rfl
    cases L with
    | nil =>
      rw [hL] at h3
      simp at h3
    | cons a L =>
      rw [hL, List.cons_append, List.tail_cons, List.dropLast_concat] at h3
      exact h5 (List.mem_cons_of_mem _ h3)

end Verif
