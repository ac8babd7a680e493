/-
C70: the metric of regular complexes.
-/
import Verif.Lemmas.RegularEval
import Verif.Props.CubeAveraging

set_option linter.unusedSectionVars false

namespace Verif.Props

open Verif.Model Verif.Spec

variable {K : Type} [Field K] [LinearOrder K] [IsStrictOrderedRing K]
variable {uniq : List (List Nat) → List (List Nat)} {solve : List (List Int) → Option (List Int)}
variable {cubes : List (List Nat)} {t : Topo} {n : Nat} {V : List (Vec K n)}

theorem boxes_lt (w : CWF n cubes t) (hn : 1 ≤ n) (hbox : ∀ l ∈ cubes, IsBox V l) {k i v : Nat} {e : List Nat} (hk : k ≤ n)
    (he : Stored t k i e) (hv : v ∈ e) : v < V.length := by
  have hc := w.cube hn hk he
  obtain ⟨j, l, h1, h2⟩ := faceOf_top w hn (d := n - k) (by omega) he (faceOf_self hc.1)
  have hl := w.cube hn (le_refl n) h1
  have hvl := h2.subset hl.1 v hv
  obtain ⟨x, hx⟩ := List.mem_iff_getElem?.1 hvl
  have hxl := (List.getElem?_eq_some_iff.1 hx).1
  rw [hl.1] at hxl
  obtain ⟨c, hcl, rfl⟩ := exists_ravel hxl
  obtain ⟨lo, hi, σ, -, hb⟩ := hbox l (List.mem_of_getElem? ((stored_top w).1 h1))
  obtain ⟨y, hy, -⟩ := hb c v hcl hx
  exact (List.getElem?_eq_some_iff.1 hy).1

theorem boxes_positions (w : CWF n cubes t) (hn : 1 ≤ n) (hbox : ∀ l ∈ cubes, IsBox V l) :
    cubicalPositions V t = .ok (t.elements.map fun rows => rows.map (centerOf V)) := by
  unfold cubicalPositions
  refine mapM_ok _ _ _ fun rows hr => mapM_ok _ _ _ fun e he => ?_
  obtain ⟨k, hk⟩ := List.mem_iff_getElem?.1 hr
  have := (List.getElem?_eq_some_iff.1 hk).1
  have hl := w.lenE
  obtain ⟨i, hi⟩ := List.mem_iff_getElem?.1 he
  rw [cubeMean_ok fun v hv => boxes_lt w hn hbox (k := k) (i := i) (by omega) (show Stored t k i e by
    unfold Stored; rw [hk]; exact hi) hv]
  rfl

theorem regular_bind {α β : Type} (a : α) (f : α → Except PyErr β) : ((.ok a : Except PyErr α) >>= f) = f a := rfl

/-- the values of the sums -/
theorem part_primal (w : CWF n cubes t) (hn : 1 ≤ n) (hbox : ∀ l ∈ cubes, IsBox V l) {r : (List Nat × Nat) × List Bool}
    (hr : r ∈ cubeParts n cubes) {b : List Bool} (hb : b.length = n) (h0 : 0 < b.count true)
    {f : List Nat} (hf : (gridFace r.1.1 (partPoint r.2 b)).Perm f) :
    hypervolume (centerOf V (gridFace r.1.1 (partPoint r.2 (List.replicate n false))))
      (centerOf V (gridFace r.1.1 (partPoint r.2 b))) (b.count true) = boxMeasure V f / 2 ^ b.count true := by
  obtain ⟨h1, h2⟩ := mem_cubeParts.1 hr
  have hl := (w.cube hn (le_refl n) ((stored_top w).2 h1)).1
  obtain ⟨lo, hi, σ, hne, hbx⟩ := hbox _ (List.mem_of_getElem? h1)
  have hbx : BoxAt V r.1.1 lo hi σ := hbx
  rw [hbx.hypervolume hl h2 (by simp) hb h0 (fun a ha => by rw [List.getElem?_replicate] at ha; split at ha <;> simp at ha)
    (by simp [List.count_replicate]), hbx.boxMeasure hl hne (partPoint_isPoint _ _) (partPoint_length h2 hb) hf]
  have hfil : (Finset.univ.filter fun q : Fin n => b[(σ.symm q).val]? = some true ∧ (List.replicate n false)[(σ.symm q).val]? ≠ some true) =
      Finset.univ.filter fun q : Fin n => b[(σ.symm q).val]? = some true := by
    refine Finset.filter_congr fun q _ => ?_
    simp [List.getElem?_replicate]
  have hfil2 : (Finset.univ.filter fun q : Fin n => (partPoint r.2 b)[(σ.symm q).val]? = some 1) =
      Finset.univ.filter fun q : Fin n => b[(σ.symm q).val]? = some true := by
    refine Finset.filter_congr fun q _ => ?_
    rw [partPoint_get h2 hb (σ.symm q).isLt]
    split
    · next h => simp [h]
    · next h =>
      simp only [h, iff_false, Option.some.injEq]
      omega
  rw [hfil, hfil2, Finset.prod_div_distrib, Finset.prod_const, card_axes hb]

theorem part_dual (w : CWF n cubes t) (hn : 1 ≤ n) (hbox : ∀ l ∈ cubes, IsBox V l) {r : (List Nat × Nat) × List Bool}
    (hr : r ∈ cubeParts n cubes) {b : List Bool} (hb : b.length = n) (h0 : b.count true < n)
    {f : List Nat} (hf : (gridFace r.1.1 (partPoint r.2 b)).Perm f) :
    hypervolume (centerOf V (gridFace r.1.1 (partPoint r.2 b)))
      (centerOf V (gridFace r.1.1 (partPoint r.2 (List.replicate n true)))) (n - b.count true) = dualPart V f r.1.1 := by
  obtain ⟨h1, h2⟩ := mem_cubeParts.1 hr
  have hl := (w.cube hn (le_refl n) ((stored_top w).2 h1)).1
  obtain ⟨lo, hi, σ, hne, hbx⟩ := hbox _ (List.mem_of_getElem? h1)
  have hbx : BoxAt V r.1.1 lo hi σ := hbx
  rw [hbx.hypervolume hl h2 hb (by simp) (by omega) (fun a ha => by
      have := (List.getElem?_eq_some_iff.1 ha).1
      rw [List.getElem?_replicate, if_pos (by omega)])
    (by simp), hbx.dualPart hl hne (partPoint_isPoint _ _) (partPoint_length h2 hb) hf]
  refine Finset.prod_congr (Finset.filter_congr fun q _ => ?_) fun q _ => rfl
  rw [partPoint_get h2 hb (σ.symm q).isLt]
  by_cases h : b[(σ.symm q).val]? = some true
  · simp [h]
  · simp only [h, if_false, ne_eq, Option.some.injEq, not_false_eq_true, and_true]
    simp only [List.getElem?_replicate, (σ.symm q).isLt, if_true, true_iff]
    omega

/-- the sum of the volumes of the parts of cube `j` -/
theorem sum_zipIdx_range (L : List (List Nat)) (f : List Nat × Nat → K) :
    (L.zipIdx.map f).sum = ((List.range L.length).map fun j => f (L[j]?.getD [], j)).sum := by
  congr 1
  apply List.ext_getElem?
  intro j
  rw [List.getElem?_map, List.getElem?_map, List.getElem?_zipIdx]
  rcases Nat.lt_or_ge j L.length with h | h
  · rw [List.getElem?_range h, List.getElem?_eq_getElem h]
    simp [List.getElem?_eq_getElem h]
  · rw [List.getElem?_eq_none h, List.getElem?_eq_none (by simpa using h)]
    rfl

theorem count_replicate_true : (List.replicate n true).count true = n := by simp

theorem top_sum (w : CWF n cubes t) (hn : 1 ≤ n) (hbox : ∀ l ∈ cubes, IsBox V l) {j : Nat} {l : List Nat} (hj : cubes[j]? = some l) :
    (((cubeParts n cubes).filter fun r => domOf t n r (List.replicate n true) = j).map fun r =>
      hypervolume (centerOf V (gridFace r.1.1 (partPoint r.2 (List.replicate n false))))
        (centerOf V (gridFace r.1.1 (partPoint r.2 (List.replicate n true)))) n).sum = boxMeasure V l := by
  have hjl := (List.getElem?_eq_some_iff.1 hj).1
  have hcr := count_replicate_true (n := n)
  rw [sum_where]
  unfold cubeParts
  rw [List.map_flatMap, List.flatMap_def, List.sum_flatten, List.map_map, sum_zipIdx_range,
    sum_unique List.nodup_range (List.mem_range.2 hjl)]
  · rw [hj, Option.getD_some, Function.comp_apply, List.map_map]
    have : ∀ p ∈ cubeIndices n, ((fun r : (List Nat × Nat) × List Bool =>
        if decide (domOf t n r (List.replicate n true) = j) then
          hypervolume (centerOf V (gridFace r.1.1 (partPoint r.2 (List.replicate n false))))
            (centerOf V (gridFace r.1.1 (partPoint r.2 (List.replicate n true)))) n else 0) ∘ fun p => ((l, j), p)) p =
        boxMeasure V l / 2 ^ n := by
      intro p hp
      have hp := mem_cubeIndices.1 hp
      have hr : (((l, j), p) : (List Nat × Nat) × List Bool) ∈ cubeParts n cubes := mem_cubeParts.2 ⟨hj, hp⟩
      obtain ⟨e, h1, h2, h3⟩ := domOf_spec w hn hr (b := List.replicate n true) (by simp)
      have h3 := h3 hcr
      rw [Function.comp_apply, if_pos (by simpa using h3)]
      have := part_primal w hn hbox hr (b := List.replicate n true) (by simp) (by rw [hcr]; omega) h2
      rw [hcr] at this
      rw [this]
      rw [h3, hcr] at h1
      rw [h1.unique ((stored_top w).2 hj)]
    rw [List.map_congr_left this, List.map_const', List.sum_replicate, cubeIndices_length, nsmul_eq_mul]
    have h2 : (2 : K) ^ n ≠ 0 := pow_ne_zero _ two_ne_zero
    push_cast
    field_simp
  · intro i hi hne
    have hi := List.mem_range.1 hi
    apply List.sum_eq_zero
    intro y hy
    simp only [List.map_map] at hy
    obtain ⟨p, hp, rfl⟩ := List.mem_map.1 hy
    have hp := mem_cubeIndices.1 hp
    have hr : (((cubes[i]?.getD [], i), p) : (List Nat × Nat) × List Bool) ∈ cubeParts n cubes :=
      mem_cubeParts.2 ⟨by rw [List.getElem?_eq_getElem hi]; rfl, hp⟩
    obtain ⟨e, -, -, h3⟩ := domOf_spec w hn hr (b := List.replicate n true) (by simp)
    rw [Function.comp_apply, if_neg]
    have h3 := h3 hcr
    simp only [decide_eq_true_eq]
    rw [h3]
    exact hne

theorem first_mem (w : CWF n cubes t) (hn : 1 ≤ n) (x : Nat) :
    x ∈ (cubeParts n cubes).map (fun r => domOf t n r (List.replicate n false)) ↔ x < t.nElements 0 := by
  have hc0 : (List.replicate n false).count true = 0 := by simp [List.count_replicate]
  constructor
  · intro h
    obtain ⟨r, hr, rfl⟩ := List.mem_map.1 h
    obtain ⟨e, h1, -⟩ := domOf_spec w hn hr (b := List.replicate n false) (by simp)
    rw [hc0] at h1
    exact h1.lt
  · intro h
    obtain ⟨e, he⟩ : ∃ e, Stored t 0 x e := ⟨_, List.getElem?_eq_getElem h⟩
    have hc := w.cube hn (Nat.zero_le n) he
    obtain ⟨j, l, h1, y, y1, y2, y3⟩ := faceOf_top w hn (d := n) (by omega) he (faceOf_self hc.1)
    have hcount := faceOf_length y1 hc.1 y3
    have hy : partPoint (y.map (· == 2)) (List.replicate n false) = y := by
      unfold partPoint
      rw [zipWith_all_false _ _ (by simp [y2]) (fun b hb => List.eq_of_mem_replicate hb), List.map_map]
      conv_rhs => rw [← List.map_id y]
      refine List.map_congr_left fun a ha => ?_
      have h2 := y1 a ha
      have h3 : a ≠ 1 := by
        rintro rfl
        exact absurd ha (List.count_eq_zero.1 hcount)
      interval_cases a
      · rfl
      · exact absurd rfl h3
      · rfl
    have hr : (((l, j), y.map (· == 2)) : (List Nat × Nat) × List Bool) ∈ cubeParts n cubes :=
      mem_cubeParts.2 ⟨(stored_top w).1 h1, by simpa using y2⟩
    refine List.mem_map.2 ⟨_, hr, (domOf_iff w hn hr (by simp) (by rw [hc0]; omega) (by rw [hc0]; exact he)).2 ?_⟩
    simp only
    rw [hy]
    exact y3

theorem last_mem (w : CWF n cubes t) (hn : 1 ≤ n) (x : Nat) :
    x ∈ (cubeParts n cubes).map (fun r => domOf t n r (List.replicate n true)) ↔ x < cubes.length := by
  have hcr := count_replicate_true (n := n)
  constructor
  · intro h
    obtain ⟨r, hr, rfl⟩ := List.mem_map.1 h
    obtain ⟨e, -, -, h3⟩ := domOf_spec w hn hr (b := List.replicate n true) (by simp)
    rw [h3 hcr]
    exact (List.getElem?_eq_some_iff.1 (mem_cubeParts.1 hr).1).1
  · intro h
    have hr : (((cubes[x], x), List.replicate n false) : (List Nat × Nat) × List Bool) ∈ cubeParts n cubes :=
      mem_cubeParts.2 ⟨List.getElem?_eq_getElem h, by simp⟩
    obtain ⟨e, -, -, h3⟩ := domOf_spec w hn hr (b := List.replicate n true) (by simp)
    exact List.mem_map.2 ⟨_, hr, h3 hcr⟩

theorem around_pos (w : CWF n cubes t) (hn : 1 ≤ n) {k i : Nat} {e : List Nat} (hk : k ≤ n) (he : Stored t k i e) :
    0 < (cubesAround n k cubes e).length := by
  have hc := w.cube hn hk he
  obtain ⟨j, l, h1, h2⟩ := faceOf_top w hn (d := n - k) (by omega) he (faceOf_self hc.1)
  have hl := w.cube hn (le_refl n) h1
  have hj := (stored_top w).1 h1
  refine List.length_pos_of_mem (a := j) (List.mem_filter.2 ⟨List.mem_range.2 (List.getElem?_eq_some_iff.1 hj).1, ?_⟩)
  rw [hj, Option.getD_some, hasFace_iff hc.1 (by rw [hl.1]; congr 1; omega) hl.2, show k + (n - k) = n by omega]
  exact h2

/-- a face of a box, with the lengths of the box -/
theorem face_box (w : CWF n cubes t) (hn : 1 ≤ n) (hbox : ∀ l ∈ cubes, IsBox V l) {k i : Nat} {e : List Nat} (hk : k ≤ n)
    (he : Stored t k i e) : ∃ l x lo hi σ, l ∈ cubes ∧ BoxAt V l lo hi σ ∧ (∀ q, lo q ≠ hi q) ∧ l.length = 2 ^ n ∧
      IsPoint x ∧ x.length = n ∧ (gridFace l x).Perm e := by
  have hc := w.cube hn hk he
  obtain ⟨j, l, h1, y, y1, y2, y3⟩ := faceOf_top w hn (d := n - k) (by omega) he (faceOf_self hc.1)
  have hm := List.mem_of_getElem? ((stored_top w).1 h1)
  obtain ⟨lo, hi, σ, hne, hbx⟩ := hbox _ hm
  exact ⟨l, y, lo, hi, σ, hm, hbx, hne, (w.cube hn (le_refl n) h1).1, y1, y2, y3⟩

theorem boxMeasure_pos (w : CWF n cubes t) (hn : 1 ≤ n) (hbox : ∀ l ∈ cubes, IsBox V l) {k i : Nat} {e : List Nat} (hk : k ≤ n)
    (he : Stored t k i e) : 0 < boxMeasure V e := by
  obtain ⟨l, x, lo, hi, σ, -, hbx, hne, hl, hx, hxl, hp⟩ := face_box w hn hbox hk he
  rw [hbx.boxMeasure hl hne hx hxl hp]
  exact Finset.prod_pos fun q _ => abs_pos.2 (sub_ne_zero.2 (hne q).symm)

/-- how many times too large a primal measure is -/
def degreeFactor (n : Nat) (cubes : List (List Nat)) (k : Nat) (e : List Nat) : K :=
  if 1 ≤ k ∧ k < n then ((cubesAround n k cubes e).length : K) / ((wrap8 ((cubesAround n k cubes e).length : ℤ) : ℤ) : K) else 1

theorem regularMetric_eq (hu : UniqSpec uniq) (hc : Cubes n cubes) (hn : 1 ≤ n) (ht : fromCubes uniq true n cubes = .ok t)
    (hbox : ∀ l ∈ cubes, IsBox V l) (hor : isOriented solve t = .ok true) :
    ∃ PM DM, regularMetric solve t V = .ok (PM, DM) ∧ PM.length = n + 1 ∧ DM.length = n + 1 ∧
      (∀ k ≤ n, ∀ E, t.elements[k]? = some E → PM[k]? = some (E.map fun e => degreeFactor n cubes k e * boxMeasure V e)) ∧
      DM[0]? = some (List.replicate cubes.length 1) ∧
      ∀ k < n, ∀ E, t.elements[k]? = some E → DM[n - k]? = some (E.map (dualMeasure V k cubes)) := by
  have w := fromCubes_wf hu hc ht
  have hlen := w.lenE
  have hcr := count_replicate_true (n := n)
  have hc0 : (List.replicate n false).count true = 0 := by simp [List.count_replicate]
  obtain ⟨D, hD, hDl, -, hDk⟩ := C68_degree_wraps hu hc hn ht
  set L := cubeParts n cubes with hL
  let pos : (List Nat × Nat) × List Bool → List Bool → Vec K n := fun r b => centerOf V (gridFace r.1.1 (partPoint r.2 b))
  let cub : (List Nat × Nat) × List Bool → List (Vec K n) := fun r => (cubeIndices n).map (pos r)
  let dom : (List Nat × Nat) × List Bool → Nat → Nat := fun r i => ((cubeIndices n).map (domOf t n r))[i]?.getD 0
  set domains := L.map fun r => (cubeIndices n).map (domOf t n r) with hdomains
  have hcol : ∀ i, domainColumn domains i = L.map fun r => dom r i := by
    intro i
    unfold domainColumn
    rw [hdomains, List.map_map]
    rfl
  have hdom : ∀ {c : List Bool} {i : Nat} (r), (cubeIndices n)[i]? = some c → dom r i = domOf t n r c := by
    intro c i r h
    show ((cubeIndices n).map _)[i]?.getD 0 = _
    rw [List.getElem?_map, h]
    rfl
  have hcub : ∀ {c : List Bool} {i : Nat} (r), (cubeIndices n)[i]? = some c → cornerOf (cub r) i = pos r c := by
    intro c i r h
    show ((cubeIndices n).map _)[i]?.getD 0 = _
    rw [List.getElem?_map, h]
    rfl
  have hfirst : (cubeIndices n)[0]? = some (List.replicate n false) := by
    obtain ⟨M, hM⟩ := cubeIndices_first n
    rw [hM]; rfl
  have hlast : (cubeIndices n)[2 ^ n - 1]? = some (List.replicate n true) := by
    obtain ⟨M, hM⟩ := cubeIndices_last n
    have : (cubeIndices n).length = 2 ^ n := cubeIndices_length n
    rw [hM] at this ⊢
    simp only [List.length_append, List.length_cons, List.length_nil] at this
    rw [← this, Nat.add_sub_cancel, List.getElem?_append_right (le_refl _)]
    simp
  have hmemz : ∀ ci ∈ (cubeIndices n).zipIdx, (cubeIndices n)[ci.2]? = some ci.1 := fun ci h => List.mem_zipIdx_iff_getElem?.1 h
  have hinner : ∀ ci ∈ (cubeIndices n).zipIdx.tail.dropLast, ci ∈ (cubeIndices n).zipIdx :=
    fun ci hci => List.mem_of_mem_tail (List.mem_of_mem_dropLast hci)
  have hel : ∀ k ≤ n, ∃ E, t.elements[k]? = some E := fun k hk => ⟨_, List.getElem?_eq_getElem (by omega)⟩
  have hnE : ∀ {k E}, t.elements[k]? = some E → t.nElements k = E.length := fun h => by unfold Topo.nElements; rw [h]; rfl
  set PM0 : List (List K) := (t.elements.map List.length).mapIdx fun k m => List.replicate m (if k = 0 then (1 : K) else 0) with hPM0
  set DM0 : List (List K) := (t.elements.map List.length).reverse.mapIdx fun k m => List.replicate m (if k = 0 then (1 : K) else 0) with hDM0
  have hP0 : ∀ {k E}, t.elements[k]? = some E → PM0[k]? = some (List.replicate E.length (if k = 0 then (1 : K) else 0)) := by
    intro k E hE
    rw [hPM0, List.getElem?_mapIdx, List.getElem?_map, hE]
    rfl
  have hD0 : ∀ {k E}, k ≤ n → t.elements[k]? = some E →
      DM0[n - k]? = some (List.replicate E.length (if n - k = 0 then (1 : K) else 0)) := by
    intro k E hk hE
    rw [hDM0, List.getElem?_mapIdx, List.getElem?_reverse (by rw [List.length_map]; omega), List.length_map, hlen,
      show n + 1 - 1 - (n - k) = k by omega, List.getElem?_map, hE]
    rfl
  have hPl : PM0.length = n + 1 := by rw [hPM0, List.length_mapIdx, List.length_map, hlen]
  have hDl0 : DM0.length = n + 1 := by rw [hDM0, List.length_mapIdx, List.length_reverse, List.length_map, hlen]
  have hb : ∀ ci ∈ (cubeIndices n).zipIdx.tail.dropLast, ci.1.length = n ∧ ci.1.count true ≤ n ∧
      ∀ r ∈ L, dom r ci.2 < t.nElements (ci.1.count true) := by
    intro ci hci
    have h1 := hmemz ci (hinner ci hci)
    have h2 := mem_cubeIndices.1 (List.mem_of_getElem? h1)
    refine ⟨h2, h2 ▸ List.count_le_length, fun r hr => ?_⟩
    rw [hdom r h1]
    obtain ⟨e, h3, -⟩ := domOf_spec w hn hr h2
    exact h3.lt
  have hPM := addCorners_eq L dom cub domains hcol (fun c => c.count true)
    (fun i c x => hypervolume (cornerOf x 0) (cornerOf x i) (c.count true)) (cubeIndices n).zipIdx.tail.dropLast PM0 (by
      intro ci hci r hr
      obtain ⟨h1, h2, h3⟩ := hb ci hci
      obtain ⟨E, hE⟩ := hel _ h2
      rw [hP0 hE, Option.getD_some, List.length_replicate, ← hnE hE]
      exact h3 r hr)
  have hDM := addCorners_eq L dom cub domains hcol (fun c => n - c.count true)
    (fun i c x => hypervolume (cornerOf x i) (cornerOf x (2 ^ n - 1)) (n - c.count true) / 2 ^ c.count true)
    (cubeIndices n).zipIdx.tail.dropLast DM0 (by
      intro ci hci r hr
      obtain ⟨h1, h2, h3⟩ := hb ci hci
      obtain ⟨E, hE⟩ := hel _ h2
      rw [hD0 h2 hE, Option.getD_some, List.length_replicate, ← hnE hE]
      exact h3 r hr)
  have hdeg : usedDegrees n t = .ok (if 1 < n then D else []) := by
    unfold usedDegrees
    split
    · exact hD
    · rfl
  set PM1 := PM0.mapIdx _ with hPM1
  set DM1 := DM0.mapIdx _ with hDM1
  have hrun : regularMetric solve t V = .ok
      ((PM1.mapIdx fun k A => if 1 ≤ k ∧ k < n then List.zipWith (fun (a : K) (b : Int) => a / (b : K)) A
          (((if 1 < n then D else [])[k]?.getD [])) else A).set n
        ((groupSums (domainColumn domains (2 ^ n - 1)) (L.map fun r => hypervolume (cornerOf (cub r) 0) (cornerOf (cub r) (2 ^ n - 1)) n)).map Prod.snd),
      DM1.set n ((groupSums (domainColumn domains 0) (L.map fun r => hypervolume (cornerOf (cub r) 0) (cornerOf (cub r) (2 ^ n - 1)) n)).map Prod.snd)) := by
    have hdp := domainPositions_ok (K := K) (V := V) w hn
    have hdm := cubicalDomains_ok w hn
    rw [← hL, ← hdomains] at hdp hdm
    unfold regularMetric
    simp only [hor, w.lenB, hdm, boxes_positions w hn hbox, hdp, hdeg, regular_bind, Bool.not_true, Bool.false_eq_true, if_false]
    rw [show (L.map fun r => (cubeIndices n).map fun b => centerOf V (gridFace r.1.1 (partPoint r.2 b))) = L.map cub from rfl,
      ← hPM0, ← hDM0, hPM]
    simp only [regular_bind]
    rw [hDM]
    simp only [regular_bind]
    rw [List.length_mapIdx, hPM1, List.length_mapIdx, hPl, hDM1, List.length_mapIdx, hDl0, List.map_map]
    rfl
  have hPsum : ∀ {k i : Nat} {e : List Nat}, 0 < k → k < n → Stored t k i e →
      (((cubeIndices n).zipIdx.tail.dropLast.filter fun ci => ci.1.count true = k).map fun ci =>
        ((L.filter fun r => dom r ci.2 = i).map fun r => hypervolume (cornerOf (cub r) 0) (cornerOf (cub r) ci.2) (ci.1.count true)).sum).sum =
      ((cubesAround n k cubes e).length : K) * boxMeasure V e := by
    intro k i e hk0 hkn he
    rw [sum_inner hn (fun c => decide (c.count true = k)) (by simpa [hc0] using hk0.ne) (by simpa using hkn.ne')
      _ (fun c => ((L.filter fun r => domOf t n r c = i).map fun r => hypervolume (pos r (List.replicate n false)) (pos r c) (c.count true)).sum)]
    · rw [sum_cubeParts w hn hkn he _ (fun _ => boxMeasure V e / 2 ^ k)]
      · rw [List.map_const', List.sum_replicate, nsmul_eq_mul]
        have h2 : (2 : K) ^ k ≠ 0 := pow_ne_zero _ two_ne_zero
        field_simp
      · intro r hr c hcl hck hp
        rw [← hck]
        exact part_primal w hn hbox hr hcl (by omega) hp
    · intro ci hci
      have h1 := hmemz ci hci
      simp only [hdom _ h1, hcub _ h1, hcub _ hfirst]
  have hDsum : ∀ {k i : Nat} {e : List Nat}, 0 < k → k < n → Stored t k i e →
      (((cubeIndices n).zipIdx.tail.dropLast.filter fun ci => n - ci.1.count true = n - k).map fun ci =>
        ((L.filter fun r => dom r ci.2 = i).map fun r =>
          hypervolume (cornerOf (cub r) ci.2) (cornerOf (cub r) (2 ^ n - 1)) (n - ci.1.count true) / 2 ^ ci.1.count true).sum).sum =
      dualMeasure V k cubes e := by
    intro k i e hk0 hkn he
    rw [sum_inner hn (fun c => decide (n - c.count true = n - k)) (by simp [hc0]; omega) (by simp; omega)
      _ (fun c => ((L.filter fun r => domOf t n r c = i).map fun r =>
        hypervolume (pos r c) (pos r (List.replicate n true)) (n - c.count true) / 2 ^ c.count true).sum)]
    · have hfil : (cubeIndices n).filter (fun c => decide (n - c.count true = n - k)) =
          (cubeIndices n).filter fun c => c.count true = k := by
        refine List.filter_congr fun c hcm => ?_
        have hcl : c.count true ≤ n := (mem_cubeIndices.1 hcm) ▸ List.count_le_length
        rw [decide_eq_decide]
        omega
      rw [hfil, sum_cubeParts w hn hkn he _ (fun j => dualPart V e (cubes[j]?.getD []) / 2 ^ k)]
      · unfold dualMeasure
        congr 1
        refine List.map_congr_left fun j _ => ?_
        have h2 : (2 : K) ^ k ≠ 0 := pow_ne_zero _ two_ne_zero
        field_simp
      · intro r hr c hcl hck hp
        rw [← hck, (mem_cubeParts.1 hr).1, Option.getD_some]
        congr 1
        exact part_dual w hn hbox hr hcl (by omega) hp
    · intro ci hci
      have h1 := hmemz ci hci
      simp only [hdom _ h1, hcub _ h1, hcub _ hlast]
  have hst : ∀ {k i : Nat} {E : List (List Nat)} {e : List Nat}, t.elements[k]? = some E → E[i]? = some e → Stored t k i e := by
    intro k i E e h1 h2
    unfold Stored
    rw [h1]
    exact h2
  refine ⟨_, _, hrun, ?_, ?_, ?_, ?_, ?_⟩
  · rw [List.length_set, List.length_mapIdx, hPM1, List.length_mapIdx, hPl]
  · rw [List.length_set, hDM1, List.length_mapIdx, hDl0]
  · intro k hk E hE
    rcases Nat.lt_or_ge k n with hkn | hkn
    · rw [List.getElem?_set, if_neg (by omega), List.getElem?_mapIdx, hPM1, List.getElem?_mapIdx, hP0 hE]
      simp only [Option.map_some]
      congr 1
      rcases Nat.eq_zero_or_pos k with rfl | hk0
      · rw [if_neg (by omega)]
        apply List.ext_getElem?
        intro i
        rw [List.getElem?_mapIdx, List.getElem?_map, List.getElem?_replicate]
        rcases Nat.lt_or_ge i E.length with hi | hi
        · rw [if_pos hi, List.getElem?_eq_getElem hi]
          simp only [Option.map_some, if_true]
          congr 1
          have h1 : (((cubeIndices n).zipIdx.tail.dropLast.filter fun ci => ci.1.count true = 0)) = [] := by
            rw [List.filter_eq_nil_iff]
            intro ci hci
            have := mem_inner hci
            simp only [decide_eq_true_eq]
            omega
          rw [h1]
          unfold degreeFactor
          rw [if_neg (by omega), List.map_nil, List.sum_nil, add_zero, one_mul]
          have he := hst hE (List.getElem?_eq_getElem hi)
          have hc := w.cube hn (Nat.zero_le n) he
          obtain ⟨j, l, h1, y, y1, y2, y3⟩ := faceOf_top w hn (d := n) (by omega) he (faceOf_self hc.1)
          obtain ⟨lo, hi', σ, hne, hbx⟩ := hbox _ (List.mem_of_getElem? ((stored_top w).1 h1))
          have hbx : BoxAt V l lo hi' σ := hbx
          have hcount := faceOf_length y1 hc.1 y3
          rw [hbx.boxMeasure (w.cube hn (le_refl n) h1).1 hne y1 y2 y3]
          symm
          rw [Finset.filter_false_of_mem, Finset.prod_empty]
          intro q _ hq
          exact absurd (List.mem_of_getElem? hq) (List.count_eq_zero.1 hcount)
        · rw [if_neg (by omega), List.getElem?_eq_none hi]
          rfl
      · rw [if_pos ⟨hk0, hkn⟩, if_pos (show 1 < n by omega), hDk k hkn E hE, Option.getD_some]
        apply List.ext_getElem?
        intro i
        rw [List.getElem?_zipWith, List.getElem?_mapIdx, List.getElem?_map, List.getElem?_map, List.getElem?_replicate]
        rcases Nat.lt_or_ge i E.length with hi | hi
        · rw [if_pos hi, List.getElem?_eq_getElem hi]
          simp only [Option.map_some]
          congr 1
          rw [hPsum hk0 hkn (hst hE (List.getElem?_eq_getElem hi)), if_neg (by omega), zero_add]
          unfold degreeFactor
          rw [if_pos ⟨hk0, hkn⟩]
          ring
        · rw [if_neg (by omega), List.getElem?_eq_none hi]
          rfl
    · obtain rfl : k = n := by omega
      obtain rfl : cubes = E := Option.some.inj (w.top_eq.symm.trans hE)
      rw [List.getElem?_set, if_pos rfl, if_pos (by rw [List.length_mapIdx, hPM1, List.length_mapIdx, hPl]; omega)]
      congr 1
      rw [hcol]
      simp only [hdom _ hlast, hcub _ hlast, hcub _ hfirst]
      rw [groupSums_all L _ _ (last_mem w hn)]
      apply List.ext_getElem?
      intro i
      rw [List.getElem?_map, List.getElem?_map]
      rcases Nat.lt_or_ge i cubes.length with hi | hi
      · rw [List.getElem?_range hi, List.getElem?_eq_getElem hi]
        simp only [Option.map_some]
        congr 1
        rw [top_sum w hn hbox (List.getElem?_eq_getElem hi)]
        unfold degreeFactor
        rw [if_neg (by omega), one_mul]
      · rw [List.getElem?_eq_none hi, List.getElem?_eq_none (by simpa using hi)]
        rfl
  · have h0 := hD0 (le_refl n) w.top_eq
    rw [Nat.sub_self] at h0
    rw [List.getElem?_set, if_neg (by omega), hDM1, List.getElem?_mapIdx, h0]
    simp only [Option.map_some, if_true]
    congr 1
    have h1 : (((cubeIndices n).zipIdx.tail.dropLast.filter fun ci => n - ci.1.count true = 0)) = [] := by
      rw [List.filter_eq_nil_iff]
      intro ci hci
      have := mem_inner hci
      simp only [decide_eq_true_eq]
      omega
    rw [h1]
    apply List.ext_getElem?
    intro i
    rw [List.getElem?_mapIdx, List.getElem?_replicate]
    split <;> simp
  · intro k hkn E hE
    rcases Nat.eq_zero_or_pos k with rfl | hk0
    · rw [Nat.sub_zero, List.getElem?_set, if_pos rfl, if_pos (by rw [hDM1, List.length_mapIdx, hDl0]; omega)]
      congr 1
      rw [hcol]
      simp only [hdom _ hlast, hcub _ hlast, hcub _ hfirst, hdom _ hfirst]
      rw [groupSums_all L _ _ (first_mem w hn), hnE hE]
      apply List.ext_getElem?
      intro i
      rw [List.getElem?_map, List.getElem?_map]
      rcases Nat.lt_or_ge i E.length with hi | hi
      · rw [List.getElem?_range hi, List.getElem?_eq_getElem hi]
        simp only [Option.map_some]
        congr 1
        have hfil : (cubeIndices n).filter (fun c => decide (c.count true = 0)) = [List.replicate n false] := by
          obtain ⟨M, hM⟩ := cubeIndices_first n
          have hnd := cubeIndices_nodup n
          rw [hM] at hnd
          rw [hM, List.filter_cons_of_pos (by simpa using hc0), List.filter_eq_nil_iff.2]
          intro c hcm
          simp only [decide_eq_true_eq]
          intro h0
          have hcl : c.length = n := mem_cubeIndices.1 (by rw [hM]; exact List.mem_cons_of_mem _ hcm)
          rw [all_false hcl h0] at hcm
          exact (List.nodup_cons.1 hnd).1 hcm
        have := sum_cubeParts w hn hkn (hst hE (List.getElem?_eq_getElem hi))
          (fun r c => hypervolume (pos r c) (pos r (List.replicate n true)) (n - c.count true))
          (fun j => dualPart V E[i] (cubes[j]?.getD [])) (fun r hr c hcl hck hp => by
            rw [(mem_cubeParts.1 hr).1, Option.getD_some]
            exact part_dual w hn hbox hr hcl (by omega) hp)
        rw [hfil, List.map_singleton, List.sum_singleton, hc0] at this
        unfold dualMeasure
        simpa using this
      · rw [List.getElem?_eq_none hi, List.getElem?_eq_none (by simpa using hi)]
        rfl
    · rw [List.getElem?_set, if_neg (by omega), hDM1, List.getElem?_mapIdx, hD0 (by omega) hE]
      simp only [Option.map_some]
      congr 1
      apply List.ext_getElem?
      intro i
      rw [List.getElem?_mapIdx, List.getElem?_map, List.getElem?_replicate]
      rcases Nat.lt_or_ge i E.length with hi | hi
      · rw [if_pos hi, List.getElem?_eq_getElem hi]
        simp only [Option.map_some]
        congr 1
        rw [hDsum hk0 hkn (hst hE (List.getElem?_eq_getElem hi)), if_neg (by omega), zero_add]
      · rw [if_neg (by omega), List.getElem?_eq_none hi]
        rfl

/-- C70: on a complex of boxes with sides along the coordinates, fewer than 128 of them around every element, the primal
measure of an element is the product of the lengths along which it extends, and the dual measure of an element is the
sum over the cubes around it of the products of half of their lengths in the other coordinates. -/
theorem C70_metric (hu : UniqSpec uniq) (hc : Cubes n cubes) (hn : 1 ≤ n) (ht : fromCubes uniq true n cubes = .ok t)
    (hbox : ∀ l ∈ cubes, IsBox V l) (hor : isOriented solve t = .ok true)
    (hdeg : ∀ k E, 1 ≤ k → k < n → t.elements[k]? = some E → ∀ e ∈ E, (cubesAround n k cubes e).length < 128) :
    ∃ PM DM, regularMetric solve t V = .ok (PM, DM) ∧ PM.length = n + 1 ∧ DM.length = n + 1 ∧
      (∀ k ≤ n, ∀ E, t.elements[k]? = some E → PM[k]? = some (E.map (boxMeasure V))) ∧
      DM[0]? = some (List.replicate cubes.length 1) ∧
      ∀ k < n, ∀ E, t.elements[k]? = some E → DM[n - k]? = some (E.map (dualMeasure V k cubes)) := by
  have w := fromCubes_wf hu hc ht
  obtain ⟨PM, DM, h1, h2, h3, h4, h5, h6⟩ := regularMetric_eq hu hc hn ht hbox hor
  refine ⟨PM, DM, h1, h2, h3, fun k hk E hE => ?_, h5, h6⟩
  rw [h4 k hk E hE]
  congr 1
  refine List.map_congr_left fun e he => ?_
  unfold degreeFactor
  split
  · next hkn =>
    have hlt := hdeg k E hkn.1 hkn.2 hE e he
    rw [wrap8_small (by omega) (by exact_mod_cast hlt)]
    have hpos : 0 < (cubesAround n k cubes e).length := by
      obtain ⟨i, hi⟩ := List.mem_iff_getElem?.1 he
      have hst : Stored t k i e := by unfold Stored; rw [hE]; exact hi
      exact around_pos w hn hk hst
    rw [Int.cast_natCast, div_self (Nat.cast_ne_zero.2 hpos.ne'), one_mul]
  · rw [one_mul]

/-- C70: the numbers of cubes around the elements are counted in `int8`: with 128 to 255 cubes around an element that is
not a vertex or a cube its primal measure is negative. -/
theorem C70_wraps (hu : UniqSpec uniq) (hc : Cubes n cubes) (hn : 1 ≤ n) (ht : fromCubes uniq true n cubes = .ok t)
    (hbox : ∀ l ∈ cubes, IsBox V l) (hor : isOriented solve t = .ok true) {k i : Nat} (hk : 1 ≤ k) (hkn : k < n)
    {E : List (List Nat)} {e : List Nat} (hE : t.elements[k]? = some E) (he : E[i]? = some e)
    (h1 : 128 ≤ (cubesAround n k cubes e).length) (h2 : (cubesAround n k cubes e).length < 256) :
    ∃ PM DM A x, regularMetric solve t V = .ok (PM, DM) ∧ PM[k]? = some A ∧ A[i]? = some x ∧ x < 0 := by
  have w := fromCubes_wf hu hc ht
  obtain ⟨PM, DM, g1, -, -, g4, -, -⟩ := regularMetric_eq hu hc hn ht hbox hor
  refine ⟨PM, DM, _, _, g1, g4 k (by omega) E hE, by rw [List.getElem?_map, he]; rfl, ?_⟩
  show degreeFactor n cubes k e * boxMeasure V e < 0
  unfold degreeFactor
  rw [if_pos ⟨hk, hkn⟩]
  have hst : Stored t k i e := by unfold Stored; rw [hE]; exact he
  have hm : 0 < boxMeasure V e := boxMeasure_pos w hn hbox (by omega) hst
  generalize (cubesAround n k cubes e).length = m at h1 h2
  have hw : wrap8 (m : ℤ) = (m : ℤ) - 256 := by
    unfold wrap8
    omega
  rw [hw]
  have hneg : ((((m : ℤ) - 256 : ℤ)) : K) < 0 := by
    have : (m : ℤ) - 256 < 0 := by omega
    exact_mod_cast this
  have hmpos : (0 : K) < (m : K) := by
    have : 0 < m := by omega
    exact_mod_cast this
  exact mul_neg_of_neg_of_pos (div_neg_of_pos_of_neg hmpos hneg) hm

/-- C70: the metric of a topology that is not oriented is refused. -/
theorem C70_unoriented (h : isOriented solve t = .ok false) : regularMetric solve t V = .error .assertionError := by
  unfold regularMetric
  rw [h]
  rfl

end Verif.Props
