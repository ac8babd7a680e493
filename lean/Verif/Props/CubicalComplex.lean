/-
C67: the positions of the vertices of a cubical subdivision.
-/
import Verif.Model.CubicalComplex
import Verif.Props.CubicalDomains
import Mathlib.Tactic.FieldSimp

set_option linter.unusedSectionVars false

namespace Verif.Props

open Verif.Model Verif.Spec

variable {n d : Nat} {cubes : List (List Nat)} {uniq : List (List Nat) → List (List Nat)} {t s : Topo} {T : List (Mat Int)}
variable {K : Type} [Field K] [CharZero K]

theorem cubeMean_ok {V : List (Vec K d)} {c : List Nat} (h : ∀ v ∈ c, v < V.length) :
    cubeMean V c = .ok fun q => (c.map fun v => (V[v]?.getD 0) q).sum / (c.length : K) := by
  unfold cubeMean
  rw [mapM_ok _ (fun v => V[v]?.getD 0) c]
  · show Except.ok _ = _
    congr 1
    funext q
    rw [List.map_map, List.length_map]
    rfl
  · intro v hv
    rw [List.getElem?_eq_getElem (h v hv)]
    rfl

theorem corners_lt (w : CWF n cubes t) (hn : 1 ≤ n) {k i v : Nat} {e : List Nat} (hk : k ≤ n)
    (he : (t.elements[k]?.getD [])[i]? = some e) (hv : v ∈ e) : v < t.nElements 0 := by
  obtain ⟨hl, -⟩ := w.cube hn hk he
  obtain ⟨x, hx⟩ := List.mem_iff_getElem?.1 hv
  have hxl := (List.getElem?_eq_some_iff.1 hx).1
  rw [hl] at hxl
  obtain ⟨b, hb, rfl⟩ := exists_ravel hxl
  have hp : IsPoint (b.map fun s => 2 * s.toNat) := by
    intro a ha
    obtain ⟨s, -, rfl⟩ := List.mem_map.1 ha
    cases s <;> simp
  have hcount : (b.map fun s => 2 * s.toNat).count 1 = 0 := by
    rw [List.count_eq_zero]
    intro ha
    obtain ⟨s, -, h⟩ := List.mem_map.1 ha
    cases s <;> simp at h
  have hag : ∀ b : List Bool, agrees (b.map fun s => 2 * s.toNat) b = true := by
    intro b
    induction b with
    | nil => rfl
    | cons s b ih => simp [agrees, ih]
  obtain ⟨i', e', h1, h2, -⟩ := gridFace_stored w hn hk he hp (by simpa using hb)
  rw [hcount] at h1
  have hmem : v ∈ gridFace e (b.map fun s => 2 * s.toNat) :=
    mem_gridFace.2 ⟨b, hag b, by unfold cubeAt; rw [hx]; rfl⟩
  have hmem' := h2.mem_iff.1 hmem
  obtain ⟨E, g1, g2⟩ := w.vertices
  unfold Stored at h1
  rw [g1] at h1
  have : v ∈ E.flatten := List.mem_flatten.2 ⟨e', List.mem_of_getElem? h1, hmem'⟩
  rw [g2, List.mem_range] at this
  unfold Topo.nElements
  rw [g1]
  exact this

theorem getElem?_flatten_levels {α : Type} : ∀ {L : List (List α)} {k i : Nat} {x : α}, (L[k]?.getD [])[i]? = some x →
    L.flatten[((List.range k).map fun m => (L[m]?.getD []).length).sum + i]? = some x
  | [], k, i, x, h => by simp at h
  | a :: L, 0, i, x, h => by
    have h : a[i]? = some x := h
    have := (List.getElem?_eq_some_iff.1 h).1
    rw [List.flatten_cons, List.range_zero, List.map_nil, List.sum_nil, Nat.zero_add, List.getElem?_append_left this]
    exact h
  | a :: L, k + 1, i, x, h => by
    have ih := getElem?_flatten_levels (L := L) (k := k) (i := i) (x := x) h
    rw [List.range_succ_eq_map, List.map_cons, List.sum_cons, List.map_map, List.flatten_cons, Nat.add_assoc]
    show (a ++ L.flatten)[a.length + _]? = _
    rw [List.getElem?_append_right (by omega), Nat.add_sub_cancel_left]
    exact ih

/-- C67: the vertices are as many as the fine topology has; the one put into an element is at the mean of the corners of
the element, so that old vertices stay where they are. -/
theorem C67_positions (hu : UniqSpec uniq) (hc : Cubes n cubes) (hn : 1 ≤ n) (ht : fromCubes uniq true n cubes = .ok t)
    (hs : subdivideCubical uniq t = .ok (s, T)) (V : List (Vec K d)) (hV : t.nElements 0 ≤ V.length) :
    ∃ V', cubicalVertices V t = .ok V' ∧ V'.length = s.nElements 0 ∧
      ∀ (k i : Nat) (e : List Nat), k ≤ n → (t.elements[k]?.getD [])[i]? = some e →
        ∃ x, V'[subVertex t k i]? = some x ∧ ∀ q, (2 ^ k : K) * x q = (e.map fun v => (V[v]?.getD 0) q).sum := by
  have w := fromCubes_wf hu hc ht
  have hlt : ∀ rows ∈ t.elements, ∀ e ∈ rows, ∀ v ∈ e, v < V.length := by
    intro rows hr e he v hv
    obtain ⟨k, hk⟩ := List.mem_iff_getElem?.1 hr
    have := (List.getElem?_eq_some_iff.1 hk).1
    have hl := w.lenE
    obtain ⟨i, hi⟩ := List.mem_iff_getElem?.1 he
    refine lt_of_lt_of_le (corners_lt w hn (k := k) (i := i) (by omega) ?_ hv) hV
    rw [hk]; exact hi
  have h1 : cubicalPositions V t = .ok (t.elements.map fun rows => rows.map fun e q =>
      (e.map fun v => (V[v]?.getD 0) q).sum / (e.length : K)) := by
    unfold cubicalPositions
    refine mapM_ok _ _ _ fun rows hr => mapM_ok _ _ _ fun e he => cubeMean_ok (hlt rows hr e he)
  refine ⟨_, by unfold cubicalVertices; rw [h1]; rfl, ?_, ?_⟩
  · have := C67_counts hu hc hn ht hs (Nat.zero_le n)
    rw [this, List.length_flatten, List.map_map]
    simp only [Nat.choose_zero_right, pow_zero, Nat.mul_one]
    have he : t.elements = (List.range (n + 1)).map fun k => t.elements[k]?.getD [] := by
      apply List.ext_getElem?
      intro k
      rw [List.getElem?_map]
      rcases Nat.lt_or_ge k (n + 1) with h | h
      · rw [List.getElem?_range h, Option.map_some, List.getElem?_eq_getElem (by rw [w.lenE]; exact h)]
        rfl
      · rw [List.getElem?_eq_none (by rw [w.lenE]; exact h), List.getElem?_eq_none (by simpa using h)]
        rfl
    conv_lhs => rw [he]
    rw [List.map_map]
    congr 1
    refine List.map_congr_left fun k _ => ?_
    simp [Topo.nElements]
  · intro k i e hk he
    obtain ⟨hl, -⟩ := w.cube hn hk he
    refine ⟨fun q => (e.map fun v => (V[v]?.getD 0) q).sum / (e.length : K), ?_, ?_⟩
    · have hlev : ∀ m, ((t.elements.map fun rows => rows.map fun e (q : Fin d) =>
          (e.map fun v => (V[v]?.getD 0) q).sum / (e.length : K))[m]?.getD []).length = t.nElements m := by
        intro m
        rw [List.getElem?_map]
        unfold Topo.nElements
        cases t.elements[m]? <;> simp
      have := getElem?_flatten_levels (L := t.elements.map fun rows => rows.map fun e (q : Fin d) =>
          (e.map fun v => (V[v]?.getD 0) q).sum / (e.length : K)) (k := k) (i := i)
          (x := fun q => (e.map fun v => (V[v]?.getD 0) q).sum / (e.length : K)) (by
        rw [List.getElem?_map]
        cases hE : t.elements[k]? with
        | none => rw [hE] at he; simp at he
        | some E =>
          rw [hE] at he
          have he : E[i]? = some e := he
          show (E.map _)[i]? = _
          rw [List.getElem?_map, he]
          rfl)
      rw [List.map_congr_left (fun m _ => hlev m)] at this
      exact this
    · intro q
      simp only [hl]
      push_cast
      field_simp

/-- sum of a linear function over the corners of a face -/
theorem sum_face (u : Nat → K) : ∀ (x : List Nat), IsPoint x → ∀ (o : K),
    2 * (((cubeIndices x.length).filter (agrees x)).map fun c =>
      o + ((List.range x.length).map fun a => (if c[a]? = some true then u a else 0)).sum).sum =
    2 ^ x.count 1 * (2 * o + ((List.range x.length).map fun a => ((x[a]?.getD 0 : Nat) : K) * u a).sum)
  | [], _, o => by
    have : (cubeIndices 0).filter (agrees []) = [[]] := rfl
    simp [this]
  | a :: x, hx, o => by
    obtain ⟨ha, hx'⟩ := IsPoint.cons.1 hx
    have hf : ∀ s : Bool, (((cubeIndices x.length).map (s :: ·)).filter (agrees (a :: x))) =
        if a = 1 ∨ a = 2 * s.toNat then ((cubeIndices x.length).filter (agrees x)).map (s :: ·) else [] := by
      intro s
      rw [List.filter_map]
      split
      · next h =>
        congr 1
        refine List.filter_congr fun c _ => ?_
        simp [agrees, h]
      · next h =>
        rw [List.map_eq_nil_iff, List.filter_eq_nil_iff]
        intro c _
        simp [agrees, h]
    have hmap : ∀ s : Bool, ((((cubeIndices x.length).filter (agrees x)).map (s :: ·)).map fun c =>
        o + ((List.range (x.length + 1)).map fun a => (if c[a]? = some true then u a else 0)).sum).sum =
        (((cubeIndices x.length).filter (agrees x)).map fun c => (o + if s = true then u 0 else 0) +
          ((List.range x.length).map fun a => (if c[a]? = some true then u (a + 1) else 0)).sum).sum := by
      intro s
      rw [List.map_map]
      congr 1
      refine List.map_congr_left fun c _ => ?_
      rw [Function.comp_apply, List.range_succ_eq_map, List.map_cons, List.sum_cons, List.map_map, add_assoc]
      simp [Function.comp_def]
    have ih := fun o => sum_face (fun a => u (a + 1)) x hx' o
    rw [List.length_cons, cubeIndices, List.filter_append, List.map_append, List.sum_append, hf, hf]
    have hR : ((List.range (x.length + 1)).map fun b => (((a :: x)[b]?.getD 0 : Nat) : K) * u b).sum =
        a * u 0 + ((List.range x.length).map fun b => ((x[b]?.getD 0 : Nat) : K) * u (b + 1)).sum := by
      rw [List.range_succ_eq_map, List.map_cons, List.sum_cons, List.map_map]
      simp [Function.comp_def]
    rw [hR, List.count_cons]
    interval_cases a
    · simp only [Bool.toNat_false, Bool.toNat_true]
      rw [if_pos (by decide), if_neg (by decide), hmap, List.map_nil, List.sum_nil, add_zero, ih]
      simp
    · simp only [Bool.toNat_false, Bool.toNat_true]
      rw [if_pos (by decide), if_pos (by decide), hmap, hmap, mul_add, ih, ih]
      simp
      ring
    · simp only [Bool.toNat_false, Bool.toNat_true]
      rw [if_neg (by decide), if_pos (by decide), hmap, List.map_nil, List.sum_nil, zero_add, ih]
      simp
      ring

/-- C67: a cube that is the image of the unit cube under an affine map (corner `c` at `o` plus the sum of `u a` over
the axes `a` with `c a = 1`) is cut in half along every axis: corner `b` of the part at corner `p` is at `o` plus the sum of
`(p a + b a) / 2 * u a`. -/
theorem C67_halves (hu : UniqSpec uniq) (hc : Cubes n cubes) (hn : 1 ≤ n) (ht : fromCubes uniq true n cubes = .ok t)
    (hs : subdivideCubical uniq t = .ok (s, T)) (V V' : List (Vec K d)) (hV : t.nElements 0 ≤ V.length)
    (hV' : cubicalVertices V t = .ok V') (j : Nat) (l : List Nat) (hj : cubes[j]? = some l) (o : Vec K d) (u : Nat → Vec K d)
    (haff : ∀ (c : List Bool) (v : Nat), c.length = n → l[ravel c]? = some v → ∃ x, V[v]? = some x ∧
      ∀ q, x q = o q + ((List.range n).map fun a => (if c[a]? = some true then u a q else 0)).sum)
    (p b : List Bool) (hp : p.length = n) (hb : b.length = n) :
    ∃ (c : List Nat) (v : Nat) (x : Vec K d), (s.elements[n]?.getD [])[2 ^ n * j + ravel p]? = some c ∧
      c[ravel b]? = some v ∧ V'[v]? = some x ∧
      ∀ q, x q = o q + ((List.range n).map fun a =>
        (((if p[a]? = some true then 1 else 0) + (if b[a]? = some true then 1 else 0)) / 2) * u a q).sum := by
  have w := fromCubes_wf hu hc ht
  have hs' := ((subdivideCubical_iff hu hc hn ht).1 hs).1
  have ws := fromCubes_wf hu (allFine_cubes w hn) hs'
  have htop : s.elements[n]?.getD [] = allFine t n cubes := by rw [ws.top_eq]; rfl
  have hjl := (stored_top w).2 hj
  obtain ⟨hl1, hl2⟩ := hc l (List.mem_of_getElem? hj)
  have hx : IsPoint (corner (p.map Bool.toNat) b) := by
    rw [← point_cellBox (by simpa [hp] using hb)]
    exact point_isPoint b (inCube_cellBox p)
  have hxl : (corner (p.map Bool.toNat) b).length = n := by simp [corner, hp, hb]
  obtain ⟨i, e, h1, h2, -, h4⟩ := vnum_gridFace w hn (le_refl n) hjl hx hxl
  have hkn := List.count_le_length (a := 1) (l := corner (p.map Bool.toNat) b)
  rw [hxl] at hkn
  obtain ⟨V2, g1, -, g3⟩ := C67_positions hu hc hn ht hs V hV
  rw [hV'] at g1
  obtain rfl := Except.ok.inj g1
  obtain ⟨x, g4, g5⟩ := g3 _ i e hkn h1
  refine ⟨_, _, x, by rw [htop]; exact allFine_get hj hp, ?_, g4, ?_⟩
  · rw [getElem?_corner (by rw [cellBox_free, List.length_map, hb, hp]), point_cellBox (by simpa [hp] using hb), h4]
    rfl
  · intro q
    have h6 : (e.map fun v => (V[v]?.getD 0) q).sum = (((cubeIndices n).filter (agrees (corner (p.map Bool.toNat) b))).map
        fun c => o q + ((List.range n).map fun a => (if c[a]? = some true then u a q else 0)).sum).sum := by
      rw [← (h2.map _).sum_eq]
      unfold gridFace
      rw [List.map_map, hxl]
      congr 1
      refine List.map_congr_left fun c hcm => ?_
      have hcl := mem_cubeIndices.1 (List.mem_filter.1 hcm).1
      have hlt := ravel_lt c
      rw [hcl, ← hl1] at hlt
      obtain ⟨y, y1, y2⟩ := haff c _ hcl (List.getElem?_eq_getElem hlt)
      rw [Function.comp_apply]
      unfold cubeAt
      rw [List.getElem?_eq_getElem hlt, Option.getD_some, y1, Option.getD_some, y2]
    have h7 := sum_face (fun a => u a q) _ hx (o q)
    rw [hxl, ← h6, ← g5 q] at h7
    have h2 : (2 : K) ≠ 0 := Nat.cast_ne_zero.2 (by decide : (2 : Nat) ≠ 0)
    have h8 : (2 : K) ^ (corner (p.map Bool.toNat) b).count 1 ≠ 0 := pow_ne_zero _ h2
    have h9 : 2 * x q = 2 * o q + ((List.range n).map fun a => (((corner (p.map Bool.toNat) b)[a]?.getD 0 : Nat) : K) * u a q).sum := by
      apply mul_left_cancel₀ h8
      rw [← h7]
      ring
    have h10 : ((List.range n).map fun a => (((corner (p.map Bool.toNat) b)[a]?.getD 0 : Nat) : K) * u a q).sum =
        2 * ((List.range n).map fun a =>
        (((if p[a]? = some true then 1 else 0) + (if b[a]? = some true then 1 else 0)) / 2) * u a q).sum := by
      rw [← List.sum_map_mul_left]
      congr 1
      refine List.map_congr_left fun a ha => ?_
      have ha := List.mem_range.1 ha
      have hpa : a < p.length := by omega
      have hba : a < b.length := by omega
      unfold corner
      rw [List.getElem?_zipWith, List.getElem?_map, List.getElem?_map, List.getElem?_eq_getElem hpa,
        List.getElem?_eq_getElem hba]
      cases p[a] <;> cases b[a] <;> simp <;> ring
    rw [h10] at h9
    apply mul_left_cancel₀ h2
    rw [h9]
    ring

/-- an example: the parts of a parallelogram with the corners (0, 0), (4, 2), (2, 6), (6, 8) have corners on the grid of
half its edges -/
example : Cubes 2 [[0, 1, 2, 3]] ∧ ((fromCubes lexRows true 2 [[0, 1, 2, 3]]).toOption.bind fun t =>
    (cubicalVertices (K := ℚ) (d := 2) [![0, 0], ![4, 2], ![2, 6], ![6, 8]] t).toOption) =
    some [![0, 0], ![4, 2], ![2, 6], ![6, 8], ![2, 1], ![1, 3], ![5, 5], ![4, 7], ![3, 4]] := by
  refine ⟨?_, by decide +kernel⟩
  intro l hl
  rw [List.mem_singleton] at hl
  subst hl
  decide

end Verif.Props
