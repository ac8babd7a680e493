/-
C22: grids of cubes.
-/
import Verif.Lemmas.GridOrient
import Mathlib.Tactic.FieldSimp

set_option linter.unusedSectionVars false

namespace Verif.Props

open Verif.Model Verif.Spec

variable {K : Type} [Field K] {shape : List Nat} {uniq : List (List Nat) → List (List Nat)} {t : Topo}

theorem corner_eq (c : List Nat) (o : List Bool) : corner c o = cellCorner c o := by
  unfold corner cellCorner
  rw [List.zipWith_map_right]
  congr 1
  funext x s
  cases s <;> rfl

/-- the cube listed at the cell's number -/
theorem gridCubes_get {c : List Nat} (hc : IsCell shape c) : (gridCubes shape)[num shape c]? = some (cellCorners shape c) := by
  rw [gridCubes_eq, List.getElem?_map, gridIndices_num hc]
  rfl

/-- C22: one cube per cell. -/
theorem C22_count (shape : List Nat) : (gridCubes shape).length = shape.prod := by
  rw [gridCubes_eq, List.length_map, gridIndices_length]

/-- C22: every listed cube belongs to a cell: its corner `o` is the vertex at the corner `o` of the cell. -/
theorem C22_corners (j : Nat) (l : List Nat) (hl : (gridCubes shape)[j]? = some l) :
    ∃ c, IsCell shape c ∧ ∀ o : List Bool, o.length = shape.length →
      (gridVertices (K := K) shape false)[cubeAt l o]? = some ((cellCorner c o).map fun (x : Nat) => (x : K)) := by
  rw [gridCubes_eq, List.getElem?_map] at hl
  obtain ⟨c, hc, rfl⟩ := Option.map_eq_some_iff.1 hl
  have hc := mem_gridIndices.1 (List.mem_of_getElem? hc)
  refine ⟨c, hc, fun o ho => ?_⟩
  unfold cellCorners
  rw [cubeAt_cubeOf _ ho]
  simp only [gridVertices, Bool.false_eq_true, if_false]
  rw [List.getElem?_map, gridIndices_num (corner_lt hc ho), ← corner_eq]
  rfl

/-- C22: every cell has its cube, at one place of the list only. -/
theorem C22_cells [CharZero K] (c : List Nat) (hc : IsCell shape c) :
    ∃! j : Nat, ∃ l, (gridCubes shape)[j]? = some l ∧ ∀ o : List Bool, o.length = shape.length →
      (gridVertices (K := K) shape false)[cubeAt l o]? = some ((cellCorner c o).map fun (x : Nat) => (x : K)) := by
  refine ⟨num shape c, ⟨_, gridCubes_get hc, fun o ho => ?_⟩, ?_⟩
  · unfold cellCorners
    rw [cubeAt_cubeOf _ ho]
    simp only [gridVertices, Bool.false_eq_true, if_false]
    rw [List.getElem?_map, gridIndices_num (corner_lt hc ho), ← corner_eq]
    rfl
  · rintro j ⟨l, hl, h⟩
    rw [gridCubes_eq, List.getElem?_map] at hl
    obtain ⟨c', hc', rfl⟩ := Option.map_eq_some_iff.1 hl
    have hcell := mem_gridIndices.1 (List.mem_of_getElem? hc')
    have hz : ∀ c : List Nat, c.length = shape.length → cellCorner c (List.replicate shape.length false) = c := by
      intro c
      generalize shape.length = n
      unfold cellCorner
      induction c generalizing n with
      | nil => rintro rfl; rfl
      | cons a c ih =>
        rintro rfl
        simp [List.replicate_succ, ih _ rfl]
    have h0 := h (List.replicate shape.length false) (by simp)
    unfold cellCorners at h0
    rw [cubeAt_cubeOf _ (by simp)] at h0
    simp only [gridVertices, Bool.false_eq_true, if_false] at h0
    rw [List.getElem?_map, gridIndices_num (corner_lt hcell (by simp)), corner_eq, hz c' hcell.length_eq,
      hz c hc.length_eq] at h0
    have : c' = c := List.map_injective_iff.2 Nat.cast_injective (by simpa using h0)
    rw [← this]
    exact (gridIndices_getElem_num hc').symm

/-- C22: with positive numbers of cells, exactly the vertices that are listed are used by cubes. -/
theorem C22_vertices (hs : ∀ m ∈ shape, 1 ≤ m) (v : Nat) :
    (∃ l ∈ gridCubes shape, v ∈ l) ↔ v < (gridVertices (K := K) shape false).length := by
  rw [grid_vertices hs]
  simp [gridVertices, gridIndices_length]

/-! ### centering -/

theorem grid_column_sum : ∀ (vs : List Nat) (k m : Nat), vs[k]? = some (m + 1) →
    2 * ((gridIndices vs).map fun r => (r[k]?.getD 0)).sum = m * vs.prod := by
  intro vs
  induction vs with
  | nil => intro k m h; simp at h
  | cons p vs ih =>
    intro k m h
    rw [gridIndices, List.map_flatMap]
    have hsum : ∀ {α : Type} (L : List α) (f : α → List Nat), (L.flatMap f).sum = (L.map fun a => (f a).sum).sum := by
      intro α L f
      induction L with
      | nil => rfl
      | cons a L ih => simp [ih]
    rw [hsum]
    cases k with
    | zero =>
      simp only [List.getElem?_cons_zero, Option.some.injEq] at h
      subst h
      simp only [List.map_map, Function.comp_def, List.getElem?_cons_zero, Option.getD_some, List.map_const',
        List.sum_replicate, gridIndices_length, smul_eq_mul, List.prod_cons]
      rw [List.sum_map_mul_left]
      have : ∀ m, 2 * ((List.range (m + 1)).map fun x => x).sum = m * (m + 1) := by
        intro m
        induction m with
        | zero => rfl
        | succ m ih => rw [List.range_succ, List.map_append, List.sum_append]; simp at ih ⊢; nlinarith
      have h2 := this m
      calc 2 * (vs.prod * ((List.range (m + 1)).map fun x => x).sum)
          = vs.prod * (2 * ((List.range (m + 1)).map fun x => x).sum) := by ring
        _ = m * ((m + 1) * vs.prod) := by rw [h2]; ring
    | succ k =>
      simp only [List.getElem?_cons_succ] at h
      simp only [List.map_map, Function.comp_def, List.getElem?_cons_succ, List.map_const', List.sum_replicate,
        List.length_range, smul_eq_mul, List.prod_cons]
      have := ih k m h
      rw [mul_left_comm, this]
      ring

theorem columnMean_grid [CharZero K] (shape : List Nat) :
    columnMean shape.length ((gridIndices (vshape shape)).map fun r => r.map fun (x : Nat) => (x : K)) =
      shape.map fun (m : Nat) => (m : K) / 2 := by
  apply List.ext_getElem?
  intro k
  unfold columnMean
  rw [List.getElem?_map, List.getElem?_map]
  rcases Nat.lt_or_ge k shape.length with hk | hk
  · rw [List.getElem?_range hk, List.getElem?_eq_getElem hk]
    simp only [Option.map_some, Option.some.injEq, List.map_map, List.length_map, gridIndices_length]
    have h := grid_column_sum (vshape shape) k shape[k] (by
      rw [vshape, List.getElem?_map, List.getElem?_eq_getElem hk]; rfl)
    have e : ((gridIndices (vshape shape)).map
        ((fun r : List K => r[k]?.getD 0) ∘ fun r : List Nat => r.map fun (x : Nat) => (x : K))).sum =
        ((((gridIndices (vshape shape)).map fun r => (r[k]?.getD 0)).sum : Nat) : K) := by
      rw [Nat.cast_list_sum, List.map_map]
      congr 1
      apply List.map_congr_left
      intro r _
      simp only [Function.comp, List.getElem?_map]
      cases r[k]? <;> simp
    rw [e]
    have hp : ((vshape shape).prod : K) ≠ 0 := by
      rw [Nat.cast_ne_zero]
      intro h0
      rw [List.prod_eq_zero_iff] at h0
      simp [vshape] at h0
    have h' : (2 : K) * (((gridIndices (vshape shape)).map fun r => (r[k]?.getD 0)).sum : Nat) =
        (shape[k] : K) * ((vshape shape).prod : Nat) := by exact_mod_cast h
    field_simp
    rw [mul_comm]
    linear_combination h'
  · rw [List.getElem?_eq_none (by simpa using hk), List.getElem?_eq_none hk]
    rfl

/-- C22: centering moves every vertex by half the size of the grid, so that the centre of the grid comes to lie at the
origin. -/
theorem C22_centering [CharZero K] (v : Nat) (x : List K) (hx : (gridVertices shape false)[v]? = some x) :
    (gridVertices shape true)[v]? = some (List.zipWith (fun a (m : Nat) => a - (m : K) / 2) x shape) := by
  simp only [gridVertices, Bool.false_eq_true, if_false, if_true] at hx ⊢
  rw [columnMean_grid, List.getElem?_map, hx, Option.map_some, List.zipWith_map_right]

/-! ### the topology -/

/-- C22: in dimensions 1 to 7 and with positive numbers of cells, `n_cube_grid` succeeds. -/
theorem C22_accepted (hu : UniqSpec uniq) (hn : 1 ≤ shape.length) (hn' : shape.length ≤ 7) (hs : ∀ m ∈ shape, 1 ≤ m) :
    ∃ t, nCubeGrid uniq shape true = .ok t := by
  unfold nCubeGrid
  obtain ⟨n, hn1⟩ : ∃ n, shape.length = n + 1 := ⟨shape.length - 1, by omega⟩
  have hc := gridCubes_cubes shape
  have hf := grid_facesAgree shape
  rw [hn1] at hc hf ⊢
  rw [C19_accepts_iff hu hc]
  refine ⟨fun _ => ?_, hf, _, grid_vertices hs⟩
  calc 2 ^ n ≤ 2 ^ 6 := Nat.pow_le_pow_right (by omega) (by omega)
    _ < 128 := by norm_num

/-- C22: from dimension 8 on it fails, with any numbers of cells. -/
theorem C22_rejected (hu : UniqSpec uniq) (hn : 8 ≤ shape.length) :
    ¬ ∃ t, nCubeGrid uniq shape true = .ok t := by
  unfold nCubeGrid
  obtain ⟨n, hn1⟩ : ∃ n, shape.length = n + 1 := ⟨shape.length - 1, by omega⟩
  have hc := gridCubes_cubes shape
  rw [hn1] at hc ⊢
  rw [C19_accepts_iff hu hc]
  rintro ⟨h, -⟩
  have := h (by omega)
  have : 2 ^ 7 ≤ 2 ^ n := Nat.pow_le_pow_right (by omega) (by omega)
  omega

/-- the cell of a column and the sides of a cell -/
theorem grid_entry (hu : UniqSpec uniq) {k : Nat} (hk : shape.length = k + 1) (h : nCubeGrid uniq shape true = .ok t)
    {x j : Nat} {e c : List Nat} (he : (t.elements[k]?.getD [])[x]? = some e) (hj : (gridIndices shape)[j]? = some c) :
    ((t.matrix k).entry x j ≠ 0 → ∃ i ≤ k, ∃ s, e.Perm (boxCorners (vshape shape) (cut (cellBox c) i s))) ∧
    (∀ i ≤ k, ∀ s σ, SymmetricCube k e (boxCorners (vshape shape) (cut (cellBox c) i s)) σ →
      (t.matrix k).entry x j = - ((-1) ^ (i + s.toNat) * σ)) := by
  have hc := gridCubes_cubes shape
  unfold nCubeGrid at h
  have hcell := mem_gridIndices.1 (List.mem_of_getElem? hj)
  have hl : (t.elements[k + 1]?.getD [])[j]? = some (boxCorners (vshape shape) (cellBox c)) := by
    have := (C19_levels hu hc h).2.2.2
    rw [hk] at this
    rw [this, Option.getD_some, gridCubes_eq, List.getElem?_map, hj, Option.map_some,
      cellCorners_eq hcell.length_eq]
  have hfree : free (cellBox c) = k + 1 := by rw [cellBox_free, hcell.length_eq, hk]
  obtain ⟨h1, h2⟩ := C19_entries hu hc h k (by omega) x j e _ he hl
  constructor
  · intro hne
    by_contra hno
    push Not at hno
    apply hne
    apply h2
    intro i hi s
    rw [side_boxCorners s hfree hi]
    exact hno i hi s
  · intro i hi s σ hσ
    apply h1 i hi s σ
    rw [side_boxCorners s hfree hi]
    exact hσ

theorem grid_element (hu : UniqSpec uniq) (h : nCubeGrid uniq shape true = .ok t) {k d : Nat} (hkd : k + d = shape.length)
    {e : List Nat} (he : e ∈ t.elements[k]?.getD []) : ∃ B σ, Within B (vshape shape) ∧ free B = k ∧
      e.length = 2 ^ k ∧ e.Nodup ∧ SymmetricCube k e (boxCorners (vshape shape) B) σ := by
  have hc := gridCubes_cubes shape
  obtain ⟨l, hl, f, σ, hf, hσ⟩ := (C19_elements_are_faces hu hc h d k hkd).1 e he
  obtain ⟨c, hcell, rfl⟩ := mem_gridCubes.1 hl
  obtain ⟨B, h1, h2, rfl⟩ := face_boxCorners (cellBox_within hcell) (by rw [cellBox_free, hcell.length_eq, hkd]) hf
  have hcube : e.length = 2 ^ k ∧ e.Nodup := by
    have wf := fromCubes_wf hu hc h
    rcases Nat.lt_or_ge k shape.length with hlt | hge
    · exact (wf.get hlt).1 e he
    · have : k = shape.length := by omega
      subst this
      rw [wf.top_eq] at he
      exact hc e he
  exact ⟨B, σ, h1, h2, hcube.1, hcube.2, hσ⟩

/-- C22: grids are oriented: `is_oriented` holds for every grid, whatever the SAT solver answers. -/
theorem C22_oriented (hu : UniqSpec uniq) {solve : List (List Int) → Option (List Int)} (hsat : SatSpec solve)
    (hn : 1 ≤ shape.length) (h : nCubeGrid uniq shape true = .ok t) : isOriented solve t = .ok true := by
  obtain ⟨k, hk⟩ : ∃ k, shape.length = k + 1 := ⟨shape.length - 1, by omega⟩
  have hc := gridCubes_cubes shape
  have h' := h
  unfold nCubeGrid at h'
  have wf := fromCubes_wf hu hc h'
  have hsh := wf.shape (k := k) (by omega)
  have hrowsE : (t.matrix k).rows = (t.elements[k]?.getD []).length := hsh.1
  have hcolsE : (t.matrix k).cols = (gridIndices shape).length := by
    rw [hsh.2]
    unfold Topo.nElements
    rw [← hk, wf.top_eq, Option.getD_some, gridCubes_eq, List.length_map]
  have hmemcol : ∀ x j, j ∈ nonzeroCols (t.matrix k) x → j < (gridIndices shape).length ∧ (t.matrix k).entry x j ≠ 0 := by
    intro x j hj
    obtain ⟨a, b⟩ := List.mem_filter.1 hj
    rw [List.mem_range, hcolsE] at a
    exact ⟨a, by simpa using b⟩
  -- the nonzero columns of a row
  have hcol : ∀ x e, (t.elements[k]?.getD [])[x]? = some e → ∀ B σ, Within B (vshape shape) → free B = k →
      e.length = 2 ^ k → SymmetricCube k e (boxCorners (vshape shape) B) σ → ∀ j c, (gridIndices shape)[j]? = some c →
      (t.matrix k).entry x j ≠ 0 → ∃ i ≤ k, ∃ s, B = cut (cellBox c) i s ∧
        (t.matrix k).entry x j = - ((-1) ^ (i + s.toNat) * σ) := by
    intro x e he B σ hB hf hel hσ j c hj hne
    obtain ⟨h1, h2⟩ := grid_entry hu hk h he hj
    obtain ⟨i, hi, s, hp⟩ := h1 hne
    have hcell := mem_gridIndices.1 (List.mem_of_getElem? hj)
    have : B = cut (cellBox c) i s :=
      box_perm hB (cut_within i s (cellBox_within hcell)) ((hσ.perm hel).trans hp)
    exact ⟨i, hi, s, this, h2 i hi s σ (this ▸ hσ)⟩
  refine isOriented_of_matrix hsat (n := k) (by rw [wf.lenB, hk]) ?_ ?_
  · intro x hx j1 j2 hz
    rw [hrowsE] at hx
    have he := List.getElem?_eq_getElem hx
    obtain ⟨B, σ, hB, hf, hel, -, hσ⟩ := grid_element hu h (d := 1) (by omega) (List.mem_of_getElem? he)
    have hnd := WF.nonzeroCols_nodup (t.matrix k) x
    rw [hz] at hnd
    have hne : j1 ≠ j2 := by simpa using hnd
    obtain ⟨a1, b1⟩ := hmemcol x j1 (by rw [hz]; simp)
    obtain ⟨a2, b2⟩ := hmemcol x j2 (by rw [hz]; simp)
    have g1 := List.getElem?_eq_getElem a1
    have g2 := List.getElem?_eq_getElem a2
    obtain ⟨i1, hi1, s1, e1, v1⟩ := hcol x _ he B σ hB hf hel hσ j1 _ g1 b1
    obtain ⟨i2, hi2, s2, e2, v2⟩ := hcol x _ he B σ hB hf hel hσ j2 _ g2 b2
    have l1 := (mem_gridIndices.1 (List.mem_of_getElem? g1)).length_eq
    have l2 := (mem_gridIndices.1 (List.mem_of_getElem? g2)).length_eq
    obtain ⟨rfl, hcc⟩ := cut_cellBox_inj (by omega) (by omega) (e1.symm.trans e2)
    have hss : s1 ≠ s2 := by
      intro hss
      exact hne ((gridIndices_nodup shape).getElem_inj_iff.1 (hcc hss))
    rw [v1, v2]
    constructor
    · rcases neg_one_pow_eq (i1 + s1.toNat) with a | a <;> rcases hσ.sign with b | b <;> rw [a, b] <;> decide
    · cases s1 <;> cases s2 <;> simp [pow_add] at hss ⊢
  · intro f hf j1 hj1 j2 hj2
    rw [hcolsE] at hj1 hj2
    have key := cells_connected (shape := shape) (fun c => f (num shape c)) ?_ (gridIndices shape)[j1] (gridIndices shape)[j2]
      (mem_gridIndices.1 (List.getElem_mem hj1)) (mem_gridIndices.1 (List.getElem_mem hj2))
    · simp only [gridIndices_getElem_num (List.getElem?_eq_getElem hj1),
        gridIndices_getElem_num (List.getElem?_eq_getElem hj2)] at key
      exact key
    · intro c i hcell hi hcell'
      set c' := c.modify i (· + 1) with hc'
      have hlen := hcell.length_eq
      have hg := gridIndices_num hcell
      have hg' := gridIndices_num hcell'
      -- the face between the cells
      have hB := cut_within i true (cellBox_within hcell)
      have hfr : free (cellBox c) = k + 1 := by rw [cellBox_free, hlen, hk]
      have hfree := cut_free (cellBox c) i true (by omega)
      obtain ⟨-, -, -, h4, -⟩ := wf.get (k := k) (by omega)
      have hl : boxCorners (vshape shape) (cellBox c) ∈ t.elements[k + 1]?.getD [] := by
        rw [← hk, wf.top_eq, Option.getD_some]
        exact mem_gridCubes.2 ⟨c, hcell, rfl⟩
      obtain ⟨e, he, σ, hσ⟩ := h4.1 _ hl i (by omega) true
      rw [side_boxCorners true hfr (by omega)] at hσ
      obtain ⟨x, hx, rfl⟩ := List.getElem_of_mem he
      have hx' := List.getElem?_eq_getElem hx
      have hel : (t.elements[k]?.getD [])[x].length = 2 ^ k := ((wf.get (k := k) (by omega)).1 _ he).1
      have hne : num shape c ≠ num shape c' := by
        intro hnum
        have := num_inj hcell hcell' hnum
        have h1 : c[i]? = c'[i]? := by rw [← this]
        rw [hc', List.getElem?_modify_eq, List.getElem?_eq_getElem hi] at h1
        simp at h1
      have hnz : ∀ j, j ∈ nonzeroCols (t.matrix k) x ↔ j = num shape c ∨ j = num shape c' := by
        intro j
        constructor
        · intro hj
          obtain ⟨a1, b1⟩ := hmemcol x j hj
          have g1 := List.getElem?_eq_getElem a1
          obtain ⟨i1, hi1, s1, e1, -⟩ := hcol x _ hx' _ σ hB (by omega) hel hσ j _ g1 b1
          have hcell1 := mem_gridIndices.1 (List.mem_of_getElem? g1)
          have l1 := hcell1.length_eq
          cases s1 with
          | true =>
            left
            obtain ⟨-, hcc⟩ := cut_cellBox_inj hi (by omega) e1
            rw [hcc rfl]
            exact (gridIndices_getElem_num g1).symm
          | false =>
            right
            rw [cut_cellBox_next hi] at e1
            obtain ⟨-, hcc⟩ := cut_cellBox_inj (by rw [List.length_modify]; exact hi) (by omega) e1
            rw [hc', hcc rfl]
            exact (gridIndices_getElem_num g1).symm
        · have hin : ∀ c1 s1, IsCell shape c1 → cut (cellBox c) i true = cut (cellBox c1) i s1 →
              num shape c1 ∈ nonzeroCols (t.matrix k) x := by
            intro c1 s1 hc1 hcut
            have g1 := gridIndices_num hc1
            refine List.mem_filter.2 ⟨?_, ?_⟩
            · rw [List.mem_range, hcolsE]
              exact (List.getElem?_eq_some_iff.1 g1).1
            · have := (grid_entry hu hk h hx' g1).2 i (by omega) s1 σ (hcut ▸ hσ)
              rw [this]
              rcases neg_one_pow_eq (i + s1.toNat) with a | a <;> rcases hσ.sign with b | b <;> rw [a, b] <;> decide
          rintro (rfl | rfl)
          · exact hin c true hcell rfl
          · exact hin c' false hcell' (cut_cellBox_next hi)
      have hperm : (nonzeroCols (t.matrix k) x).Perm [num shape c, num shape c'] := by
        rw [List.perm_ext_iff_of_nodup (WF.nonzeroCols_nodup _ _) (by simpa using hne)]
        intro j
        rw [hnz]
        simp
      obtain ⟨a, b, hab⟩ := length_two hperm.length_eq
      have hfab := hf x (by rw [hrowsE]; exact hx) a b hab
      rw [hab] at hperm
      have ha := hperm.mem_iff (a := num shape c)
      have hb := hperm.mem_iff (a := num shape c')
      simp only [List.mem_cons, List.not_mem_nil, or_false, true_or, or_true, iff_true] at ha hb
      rcases ha with ha | ha <;> rcases hb with hb | hb
      · exact absurd (ha.trans hb.symm) hne
      · rw [ha, hb]; exact hfab
      · rw [ha, hb]; exact hfab.symm
      · exact absurd (ha.trans hb.symm) hne

/-- C22: the numbers of points, edges, ... of a grid. -/
theorem C22_counts (hu : UniqSpec uniq) (hs : ∀ m ∈ shape, 1 ≤ m) (h : nCubeGrid uniq shape true = .ok t) (k : Nat)
    (hk : k ≤ shape.length) : t.nElements k = boxCount shape k := by
  have hc := gridCubes_cubes shape
  have h' := h
  unfold nCubeGrid at h'
  have wf := fromCubes_wf hu hc h'
  obtain ⟨d, hd⟩ : ∃ d, k + d = shape.length := ⟨shape.length - k, by omega⟩
  have hdist : DistinctElements (t.elements[k]?.getD []) := by
    rcases Nat.lt_or_ge k shape.length with hlt | hge
    · exact (wf.get hlt).2.2.1
    · have : k = shape.length := by omega
      subst this
      rw [wf.top_eq, Option.getD_some, gridCubes_eq]
      rw [DistinctElements, List.pairwise_map]
      refine List.Pairwise.imp_of_mem ?_ (gridIndices_nodup shape)
      intro a b ha hb hab hp
      have ha := mem_gridIndices.1 ha
      have hb := mem_gridIndices.1 hb
      rw [cellCorners_eq ha.length_eq, cellCorners_eq hb.length_eq] at hp
      have := box_perm (cellBox_within ha) (cellBox_within hb) hp
      exact hab (List.map_injective_iff.2 (fun x y h => by simpa using h) this)
  unfold Topo.nElements
  rw [← boxes_length]
  set E := t.elements[k]?.getD [] with hE
  have hperm : (E.map sortRow).Perm ((boxes shape k).map fun B => sortRow (boxCorners (vshape shape) B)) := by
    rw [List.perm_ext_iff_of_nodup]
    · intro a
      constructor
      · intro ha
        obtain ⟨e, he, rfl⟩ := List.mem_map.1 ha
        obtain ⟨B, σ, h1, h2, h3, h4, h5⟩ := grid_element hu h hd he
        exact List.mem_map.2 ⟨B, mem_boxes.2 ⟨h1, h2⟩, (sortRow_eq_iff _ _).2 (h5.perm h3)⟩
      · intro ha
        obtain ⟨B, hB, rfl⟩ := List.mem_map.1 ha
        obtain ⟨h1, h2⟩ := mem_boxes.1 hB
        obtain ⟨c, hcell, hf⟩ := box_isFace hs d k B hd h1 h2
        obtain ⟨e, he, σ, hσ⟩ := (C19_elements_are_faces hu hc h' d k hd).2 _ (mem_gridCubes.2 ⟨c, hcell, rfl⟩) _ hf
        obtain ⟨B', σ', h1', h2', h3', h4', h5'⟩ := grid_element hu h hd he
        exact List.mem_map.2 ⟨e, he, (sortRow_eq_iff _ _).2 (hσ.perm h3').symm⟩
    · rw [List.Nodup, List.pairwise_map]
      exact hdist.imp fun hab he => hab ((sortRow_eq_iff _ _).1 he)
    · refine List.Nodup.map_on ?_ (boxes_nodup _ _)
      intro B hB B' hB' he
      exact box_perm (mem_boxes.1 hB).1 (mem_boxes.1 hB').1 ((sortRow_eq_iff _ _).1 he)
  have := hperm.length_eq
  simpa using this

/-- C22: the Euler characteristic of every grid is one. -/
theorem C22_euler (hu : UniqSpec uniq) (hs : ∀ m ∈ shape, 1 ≤ m) (h : nCubeGrid uniq shape true = .ok t) :
    ∑ k ∈ Finset.range (shape.length + 1), (-1 : ℤ) ^ k * (t.nElements k : ℤ) = 1 := by
  refine Eq.trans (Finset.sum_congr rfl fun k hk => ?_) (boxCount_alternating shape shape.length le_rfl)
  rw [C22_counts hu hs h k (by have := Finset.mem_range.1 hk; omega)]

-- a grid of two by three cells
example : gridCubes [2, 3] = [[0, 1, 4, 5], [1, 2, 5, 6], [2, 3, 6, 7], [4, 5, 8, 9], [5, 6, 9, 10], [6, 7, 10, 11]] := by
  decide

example : (gridVertices (K := ℚ) [2, 3] true)[5]? = some [(0 : ℚ), -(1/2)] := by
  rw [C22_centering 5 [1, 1] (by decide +kernel)]
  norm_num

example : ∃ t, nCubeGrid List.dedup [2, 3] true = .ok t ∧ t.nElements 0 = 12 ∧ t.nElements 1 = 17 ∧ t.nElements 2 = 6 := by
  obtain ⟨t, ht⟩ := C22_accepted uniqSpec_dedup (shape := [2, 3]) (by simp) (by simp) (by simp)
  have hs : ∀ m ∈ [2, 3], 1 ≤ m := by simp
  exact ⟨t, ht, C22_counts uniqSpec_dedup hs ht 0 (by simp), C22_counts uniqSpec_dedup hs ht 1 (by simp),
    C22_counts uniqSpec_dedup hs ht 2 (by simp)⟩

example : ∃ solve t, SatSpec solve ∧ nCubeGrid List.dedup [2, 3] true = .ok t ∧ isOriented solve t = .ok true := by
  obtain ⟨solve, hsat⟩ := exists_satSolver
  obtain ⟨t, ht⟩ := C22_accepted uniqSpec_dedup (shape := [2, 3]) (by simp) (by simp) (by simp)
  exact ⟨solve, t, hsat, ht, C22_oriented uniqSpec_dedup hsat (by simp) ht⟩

end Verif.Props
