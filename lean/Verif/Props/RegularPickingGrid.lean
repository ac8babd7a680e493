/-
C80: picking on grids, given domains, and the limits.
-/
import Verif.Props.RegularFundamental
import Verif.Props.RegularGrid

set_option linter.unusedSectionVars false

namespace Verif.Props

open Verif.Model Verif.Spec

variable {K : Type} [Field K] [LinearOrder K] [IsStrictOrderedRing K]
variable {uniq : List (List Nat) → List (List Nat)}
variable {cubes : List (List Nat)} {t : Topo} {n : Nat} {V : List (Vec K n)} {nearest : List (Vec K n) → Vec K n → Nat}

/-- C80: `pick_fundamental` raises `UnboundLocalError` when it is given, for each point, the very domain that it finds
itself -/
theorem C80_fundamental_hint (hu : UniqSpec uniq) (hc : Cubes n cubes) (hn : 1 ≤ n)
    (ht : fromCubes uniq true n cubes = .ok t) (hbox : ∀ l ∈ cubes, IsBox V l) {o h : Vec K n} (hg : OnGrid V cubes o h)
    (hnear : NearestSite nearest) (points : List (Vec K n)) (hp : ∀ p ∈ points, ∃ l ∈ cubes, InBox V l p) :
    ∃ R Ds idx, pickFundamentalRegular nearest t V points none = .ok R ∧ cubicalDomains t = .ok Ds ∧
      idx.length = points.length ∧ (∀ k i : Nat, idx[k]? = some i → ∃ D b, Ds[i]? = some D ∧ R[k]? = some (D, b)) ∧
      pickFundamentalRegular nearest t V points (some idx) = .error .unboundLocalError := by
  have w := fromCubes_wf hu hc ht
  obtain ⟨R, Ds, hR, hD, hlen, -⟩ := C80_fundamental hu hc hn ht hbox hg hnear points hp
  have hR' := hR
  unfold pickFundamentalRegular at hR'
  rw [fundamentalPrecomp_ok w hn hbox, regular_bind] at hR'
  obtain ⟨-, hget⟩ := getElem?_mapM hR'
  rw [cubicalDomains_ok w hn] at hD
  obtain rfl := Except.ok.inj hD
  set pre := (cubeParts n cubes).map fun r => cubeBasis (partPositions V r) with hpre
  have hone : ∀ p ∈ points, ∃ B, pre[nearest (pre.map Prod.fst) p]? = some B ∧ ∀ q, 0 ≤ cubeBaries B p q := by
    intro p hpp
    obtain ⟨i, b, D, j, l, v, g1, -, -, -, -, -, -, -, g9⟩ := query_part w hn hbox hg hnear (hp p hpp)
    rw [← hpre] at g1
    unfold queryCube basisAt at g1
    cases hB : pre[nearest (pre.map Prod.fst) p]? with
    | none => simp [hB, bind, Except.bind] at g1
    | some B =>
      simp only [hB, bind, Except.bind] at g1
      obtain ⟨-, rfl⟩ := Prod.mk.inj (Except.ok.inj g1)
      exact ⟨B, rfl, fun q => (g9 q).1⟩
  refine ⟨R, _, points.map fun p => nearest (pre.map Prod.fst) p, hR, cubicalDomains_ok w hn, by simp, ?_, ?_⟩
  · intro k i hk
    rw [List.getElem?_map] at hk
    obtain ⟨p, hpk, rfl⟩ := Option.map_eq_some_iff.1 hk
    obtain ⟨x, hx, hq⟩ := hget k p hpk
    obtain ⟨B, hB, -⟩ := hone p (List.mem_of_getElem? hpk)
    unfold queryCube basisAt domainRow at hq
    simp only [hB, bind, Except.bind] at hq
    split at hq
    · exact absurd hq (by simp)
    · next row hrow =>
      split at hrow
      · next D hD =>
        obtain rfl := Except.ok.inj hrow
        obtain rfl := Except.ok.inj hq
        exact ⟨_, _, hD, hx⟩
      · exact absurd hrow (by simp)
  · unfold pickFundamentalRegular
    rw [fundamentalPrecomp_ok w hn hbox, regular_bind, ← hpre]
    simp only [List.length_map, if_true]
    rw [List.mapM_map, mapM_ok _ (fun p => (pre[nearest (pre.map Prod.fst) p]?).getD (0, 0, 0)) points, regular_bind, if_neg]
    · rw [List.any_eq_true]
      rintro ⟨⟨p, B⟩, hm, hneg⟩
      obtain ⟨k, hk⟩ := List.mem_iff_getElem?.1 hm
      rw [List.getElem?_zip_eq_some] at hk
      obtain ⟨h1, h2⟩ := hk
      simp only at h1 h2
      rw [List.getElem?_map, h1, Option.map_some] at h2
      obtain ⟨B', hB', hpos⟩ := hone p (List.mem_of_getElem? h1)
      rw [hB', Option.getD_some] at h2
      obtain rfl := Option.some.inj h2
      obtain ⟨q, hq⟩ := of_decide_eq_true hneg
      exact absurd hq (not_lt.2 (hpos q))
    · intro p hpp
      obtain ⟨B, hB, -⟩ := hone p hpp
      unfold basisAt
      simp only [Function.comp_apply, hB, Option.getD_some]

/-! ### grids -/

/-- the vertices of `n_cube_grid(shape)`, scaled and moved -/
def boxVertices (shape : List Nat) (o h : Vec K shape.length) : List (Vec K shape.length) :=
  (gridVertices (K := K) shape false).map fun r q => o q + r[q.val]?.getD 0 * h q

variable {shape : List Nat}

theorem grid_cell_coord {o h : Vec K shape.length} {l c : List Nat} (hc : Spec.IsCell shape c)
    (hco : ∀ s : List Bool, s.length = shape.length →
      (gridVertices (K := K) shape false)[cubeAt l s]? = some ((cellCorner c s).map fun (x : Nat) => (x : K)))
    (s : List Bool) (hs : s.length = shape.length) (q : Fin shape.length) :
    ((boxVertices shape o h)[cubeAt l s]?.getD 0) q =
        o q + (((c[q.val]?.getD 0 : Nat) : K) + if s[q.val]? = some true then 1 else 0) * h q := by
  have hlen := hc.length_eq
  unfold boxVertices
  rw [List.getElem?_map, hco s hs, Option.map_some, Option.getD_some]
  have ha : q.val < c.length := by omega
  rw [← corner_eq, List.getElem?_map, corner_get (by omega) ha, Option.map_some, Option.getD_some,
    List.getElem?_eq_getElem (by omega : q.val < s.length), List.getElem?_eq_getElem ha]
  cases s[q.val]'(by omega) <;> simp

theorem grid_corner_coord {o h : Vec K shape.length} {j : Nat} {l : List Nat} (hj : (gridCubes shape)[j]? = some l) :
    ∃ c, Spec.IsCell shape c ∧ ∀ (s : List Bool) (v : Nat), s.length = shape.length → l[ravel s]? = some v →
      ∀ q : Fin shape.length, ((boxVertices shape o h)[v]?.getD 0) q =
        o q + (((c[q.val]?.getD 0 : Nat) : K) + if s[q.val]? = some true then 1 else 0) * h q := by
  obtain ⟨c, hc, hco⟩ := C22_corners (K := K) j l hj
  refine ⟨c, hc, fun s v hs hv q => ?_⟩
  have := grid_cell_coord (o := o) (h := h) hc hco s hs q
  unfold cubeAt at this
  rwa [hv, Option.getD_some] at this

theorem grid_is_boxes {o h : Vec K shape.length} (hh : ∀ q, 0 < h q) : ∀ l ∈ gridCubes shape, IsBox (boxVertices shape o h) l := by
  have := grid_boxes (shape := shape) (fun q (x : K) => o q + x * h q) (fun q x y e => by
    have := (hh q).ne'
    simpa [this] using e)
  exact this

theorem grid_onGrid {o h : Vec K shape.length} (hh : ∀ q, 0 < h q) : OnGrid (boxVertices shape o h) (gridCubes shape) o h := by
  refine ⟨hh, fun l hl q => ?_⟩
  obtain ⟨j, hj⟩ := List.mem_iff_getElem?.1 hl
  obtain ⟨c, hc, hco⟩ := grid_corner_coord (o := o) (h := h) hj
  refine ⟨(c[q.val]?.getD 0 : Nat), fun v hv => ?_⟩
  obtain ⟨x, hx⟩ := List.mem_iff_getElem?.1 hv
  have hxl := (List.getElem?_eq_some_iff.1 hx).1
  rw [(gridCubes_cubes shape l hl).1] at hxl
  obtain ⟨s, hs, rfl⟩ := exists_ravel hxl
  rw [hco s v hs hx q]
  push_cast
  split
  · exact Or.inr rfl
  · exact Or.inl (by rw [add_zero])

theorem grid_upright {o h : Vec K shape.length} : ∀ l ∈ gridCubes shape, Upright (boxVertices shape o h) l := by
  intro l hl c v x a hc hv hx q hqa
  obtain ⟨j, hj⟩ := List.mem_iff_getElem?.1 hl
  obtain ⟨d, hd, hco⟩ := grid_corner_coord (o := o) (h := h) hj
  rw [hco c v hc hv q, hco _ x (by simpa using hc) hx q, List.getElem?_set_ne (fun e => hqa (Fin.ext e.symm))]

/-- a number between the ends of a row of cells is in one of the cells -/
theorem row_cell {x h : K} (hh : 0 < h) : ∀ (m : Nat), 1 ≤ m → 0 ≤ x → x ≤ m * h → ∃ c < m, c * h ≤ x ∧ x ≤ (c + 1) * h
  | 0, h0, _, _ => absurd h0 (by omega)
  | 1, _, h1, h2 => ⟨0, by omega, by simpa using h1, by simpa using h2⟩
  | m + 2, _, h1, h2 => by
    rcases le_total x ((m + 1 : Nat) * h) with h3 | h3
    · obtain ⟨c, k1, k2⟩ := row_cell hh (m + 1) (by omega) h1 h3
      exact ⟨c, by omega, k2⟩
    · exact ⟨m + 1, by omega, h3, by push_cast at h2 ⊢; linarith⟩

theorem grid_covers {o h : Vec K shape.length} (hh : ∀ q, 0 < h q) (hs : ∀ m ∈ shape, 1 ≤ m) {p : Vec K shape.length}
    (hp : ∀ q : Fin shape.length, o q ≤ p q ∧ p q ≤ o q + shape[q] * h q) :
    ∃ l ∈ gridCubes shape, InBox (boxVertices shape o h) l p := by
  have hc : ∀ q : Fin shape.length, ∃ c < shape[q], (c : K) * h q ≤ p q - o q ∧ p q - o q ≤ (c + 1) * h q := fun q =>
    row_cell (hh q) _ (hs _ (List.getElem_mem _)) (by linarith [(hp q).1]) (by linarith [(hp q).2])
  choose c hc1 hc2 using hc
  have hcell : Spec.IsCell shape (List.ofFn c) := by
    unfold Spec.IsCell
    rw [List.forall₂_iff_get]
    refine ⟨by simp, fun i hi _ => ?_⟩
    simp only [List.get_eq_getElem, List.getElem_ofFn]
    exact hc1 _
  obtain ⟨j, ⟨l, hl, hco⟩, -⟩ := C22_cells (K := K) _ hcell
  have hm := List.mem_of_getElem? hl
  have hlen := (gridCubes_cubes shape l hm).1
  have mem : ∀ s : List Bool, s.length = shape.length → cubeAt l s ∈ l := by
    intro s hs
    have hlt := ravel_lt s
    rw [hs, ← hlen] at hlt
    unfold cubeAt
    rw [List.getElem?_eq_getElem hlt, Option.getD_some]
    exact List.getElem_mem hlt
  refine ⟨l, hm, fun q => ⟨_, mem (List.replicate shape.length false) (by simp), _,
    mem (List.replicate shape.length true) (by simp), ?_, ?_⟩⟩
  · rw [grid_cell_coord hcell hco _ (by simp), if_neg (by rw [List.getElem?_replicate]; split <;> simp),
      List.getElem?_ofFn, dif_pos q.isLt, Option.getD_some, add_zero]
    have := (hc2 q).1
    simp only [Fin.eta]
    linarith
  · rw [grid_cell_coord hcell hco _ (by simp), if_pos (by rw [List.getElem?_replicate, if_pos q.isLt]),
      List.getElem?_ofFn, dif_pos q.isLt, Option.getD_some]
    have := (hc2 q).2
    simp only [Fin.eta]
    linarith

/-- C80 for grids: on `n_cube_grid`, scaled by any positive spacings and moved anywhere, for all points between its ends:
`sample_primal_0` reproduces functions that are affine in each coordinate, `pick_primal` finds a cube with the point, and
`pick_dual` finds a nearest vertex -/
theorem C80_grid (hu : UniqSpec uniq) (hn : 1 ≤ shape.length) (hs : ∀ m ∈ shape, 1 ≤ m)
    (ht : nCubeGrid uniq shape true = .ok t) {o h : Vec K shape.length} (hh : ∀ q, 0 < h q)
    {nearest : List (Vec K shape.length) → Vec K shape.length → Nat} (hnear : NearestSite nearest)
    (points : List (Vec K shape.length)) (hp : ∀ p ∈ points, ∀ q : Fin shape.length, o q ≤ p q ∧ p q ≤ o q + shape[q] * h q) :
    (∀ f : Vec K shape.length → K, AffineInEach f →
      sampleRegular nearest t (boxVertices shape o h) ((boxVertices shape o h).map f) points = .ok (points.map f)) ∧
    (∃ R, pickRegular nearest t (boxVertices shape o h) points none = .ok R ∧ R.length = points.length ∧
      ∀ (k : Nat) (p : Vec K shape.length), points[k]? = some p → ∃ i b l, R[k]? = some (i, b) ∧
        (gridCubes shape)[i]? = some l ∧ InBox (boxVertices shape o h) l p) ∧
    ∃ R, pickDualRegular nearest t (boxVertices shape o h) points = .ok R ∧ R.length = points.length ∧
      ∀ (k : Nat) (p : Vec K shape.length), points[k]? = some p → ∃ v x, R[k]? = some v ∧ (boxVertices shape o h)[v]? = some x ∧
        ∀ y ∈ boxVertices shape o h, distanceSq x p ≤ distanceSq y p := by
  have hc := gridCubes_cubes shape
  have hbox := grid_is_boxes (shape := shape) (o := o) hh
  have hg := grid_onGrid (shape := shape) (o := o) hh
  have hcov : ∀ p ∈ points, ∃ l ∈ gridCubes shape, InBox (boxVertices shape o h) l p := fun p hpp => grid_covers hh hs (hp p hpp)
  unfold nCubeGrid at ht
  refine ⟨fun f hf => C80_sample hu hc hn ht hbox grid_upright hg hnear hf points hcov, ?_, ?_⟩
  · obtain ⟨R, h1, h2, h3⟩ := C80_pick hu hc hn ht hbox hg hnear points hcov
    refine ⟨R, h1, h2, fun k p hk => ?_⟩
    obtain ⟨i, b, l, g1, g2, g3, -⟩ := h3 k p hk
    exact ⟨i, b, l, g1, g2, g3⟩
  · obtain ⟨R, h1, h2, h3⟩ := C80_dual hu hc hn ht hbox hg hnear points hcov
    refine ⟨R, h1, h2, fun k p hk => ?_⟩
    obtain ⟨v, l, g1, g2, g3, g4, g5⟩ := h3 k p hk
    have hlen : (boxVertices shape o h).length = (gridVertices (K := K) shape false).length := by simp [boxVertices]
    have hv := (C22_vertices (K := K) hs v).1 ⟨l, g2, g3⟩
    rw [← hlen] at hv
    refine ⟨v, _, g1, List.getElem?_eq_getElem hv, fun y hy => ?_⟩
    obtain ⟨x, hx⟩ := List.mem_iff_getElem?.1 hy
    have hxl := (List.getElem?_eq_some_iff.1 hx).1
    rw [hlen] at hxl
    obtain ⟨l', m1, m2⟩ := (C22_vertices (K := K) hs x).2 hxl
    have := g5 l' m1 x m2
    rw [List.getElem?_eq_getElem hv, hx] at this
    exact this

/-! ### cases and limits -/

/-- the first of the nearest sites -/
def firstNearest {n : Nat} (sites : List (Vec K n)) (p : Vec K n) : Nat :=
  sites.findIdx fun x => sites.all fun y => decide (distanceSq x p ≤ distanceSq y p)

theorem firstNearest_spec {n : Nat} : NearestSite (firstNearest (K := K) (n := n)) := by
  intro sites p hne
  have hmin : ∀ sites : List (Vec K n), sites ≠ [] → ∃ x ∈ sites, ∀ y ∈ sites, distanceSq x p ≤ distanceSq y p := by
    intro sites
    induction sites with
    | nil => intro h; exact absurd rfl h
    | cons a sites ih =>
      intro _
      by_cases hs : sites = []
      · subst hs
        exact ⟨a, by simp, by simp⟩
      · obtain ⟨x, h1, h2⟩ := ih hs
        rcases le_total (distanceSq a p) (distanceSq x p) with h | h
        · exact ⟨a, by simp, fun y hy => by
            rcases List.mem_cons.1 hy with rfl | hy
            · exact le_refl _
            · exact h.trans (h2 y hy)⟩
        · exact ⟨x, by simp [h1], fun y hy => by
            rcases List.mem_cons.1 hy with rfl | hy
            · exact h
            · exact h2 y hy⟩
  obtain ⟨x, h1, h2⟩ := hmin sites hne
  have hlt : firstNearest sites p < sites.length :=
    List.findIdx_lt_length_of_exists ⟨x, h1, by simpa using h2⟩
  refine ⟨_, List.getElem?_eq_getElem hlt, ?_⟩
  have := List.findIdx_getElem (w := hlt)
  simp only [List.all_eq_true, decide_eq_true_eq] at this
  exact this

/-- picking and sampling of a function on segments or squares -/
def pickSample (n : Nat) (cubes : List (List Nat)) (V : List (Vec ℚ n)) (f : Vec ℚ n → ℚ) (points : List (Vec ℚ n)) :
    Except PyErr (List (Nat × List ℚ) × List ℚ) := do
  let t ← fromCubes List.dedup true n cubes
  let R ← pickRegular firstNearest t V points none
  let S ← sampleRegular firstNearest t V (V.map f) points
  .ok (R.map fun ib => (ib.1, List.ofFn ib.2), S)

/-- a case of `C80_grid`: cells that are 5 wide and 2 high -/
example (hu : UniqSpec uniq) (ht : nCubeGrid uniq [3, 2] true = .ok t) :=
  (C80_grid (K := ℚ) (shape := [3, 2]) (o := fun _ => -1) (h := fun q => if q = 0 then 5 else 2) hu (by decide) (by decide) ht
    (fun q => by split <;> norm_num) firstNearest_spec [fun q => if q = 0 then 6 else 1] (by
      intro p hp q
      obtain rfl := List.mem_singleton.1 hp
      fin_cases q <;> norm_num)).1 (fun x => x 0 * x 1) (by
        intro x q a b s
        fin_cases q <;> simp [Function.update] <;> ring)

/-- a case of `C80_fundamental`, `C80_dual` and `C80_fundamental_hint`: any grid with any point of it -/
example (hu : UniqSpec uniq) (hn : 1 ≤ shape.length) (hs : ∀ m ∈ shape, 1 ≤ m) (ht : nCubeGrid uniq shape true = .ok t) :=
  C80_fundamental_hint (K := ℚ) (V := boxVertices shape (fun _ => 0) fun _ => 1) hu (gridCubes_cubes shape) hn ht
    (grid_is_boxes fun _ => one_pos) (grid_onGrid fun _ => one_pos) firstNearest_spec [fun _ => 1 / 3] (by
      intro p hp
      obtain rfl := List.mem_singleton.1 hp
      refine grid_covers (fun _ => one_pos) hs fun q => ⟨by norm_num, ?_⟩
      have : (1 : ℚ) ≤ shape[q] := by exact_mod_cast hs _ (List.getElem_mem _)
      linarith)

/-- C80, limit: boxes that are not of one size.  The point `3` is in the second segment, but the center of the first
segment is nearer; the sampled value is `1` and not `3` -/
theorem C80_unequal :
    (∀ l ∈ [[0, 1], [1, 2]], IsBox (n := 1) [![(0 : ℚ)], ![1], ![11]] l) ∧
    InBox (n := 1) [![(0 : ℚ)], ![1], ![11]] [1, 2] ![3] ∧
    pickSample 1 [[0, 1], [1, 2]] [![0], ![1], ![11]] (fun x => x 0) [![3]] = .ok ([(0, [3])], [1]) := by
  refine ⟨?_, ?_, by decide +kernel⟩
  · intro l hl
    simp only [List.mem_cons, List.not_mem_nil, or_false] at hl
    rcases hl with rfl | rfl
    · refine ⟨![0], ![1], Equiv.refl _, by decide +kernel, fun c v hc hv => ?_⟩
      match c, hc with
      | [true], _ => obtain rfl := Option.some.inj hv; exact ⟨_, rfl, by decide +kernel⟩
      | [false], _ => obtain rfl := Option.some.inj hv; exact ⟨_, rfl, by decide +kernel⟩
    · refine ⟨![1], ![11], Equiv.refl _, by decide +kernel, fun c v hc hv => ?_⟩
      match c, hc with
      | [true], _ => obtain rfl := Option.some.inj hv; exact ⟨_, rfl, by decide +kernel⟩
      | [false], _ => obtain rfl := Option.some.inj hv; exact ⟨_, rfl, by decide +kernel⟩
  · intro q
    exact ⟨1, by simp, 2, by simp, by fin_cases q; decide +kernel, by fin_cases q; decide +kernel⟩

/-- C80, limit: a unit square whose axes are exchanged.  The sampled value of the first coordinate is the second -/
theorem C80_turned :
    IsBox (n := 2) [![(0 : ℚ), 0], ![0, 1], ![1, 0], ![1, 1]] [0, 2, 1, 3] ∧
    pickSample 2 [[0, 2, 1, 3]] [![0, 0], ![0, 1], ![1, 0], ![1, 1]] (fun x => x 0) [![1 / 4, 1 / 2]] =
      .ok ([(0, [1 / 4, 1 / 2])], [1 / 2]) := by
  refine ⟨⟨![0, 0], ![1, 1], Equiv.swap 0 1, by decide +kernel, fun c v hc hv => ?_⟩, by decide +kernel⟩
  match c, hc with
  | [true, true], _ => obtain rfl := Option.some.inj hv; exact ⟨_, rfl, by decide +kernel⟩
  | [true, false], _ => obtain rfl := Option.some.inj hv; exact ⟨_, rfl, by decide +kernel⟩
  | [false, true], _ => obtain rfl := Option.some.inj hv; exact ⟨_, rfl, by decide +kernel⟩
  | [false, false], _ => obtain rfl := Option.some.inj hv; exact ⟨_, rfl, by decide +kernel⟩

/-- picking with a given segment -/
def pickGiven (cubes : List (List Nat)) (V : List (Vec ℚ 1)) (points : List (Vec ℚ 1)) (cube : Option (List Nat)) :
    Except PyErr (List (Nat × List ℚ)) := do
  let t ← fromCubes List.dedup true 1 cubes
  let R ← pickRegular firstNearest t V points cube
  .ok (R.map fun ib => (ib.1, List.ofFn ib.2))

/-- C80, limit: a given cube is kept if the point is beyond its last corner, here `3/2` in the segment from 0 to 1 -/
theorem C80_hint_beyond :
    pickGiven [[0, 1], [1, 2]] [![0], ![1], ![2]] [![3 / 2]] none = .ok [(1, [1 / 2])] ∧
    pickGiven [[0, 1], [1, 2]] [![0], ![1], ![2]] [![3 / 2]] (some [0]) = .ok [(0, [3 / 2])] := by
  decide +kernel

end Verif.Props
