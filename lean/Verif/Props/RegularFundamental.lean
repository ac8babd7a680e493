/-
C80: fundamental domains and dual cells of regular complexes that contain a point.
-/
import Verif.Props.RegularPicking

set_option linter.unusedSectionVars false

namespace Verif.Props

open Verif.Model Verif.Spec

variable {K : Type} [Field K] [LinearOrder K] [IsStrictOrderedRing K]
variable {uniq : List (List Nat) → List (List Nat)}
variable {cubes : List (List Nat)} {t : Topo} {n : Nat} {V : List (Vec K n)} {nearest : List (Vec K n) → Vec K n → Nat}

/-- the corners of the part of a cube at corner `c` -/
def partPositions (V : List (Vec K n)) (r : (List Nat × Nat) × List Bool) : List (Vec K n) :=
  (cubeIndices n).map fun b => centerOf V (gridFace r.1.1 (partPoint r.2 b))

theorem fundamentalPrecomp_ok (w : CWF n cubes t) (hn : 1 ≤ n) (hbox : ∀ l ∈ cubes, IsBox V l) :
    fundamentalPrecomp t V = .ok ((cubeParts n cubes).map fun r => (cubeIndices n).map (domOf t n r),
      (cubeParts n cubes).map fun r => cubeBasis (partPositions V r)) := by
  unfold fundamentalPrecomp
  rw [cubicalDomains_ok w hn, regular_bind, boxes_positions w hn hbox, regular_bind, w.lenB, domainPositions_ok w hn,
    regular_bind, List.map_map]
  rfl

/-- coordinate `q` of corner `c` of the box -/
def cornerAt (lo hi : Vec K n) (σ : Equiv.Perm (Fin n)) (c : List Bool) : Vec K n :=
  fun q => if c[(σ.symm q).val]? = some true then hi q else lo q

theorem part_posBox {r : (List Nat × Nat) × List Bool} {lo hi : Vec K n} {σ : Equiv.Perm (Fin n)}
    (hb : BoxAt V r.1.1 lo hi σ) (hl : r.1.1.length = 2 ^ n) (hr : r.2.length = n) :
    PosBox (partPositions V r) (cornerAt lo hi σ r.2) (fun q => (lo q + hi q) / 2) σ := by
  refine ⟨by simp [partPositions, cubeIndices_length], fun c hc q => ?_⟩
  unfold partPositions
  rw [List.getElem?_map, cubeIndices_ravel hc, Option.map_some, Option.getD_some,
    hb.center hl (partPoint_isPoint _ _) (partPoint_length hr hc), partPoint_get hr hc (σ.symm q).isLt, Option.getD_some]
  unfold cornerAt
  split
  · push_cast
    ring
  · have hs : (σ.symm q).val < r.2.length := by rw [hr]; exact (σ.symm q).isLt
    rw [List.getElem?_eq_getElem hs]
    cases r.2[(σ.symm q).val] <;> simp

/-- the part of a cube that a point is in -/
theorem exists_part (lo hi : Vec K n) (σ : Equiv.Perm (Fin n)) (p : Vec K n)
    (hp : ∀ q, |2 * p q - (lo q + hi q)| ≤ |hi q - lo q|) : ∃ c : List Bool, c.length = n ∧
      ∀ q, |p q - (cornerAt lo hi σ c q + (lo q + hi q) / 2) / 2| ≤ |hi q - lo q| / 4 := by
  refine ⟨List.ofFn fun a : Fin n => decide (|p (σ a) - hi (σ a)| ≤ |p (σ a) - lo (σ a)|), by simp, fun q => ?_⟩
  have hq := hp q
  unfold cornerAt
  rw [List.getElem?_ofFn, dif_pos (σ.symm q).isLt]
  simp only [Fin.eta, Equiv.apply_symm_apply, Option.some.injEq, decide_eq_true_eq]
  split
  · next h =>
    rw [abs_le] at hq ⊢
    rcases abs_cases (hi q - lo q) with ⟨e, h'⟩ | ⟨e, h'⟩ <;> rw [e] at hq ⊢ <;>
      rcases abs_cases (p q - hi q) with ⟨e1, h1⟩ | ⟨e1, h1⟩ <;> rcases abs_cases (p q - lo q) with ⟨e2, h2⟩ | ⟨e2, h2⟩ <;>
      rw [e1, e2] at h <;> constructor <;> linarith
  · next h =>
    rw [abs_le] at hq ⊢
    rw [not_le] at h
    rcases abs_cases (hi q - lo q) with ⟨e, h'⟩ | ⟨e, h'⟩ <;> rw [e] at hq ⊢ <;>
      rcases abs_cases (p q - hi q) with ⟨e1, h1⟩ | ⟨e1, h1⟩ <;> rcases abs_cases (p q - lo q) with ⟨e2, h2⟩ | ⟨e2, h2⟩ <;>
      rw [e1, e2] at h <;> constructor <;> linarith

/-- the fundamental domain that is picked, for one point -/
theorem query_part (w : CWF n cubes t) (hn : 1 ≤ n) (hbox : ∀ l ∈ cubes, IsBox V l)
    {o h : Vec K n} (hg : OnGrid V cubes o h) (hnear : NearestSite nearest) {p : Vec K n} (hp : ∃ l ∈ cubes, InBox V l p) :
    ∃ i b D j l v, queryCube nearest ((cubeParts n cubes).map fun r => cubeBasis (partPositions V r)) p = .ok (i, b) ∧
      ((cubeParts n cubes).map fun r => (cubeIndices n).map (domOf t n r))[i]? = some D ∧ D.length = 2 ^ n ∧
      D[2 ^ n - 1]? = some j ∧ cubes[j]? = some l ∧ InBox V l p ∧ D[0]? = some v ∧ v ∈ l ∧
      ∀ q, 0 ≤ b q ∧ b q ≤ 1 ∧ |p q - (V[v]?.getD 0) q| ≤ h q / 2 ∧ p q = (V[v]?.getD 0) q +
        b q * ((cornerPosition V l 0 q + cornerPosition V l (2 ^ n - 1) q) / 2 - (V[v]?.getD 0) q) := by
  have hcell : ∀ r ∈ cubeParts n cubes, ∃ lo hi : Vec K n, ∃ σ : Equiv.Perm (Fin n), (∀ q, lo q ≠ hi q) ∧
      BoxAt V r.1.1 lo hi σ ∧ r.1.1.length = 2 ^ n ∧
      cubeBasis (partPositions V r) = (fun q => (cornerAt lo hi σ r.2 q + (lo q + hi q) / 2) / 2, cornerAt lo hi σ r.2,
        fun q => (lo q + hi q) / 2 - cornerAt lo hi σ r.2 q) ∧
      ∀ q, |hi q - lo q| = h q ∧ ∃ z : ℤ, (cornerAt lo hi σ r.2 q + (lo q + hi q) / 2) / 2 = o q + (z + 1 / 2) * (h q / 2) := by
    intro r hr
    obtain ⟨h1, h2⟩ := mem_cubeParts.1 hr
    have hm := List.mem_of_getElem? h1
    have hl := (w.cube hn (le_refl n) ((stored_top w).2 h1)).1
    obtain ⟨lo, hi, σ, hne, hb⟩ := hbox _ hm
    have hb : BoxAt V r.1.1 lo hi σ := hb
    refine ⟨lo, hi, σ, hne, hb, hl, (part_posBox hb hl h2).basis, fun q => ?_⟩
    obtain ⟨z, hz⟩ := hg.2 _ hm q
    obtain ⟨g1, g2, g3⟩ := hb.cell hl (hne q) (hg.1 q) hz
    refine ⟨g1, ?_⟩
    unfold cornerAt
    rw [g2]
    rcases g3 with ⟨e1, e2⟩ | ⟨e1, e2⟩ <;> split
    · exact ⟨2 * z + 1, by rw [e2]; push_cast; ring⟩
    · exact ⟨2 * z, by rw [e1]; push_cast; ring⟩
    · exact ⟨2 * z, by rw [e1]; push_cast; ring⟩
    · exact ⟨2 * z + 1, by rw [e2]; push_cast; ring⟩
  set sites := (cubeParts n cubes).map fun r => (cubeBasis (partPositions V r)).1 with hsites
  obtain ⟨l, hl, hpl⟩ := hp
  obtain ⟨j, hj⟩ := List.mem_iff_getElem?.1 hl
  have hr0 : (((l, j), List.replicate n false) : (List Nat × Nat) × List Bool) ∈ cubeParts n cubes :=
    mem_cubeParts.2 ⟨hj, by simp⟩
  have hlen := (w.cube hn (le_refl n) ((stored_top w).2 hj)).1
  obtain ⟨lo, hi, σ, hne, hb⟩ := hbox l hl
  have hb : BoxAt V l lo hi σ := hb
  obtain ⟨c, hcl, hc⟩ := exists_part lo hi σ p ((inBox_iff hb hlen).1 hpl)
  have hr : (((l, j), c) : (List Nat × Nat) × List Bool) ∈ cubeParts n cubes := mem_cubeParts.2 ⟨hj, hcl⟩
  obtain ⟨x, hx, hxp⟩ := nearest_cell hnear (sites := sites) (o := o) (h := fun q => h q / 2)
    (fun q => half_pos (hg.1 q)) (by
      intro y hy q
      obtain ⟨r, hr, rfl⟩ := List.mem_map.1 hy
      obtain ⟨lo, hi, σ, -, -, -, hbs, hc⟩ := hcell r hr
      obtain ⟨-, z, hz⟩ := hc q
      exact ⟨z, by rw [hbs]; exact hz⟩) (p := p) (List.mem_map.2 ⟨_, hr, rfl⟩) (by
      intro q
      rw [(part_posBox (r := ((l, j), c)) hb hlen hcl).basis]
      have h1 := hc q
      obtain ⟨z, hz⟩ := hg.2 _ hl q
      rw [(hb.cell hlen (hne q) (hg.1 q) hz).1] at h1
      simp only
      linarith)
  rw [hsites, List.getElem?_map] at hx
  obtain ⟨r, hr', rfl⟩ := Option.map_eq_some_iff.1 hx
  have hm := List.mem_of_getElem? hr'
  obtain ⟨g1, g2⟩ := mem_cubeParts.1 hm
  obtain ⟨lo, hi, σ, hne, hb, hlen, hbs, hc⟩ := hcell r hm
  have hmem := List.mem_of_getElem? g1
  have hcorner : ∀ q, cornerPosition V r.1.1 0 q = lo q ∧ cornerPosition V r.1.1 (2 ^ n - 1) q = hi q := by
    intro q
    constructor
    · have := hb.coord hlen (c := List.replicate n false) (by simp) q
      unfold cubeAt at this
      rw [ravel_false, if_neg (by rw [List.getElem?_replicate]; split <;> simp)] at this
      exact this
    · have := hb.coord hlen (c := List.replicate n true) (by simp) q
      unfold cubeAt at this
      rw [ravel_true, if_pos (by rw [List.getElem?_replicate, if_pos (σ.symm q).isLt])] at this
      exact this
  have hin : ∀ q, cornerAt lo hi σ r.2 q ≠ (lo q + hi q) / 2 ∧
      |2 * p q - (cornerAt lo hi σ r.2 q + (lo q + hi q) / 2)| ≤ |(lo q + hi q) / 2 - cornerAt lo hi σ r.2 q| ∧
      |2 * p q - (lo q + hi q)| ≤ |hi q - lo q| ∧ |p q - cornerAt lo hi σ r.2 q| ≤ h q / 2 := by
    intro q
    have h1 := hxp q
    have h2 := (hc q).1
    have h3 := hne q
    rw [hbs] at h1
    simp only at h1
    have h4 : cornerAt lo hi σ r.2 q = hi q ∨ cornerAt lo hi σ r.2 q = lo q := by
      unfold cornerAt
      split
      · exact Or.inl rfl
      · exact Or.inr rfl
    rw [← h2] at h1 ⊢
    rcases h4 with e | e <;> rw [e] at h1 ⊢
    · refine ⟨fun e => h3 (by linarith), ?_, ?_, ?_⟩
      · have : (lo q + hi q) / 2 - hi q = -((hi q - lo q) / 2) := by ring
        rw [this, abs_neg, abs_div, abs_two]
        rw [abs_le] at h1 ⊢
        constructor <;> linarith
      · rw [abs_le] at h1 ⊢
        rcases abs_cases (hi q - lo q) with ⟨e, h'⟩ | ⟨e, h'⟩ <;> rw [e] at h1 ⊢ <;> constructor <;> linarith
      · rw [abs_le] at h1 ⊢
        rcases abs_cases (hi q - lo q) with ⟨e, h'⟩ | ⟨e, h'⟩ <;> rw [e] at h1 ⊢ <;> constructor <;> linarith
    · refine ⟨fun e => h3 (by linarith), ?_, ?_, ?_⟩
      · have : (lo q + hi q) / 2 - lo q = (hi q - lo q) / 2 := by ring
        rw [this, abs_div, abs_two]
        rw [abs_le] at h1 ⊢
        constructor <;> linarith
      · rw [abs_le] at h1 ⊢
        rcases abs_cases (hi q - lo q) with ⟨e, h'⟩ | ⟨e, h'⟩ <;> rw [e] at h1 ⊢ <;> constructor <;> linarith
      · rw [abs_le] at h1 ⊢
        rcases abs_cases (hi q - lo q) with ⟨e, h'⟩ | ⟨e, h'⟩ <;> rw [e] at h1 ⊢ <;> constructor <;> linarith
  have hc0 : (List.replicate n false).count true = 0 := by simp [List.count_replicate]
  obtain ⟨e, he1, he2, -⟩ := domOf_spec w hn hm (b := List.replicate n false) (by simp)
  obtain ⟨e', -, -, he3⟩ := domOf_spec w hn hm (b := List.replicate n true) (by simp)
  rw [hc0] at he1
  obtain rfl : e = [domOf t n r (List.replicate n false)] := by
    have h1 : Stored t 0 (domOf t n r (List.replicate n false)) [domOf t n r (List.replicate n false)] := by
      have := w.vertex_corner (by omega) he1.lt
      rw [← this]
      exact CWF.stored_corners (t := t) he1.lt
    exact he1.unique h1
  have hV : ∀ q, (V[domOf t n r (List.replicate n false)]?.getD 0) q = cornerAt lo hi σ r.2 q := by
    intro q
    have h1 := hb.center hlen (partPoint_isPoint r.2 (List.replicate n false)) (partPoint_length g2 (by simp)) q
    rw [centerOf_perm he2, partPoint_get g2 (by simp) (σ.symm q).isLt, Option.getD_some,
      if_neg (by rw [List.getElem?_replicate]; split <;> simp)] at h1
    simp only [centerOf, List.map_cons, List.map_nil, List.sum_cons, List.sum_nil, List.length_cons, List.length_nil,
      add_zero, zero_add, Nat.cast_one, div_one] at h1
    rw [h1]
    unfold cornerAt
    have hs : (σ.symm q).val < r.2.length := by rw [g2]; exact (σ.symm q).isLt
    rw [List.getElem?_eq_getElem hs]
    cases r.2[(σ.symm q).val] <;> simp
  refine ⟨nearest sites p, fun q => (p q - cornerAt lo hi σ r.2 q) / ((lo q + hi q) / 2 - cornerAt lo hi σ r.2 q),
    (cubeIndices n).map (domOf t n r), r.1.2, r.1.1, domOf t n r (List.replicate n false), ?_, ?_, ?_, ?_, g1,
    (inBox_iff hb hlen).2 fun q => (hin q).2.2.1, ?_, ?_, ?_⟩
  · unfold queryCube basisAt
    have : ((cubeParts n cubes).map fun r => cubeBasis (partPositions V r)).map Prod.fst = sites := by
      rw [List.map_map]; rfl
    have hl2 : (cubeParts n cubes)[nearest sites p]? = some r := hr'
    simp only [this, List.getElem?_map, hl2, Option.map_some, hbs]
    rfl
  · have hl2 : (cubeParts n cubes)[nearest sites p]? = some r := hr'
    rw [List.getElem?_map, hl2]
    rfl
  · rw [List.length_map, cubeIndices_length]
  · rw [List.getElem?_map, ← ravel_true, cubeIndices_ravel (by simp), Option.map_some, he3 (by simp)]
  · rw [List.getElem?_map, ← ravel_false n, cubeIndices_ravel (by simp), Option.map_some]
  · have h1 := he2.mem_iff.2 (List.mem_singleton.2 rfl)
    obtain ⟨c, hc1, hc2⟩ := mem_gridFace.1 h1
    have hcl : c.length = n := by
      rw [← partPoint_length g2 (c := List.replicate n false) (by simp)]
      exact (agrees_length hc1)
    rw [← hc2]
    have hlt := ravel_lt c
    rw [hcl, ← hlen] at hlt
    unfold cubeAt
    rw [List.getElem?_eq_getElem hlt, Option.getD_some]
    exact List.getElem_mem hlt
  · intro q
    rw [(hcorner q).1, (hcorner q).2, hV q]
    obtain ⟨k1, k2, k3, k4⟩ := hin q
    have := baries_mem k1 k2
    exact ⟨this.1, this.2.1, k4, this.2.2⟩

/-- C80: `pick_fundamental` finds for every point of the complex a fundamental domain that contains it: the part at the
vertex `v`, the first entry, of the cube `j`, the last entry; and its coordinates from the vertex to the center of the
cube -/
theorem C80_fundamental (hu : UniqSpec uniq) (hc : Cubes n cubes) (hn : 1 ≤ n) (ht : fromCubes uniq true n cubes = .ok t)
    (hbox : ∀ l ∈ cubes, IsBox V l) {o h : Vec K n} (hg : OnGrid V cubes o h) (hnear : NearestSite nearest)
    (points : List (Vec K n)) (hp : ∀ p ∈ points, ∃ l ∈ cubes, InBox V l p) :
    ∃ R Ds, pickFundamentalRegular nearest t V points none = .ok R ∧ cubicalDomains t = .ok Ds ∧
      R.length = points.length ∧ ∀ (k : Nat) (p : Vec K n), points[k]? = some p → ∃ D b j l v, R[k]? = some (D, b) ∧
        D ∈ Ds ∧ D.length = 2 ^ n ∧ D[2 ^ n - 1]? = some j ∧ cubes[j]? = some l ∧ InBox V l p ∧ D[0]? = some v ∧ v ∈ l ∧
        ∀ q, 0 ≤ b q ∧ b q ≤ 1 ∧ |p q - (V[v]?.getD 0) q| ≤ h q / 2 ∧ p q = (V[v]?.getD 0) q +
          b q * ((cornerPosition V l 0 q + cornerPosition V l (2 ^ n - 1) q) / 2 - (V[v]?.getD 0) q) := by
  have w := fromCubes_wf hu hc ht
  have hone : ∀ p ∈ points, ∃ D b j l v, (do
        let ib ← queryCube nearest ((cubeParts n cubes).map fun r => cubeBasis (partPositions V r)) p
        let row ← domainRow ((cubeParts n cubes).map fun r => (cubeIndices n).map (domOf t n r)) ib.1
        (.ok (row, ib.2) : Except PyErr (List Nat × Vec K n))) = .ok (D, b) ∧
      D ∈ ((cubeParts n cubes).map fun r => (cubeIndices n).map (domOf t n r)) ∧ D.length = 2 ^ n ∧
        D[2 ^ n - 1]? = some j ∧ cubes[j]? = some l ∧ InBox V l p ∧ D[0]? = some v ∧ v ∈ l ∧
        ∀ q, 0 ≤ b q ∧ b q ≤ 1 ∧ |p q - (V[v]?.getD 0) q| ≤ h q / 2 ∧ p q = (V[v]?.getD 0) q +
          b q * ((cornerPosition V l 0 q + cornerPosition V l (2 ^ n - 1) q) / 2 - (V[v]?.getD 0) q) := by
    intro p hpp
    obtain ⟨i, b, D, j, l, v, g1, g2, g3⟩ := query_part w hn hbox hg hnear (hp p hpp)
    refine ⟨D, b, j, l, v, ?_, List.mem_of_getElem? g2, g3⟩
    rw [g1, regular_bind]
    unfold domainRow
    simp only [g2]
    rfl
  have hall : ∃ R, pickFundamentalRegular nearest t V points none = .ok R := by
    unfold pickFundamentalRegular
    rw [fundamentalPrecomp_ok w hn hbox, regular_bind]
    classical
    refine ⟨_, mapM_ok _ (fun p => if h : p ∈ points then ((hone p h).choose, (hone p h).choose_spec.choose) else ([], 0)) _
      fun p hpp => ?_⟩
    rw [dif_pos hpp]
    exact (hone p hpp).choose_spec.choose_spec.choose_spec.choose_spec.choose_spec.1
  obtain ⟨R, hR⟩ := hall
  refine ⟨R, _, hR, cubicalDomains_ok w hn, ?_⟩
  unfold pickFundamentalRegular at hR
  rw [fundamentalPrecomp_ok w hn hbox, regular_bind] at hR
  obtain ⟨h1, h2⟩ := getElem?_mapM hR
  refine ⟨h1, fun k p hk => ?_⟩
  obtain ⟨x, hx, hq⟩ := h2 k p hk
  obtain ⟨D, b, j, l, v, g1, g2⟩ := hone p (List.mem_of_getElem? hk)
  rw [g1] at hq
  obtain rfl := Except.ok.inj hq
  exact ⟨D, b, j, l, v, hx, g2⟩

/-- C80: `pick_dual` finds for every point of the complex a vertex of a cube that contains the point, and no vertex of
any cube is nearer to the point -/
theorem C80_dual (hu : UniqSpec uniq) (hc : Cubes n cubes) (hn : 1 ≤ n) (ht : fromCubes uniq true n cubes = .ok t)
    (hbox : ∀ l ∈ cubes, IsBox V l) {o h : Vec K n} (hg : OnGrid V cubes o h) (hnear : NearestSite nearest)
    (points : List (Vec K n)) (hp : ∀ p ∈ points, ∃ l ∈ cubes, InBox V l p) :
    ∃ R, pickDualRegular nearest t V points = .ok R ∧ R.length = points.length ∧
      ∀ (k : Nat) (p : Vec K n), points[k]? = some p → ∃ v l, R[k]? = some v ∧ l ∈ cubes ∧ v ∈ l ∧ InBox V l p ∧
        ∀ l' ∈ cubes, ∀ x ∈ l', distanceSq (V[v]?.getD 0) p ≤ distanceSq (V[x]?.getD 0) p := by
  obtain ⟨R, Ds, hR, -, hlen, hget⟩ := C80_fundamental hu hc hn ht hbox hg hnear points hp
  have hM : (R.mapM fun rb : List Nat × Vec K n => match rb.1[0]? with
    | some v => (.ok v : Except PyErr Nat)
    | none => .error .indexError) = .ok (R.map fun rb => rb.1[0]?.getD 0) := by
    refine mapM_ok _ _ _ fun rb hrb => ?_
    obtain ⟨k, hk⟩ := List.mem_iff_getElem?.1 hrb
    have hkl := (List.getElem?_eq_some_iff.1 hk).1
    rw [hlen] at hkl
    obtain ⟨D, b, j, l, v, g1, g2, g3, g4, g5, g6, g7, g8⟩ := hget k _ (List.getElem?_eq_getElem hkl)
    rw [hk] at g1
    obtain rfl := Option.some.inj g1
    simp only [g7, Option.getD_some]
  refine ⟨R.map fun rb => rb.1[0]?.getD 0, ?_, by rw [List.length_map, hlen], fun k p hk => ?_⟩
  · unfold pickDualRegular
    rw [hR, regular_bind]
    exact hM
  · obtain ⟨D, b, j, l, v, g1, g2, g3, g4, g5, g6, g7, g8, g9⟩ := hget k p hk
    refine ⟨v, l, by rw [List.getElem?_map, g1, Option.map_some, g7, Option.getD_some], List.mem_of_getElem? g5, g8, g6, ?_⟩
    intro l' hl' x hx
    refine Finset.sum_le_sum fun q _ => ?_
    have hgrid : ∀ l ∈ cubes, ∀ v ∈ l, ∃ z : ℤ, (V[v]?.getD 0) q = (o q - h q / 2) + (z + 1 / 2) * h q := by
      intro l hl v hv
      obtain ⟨z, hz⟩ := hg.2 l hl q
      rcases hz v hv with e | e
      · exact ⟨z, by rw [e]; ring⟩
      · exact ⟨z + 1, by rw [e]; push_cast; ring⟩
    obtain ⟨z, hz⟩ := hgrid l (List.mem_of_getElem? g5) v g8
    obtain ⟨z', hz'⟩ := hgrid l' hl' x hx
    have := cell_far (hg.1 q) hz' hz (g9 q).2.2.1
    rw [sq_le_sq, abs_sub_comm _ (p q), abs_sub_comm _ (p q)]
    exact this

end Verif.Props
