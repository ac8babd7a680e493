/-
C84: dual 0-forms sampled on regular complexes.
-/
import Verif.Lemmas.RegularDualSample
import Verif.Props.RegularPickingGrid

set_option linter.unusedSectionVars false

namespace Verif.Props

open Verif Verif.Model Verif.Spec

variable {K : Type} [Field K] [LinearOrder K] [IsStrictOrderedRing K]
variable {uniq : List (List Nat) → List (List Nat)} {solve : List (List Int) → Option (List Int)}
variable {n : Nat} {cubes : List (List Nat)} {t : Topo} {s : Sub} {V : List (Vec K (n + 2))}
variable {nearest : List (Vec K (n + 2)) → Vec K (n + 2) → Nat}

/-- a part is picked for every point, and one that contains the point if a cube does -/
theorem pick_some_part {n : Nat} {V : List (Vec K n)} {nearest : List (Vec K n) → Vec K n → Nat} (w : CWF n cubes t) (hn : 1 ≤ n)
    (hne : cubes ≠ []) (hbox : ∀ l ∈ cubes, IsBox V l) {o h : Vec K n} (hg : OnGrid V cubes o h) (hnear : NearestSite nearest)
    (points : List (Vec K n)) :
    ∃ R, pickFundamentalRegular nearest t V points none = .ok R ∧ R.length = points.length ∧
      ∀ (k : Nat) (p : Vec K n), points[k]? = some p → ∃ r ∈ cubeParts n cubes, ∃ b : Vec K n,
        R[k]? = some ((cubeIndices n).map (domOf t n r), b) ∧ ((∃ l ∈ cubes, InBox V l p) → InBox V r.1.1 p ∧
          ∀ q, 0 ≤ b q ∧ b q ≤ 1 ∧ |p q - (V[cubeAt r.1.1 r.2]?.getD 0) q| ≤ h q / 2 ∧ p q = (V[cubeAt r.1.1 r.2]?.getD 0) q +
            b q * (cubeCenter V r.1.1 q - (V[cubeAt r.1.1 r.2]?.getD 0) q)) := by
  have hparts : cubeParts n cubes ≠ [] := by
    obtain ⟨l, hl⟩ := List.exists_mem_of_ne_nil _ hne
    obtain ⟨j, hj⟩ := List.mem_iff_getElem?.1 hl
    exact List.ne_nil_of_mem (a := ((l, j), List.replicate n false)) (mem_cubeParts.2 ⟨hj, by simp⟩)
  have hone : ∀ p : Vec K n, ∃ x : List Nat × Vec K n, (do
        let ib ← queryCube nearest ((cubeParts n cubes).map fun r => cubeBasis (partPositions V r)) p
        let row ← domainRow ((cubeParts n cubes).map fun r => (cubeIndices n).map (domOf t n r)) ib.1
        (.ok (row, ib.2) : Except PyErr (List Nat × Vec K n))) = .ok x ∧
      ∃ r ∈ cubeParts n cubes, x.1 = (cubeIndices n).map (domOf t n r) ∧ ((∃ l ∈ cubes, InBox V l p) → InBox V r.1.1 p ∧
          ∀ q, 0 ≤ x.2 q ∧ x.2 q ≤ 1 ∧ |p q - (V[cubeAt r.1.1 r.2]?.getD 0) q| ≤ h q / 2 ∧ p q = (V[cubeAt r.1.1 r.2]?.getD 0) q +
            x.2 q * (cubeCenter V r.1.1 q - (V[cubeAt r.1.1 r.2]?.getD 0) q)) := by
    intro p
    obtain ⟨x, hx, -⟩ := hnear (((cubeParts n cubes).map fun r => cubeBasis (partPositions V r)).map Prod.fst) p (by simpa using hparts)
    set i := nearest (((cubeParts n cubes).map fun r => cubeBasis (partPositions V r)).map Prod.fst) p with hi
    have hlt := (List.getElem?_eq_some_iff.1 hx).1
    simp only [List.length_map] at hlt
    have hr : (cubeParts n cubes)[i]? = some (cubeParts n cubes)[i] := List.getElem?_eq_getElem hlt
    have hq : queryCube nearest ((cubeParts n cubes).map fun r => cubeBasis (partPositions V r)) p =
        .ok (i, cubeBaries (cubeBasis (partPositions V (cubeParts n cubes)[i])) p) := by
      unfold queryCube basisAt
      simp only [← hi, List.getElem?_map, hr, Option.map_some]
      rfl
    refine ⟨((cubeIndices n).map (domOf t n (cubeParts n cubes)[i]),
      cubeBaries (cubeBasis (partPositions V (cubeParts n cubes)[i])) p), ?_, _, List.getElem_mem hlt, rfl, fun hp => ?_⟩
    · rw [hq, regular_bind]
      unfold domainRow
      simp only [List.getElem?_map, hr, Option.map_some]
      rfl
    · obtain ⟨i', b, D, j, l, v, g1, g2, -, g4, g5, g6, g7, g8, g9⟩ := query_part w hn hbox hg hnear hp
      rw [hq] at g1
      obtain ⟨rfl, rfl⟩ := Prod.mk.inj (Except.ok.inj g1)
      rw [List.getElem?_map, hr, Option.map_some] at g2
      obtain rfl := Option.some.inj g2
      have hrm : (cubeParts n cubes)[i] ∈ cubeParts n cubes := List.getElem_mem hlt
      generalize (cubeParts n cubes)[i] = r at *
      have hl1 : (List.replicate n true).length = n := by simp
      have hl0 : (List.replicate n false).length = n := by simp
      have e1 := cubeIndices_ravel hl1
      have e0 := cubeIndices_ravel hl0
      rw [ravel_true] at e1
      rw [ravel_false] at e0
      rw [List.getElem?_map, e1, Option.map_some] at g4
      rw [List.getElem?_map, e0, Option.map_some, (part_vertex w hn hrm).1] at g7
      obtain ⟨-, -, -, htop⟩ := domOf_spec w hn hrm hl1
      rw [htop (by simp)] at g4
      obtain rfl := Option.some.inj g4
      obtain rfl := Option.some.inj g7
      rw [(mem_cubeParts.1 hrm).1] at g5
      obtain rfl := Option.some.inj g5
      exact ⟨g6, g9⟩
  choose g hgg using hone
  have hR : pickFundamentalRegular nearest t V points none = .ok (points.map g) := by
    unfold pickFundamentalRegular
    rw [fundamentalPrecomp_ok w hn hbox, regular_bind]
    exact mapM_ok _ _ _ fun p _ => (hgg p).1
  refine ⟨_, hR, by simp, fun k p hk => ?_⟩
  obtain ⟨-, r, hr, h1, h2⟩ := hgg p
  exact ⟨r, hr, (g p).2, by rw [List.getElem?_map, hk, Option.map_some, ← h1], h2⟩

/-- the values of `sample_dual_0` -/
theorem sample_dual_points {n : Nat} {V : List (Vec K n)} {nearest : List (Vec K n) → Vec K n → Nat} (w : CWF n cubes t) (hn : 1 ≤ n)
    (hne : cubes ≠ []) (hbox : ∀ l ∈ cubes, IsBox V l) {o h : Vec K n} (hg : OnGrid V cubes o h) (hnear : NearestSite nearest)
    {ms : List (Mat Int)} (hms : cubicalDual solve uniq t = .ok ms)
    {d0 : List K} {out : List (List K)} {parents : List (List Nat)} {cell bcell : Nat → List Nat → List K}
    (hout : averageDual ms d0 = .ok out) (hd : cubes.length ≤ d0.length) (hlen : out.length = n + 1) (h0 : out[0]? = some d0)
    (hlev : ∀ d k, d + 1 + k = n → ∃ o, out[d + 1]? = some o ∧ o = dualLevel t.elements parents cell bcell k)
    (points : List (Vec K n)) :
    ∃ R, sampleDualRegular solve uniq nearest t V d0 points = .ok R ∧ R.length = points.length ∧
      ∀ (k : Nat) (p : Vec K n), points[k]? = some p → ∃ r ∈ cubeParts n cubes, ∃ b : Vec K n,
        R[k]? = some (samplePrimal0 (partValue t n cell d0 r) (List.ofFn b)) ∧ ((∃ l ∈ cubes, InBox V l p) → InBox V r.1.1 p ∧
          ∀ q, 0 ≤ b q ∧ b q ≤ 1 ∧ |p q - (V[cubeAt r.1.1 r.2]?.getD 0) q| ≤ h q / 2 ∧ p q = (V[cubeAt r.1.1 r.2]?.getD 0) q +
            b q * (cubeCenter V r.1.1 q - (V[cubeAt r.1.1 r.2]?.getD 0) q)) := by
  obtain ⟨P, hP, hPl, hPg⟩ := pick_some_part w hn hne hbox hg hnear points
  have hone : ∀ rb ∈ P, ∃ y : K, (do
      let bary := (List.ofFn rb.2).map clip01
      let terms ← (cubeCorners t.boundary.length).mapM fun c => do
        let x ← dualFormAt out.reverse rb.1 c
        .ok (x * cornerWeight bary c)
      (.ok terms.sum : Except PyErr K)) = .ok y := by
    intro rb hrb
    obtain ⟨k, hk⟩ := List.mem_iff_getElem?.1 hrb
    have hkl := (List.getElem?_eq_some_iff.1 hk).1
    rw [hPl] at hkl
    obtain ⟨r, hr, b, h1, -⟩ := hPg k _ (List.getElem?_eq_getElem hkl)
    rw [hk] at h1
    obtain rfl := Option.some.inj h1
    exact ⟨_, sample_part w hn hr hd hlen h0 hlev b⟩
  choose! g hgg using hone
  have hM := mapM_ok _ g P hgg
  have hS : sampleDualRegular solve uniq nearest t V d0 points = .ok (P.map g) := by
    unfold sampleDualRegular
    rw [hms, regular_bind, hout, regular_bind]
    simp only
    rw [hP, regular_bind]
    exact hM
  refine ⟨_, hS, by simpa using hPl, fun k p hk => ?_⟩
  obtain ⟨r, hr, b, h1, h2⟩ := hPg k p hk
  refine ⟨r, hr, b, ?_, h2⟩
  have h3 := hgg _ (List.mem_of_getElem? h1)
  rw [sample_part w hn hr hd hlen h0 hlev b] at h3
  rw [List.getElem?_map, h1, Option.map_some, ← Except.ok.inj h3]

/-- the values at the corners of a part are between bounds -/
theorem partValue_bounds (hu : UniqSpec uniq) (hc : Cubes (n + 2) cubes) (h : fromCubes uniq true (n + 2) cubes = .ok t)
    {F : List (List Nat)} (hF : ∀ g ∈ F, g ∈ t.elements[n + 1]?.getD []) {x : Nat → K} {d0 : List K}
    (hd : ∀ j, d0[j]?.getD 0 = x j) {r : (List Nat × Nat) × List Bool} (hr : r ∈ cubeParts (n + 2) cubes) {a b : K}
    (hab : ∀ y ∈ dualCubeCell (n + 2) 0 cubes F [cubeAt r.1.1 r.2] x, a ≤ y ∧ y ≤ b) {c : List Nat} (hcc : c ∈ cubeCorners (n + 2)) :
    a ≤ partValue t (n + 2) (fun k e => dualCubeCell (n + 2) k cubes F e x) d0 r c ∧
      partValue t (n + 2) (fun k e => dualCubeCell (n + 2) k cubes F e x) d0 r c ≤ b := by
  have w := fromCubes_wf hu hc h
  obtain ⟨h1, h2⟩ := mem_cubeParts.1 hr
  have hm := List.mem_of_getElem? h1
  obtain ⟨hcl, h01⟩ := (C44_corners (n + 2) c).1.1 hcc
  have hsum := corner_sum h01
  have hbl : (c.map fun x => x == 1).length = n + 2 := by simpa using hcl
  have hle : c.sum ≤ n + 2 := by
    rw [hsum, ← hbl]
    exact List.count_le_length
  have hvl : cubeAt r.1.1 r.2 ∈ r.1.1 := cubeAt_mem (hc _ hm).1 h2
  unfold partValue
  split
  · refine hab _ (List.mem_append_left _ (List.mem_map.2 ⟨r.1.2, ?_, (hd _).symm⟩))
    unfold cubesAround
    rw [List.mem_filter, List.mem_range]
    refine ⟨(List.getElem?_eq_some_iff.1 h1).1, ?_⟩
    rw [h1, Option.getD_some, hasFace_iff (k := 0) (by simp) (by rw [(hc _ hm).1]; congr 1; omega) (hc _ hm).2,
      show 0 + (n + 2 - 0) = n + 2 by omega, faceOf_vertex (hc _ hm).1]
    exact hvl
  · next hne =>
    obtain ⟨e, he, hper, -⟩ := domOf_spec w (by omega) hr hbl
    rw [← hsum] at he
    have hst : (t.elements[c.sum]?.getD [])[domOf t (n + 2) r (c.map fun x => x == 1)]? = some e := he
    have hel := (w.cube (by omega) hle he).1
    have hve := (part_vertex w (by omega) hr).2 _ e hbl hper
    rw [hst, Option.getD_some]
    refine mean_between ?_ fun y hy => hab y ?_
    · obtain ⟨E, hE⟩ : ∃ E, t.elements[c.sum]? = some E := by
        cases hE : t.elements[c.sum]? with
        | none => rw [hE] at hst; simp at hst
        | some E => exact ⟨E, rfl⟩
      rw [hE, Option.getD_some] at hst
      have := cubesAround_ne_nil hu hc (by omega) h hle hE (List.mem_of_getElem? hst)
      intro hnil
      exact this (List.map_eq_nil_iff.1 (List.append_eq_nil_iff.1 hnil).1)
    · rcases List.mem_append.1 hy with hy | hy
      · obtain ⟨j, hj, rfl⟩ := List.mem_map.1 hy
        exact List.mem_append_left _ (List.mem_map.2 ⟨j, cubesAround_corner hle (fun l hl => (hc l hl).1) (fun l hl => (hc l hl).2)
          hel hve hj, rfl⟩)
      · obtain ⟨j, hj, rfl⟩ := List.mem_map.1 hy
        have hFc : ∀ g ∈ F, g.length = 2 ^ (n + 1) ∧ g.Nodup := by
          intro g hg
          obtain ⟨i, hi⟩ := List.mem_iff_getElem?.1 (hF g hg)
          exact w.cube (by omega) (by omega : n + 1 ≤ n + 2) hi
        exact List.mem_append_right _ (List.mem_map.2 ⟨j, cubesAround_corner (n := n + 1) (by omega) (fun l hl => (hFc l hl).1)
          (fun l hl => (hFc l hl).2) hel hve hj, rfl⟩)

/-- C84: a dual 0-form with values for the cubes and for the sides at the boundary can be sampled at any points, and the
value is between the smallest and the largest of the values at the vertices of the dual cell of a vertex of the mesh; this
is a corner of a cube with the point, at most half a cell away, if there is a cube with the point -/
theorem C84_bounds (hu : UniqSpec uniq) (hc : Cubes (n + 2) cubes) (hsat : SatSpec solve)
    (ht : fromCubes uniq true (n + 2) cubes = .ok t) (hn : n + 2 ≤ 5) (h2 : SidesAtMostTwo (n + 1) cubes)
    (hb : cubicalBoundary solve uniq t = .ok (some s)) {ms : List (Mat Int)} (hd : cubicalDual solve uniq t = .ok ms)
    (hord : InOrder s.parentIdx) (hne : cubes ≠ []) (hbox : ∀ l ∈ cubes, IsBox V l) {o h : Vec K (n + 2)} (hg : OnGrid V cubes o h)
    (hnear : NearestSite nearest) :
    ∃ F, F.Sublist (t.elements[n + 1]?.getD []) ∧ (∀ e ∈ t.elements[n + 1]?.getD [], e ∈ F ↔ BoundarySide (n + 1) cubes e) ∧
    ∀ (d0 : List K) (points : List (Vec K (n + 2))),
      (d0.length = cubes.length + F.length → ∃ R, sampleDualRegular solve uniq nearest t V d0 points = .ok R ∧
        R.length = points.length ∧ ∀ (k : Nat) (p : Vec K (n + 2)), points[k]? = some p → ∃ y l v, R[k]? = some y ∧ l ∈ cubes ∧ v ∈ l ∧
          ((∃ l' ∈ cubes, InBox V l' p) → InBox V l p ∧ ∀ q, |p q - (V[v]?.getD 0) q| ≤ h q / 2) ∧
          ∀ a b : K, (∀ x ∈ dualCubeCell (n + 2) 0 cubes F [v] fun j => d0[j]?.getD 0, a ≤ x ∧ x ≤ b) → a ≤ y ∧ y ≤ b) ∧
      (d0.length ≠ cubes.length + F.length → sampleDualRegular solve uniq nearest t V d0 points = .error .valueError) := by
  have w := fromCubes_wf hu hc ht
  obtain ⟨F, hF1, hF2, hF3⟩ := C83_open_cubes (K := K) hu hc hsat ht h2 hb hd hord
  refine ⟨F, hF1, hF2, fun d0 points => ⟨fun hlen => ?_, fun hlen => ?_⟩⟩
  · obtain ⟨out, g1, g2, g3, g4⟩ := (hF3 d0).1 hlen
    obtain ⟨R, hR, hRl, hRg⟩ := sample_dual_points w (by omega) hne hbox hg hnear hd g1 (by omega) g2 g3
      (fun d k hdk => by
        obtain ⟨o, ho, ho', -⟩ := g4 d k hdk
        exact ⟨o, ho, ho' (by omega)⟩) points
    refine ⟨R, hR, hRl, fun k p hk => ?_⟩
    obtain ⟨r, hr, b, h3, h4⟩ := hRg k p hk
    have hm := List.mem_of_getElem? (mem_cubeParts.1 hr).1
    refine ⟨_, r.1.1, cubeAt r.1.1 r.2, h3, hm, cubeAt_mem (hc _ hm).1 (mem_cubeParts.1 hr).2,
      fun hp => ⟨(h4 hp).1, fun q => ((h4 hp).2 q).2.2.1⟩, fun a b' hab => ?_⟩
    refine C44_bounds _ _ _ _ fun c hcc => ?_
    rw [List.length_ofFn] at hcc
    exact partValue_bounds hu hc ht (fun g hg => hF1.subset hg) (fun _ => rfl) hr hab hcc
  · unfold sampleDualRegular
    rw [hd, regular_bind, (hF3 d0).2 hlen]
    rfl

/-- C84: constants are kept, at any points -/
theorem C84_constant (hu : UniqSpec uniq) (hc : Cubes (n + 2) cubes) (hsat : SatSpec solve)
    (ht : fromCubes uniq true (n + 2) cubes = .ok t) (hn : n + 2 ≤ 5) (h2 : SidesAtMostTwo (n + 1) cubes)
    (hb : cubicalBoundary solve uniq t = .ok (some s)) {ms : List (Mat Int)} (hd : cubicalDual solve uniq t = .ok ms)
    (hord : InOrder s.parentIdx) (hne : cubes ≠ []) (hbox : ∀ l ∈ cubes, IsBox V l) {o h : Vec K (n + 2)} (hg : OnGrid V cubes o h)
    (hnear : NearestSite nearest) : ∃ m, ∀ (x : K) (points : List (Vec K (n + 2))),
      sampleDualRegular solve uniq nearest t V (List.replicate m x) points = .ok (points.map fun _ => x) := by
  obtain ⟨F, hF1, hF2, hF3⟩ := C84_bounds hu hc hsat ht hn h2 hb hd hord hne hbox hg hnear
  refine ⟨cubes.length + F.length, fun x points => ?_⟩
  obtain ⟨R, hR, hRl, hRg⟩ := (hF3 (List.replicate (cubes.length + F.length) x) points).1 (by simp)
  rw [hR]
  congr 1
  refine List.ext_getElem? fun k => ?_
  rw [List.getElem?_map]
  cases hk : points[k]? with
  | none =>
    rw [Option.map_none, List.getElem?_eq_none_iff, hRl]
    exact List.getElem?_eq_none_iff.1 hk
  | some p =>
    obtain ⟨y, l, v, h1, hl, hv, -, h3⟩ := hRg k p hk
    rw [h1, Option.map_some]
    congr 1
    have := h3 x x fun z hz => ?_
    · exact le_antisymm this.2 this.1
    · rcases List.mem_append.1 hz with hz | hz
      · obtain ⟨j, hj, rfl⟩ := List.mem_map.1 hz
        have hjl : j < cubes.length := List.mem_range.1 (List.mem_filter.1 hj).1
        rw [List.getElem?_replicate, if_pos (by omega)]
        simp
      · obtain ⟨j, hj, rfl⟩ := List.mem_map.1 hz
        have hjl : j < F.length := List.mem_range.1 (List.mem_filter.1 hj).1
        simp only
        rw [List.getElem?_replicate, if_pos (by omega)]
        simp

/-- the values at the corners of a part are those of a function that is affine in every coordinate -/
theorem partValue_exact (hu : UniqSpec uniq) (hc : Cubes (n + 2) cubes) (ht : fromCubes uniq true (n + 2) cubes = .ok t)
    (hbox : ∀ l ∈ cubes, IsBox V l) (hup : ∀ l ∈ cubes, Upright V l) {o h : Vec K (n + 2)} (hg : OnGrid V cubes o h)
    (hsep : Separate V cubes) {F : List (List Nat)} (hF : ∀ g ∈ F, g.length = 2 ^ (n + 1) ∧ g.Nodup ∧ BoundarySide (n + 1) cubes g)
    {f : Vec K (n + 2) → K} (hf : AffineInEach f) {d0 : List K}
    (hd : ∀ (j : Nat) (l : List Nat), cubes[j]? = some l → d0[j]? = some (f (cubeCenter V l)))
    {r : (List Nat × Nat) × List Bool} (hr : r ∈ cubeParts (n + 2) cubes)
    (har : Around V cubes h (V[cubeAt r.1.1 r.2]?.getD 0)) {c : List Nat} (hcc : c ∈ cubeCorners (n + 2)) :
    partValue t (n + 2) (fun k e => dualCubeCell (n + 2) k cubes F e fun j => d0[j]?.getD 0) d0 r c =
      f fun q => (V[cubeAt r.1.1 r.2]?.getD 0) q + ((c[q.val]?.getD 0 : Nat) : K) *
        (cubeCenter V r.1.1 q - (V[cubeAt r.1.1 r.2]?.getD 0) q) := by
  have w := fromCubes_wf hu hc ht
  have hlen : ∀ l ∈ cubes, l.length = 2 ^ (n + 2) := fun l hl => (hc l hl).1
  have hnd : ∀ l ∈ cubes, l.Nodup := fun l hl => (hc l hl).2
  obtain ⟨h1, h2⟩ := mem_cubeParts.1 hr
  have hm := List.mem_of_getElem? h1
  obtain ⟨hcl, h01⟩ := (C44_corners (n + 2) c).1.1 hcc
  have hsum := corner_sum h01
  have hbl : (c.map fun x => x == 1).length = n + 2 := by simpa using hcl
  have hle : c.sum ≤ n + 2 := by
    rw [hsum, ← hbl]
    exact List.count_le_length
  obtain ⟨lo, hi, σ, hlohi, hb⟩ := hbox _ hm
  have hb : BoxAt V r.1.1 lo hi σ := hb
  obtain rfl := upright_refl hb hlohi (hlen _ hm) (hup _ hm)
  have hcen : ∀ q, cubeCenter V r.1.1 q = (lo q + hi q) / 2 := by
    intro q
    have e0 := hb.coord (hlen _ hm) (c := List.replicate (n + 2) false) (by simp) q
    have e1 := hb.coord (hlen _ hm) (c := List.replicate (n + 2) true) (by simp) q
    unfold cubeAt at e0 e1
    rw [ravel_false, if_neg (by rw [List.getElem?_replicate]; split <;> simp)] at e0
    rw [ravel_true, if_pos (by rw [List.getElem?_replicate, if_pos ((Equiv.refl (Fin (n + 2))).symm q).isLt])] at e1
    unfold cubeCenter cornerPosition
    rw [e0, e1]
  have hpos : (fun q => (V[cubeAt r.1.1 r.2]?.getD 0) q + ((c[q.val]?.getD 0 : Nat) : K) *
      (cubeCenter V r.1.1 q - (V[cubeAt r.1.1 r.2]?.getD 0) q)) =
      centerOf V (gridFace r.1.1 (partPoint r.2 (c.map fun x => x == 1))) := by
    funext q
    rw [hb.center (hlen _ hm) (partPoint_isPoint _ _) (partPoint_length h2 hbl), hcen, hb.coord (hlen _ hm) h2]
    simp only [Equiv.refl_symm, Equiv.refl_apply]
    rw [partPoint_get h2 hbl q.isLt, Option.getD_some]
    have hq : q.val < c.length := by rw [hcl]; exact q.isLt
    have hq' : q.val < r.2.length := by rw [h2]; exact q.isLt
    simp only [List.getElem?_map, List.getElem?_eq_getElem hq, List.getElem?_eq_getElem hq',
      Option.map_some, Option.getD_some]
    rcases h01 c[q.val] (List.getElem_mem hq) with e | e <;> rw [e] <;> cases r.2[q.val] <;> simp <;> ring
  rw [hpos]
  unfold partValue
  split
  · next hs =>
    rw [hd _ _ h1, Option.getD_some]
    congr 1
    rw [← hpos]
    funext q
    have hall : ∀ x ∈ c, x = 1 := by
      have hcnt : (c.map fun x => x == 1).count true = (c.map fun x => x == 1).length := by rw [← hsum, hs, hbl]
      rw [List.count_eq_length] at hcnt
      intro x hx
      have := hcnt _ (List.mem_map.2 ⟨x, hx, rfl⟩)
      simpa using this.symm
    have hq : q.val < c.length := by rw [hcl]; exact q.isLt
    rw [List.getElem?_eq_getElem hq, Option.getD_some, hall _ (List.getElem_mem hq)]
    push_cast
    ring
  · next hs =>
    obtain ⟨e, he, hper, -⟩ := domOf_spec w (by omega) hr hbl
    rw [← hsum] at he
    have hst : (t.elements[c.sum]?.getD [])[domOf t (n + 2) r (c.map fun x => x == 1)]? = some e := he
    have hel := (w.cube (by omega) hle he).1
    have hve := (part_vertex w (by omega) hr).2 _ e hbl hper
    rw [hst, Option.getD_some, centerOf_perm hper]
    have hno : cubesAround (n + 1) c.sum F e = [] := by
      rw [List.eq_nil_iff_forall_not_mem]
      intro j hj
      have hj0 := cubesAround_corner (n := n + 1) (by omega) (fun g hg => (hF g hg).1) (fun g hg => (hF g hg).2.1) hel hve hj
      unfold cubesAround at hj0
      rw [List.mem_filter, List.mem_range] at hj0
      obtain ⟨hj1, hj2⟩ := hj0
      have hgm := List.getElem_mem hj1
      obtain ⟨hgl, hgn, hbd⟩ := hF _ hgm
      rw [List.getElem?_eq_getElem hj1, Option.getD_some, hasFace_iff (k := 0) (by simp) (by rw [hgl]; congr 1; omega) hgn,
        show 0 + (n + 1 - 0) = n + 1 by omega, faceOf_vertex hgl] at hj2
      exact no_boundary hlen hnd hbox hup hg hsep rfl hgl hbd hj2 har
    have := around_mean hlen hnd hbox hup hg hsep hm (partPoint_length h2 hbl) (partPoint_isPoint _ _) hle hper hel hve har hf
    rw [← this]
    unfold dualCubeCell
    simp only [show n + 2 - 1 = n + 1 from rfl]
    rw [hno, List.map_nil, List.append_nil]
    congr 1
    refine List.map_congr_left fun j hj => ?_
    have hjl : j < cubes.length := List.mem_range.1 (List.mem_filter.1 hj).1
    rw [hd j _ (List.getElem?_eq_getElem hjl), Option.getD_some, List.getElem?_eq_getElem hjl, Option.getD_some]

/-- C84: well inside of the grid a function that is affine in every coordinate is given by its values at the middles of the
cubes: `sample_dual_0` gives its values, whatever the values at the boundary are -/
theorem C84_exact (hu : UniqSpec uniq) (hc : Cubes (n + 2) cubes) (hsat : SatSpec solve)
    (ht : fromCubes uniq true (n + 2) cubes = .ok t) (hn : n + 2 ≤ 5)
    (hb : cubicalBoundary solve uniq t = .ok (some s)) {ms : List (Mat Int)} (hd : cubicalDual solve uniq t = .ok ms)
    (hord : InOrder s.parentIdx) (hne : cubes ≠ []) (hbox : ∀ l ∈ cubes, IsBox V l) (hup : ∀ l ∈ cubes, Upright V l)
    {o h : Vec K (n + 2)} (hg : OnGrid V cubes o h) (hsep : Separate V cubes) (hnear : NearestSite nearest) :
    ∃ m, ∀ (f : Vec K (n + 2) → K) (edge : List K) (points : List (Vec K (n + 2))), AffineInEach f → edge.length = m →
      (∀ p ∈ points, WellInside V cubes h p) →
      sampleDualRegular solve uniq nearest t V ((cubes.map fun l => f (cubeCenter V l)) ++ edge) points = .ok (points.map f) := by
  have w := fromCubes_wf hu hc ht
  have h2 : SidesAtMostTwo (n + 1) cubes :=
    sides_two (fun l hl => (hc l hl).1) (fun l hl => (hc l hl).2) hbox hup hg hsep rfl
  obtain ⟨F, hF1, hF2, hF3⟩ := C83_open_cubes (K := K) hu hc hsat ht h2 hb hd hord
  refine ⟨F.length, fun f edge points hf he hp => ?_⟩
  set d0 := (cubes.map fun l => f (cubeCenter V l)) ++ edge with hd0
  obtain ⟨out, g1, g2, g3, g4⟩ := (hF3 d0).1 (by simp [hd0, he])
  obtain ⟨R, hR, hRl, hRg⟩ := sample_dual_points w (by omega) hne hbox hg hnear hd g1 (by simp [hd0]) g2 g3
    (fun d k hdk => by
      obtain ⟨o, ho, ho', -⟩ := g4 d k hdk
      exact ⟨o, ho, ho' (by omega)⟩) points
  rw [hR]
  congr 1
  refine List.ext_getElem? fun k => ?_
  rw [List.getElem?_map]
  cases hk : points[k]? with
  | none =>
    rw [Option.map_none, List.getElem?_eq_none_iff, hRl]
    exact List.getElem?_eq_none_iff.1 hk
  | some p =>
    obtain ⟨r, hr, b, h3, h4⟩ := hRg k p hk
    rw [h3, Option.map_some]
    congr 1
    have hpin := hp p (List.mem_of_getElem? hk)
    have hin : ∃ l ∈ cubes, InBox V l p := by
      obtain ⟨ρ, hρ, hy⟩ := hpin
      refine hy p fun q => ?_
      rw [sub_self, abs_zero]
      have := hg.1 q
      have := hρ q
      linarith
    obtain ⟨-, h5⟩ := h4 hin
    have hm := List.mem_of_getElem? (mem_cubeParts.1 hr).1
    have hv := cubeAt_mem (hc _ hm).1 (mem_cubeParts.1 hr).2
    have har := around_of_inside (fun l hl => (hc l hl).1) hbox hup hg hpin hm hv fun q => (h5 q).2.2.1
    have hex := C44_multilinear_exact (fun x : List K => f fun q => (V[cubeAt r.1.1 r.2]?.getD 0) q + x[q.val]?.getD 0 *
      (cubeCenter V r.1.1 q - (V[cubeAt r.1.1 r.2]?.getD 0) q)) (List.ofFn b)
      (by rw [List.length_ofFn]; exact affine_box hf _ _) (by
        intro y hy
        obtain ⟨q, rfl⟩ := (List.mem_ofFn' b y).1 hy
        exact ⟨(h5 q).1, (h5 q).2.1⟩)
    have hfin : (fun q : Fin (n + 2) => (V[cubeAt r.1.1 r.2]?.getD 0) q + (List.ofFn b)[q.val]?.getD 0 *
        (cubeCenter V r.1.1 q - (V[cubeAt r.1.1 r.2]?.getD 0) q)) = p := by
      funext q
      rw [List.getElem?_ofFn, dif_pos q.isLt, Option.getD_some]
      exact (h5 q).2.2.2.symm
    rw [hfin] at hex
    rw [← hex]
    unfold samplePrimal0
    simp only [List.length_map, List.length_ofFn]
    congr 1
    refine List.map_congr_left fun c hcc => ?_
    congr 1
    rw [partValue_exact hu hc ht hbox hup hg hsep (fun g hg' => ?_) hf (fun j l hj => ?_) hr har hcc]
    · congr 1
      funext q
      rw [List.getElem?_map]
      cases c[q.val]? <;> simp
    · have hgm := hF1.subset hg'
      obtain ⟨i, hi⟩ := List.mem_iff_getElem?.1 hgm
      obtain ⟨e1, e2⟩ := w.cube (by omega) (by omega : n + 1 ≤ n + 2) (show Stored t (n + 1) i g from hi)
      exact ⟨e1, e2, (hF2 g hgm).1 hg'⟩
    · rw [hd0, List.getElem?_append_left (by simpa using (List.getElem?_eq_some_iff.1 hj).1), List.getElem?_map, hj, Option.map_some]

end Verif.Props
