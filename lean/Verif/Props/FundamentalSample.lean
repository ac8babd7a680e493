/-
C87: looking up fundamental domains in the plane, and interpolating dual 0-forms over them.
-/
import Verif.Props.FundamentalPick

set_option linter.unusedSectionVars false

namespace Verif.Props

open Verif.Model Verif.Spec

section

variable {D : Nat} {uniq : List (List Nat) → List (List Nat)}
  {solve : List (List Int) → Option (List Int)}
  {eigh : (n : Nat) → Matrix (Fin n) (Fin n) ℝ → Eigh n ℝ} {ratio : ℝ} {m : Nat}
  {minres : Mat Int → List ℝ → List ℝ} {nearest : List (List ℝ) → List ℝ → Nat}
  {simplices : List (List Nat)} {t : Topo} {W : Option (List ℝ)} {y : Finset Nat → Nat → ℝ}
  {rows : List (List Nat)} {t' : Topo} {w : List ℝ} {y' : Finset Nat → Nat → ℝ}

/-- `pick_fundamental` raises if the subdivision is not pairwise Delaunay -/
theorem SubInput.rejects {V V' : List (Vec ℝ D)} {ctr ctr' : Finset Nat → Fin D → ℝ}
    (h : SubInput uniq eigh ratio (m + 2) simplices t V W y ctr rows t' V' w y' ctr')
    (hbad : isPairwiseDelaunay eigh ratio t' V' (some w) = .ok false) (points : List (Vec ℝ D))
    (hints : Option (List Nat)) :
    pickFundamental solve uniq eigh ratio minres nearest t V W points hints = .error .assertionError := by
  obtain ⟨doms, hd, -⟩ := C87_center h
  obtain ⟨X, L, hX, hL, -⟩ := excess_sums h.parent (by omega)
  unfold pickFundamental isPairwiseDelaunay
  rw [hX]
  simp only [bind, Except.bind]
  rw [hL]
  simp only
  split
  · rfl
  · rw [h.divided]
    simp only
    rw [h.weighted, hd]
    simp only
    have : pickPrimal solve uniq eigh ratio minres nearest t' V' (some w) points hints true =
        .error .assertionError := by
      unfold pickPrimal
      rw [hbad]
      rfl
    rw [this]

/-- C87: if the ends of an edge of a triangle mesh get weights that are too large for the length of the edge,
`pick_fundamental` raises an `AssertionError`, whatever the points are, and `sample_dual_0` never returns -/
theorem C87_plane_rejects {V V' : List (Vec ℝ D)} {ctr ctr' : Finset Nat → Fin D → ℝ}
    (h : SubInput uniq eigh ratio 2 simplices t V none y ctr rows t' V' w y' ctr')
    {e : List Nat} (he : e ∈ t.elements[1]?.getD [])
    (hlong : edgeSquare V e / 2 ≤ weightAt (some w) (e[0]?.getD 0) + weightAt (some w) (e[1]?.getD 0))
    (points : List (Vec ℝ D)) :
    (∀ hints, pickFundamental solve uniq eigh ratio minres nearest t V none points hints = .error .assertionError) ∧
    ∀ d0, ∃ e, sampleDualSimplex solve uniq eigh ratio minres nearest t V none d0 points = .error e := by
  obtain ⟨b, hb, hiff⟩ := C87_plane_delaunay h
  have hf : b = false := by
    cases b with
    | false => rfl
    | true => exact absurd (hiff.1 rfl e he) (not_lt.2 hlong)
  subst hf
  refine ⟨fun hints => h.rejects hb points hints, fun d0 => ?_⟩
  unfold sampleDualSimplex
  simp only [bind, Except.bind]
  cases simplicialDual solve uniq t with
  | error e => exact ⟨e, rfl⟩
  | ok ms =>
    simp only
    cases averageDual ms d0 with
    | error e => exact ⟨e, rfl⟩
    | ok out => exact ⟨.assertionError, by simp only [interpolateDual, h.rejects hb, bind, Except.bind]⟩

variable {V V' : List (Vec ℝ 2)} {ctr ctr' : Finset Nat → Fin 2 → ℝ}

/-- the coordinates of a point with respect to the vertex, the edge and the triangle of a domain: those with
respect to the corners of the simplex, whose last two are swapped in every other simplex -/
noncomputable def domainCoords (i : Nat) (b : Vec ℝ 3) : Nat → ℝ := fun k =>
  (if i % 2 = 1 then swapLast (List.ofFn b) else List.ofFn b)[k]?.getD 0

theorem domainCoords_list (i : Nat) (b : Vec ℝ 3) :
    (if i % 2 = 1 then swapLast (List.ofFn b) else List.ofFn b) =
      [domainCoords i b 0, domainCoords i b 1, domainCoords i b 2] := by
  unfold domainCoords
  split <;> simp [swapLast, swap01, List.ofFn_succ]

theorem domainCoords_nonneg {i : Nat} {b : Vec ℝ 3} (h : ∀ v, 0 ≤ b v) : ∀ k < 3, 0 ≤ domainCoords i b k := by
  intro k hk
  unfold domainCoords
  have hk' : k = 0 ∨ k = 1 ∨ k = 2 := by omega
  rcases hk' with rfl | rfl | rfl <;> split <;> simp [swapLast, swap01, List.ofFn_succ, h]

theorem domainCoords_combines {i : Nat} {d r : List Nat} {b : Vec ℝ 3} {p : Vec ℝ 2}
    (hd : InLevels t 3 d) (hr : r = (if i % 2 = 1 then swapLast (addOffsets t d) else addOffsets t d))
    (h : Combines (cornersOf V' 3 r) b p) :
    (∑ k ∈ Finset.range 3, domainCoords i b k) = 1 ∧
      ∀ c, p c = ∑ k ∈ Finset.range 3, domainCoords i b k * position V' (cornerOf t d k) c := by
  obtain ⟨x, z, j, rfl⟩ : ∃ x z j, d = [x, z, j] := List.length_eq_three.1 hd.1
  obtain ⟨h1, h2⟩ := h
  rw [Fin.sum_univ_three] at h1
  simp only [Finset.sum_range_succ, Finset.sum_range_zero, zero_add, domainCoords]
  have hA : addOffsets t [x, z, j] = [cornerOf t [x, z, j] 0, cornerOf t [x, z, j] 1, cornerOf t [x, z, j] 2] := by
    apply List.ext_getElem?
    intro k
    match k with
    | 0 => rw [addOffsets_get]; rfl
    | 1 => rw [addOffsets_get]; rfl
    | 2 => rw [addOffsets_get]; rfl
    | k + 3 => rw [addOffsets_get]; rfl
  rw [hA] at hr
  have hc : ∀ c, p c = _ := fun c => (h2 c).trans (Fin.sum_univ_three _)
  subst hr
  refine ⟨?_, fun c => ?_⟩
  · rw [← h1]
    split <;> simp [swapLast, swap01, List.ofFn_succ] <;> ring
  · rw [hc c]
    unfold cornersOf
    split <;> simp [swapLast, swap01, List.ofFn_succ] <;> ring

/-- C87: in the plane `pick_fundamental` finds for every point the domain whose sphere it is deepest in, and its
coordinates with respect to the vertex, the middle of the edge and the center of the triangle of that domain.
None of them is negative if the subdivision is a weighted Delaunay triangulation that covers the point. -/
theorem C87_pick (h : SubInput uniq eigh ratio 2 simplices t V none y ctr rows t' V' w y' ctr')
    (hp : PickInput (m := 0) solve uniq eigh ratio minres nearest rows t' V' (some w) y' ctr')
    (hdel : isPairwiseDelaunay eigh ratio t V none = .ok true) (points : List (Vec ℝ 2)) :
    ∃ R, pickFundamental solve uniq eigh ratio minres nearest t V none points none = .ok R ∧
      R.length = points.length ∧
      ∀ (k : Nat) (p : Vec ℝ 2), points[k]? = some p → ∃ i r b d, R[k]? = some (i, b, d) ∧ rows[i]? = some r ∧
        RowOf t 2 d r ∧ (∃ j, IsFlag t.elements 2 j d) ∧
        (∀ r' ∈ rows, spherePower V' (weightAt (some w)) ctr' r p ≤ spherePower V' (weightAt (some w)) ctr' r' p) ∧
        (∑ z ∈ Finset.range 3, domainCoords i b z) = 1 ∧
        (∀ c, p c = ∑ z ∈ Finset.range 3, domainCoords i b z * ctr (elementOf t d z).toFinset c) ∧
        (Delaunay V' (weightAt (some w)) ctr' rows → (∃ r0 ∈ rows, InSimplex V' r0 p) →
          ∀ z < 3, 0 ≤ domainCoords i b z) := by
  obtain ⟨doms, hd, hrow⟩ := C87_center h
  obtain ⟨hV', doms', hd', hrows⟩ := h.rows_eq
  rw [hd] at hd'
  obtain rfl := Except.ok.inj hd'
  obtain ⟨P, hP, hlen, hk⟩ := C62_pick hp points
  have hR : P.mapM (fun ib => do
      let d ← itemAt doms.flatten ib.1
      (.ok (ib.1, ib.2, d) : Except PyErr (Nat × Vec ℝ 3 × List Nat))) =
      .ok (P.map fun ib => (ib.1, ib.2, doms.flatten[ib.1]?.getD [])) := by
    refine mapM_ok _ _ _ fun ib hib => ?_
    obtain ⟨k, hkk⟩ := List.mem_iff_getElem?.1 hib
    have hlt : k < points.length := by
      rw [← hlen]
      exact (List.getElem?_eq_some_iff.1 hkk).1
    obtain ⟨i, r, b, h1, h2, -⟩ := hk k _ (List.getElem?_eq_getElem hlt)
    rw [hkk] at h1
    obtain ⟨d, h3, -⟩ := hrow i r h2
    rw [Option.some.inj h1]
    have h5 : itemAt doms.flatten i = .ok d := by unfold itemAt; rw [h3]
    simp only [h5, h3, bind, Except.bind, Option.getD_some]
  refine ⟨P.map fun ib => (ib.1, ib.2, doms.flatten[ib.1]?.getD []), ?_, by rw [List.length_map, hlen],
    fun k p hpk => ?_⟩
  · unfold pickFundamental
    rw [hdel]
    simp only [bind, Except.bind, Bool.not_true, Bool.false_eq_true, if_false]
    rw [h.divided]
    simp only
    rw [h.weighted, hd]
    simp only
    rw [hP]
    simp only [bind, Except.bind] at hR
    exact hR
  · obtain ⟨i, r, b, h1, h2, h3, h4⟩ := hk k p hpk
    obtain ⟨d, g1, g2, g3, j, g4⟩ := hrows i r h2
    obtain ⟨d', f1, fR, -, f4, -⟩ := hrow i r h2
    rw [g1] at f1
    obtain rfl := Option.some.inj f1
    obtain ⟨s1, s2⟩ := domainCoords_combines g3 g2 h3
    refine ⟨i, r, b, d, ?_, h2, fR, ⟨j, g4⟩, h4, s1, fun c => ?_, fun hD hin => ?_⟩
    · rw [List.getElem?_map, h1, Option.map_some, g1, Option.getD_some]
    · rw [s2 c]
      exact Finset.sum_congr rfl fun z hz => by rw [f4 z (by have := Finset.mem_range.1 hz; omega)]
    · obtain ⟨r0, hr0, hin⟩ := hin
      have hr := List.mem_of_getElem? h2
      obtain ⟨hll, hln⟩ := hp.mesh.rows r hr
      exact domainCoords_nonneg ((inSimplex_iff hll hln (hp.mesh.nondegenerate r hr) h3).1
        (least_contains hp.mesh hD hr hr0 hin (h4 r0 hr0)))

/-- the value of `sample_dual_0`, given the values on the dual cells -/
theorem interpolate_value (h : SubInput uniq eigh ratio 2 simplices t V none y ctr rows t' V' w y' ctr')
    (hp : PickInput (m := 0) solve uniq eigh ratio minres nearest rows t' V' (some w) y' ctr')
    (hdel : isPairwiseDelaunay eigh ratio t V none = .ok true) {d0 o1 o2 : List ℝ}
    (hl0 : simplices.length ≤ d0.length) {f0 f1 : List Nat → ℝ}
    (h1 : ∀ (x : Nat) (e : List Nat), (t.elements[1]?.getD [])[x]? = some e → o1[x]? = some (f1 e))
    (h2 : ∀ (x : Nat) (e : List Nat), (t.elements[0]?.getD [])[x]? = some e → o2[x]? = some (f0 e))
    (points : List (Vec ℝ 2)) :
    ∃ R S, pickFundamental solve uniq eigh ratio minres nearest t V none points none = .ok R ∧
      interpolateDual solve uniq eigh ratio minres nearest t V none [d0, o1, o2] points = .ok S ∧
      S.length = points.length ∧
      ∀ (k : Nat) (p : Vec ℝ 2), points[k]? = some p → ∃ i b d j, R[k]? = some (i, b, d) ∧
        IsFlag t.elements 2 j d ∧ j < simplices.length ∧ S[k]? = some (domainCoords i b 0 * f0 (elementOf t d 0) +
          domainCoords i b 1 * f1 (elementOf t d 1) + domainCoords i b 2 * d0[j]?.getD 0) := by
  obtain ⟨R, hR, hlen, hk⟩ := C87_pick h hp hdel points
  obtain ⟨-, wf⟩ := fromSimplices_wf h.parent.uniq_ok h.parent.rows h.parent.built
  have hbl : t.boundary.length + 1 = 3 := by rw [wf.lenB]
  have key : ∀ (i : Nat) (b : Vec ℝ 3) (d r : List Nat) (j : Nat), RowOf t 2 d r → IsFlag t.elements 2 j d →
      j < simplices.length ∧
      ((List.range (t.boundary.length + 1)).mapM fun k => do
        let form ← itemAt [o2, o1, d0] k
        let x ← itemAt d k
        let f ← itemAt form x
        let b ← itemAt (if i % 2 = 1 then swapLast (List.ofFn b) else List.ofFn b) k
        (.ok (f * b) : Except PyErr ℝ)) = .ok [f0 (elementOf t d 0) * domainCoords i b 0,
          f1 (elementOf t d 1) * domainCoords i b 1, d0[j]?.getD 0 * domainCoords i b 2] := by
    intro i b d r j hrow hf
    obtain ⟨q0, -, u0⟩ := inLevels_get hrow.1 (by omega : 0 ≤ 2)
    obtain ⟨q1, -, u1⟩ := inLevels_get hrow.1 (by omega : 1 ≤ 2)
    obtain ⟨q2, n2, -⟩ := inLevels_get hrow.1 (by omega : 2 ≤ 2)
    have hj2 : d[2]? = some j := hf.2.1
    rw [hj2, Option.getD_some] at n2
    have hjl : j < simplices.length := by
      simpa [Topo.nElements, wf.top_eq] using n2
    have a0 := h2 _ _ u0
    have a1 := h1 _ _ u1
    have a2 : d0[j]? = some (d0[j]?.getD 0) := by
      rw [List.getElem?_eq_getElem (by omega), Option.getD_some]
    refine ⟨hjl, ?_⟩
    rw [hbl, domainCoords_list, show List.range 3 = [0, 1, 2] from rfl]
    have e0 : itemAt d 0 = .ok (d[0]?.getD 0) := by unfold itemAt; rw [q0]; rfl
    have e1 : itemAt d 1 = .ok (d[1]?.getD 0) := by unfold itemAt; rw [q1]; rfl
    have e2 : itemAt d 2 = .ok j := by unfold itemAt; rw [hj2]
    have v0 : itemAt o2 (d[0]?.getD 0) = .ok (f0 (elementOf t d 0)) := by unfold itemAt; rw [a0]
    have v1 : itemAt o1 (d[1]?.getD 0) = .ok (f1 (elementOf t d 1)) := by unfold itemAt; rw [a1]
    have v2 : itemAt d0 j = .ok (d0[j]?.getD 0) := by
      unfold itemAt
      rw [a2]
      rfl
    have c0 : ∀ {α : Type} (a b c : α), itemAt [a, b, c] 0 = .ok a := fun _ _ _ => rfl
    have c1 : ∀ {α : Type} (a b c : α), itemAt [a, b, c] 1 = .ok b := fun _ _ _ => rfl
    have c2 : ∀ {α : Type} (a b c : α), itemAt [a, b, c] 2 = .ok c := fun _ _ _ => rfl
    simp only [List.mapM_cons, List.mapM_nil, bind, Except.bind, e0, e1, e2, v0, v1, v2, c0, c1, c2,
      pure, Except.pure]
  have hS : R.mapM (fun ibd => do
      let bary := if ibd.1 % 2 = 1 then swapLast (List.ofFn ibd.2.1) else List.ofFn ibd.2.1
      let parts ← (List.range (t.boundary.length + 1)).mapM fun k => do
        let form ← itemAt [o2, o1, d0] k
        let x ← itemAt ibd.2.2 k
        let f ← itemAt form x
        let b ← itemAt bary k
        (.ok (f * b) : Except PyErr ℝ)
      .ok parts.sum) = .ok (R.map fun ibd => domainCoords ibd.1 ibd.2.1 0 * f0 (elementOf t ibd.2.2 0) +
          domainCoords ibd.1 ibd.2.1 1 * f1 (elementOf t ibd.2.2 1) +
          domainCoords ibd.1 ibd.2.1 2 * d0[ibd.2.2[2]?.getD 0]?.getD 0) := by
    refine mapM_ok _ _ _ fun ibd hib => ?_
    obtain ⟨k, hkk⟩ := List.mem_iff_getElem?.1 hib
    have hlt : k < points.length := by
      rw [← hlen]
      exact (List.getElem?_eq_some_iff.1 hkk).1
    obtain ⟨i, r, b, d, g1, -, g3, ⟨j, g4⟩, -⟩ := hk k _ (List.getElem?_eq_getElem hlt)
    rw [hkk] at g1
    obtain rfl := Option.some.inj g1
    have := (key i b d r j g3 g4).2
    simp only
    rw [this]
    simp only [bind, Except.bind, List.sum_cons, List.sum_nil, add_zero]
    have hj2 : d[2]? = some j := g4.2.1
    rw [hj2, Option.getD_some]
    congr 1
    ring
  refine ⟨R, R.map fun ibd => domainCoords ibd.1 ibd.2.1 0 * f0 (elementOf t ibd.2.2 0) +
      domainCoords ibd.1 ibd.2.1 1 * f1 (elementOf t ibd.2.2 1) +
      domainCoords ibd.1 ibd.2.1 2 * d0[ibd.2.2[2]?.getD 0]?.getD 0, hR, ?_, by rw [List.length_map, hlen],
    fun k p hpk => ?_⟩
  · unfold interpolateDual
    rw [hR]
    simp only [bind, Except.bind] at hS ⊢
    exact hS
  · obtain ⟨i, r, b, d, g1, -, g3, ⟨j, g4⟩, -⟩ := hk k p hpk
    refine ⟨i, b, d, j, g1, g4, (key i b d r j g3 g4).1, ?_⟩
    rw [List.getElem?_map, g1, Option.map_some]
    have hj2 : d[2]? = some j := g4.2.1
    simp only [hj2, Option.getD_some]

/-- the value of `sample_dual_0` with `weighted=False`, given the values on the dual cells -/
theorem sample_value (h : SubInput uniq eigh ratio 2 simplices t V none y ctr rows t' V' w y' ctr')
    (hp : PickInput (m := 0) solve uniq eigh ratio minres nearest rows t' V' (some w) y' ctr')
    (hdel : isPairwiseDelaunay eigh ratio t V none = .ok true) {ms : List (Mat Int)} {d0 o1 o2 : List ℝ}
    (hms : simplicialDual solve uniq t = .ok ms) (hav : averageDual ms d0 = .ok [d0, o1, o2])
    (hl0 : simplices.length ≤ d0.length) {f0 f1 : List Nat → ℝ}
    (h1 : ∀ (x : Nat) (e : List Nat), (t.elements[1]?.getD [])[x]? = some e → o1[x]? = some (f1 e))
    (h2 : ∀ (x : Nat) (e : List Nat), (t.elements[0]?.getD [])[x]? = some e → o2[x]? = some (f0 e))
    (points : List (Vec ℝ 2)) :
    ∃ R S, pickFundamental solve uniq eigh ratio minres nearest t V none points none = .ok R ∧
      sampleDualSimplex solve uniq eigh ratio minres nearest t V none d0 points = .ok S ∧
      S.length = points.length ∧
      ∀ (k : Nat) (p : Vec ℝ 2), points[k]? = some p → ∃ i b d j, R[k]? = some (i, b, d) ∧
        IsFlag t.elements 2 j d ∧ j < simplices.length ∧ S[k]? = some (domainCoords i b 0 * f0 (elementOf t d 0) +
          domainCoords i b 1 * f1 (elementOf t d 1) + domainCoords i b 2 * d0[j]?.getD 0) := by
  obtain ⟨R, S, r1, r2, r3⟩ := interpolate_value h hp hdel hl0 h1 h2 points
  refine ⟨R, S, r1, ?_, r3⟩
  unfold sampleDualSimplex
  rw [hms]
  simp only [bind, Except.bind]
  rw [hav]
  exact r2

theorem three_items {α : Type} {L : List α} {a b c : α} (hl : L.length = 3) (h0 : L[0]? = some a) (h1 : L[1]? = some b)
    (h2 : L[2]? = some c) : L = [a, b, c] := by
  obtain ⟨x, z, u, rfl⟩ := List.length_eq_three.1 hl
  simp only [List.getElem?_cons_zero, List.getElem?_cons_succ, Option.some.injEq] at h0 h1 h2
  rw [h0, h1, h2]

/-- C87: on a triangle mesh in the plane with a boundary, `sample_dual_0` combines three values with the coordinates
of the point in its domain: the value at the center of the triangle, the mean of the values at the ends of the dual
edge, and the mean of the values at the corners of the dual cell of the vertex -/
theorem C87_sample (h : SubInput uniq eigh ratio 2 simplices t V none y ctr rows t' V' w y' ctr')
    (hp : PickInput (m := 0) solve uniq eigh ratio minres nearest rows t' V' (some w) y' ctr')
    (hdel : isPairwiseDelaunay eigh ratio t V none = .ok true) (h2 : AtMostTwo simplices) {s : Sub}
    (hb : boundary solve uniq t = .ok (some s)) {ms : List (Mat Int)} (hms : simplicialDual solve uniq t = .ok ms)
    (hord : InOrder s.parentIdx) (points : List (Vec ℝ 2)) :
    ∃ R F, pickFundamental solve uniq eigh ratio minres nearest t V none points none = .ok R ∧
      F.Sublist (t.elements[1]?.getD []) ∧ (∀ e ∈ t.elements[1]?.getD [], e ∈ F ↔ BoundaryFace simplices e) ∧
      ∀ d0 : List ℝ,
      (d0.length = simplices.length + F.length → ∃ S,
        sampleDualSimplex solve uniq eigh ratio minres nearest t V none d0 points = .ok S ∧
        S.length = points.length ∧
        ∀ (k : Nat) (p : Vec ℝ 2), points[k]? = some p → ∃ i b d j, R[k]? = some (i, b, d) ∧
          IsFlag t.elements 2 j d ∧ j < simplices.length ∧ S[k]? = some (
            domainCoords i b 0 * mean (dualCell simplices F (elementOf t d 0) fun j => d0[j]?.getD 0) +
            domainCoords i b 1 * mean (dualCell simplices F (elementOf t d 1) fun j => d0[j]?.getD 0) +
            domainCoords i b 2 * d0[j]?.getD 0)) ∧
      (d0.length ≠ simplices.length + F.length →
        sampleDualSimplex solve uniq eigh ratio minres nearest t V none d0 points = .error .valueError) := by
  obtain ⟨R, hR, -⟩ := C87_pick h hp hdel points
  obtain ⟨F, f1, f2, f3⟩ := C83_open (K := ℝ) (n := 0) h.parent.uniq_ok h.parent.rows hp.sat h.parent.built h2 hb hms hord
  refine ⟨R, F, hR, f1, f2, fun d0 => ⟨fun hl => ?_, fun hl => ?_⟩⟩
  · obtain ⟨out, g1, g2, g3, g4⟩ := (f3 d0).1 hl
    obtain ⟨o1, u1, v1, -⟩ := g4 0 1 rfl
    obtain ⟨o2, u2, v2, -⟩ := g4 1 0 rfl
    obtain rfl := three_items g2 g3 u1 u2
    have v1 := v1 (by omega)
    have v2 := v2 (by omega)
    obtain ⟨R', S, r1, r2, r3, r4⟩ := sample_value h hp hdel hms g1 (by omega)
      (f0 := fun e => mean (dualCell simplices F e fun j => d0[j]?.getD 0))
      (f1 := fun e => mean (dualCell simplices F e fun j => d0[j]?.getD 0))
      (fun x e hx => by
        rw [v1]
        unfold dualLevel
        rw [List.getElem?_append_left (by simpa using (List.getElem?_eq_some_iff.1 hx).1), List.getElem?_map, hx]
        rfl)
      (fun x e hx => by
        rw [v2]
        unfold dualLevel
        rw [List.getElem?_map, hx]
        rfl) points
    rw [hR] at r1
    obtain rfl := Except.ok.inj r1
    exact ⟨S, r2, r3, r4⟩
  · unfold sampleDualSimplex
    rw [hms]
    simp only [bind, Except.bind]
    rw [(f3 d0).2 hl]

/-- C87: constants are reproduced everywhere, also outside of the mesh -/
theorem C87_constant (h : SubInput uniq eigh ratio 2 simplices t V none y ctr rows t' V' w y' ctr')
    (hp : PickInput (m := 0) solve uniq eigh ratio minres nearest rows t' V' (some w) y' ctr')
    (hdel : isPairwiseDelaunay eigh ratio t V none = .ok true) (h2 : AtMostTwo simplices) {s : Sub}
    (hb : boundary solve uniq t = .ok (some s)) {ms : List (Mat Int)} (hms : simplicialDual solve uniq t = .ok ms)
    (hord : InOrder s.parentIdx) (points : List (Vec ℝ 2)) :
    ∃ F : List (List Nat), F.Sublist (t.elements[1]?.getD []) ∧ (∀ e ∈ t.elements[1]?.getD [], e ∈ F ↔ BoundaryFace simplices e) ∧
      ∀ c, sampleDualSimplex solve uniq eigh ratio minres nearest t V none
        (List.replicate (simplices.length + F.length) c) points = .ok (List.replicate points.length c) := by
  obtain ⟨R, F, hR, f1, f2, f3⟩ := C87_sample h hp hdel h2 hb hms hord points
  obtain ⟨R', hR', -, hk'⟩ := C87_pick h hp hdel points
  rw [hR] at hR'
  obtain rfl := Except.ok.inj hR'
  obtain ⟨-, wf⟩ := fromSimplices_wf h.parent.uniq_ok h.parent.rows h.parent.built
  refine ⟨F, f1, f2, fun c => ?_⟩
  obtain ⟨S, hS, hl, hk⟩ := (f3 (List.replicate (simplices.length + F.length) c)).1 (List.length_replicate ..)
  rw [hS]
  congr 1
  rw [List.eq_replicate_iff]
  refine ⟨hl, fun x hx => ?_⟩
  obtain ⟨k, hxk⟩ := List.mem_iff_getElem?.1 hx
  have hlt : k < points.length := by
    rw [← hl]
    exact (List.getElem?_eq_some_iff.1 hxk).1
  obtain ⟨i, b, d, j, g1, g2, g3, g4⟩ := hk k _ (List.getElem?_eq_getElem hlt)
  obtain ⟨i', r, b', d', u1, -, uR, -, -, u5, -⟩ := hk' k _ (List.getElem?_eq_getElem hlt)
  rw [g1] at u1
  simp only [Option.some.injEq, Prod.mk.injEq] at u1
  obtain ⟨rfl, rfl, rfl⟩ := u1
  have hval : ∀ j < simplices.length + F.length, (List.replicate (simplices.length + F.length) c)[j]?.getD 0 = c := by
    intro j hj
    rw [List.getElem?_replicate, if_pos hj, Option.getD_some]
  have hmean : ∀ k ≤ 2, mean (dualCell simplices F (elementOf t d k)
      fun j => (List.replicate (simplices.length + F.length) c)[j]?.getD 0) = c := by
    intro k hk
    apply mean_all
    · have hj : j ∈ Spec.incident simplices (elementOf t d k) := by
        refine List.mem_filter.2 ⟨List.mem_range.2 g3, ?_⟩
        have hsub := flag_mono uR.1 g2 hk (le_refl 2)
        have hlast : elementOf t d 2 = simplices[j]?.getD [] := by
          unfold elementOf
          rw [show d[2]? = some j from g2.2.1, wf.top_eq]
          rfl
        rw [hlast] at hsub
        simpa [List.all_eq_true] using fun v hv => hsub hv
      unfold dualCell
      simp [List.ne_nil_of_mem hj]
    · intro x hx
      unfold dualCell at hx
      rw [List.mem_append] at hx
      rcases hx with hx | hx
      · obtain ⟨a, ha, rfl⟩ := List.mem_map.1 hx
        have := List.mem_range.1 (List.mem_filter.1 ha).1
        exact hval a (by omega)
      · obtain ⟨a, ha, rfl⟩ := List.mem_map.1 hx
        have := List.mem_range.1 (List.mem_filter.1 ha).1
        exact hval _ (by omega)
  rw [hxk, hmean 0 (by omega), hmean 1 (by omega), hval j (by omega), ← add_mul, ← add_mul] at g4
  rw [Option.some.inj g4]
  simp only [Finset.sum_range_succ, Finset.sum_range_zero, zero_add] at u5
  rw [u5, one_mul]

end

end Verif.Props
