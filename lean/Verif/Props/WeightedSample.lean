/-
C88: sampling dual 0-forms with weighted averages.
-/
import Verif.Props.WeightedForms
import Verif.Props.FundamentalSample

set_option linter.unusedSectionVars false

namespace Verif.Props

open Verif Verif.Model Verif.Spec

theorem cellMean_congr {D : Nat} {simplices : List (List Nat)} {ctr : Finset Nat → Fin D → ℝ} (i : Nat) (e : List Nat)
    {x z : Nat → ℝ} (h : ∀ j < simplices.length, x j = z j) :
    cellMean simplices ctr i e x = cellMean simplices ctr i e z := by
  unfold cellMean
  rw [List.map_congr_left fun j hj => by rw [h j (incident_lt hj)]]

section

variable {D : Nat} {uniq : List (List Nat) → List (List Nat)}
  {solve : List (List Int) → Option (List Int)}
  {eigh : (n : Nat) → Matrix (Fin n) (Fin n) ℝ → Eigh n ℝ} {ratio : ℝ} {m : Nat}
  {simplices : List (List Nat)} {t : Topo} {V : List (Vec ℝ D)} {W : Option (List ℝ)}
  {y : Finset Nat → Nat → ℝ} {ctr : Finset Nat → Fin D → ℝ} {ms : List (Mat Int)} {s : Sub}

/-- C88: values of `d0` on boundary faces have no influence on the weighted averages -/
theorem C88_boundary_unused (h : CenterInput uniq eigh ratio (m + 2) simplices t V W y ctr) (hD : m + 2 ≤ D) (hsat : SatSpec solve)
    (h2 : AtMostTwo simplices) (hb : boundary solve uniq t = .ok (some s)) (hd : simplicialDual solve uniq t = .ok ms)
    (hord : InOrder s.parentIdx) (hwc : isWellCentered eigh ratio t V W = .ok true) {d0 d0' : List ℝ}
    (hl : d0.length = d0'.length) (ha : ∀ j < simplices.length, d0[j]? = d0'[j]?) {out : List (List ℝ)}
    (ho : averageWeighted solve uniq eigh ratio t V W d0 = .ok out) :
    ∃ out', averageWeighted solve uniq eigh ratio t V W d0' = .ok out' ∧
      ∀ i, i + 1 ≤ 5 → out[i + 1]? = out'[i + 1]? := by
  obtain ⟨F, -, -, hF⟩ := C88_open h hD hsat h2 hb hd hord hwc
  have hlen : d0.length = simplices.length + F.length := by
    by_contra hne
    rw [(hF d0).2 hne] at ho
    cases ho
  obtain ⟨o, g1, g2, -, g4⟩ := (hF d0).1 hlen
  rw [ho] at g1
  obtain rfl := Except.ok.inj g1
  obtain ⟨o', g1', g2', -, g4'⟩ := (hF d0').1 (by rw [← hl]; exact hlen)
  refine ⟨o', g1', fun i hi => ?_⟩
  rcases Nat.lt_or_ge (m + 2) (i + 1) with hm | hm
  · rw [List.getElem?_eq_none (by omega), List.getElem?_eq_none (by omega)]
  · rw [g4 i (m + 2 - (i + 1)) (by omega) hi, g4' i (m + 2 - (i + 1)) (by omega) hi]
    congr 2
    apply List.map_congr_left
    intro e _
    exact cellMean_congr _ _ fun j hj => by rw [ha j hj]

end

section

variable {uniq : List (List Nat) → List (List Nat)}
  {solve : List (List Int) → Option (List Int)}
  {eigh : (n : Nat) → Matrix (Fin n) (Fin n) ℝ → Eigh n ℝ} {ratio : ℝ}
  {minres : Mat Int → List ℝ → List ℝ} {nearest : List (List ℝ) → List ℝ → Nat}
  {simplices rows : List (List Nat)} {t t' : Topo} {V V' : List (Vec ℝ 2)} {w : List ℝ}
  {y y' : Finset Nat → Nat → ℝ} {ctr ctr' : Finset Nat → Fin 2 → ℝ} {ms : List (Mat Int)} {s : Sub}

/-- C88: on a well-centered triangle mesh in the plane with a boundary, `sample_dual_0` with its default arguments combines three
values with the coordinates of the point in its domain: the value at the center of the triangle, the weighted mean of the values
at the ends of the dual edge, and the weighted mean of the values at the corners of the dual cell of the vertex -/
theorem C88_sample (h : SubInput uniq eigh ratio 2 simplices t V none y ctr rows t' V' w y' ctr')
    (hp : PickInput (m := 0) solve uniq eigh ratio minres nearest rows t' V' (some w) y' ctr')
    (hwc : isWellCentered eigh ratio t V none = .ok true) (h2 : AtMostTwo simplices)
    (hb : boundary solve uniq t = .ok (some s)) (hms : simplicialDual solve uniq t = .ok ms)
    (hord : InOrder s.parentIdx) (points : List (Vec ℝ 2)) :
    ∃ R, ∃ F : List (List Nat), pickFundamental solve uniq eigh ratio minres nearest t V none points none = .ok R ∧
      F.Sublist (t.elements[1]?.getD []) ∧ (∀ e ∈ t.elements[1]?.getD [], e ∈ F ↔ BoundaryFace simplices e) ∧
      ∀ d0 : List ℝ,
      (d0.length = simplices.length + F.length → ∃ S,
        sampleDualWeighted solve uniq eigh ratio minres nearest t V none d0 points = .ok S ∧
        S.length = points.length ∧
        ∀ (k : Nat) (p : Vec ℝ 2), points[k]? = some p → ∃ i b d j, R[k]? = some (i, b, d) ∧
          IsFlag t.elements 2 j d ∧ j < simplices.length ∧ S[k]? = some (
            domainCoords i b 0 * cellMean simplices ctr 1 (elementOf t d 0) (fun j => d0[j]?.getD 0) +
            domainCoords i b 1 * cellMean simplices ctr 0 (elementOf t d 1) (fun j => d0[j]?.getD 0) +
            domainCoords i b 2 * d0[j]?.getD 0)) ∧
      (d0.length ≠ simplices.length + F.length →
        sampleDualWeighted solve uniq eigh ratio minres nearest t V none d0 points = .error .valueError) := by
  have hdel := C61_wellcentered_delaunay h.parent (le_refl 2) hwc
  obtain ⟨R, hR, -⟩ := C87_pick h hp hdel points
  obtain ⟨F, f1, f2, f3⟩ := C88_open (m := 0) h.parent (le_refl 2) hp.sat h2 hb hms hord hwc
  refine ⟨R, F, hR, f1, f2, fun d0 => ⟨fun hl => ?_, fun hl => ?_⟩⟩
  · obtain ⟨out, g1, g2, g3, g4⟩ := (f3 d0).1 hl
    have v1 := g4 0 1 rfl (by omega)
    have v2 := g4 1 0 rfl (by omega)
    obtain ⟨o1, e1⟩ : ∃ o1 : List ℝ, o1 = (t.elements[1]?.getD []).map
        (fun e => cellMean simplices ctr 0 e fun j => d0[j]?.getD 0) ++
      List.replicate (if 1 = 0 then 0 else (s.topo.elements[1 - 1]?.getD []).length) 0 := ⟨_, rfl⟩
    obtain ⟨o2, e2⟩ : ∃ o2 : List ℝ, o2 = (t.elements[0]?.getD []).map
        (fun e => cellMean simplices ctr 1 e fun j => d0[j]?.getD 0) ++
      List.replicate (if 0 = 0 then 0 else (s.topo.elements[0 - 1]?.getD []).length) 0 := ⟨_, rfl⟩
    rw [← e1] at v1
    rw [← e2] at v2
    obtain rfl := three_items g2 g3 v1 v2
    obtain ⟨R', S, r1, r2, r3, r4⟩ := interpolate_value h hp hdel (d0 := d0) (o1 := o1) (o2 := o2) (by omega)
      (f0 := fun e => cellMean simplices ctr 1 e fun j => d0[j]?.getD 0)
      (f1 := fun e => cellMean simplices ctr 0 e fun j => d0[j]?.getD 0)
      (fun x e hx => by
        rw [e1, List.getElem?_append_left (by simpa using (List.getElem?_eq_some_iff.1 hx).1), List.getElem?_map, hx]
        rfl)
      (fun x e hx => by
        rw [e2, List.getElem?_append_left (by simpa using (List.getElem?_eq_some_iff.1 hx).1), List.getElem?_map, hx]
        rfl) points
    rw [hR] at r1
    obtain rfl := Except.ok.inj r1
    refine ⟨S, ?_, r3, r4⟩
    unfold sampleDualWeighted
    rw [g1]
    exact r2
  · unfold sampleDualWeighted
    rw [(f3 d0).2 hl]
    rfl

/-- C88: if all triangles have the same value it is found everywhere, whatever the values on the boundary are -/
theorem C88_sample_constant (h : SubInput uniq eigh ratio 2 simplices t V none y ctr rows t' V' w y' ctr')
    (hp : PickInput (m := 0) solve uniq eigh ratio minres nearest rows t' V' (some w) y' ctr')
    (hwc : isWellCentered eigh ratio t V none = .ok true) (h2 : AtMostTwo simplices)
    (hb : boundary solve uniq t = .ok (some s)) (hms : simplicialDual solve uniq t = .ok ms)
    (hord : InOrder s.parentIdx) (points : List (Vec ℝ 2)) :
    ∃ F : List (List Nat), F.Sublist (t.elements[1]?.getD []) ∧ (∀ e ∈ t.elements[1]?.getD [], e ∈ F ↔ BoundaryFace simplices e) ∧
      ∀ c, ∀ z : List ℝ, z.length = F.length → sampleDualWeighted solve uniq eigh ratio minres nearest t V none
        (List.replicate simplices.length c ++ z) points = .ok (List.replicate points.length c) := by
  have hdel := C61_wellcentered_delaunay h.parent (le_refl 2) hwc
  obtain ⟨R, F, hR, f1, f2, f3⟩ := C88_sample h hp hwc h2 hb hms hord points
  obtain ⟨R', hR', -, hk'⟩ := C87_pick h hp hdel points
  rw [hR] at hR'
  obtain rfl := Except.ok.inj hR'
  refine ⟨F, f1, f2, fun c z hz => ?_⟩
  obtain ⟨S, hS, hl, hk⟩ := (f3 (List.replicate simplices.length c ++ z)).1 (by simp [hz])
  rw [hS]
  congr 1
  rw [List.eq_replicate_iff]
  refine ⟨hl, fun x hx => ?_⟩
  obtain ⟨k, hxk⟩ := List.mem_iff_getElem?.1 hx
  have hlt : k < points.length := by
    rw [← hl]
    exact (List.getElem?_eq_some_iff.1 hxk).1
  obtain ⟨i, b, d, j, g1, g2, g3, g4⟩ := hk k _ (List.getElem?_eq_getElem hlt)
  obtain ⟨i', r, b', d', u1, -, uR, -, -, u5, -⟩ := hk' k _ (List.getElem?_eq_getElem hlt)
  rw [g1] at u1
  simp only [Option.some.injEq, Prod.mk.injEq] at u1
  obtain ⟨rfl, rfl, rfl⟩ := u1
  have hval : ∀ j < simplices.length, (List.replicate simplices.length c ++ z)[j]?.getD 0 = c := by
    intro j hj
    rw [List.getElem?_append_left (by simpa using hj), List.getElem?_replicate, if_pos hj, Option.getD_some]
  have hmean : ∀ i k, i + 1 + k = 2 → cellMean simplices ctr i (elementOf t d k)
      (fun j => (List.replicate simplices.length c ++ z)[j]?.getD 0) = c := by
    intro i k hk
    obtain ⟨-, -, q⟩ := inLevels_get uR.1 (by omega : k ≤ 2)
    exact C88_constant h.parent hwc hk (List.mem_of_getElem? q) fun j hj => hval j (incident_lt hj)
  rw [hxk, hmean 1 0 rfl, hmean 0 1 rfl, hval j g3, ← add_mul, ← add_mul] at g4
  rw [Option.some.inj g4]
  simp only [Finset.sum_range_succ, Finset.sum_range_zero, zero_add] at u5
  rw [u5, one_mul]

end

end Verif.Props
