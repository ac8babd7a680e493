/-
C62: `pick_primal` and `sample_primal_0` of euclidian simplicial complexes.
-/
import Verif.Lemmas.PickCoords
import Verif.Props.WellCentered
import Verif.Lemmas.CubeConstruct

set_option linter.unusedSectionVars false

namespace Verif.Props

open Verif.Model Verif.Spec Matrix

/-- a mesh that fills its space, and external functions that do what `pick_primal` asks of them -/
structure PickInput {m : Nat} (solve : List (List Int) → Option (List Int))
    (uniq : List (List Nat) → List (List Nat))
    (eigh : (n : Nat) → Matrix (Fin n) (Fin n) ℝ → Eigh n ℝ) (ratio : ℝ)
    (minres : Mat Int → List ℝ → List ℝ) (nearest : List (List ℝ) → List ℝ → Nat)
    (simplices : List (List Nat)) (t : Topo) (V : List (Vec ℝ (m + 2))) (W : Option (List ℝ))
    (y : Finset Nat → Nat → ℝ) (ctr : Finset Nat → Fin (m + 2) → ℝ) : Prop where
  mesh : CenterInput uniq eigh ratio (m + 2) simplices t V W y ctr
  sat : SatSpec solve
  oriented : isOriented solve t = .ok true
  manifold : AtMostTwo simplices
  connected : Connected simplices
  minres_ok : MinresSpec minres
  nearest_ok : NearestSpec nearest
  delaunay : isPairwiseDelaunay eigh ratio t V W = .ok true

section

variable {m : Nat} {uniq : List (List Nat) → List (List Nat)}
  {solve : List (List Int) → Option (List Int)}
  {eigh : (n : Nat) → Matrix (Fin n) (Fin n) ℝ → Eigh n ℝ} {ratio : ℝ}
  {minres : Mat Int → List ℝ → List ℝ} {nearest : List (List ℝ) → List ℝ → Nat}
  {simplices : List (List Nat)} {t : Topo} {V : List (Vec ℝ (m + 2))} {W : Option (List ℝ)}
  {y : Finset Nat → Nat → ℝ} {ctr : Finset Nat → Fin (m + 2) → ℝ}

/-- C62: the weights behind `pick_primal` are the squared radii of the spheres of the simplices, up to a
constant that all of them share -/
theorem C62_weights (h : PickInput solve uniq eigh ratio minres nearest simplices t V W y ctr) :
    ∃ w c, pickWeights solve uniq eigh ratio minres t V W = .ok w ∧ w.length = simplices.length ∧
      ∀ (j : Nat) (l : List Nat), simplices[j]? = some l →
        w[j]? = some (sphereRadius V (weightAt W) ctr l + c) :=
  weights_radii h.mesh h.sat h.oriented h.manifold h.connected h.minres_ok

/-- the coordinates that `pick_primal` computes -/
noncomputable def coords (V : List (Vec ℝ (m + 2))) (l : List Nat) (p : Vec ℝ (m + 2)) : Vec ℝ (m + 2 + 1) :=
  fun v => ∑ c, basisOf V l c v * homogenize p c

theorem coords_combines (h : NonDegenerate V (m + 2) simplices) {l : List Nat} (hl : l ∈ simplices)
    (p : Vec ℝ (m + 2)) : Combines (cornersOf V (m + 3) l) (coords V l p) p :=
  homog_coords (h l hl) p

theorem coords_normal (h : NonDegenerate V (m + 2) simplices) {l : List Nat} (hl : l ∈ simplices)
    (p : Vec ℝ (m + 2)) : (fun v => coords V l p v / ∑ u, coords V l p u) = coords V l p := by
  funext v
  rw [(coords_combines h hl p).1, div_one]

/-- the simplex that the search finds is the one with the least value of `F` -/
def Finds (nearest : List (List ℝ) → List ℝ → Nat) (weighted : Bool) (simplices : List (List Nat))
    (sites : List (List ℝ)) (F : List Nat → Vec ℝ (m + 2) → ℝ) : Prop :=
  ∀ p : Vec ℝ (m + 2), ∃ i l, nearest sites (if weighted then List.ofFn p ++ [0] else List.ofFn p) = i ∧
    simplices[i]? = some l ∧ ∀ l' ∈ simplices, F l p ≤ F l' p

theorem finds_of_dist (hq : NearestSpec nearest) (hne : simplices ≠ []) (weighted : Bool) {sites : List (List ℝ)}
    {F : List Nat → Vec ℝ (m + 2) → ℝ} {c : ℝ} (hlen : sites.length = simplices.length)
    (hd : ∀ (j : Nat) (l : List Nat) (s : List ℝ) (p : Vec ℝ (m + 2)), simplices[j]? = some l →
      sites[j]? = some s → sqDist s (if weighted then List.ofFn p ++ [0] else List.ofFn p) = F l p + c) :
    Finds nearest weighted simplices sites F := by
  intro p
  have hs : sites ≠ [] := by
    rintro rfl
    exact hne (List.length_eq_zero_iff.1 hlen.symm)
  obtain ⟨h1, h2⟩ := hq sites (if weighted then List.ofFn p ++ [0] else List.ofFn p) hs
  have hi := List.getElem?_eq_getElem (l := simplices) (hlen ▸ h1)
  refine ⟨_, _, rfl, hi, fun l' hl' => ?_⟩
  obtain ⟨j, hj⟩ := List.getElem?_of_mem hl'
  have hjl : j < sites.length := hlen ▸ (List.getElem?_eq_some_iff.1 hj).1
  have hsj : sites[j]? = some sites[j] := List.getElem?_eq_getElem hjl
  have := h2 _ _ (List.getElem?_eq_getElem h1) (List.mem_of_getElem? hsj)
  rw [hd _ _ _ p hi (List.getElem?_eq_getElem h1), hd _ _ _ p hj hsj] at this
  linarith

/-- the sites that a weighted search uses -/
theorem weighted_sites (h : PickInput solve uniq eigh ratio minres nearest simplices t V W y ctr) :
    ∃ sites, pickPrimalPrecomp solve uniq eigh ratio minres t V W true =
        .ok (sites, simplices.map (basisOf V)) ∧
      Finds nearest true simplices sites (spherePower V (weightAt W) ctr) := by
  obtain ⟨w, c, hw, hlen, hwj⟩ := C62_weights h
  have hne := h.mesh.nonempty
  obtain ⟨sites, hs⟩ : ∃ sites, augmentWeights (simplices.map fun l => List.ofFn (ctr l.toFinset)) w = .ok sites := by
    unfold augmentWeights weightsToOffsets
    cases w with
    | nil => exact absurd (List.length_eq_zero_iff.1 hlen.symm) hne
    | cons w ws =>
      simp only [npMax, bind, Except.bind]
      rw [if_pos (by simpa using hlen.symm)]
      exact ⟨_, rfl⟩
  obtain ⟨M, -, -, hl, -, key⟩ := C45_lifting _ w sites hs
  rw [List.length_map] at hl
  refine ⟨sites, precomp_ok h.mesh h.delaunay true (fun _ => hw) hs, ?_⟩
  refine finds_of_dist h.nearest_ok hne true (c := M - c) hl fun j l s p hj hsj => ?_
  rw [if_pos rfl, key j (List.ofFn (ctr l.toFinset)) _ s (List.ofFn p) (by rw [List.getElem?_map, hj]; rfl)
    (hwj j l hj) hsj (by simp)]
  unfold powerDist spherePower power
  rw [sqDist_ofFn]
  unfold dist2
  ring

/-- the sites of a search without weights -/
theorem plain_sites (h : CenterInput uniq eigh ratio (m + 2) simplices t V W y ctr)
    (hd : isPairwiseDelaunay eigh ratio t V W = .ok true) (hq : NearestSpec nearest) :
    ∃ sites, pickPrimalPrecomp solve uniq eigh ratio minres t V W false =
        .ok (sites, simplices.map (basisOf V)) ∧
      Finds nearest false simplices sites (fun l p => dist2 p (ctr l.toFinset)) := by
  refine ⟨_, precomp_ok h hd false (w := []) (by simp) rfl, ?_⟩
  refine finds_of_dist hq h.nonempty false (c := 0) (by simp) fun j l s p hj hsj => ?_
  rw [List.getElem?_map, hj] at hsj
  rw [← Option.some.inj hsj, add_zero]
  simp only [Bool.false_eq_true, if_false]
  exact sqDist_ofFn _ _

/-- one query -/
theorem query_found (weighted : Bool) {sites : List (List ℝ)} {F : List Nat → Vec ℝ (m + 2) → ℝ}
    (hf : Finds nearest weighted simplices sites F) (p : Vec ℝ (m + 2)) :
    ∃ i l, queryPrimal nearest weighted (sites, simplices.map (basisOf V)) p = .ok (i, coords V l p) ∧
      simplices[i]? = some l ∧ ∀ l' ∈ simplices, F l p ≤ F l' p := by
  obtain ⟨i, l, hi, hl, hm⟩ := hf p
  refine ⟨i, l, ?_, hl, hm⟩
  unfold queryPrimal
  simp only [hi]
  rw [baryOf_ok hl p]
  rfl

/-- what a search without hints returns -/
theorem pick_found (h : CenterInput uniq eigh ratio (m + 2) simplices t V W y ctr)
    (hd : isPairwiseDelaunay eigh ratio t V W = .ok true) (weighted : Bool) {sites : List (List ℝ)}
    {F : List Nat → Vec ℝ (m + 2) → ℝ}
    (hp : pickPrimalPrecomp solve uniq eigh ratio minres t V W weighted = .ok (sites, simplices.map (basisOf V)))
    (hf : Finds nearest weighted simplices sites F) (points : List (Vec ℝ (m + 2))) :
    ∃ R, pickPrimal solve uniq eigh ratio minres nearest t V W points none weighted = .ok R ∧
      R.length = points.length ∧
      ∀ (k : Nat) (p : Vec ℝ (m + 2)), points[k]? = some p → ∃ i l b, R[k]? = some (i, b) ∧
        simplices[i]? = some l ∧ Combines (cornersOf V (m + 3) l) b p ∧
        ∀ l' ∈ simplices, F l p ≤ F l' p := by
  choose i l hq hl hm using query_found (V := V) weighted hf
  refine ⟨points.map fun p => (i p, coords V (l p) p), ?_, by simp, fun k p hk => ?_⟩
  · unfold pickPrimal
    rw [hd]
    simp only [bind, Except.bind, Bool.not_true, Bool.false_eq_true, if_false]
    rw [hp]
    simp only
    rw [mapM_ok _ (fun p => (i p, coords V (l p) p)) points fun p _ => hq p]
    simp only [List.map_map]
    congr 1
    refine List.map_congr_left fun p _ => ?_
    simp only [Function.comp_apply]
    rw [coords_normal h.nondegenerate (List.mem_of_getElem? (hl p)) p]
  · refine ⟨i p, l p, coords V (l p) p, by rw [List.getElem?_map, hk]; rfl, hl p,
      coords_combines h.nondegenerate (List.mem_of_getElem? (hl p)) p, hm p⟩

/-- C62: `pick_primal` returns for each point a simplex with the least power of the point with respect to
its sphere, and the barycentric coordinates of the point in this simplex -/
theorem C62_pick (h : PickInput solve uniq eigh ratio minres nearest simplices t V W y ctr)
    (points : List (Vec ℝ (m + 2))) :
    ∃ R, pickPrimal solve uniq eigh ratio minres nearest t V W points none true = .ok R ∧
      R.length = points.length ∧
      ∀ (k : Nat) (p : Vec ℝ (m + 2)), points[k]? = some p → ∃ i l b, R[k]? = some (i, b) ∧
        simplices[i]? = some l ∧ Combines (cornersOf V (m + 3) l) b p ∧
        ∀ l' ∈ simplices, spherePower V (weightAt W) ctr l p ≤ spherePower V (weightAt W) ctr l' p := by
  obtain ⟨sites, hp, hf⟩ := weighted_sites h
  exact pick_found h.mesh h.delaunay true hp hf points

/-- C62: without the weights, `pick_primal` returns the simplex with the nearest center -/
theorem C62_pick_unweighted (h : CenterInput uniq eigh ratio (m + 2) simplices t V W y ctr)
    (hd : isPairwiseDelaunay eigh ratio t V W = .ok true) (hq : NearestSpec nearest)
    (points : List (Vec ℝ (m + 2))) :
    ∃ R, pickPrimal solve uniq eigh ratio minres nearest t V W points none false = .ok R ∧
      R.length = points.length ∧
      ∀ (k : Nat) (p : Vec ℝ (m + 2)), points[k]? = some p → ∃ i l b, R[k]? = some (i, b) ∧
        simplices[i]? = some l ∧ Combines (cornersOf V (m + 3) l) b p ∧
        ∀ l' ∈ simplices, dist2 p (ctr l.toFinset) ≤ dist2 p (ctr l'.toFinset) := by
  obtain ⟨sites, hp, hf⟩ := plain_sites (solve := solve) (minres := minres) h hd hq
  exact pick_found h hd false hp hf points

/-- the simplex with the least power contains the point, if the mesh is Delaunay -/
theorem least_contains (h : CenterInput uniq eigh ratio (m + 2) simplices t V W y ctr)
    (hdel : Delaunay V (weightAt W) ctr simplices) {p : Vec ℝ (m + 2)} {l l0 : List Nat} (hl : l ∈ simplices)
    (hl0 : l0 ∈ simplices) (hin : InSimplex V l0 p)
    (hm : spherePower V (weightAt W) ctr l p ≤ spherePower V (weightAt W) ctr l0 p) : InSimplex V l p := by
  obtain ⟨b, hb, h0⟩ := hin
  have hsub := spherePower_sub h.centers (l' := l) hl0 hb
  have hpos : ∀ v ∈ l0.toFinset, 0 ≤ b v *
      (power (ctr l.toFinset) (position V v) (weightAt W v) - sphereRadius V (weightAt W) ctr l) := by
    intro v hv
    have hv : v ∈ l0 := by simpa using hv
    by_cases hvl : v ∈ l
    · rw [sphereRadius_eq h.centers hl hvl, sub_self, mul_zero]
    · have hne : l ≠ [] := by
        rintro rfl
        have := (h.rows _ hl).1
        simp at this
      have := hdel l hl l0 hl0 v hv hvl _ (headD_mem hne)
      exact mul_nonneg (h0 v hv) (sub_nonneg.2 (le_of_lt this))
  have hz := (Finset.sum_eq_zero_iff_of_nonneg hpos).1 (le_antisymm (by rw [← hsub]; linarith)
    (Finset.sum_nonneg hpos))
  refine InSimplex.move hb h0 fun v hv hvl => ?_
  have hne : l ≠ [] := by
    rintro rfl
    have := (h.rows _ hl).1
    simp at this
  have h1 := hdel l hl l0 hl0 v hv hvl _ (headD_mem hne)
  rcases mul_eq_zero.1 (hz v (by simpa using hv)) with h2 | h2
  · exact h2
  · unfold sphereRadius at h2
    linarith

/-- C62: over a Delaunay triangulation `pick_primal` finds, for every point of the mesh, a simplex that
contains it: no coordinate is negative -/
theorem C62_delaunay (h : PickInput solve uniq eigh ratio minres nearest simplices t V W y ctr)
    (hdel : Delaunay V (weightAt W) ctr simplices) (points : List (Vec ℝ (m + 2)))
    (hin : ∀ p ∈ points, ∃ l ∈ simplices, InSimplex V l p) :
    ∃ R, pickPrimal solve uniq eigh ratio minres nearest t V W points none true = .ok R ∧
      R.length = points.length ∧
      ∀ (k : Nat) (p : Vec ℝ (m + 2)), points[k]? = some p → ∃ i l b, R[k]? = some (i, b) ∧
        simplices[i]? = some l ∧ Combines (cornersOf V (m + 3) l) b p ∧ ∀ v, 0 ≤ b v := by
  obtain ⟨R, hR, hlen, hk⟩ := C62_pick h points
  refine ⟨R, hR, hlen, fun k p hp => ?_⟩
  obtain ⟨i, l, b, h1, h2, h3, h4⟩ := hk k p hp
  obtain ⟨l0, hl0, hin0⟩ := hin p (List.mem_of_getElem? hp)
  have hl := List.mem_of_getElem? h2
  obtain ⟨hll, hln⟩ := h.mesh.rows l hl
  exact ⟨i, l, b, h1, h2, h3, (inSimplex_iff hll hln (h.mesh.nondegenerate l hl) h3).1
    (least_contains h.mesh hdel hl hl0 hin0 (h4 l0 hl0))⟩

theorem incident_length (h2 : AtMostTwo simplices) (hs : Simplices (m + 3) simplices) {e : List Nat}
    (he : e.length = m + 2) (hen : e.Nodup) : (incident simplices e).length ≤ 2 := by
  by_contra hlt
  obtain ⟨a, b, c, r, hr⟩ : ∃ a b c r, incident simplices e = a :: b :: c :: r := by
    match incident simplices e, hlt with
    | [], h => simp at h
    | [_], h => simp at h
    | [_, _], h => simp at h
    | a :: b :: c :: r, _ => exact ⟨a, b, c, r, rfl⟩
  have hsub : [a, b, c].Sublist simplices := by
    have h1 : [a, b, c].Sublist (incident simplices e) := by
      rw [hr]
      simp
    exact h1.trans List.filter_sublist
  have hface : ∀ l ∈ incident simplices e, IsFace e l := by
    intro l hl
    obtain ⟨hl1, hl2⟩ := List.mem_filter.1 hl
    have hes : e ⊆ l := by simpa using hl2
    obtain ⟨hll, hln⟩ := hs l hl1
    have hm := (missing_spec hll he hen hes).2
    have hmem : missing l e ∈ l := hm.mem_iff.1 (by simp)
    obtain ⟨c, hc, hce⟩ := List.getElem_of_mem hmem
    exact ⟨c, hc, ((missing_unique hll he hen hc).2 ⟨hes, hce⟩).symm⟩
  obtain ⟨f, hf⟩ := List.sublist_iff_exists_fin_orderEmbedding_get_eq.1 hsub
  have hg : ∀ i : Fin 3, simplices[(f i).val]? = some ([a, b, c].get i) := by
    intro i
    rw [hf i]
    exact List.getElem?_eq_getElem (f i).2
  have hfi : ∀ i : Fin 3, IsFace e ([a, b, c].get i) := by
    intro i
    apply hface
    rw [hr]
    fin_cases i <;> simp
  have hinj : ∀ i j : Fin 3, (f i).val = (f j).val → i = j := fun i j hij => f.injective (Fin.ext hij)
  rcases h2 e _ _ _ _ _ _ (hg 0) (hg 1) (hg 2) (hfi 0) (hfi 1) (hfi 2) with h3 | h3 | h3
  · exact absurd (hinj _ _ h3) (by decide)
  · exact absurd (hinj _ _ h3) (by decide)
  · exact absurd (hinj _ _ h3) (by decide)

/-- the simplices on the two sides of a face lie on opposite sides of it -/
def Embedded {D : Nat} (V : List (Fin D → ℝ)) (simplices : List (List Nat)) : Prop :=
  ∀ (j j' : Nat) (l l' e : List Nat), simplices[j]? = some l → simplices[j']? = some l' → j ≠ j' →
    IsFace e l → IsFace e l' →
    OppositeSide V e.toFinset (position V (missing l e)) (position V (missing l' e))

theorem missing_perm {l e e' : List Nat} (h : e.Perm e') : missing l e = missing l e' := by
  unfold missing
  rw [h.diff_left]

theorem isFace_of_subset (hs : Simplices (m + 3) simplices) {e l : List Nat} (he : e.length = m + 2)
    (hen : e.Nodup) (hl : l ∈ simplices) (hes : e ⊆ l) : IsFace e l := by
  obtain ⟨hll, hln⟩ := hs l hl
  have hm := (missing_spec hll he hen hes).2
  obtain ⟨c, hc, hce⟩ := List.getElem_of_mem (hm.mem_iff.1 (by simp) : missing l e ∈ l)
  exact ⟨c, hc, ((missing_unique hll he hen hc).2 ⟨hes, hce⟩).symm⟩

theorem IsFace.subset' {e l : List Nat} (h : IsFace e l) : e ⊆ l := by
  obtain ⟨c, -, hp⟩ := h
  exact fun v hv => (List.eraseIdx_sublist l c).subset (hp.mem_iff.1 hv)

/-- seen from the center of a simplex, the corner of a neighbour lies outside of the sphere -/
theorem neighbour_outside (h : PickInput solve uniq eigh ratio minres nearest simplices t V W y ctr)
    (hemb : Embedded V simplices) {l l' e : List Nat} (hl : l ∈ simplices) (hl' : l' ∈ simplices) (hne : l ≠ l')
    (hf : IsFace e l) (hf' : IsFace e l') :
    sphereRadius V (weightAt W) ctr l' <
      power (ctr l'.toFinset) (position V (missing l e)) (weightAt W (missing l e)) := by
  obtain ⟨-, wf⟩ := fromSimplices_wf h.mesh.uniq_ok h.mesh.rows h.mesh.built
  have hel : ∀ e ∈ t.elements[m + 1]?.getD [], e.length = m + 2 ∧ e.Nodup :=
    fun e he => (wf.get (k := m + 1) (by omega)).1 e he
  have hopp : ∀ e ∈ t.elements[m + 1]?.getD [], ∀ a a', incident simplices e = [a, a'] →
      OppositeSide V e.toFinset (position V (missing a e)) (position V (missing a' e)) := by
    intro e he a a' hinc
    have ha : a ∈ incident simplices e := by rw [hinc]; simp
    have ha' : a' ∈ incident simplices e := by rw [hinc]; simp
    obtain ⟨ha1, ha2⟩ := List.mem_filter.1 ha
    obtain ⟨ha1', ha2'⟩ := List.mem_filter.1 ha'
    have hsub : [a, a'].Sublist simplices := by
      rw [← hinc]
      exact List.filter_sublist
    obtain ⟨f, hf⟩ := List.sublist_iff_exists_fin_orderEmbedding_get_eq.1 hsub
    have hg : ∀ i : Fin 2, simplices[(f i).val]? = some ([a, a'].get i) := by
      intro i
      rw [hf i]
      exact List.getElem?_eq_getElem (f i).2
    refine hemb (f 0).val (f 1).val a a' e (hg 0) (hg 1) ?_
      (isFace_of_subset h.mesh.rows (hel e he).1 (hel e he).2 ha1 (by simpa using ha2))
      (isFace_of_subset h.mesh.rows (hel e he).1 (hel e he).2 ha1' (by simpa using ha2'))
    intro h01
    have h02 : (0 : Fin 2) = 1 := f.injective (Fin.ext h01)
    exact absurd h02 (by decide)
  obtain ⟨b, hb, hiff⟩ := C61_delaunay h.mesh (by omega)
    (fun e he => incident_length h.manifold h.mesh.rows (hel e he).1 (hel e he).2) hopp
  rw [h.delaunay] at hb
  have hall := hiff.1 (Except.ok.inj hb).symm
  -- the face among the elements
  obtain ⟨c, hc, hec⟩ := hf
  obtain ⟨-, -, -, g4, -⟩ := wf.get (k := m + 1) (by omega)
  rw [wf.top_eq, Option.getD_some] at g4
  obtain ⟨e', he', hp⟩ := g4.1 _ hl c hc
  have hpe : e'.Perm e := hp.trans hec.symm
  obtain ⟨hel1, hel2⟩ := hel e' he'
  rw [← missing_perm hpe]
  have hsub : e' ⊆ l := fun v hv => (List.eraseIdx_sublist l c).subset (hp.mem_iff.1 hv)
  have hsub' : e' ⊆ l' := fun v hv => (IsFace.subset' hf') (hpe.mem_iff.1 hv)
  have hle := incident_length h.manifold h.mesh.rows hel1 hel2
  have hmem : l ∈ incident simplices e' := List.mem_filter.2 ⟨hl, by simpa using hsub⟩
  have hmem' : l' ∈ incident simplices e' := List.mem_filter.2 ⟨hl', by simpa using hsub'⟩
  have hcases : incident simplices e' = [l', l] ∨ incident simplices e' = [l, l'] := by
    match hinc : incident simplices e', hle with
    | [], _ => rw [hinc] at hmem; simp at hmem
    | [a], _ =>
      rw [hinc] at hmem hmem'
      simp at hmem hmem'
      exact absurd (hmem.trans hmem'.symm) hne
    | [a, a'], _ =>
      rw [hinc] at hmem hmem'
      simp at hmem hmem'
      rcases hmem with rfl | rfl <;> rcases hmem' with rfl | rfl
      · exact absurd rfl hne
      · exact Or.inr rfl
      · exact Or.inl rfl
      · exact absurd rfl hne
    | a :: a' :: a'' :: r, h3 => simp at h3
  have hne' : e' ≠ [] := by
    rintro rfl
    simp at hel1
  have hu : e'.headD 0 ∈ e' := headD_mem hne'
  rcases hcases with hinc | hinc
  · rw [sphereRadius_eq h.mesh.centers hl' (hsub' hu)]
    exact (hall e' he').2 l' l hinc _ hu
  · have h1 := (hall e' he').2 l l' hinc _ hu
    rw [← sphereRadius_eq h.mesh.centers hl (hsub hu)] at h1
    obtain ⟨a, s, hs, hsum, hpt⟩ := hopp e' he' l l' hinc
    obtain ⟨ho1, ho2, -⟩ := h.mesh.over (by omega) hl hsub hel1 hel2
    obtain ⟨ho1', ho2', ho3', -⟩ := h.mesh.over (by omega) hl' hsub' hel1 hel2
    have hcoord : Coordinates V l (position V (missing l' e')) (fun v => if v = missing l e' then s else a v) := by
      have key : ∀ f : Nat → ℝ, ∑ v ∈ l.toFinset, (if v = missing l e' then s else a v) * f v =
          ∑ v ∈ e'.toFinset, a v * f v + s * f (missing l e') := by
        intro f
        rw [← ho2, Finset.sum_insert ho1, if_pos rfl, add_comm]
        congr 1
        refine Finset.sum_congr rfl fun v hv => ?_
        rw [if_neg]
        rintro rfl
        exact ho1 hv
      constructor
      · have := key fun _ => 1
        simp only [mul_one] at this
        rw [this, hsum]
      · intro j
        rw [key fun v => position V v j, hpt j]
    have hd := spherePower_sub h.mesh.centers (l' := l') hl hcoord
    have hzero : ∀ v ∈ e'.toFinset, (if v = missing l e' then s else a v) *
        (power (ctr l'.toFinset) (position V v) (weightAt W v) - sphereRadius V (weightAt W) ctr l') = 0 := by
      intro v hv
      rw [sphereRadius_eq h.mesh.centers hl' (hsub' (by simpa using hv)), sub_self, mul_zero]
    rw [← ho2, Finset.sum_insert ho1, Finset.sum_eq_zero hzero, if_pos rfl, add_zero] at hd
    have hsym : ∀ q : Fin (m + 2) → ℝ, ∀ v r, power (position V v) q r =
        power q (position V v) (weightAt W v) + weightAt W v - r := by
      intro q v r
      unfold power
      have : ∑ i, (position V v i - q i) ^ 2 = ∑ i, (q i - position V v i) ^ 2 :=
        Finset.sum_congr rfl fun i _ => by ring
      rw [this]
      ring
    unfold spherePower at hd
    rw [hsym, hsym, ← sphereRadius_eq h.mesh.centers hl' ho3'] at hd
    have h2 : s * (power (ctr l'.toFinset) (position V (missing l e')) (weightAt W (missing l e')) -
        sphereRadius V (weightAt W) ctr l') < 0 := by linarith
    have := pos_of_mul_neg_right h2 (le_of_lt hs)
    linarith

/-- the power of a point grows along a way that leads away from it, or the point lies in every simplex of
the way -/
theorem away_power (h : PickInput solve uniq eigh ratio minres nearest simplices t V W y ctr)
    (hemb : Embedded V simplices) {p : Vec ℝ (m + 2)} {l0 l : List Nat} (hw : AwayFrom V simplices p l0 l) :
    InSimplex V l0 p → spherePower V (weightAt W) ctr l0 p < spherePower V (weightAt W) ctr l p ∨
      spherePower V (weightAt W) ctr l0 p = spherePower V (weightAt W) ctr l p ∧ InSimplex V l p := by
  have grow : ∀ {a b : List Nat}, AwayFrom V simplices p a b →
      spherePower V (weightAt W) ctr a p ≤ spherePower V (weightAt W) ctr b p ∧
      (InSimplex V a p → spherePower V (weightAt W) ctr a p = spherePower V (weightAt W) ctr b p →
        InSimplex V b p) := by
    intro a b hab
    induction hab with
    | refl a => exact ⟨le_refl _, fun h _ => h⟩
    | @step a a' a'' e b ha ha' hne hf hf' hb h0 _ ih =>
      have hout := neighbour_outside h hemb ha ha' hne hf hf'
      have hd := spherePower_sub h.mesh.centers (l' := a') ha hb
      obtain ⟨hal, han⟩ := h.mesh.rows a ha
      have hes := IsFace.subset' hf
      have hel : e.length = m + 2 ∧ e.Nodup := by
        obtain ⟨c, hc, hp⟩ := hf
        refine ⟨?_, hp.nodup_iff.2 (han.sublist (List.eraseIdx_sublist _ _))⟩
        rw [hp.length_eq, List.length_eraseIdx_of_lt hc, hal]
        rfl
      obtain ⟨ho1, ho2, ho3, -⟩ := h.mesh.over (by omega) ha hes hel.1 hel.2
      have hzero : ∀ v ∈ e.toFinset, b v * (power (ctr a'.toFinset) (position V v) (weightAt W v) -
          sphereRadius V (weightAt W) ctr a') = 0 := by
        intro v hv
        rw [sphereRadius_eq h.mesh.centers ha' ((IsFace.subset' hf') (by simpa using hv)), sub_self, mul_zero]
      rw [← ho2, Finset.sum_insert ho1, Finset.sum_eq_zero hzero, add_zero] at hd
      have hn : 0 ≤ b (missing a e) * (power (ctr a'.toFinset) (position V (missing a e)) (weightAt W (missing a e)) -
          sphereRadius V (weightAt W) ctr a') := mul_nonneg h0 (by linarith)
      refine ⟨by linarith [ih.1], fun hin heq => ?_⟩
      have h1 : b (missing a e) * (power (ctr a'.toFinset) (position V (missing a e)) (weightAt W (missing a e)) -
          sphereRadius V (weightAt W) ctr a') = 0 := by linarith [ih.1]
      have hbz : b (missing a e) = 0 := by
        rcases mul_eq_zero.1 h1 with h2 | h2
        · exact h2
        · linarith
      refine ih.2 ?_ (by linarith [ih.1])
      obtain ⟨b', hb', h0'⟩ := hin
      refine InSimplex.move hb' h0' fun v hv hva => ?_
      have hve : v = missing a e := by
        have : v ∈ insert (missing a e) e.toFinset := by
          rw [ho2]
          simpa using hv
        rcases Finset.mem_insert.1 this with h3 | h3
        · exact h3
        · exact absurd ((IsFace.subset' hf') (by simpa using h3)) hva
      -- the coordinates are unique
      have hu := (hb.combines hal han).unique (h.mesh.nondegenerate a ha) (hb'.combines hal han)
      obtain ⟨i, hi, hiv⟩ := List.getElem_of_mem hv
      have := congrFun hu ⟨i, by omega⟩
      simp only [List.getElem?_eq_getElem hi, Option.getD_some, hiv] at this
      rw [← this, hve, hbz]
  intro hin
  obtain ⟨h1, h2⟩ := grow hw
  rcases lt_or_eq_of_le h1 with h3 | h3
  · exact Or.inl h3
  · exact Or.inr ⟨h3, h2 hin h3⟩

/-- C62: pairwise Delaunay is enough for every point from whose simplex ways lead to all others, each step
away from the point -/
theorem C62_away (h : PickInput solve uniq eigh ratio minres nearest simplices t V W y ctr)
    (hemb : Embedded V simplices) (points : List (Vec ℝ (m + 2)))
    (hin : ∀ p ∈ points, ∃ l0 ∈ simplices, InSimplex V l0 p ∧ ∀ l ∈ simplices, AwayFrom V simplices p l0 l) :
    ∃ R, pickPrimal solve uniq eigh ratio minres nearest t V W points none true = .ok R ∧
      R.length = points.length ∧
      ∀ (k : Nat) (p : Vec ℝ (m + 2)), points[k]? = some p → ∃ i l b, R[k]? = some (i, b) ∧
        simplices[i]? = some l ∧ Combines (cornersOf V (m + 3) l) b p ∧ ∀ v, 0 ≤ b v := by
  obtain ⟨R, hR, hlen, hk⟩ := C62_pick h points
  refine ⟨R, hR, hlen, fun k p hp => ?_⟩
  obtain ⟨i, l, b, h1, h2, h3, h4⟩ := hk k p hp
  obtain ⟨l0, hl0, hin0, hw⟩ := hin p (List.mem_of_getElem? hp)
  have hl := List.mem_of_getElem? h2
  obtain ⟨hll, hln⟩ := h.mesh.rows l hl
  refine ⟨i, l, b, h1, h2, h3, (inSimplex_iff hll hln (h.mesh.nondegenerate l hl) h3).1 ?_⟩
  rcases away_power h hemb (hw l hl) hin0 with h5 | ⟨-, h5⟩
  · exact absurd (h4 l0 hl0) (not_le.2 h5)
  · exact h5

/-- C62: a hint is kept exactly if the point lies in the simplex; otherwise the search decides -/
theorem C62_hint (h : PickInput solve uniq eigh ratio minres nearest simplices t V W y ctr)
    (points : List (Vec ℝ (m + 2))) (hints : List Nat) (hlen : points.length = hints.length)
    (hrange : ∀ i ∈ hints, i < simplices.length) :
    ∃ R R', pickPrimal solve uniq eigh ratio minres nearest t V W points (some hints) true = .ok R ∧
      pickPrimal solve uniq eigh ratio minres nearest t V W points none true = .ok R' ∧
      R.length = points.length ∧
      ∀ (k : Nat) (p : Vec ℝ (m + 2)) (i : Nat) (l : List Nat), points[k]? = some p → hints[k]? = some i →
        simplices[i]? = some l →
        (InSimplex V l p → ∃ b, R[k]? = some (i, b) ∧ Combines (cornersOf V (m + 3) l) b p ∧ ∀ v, 0 ≤ b v) ∧
        (¬ InSimplex V l p → R[k]? = R'[k]?) := by
  classical
  obtain ⟨sites, hp, hf⟩ := weighted_sites h
  choose i l hq hl hm using query_found (V := V) true hf
  set res : Vec ℝ (m + 2) × Nat → Nat × Vec ℝ (m + 3) := fun pi =>
    if ∃ v, coords V (simplices[pi.2]?.getD []) pi.1 v < 0 then (i pi.1, coords V (l pi.1) pi.1)
    else (pi.2, coords V (simplices[pi.2]?.getD []) pi.1) with hres
  refine ⟨(points.zip hints).map res, points.map fun p => (i p, coords V (l p) p), ?_, ?_, by simp [hlen], ?_⟩
  · unfold pickPrimal
    rw [h.delaunay]
    simp only [bind, Except.bind, Bool.not_true, Bool.false_eq_true, if_false]
    rw [hp]
    simp only
    rw [if_pos hlen]
    rw [mapM_ok (g := res)]
    swap
    · intro pi hpi
      have hlt := hrange pi.2 (List.of_mem_zip hpi).2
      have hg := List.getElem?_eq_getElem hlt
      rw [baryOf_ok hg]
      simp only [hres, hg, Option.getD_some]
      by_cases hneg : ∃ v, coords V simplices[pi.2] pi.1 v < 0
      · rw [if_pos hneg]
        exact (if_pos hneg).trans (hq pi.1)
      · rw [if_neg hneg]
        exact if_neg hneg
    simp only [List.map_map]
    congr 1
    refine List.map_congr_left fun pi hpi => ?_
    have hlt := hrange pi.2 (List.of_mem_zip hpi).2
    have hg := List.getElem?_eq_getElem hlt
    simp only [Function.comp_apply, hres, hg, Option.getD_some]
    split
    · rw [coords_normal h.mesh.nondegenerate (List.mem_of_getElem? (hl pi.1)) pi.1]
    · rw [coords_normal h.mesh.nondegenerate (List.getElem_mem hlt) pi.1]
  · unfold pickPrimal
    rw [h.delaunay]
    simp only [bind, Except.bind, Bool.not_true, Bool.false_eq_true, if_false]
    rw [hp]
    simp only
    rw [mapM_ok _ (fun p => (i p, coords V (l p) p)) points fun p _ => hq p]
    simp only [List.map_map]
    congr 1
    refine List.map_congr_left fun p _ => ?_
    simp only [Function.comp_apply]
    rw [coords_normal h.mesh.nondegenerate (List.mem_of_getElem? (hl p)) p]
  · intro k p i0 l0 hk hi0 hl0
    have hmem := List.mem_of_getElem? hl0
    obtain ⟨hll, hln⟩ := h.mesh.rows l0 hmem
    have hc := coords_combines h.mesh.nondegenerate hmem p
    have hiff := inSimplex_iff hll hln (h.mesh.nondegenerate l0 hmem) hc
    have hz : (points.zip hints)[k]? = some (p, i0) := by
      rw [List.getElem?_zip_eq_some]
      exact ⟨hk, hi0⟩
    rw [List.getElem?_map, hz, List.getElem?_map, hk]
    simp only [Option.map_some, hres, hl0, Option.getD_some]
    constructor
    · intro hin
      refine ⟨coords V l0 p, ?_, hc, hiff.1 hin⟩
      rw [if_neg]
      rintro ⟨v, hv⟩
      exact absurd (hiff.1 hin v) (not_le.2 hv)
    · intro hout
      rw [if_pos]
      by_contra hno
      push Not at hno
      exact hout (hiff.2 hno)

/-- C62: a hint that names no simplex is an error, and so is a list of hints of the wrong length -/
theorem C62_hint_error (h : PickInput solve uniq eigh ratio minres nearest simplices t V W y ctr)
    (points : List (Vec ℝ (m + 2))) (hints : List Nat)
    (hbad : points.length ≠ hints.length ∨ ∃ i ∈ hints, simplices.length ≤ i) :
    ∃ e, pickPrimal solve uniq eigh ratio minres nearest t V W points (some hints) true = .error e := by
  obtain ⟨sites, hp, hf⟩ := weighted_sites h
  unfold pickPrimal
  rw [h.delaunay]
  simp only [bind, Except.bind, Bool.not_true, Bool.false_eq_true, if_false]
  rw [hp]
  simp only
  by_cases hlen : points.length = hints.length
  · rw [if_pos hlen]
    rcases hbad with hb | ⟨i, hi, hlt⟩
    · exact absurd hlen hb
    · split
      · exact ⟨_, rfl⟩
      · rename_i R hX
        exfalso
        obtain ⟨k, hk⟩ := List.getElem?_of_mem hi
        have hkl : k < points.length := hlen ▸ (List.getElem?_eq_some_iff.1 hk).1
        have hz : (points[k], i) ∈ points.zip hints :=
          List.mem_of_getElem? (List.getElem?_zip_eq_some.2 ⟨List.getElem?_eq_getElem hkl, hk⟩)
        obtain ⟨b, hb⟩ := mapM_ok_inv hX _ hz
        have : baryOf (simplices.map (basisOf V)) i points[k] = .error .indexError := by
          unfold baryOf itemAt
          rw [List.getElem?_eq_none (by simpa using hlt)]
          rfl
        simp [this] at hb
  · rw [if_neg hlen]
    exact ⟨_, rfl⟩

/-- C62: `sample_primal_0` combines the values at the corners of the simplex that `pick_primal` returns, with
the coordinates that it returns -/
theorem C62_sample (h : PickInput solve uniq eigh ratio minres nearest simplices t V W y ctr)
    (p0 : List ℝ) (hp0 : ∀ l ∈ simplices, ∀ v ∈ l, v < p0.length) (points : List (Vec ℝ (m + 2))) :
    ∃ R S, pickPrimal solve uniq eigh ratio minres nearest t V W points none true = .ok R ∧
      samplePrimalSimplex solve uniq eigh ratio minres nearest t V W p0 points = .ok S ∧
      S.length = points.length ∧
      ∀ (k : Nat) (p : Vec ℝ (m + 2)), points[k]? = some p → ∃ i l b, R[k]? = some (i, b) ∧
        simplices[i]? = some l ∧ Combines (cornersOf V (m + 3) l) b p ∧
        S[k]? = some (∑ v : Fin (m + 3), b v * p0[l[v.val]?.getD 0]?.getD 0) := by
  obtain ⟨R, hR, hlen, hk⟩ := C62_pick h points
  obtain ⟨-, wf⟩ := fromSimplices_wf h.mesh.uniq_ok h.mesh.rows h.mesh.built
  have htop : lastOf t.elements = .ok simplices := by
    refine lastOf_eq (k := m + 2) wf.lenE ?_
    rw [wf.top_eq]
  have hrun : samplePrimalSimplex solve uniq eigh ratio minres nearest t V W p0 points =
      .ok (R.map fun ib => ∑ v : Fin (m + 3), ib.2 v * p0[(simplices[ib.1]?.getD [])[v.val]?.getD 0]?.getD 0) := by
    unfold samplePrimalSimplex
    rw [hR]
    simp only [bind, Except.bind]
    rw [htop]
    simp only
    refine mapM_ok _ _ _ fun ib hib => ?_
    obtain ⟨k, hkib⟩ := List.getElem?_of_mem hib
    have hkl : k < points.length := hlen ▸ (List.getElem?_eq_some_iff.1 hkib).1
    obtain ⟨i, l, b, h1, h2, -, -⟩ := hk k _ (List.getElem?_eq_getElem hkl)
    rw [hkib] at h1
    have h1 := Option.some.inj h1
    rw [h1]
    have hl := List.mem_of_getElem? h2
    have hll := (h.mesh.rows l hl).1
    have hlt : ∀ i : Fin (m + 3), l[i.val]'(by rw [hll]; exact i.2) < p0.length := fun i => hp0 l hl _ (List.getElem_mem _)
    have hitem : itemAt simplices i = .ok l := by
      unfold itemAt
      rw [h2]
    have hrow : rowValues p0 (m + 2 + 1) l = .ok fun i => p0[l[i.val]?.getD 0]?.getD 0 := by
      unfold rowValues
      rw [dif_pos ⟨hll, fun i => hp0 l hl _ (List.getElem_mem _)⟩]
      congr 1
      funext i
      have hi : i.val < l.length := by rw [hll]; exact i.2
      rw [List.getElem?_eq_getElem hi, Option.getD_some, List.getElem?_eq_getElem (hlt i), Option.getD_some]
      rfl
    simp only [hitem, hrow, h2, Option.getD_some]
    congr 1
    exact Finset.sum_congr rfl fun v _ => mul_comm _ _
  refine ⟨R, _, hR, hrun, by simp [hlen], fun k p hp => ?_⟩
  obtain ⟨i, l, b, h1, h2, h3, -⟩ := hk k p hp
  refine ⟨i, l, b, h1, h2, h3, ?_⟩
  rw [List.getElem?_map, h1, Option.map_some, h2, Option.getD_some]

/-- C62: sampling reproduces affine functions, at every point, even outside of the mesh -/
theorem C62_sample_affine (h : PickInput solve uniq eigh ratio minres nearest simplices t V W y ctr)
    (p0 : List ℝ) (hp0 : ∀ l ∈ simplices, ∀ v ∈ l, v < p0.length) (points : List (Vec ℝ (m + 2)))
    (g : Fin (m + 2) → ℝ) (c : ℝ)
    (haff : ∀ l ∈ simplices, ∀ v ∈ l, p0[v]?.getD 0 = ∑ j, g j * position V v j + c) :
    samplePrimalSimplex solve uniq eigh ratio minres nearest t V W p0 points =
      .ok (points.map fun p => ∑ j, g j * p j + c) := by
  obtain ⟨R, S, -, hS, hlen, hk⟩ := C62_sample h p0 hp0 points
  rw [hS]
  congr 1
  apply List.ext_getElem?
  intro k
  rw [List.getElem?_map]
  by_cases hkl : k < points.length
  · rw [List.getElem?_eq_getElem hkl, Option.map_some]
    obtain ⟨i, l, b, -, h2, h3, h4⟩ := hk k _ (List.getElem?_eq_getElem hkl)
    rw [h4]
    congr 1
    have hl := List.mem_of_getElem? h2
    have hll := (h.mesh.rows l hl).1
    have e : ∀ v : Fin (m + 3), b v * p0[l[v.val]?.getD 0]?.getD 0 =
        ∑ j, g j * (b v * cornersOf V (m + 3) l v j) + b v * c := by
      intro v
      rw [haff l hl _ (mem_get hll v), mul_add, Finset.mul_sum]
      congr 1
      refine Finset.sum_congr rfl fun j _ => ?_
      simp only [cornersOf]
      ring
    simp only [e]
    rw [Finset.sum_add_distrib, ← Finset.sum_mul, h3.1, one_mul, Finset.sum_comm]
    congr 1
    refine Finset.sum_congr rfl fun j _ => ?_
    rw [← Finset.mul_sum, ← h3.2 j]
  · rw [List.getElem?_eq_none (by omega), List.getElem?_eq_none (by omega)]
    rfl

/-- C62: over a Delaunay triangulation, sampling at points of the mesh stays between the values at the
vertices, and at a vertex it returns the value of the vertex -/
theorem C62_sample_delaunay (h : PickInput solve uniq eigh ratio minres nearest simplices t V W y ctr)
    (hdel : Delaunay V (weightAt W) ctr simplices) (p0 : List ℝ)
    (hp0 : ∀ l ∈ simplices, ∀ v ∈ l, v < p0.length) (points : List (Vec ℝ (m + 2)))
    (hin : ∀ p ∈ points, ∃ l ∈ simplices, InSimplex V l p) :
    ∃ S, samplePrimalSimplex solve uniq eigh ratio minres nearest t V W p0 points = .ok S ∧
      S.length = points.length ∧
      (∀ (lo hi : ℝ), (∀ l ∈ simplices, ∀ v ∈ l, lo ≤ p0[v]?.getD 0 ∧ p0[v]?.getD 0 ≤ hi) →
        ∀ s ∈ S, lo ≤ s ∧ s ≤ hi) ∧
      ∀ (k v : Nat) (l : List Nat), l ∈ simplices → v ∈ l → points[k]? = some (position V v) → S[k]? = p0[v]? := by
  obtain ⟨R, S, hR, hS, hlen, hk⟩ := C62_sample h p0 hp0 points
  obtain ⟨R', hR', -, hk'⟩ := C62_delaunay h hdel points hin
  have hRR : R' = R := Except.ok.inj (hR'.symm.trans hR)
  rw [hRR] at hk'
  have hpos : ∀ (k : Nat) (p : Vec ℝ (m + 2)), points[k]? = some p → ∃ i l b, R[k]? = some (i, b) ∧
      simplices[i]? = some l ∧ Combines (cornersOf V (m + 3) l) b p ∧ (∀ v, 0 ≤ b v) ∧
      S[k]? = some (∑ v : Fin (m + 3), b v * p0[l[v.val]?.getD 0]?.getD 0) := by
    intro k p hp
    obtain ⟨i, l, b, h1, h2, h3, h4⟩ := hk k p hp
    obtain ⟨i', l', b', h1', h2', h3', h4'⟩ := hk' k p hp
    rw [h1] at h1'
    obtain ⟨rfl, rfl⟩ := Prod.mk.inj (Option.some.inj h1')
    exact ⟨i, l, b, h1, h2, h3, h4', h4⟩
  refine ⟨S, hS, hlen, fun lo hi hb s hs => ?_, fun k v l0 hl0 hv hp => ?_⟩
  · obtain ⟨k, hks⟩ := List.getElem?_of_mem hs
    have hkl : k < points.length := hlen ▸ (List.getElem?_eq_some_iff.1 hks).1
    obtain ⟨i, l, b, -, h2, h3, h4, h5⟩ := hpos k _ (List.getElem?_eq_getElem hkl)
    rw [hks] at h5
    rw [Option.some.inj h5]
    have hl := List.mem_of_getElem? h2
    have hll := (h.mesh.rows l hl).1
    have e : ∀ r : ℝ, r = ∑ v, b v * r := fun r => by rw [← Finset.sum_mul, h3.1, one_mul]
    constructor
    · rw [e lo]
      exact Finset.sum_le_sum fun v _ => mul_le_mul_of_nonneg_left (hb l hl _ (mem_get hll v)).1 (h4 v)
    · conv_rhs => rw [e hi]
      exact Finset.sum_le_sum fun v _ => mul_le_mul_of_nonneg_left (hb l hl _ (mem_get hll v)).2 (h4 v)
  · obtain ⟨i, l, b, h1, h2, h3, h4, h5⟩ := hpos k _ hp
    obtain ⟨i'', l'', b'', h1'', h2'', h3'', h6⟩ := (C62_pick h points).choose_spec.2.2 k _ hp
    have hRc : (C62_pick h points).choose = R := Except.ok.inj ((C62_pick h points).choose_spec.1.symm.trans hR)
    rw [hRc, h1] at h1''
    obtain ⟨rfl, rfl⟩ := Prod.mk.inj (Option.some.inj h1'')
    rw [h2] at h2''
    obtain rfl := Option.some.inj h2''
    have hl := List.mem_of_getElem? h2
    obtain ⟨hll, hln⟩ := h.mesh.rows l hl
    -- the vertex is a corner of the simplex that was found
    have hc0 : ∀ (l : List Nat), v ∈ l → Coordinates V l (position V v) (fun u => if u = v then 1 else 0) := by
      intro l hvl
      constructor
      · rw [Finset.sum_ite_eq' l.toFinset v, if_pos (by simpa using hvl)]
      · intro j
        simp only [ite_mul, one_mul, zero_mul]
        rw [Finset.sum_ite_eq' l.toFinset v, if_pos (by simpa using hvl)]
    have hvl : v ∈ l := by
      by_contra hvl
      have hd := spherePower_sub h.mesh.centers (l' := l) hl0 (hc0 l0 hv)
      simp only [ite_mul, one_mul, zero_mul] at hd
      rw [Finset.sum_ite_eq' l0.toFinset v, if_pos (by simpa using hv)] at hd
      have hne : l ≠ [] := by
        rintro rfl
        simp at hll
      have h7 := hdel l hl l0 hl0 v hv hvl _ (headD_mem hne)
      have h8 := h6 l0 hl0
      unfold sphereRadius at hd
      linarith
    have hb := h3.unique (h.mesh.nondegenerate l hl) ((hc0 l hvl).combines hll hln)
    rw [h5, hb]
    have hsum := sum_fin_list (P := m + 3) l hln hll (fun u => (if u = v then 1 else 0) * p0[u]?.getD 0)
    rw [hsum]
    simp only [ite_mul, one_mul, zero_mul]
    rw [Finset.sum_ite_eq' l.toFinset v, if_pos (by simpa using hvl),
      List.getElem?_eq_getElem (hp0 l hl v hvl), Option.getD_some]

/-- C62: a complex that is not pairwise Delaunay is refused -/
theorem C62_refused {D : Nat} {V : List (Vec ℝ D)} (points : List (Vec ℝ D)) (hint : Option (List Nat)) (weighted : Bool)
    (hd : isPairwiseDelaunay eigh ratio t V W = .ok false) :
    pickPrimal solve uniq eigh ratio minres nearest t V W points hint weighted = .error .assertionError := by
  unfold pickPrimal
  rw [hd]
  rfl

end

end Verif.Props
