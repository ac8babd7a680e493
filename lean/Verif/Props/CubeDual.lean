/-
C90: `n_cube_dual` makes cross-polytopes.
-/
import Verif.Model.CubeDual
import Verif.Spec.CubeDual
import Verif.Lemmas.CrossPolytope
import Verif.Lemmas.Reorient
import Verif.Lemmas.IcoTopology
import Verif.Props.Grid
import Verif.Props.CubicalBoundary
import Verif.Props.Boundary

set_option linter.unusedSectionVars false

namespace Verif.Props

open Verif.Model Verif.Spec

variable {uniq : List (List Nat) → List (List Nat)} {solve : List (List Int) → Option (List Int)} {n : Nat}
  {F : List (List Nat)} {bit : Nat → Nat → Bool} {axis : Nat → Nat} {sd : Nat → Bool} {facet : Nat → Bool → Nat}

/-! ### sparse_to_elements -/

theorem vertexMatrix_entry {E : List (List Nat)} (hn : ∀ r ∈ E, r.Nodup) {v j : Nat} (hj : j < E.length) :
    (vertexMatrix E).entry v j = if v ∈ E[j] then 1 else 0 := by
  have hr := hn _ (List.getElem_mem hj)
  simp only [vertexMatrix, topologyMatrix, List.getElem?_map, List.getElem?_eq_getElem hj, Option.getD_some, Option.map_some]
  generalize E[j] = r at hr
  have hz : r.zip (r.map fun _ => (1 : Int)) = r.map fun x => (x, 1) := by
    induction r with
    | nil => rfl
    | cons a r ih => rw [List.map_cons, List.zip_cons_cons, ih (List.nodup_cons.1 hr).2, List.map_cons]
  rw [hz, List.map_map]
  induction r with
  | nil => simp
  | cons a r ih =>
    obtain ⟨h1, h2⟩ := List.nodup_cons.1 hr
    have hz' : r.zip (r.map fun _ => (1 : Int)) = r.map fun x => (x, 1) := by
      rw [List.map_cons, List.zip_cons_cons, List.map_cons] at hz
      exact (List.cons.inj hz).2
    rw [List.map_cons, List.sum_cons, ih h2 hz']
    by_cases hva : v = a
    · subst hva; simp [h1]
    · have : ¬ a = v := fun h => hva h.symm
      simp [hva, this]

theorem foldl_max_le {L : List Nat} {a m : Nat} : L.foldl max a ≤ m ↔ a ≤ m ∧ ∀ x ∈ L, x ≤ m := by
  induction L generalizing a with
  | nil => simp
  | cons b L ih => rw [List.foldl_cons, ih]; simp [and_assoc]

theorem vertexMatrix_rows {E : List (List Nat)} {m : Nat} (h : ∀ v, (∃ r ∈ E, v ∈ r) ↔ v < m) :
    (vertexMatrix E).rows = m := by
  have key : ∀ k, (vertexMatrix E).rows ≤ k ↔ m ≤ k := by
    intro k
    show (E.flatten.map (· + 1)).foldl max 0 ≤ k ↔ _
    rw [foldl_max_le]
    simp only [Nat.zero_le, true_and, List.mem_map, List.mem_flatten, forall_exists_index, and_imp]
    constructor
    · intro hk
      by_contra hlt
      obtain ⟨r, hr, hv⟩ := (h k).2 (by omega)
      have := hk (k + 1) k r hr hv rfl
      omega
    · rintro hk x v r hr hv rfl
      have := (h v).1 ⟨r, hr, hv⟩
      omega
  exact le_antisymm ((key m).2 le_rfl) ((key _).1 le_rfl)

/-- `sparse_to_elements` lists the elements around every vertex -/
theorem sparse_corner {E : List (List Nat)} {m : Nat} (hn : ∀ r ∈ E, r.Nodup)
    (h : ∀ v, (∃ r ∈ E, v ∈ r) ↔ v < m) {T : List (List Nat)} (hT : T = (List.range m).map (cornerFacets E)) :
    T.length = m ∧ (∀ l ∈ T, l.Pairwise (· < ·)) ∧ ListsIncidence E T ∧
      ((∀ l ∈ T, ∀ l' ∈ T, l.length = l'.length) → sparseToElements (vertexMatrix E) = .ok T) ∧
      (¬ (∀ l ∈ T, ∀ l' ∈ T, l.length = l'.length) → sparseToElements (vertexMatrix E) = .error .valueError) := by
  subst hT
  have hcols : (vertexMatrix E).cols = E.length := rfl
  have hcorner : ∀ r, ((List.range (vertexMatrix E).cols).filter fun c => (vertexMatrix E).entry r c ≠ 0) = cornerFacets E r := by
    intro r
    rw [hcols]
    unfold cornerFacets
    refine List.filter_congr fun j hj => ?_
    have hj := List.mem_range.1 hj
    rw [vertexMatrix_entry hn hj, List.getElem?_eq_getElem hj, Option.getD_some]
    by_cases hr : r ∈ E[j] <;> simp [hr]
  have hmemc : ∀ v j, j ∈ cornerFacets E v ↔ ∃ f, E[j]? = some f ∧ v ∈ f := by
    intro v j
    unfold cornerFacets
    rw [List.mem_filter, List.mem_range, decide_eq_true_iff]
    constructor
    · rintro ⟨hj, hv⟩
      rw [List.getElem?_eq_getElem hj, Option.getD_some] at hv
      exact ⟨_, List.getElem?_eq_getElem hj, hv⟩
    · rintro ⟨f, hf, hv⟩
      exact ⟨(List.getElem?_eq_some_iff.1 hf).1, by rw [hf]; exact hv⟩
  have hgroups : (((List.range (vertexMatrix E).rows).map fun r =>
      (List.range (vertexMatrix E).cols).filter fun c => (vertexMatrix E).entry r c ≠ 0).filter (· ≠ [])) =
      (List.range m).map (cornerFacets E) := by
    rw [vertexMatrix_rows h]
    simp only [hcorner]
    rw [List.filter_eq_self]
    intro g hg
    obtain ⟨v, hv, rfl⟩ := List.mem_map.1 hg
    obtain ⟨r, hr, hvr⟩ := (h v).2 (List.mem_range.1 hv)
    obtain ⟨j, hj, rfl⟩ := List.getElem_of_mem hr
    have : j ∈ cornerFacets E v := (hmemc v j).2 ⟨_, List.getElem?_eq_getElem hj, hvr⟩
    simpa using List.ne_nil_of_mem this
  refine ⟨by simp, ?_, ?_, ?_⟩
  · intro l hl
    obtain ⟨v, hv, rfl⟩ := List.mem_map.1 hl
    exact List.pairwise_lt_range.filter _
  · intro v l hl
    rw [List.getElem?_map] at hl
    obtain ⟨w, hw, rfl⟩ := Option.map_eq_some_iff.1 hl
    obtain ⟨hlt, rfl⟩ := List.getElem?_eq_some_iff.1 hw
    rw [List.getElem_range]
    exact ⟨List.nodup_range.filter _, hmemc v⟩
  · unfold sparseToElements
    simp only [hgroups]
    generalize (List.range m).map (cornerFacets E) = T
    have hiff : (T.all fun g => decide (g.length = (T.headD []).length)) = true ↔ ∀ l ∈ T, ∀ l' ∈ T, l.length = l'.length := by
      rw [List.all_eq_true]
      simp only [decide_eq_true_eq]
      cases T with
      | nil => simp
      | cons a T =>
        exact ⟨fun h l hl l' hl' => (h l hl).trans (h l' hl').symm, fun h l hl => h l hl a List.mem_cons_self⟩
    exact ⟨fun h => if_pos (hiff.2 h), fun h => if_neg (mt hiff.1 h)⟩

/-- C90: applied to the matrix of elements and vertices, `sparse_to_elements` lists for every vertex the elements around it, in
increasing order, provided that they are equally many for all vertices; otherwise it raises `ValueError`. -/
theorem C90_sparse_to_elements {E : List (List Nat)} {m : Nat} (hn : ∀ r ∈ E, r.Nodup)
    (h : ∀ v, (∃ r ∈ E, v ∈ r) ↔ v < m) :
    ∃ T : List (List Nat), T.length = m ∧ (∀ l ∈ T, l.Pairwise (· < ·)) ∧ ListsIncidence E T ∧
      ((∀ l ∈ T, ∀ l' ∈ T, l.length = l'.length) → sparseToElements (vertexMatrix E) = .ok T) ∧
      (¬ (∀ l ∈ T, ∀ l' ∈ T, l.length = l'.length) → sparseToElements (vertexMatrix E) = .error .valueError) :=
  ⟨_, sparse_corner hn h rfl⟩

/-! ### the cube -/

/-- the corners of the cube -/
theorem unitCube (n : Nat) : ∃ l, gridCubes (List.replicate n 1) = [l] ∧ l.length = 2 ^ n ∧ l.Nodup ∧ ∀ v, v ∈ l ↔ v < 2 ^ n := by
  have hlen : (gridCubes (List.replicate n 1)).length = 1 := by rw [C22_count]; simp
  obtain ⟨l, hl⟩ := List.length_eq_one_iff.1 hlen
  have hc := gridCubes_cubes (List.replicate n 1) l (by rw [hl]; exact List.mem_singleton_self _)
  rw [List.length_replicate] at hc
  refine ⟨l, hl, hc.1, hc.2, fun v => ?_⟩
  have := grid_vertices (shape := List.replicate n 1) (by intro m hm; rw [List.eq_of_mem_replicate hm]) v
  rw [hl] at this
  simpa [vshape] using this

theorem mem_side {k i : Nat} {s : Bool} {l : List Nat} {v : Nat} :
    v ∈ side k i s l ↔ ∃ b : List Bool, b.length = k + 1 ∧ b[i]? = some s ∧ cubeAt l b = v := by
  unfold side
  rw [List.mem_map]
  simp only [List.mem_filter, mem_cubeIndices, beq_iff_eq, and_assoc]

/-- facets that list the sides of a cube -/
theorem facets_of_sides {k : Nat} {l : List Nat} (hl : l.length = 2 ^ (k + 1)) (hn : l.Nodup) (hv : ∀ v, v ∈ l ↔ v < 2 ^ (k + 1))
    (hside : ∀ f ∈ F, IsCubeSide k f l) (hall : ∀ i ≤ k, ∀ s, ∃ f ∈ F, f.Perm (side k i s l)) (hd : DistinctElements F) :
    ∃ bit axis sd facet, Facets (k + 1) F bit axis sd facet ∧
      (∀ b : List Bool, b.length = k + 1 → ∀ a, bit (cubeAt l b) a = b[a]?.getD false) ∧
      ∀ (j : Nat) (f : List Nat), F[j]? = some f → f.Perm (side k (axis j) (sd j) l) := by
  classical
  have hpos : ∀ v < 2 ^ (k + 1), ∃ b : List Bool, b.length = k + 1 ∧ cubeAt l b = v := by
    intro v hlt
    have := (hv v).2 hlt
    rw [← cubeOf_self hl] at this
    obtain ⟨b, hb, rfl⟩ := List.mem_map.1 this
    exact ⟨b, mem_cubeIndices.1 hb, rfl⟩
  let pos : Nat → List Bool := fun v => if h : v < 2 ^ (k + 1) then (hpos v h).choose else []
  have hpos1 : ∀ v < 2 ^ (k + 1), (pos v).length = k + 1 ∧ cubeAt l (pos v) = v := by
    intro v h
    simp only [pos, dif_pos h]
    exact (hpos v h).choose_spec
  have hat : ∀ b : List Bool, b.length = k + 1 → cubeAt l b < 2 ^ (k + 1) := fun b hb => (hv _).1 (cubeAt_mem hl hb)
  have hpos2 : ∀ b : List Bool, b.length = k + 1 → pos (cubeAt l b) = b := fun b hb =>
    cubeAt_inj hl hn (hpos1 _ (hat b hb)).1 hb (hpos1 _ (hat b hb)).2
  have hside' : ∀ j : Nat, ∃ p : Nat × Bool, ∀ f, F[j]? = some f → p.1 ≤ k ∧ f.Perm (side k p.1 p.2 l) := by
    intro j
    cases hj : F[j]? with
    | none => exact ⟨(0, false), by simp⟩
    | some f =>
      obtain ⟨i, hi, s, hp⟩ := hside f (List.mem_of_getElem? hj)
      exact ⟨(i, s), fun g hg => by cases hg; exact ⟨hi, hp⟩⟩
  choose ax hax using hside'
  have hall' : ∀ (a : Nat) (s : Bool), ∃ j : Nat, a ≤ k → ∃ f, F[j]? = some f ∧ f.Perm (side k a s l) := by
    intro a s
    by_cases ha : a ≤ k
    · obtain ⟨f, hf, hp⟩ := hall a ha s
      obtain ⟨j, hj⟩ := List.mem_iff_getElem?.1 hf
      exact ⟨j, fun _ => ⟨f, hj, hp⟩⟩
    · exact ⟨0, fun h => absurd h ha⟩
  choose facet hfacet using hall'
  have hback : ∀ a ≤ k, ∀ s, ax (facet a s) = (a, s) := by
    intro a ha s
    obtain ⟨f, hf, hp⟩ := hfacet a s ha
    obtain ⟨h1, h2⟩ := hax _ f hf
    obtain ⟨e1, e2⟩ := side_perm_inj hl hn h1 ha (h2.symm.trans hp)
    exact Prod.ext e1 e2
  refine ⟨fun v a => (pos v)[a]?.getD false, fun j => (ax j).1, fun j => (ax j).2, facet, ⟨?_, ?_, ?_, ?_, ?_, ?_, ?_, ?_⟩, ?_, ?_⟩
  · intro v hlt w hlt' hb
    have e : pos v = pos w := by
      apply List.ext_getElem
      · rw [(hpos1 v hlt).1, (hpos1 w hlt').1]
      · intro a h1 h2
        have := hb a (by rw [(hpos1 v hlt).1] at h1; exact h1)
        simpa [List.getElem?_eq_getElem h1, List.getElem?_eq_getElem h2] using this
    rw [← (hpos1 v hlt).2, ← (hpos1 w hlt').2, e]
  · intro f
    refine ⟨cubeAt l ((List.range (k + 1)).map f), hat _ (by simp), fun a ha => ?_⟩
    rw [hpos2 _ (by simp), List.getElem?_map, List.getElem?_range ha]
    rfl
  · intro j hj
    have := (hax j _ (List.getElem?_eq_getElem hj)).1
    omega
  · intro j f hf v
    obtain ⟨h1, h2⟩ := hax j f hf
    rw [h2.mem_iff, mem_side]
    constructor
    · rintro ⟨b, hb, hbi, rfl⟩
      exact ⟨hat b hb, by rw [hpos2 b hb, hbi]; rfl⟩
    · rintro ⟨hlt, hb⟩
      refine ⟨pos v, (hpos1 v hlt).1, ?_, (hpos1 v hlt).2⟩
      have hlen : (ax j).1 < (pos v).length := by rw [(hpos1 v hlt).1]; omega
      rw [List.getElem?_eq_getElem hlen, Option.getD_some] at hb
      rw [List.getElem?_eq_getElem hlen, hb]
  · intro a ha s
    obtain ⟨f, hf, -⟩ := hfacet a s (by omega)
    exact (List.getElem?_eq_some_iff.1 hf).1
  · intro a ha s; rw [hback a (by omega) s]
  · intro a ha s; rw [hback a (by omega) s]
  · intro j hj
    have hf := List.getElem?_eq_getElem hj
    obtain ⟨h1, h2⟩ := hax j _ hf
    obtain ⟨g, hg, hp⟩ := hfacet (ax j).1 (ax j).2 h1
    obtain ⟨hj', rfl⟩ := List.getElem?_eq_some_iff.1 hg
    by_contra hne
    rcases Nat.lt_or_gt_of_ne hne with hlt | hlt
    · exact List.pairwise_iff_getElem.1 hd _ _ hj' hj hlt (hp.trans h2.symm)
    · exact List.pairwise_iff_getElem.1 hd _ _ hj hj' hlt (h2.trans hp.symm)
  · intro b hb a
    show (pos (cubeAt l b))[a]?.getD false = _
    rw [hpos2 b hb]
  · intro j f hf
    exact (hax j f hf).2

/-- the boundary of the cube -/
theorem cube_facets (hu : UniqSpec uniq) (hsat : SatSpec solve) {m : Nat} (hm : m + 2 ≤ 7) :
    ∃ t s F bit axis sd facet l, nCubeGrid uniq (List.replicate (m + 2) 1) true = .ok t ∧
      cubicalBoundary solve uniq t = .ok (some s) ∧ s.topo.elements[m + 1]? = some F ∧
      Facets (m + 2) F bit axis sd facet ∧ Cubes (m + 1) F ∧
      (gridCubes (List.replicate (m + 2) 1) = [l] ∧ Cubes (m + 2) [l] ∧ ∀ v, v ∈ l ↔ v < 2 ^ (m + 2)) ∧
      isOriented solve t = .ok true ∧ s.parentIdx[0]? = some (List.range (2 ^ (m + 2))) ∧
      (∀ b : List Bool, b.length = m + 2 → ∀ a, bit (cubeAt l b) a = b[a]?.getD false) ∧
      ∀ (j : Nat) (f : List Nat), F[j]? = some f → ∃ σ, SymmetricCube (m + 1) f (side (m + 1) (axis j) (sd j) l) σ := by
  obtain ⟨l, hl, hlen, hnd, hv⟩ := unitCube (m + 2)
  obtain ⟨t, ht⟩ := C22_accepted hu (shape := List.replicate (m + 2) 1) (by simp) (by simpa using hm)
    (by intro x hx; rw [List.eq_of_mem_replicate hx])
  have hor := C22_oriented hu hsat (by simp) ht
  have h := ht
  unfold nCubeGrid at h
  rw [hl, List.length_replicate] at h
  have hc : Cubes (m + 2) [l] := by
    intro r hr
    obtain rfl := List.mem_singleton.1 hr
    exact ⟨hlen, hnd⟩
  have h2 : SidesAtMostTwo (m + 1) [l] := sidesAtMostTwo_of_length (by simp)
  have hbs : ∀ e, BoundarySide (m + 1) [l] e ↔ IsCubeSide (m + 1) e l := by
    intro e
    constructor
    · rintro ⟨j, l', hj, hs, -⟩
      obtain rfl := List.mem_singleton.1 (List.mem_of_getElem? hj)
      exact hs
    · intro hs
      refine ⟨0, l, rfl, hs, fun j' l' hj' _ => ?_⟩
      have := (List.getElem?_eq_some_iff.1 hj').1
      simpa using this
  obtain ⟨⟨b, hb⟩, hno⟩ := C76_closed_iff hu hc hsat h h2 hor
  cases b with
  | none => exact absurd ((hbs (side (m + 1) 0 false l)).2 ⟨0, by omega, false, List.Perm.refl _⟩) (hno.1 hb _)
  | some s =>
    obtain ⟨P0, new, sides, hP0, hnew, hmap, hsub, hiff, hsort, hused, -⟩ := C76_boundary_elements hu hc hsat h h2 hor hb
    have wf := fromCubes_wf hu hc h
    obtain ⟨w1, -, w3, w4, -⟩ := wf.get (k := m + 1) (by omega)
    rw [wf.top_eq, Option.getD_some] at w4
    have hside : ∀ f ∈ sides, IsCubeSide (m + 1) f l := fun f hf => (hbs f).1 ((hiff f (hsub.subset hf)).1 hf)
    have hall : ∀ i ≤ m + 1, ∀ s, ∃ f ∈ sides, f.Perm (side (m + 1) i s l) := by
      intro i hi s
      obtain ⟨x, e', he', hp⟩ := stored_of_isSide hu hc h (List.mem_singleton_self l) ⟨i, hi, s, List.Perm.refl _⟩
      exact ⟨e', (hiff e' (List.mem_of_getElem? he')).2 ((hbs e').2 ⟨i, hi, s, hp.symm⟩), hp.symm⟩
    have hmemP : ∀ v, v ∈ P0 ↔ v < 2 ^ (m + 2) := by
      intro v
      constructor
      · intro hvP
        obtain ⟨u, hu', rfl⟩ := List.getElem_of_mem hvP
        obtain ⟨r, hr, hur⟩ := (hused u).2 hu'
        have hr' : (r.map fun v => P0[v]?.getD 0) ∈ sides := by rw [← hmap]; exact List.mem_map_of_mem hr
        have hx : P0[u] ∈ r.map fun v => P0[v]?.getD 0 :=
          List.mem_map.2 ⟨u, hur, by rw [List.getElem?_eq_getElem hu', Option.getD_some]⟩
        obtain ⟨i, hi, s, hp⟩ := hside _ hr'
        obtain ⟨b, hb1, -, hb3⟩ := mem_side.1 (hp.mem_iff.1 hx)
        rw [← hb3, ← hv]
        exact cubeAt_mem hlen hb1
      · intro hlt
        have := (hv v).2 hlt
        rw [← cubeOf_self hlen] at this
        obtain ⟨b, hb, rfl⟩ := List.mem_map.1 this
        have hbl := mem_cubeIndices.1 hb
        obtain ⟨f, hf, hp⟩ := hall 0 (by omega) (b[0]'(by omega))
        have hx := hp.mem_iff.2 (mem_side.2 ⟨b, hbl, List.getElem?_eq_getElem (by omega), rfl⟩)
        rw [← hmap] at hf
        obtain ⟨r, hr, rfl⟩ := List.mem_map.1 hf
        obtain ⟨u, hu', he⟩ := List.mem_map.1 hx
        have hlt' := (hused u).1 ⟨r, hr, hu'⟩
        rw [List.getElem?_eq_getElem hlt', Option.getD_some] at he
        rw [← he]
        exact List.getElem_mem hlt'
    have hP : P0 = List.range (2 ^ (m + 2)) := by
      have hnP : P0.Nodup := hsort.imp fun h => Nat.ne_of_lt h
      have hp : P0.Perm (List.range (2 ^ (m + 2))) := (List.perm_ext_iff_of_nodup hnP List.nodup_range).2 fun v => by
        rw [hmemP, List.mem_range]
      exact hp.eq_of_pairwise (fun a b _ _ h1 h2 => absurd h1 (by omega)) hsort List.pairwise_lt_range
    have hns : new = sides := by
      rw [← hmap]
      conv_lhs => rw [← List.map_id new]
      refine List.map_congr_left fun r hr => ?_
      conv_lhs => rw [id, ← List.map_id r]
      refine List.map_congr_left fun u hu' => ?_
      have hlt := (hused u).1 ⟨r, hr, hu'⟩
      rw [hP, List.length_range] at hlt
      rw [hP, List.getElem?_range hlt]
      rfl
    obtain ⟨bit, axis, sd, facet, hF, hbit, hperm⟩ := facets_of_sides hlen hnd hv hside hall (w3.sublist hsub)
    refine ⟨t, s, sides, bit, axis, sd, facet, l, ht, hb, by rw [hnew, hns], hF, fun f hf => w1 f (hsub.subset hf),
      ⟨hl, hc, hv⟩, hor, by rw [hP0, hP], hbit, fun j f hj => ?_⟩
    have hmem := hsub.subset (List.mem_of_getElem? hj)
    obtain ⟨l', hl', i, hi, s', σ, hσ⟩ := w4.2 f hmem
    obtain rfl := List.mem_singleton.1 hl'
    obtain ⟨e1, e2⟩ := side_perm_inj hlen hnd hi (by have := hF.axis_lt j (List.getElem?_eq_some_iff.1 hj).1; omega)
      ((hσ.perm (w1 f hmem).1).trans (hperm j f hj))
    exact ⟨σ, by rw [← e1, ← e2]; exact hσ⟩

/-! ### the cross-polytope -/

theorem _root_.Verif.Facets.length (H : Facets n F bit axis sd facet) : F.length = 2 * n := by
  have hp : (List.range F.length).Perm ((List.range n).flatMap fun a => [facet a false, facet a true]) := by
    have inj : ∀ a < n, ∀ b < n, ∀ s s', facet a s = facet b s' → a = b ∧ s = s' := by
      intro a ha b hb s s' he
      have h1 := H.axis_facet a ha s
      have h2 := H.sd_facet a ha s
      rw [he] at h1 h2
      exact ⟨h1.symm.trans (H.axis_facet b hb s'), h2.symm.trans (H.sd_facet b hb s')⟩
    refine (List.perm_ext_iff_of_nodup List.nodup_range ?_).2 fun j => ?_
    · rw [List.nodup_flatMap]
      refine ⟨fun a ha => ?_, List.nodup_range.imp_of_mem fun {a b} ha hb hne => ?_⟩
      · have ha := List.mem_range.1 ha
        have : facet a false ≠ facet a true := fun he => by simpa using (inj a ha a ha _ _ he).2
        simpa using this
      · have ha := List.mem_range.1 ha
        have hb := List.mem_range.1 hb
        intro j h1 h2
        have h1 : ∃ s, j = facet a s := by
          rcases List.mem_cons.1 h1 with h | h
          · exact ⟨_, h⟩
          · exact ⟨_, List.mem_singleton.1 h⟩
        have h2 : ∃ s, j = facet b s := by
          rcases List.mem_cons.1 h2 with h | h
          · exact ⟨_, h⟩
          · exact ⟨_, List.mem_singleton.1 h⟩
        obtain ⟨s, e1⟩ := h1
        obtain ⟨s', e2⟩ := h2
        exact hne (inj a ha b hb s s' (e1.symm.trans e2)).1
    · rw [List.mem_range, List.mem_flatMap]
      constructor
      · intro hj
        refine ⟨axis j, List.mem_range.2 (H.axis_lt j hj), ?_⟩
        have := H.facet_axis j hj
        cases hs : sd j <;> rw [hs] at this <;> rw [← this] <;> simp [H.axis_facet _ (H.axis_lt j hj)]
      · rintro ⟨a, ha, hj⟩
        have ha := List.mem_range.1 ha
        rcases List.mem_cons.1 hj with rfl | hj
        · exact H.facet_lt a ha _
        · rw [List.mem_singleton.1 hj]; exact H.facet_lt a ha _
  have := hp.length_eq
  rw [List.length_range] at this
  rw [this]
  simp [List.length_flatMap, Nat.mul_comm]

theorem _root_.Verif.Facets.crossAxes (H : Facets n F bit axis sd facet) (flip : Nat → Bool) :
    CrossAxes n (reorient flip (cornerSimplices n F)) axis sd := by
  have hlen := H.length
  refine ⟨fun j hj => H.axis_lt j (by omega), fun a ha s => ?_, fun l hl => ?_, fun f => ?_⟩
  · have := H.facet_lt a ha s
    refine ⟨facet a s, ⟨by omega, H.axis_facet a ha s, H.sd_facet a ha s⟩, ?_⟩
    rintro j ⟨hj, rfl, rfl⟩
    exact (H.facet_axis j (by omega)).symm
  · obtain ⟨v, hv⟩ := List.mem_iff_getElem?.1 hl
    obtain ⟨l', hl', hp⟩ := reorient_row' hv
    obtain ⟨hlt, rfl⟩ := cornerSimplices_get.1 hl'
    have hp' := hp.trans (H.perm hlt)
    refine ⟨by rw [hp'.length_eq, axisFacets_length], fun j hj => ?_, ?_⟩
    · have := ((H.mem_corner hlt).1 (hp.mem_iff.1 hj)).1
      omega
    · rw [← H.axisFacets_axis v]
      exact hp'.map axis
  · obtain ⟨v, hlt, hv⟩ := H.surj f
    have hrow : (cornerSimplices n F)[v]? = some (cornerFacets F v) := cornerSimplices_get.2 ⟨hlt, rfl⟩
    obtain ⟨l', hl', hp⟩ := reorient_row (flip := flip) hrow
    refine ⟨v, ⟨l', hl', fun j hj => ?_⟩, ?_⟩
    · obtain ⟨h1, h2⟩ := (H.mem_corner hlt).1 (hp.mem_iff.1 hj)
      rw [← h2, hv _ (H.axis_lt j h1)]
    · rintro w ⟨l, hl, hall⟩
      obtain ⟨l0, hl0, hp0⟩ := reorient_row' hl
      obtain ⟨hw, rfl⟩ := cornerSimplices_get.1 hl0
      refine H.inj w hw v hlt fun a ha => ?_
      have hin : facet a (bit w a) ∈ l := hp0.mem_iff.2 ((H.mem_corner hw).2
        ⟨H.facet_lt a ha _, by rw [H.axis_facet a ha, H.sd_facet a ha]⟩)
      have := hall _ hin
      rw [H.axis_facet a ha, H.sd_facet a ha] at this
      rw [this, hv a ha]

theorem _root_.Verif.Facets.twice (H : Facets n F bit axis sd facet) (flip : Nat → Bool) :
    EveryFaceTwice (reorient flip (cornerSimplices n F)) := by
  intro v l e hl he
  obtain ⟨l0, hl0, hp⟩ := reorient_row' hl
  obtain ⟨hv, rfl⟩ := cornerSimplices_get.1 hl0
  have hn : (cornerFacets F v).Nodup := List.nodup_range.filter _
  obtain ⟨w, -, -, -, -, -, -, hs⟩ := H.shared hv ((isFace_reordered hn hp).1 he)
  exact ⟨w, (sharedFace_reorient H.simplices flip e v w).2 hs⟩

/-- `fix_orientation` builds the reoriented simplices -/
theorem fixOrientation_rows {simplices : List (List Nat)} {nCorners : Nat} {t t' : Topo} (hu : UniqSpec uniq)
    (hs : Simplices nCorners simplices) (hsat : SatSpec solve) (h : fromSimplices uniq nCorners simplices = .ok t)
    (h' : fixOrientation solve uniq t = .ok t') :
    ∃ flip : Nat → Bool, fromSimplices uniq nCorners (reorient flip simplices) = .ok t' ∧ Coherent (reorient flip simplices) := by
  obtain ⟨flip, htop, hco⟩ := C07_fix_orientation_coherent hu hs hsat h h'
  obtain ⟨n, rfl, -, wf⟩ := wf_of_ok hu hs h
  exact ⟨flip, fix_built hu wf hs h' (reorient_simplices hs flip) htop, hco⟩

/-- the simplices made from the facets of a cube -/
theorem dual_of_facets (hu : UniqSpec uniq) (hsat : SatSpec solve) {m : Nat} (H : Facets (m + 2) F bit axis sd facet)
    (hnd : ∀ f ∈ F, f.Nodup) :
    ∃ u t flip, sparseToElements (vertexMatrix F) = .ok (cornerSimplices (m + 2) F) ∧
      ((cornerSimplices (m + 2) F).headD []).length = m + 2 ∧ fromSimplices uniq (m + 2) (cornerSimplices (m + 2) F) = .ok u ∧
      fixOrientation solve uniq u = .ok t ∧ t.elements[m + 1]? = some (reorient flip (cornerSimplices (m + 2) F)) ∧
      (cornerSimplices (m + 2) F).length = 2 ^ (m + 2) ∧ t.nElements 0 = 2 * (m + 2) ∧
      Coherent (reorient flip (cornerSimplices (m + 2) F)) ∧ isOriented solve t = .ok true ∧
      (3 ≤ m + 2 → boundary solve uniq t = .ok none) := by
  have hs := H.simplices
  have hcov : ∀ v, (∃ r ∈ F, v ∈ r) ↔ v < 2 ^ (m + 2) := by
    intro v
    constructor
    · rintro ⟨r, hr, hv⟩
      obtain ⟨j, hj⟩ := List.mem_iff_getElem?.1 hr
      exact ((H.mem j r hj v).1 hv).1
    · intro hv
      have hj := H.facet_lt 0 (by omega) (bit v 0)
      refine ⟨F[facet 0 (bit v 0)], List.getElem_mem hj, (H.mem _ _ (List.getElem?_eq_getElem hj) v).2 ⟨hv, ?_⟩⟩
      rw [H.axis_facet 0 (by omega), H.sd_facet 0 (by omega)]
  have hsp : sparseToElements (vertexMatrix F) = .ok (cornerSimplices (m + 2) F) :=
    (sparse_corner hnd hcov rfl).2.2.2.1 fun l hl l' hl' => (hs l hl).1.trans (hs l' hl').1.symm
  have hne : cornerSimplices (m + 2) F ≠ [] := by
    intro h
    have := congrArg List.length h
    simp [cornerSimplices] at this
  have hhead : ((cornerSimplices (m + 2) F).headD []).length = m + 2 := by
    obtain ⟨a, rest, ha⟩ := List.exists_cons_of_ne_nil hne
    rw [ha]
    exact (hs a (by rw [ha]; exact List.mem_cons_self)).1
  have hverts : ∀ flip j, (∃ l ∈ reorient flip (cornerSimplices (m + 2) F), j ∈ l) ↔ j < 2 * (m + 2) := by
    intro flip j
    rw [← H.length]
    constructor
    · rintro ⟨l, hl, hj⟩
      obtain ⟨v, hv⟩ := List.mem_iff_getElem?.1 hl
      obtain ⟨l', hl', hp⟩ := reorient_row' hv
      obtain ⟨hlt, rfl⟩ := cornerSimplices_get.1 hl'
      exact ((H.mem_corner hlt).1 (hp.mem_iff.1 hj)).1
    · intro hj
      obtain ⟨v, hlt, hv⟩ := H.surj fun _ => sd j
      have hrow : (cornerSimplices (m + 2) F)[v]? = some (cornerFacets F v) := cornerSimplices_get.2 ⟨hlt, rfl⟩
      obtain ⟨l', hl', hp⟩ := reorient_row (flip := flip) hrow
      exact ⟨l', List.mem_of_getElem? hl', hp.mem_iff.2 ((H.mem_corner hlt).2 ⟨hj, hv _ (H.axis_lt j hj)⟩)⟩
  obtain ⟨u, hu'⟩ := (C03_accepts_iff hu hs).2 ⟨2 * (m + 2), by simpa only [reorient_false] using hverts fun _ => false⟩
  have hlen : (cornerSimplices (m + 2) F).length = 2 ^ (m + 2) := by simp [cornerSimplices]
  have hpow : 0 < 2 ^ (m + 2) := Nat.two_pow_pos _
  have hlast : ∃ e j', SharedFace (cornerSimplices (m + 2) F) e ((cornerSimplices (m + 2) F).length - 1) j' := by
    have hv : 2 ^ (m + 2) - 1 < 2 ^ (m + 2) := by omega
    have hrow : (cornerSimplices (m + 2) F)[2 ^ (m + 2) - 1]? = some (cornerFacets F (2 ^ (m + 2) - 1)) :=
      cornerSimplices_get.2 ⟨hv, rfl⟩
    have hl := (hs _ (List.mem_of_getElem? hrow)).1
    obtain ⟨w, -, -, -, -, -, -, hsh⟩ := H.shared hv ⟨0, by omega, List.Perm.refl _⟩
    exact ⟨_, w, by rw [hlen]; exact hsh⟩
  obtain ⟨t, ht⟩ := (C07_fix_orientation_succeeds_iff hu hs hsat hu').2 ⟨H.orientable (by omega), .inr hlast⟩
  obtain ⟨flip, hf, hco⟩ := fixOrientation_rows hu hs hsat hu' ht
  have hs' := reorient_simplices hs flip
  obtain ⟨k, hk, -, wf⟩ := wf_of_ok hu hs' hf
  obtain rfl : k = m + 1 := by omega
  have hcon : Connected (reorient flip (cornerSimplices (m + 2) F)) := by
    intro a ha b hb
    rw [reorient_length] at ha hb
    refine Relation.ReflTransGen.mono (fun x y hxy => ?_) _ _ (H.connected a ha b hb)
    obtain ⟨e, he⟩ := hxy
    exact ⟨e, (sharedFace_reorient hs flip e x y).2 he⟩
  have hor : isOriented solve t = .ok true := (C08_connected_exact hu hs' hsat hf (by
    intro h
    have := congrArg List.length h
    rw [reorient_length, hlen] at this
    simp at this) hcon).2 hco
  have htwo : AtMostTwo (reorient flip (cornerSimplices (m + 2) F)) :=
    atMostTwo_reorient hs (fun _ => false) flip (by rw [reorient_false]; exact H.atMostTwo)
  refine ⟨u, t, flip, hsp, hhead, hu', ht, wf.top_eq, hlen, ?_, hco, hor, fun h3 => ?_⟩
  · obtain ⟨E, hE, hfl⟩ := wf.vertices
    have h04 := C04_elements_are_faces hu hs' hf 0 (by omega)
    rw [hE, Option.getD_some] at h04
    have key : ∀ v, v < E.length ↔ v < 2 * (m + 2) := by
      intro v
      rw [← List.mem_range, ← hfl, List.mem_flatten, ← hverts flip v]
      have hs0 := (wf.get (k := 0) (by omega)).1
      rw [hE, Option.getD_some] at hs0
      constructor
      · rintro ⟨e, he, hv⟩
        obtain ⟨l, hl, hsub⟩ := ((h04 e).1 ⟨e, he, List.Perm.refl _⟩).2
        exact ⟨l, hl, hsub.subset hv⟩
      · rintro ⟨l, hl, hv⟩
        obtain ⟨e, he, hp⟩ := (h04 [v]).2 ⟨rfl, l, hl, List.singleton_subperm_iff.2 hv⟩
        exact ⟨e, he, hp.mem_iff.2 (List.mem_singleton_self v)⟩
    have hle := key E.length
    have hle' := key (2 * (m + 2))
    unfold Topo.nElements
    rw [hE, Option.getD_some]
    omega
  · obtain ⟨p, rfl⟩ : ∃ p, m = p + 1 := ⟨m - 1, by omega⟩
    refine (C09_closed_iff hu hs' hsat hf htwo hor).2.2 ?_
    rintro e ⟨j, l, hl, he, hun⟩
    obtain ⟨j', hsh⟩ := H.twice flip j l e hl he
    obtain ⟨hne', -, hj', hall⟩ := hsh
    have hrow := List.getElem?_eq_getElem hj'
    exact hne' (hun j' _ hrow ((hall j' _ hrow).2 (.inr rfl))).symm

/-- C90: for 2 to 7 dimensions `n_cube_dual` succeeds.  Its simplices are those of a cross-polytope with two vertices on every
axis, every face belongs to exactly two of them, and they are coherently oriented. -/
theorem C90_cross_polytope (hu : UniqSpec uniq) (hsat : SatSpec solve) (hn : 2 ≤ n) (hn' : n ≤ 7) :
    ∃ t T, nCubeDual solve uniq n = .ok t ∧ t.elements[n - 1]? = some T ∧ T.length = 2 ^ n ∧ t.nElements 0 = 2 * n ∧
      CrossPolytope n T ∧ EveryFaceTwice T ∧ Coherent T ∧ isOriented solve t = .ok true ∧
      (3 ≤ n → boundary solve uniq t = .ok none) := by
  obtain ⟨m, rfl⟩ : ∃ m, n = m + 2 := ⟨n - 2, by omega⟩
  obtain ⟨t0, s, F, bit, axis, sd, facet, l, h1, h2, h3, H, hcF, -⟩ := cube_facets hu hsat hn'
  obtain ⟨u, t, flip, g1, g2, g3, g4, g5, g6, g7, g8, g9, g10⟩ := dual_of_facets hu hsat H fun f hf => (hcF f hf).2
  refine ⟨t, _, ?_, g5, by rw [reorient_length, g6], g7, ⟨axis, sd, H.crossAxes flip⟩, H.twice flip, g8, g9, g10⟩
  unfold nCubeDual
  simp only [h1, bind, Except.bind, h2, show m + 2 - 1 = m + 1 from rfl, h3, Option.getD_some, g1, g2, g3, g4]

/-- C90: from 8 dimensions on `n_cube_dual` fails, because the cube cannot be built. -/
theorem C90_rejected (hu : UniqSpec uniq) (hn : 8 ≤ n) : ¬ ∃ t, nCubeDual solve uniq n = .ok t := by
  rintro ⟨t, ht⟩
  have := C22_rejected hu (shape := List.replicate n 1) (by simpa using hn)
  unfold nCubeDual at ht
  simp only [bind, Except.bind] at ht
  cases hc : nCubeGrid uniq (List.replicate n 1) true with
  | error e => rw [hc] at ht; simp at ht
  | ok t' => exact this ⟨t', hc⟩

/-- C90, a case: the octahedron -/
theorem C90_case : ∃ solve t T, SatSpec solve ∧ nCubeDual solve List.dedup 3 = .ok t ∧ t.elements[2]? = some T ∧ T.length = 8 ∧
    t.nElements 0 = 6 ∧ CrossPolytope 3 T ∧ boundary solve List.dedup t = .ok none := by
  obtain ⟨solve, hsat⟩ := exists_satSolver
  obtain ⟨t, T, h1, h2, h3, h4, h5, -, -, -, h6⟩ := C90_cross_polytope (n := 3) uniqSpec_dedup hsat (by norm_num) (by norm_num)
  exact ⟨solve, t, T, hsat, h1, h2, h3, h4, h5, h6 le_rfl⟩

/-- C90, a case: the edges of a triangle, and of a path -/
example : (∀ r ∈ [[0, 1], [1, 2], [2, 0]], r.Nodup) ∧ (∀ v, (∃ r ∈ [[0, 1], [1, 2], [2, 0]], v ∈ r) ↔ v < 3) ∧
    sparseToElements (vertexMatrix [[0, 1], [1, 2], [2, 0]]) = .ok [[0, 2], [0, 1], [1, 2]] := by
  refine ⟨by decide, fun v => ?_, by decide +kernel⟩
  simp
  omega

example : (∀ r ∈ [[0, 1], [1, 2]], r.Nodup) ∧ (∀ v, (∃ r ∈ [[0, 1], [1, 2]], v ∈ r) ↔ v < 3) ∧
    sparseToElements (vertexMatrix [[0, 1], [1, 2]]) = .error .valueError := by
  refine ⟨by decide, fun v => ?_, by decide +kernel⟩
  simp
  omega

end Verif.Props
