/-
C78: `dual_flux_to_dual_velocity`.
-/
import Verif.Lemmas.Flow
import Verif.Lemmas.Svd
import Verif.Props.PickingInstances

set_option linter.unusedSectionVars false

namespace Verif.Props

open Verif.Model Verif.Spec Matrix

/-- a complex that `dual_flux_to_dual_velocity` is called on: a complex with a metric, of dimension two or
more in a space of at most one dimension more, no face in three simplices, pairwise Delaunay, correct
decompositions, and no singular value between zero and the tolerance of the pseudoinverse; `N1` and `N0` are the
numbers of dual edges and dual vertices.  In three dimensions or more the circumcenters of the faces lie in the
faces. -/
structure FlowInput {d : Nat} (uniq : List (List Nat) → List (List Nat))
    (solve : List (List Int) → Option (List Int))
    (eigh : (n : Nat) → Matrix (Fin n) (Fin n) ℝ → Eigh n ℝ) (ratio : ℝ) (n : Nat)
    (simplices : List (List Nat)) (t : Topo) (V : List (Vec ℝ (d + 1))) (y : Finset Nat → Nat → ℝ)
    (ctr : Finset Nat → Fin (d + 1) → ℝ) (svd : (a b : Nat) → Matrix (Fin a) (Fin b) ℝ → Svd a b ℝ) (r : ℝ)
    (N1 N0 : Nat) : Prop where
  input : MetricInput uniq solve eigh ratio n simplices t V y ctr
  two : 2 ≤ n
  flat : d ≤ n
  sat : SatSpec solve
  manifold : AtMostTwo simplices
  inside : n ≤ 2 ∨ InsideUpTo simplices y n
  svd_ok : SvdSpec svd
  small : 0 < r
  cutoff : ∀ l ∈ simplices, ∀ j, (svd (n + 1) (d + 1) (Matrix.of (centred (cornersOf V (n + 1) l)))).s j = 0 ∨
    r * (svd (n + 1) (d + 1) (Matrix.of (centred (cornersOf V (n + 1) l)))).s ⟨0, by omega⟩ ≤
      (svd (n + 1) (d + 1) (Matrix.of (centred (cornersOf V (n + 1) l)))).s j
  delaunay : isPairwiseDelaunay eigh ratio t V none = .ok true
  edges : dualElements solve uniq t (n - 1) = .ok N1
  cells : dualElements solve uniq t n = .ok N0

theorem dualElements_ge {solve : List (List Int) → Option (List Int)} {uniq : List (List Nat) → List (List Nat)}
    {t : Topo} {k N : Nat} (h : dualElements solve uniq t k = .ok N) : t.nElements k ≤ N := by
  unfold dualElements at h
  cases hb : boundary solve uniq t with
  | error e => rw [hb] at h; cases h
  | ok o =>
    rw [hb] at h
    simp only [bind, Except.bind] at h
    cases o with
    | none => exact (Except.ok.inj h).le
    | some s =>
      simp only at h
      cases ho : isOriented solve s.topo with
      | error e => rw [ho] at h; cases h
      | ok b =>
        rw [ho] at h
        simp only at h
        cases b with
        | false => cases h
        | true =>
          simp only [Bool.not_true, Bool.false_eq_true, if_false] at h
          have := Except.ok.inj h
          omega

section

variable {d : Nat} {uniq : List (List Nat) → List (List Nat)}
  {solve : List (List Int) → Option (List Int)}
  {eigh : (n : Nat) → Matrix (Fin n) (Fin n) ℝ → Eigh n ℝ} {ratio : ℝ} {n m : Nat}
  {simplices : List (List Nat)} {t : Topo} {V : List (Vec ℝ (d + 1))} {y : Finset Nat → Nat → ℝ}
  {ctr : Finset Nat → Fin (d + 1) → ℝ} {svd : (a b : Nat) → Matrix (Fin a) (Fin b) ℝ → Svd a b ℝ} {r : ℝ}
  {N1 N0 : Nat}

/-- the face in slot `c` of simplex `j` -/
def slotAt (t : Topo) (m j c : Nat) : Nat := ((t.boundary[m]?.getD [])[j]?.getD [])[c]?.getD 0

theorem FlowInput.value (h : FlowInput uniq solve eigh ratio (m + 1) simplices t V y ctr svd r N1 N0) :
    ∃ (M : List (List ℝ) × List (List ℝ)) (pd : List ℝ) (X : Nat → Matrix (Fin (d + 1)) (Fin (m + 2)) ℝ),
      metric solve eigh ratio t V none = .ok M ∧ (hodgePD M)[m]? = some pd ∧ pd.length = t.nElements m ∧
      (∀ (x : Nat) (e : List Nat), (t.elements[m]?.getD [])[x]? = some e → ∀ f : List Nat → ℝ,
        (∀ l ∈ simplices, e ⊆ l → ∃ g, IsHeight V e.toFinset (position V (missing l e)) g ∧
          f l = y l.toFinset (missing l e) * Real.sqrt (innerProd g g)) →
        0 < ((incident simplices e).map f).sum ∧
        pd[x]?.getD 0 = vol (cornersOf V (m + 1) e) / ((incident simplices e).map f).sum) ∧
      (∀ (j : Nat) (l : List Nat), simplices[j]? = some l →
        ∀ (face : Fin (m + 2) → List Nat) (g : Fin (m + 2) → Fin (d + 1) → ℝ),
        (∀ c, (face c).Perm (l.eraseIdx c) ∧ IsHeight V (face c).toFinset (position V (missing l (face c))) (g c)) →
        (∀ u, Tangent V l u → ∀ k, ∑ c, X j k c * (vol (cornersOf V (m + 1) (face c)) *
          (innerProd u (g c) / Real.sqrt (innerProd (g c) (g c)))) = u k) ∧
        ∀ b : Fin (m + 2) → ℝ, ∑ c, b c = 0 → Tangent V l (fun k => ∑ c, X j k c * b c) ∧
          ∀ c, vol (cornersOf V (m + 1) (face c)) * (innerProd (fun k => ∑ c, X j k c * b c) (g c) /
            Real.sqrt (innerProd (g c) (g c))) = b c) ∧
      ∀ flux : List ℝ, flux.length = N1 →
        dualFluxToDualVelocity solve uniq eigh ratio svd r t V none flux =
          .ok ((List.range simplices.length).map (fun j k => ∑ c : Fin (m + 2), X j k c *
            (((t.matrix m).entry (slotAt t m j c) j : ℝ) *
              (pd[slotAt t m j c]?.getD 0 * flux[slotAt t m j c]?.getD 0))) ++
            List.replicate (N0 - simplices.length) 0) := by
  have hm : 1 ≤ m := by have := h.two; omega
  have hI := h.input
  obtain ⟨hn1, wf⟩ := fromSimplices_wf hI.uniq_ok hI.rows hI.built
  have htop := hI.rows
  -- the metric
  obtain ⟨PM, DM, L, hmet, hL, hLlen, hLx⟩ := dual_edge_lengths hI hm
  obtain ⟨PM', DM', hmet', hPl, hDl, hprim⟩ := C59_primal hI
  rw [hmet] at hmet'
  obtain ⟨rfl, rfl⟩ := Prod.mk.inj (Except.ok.inj hmet')
  obtain ⟨P, hP, hPlen, hPx⟩ := hprim m (by omega) (by rw [Nat.min_self]; exact h.inside)
  have hrev : DM.reverse[m]? = some L := by
    rw [List.getElem?_reverse (by omega), ← hL]
    congr 1
    omega
  have hA : (hodgePD (PM, DM))[m]? = some (List.zipWith (fun p d => p / d) P L) := by
    simp only [hodgePD, List.getElem?_zipWith, hP, hrev]
  have hAl : (hodgePD (PM, DM)).length = m + 2 := by simp [hodgePD, hPl, hDl]
  -- all dual edges are positive
  obtain ⟨b, PM', DM', L', hb, hmet', hL', hpos⟩ := C61_dual_edges hI h.two (fun e he => by
    obtain ⟨he1, he2, -⟩ := wf.element_face htop (by omega : m ≤ m + 1) he
    exact incident_le_two htop h.manifold he1 he2)
  rw [hmet] at hmet'
  obtain ⟨rfl, rfl⟩ := Prod.mk.inj (Except.ok.inj hmet')
  rw [hL] at hL'
  obtain rfl := Option.some.inj hL'
  rw [h.delaunay] at hb
  have hpos := hpos.1 (Except.ok.inj hb).symm
  -- the inverses
  have hX := fun (l : List Nat) (hl : l ∈ simplices) =>
    simplex_inverse hI hm h.flat h.svd_ok h.small hl (h.cutoff l hl)
  choose Xl hXl1 hXl2 using hX
  classical
  set Y : List Nat → Matrix (Fin (d + 1)) (Fin (m + 2)) ℝ := fun l => if hl : l ∈ simplices then Xl l hl else 0 with hY
  have hYl : ∀ l (hl : l ∈ simplices), Y l = Xl l hl := fun l hl => dif_pos hl
  refine ⟨_, _, fun j => Y (simplices[j]?.getD []), hmet, hA, by simp [hPlen, hLlen], ?_, ?_, ?_⟩
  · intro x e hx f hf
    obtain ⟨p, hp, hpx⟩ := hPx x e hx
    have hval := hLx x e hx f hf
    refine ⟨hpos _ (List.mem_of_getElem? hval), ?_⟩
    rw [List.getElem?_zipWith, hpx, hval]
    rw [volume_eq_vol (by have := hI.dims; omega)] at hp
    rw [← Except.ok.inj hp]
    rfl
  · intro j l hl face g hg
    have hlm := List.mem_of_getElem? hl
    have := hXl2 l hlm face g hg
    rw [← hYl l hlm] at this
    simp only [hl, Option.getD_some]
    exact this
  · intro flux hflux
    have hge := dualElements_ge h.edges
    obtain ⟨hBl, hOl, -⟩ := wf.slots
    have hnm : m + 1 - 1 = m := rfl
    rw [hnm] at hge
    have hlast : lastOf t.boundary = .ok (t.boundary[m]?.getD []) := by
      refine lastOf_eq wf.lenB ?_
      rw [List.getElem?_eq_getElem (by rw [wf.lenB]; omega), Option.getD_some]
    have hlastO : lastOf t.orientation = .ok (t.orientation[m]?.getD []) := by
      refine lastOf_eq wf.lenO ?_
      rw [List.getElem?_eq_getElem (by rw [wf.lenO]; omega), Option.getD_some]
    have hlastE : lastOf t.elements = .ok simplices := lastOf_eq wf.lenE wf.top_eq
    unfold dualFluxToDualVelocity
    rw [h.delaunay]
    simp only [bind, Except.bind, Bool.not_true, Bool.false_eq_true, if_false]
    rw [wf.lenB]
    unfold velocityOfFlux
    rw [hlast, hlastO, hlastE]
    simp only [bind, Except.bind]
    rw [mapM_ok_of (g := Y) (fun l hl => by rw [hYl l hl]; exact hXl1 l hl)]
    simp only
    rw [hmet]
    simp only
    rw [lastButOne_eq hAl hA]
    simp only
    rw [h.edges, h.cells]
    simp only
    rw [if_neg (by simpa using hflux), wf.nTop]
    congr 2
    apply List.ext_getElem
    · simp [hBl, hOl]
    · intro j h1 h2
      have hj : j < simplices.length := by simpa using h2
      obtain ⟨bj, oj, hb1, ho1, lb, lo, -⟩ := wf.slots.2.2 j _ (List.getElem?_eq_getElem hj)
      simp only [List.getElem_zipWith, List.getElem_map, List.getElem_range, List.getElem_zip]
      have hbj : (t.boundary[m]?.getD [])[j]'(by rw [hBl]; exact hj) = bj :=
        (List.getElem_eq_iff _).2 hb1
      have hoj : (t.orientation[m]?.getD [])[j]'(by rw [hOl]; exact hj) = oj :=
        (List.getElem_eq_iff _).2 ho1
      rw [hbj, hoj]
      funext k
      rw [List.getElem?_eq_getElem hj, Option.getD_some]
      refine Finset.sum_congr rfl fun c _ => ?_
      congr 1
      obtain ⟨x, e, hx1, hx2, -, hx4⟩ := wf.flow_slot hm htop (List.getElem?_eq_getElem hj) c.2
      have hsl : slotAt t m j c = x := by
        unfold slotAt
        rw [hx1, Option.getD_some]
      have hxl : x < t.nElements m := (List.getElem?_eq_some_iff.1 hx2).1
      rw [hb1, Option.getD_some] at hx1
      rw [ho1, Option.getD_some] at hx4
      rw [hsl, List.getElem?_zipWith, hx1, List.getElem?_eq_getElem (show c.val < oj.length by omega)]
      rw [List.getElem?_eq_getElem (show c.val < oj.length by omega), Option.getD_some] at hx4
      simp only [Option.getD_some]
      rw [hx4]
      congr 1
      rw [hnm, List.getElem?_zipWith, List.getElem?_take_of_lt hxl]
      have hp : x < (List.zipWith (fun p d => p / d) P L).length := by simpa [hPlen, hLlen] using hxl
      have hf : x < flux.length := by omega
      rw [List.getElem?_eq_getElem hp, List.getElem?_eq_getElem hf]
      simp only [Option.getD_some]

/-- the faces and heights of a simplex, slot by slot -/
theorem FlowInput.slots (h : FlowInput uniq solve eigh ratio (m + 1) simplices t V y ctr svd r N1 N0)
    {j : Nat} {l : List Nat} (hl : simplices[j]? = some l) :
    ∃ (face : Fin (m + 2) → List Nat) (g : Fin (m + 2) → Fin (d + 1) → ℝ),
      (∀ c, (face c).Perm (l.eraseIdx c) ∧ IsHeight V (face c).toFinset (position V (missing l (face c))) (g c)) ∧
      (∀ c, 0 < innerProd (g c) (g c)) ∧
      ∀ c : Fin (m + 2), (t.elements[m]?.getD [])[slotAt t m j c]? = some (face c) := by
  have hm : 1 ≤ m := by have := h.two; omega
  have hI := h.input
  obtain ⟨hn1, wf⟩ := fromSimplices_wf hI.uniq_ok hI.rows hI.built
  have hlm := List.mem_of_getElem? hl
  obtain ⟨hl1, hl2⟩ := hI.rows l hlm
  have key : ∀ c : Fin (m + 2), ∃ (e : List Nat) (g : Fin (d + 1) → ℝ), e.Perm (l.eraseIdx c) ∧
      IsHeight V e.toFinset (position V (missing l e)) g ∧ 0 < innerProd g g ∧
      (t.elements[m]?.getD [])[slotAt t m j c]? = some e := by
    intro c
    obtain ⟨x, e, hx1, hx2, hx3, -⟩ := wf.flow_slot hm hI.rows hl c.2
    have hel : e.length = m + 1 := by rw [hx3.length_eq, List.length_eraseIdx_of_lt (by omega)]; omega
    have hen : e.Nodup := hx3.nodup_iff.2 (hl2.eraseIdx c)
    obtain ⟨-, -, -, -, -, g, hg, hg0⟩ := hI.center.over hn1 hlm
      (fun u hu => List.mem_of_mem_eraseIdx (hx3.mem_iff.1 hu)) hel hen
    refine ⟨e, g, hx3, hg, hg0, ?_⟩
    unfold slotAt
    rw [hx1, Option.getD_some, hx2]
  choose face g h1 h2 h3 h4 using key
  exact ⟨face, g, fun c => ⟨h1 c, h2 c⟩, h3, h4⟩

/-- C78: the flux along the dual edges of a velocity that is constant on each simplex and conserves mass
across the faces gives that velocity back, simplex by simplex; the dual vertices on the boundary come after
them and get zero -/
theorem C78_velocity (h : FlowInput uniq solve eigh ratio n simplices t V y ctr svd r N1 N0)
    (u : Nat → Fin (d + 1) → ℝ) (hu : ∀ (j : Nat) (l : List Nat), simplices[j]? = some l → Tangent V l (u j))
    (hc : Conserved V simplices u) (flux : List ℝ) (hlen : flux.length = N1)
    (hf : ∀ (x : Nat) (e : List Nat), (t.elements[n - 1]?.getD [])[x]? = some e →
      flux[x]? = some (∑ j ∈ Finset.range simplices.length, ((t.matrix (n - 1)).entry x j : ℝ) *
        innerProd (u j) (ctr (simplices[j]?.getD []).toFinset - ctr e.toFinset))) :
    dualFluxToDualVelocity solve uniq eigh ratio svd r t V none flux =
      .ok ((List.range simplices.length).map u ++ List.replicate (N0 - simplices.length) 0) := by
  obtain ⟨m, rfl⟩ : ∃ m, n = m + 1 := ⟨n - 1, by have := h.two; omega⟩
  have hm : 1 ≤ m := by have := h.two; omega
  have hI := h.input
  obtain ⟨hn1, wf⟩ := fromSimplices_wf hI.uniq_ok hI.rows hI.built
  have hco := C08_true_sound hI.uniq_ok hI.rows h.sat hI.built hI.oriented
  obtain ⟨M, pd, X, -, -, -, hpd, hX, hval⟩ := h.value
  rw [hval flux hlen]
  congr 2
  apply List.map_congr_left
  intro j hj
  have hj := List.mem_range.1 hj
  have hl := List.getElem?_eq_getElem hj
  obtain ⟨face, g, hg, hg0, hface⟩ := h.slots hl
  obtain ⟨hl1, hl2⟩ := hI.rows _ (List.getElem_mem hj)
  obtain ⟨hinv, -⟩ := hX j _ hl face g hg
  funext k
  rw [← hinv (u j) (hu j _ hl) k]
  refine Finset.sum_congr rfl fun c _ => ?_
  congr 1
  set x := slotAt t m j c with hx
  set e := face c with he
  set l := simplices[j] with hlj
  have hfl : IsFace e l := ⟨c, by omega, (hg c).1⟩
  obtain ⟨he2, he1, hsub⟩ := (isFace_iff_subset hl1 hl2).1 hfl
  -- the parts of the dual edge
  have hpart : ∀ l' ∈ simplices, ∃ g', e ⊆ l' → IsHeight V e.toFinset (position V (missing l' e)) g' ∧
      0 < innerProd g' g' ∧ ctr l'.toFinset - ctr e.toFinset = fun k => y l'.toFinset (missing l' e) * g' k := by
    intro l' hl'
    by_cases hs : e ⊆ l'
    · obtain ⟨a1, a2, -, a3, a4, g', hg', hg0'⟩ := hI.center.over hn1 hl' hs he1 he2
      exact ⟨g', fun _ => ⟨hg', hg0', hg'.center a1 a3 a4⟩⟩
    · exact ⟨0, fun h => absurd h hs⟩
  choose! γ hγ using hpart
  set f : List Nat → ℝ := fun l' => y l'.toFinset (missing l' e) * Real.sqrt (innerProd (γ l') (γ l')) with hfdef
  obtain ⟨hS, hpdx⟩ := hpd x e (hface c) f (fun l' hl' hs => ⟨γ l', (hγ l' hl' hs).1, rfl⟩)
  rw [hpdx, hf x e (hface c), Option.getD_some]
  have hγl : γ l = g c := (hγ l (List.getElem_mem hj) hsub).1.unique (hg c).2
  set a := innerProd (u j) (g c) / Real.sqrt (innerProd (g c) (g c)) with ha
  have hxl : x < (t.matrix m).rows := by
    rw [(wf.shape (k := m) (by omega)).1]
    exact (List.getElem?_eq_some_iff.1 (hface c)).1
  have hsq : ((t.matrix m).entry x j : ℝ) * ((t.matrix m).entry x j : ℝ) = 1 := by
    rcases wf.entry_pm hI.rows hxl ((wf.mem_nonzeroCols hI.rows (hface c) j).2 ⟨l, hl, hfl⟩) with h1 | h1 <;>
      rw [h1] <;> norm_num
  have hsum : ∑ j' ∈ Finset.range simplices.length, ((t.matrix m).entry x j' : ℝ) *
      innerProd (u j') (ctr (simplices[j']?.getD []).toFinset - ctr e.toFinset) =
      ((t.matrix m).entry x j : ℝ) * a * ((incident simplices e).map f).sum := by
    rw [incident_sum, Finset.mul_sum]
    refine Finset.sum_congr rfl fun j' hj' => ?_
    have hj' := Finset.mem_range.1 hj'
    have hl' := List.getElem?_eq_getElem hj'
    rw [hl', Option.getD_some]
    obtain ⟨hl1', hl2'⟩ := hI.rows _ (List.getElem_mem hj')
    by_cases hs : e ⊆ simplices[j']
    · rw [if_pos hs]
      obtain ⟨b1, b2, b3⟩ := hγ _ (List.getElem_mem hj') hs
      have hpos := Real.sqrt_pos.2 b2
      have hval : innerProd (u j') (ctr (simplices[j']).toFinset - ctr e.toFinset) =
          f simplices[j'] * (innerProd (u j') (γ simplices[j']) /
            Real.sqrt (innerProd (γ simplices[j']) (γ simplices[j']))) := by
        rw [b3, ip_comm, ip_smul_left, ip_comm]
        simp only [hfdef]
        field_simp
      rw [hval]
      by_cases hjj : j' = j
      · subst hjj
        rw [show simplices[j'] = l from rfl, hγl]
        ring
      · have hf' : IsFace e simplices[j'] := (isFace_iff_subset hl1' hl2').2 ⟨he2, he1, hs⟩
        have h1 := wf.entry_opposite h.manifold hco (hface c) hl hl' (Ne.symm hjj) hfl hf'
        have h2 := hc e j j' l _ (g c) (γ simplices[j']) hl hl' (Ne.symm hjj) hfl hf' (hg c).2 b1
        rw [h1]
        have h3 : innerProd (u j') (γ simplices[j']) /
            Real.sqrt (innerProd (γ simplices[j']) (γ simplices[j'])) = - a := by rw [ha]; linarith
        rw [h3]
        push_cast
        ring
    · rw [if_neg hs]
      have : (t.matrix m).entry x j' = 0 := by
        by_contra hne
        exact hs ((isFace_iff_subset hl1' hl2').1 ((wf.top_entry_ne hI.rows (hface c) hl').1 hne)).2.2
      rw [this]
      simp
  simp only [Nat.add_sub_cancel]
  rw [hsum]
  have := hS.ne'
  field_simp
  linear_combination (vol (cornersOf V (m + 1) e) * a) * hsq

/-- a column of the incidence matrix, slot by slot -/
theorem entry_column (wf : WF (m + 1) simplices t) (hm : 1 ≤ m) (htop : Simplices (m + 2) simplices) {j : Nat}
    {l : List Nat} (hl : simplices[j]? = some l) (F : Nat → ℝ) :
    ∑ x ∈ Finset.range (t.nElements m), ((t.matrix m).entry x j : ℝ) * F x =
      ∑ c : Fin (m + 2), ((t.matrix m).entry (slotAt t m j c) j : ℝ) * F (slotAt t m j c) := by
  obtain ⟨hl1, hl2⟩ := htop l (List.mem_of_getElem? hl)
  have hslot : ∀ c : Fin (m + 2), ∃ e, (t.elements[m]?.getD [])[slotAt t m j c]? = some e ∧ e.Perm (l.eraseIdx c) := by
    intro c
    obtain ⟨x, e, hx1, hx2, hx3, -⟩ := wf.flow_slot hm htop hl c.2
    refine ⟨e, ?_, hx3⟩
    unfold slotAt
    rw [hx1, Option.getD_some, hx2]
  have hinj : Function.Injective fun c : Fin (m + 2) => slotAt t m j c := by
    intro c c' hcc
    obtain ⟨e, h1, h2⟩ := hslot c
    obtain ⟨e', h1', h2'⟩ := hslot c'
    have hcc : slotAt t m j c = slotAt t m j c' := hcc
    rw [hcc, h1'] at h1
    obtain rfl := Option.some.inj h1
    have hel : e'.length = m + 1 := by rw [h2.length_eq, List.length_eraseIdx_of_lt (by omega)]; omega
    have hen : e'.Nodup := h2.nodup_iff.2 (hl2.eraseIdx c)
    have a1 := ((missing_unique hl1 hel hen (c := c.val) (by omega)).1 h2.symm).2
    have a2 := ((missing_unique hl1 hel hen (c := c'.val) (by omega)).1 h2'.symm).2
    exact Fin.ext ((List.Nodup.getElem_inj_iff hl2).1 (a1.trans a2.symm))
  rw [← Finset.sum_image (s := Finset.univ) (g := fun c : Fin (m + 2) => slotAt t m j c)
    (f := fun x => ((t.matrix m).entry x j : ℝ) * F x) (fun a _ b _ hab => hinj hab)]
  symm
  refine Finset.sum_subset ?_ ?_
  · intro x hx
    obtain ⟨c, -, rfl⟩ := Finset.mem_image.1 hx
    obtain ⟨e, h1, -⟩ := hslot c
    exact Finset.mem_range.2 (List.getElem?_eq_some_iff.1 h1).1
  · intro x hx hnot
    have hx : x < (t.elements[m]?.getD []).length := Finset.mem_range.1 hx
    have h0 : (t.matrix m).entry x j = 0 := by
      by_contra hne
      obtain ⟨c, hc, hp⟩ := (wf.top_entry_ne htop (List.getElem?_eq_getElem hx) hl).1 hne
      apply hnot
      refine Finset.mem_image.2 ⟨⟨c, by omega⟩, Finset.mem_univ _, ?_⟩
      have hop : oppositeCorner m c = c := by
        unfold oppositeCorner
        rw [if_neg (by omega)]
      exact (wf.slot_iff hl (by omega) (List.getElem?_eq_getElem hx)).2 (by rw [hop]; exact hp.symm)
    rw [h0]
    simp

/-- C78: for every flux, on a simplex into which as much flows as out of it the velocity is parallel to the
simplex, and it carries the flux across each face: the area of the face times the component at a right angle
to the face is the entry of `hodge_PD` times the flux along the dual edge -/
theorem C78_incompressible (h : FlowInput uniq solve eigh ratio n simplices t V y ctr svd r N1 N0) :
    ∃ M pd, metric solve eigh ratio t V none = .ok M ∧ (hodgePD M)[n - 1]? = some pd ∧
      ∀ flux : List ℝ, flux.length = N1 → ∃ vel : List (Vec ℝ (d + 1)),
        dualFluxToDualVelocity solve uniq eigh ratio svd r t V none flux =
          .ok (vel ++ List.replicate (N0 - simplices.length) 0) ∧ vel.length = simplices.length ∧
        ∀ (j : Nat) (l : List Nat) (v : Vec ℝ (d + 1)), simplices[j]? = some l → vel[j]? = some v →
          ∑ x ∈ Finset.range (t.nElements (n - 1)), ((t.matrix (n - 1)).entry x j : ℝ) *
            (pd[x]?.getD 0 * flux[x]?.getD 0) = 0 →
          Tangent V l v ∧
          ∀ (x : Nat) (e : List Nat) (g : Fin (d + 1) → ℝ) (a : ℝ), (t.elements[n - 1]?.getD [])[x]? = some e →
            IsFace e l → IsHeight V e.toFinset (position V (missing l e)) g →
            unsignedVolume (Matrix.of (cornersOf V n e)) = .ok a →
            a * (innerProd v g / Real.sqrt (innerProd g g)) =
              ((t.matrix (n - 1)).entry x j : ℝ) * (pd[x]?.getD 0 * flux[x]?.getD 0) := by
  obtain ⟨m, rfl⟩ : ∃ m, n = m + 1 := ⟨n - 1, by have := h.two; omega⟩
  have hm : 1 ≤ m := by have := h.two; omega
  have hI := h.input
  obtain ⟨hn1, wf⟩ := fromSimplices_wf hI.uniq_ok hI.rows hI.built
  obtain ⟨M, pd, X, hM, hpd, -, -, hX, hval⟩ := h.value
  refine ⟨M, pd, hM, hpd, fun flux hlen => ⟨_, hval flux hlen, by simp, fun j l v hl hv h0 => ?_⟩⟩
  obtain ⟨face, g, hg, hg0, hface⟩ := h.slots hl
  obtain ⟨hl1, hl2⟩ := hI.rows l (List.mem_of_getElem? hl)
  obtain ⟨-, hinv⟩ := hX j l hl face g hg
  have hj : j < simplices.length := (List.getElem?_eq_some_iff.1 hl).1
  rw [List.getElem?_map, List.getElem?_range hj, Option.map_some] at hv
  obtain rfl := Option.some.inj hv
  simp only [Nat.add_sub_cancel] at h0 ⊢
  rw [entry_column wf hm hI.rows hl fun x => pd[x]?.getD 0 * flux[x]?.getD 0] at h0
  obtain ⟨h1, h2⟩ := hinv _ h0
  refine ⟨h1, fun x e g' a hx hf hg' ha => ?_⟩
  obtain ⟨c, hc, hp⟩ := hf
  have hop : oppositeCorner m c = c := by
    unfold oppositeCorner
    rw [if_neg (by omega)]
  have hcx : slotAt t m j c = x := (wf.slot_iff hl (by omega) hx).2 (by rw [hop]; exact hp.symm)
  have h3 := h2 ⟨c, by omega⟩
  have h4 := hface ⟨c, by omega⟩
  have h5 := (hg ⟨c, by omega⟩).2
  simp only [hcx] at h3 h4
  rw [hx] at h4
  have h4 := (Option.some.inj h4).symm
  rw [h4] at h3 h5
  rw [volume_eq_vol (by have := hI.dims; omega)] at ha
  rw [← Except.ok.inj ha, hg'.unique h5]
  exact h3

/-- C78: the flux along the dual edges on the boundary is not used -/
theorem C78_boundary (h : FlowInput uniq solve eigh ratio n simplices t V y ctr svd r N1 N0) (flux flux' : List ℝ)
    (hl : flux.length = N1) (hl' : flux'.length = N1)
    (hf : ∀ x < t.nElements (n - 1), flux[x]? = flux'[x]?) :
    dualFluxToDualVelocity solve uniq eigh ratio svd r t V none flux =
      dualFluxToDualVelocity solve uniq eigh ratio svd r t V none flux' := by
  obtain ⟨m, rfl⟩ : ∃ m, n = m + 1 := ⟨n - 1, by have := h.two; omega⟩
  obtain ⟨M, pd, X, -, -, -, -, -, hval⟩ := h.value
  rw [hval flux hl, hval flux' hl']
  congr 2
  apply List.map_congr_left
  intro j hj
  obtain ⟨face, -, -, -, hface⟩ := h.slots (List.getElem?_eq_getElem (List.mem_range.1 hj))
  funext k
  refine Finset.sum_congr rfl fun c _ => ?_
  rw [hf _ (List.getElem?_eq_some_iff.1 (hface c)).1]

/-- C78: a complex that is not pairwise Delaunay is refused -/
theorem C78_refused (svd : (a b : Nat) → Matrix (Fin a) (Fin b) ℝ → Svd a b ℝ) (r : ℝ) (t : Topo)
    (V : List (Vec ℝ (d + 1))) (weights : Option (List ℝ)) (flux : List ℝ)
    (h : isPairwiseDelaunay eigh ratio t V weights = .ok false) :
    dualFluxToDualVelocity solve uniq eigh ratio svd r t V weights flux = .error .assertionError := by
  unfold dualFluxToDualVelocity
  rw [h]
  rfl

/-- C78: a flux with another number of entries than there are dual edges is refused -/
theorem C78_length (h : FlowInput uniq solve eigh ratio n simplices t V y ctr svd r N1 N0) (flux : List ℝ)
    (hl : flux.length ≠ N1) :
    dualFluxToDualVelocity solve uniq eigh ratio svd r t V none flux = .error .valueError := by
  obtain ⟨m, rfl⟩ : ∃ m, n = m + 1 := ⟨n - 1, by have := h.two; omega⟩
  obtain ⟨M, pd, X, hM, hpd, -, -, -, hval⟩ := h.value
  have h1 := hval (List.replicate N1 0) (by simp)
  unfold dualFluxToDualVelocity at h1 ⊢
  rw [h.delaunay] at h1 ⊢
  simp only [bind, Except.bind, Bool.not_true, Bool.false_eq_true, if_false] at h1 ⊢
  obtain ⟨hn1, wf⟩ := fromSimplices_wf h.input.uniq_ok h.input.rows h.input.built
  rw [wf.lenB] at h1 ⊢
  unfold velocityOfFlux at h1 ⊢
  simp only [bind, Except.bind] at h1 ⊢
  cases e1 : lastOf t.boundary with
  | error e => rw [e1] at h1; cases h1
  | ok B =>
  cases e2 : lastOf t.orientation with
  | error e => rw [e1, e2] at h1; cases h1
  | ok O =>
  cases e3 : lastOf t.elements with
  | error e => rw [e1, e2, e3] at h1; cases h1
  | ok top =>
  rw [e1, e2, e3] at h1
  simp only at h1 ⊢
  cases e4 : top.mapM fun e => elementInverse (m + 1) svd r V e with
  | error e => rw [e4] at h1; cases h1
  | ok inv =>
  rw [e4, hM] at h1
  simp only at h1 ⊢
  rw [hM]
  simp only
  cases e5 : lastButOne (hodgePD M) with
  | error e => rw [e5] at h1; cases h1
  | ok q =>
  simp only
  rw [h.edges, h.cells]
  simp only
  rw [if_pos hl]

/-- every vector is parallel to a simplex of full dimension -/
theorem tangent_full {l : List Nat} {m : Nat} {V : List (Vec ℝ (m + 1))} (hl : l.length = m + 2) (hln : l.Nodup)
    (hp : AffineIndependent ℝ (cornersOf V (m + 2) l)) (u : Fin (m + 1) → ℝ) : Tangent V l u := by
  rw [tangent_iff hl hln]
  have hi := edges_independent hp
  have htop := hi.span_eq_top_of_card_eq_finrank' (by simp)
  obtain ⟨c, hc⟩ := (Submodule.mem_span_range_iff_exists_fun ℝ).1 (htop.symm ▸ Submodule.mem_top : u ∈ _)
  refine ⟨Fin.cons (-∑ i, c i) c, by rw [Fin.sum_univ_succ]; simp, fun k => ?_⟩
  rw [Fin.sum_univ_succ, ← hc]
  simp only [Fin.cons_zero, Fin.cons_succ, Finset.sum_apply, Pi.smul_apply, smul_eq_mul, mul_sub,
    Finset.sum_sub_distrib, ← Finset.sum_mul]
  ring

/-- the same velocity everywhere conserves mass, if neighbours lie on opposite sides of their common face -/
theorem conserved_uniform {D : Nat} {V : List (Fin D → ℝ)}
    (hopp : ∀ (e : List Nat) (j1 j2 : Nat) (l1 l2 : List Nat), simplices[j1]? = some l1 → simplices[j2]? = some l2 →
      j1 ≠ j2 → IsFace e l1 → IsFace e l2 →
      OppositeSide V e.toFinset (position V (missing l1 e)) (position V (missing l2 e))) (u : Fin D → ℝ) :
    Conserved V simplices fun _ => u := by
  intro e j1 j2 l1 l2 g1 g2 h1 h2 hne f1 f2 hg1 hg2
  obtain ⟨a, s, hs, hsum, hq⟩ := hopp e j1 j2 l1 l2 h1 h2 hne f1 f2
  have := hg2.unique (hg1.opposite hsum hq)
  subst this
  have e1 : innerProd (fun j => s * g1 j) (fun j => s * g1 j) = s ^ 2 * innerProd g1 g1 := by
    rw [ip_smul_left, ip_comm, ip_smul_left]
    ring
  have e2 : innerProd u (fun j => s * g1 j) = s * innerProd u g1 := by
    rw [ip_comm, ip_smul_left, ip_comm]
  rw [e1, e2, Real.sqrt_mul (sq_nonneg s), Real.sqrt_sq_eq_abs, abs_of_neg hs]
  rcases eq_or_ne (Real.sqrt (innerProd g1 g1)) 0 with h0 | h0
  · rw [h0]
    simp
  · have := hs.ne
    field_simp
    ring

/-- C78: over a complex of full dimension, with the neighbours on opposite sides of their common faces, the
fluxes of one velocity everywhere give that velocity on every simplex -/
theorem C78_uniform {m : Nat} {V : List (Vec ℝ (m + 1))} {ctr : Finset Nat → Fin (m + 1) → ℝ}
    (h : FlowInput uniq solve eigh ratio (m + 1) simplices t V y ctr svd r N1 N0)
    (hopp : ∀ (e : List Nat) (j1 j2 : Nat) (l1 l2 : List Nat), simplices[j1]? = some l1 → simplices[j2]? = some l2 →
      j1 ≠ j2 → IsFace e l1 → IsFace e l2 →
      OppositeSide V e.toFinset (position V (missing l1 e)) (position V (missing l2 e)))
    (u : Fin (m + 1) → ℝ) (flux : List ℝ) (hlen : flux.length = N1)
    (hf : ∀ (x : Nat) (e : List Nat), (t.elements[m]?.getD [])[x]? = some e →
      flux[x]? = some (∑ j ∈ Finset.range simplices.length, ((t.matrix m).entry x j : ℝ) *
        innerProd u (ctr (simplices[j]?.getD []).toFinset - ctr e.toFinset))) :
    dualFluxToDualVelocity solve uniq eigh ratio svd r t V none flux =
      .ok (List.replicate simplices.length u ++ List.replicate (N0 - simplices.length) 0) := by
  rw [C78_velocity h (fun _ => u) (fun j l hl => ?_) (conserved_uniform hopp u) flux hlen hf, List.map_const',
    List.length_range]
  have hl := List.mem_of_getElem? hl
  obtain ⟨h1, h2⟩ := h.input.rows l hl
  exact tangent_full h1 h2 (h.input.nondegenerate l hl) u

/-- a positive number below finitely many positive numbers -/
theorem exists_below (L : List ℝ) (h : ∀ x ∈ L, 0 < x) : ∃ r, 0 < r ∧ ∀ x ∈ L, r ≤ x := by
  induction L with
  | nil => exact ⟨1, one_pos, by simp⟩
  | cons a L ih =>
    obtain ⟨r, h1, h2⟩ := ih fun x hx => h x (List.mem_cons_of_mem _ hx)
    refine ⟨min a r, lt_min (h a (by simp)) h1, fun x hx => ?_⟩
    rcases List.mem_cons.1 hx with rfl | hx
    · exact min_le_left _ _
    · exact (min_le_right _ _).trans (h2 x hx)

/-- C78: over every complex the decompositions exist, and every small enough tolerance of the pseudoinverse
keeps all singular values apart from zero -/
theorem C78_applies (hI : MetricInput uniq solve eigh ratio n simplices t V y ctr) (two : 2 ≤ n) (flat : d ≤ n)
    (hsat : SatSpec solve) (h2 : AtMostTwo simplices) (hin : n ≤ 2 ∨ InsideUpTo simplices y n)
    (hd : isPairwiseDelaunay eigh ratio t V none = .ok true) (he : dualElements solve uniq t (n - 1) = .ok N1)
    (hc : dualElements solve uniq t n = .ok N0) :
    ∃ svd, SvdSpec svd ∧ ∃ r0, 0 < r0 ∧ ∀ r, 0 < r → r ≤ r0 →
      FlowInput uniq solve eigh ratio n simplices t V y ctr svd r N1 N0 := by
  classical
  have key : ∀ (a b : Nat) (M : Matrix (Fin a) (Fin b) ℝ), ∃ f : Svd a b ℝ, b ≤ a → IsSvd M f.u f.s f.v := by
    intro a b M
    by_cases hba : b ≤ a
    · obtain ⟨u, s, v, h⟩ := exists_svd hba M
      exact ⟨⟨u, s, v⟩, fun _ => h⟩
    · exact ⟨⟨0, 0, 0⟩, fun h => absurd h hba⟩
  choose svd hsvd using key
  refine ⟨svd, hsvd, ?_⟩
  set σ : List Nat → Fin (min (n + 1) (d + 1)) → ℝ := fun l =>
    (svd (n + 1) (d + 1) (Matrix.of (centred (cornersOf V (n + 1) l)))).s with hσ
  have hnn : ∀ l j, 0 ≤ σ l j := fun l j => (hsvd _ _ _ (by omega)).nonneg j
  obtain ⟨r0, hr0, hle⟩ := exists_below
    (simplices.flatMap fun l => (List.finRange (min (n + 1) (d + 1))).map fun j =>
      if σ l j = 0 then 1 else σ l j / (σ l ⟨0, by omega⟩ + 1)) (by
      intro x hx
      obtain ⟨l, -, hx⟩ := List.mem_flatMap.1 hx
      obtain ⟨j, -, rfl⟩ := List.mem_map.1 hx
      split
      · exact one_pos
      · next hj => exact div_pos (lt_of_le_of_ne (hnn l j) (Ne.symm hj)) (by have := hnn l ⟨0, by omega⟩; linarith))
  refine ⟨r0, hr0, fun r hr hrr => ⟨hI, two, flat, hsat, h2, hin, hsvd, hr, fun l hl j => ?_, hd, he, hc⟩⟩
  by_cases hj : σ l j = 0
  · exact Or.inl hj
  · right
    have h1 := hle _ (List.mem_flatMap.2 ⟨l, hl, List.mem_map.2 ⟨j, List.mem_finRange j, rfl⟩⟩)
    rw [if_neg hj] at h1
    have h0 := hnn l ⟨0, by omega⟩
    have h3 : r * (σ l ⟨0, by omega⟩ + 1) ≤ σ l j := by
      rw [← le_div_iff₀ (by linarith)]
      exact hrr.trans h1
    change r * σ l ⟨0, by omega⟩ ≤ σ l j
    nlinarith

end

end Verif.Props
