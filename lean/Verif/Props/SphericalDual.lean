/-
C64: what the dual measures on the sphere are without weights, the circle, and totals.
-/
import Verif.Props.SphericalMetric

set_option linter.unusedSectionVars false

namespace Verif.Props

open Verif.Model Verif.Spec Matrix MeasureTheory

/-! ### The circle -/

section

variable {D : Nat} {uniq : List (List Nat) → List (List Nat)}
  {solve : List (List Int) → Option (List Int)}
  {eigh : (n : Nat) → Matrix (Fin n) (Fin n) ℝ → Eigh n ℝ} {ratio : ℝ} {n : Nat}
  {simplices : List (List Nat)} {t : Topo} {V : List (Vec ℝ D)} {W : Option (List ℝ)}
  {y : Finset Nat → Nat → ℝ} {ctr : Finset Nat → Fin D → ℝ}

/-- C64: the metric of edges on a sphere of radius `r`, in any number of dimensions: arcs, and for a vertex the
arcs from it to the centers of its edges -/
theorem C64_circle (h : SphereInput uniq solve eigh ratio 1 simplices t V W y ctr) (r : ℝ) :
    sphericalMetric solve eigh ratio t V W r = .ok
      ([List.replicate (t.nElements 0) (some 1),
        simplices.map fun l => some (arc (position V (l[0]?.getD 0)) (position V (l[1]?.getD 0)) * r)],
       [List.replicate simplices.length (some 1),
        (t.elements[0]?.getD []).map fun e => some ((simplices.map fun l =>
          if e ⊆ l then arc (position V (e[0]?.getD 0)) (ctr l.toFinset) else 0).sum * r)]) := by
  have hi := h.input
  obtain ⟨-, wf⟩ := fromSimplices_wf hi.uniq_ok hi.rows hi.built
  have htop := hi.rows
  set U : Nat → Nat → List Nat → ℝ := fun _ _ w => arc (ctr (w.take 1).toFinset) (ctr (w.take 2).toFinset) with hU
  rw [h.values (m := 0) (by omega) r U ?_]
  · have hN : t.nElements (0 + 1) = simplices.length := by
      unfold Topo.nElements
      rw [wf.top_eq]
      rfl
    have p1 : (List.range simplices.length).map (fun x =>
        (((flagList 0 simplices).filter fun q => domainKey t.elements 0 (0 + 1) q = x).map
          fun q => U 0 (0 + 1) q.2).sum) = simplices.map fun l =>
            arc (position V (l[0]?.getD 0)) (position V (l[1]?.getD 0)) := by
      refine range_map_eq _ _ _ fun x l hx => ?_
      have hl := List.mem_of_getElem? hx
      rw [sum_simplex hx (U 0 (0 + 1)), ((wRows_permutations (htop l hl).1 (htop l hl).2).map _).sum_eq]
      obtain ⟨a, b, rfl⟩ := length_two (htop l hl).1
      have hab : a ≠ b := by
        rintro rfl
        have := (htop _ hl).2
        simp at this
      have := h.half_arcs hab hl (by simp) (by simp)
      rw [show (([a, b] : List Nat)[0]?.getD 0) = a from rfl, show (([a, b] : List Nat)[1]?.getD 0) = b from rfl, ← this]
      simp [List.permutations, List.permutationsAux, List.permutationsAux2, List.permutationsAux.rec, hU]
    have d1 : (List.range (t.elements[0]?.getD []).length).map (fun x =>
        (((flagList 0 simplices).filter fun q => domainKey t.elements 0 0 q = x).map
          fun q => U 0 (0 + 1) q.2).sum) = (t.elements[0]?.getD []).map fun e => (simplices.map fun l =>
          if e ⊆ l then arc (position V (e[0]?.getD 0)) (ctr l.toFinset) else 0).sum := by
      refine range_map_eq _ _ _ fun x e hx => ?_
      obtain ⟨he1, he2, -⟩ := wf.element_face htop (k := 0) (by omega) (List.mem_of_getElem? hx)
      obtain ⟨a, rfl⟩ := List.length_eq_one_iff.1 he1
      rw [sum_domains_of wf htop (by omega) hx (U 0 (0 + 1))]
      congr 1
      refine List.map_congr_left fun l hl => ?_
      by_cases hs : [a] ⊆ l
      · have ha : a ∈ l := hs (by simp)
        have hp : ([a] ++ l.diff [a]).Perm l := List.subperm_append_diff_self_of_count_le
          (fun x _ => (List.singleton_subperm_iff.2 ha).count_le x)
        obtain ⟨b, hb⟩ := List.length_eq_one_iff.1 (show (l.diff [a]).length = 1 by
          have h1 := hp.length_eq
          rw [List.length_append, (htop l hl).1] at h1
          have : [a].length = 1 := rfl
          omega)
        rw [hb] at hp
        have sa : SpansFace simplices {a} := ⟨⟨a, by simp⟩, l, hl, by simpa using ha⟩
        rw [if_pos hs, if_pos hs, hb, ← toFinset_perm hp,
          show (([a] : List Nat)[0]?.getD 0) = a from rfl, ← h.center_one sa]
        have e1 : ([a] : List Nat).permutations = [[a]] := by
          simp [List.permutations, List.permutationsAux, List.permutationsAux.rec]
        have e2 : ([b] : List Nat).permutations = [[b]] := by
          simp [List.permutations, List.permutationsAux, List.permutationsAux.rec]
        rw [e1, e2]
        simp [hU]
      · rw [if_neg hs, if_neg hs]
    have e1 : List.range' 1 0 = [] := rfl
    rw [e1, List.map_nil, List.map_nil, p1, d1, hN]
    simp [scaleBy, List.zipIdx]
  · rintro ⟨j, w⟩ hq d M h1 h2
    obtain ⟨l, hl, hp⟩ := (mem_flagList htop _).1 hq
    have hlm := List.mem_of_getElem? hl
    simp only at hp
    have hwl : w.length = 2 := by rw [hp.length_eq, (htop l hlm).1]
    have hne : ∀ k, ctr (w.take (k + 1)).toFinset ≠ 0 := fun k =>
      h.center_ne_zero (spansFace_of_subset hlm (fun a ha => hp.subset (List.take_subset _ _ ha)) (by
        intro h0
        have := congrArg List.length h0
        rw [List.length_take, hwl] at this
        simp at this))
    have hM : M = 1 := by omega
    have hd : d = 0 := by omega
    subst hM
    subst hd
    exact unit_arc (hne 0) (hne 1)

/-- the middle of an arc -/
theorem arc_half {a b : Fin D → ℝ} (h : innerProd a a = innerProd b b) (hne : (1 / 2 : ℝ) • a + (1 / 2 : ℝ) • b ≠ 0) :
    arc a ((1 / 2 : ℝ) • a + (1 / 2 : ℝ) • b) = arc a b / 2 := by
  have h1 := arc_split (a := a) (b := b) (by norm_num) (by norm_num) hne
  have h2 : arc a ((1 / 2 : ℝ) • a + (1 / 2 : ℝ) • b) = arc ((1 / 2 : ℝ) • a + (1 / 2 : ℝ) • b) b := by
    rw [arc_comm a]
    unfold arc InnerProductGeometry.angle
    rw [norm_eq_innerProd a, norm_eq_innerProd b, h]
    congr 2
    rw [inner_eq_innerProd, inner_eq_innerProd]
    have e : ∀ c : Fin D → ℝ, innerProd ((1 / 2 : ℝ) • a + (1 / 2 : ℝ) • b) c = (innerProd a c + innerProd b c) / 2 := by
      intro c
      unfold innerProd
      rw [← Finset.sum_add_distrib, Finset.sum_div]
      refine Finset.sum_congr rfl fun k _ => ?_
      simp only [Pi.add_apply, Pi.smul_apply, smul_eq_mul]
      ring
    have hc : innerProd b a = innerProd a b := by unfold innerProd; simp only [mul_comm]
    rw [e, e, hc, h]
    ring
  linarith

theorem SphereInput.unweighted (h : SphereInput uniq solve eigh ratio n simplices t V none y ctr) :
    Centers V simplices y ctr := by
  intro S hS
  have hc := h.input.centers S hS
  refine ⟨hc.one, hc.point, fun u hu v hv => ?_⟩
  have := hc.equal u hu v hv
  simpa [Spec.power, weightAt, dist2] using this

theorem SphereInput.middle (h : SphereInput uniq solve eigh ratio n simplices t V none y ctr) {a b : Nat} (hab : a ≠ b)
    {l : List Nat} (hl : l ∈ simplices) (ha : a ∈ l) (hb : b ∈ l) :
    ctr {a, b} = (1 / 2 : ℝ) • position V a + (1 / 2 : ℝ) • position V b ∧ SpansFace simplices {a, b} := by
  have hS : SpansFace simplices {a, b} := ⟨⟨a, by simp⟩, l, hl, fun v hv => by
    rw [Finset.mem_insert, Finset.mem_singleton] at hv
    rcases hv with rfl | rfl <;> simpa⟩
  have hne : position V a ≠ position V b := by
    intro h0
    have := h.independent l hl (fun v => if v = a then 1 else if v = b then -1 else 0) (fun k => by
      have hsub : ({a, b} : Finset Nat) ⊆ l.toFinset := by
        intro v hv
        rw [Finset.mem_insert, Finset.mem_singleton] at hv
        rcases hv with rfl | rfl <;> simpa
      rw [← Finset.sum_subset hsub]
      · rw [Finset.sum_pair hab]
        simp [Ne.symm hab, h0]
      · intro v _ hv
        simp only [Finset.mem_insert, Finset.mem_singleton, not_or] at hv
        simp [hv.1, hv.2]) a ha
    simp at this
  obtain ⟨e1, e2⟩ := (h.unweighted _ hS).edge hab hne
  refine ⟨?_, hS⟩
  rw [h.center_two hab hS, e1, e2]

/-- C64: without weights, and with vertices of the same length, the center of an edge is the middle of its arc:
on the circle the dual measure of a vertex is half of the arcs at it -/
theorem C64_circle_halves (h : SphereInput uniq solve eigh ratio n simplices t V none y ctr) (R : ℝ)
    (hR : ∀ l ∈ simplices, ∀ v ∈ l, innerProd (position V v) (position V v) = R) {a b : Nat} (hab : a ≠ b)
    {l : List Nat} (hl : l ∈ simplices) (ha : a ∈ l) (hb : b ∈ l) :
    arc (position V a) (ctr {a, b}) = arc (position V a) (position V b) / 2 := by
  obtain ⟨hm, hS⟩ := h.middle hab hl ha hb
  have hne := h.center_ne_zero hS
  rw [hm] at hne ⊢
  exact arc_half ((hR l hl a ha).trans (hR l hl b hb).symm) hne

/-- C64: two opposite corners have the center of the sphere between them; the position of such an edge is
`nan`.  More generally the position of an element is `nan` just if its circumcenter is the center of the
sphere. -/
theorem C64_nan (h : CenterInput uniq eigh ratio n simplices t V W y ctr) :
    ∃ PP, sphericalPositions eigh ratio t V W = .ok PP ∧ PP.length = n + 1 ∧
      ∀ (k x : Nat) (e : List Nat), k ≤ n → (t.elements[k]?.getD [])[x]? = some e →
        ∃ p, (PP[k]?.getD [])[x]? = some p ∧ (p = none ↔ ctr e.toFinset = 0) ∧
          (∀ q, p = some q → OnUnitSphere q ∧ ∃ s : ℝ, 0 < s ∧ ∀ i, q i = s * ctr e.toFinset i) := by
  refine ⟨(List.range (n + 1)).map fun k => (t.elements[k]?.getD []).map fun e => normalizedNan (ctr e.toFinset),
    ?_, by simp, fun k x e hk hx => ?_⟩
  · unfold sphericalPositions
    rw [(C61_centers h).2]
    simp only [bind, Except.bind, List.map_map]
    congr 1
    refine List.map_congr_left fun k _ => ?_
    simp [Function.comp_def]
  · refine ⟨normalizedNan (ctr e.toFinset), ?_, normalizedNan_none _, fun q hq => ?_⟩
    · rw [List.getElem?_map, List.getElem?_range (by omega), Option.map_some, Option.getD_some, List.getElem?_map, hx,
        Option.map_some]
    · have h0 : ctr e.toFinset ≠ 0 := fun h0 => by
        rw [(normalizedNan_none _).2 h0] at hq
        simp at hq
      obtain ⟨h1, h2, s, hs, h3⟩ := unitOf_spec h0
      rw [h1] at hq
      obtain rfl := Option.some.inj hq
      exact ⟨h2, s, hs, fun i => congrFun h3 i⟩

end

/-! ### The sphere -/

section

variable {uniq : List (List Nat) → List (List Nat)}
  {solve : List (List Int) → Option (List Int)}
  {eigh : (n : Nat) → Matrix (Fin n) (Fin n) ℝ → Eigh n ℝ} {ratio : ℝ}
  {simplices : List (List Nat)} {t : Topo} {V : List (Vec ℝ 3)} {W : Option (List ℝ)}
  {y : Finset Nat → Nat → ℝ} {ctr : Finset Nat → Fin 3 → ℝ}

/-- the center of a triangle has the same product with all corners -/
theorem SphereInput.equal_products (h : SphereInput uniq solve eigh ratio 2 simplices t V none y ctr) {R : ℝ}
    (hR : ∀ l ∈ simplices, ∀ v ∈ l, innerProd (position V v) (position V v) = R) {l : List Nat} (hl : l ∈ simplices)
    {a b : Nat} (ha : a ∈ l) (hb : b ∈ l) : ctr l.toFinset ⬝ᵥ position V a = ctr l.toFinset ⬝ᵥ position V b := by
  have hS : SpansFace simplices l.toFinset := ⟨⟨a, List.mem_toFinset.2 ha⟩, l, hl, subset_rfl⟩
  have heq := (h.unweighted _ hS).equidistant a (List.mem_toFinset.2 ha) b (List.mem_toFinset.2 hb)
  have hab : innerProd (position V a) (position V a) = innerProd (position V b) (position V b) := by
    rw [hR l hl a ha, hR l hl b hb]
  exact le_antisymm ((chordSq_le hab.symm).1 (le_of_eq heq.symm)) ((chordSq_le hab).1 (le_of_eq heq))

/-- C64: without weights, and with vertices on the sphere, the part of a triangle that is counted for a vertex
is the area of the points of the triangle whose nearest corner is that vertex -/
theorem C64_nearest (h : SphereInput uniq solve eigh ratio 2 simplices t V none y ctr) (R : ℝ)
    (hR : ∀ l ∈ simplices, ∀ v ∈ l, innerProd (position V v) (position V v) = R) {l : List Nat} (hl : l ∈ simplices)
    {a : Nat} (ha : a ∈ l) :
    ((l.diff [a]).map fun u => surfaceArea (sphericalTriangle (position V a) (ctr {a, u}) (ctr l.toFinset))).sum =
      surfaceArea (onSphere (nearestPart V l a)) := by
  obtain ⟨b, c, hc, hp⟩ := diff_corner (a := a) (h.input.rows l hl).1 ha
  have hn : [a, b, c].Nodup := hp.nodup_iff.2 (h.input.rows l hl).2
  have hab : a ≠ b := by rintro rfl; simp at hn
  have hac : a ≠ c := by rintro rfl; simp at hn
  have hb : b ∈ l := hp.subset (by simp)
  have hcl : c ∈ l := hp.subset (by simp)
  obtain ⟨-, -, α, β, γ, -, -, hα, hβ, hγ, -, -, ho, hd, -⟩ := h.domain hl hp
  have hf : l.toFinset = {a, b, c} := by rw [← toFinset_perm hp]; simp
  have h1 := h.equal_products hR hl ha hb
  have h2 := h.equal_products hR hl ha hcl
  rw [hf] at h1 h2 ⊢
  have ra := hR l hl a ha
  have rb := hR l hl b hb
  have rc := hR l hl c hcl
  have hnear : nearestPart V l a = nearPart (position V a) (position V b) (position V c) := by
    ext x
    show (_ ∧ _) ↔ (_ ∧ _)
    rw [coneOf_three hn hp]
    refine and_congr_right fun _ => ?_
    have hm : ∀ u, u ∈ l ↔ u = a ∨ u = b ∨ u = c := fun u => by rw [← hp.mem_iff]; simp
    have hl' : ∀ u ∈ l, (chordSq x (position V a) ≤ chordSq x (position V u) ↔ x ⬝ᵥ position V u ≤ x ⬝ᵥ position V a) :=
      fun u hu => chordSq_le (ra.trans (hR l hl u hu).symm)
    constructor
    · exact fun hx => ⟨(hl' b hb).1 (hx b hb), (hl' c hcl).1 (hx c hcl)⟩
    · rintro ⟨x1, x2⟩ u hu
      rw [hl' u hu]
      rcases (hm u).1 hu with rfl | rfl | rfl
      · exact le_rfl
      · exact x1
      · exact x2
  rw [hc, hnear, nearPart_area hd (ra.trans rb.symm) (ra.trans rc.symm) hα hβ hγ ho h1 h2]
  have m1 := (h.middle hab hl ha hb).1
  have m2 := (h.middle hac hl ha hcl).1
  simp only [List.map_cons, List.map_nil, List.sum_cons, List.sum_nil, add_zero]
  rw [m1, m2, ← smul_add, ← smul_add]
  have s1 := triangle_smul (position V a) (position V a + position V b) (ctr {a, b, c}) one_pos
    (show (0 : ℝ) < 1 / 2 by norm_num) one_pos
  have s2 := triangle_smul (position V a) (position V a + position V c) (ctr {a, b, c}) one_pos
    (show (0 : ℝ) < 1 / 2 by norm_num) one_pos
  simp only [one_smul] at s1 s2
  rw [s1, s2, add_comm (position V c), triangle_swap (position V a)]

/-- the center of a triangle is on the same side of the origin as the corners -/
theorem SphereInput.positive_product (h : SphereInput uniq solve eigh ratio 2 simplices t V none y ctr) {R : ℝ}
    (hR : ∀ l ∈ simplices, ∀ v ∈ l, innerProd (position V v) (position V v) = R) {a b c : Nat} {l : List Nat}
    (hl : l ∈ simplices) (hp : [a, b, c].Perm l) : 0 < ctr {a, b, c} ⬝ᵥ position V a := by
  have ha : a ∈ l := hp.subset (by simp)
  have hb : b ∈ l := hp.subset (by simp)
  have hc : c ∈ l := hp.subset (by simp)
  obtain ⟨-, -, α, β, γ, -, -, hα, hβ, hγ, -, -, ho, -, -⟩ := h.domain hl hp
  have hf : l.toFinset = {a, b, c} := by rw [← toFinset_perm hp]; simp
  have hS : SpansFace simplices l.toFinset := ⟨⟨a, List.mem_toFinset.2 ha⟩, l, hl, subset_rfl⟩
  have h0 := h.center_ne_zero hS
  have e1 := h.equal_products hR hl ha hb
  have e2 := h.equal_products hR hl ha hc
  rw [hf] at h0 e1 e2
  have hnn : 0 < ctr {a, b, c} ⬝ᵥ ctr {a, b, c} :=
    lt_of_le_of_ne (Finset.sum_nonneg fun k _ => mul_self_nonneg _) fun hz => h0 (dotProduct_self_eq_zero.1 hz.symm)
  have : ctr {a, b, c} ⬝ᵥ ctr {a, b, c} = (α + β + γ) * (ctr {a, b, c} ⬝ᵥ position V a) := by
    conv_lhs => rhs; rw [ho]
    simp only [dotProduct_add, dotProduct_smul, smul_eq_mul, ← e1, ← e2]
    ring
  rw [this] at hnn
  exact (mul_pos_iff_of_pos_left (by positivity)).1 hnn

/-- C64: without weights, and with vertices on the sphere, the two arcs that are counted for an edge between
two triangles on different sides of it make up the arc between the centers of the triangles -/
theorem C64_dual_edge (h : SphereInput uniq solve eigh ratio 2 simplices t V none y ctr) (R : ℝ)
    (hR : ∀ l ∈ simplices, ∀ v ∈ l, innerProd (position V v) (position V v) = R) {a b c d : Nat} {l l' : List Nat}
    (hl : l ∈ simplices) (hl' : l' ∈ simplices) (hp : [a, b, c].Perm l) (hp' : [a, b, d].Perm l')
    (hside : (Matrix.of ![position V a, position V b, position V c]).det *
      (Matrix.of ![position V a, position V b, position V d]).det < 0) :
    arc (ctr {a, b}) (ctr l.toFinset) + arc (ctr {a, b}) (ctr l'.toFinset) =
      arc (ctr l.toFinset) (ctr l'.toFinset) := by
  have hdet : ∀ x y z : E3, (Matrix.of ![x, y, z]).det = det3 x y z := fun x y z => by
    rw [det_fin_three, det3_apply]; simp; ring
  rw [hdet, hdet] at hside
  have hn : [a, b, c].Nodup := hp.nodup_iff.2 (h.input.rows l hl).2
  have hab : a ≠ b := by rintro rfl; simp at hn
  have ha : a ∈ l := hp.subset (by simp)
  have hb : b ∈ l := hp.subset (by simp)
  have ha' : a ∈ l' := hp'.subset (by simp)
  have hb' : b ∈ l' := hp'.subset (by simp)
  obtain ⟨-, -, α, β, γ, -, -, -, -, hγ, -, -, ho, hd, -⟩ := h.domain hl hp
  obtain ⟨-, -, α', β', γ', -, -, -, -, hγ', -, -, ho', hd', -⟩ := h.domain hl' hp'
  have hf : l.toFinset = {a, b, c} := by rw [← toFinset_perm hp]; simp
  have hf' : l'.toFinset = {a, b, d} := by rw [← toFinset_perm hp']; simp
  have e := h.equal_products hR hl ha hb
  have e' := h.equal_products hR hl' ha' hb'
  have hS := (h.middle hab hl ha hb).2
  have hm := (h.middle hab hl ha hb).1
  have hmne := h.center_ne_zero hS
  rw [hf] at e ⊢
  rw [hf'] at e' ⊢
  rw [← arc_comm (ctr {a, b, c}) (ctr {a, b})]
  have r0 : R = position V a ⬝ᵥ position V a := (hR l hl a ha).symm
  have r1 : position V a ⬝ᵥ position V a = position V b ⬝ᵥ position V b :=
    (hR l hl a ha).trans (hR l hl b hb).symm
  have hk := h.positive_product hR hl hp
  have hk' := h.positive_product hR hl' hp'
  generalize ctr {a, b, c} = o at *
  generalize ctr {a, b, d} = o' at *
  rw [hm] at hmne ⊢
  generalize position V a = A at *
  generalize position V b = B at *
  generalize position V c = C at *
  generalize position V d = E at *
  have f1 : det3 A B o = γ * det3 A B C := by
    rw [ho]; simp only [det3_apply, Pi.add_apply, Pi.smul_apply, smul_eq_mul]; ring
  have f2 : det3 A B o' = γ' * det3 A B E := by
    rw [ho']; simp only [det3_apply, Pi.add_apply, Pi.smul_apply, smul_eq_mul]; ring
  have hlt : det3 A B o * det3 A B o' < 0 := by
    rw [f1, f2]
    have : γ * det3 A B C * (γ' * det3 A B E) = γ * γ' * (det3 A B C * det3 A B E) := by ring
    rw [this]
    exact mul_neg_of_pos_of_neg (mul_pos hγ hγ') hside
  set v : E3 := |det3 A B o'| • o + |det3 A B o| • o' with hv
  have hp1 : 0 < |det3 A B o'| := abs_pos.2 fun h0 => by rw [h0, mul_zero] at hlt; exact lt_irrefl _ hlt
  have hp2 : 0 < |det3 A B o| := abs_pos.2 fun h0 => by rw [h0, zero_mul] at hlt; exact lt_irrefl _ hlt
  have hv0 : det3 A B v = 0 := by
    have : det3 A B v = |det3 A B o'| * det3 A B o + |det3 A B o| * det3 A B o' := by
      rw [hv]; simp only [det3_apply, Pi.add_apply, Pi.smul_apply, smul_eq_mul]; ring
    rw [this]
    rcases mul_neg_iff.1 hlt with ⟨g1, g2⟩ | ⟨g1, g2⟩
    · rw [abs_of_pos g1, abs_of_neg g2]; ring
    · rw [abs_of_pos g2, abs_of_neg g1]; ring
  have hva : v ⬝ᵥ A = v ⬝ᵥ B := by
    rw [hv]
    simp only [add_dotProduct, smul_dotProduct, smul_eq_mul, e, e']
  have hvp : 0 < v ⬝ᵥ A := by
    rw [hv]
    simp only [add_dotProduct, smul_dotProduct, smul_eq_mul]
    positivity
  have hcr := cramer3 A B C v
  set X := det3 v B C / det3 A B C with hX
  set Y := det3 A v C / det3 A B C with hY
  have hvXY : v = X • A + Y • B := by
    funext i
    have := hcr i
    rw [hv0, zero_mul, add_zero] at this
    simp only [hX, hY, Pi.add_apply, Pi.smul_apply, smul_eq_mul]
    field_simp
    linarith
  have hAB : A ⬝ᵥ B = B ⬝ᵥ A := dotProduct_comm _ _
  have hne : A ⬝ᵥ A - A ⬝ᵥ B ≠ 0 := by
    intro h0
    have hz : (A - B) ⬝ᵥ (A - B) = 0 := by
      simp only [sub_dotProduct, dotProduct_sub]
      rw [← hAB, ← r1]
      linarith
    have := dotProduct_self_eq_zero.1 hz
    have hAeq : A = B := sub_eq_zero.1 this
    rw [hAeq] at hd
    exact hd (by simp only [det3_apply]; ring)
  have hXY : X = Y := by
    rw [hvXY] at hva
    simp only [add_dotProduct, smul_dotProduct, smul_eq_mul] at hva
    rw [← hAB, ← r1] at hva
    have : (X - Y) * (A ⬝ᵥ A - A ⬝ᵥ B) = 0 := by linarith
    rcases mul_eq_zero.1 this with h0 | h0
    · linarith
    · exact absurd h0 hne
  have hvX : v = (2 * X) • ((1 / 2 : ℝ) • A + (1 / 2 : ℝ) • B) := by
    rw [hvXY, ← hXY]
    funext i
    simp only [Pi.add_apply, Pi.smul_apply, smul_eq_mul]
    ring
  have hXpos : 0 < 2 * X := by
    have hs : 0 < (A + B) ⬝ᵥ (A + B) := by
      have hnn : 0 ≤ (A + B) ⬝ᵥ (A + B) := Finset.sum_nonneg fun k _ => mul_self_nonneg _
      refine lt_of_le_of_ne hnn fun h0 => hmne ?_
      rw [← smul_add, dotProduct_self_eq_zero.1 h0.symm, smul_zero]
    have h2 : v ⬝ᵥ (A + B) = X * ((A + B) ⬝ᵥ (A + B)) := by
      conv_lhs => rw [hvX, ← smul_add, smul_smul, smul_dotProduct, smul_eq_mul]
      ring
    have h3 : 0 < v ⬝ᵥ (A + B) := by
      rw [dotProduct_add, ← hva]
      linarith
    rw [h2] at h3
    have := (mul_pos_iff_of_pos_right hs).1 h3
    linarith
  have hvne : |det3 A B o'| • o + |det3 A B o| • o' ≠ 0 := fun h0 => by
    rw [← hv] at h0
    rw [h0, zero_dotProduct] at hvp
    exact lt_irrefl _ hvp
  have hfin := arc_split hp1.le hp2.le hvne
  rw [← hv, hvX] at hfin
  have g1 := arc_smul o ((1 / 2 : ℝ) • A + (1 / 2 : ℝ) • B) one_pos hXpos
  have g2 := arc_smul ((1 / 2 : ℝ) • A + (1 / 2 : ℝ) • B) o' hXpos one_pos
  rw [one_smul] at g1 g2
  rw [g1, g2] at hfin
  exact hfin

end

end Verif.Props
