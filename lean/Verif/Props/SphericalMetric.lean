/-
C64: the metric of complexes on the sphere, `pycomplex/complex/simplicial/spherical.py`.
-/
import Verif.Lemmas.SphericalCells

set_option linter.unusedSectionVars false

namespace Verif.Props

open Verif.Model Verif.Spec Matrix

/-- a complex on the sphere that `metric` accepts, with the (weighted) circumcenters of all elements inside,
and whose corners are independent, so that no element contains the center of the sphere -/
structure SphereInput {D : Nat} (uniq : List (List Nat) → List (List Nat))
    (solve : List (List Int) → Option (List Int))
    (eigh : (n : Nat) → Matrix (Fin n) (Fin n) ℝ → Eigh n ℝ) (ratio : ℝ) (n : Nat)
    (simplices : List (List Nat)) (t : Topo) (V : List (Vec ℝ D)) (W : Option (List ℝ))
    (y : Finset Nat → Nat → ℝ) (ctr : Finset Nat → Fin D → ℝ) : Prop where
  input : CenterInput uniq eigh ratio n simplices t V W y ctr
  oriented : isOriented solve t = .ok true
  inside : ∀ S, SpansFace simplices S → ∀ v ∈ S, 0 < y S v
  independent : ∀ l ∈ simplices, IndependentCorners V l

section

variable {D : Nat} {uniq : List (List Nat) → List (List Nat)}
  {solve : List (List Int) → Option (List Int)}
  {eigh : (n : Nat) → Matrix (Fin n) (Fin n) ℝ → Eigh n ℝ} {ratio : ℝ} {n : Nat}
  {simplices : List (List Nat)} {t : Topo} {V : List (Vec ℝ D)} {W : Option (List ℝ)}
  {y : Finset Nat → Nat → ℝ} {ctr : Finset Nat → Fin D → ℝ}

/-- C64: what `metric` rejects: complexes without orientation, those with a circumcenter that is not strictly
inside of its element, and those of more than two dimensions -/
theorem C64_rejects (h : CenterInput uniq eigh ratio n simplices t V W y ctr) (r : ℝ) :
    (isOriented solve t = .ok false → sphericalMetric solve eigh ratio t V W r = .error .assertionError) ∧
    (isOriented solve t = .ok true → (∃ S, SpansFace simplices S ∧ ∃ v ∈ S, y S v ≤ 0) →
      sphericalMetric solve eigh ratio t V W r = .error .assertionError) ∧
    (isOriented solve t = .ok true → 3 ≤ n →
      sphericalMetric solve eigh ratio t V W r = .error .assertionError) := by
  obtain ⟨-, wf⟩ := fromSimplices_wf h.uniq_ok h.rows h.built
  obtain ⟨b, hb, hiff⟩ := C61_wellcentered h
  have lenB := wf.lenB
  refine ⟨fun ho => ?_, fun ho => ?_, fun ho hn => ?_⟩ <;> unfold sphericalMetric <;> rw [ho]
  · rfl
  · rintro ⟨S, hS, v, hv, hle⟩
    have : b = false := by
      cases b with
      | false => rfl
      | true => exact absurd (hiff.1 rfl S hS v hv) (not_lt.2 hle)
    rw [this] at hb
    rw [hb]
    rfl
  · rw [hb]
    simp only [bind, Except.bind, Bool.not_true, Bool.false_eq_true, if_false]
    rw [if_pos (by omega : ¬ t.boundary.length ≤ 2)]
    split_ifs <;> rfl

theorem SphereInput.center_ne_zero (h : SphereInput uniq solve eigh ratio n simplices t V W y ctr)
    {S : Finset Nat} (hS : SpansFace simplices S) : ctr S ≠ 0 := by
  intro h0
  have hc := h.input.centers S hS
  have hpos := h.inside S hS
  obtain ⟨⟨v, hv⟩, l, hl, hs⟩ := hS
  have := h.independent l hl (fun u => if u ∈ S then y S u else 0) (fun k => by
    have hk := hc.point k
    rw [h0] at hk
    simp only [ite_mul, zero_mul]
    rw [Finset.sum_ite_mem, Finset.inter_eq_right.2 hs]
    exact hk.symm) v (List.mem_toFinset.1 (hs hv))
  simp only [if_pos hv] at this
  exact absurd this (hpos v hv).ne'

theorem SphereInput.center_one (h : SphereInput uniq solve eigh ratio n simplices t V W y ctr)
    {a : Nat} (hS : SpansFace simplices {a}) : ctr {a} = position V a := by
  have hc := h.input.centers _ hS
  have h1 := hc.one
  rw [Finset.sum_singleton] at h1
  funext k
  rw [hc.point k, Finset.sum_singleton, h1, one_mul]

theorem SphereInput.center_two (h : SphereInput uniq solve eigh ratio n simplices t V W y ctr)
    {a b : Nat} (hab : a ≠ b) (hS : SpansFace simplices {a, b}) :
    ctr {a, b} = y {a, b} a • position V a + y {a, b} b • position V b := by
  funext k
  rw [(h.input.centers _ hS).point k, Finset.sum_pair hab]
  rfl

/-- the measures, as sums over the orderings of the corners -/
theorem SphereInput.values {m : Nat} (h : SphereInput uniq solve eigh ratio (m + 1) simplices t V W y ctr)
    (hm : m ≤ 1) (r : ℝ) (U : Nat → Nat → List Nat → ℝ)
    (hU : ∀ q ∈ flagList m simplices, ∀ d M, 1 ≤ M → d + M ≤ m + 1 →
      sphericalVolumeOf ((List.range (M + 1)).map fun k => some (unitOf (domainPos ctr q (d + k)))) =
        .ok (some (U d M q.2))) :
    sphericalMetric solve eigh ratio t V W r =
    .ok (scaleBy r ([List.replicate (t.nElements 0) 1] ++
        (List.range' 1 m).map (fun i => (List.range (t.elements[i]?.getD []).length).map fun x =>
          (((flagList m simplices).filter fun q => domainKey t.elements m i q = x).map fun q => U 0 i q.2).sum /
          (((flagList m simplices).filter fun q => domainKey t.elements m i q = x).map fun _ => (1 : ℝ)).sum *
            ((i + 1).factorial : ℝ)) ++
        [(List.range simplices.length).map fun x =>
          (((flagList m simplices).filter fun q => domainKey t.elements m (m + 1) q = x).map
            fun q => U 0 (m + 1) q.2).sum]),
      scaleBy r ([List.replicate (t.nElements (m + 1)) 1] ++
        (List.range' 1 m).map (fun i => (List.range (t.elements[m + 1 - i]?.getD []).length).map fun x =>
          (((flagList m simplices).filter fun q => domainKey t.elements m (m + 1 - i) q = x).map
            fun q => U (m + 1 - i) i q.2).sum / ((m + 1 - i + 1).factorial : ℝ)) ++
        [(List.range (t.elements[0]?.getD []).length).map fun x =>
          (((flagList m simplices).filter fun q => domainKey t.elements m 0 q = x).map
            fun q => U 0 (m + 1) q.2).sum])) := by
  have hi := h.input
  obtain ⟨-, wf⟩ := fromSimplices_wf hi.uniq_ok hi.rows hi.built
  have htop := hi.rows
  obtain ⟨b, hb, hiff⟩ := C61_wellcentered hi
  have hb1 : b = true := hiff.2 h.inside
  subst hb1
  obtain ⟨doms, hdoms, hflat⟩ := domains_flatten wf htop
  have hlen := wf.lenB
  unfold sphericalMetric sphericalPositions
  rw [h.oriented, hb, (C61_centers hi).2, hdoms]
  simp only [bind, Except.bind, Bool.not_true, Bool.false_eq_true, if_false]
  rw [if_neg (by omega), hflat]
  rw [sphericalMetricOf_eq (top := simplices) hlen _ r (fun q k => unitOf (domainPos ctr q k)) (fun d M q => U d M q.2)
    ?_ hU]
  · congr 2
    · congr 2
      · congr 1
        refine List.map_congr_left fun i hi => ?_
        have hi := List.mem_range'_1.1 hi
        rw [groupMean_eq _ _ _ (keys_range wf htop (by omega)), List.map_map]
        rfl
      · rw [groupSum_eq _ _ _ (keys_range wf htop (Nat.le_refl _)), wf.top_eq, Option.getD_some]
    · congr 2
      · congr 1
        refine List.map_congr_left fun i hi => ?_
        have hi := List.mem_range'_1.1 hi
        rw [groupSum_eq _ _ _ (keys_range wf htop (by omega)), List.map_map]
        rfl
      · rw [groupSum_eq _ _ _ (keys_range wf htop (by omega))]
  · intro q hq
    have h1 := positionAt_mapM _ normalizedNan _ _ (positions_mapM (ctr := ctr) wf htop q hq)
    rw [h1, List.map_map]
    congr 1
    refine List.map_congr_left fun k hk => ?_
    have hk := List.mem_range.1 hk
    obtain ⟨l, hl, hp⟩ := (mem_flagList htop q).1 hq
    have hlm := List.mem_of_getElem? hl
    have hne : q.2.take (k + 1) ≠ [] := by
      intro h0
      have := congrArg List.length h0
      rw [List.length_take, hp.length_eq, (htop l hlm).1] at this
      simp at this
    exact (unitOf_spec (h.center_ne_zero (spansFace_of_subset hlm
      (fun a ha => hp.subset (List.take_subset _ _ ha)) hne))).1

theorem range_map_eq {α : Type} (E : List (List Nat)) (F : Nat → α) (G : List Nat → α)
    (h : ∀ (k : Nat) (e : List Nat), E[k]? = some e → F k = G e) : (List.range E.length).map F = E.map G := by
  apply List.ext_getElem
  · simp
  · intro k h1 h2
    have hk : k < E.length := by simpa using h1
    rw [List.getElem_map, List.getElem_map, List.getElem_range]
    exact h k _ (List.getElem?_eq_getElem hk)

/-- the sum over the domains of a simplex -/
theorem sum_simplex {m : Nat} {x : Nat} {l : List Nat} (hx : simplices[x]? = some l) (g : List Nat → ℝ) :
    (((flagList m simplices).filter fun q => domainKey t.elements m (m + 1) q = x).map fun q => g q.2).sum =
    ((wRows m l).map g).sum := by
  have hxl := (List.getElem?_eq_some_iff.1 hx).1
  have hxe := (List.getElem?_eq_some_iff.1 hx).2
  rw [sum_flagList]
  have hkey : ∀ q : Nat × List Nat, domainKey t.elements m (m + 1) q = q.1 := by
    intro q
    unfold domainKey
    rw [if_neg (by omega)]
  rw [Finset.sum_eq_single ⟨x, hxl⟩]
  · simp only [hkey, decide_true, List.filter_true]
    rw [show simplices[(⟨x, hxl⟩ : Fin simplices.length)] = l from hxe]
  · intro j _ hj
    have : ∀ w, decide (domainKey t.elements m (m + 1) (j.val, w) = x) = false := by
      intro w
      rw [hkey, decide_eq_false_iff_not]
      intro h0
      exact hj (Fin.ext h0)
    simp [this]
  · simp

/-- the perimeter of the domains of an edge -/
theorem SphereInput.half_arcs (h : SphereInput uniq solve eigh ratio n simplices t V W y ctr)
    {a b : Nat} (hab : a ≠ b) {l : List Nat} (hl : l ∈ simplices) (ha : a ∈ l) (hb : b ∈ l) :
    arc (ctr {a}) (ctr {a, b}) + arc (ctr {b}) (ctr {b, a}) = arc (position V a) (position V b) := by
  have hS : SpansFace simplices {a, b} := ⟨⟨a, by simp⟩, l, hl, fun v hv => by
    rw [Finset.mem_insert, Finset.mem_singleton] at hv
    rcases hv with rfl | rfl <;> simpa⟩
  have sa : SpansFace simplices {a} := ⟨⟨a, by simp⟩, l, hl, by simpa using ha⟩
  have sb : SpansFace simplices {b} := ⟨⟨b, by simp⟩, l, hl, by simpa using hb⟩
  have hne := h.center_ne_zero hS
  rw [Finset.pair_comm b a, h.center_one sa, h.center_one sb, arc_comm (position V b)]
  rw [h.center_two hab hS] at hne ⊢
  exact arc_split (h.inside _ hS a (by simp)).le (h.inside _ hS b (by simp)).le hne

theorem diff_edge {l : List Nat} (hl : l.length = 3) {a b : Nat} (hab : a ≠ b) (ha : a ∈ l) (hb : b ∈ l) :
    ∃ c, l.diff [a, b] = [c] ∧ [a, b, c].Perm l := by
  have hsub : [a, b].Subperm l := List.subperm_of_subset (by simp [hab]) (by simp [ha, hb])
  have hp : ([a, b] ++ l.diff [a, b]).Perm l :=
    List.subperm_append_diff_self_of_count_le (fun x _ => hsub.count_le x)
  have hlen := hp.length_eq
  rw [List.length_append, hl] at hlen
  obtain ⟨c, hc⟩ := List.length_eq_one_iff.1 (show (l.diff [a, b]).length = 1 by
    have : [a, b].length = 2 := rfl
    omega)
  exact ⟨c, hc, by rw [hc] at hp; exact hp⟩

theorem diff_corner {l : List Nat} (hl : l.length = 3) {a : Nat} (ha : a ∈ l) :
    ∃ b c, l.diff [a] = [b, c] ∧ [a, b, c].Perm l := by
  have hsub : [a].Subperm l := List.singleton_subperm_iff.2 ha
  have hp : ([a] ++ l.diff [a]).Perm l :=
    List.subperm_append_diff_self_of_count_le (fun x _ => hsub.count_le x)
  have hlen := hp.length_eq
  rw [List.length_append, hl] at hlen
  obtain ⟨b, c, hc⟩ := List.length_eq_two.1 (show (l.diff [a]).length = 2 by
    have : [a].length = 1 := rfl
    omega)
  exact ⟨b, c, hc, by rw [hc] at hp; exact hp⟩

theorem mean_equal {α : Type} (L : List α) (p : α → Prop) [DecidablePred p] (hex : ∃ x ∈ L, p x) (A B : ℝ) :
    (L.map fun x => if p x then A else 0).sum / (L.map fun x => if p x then B else 0).sum = A / B := by
  have h1 : (L.map fun x => if p x then A else 0).sum = (L.map fun x => if p x then (1 : ℝ) else 0).sum * A := by
    rw [← List.sum_map_mul_right]
    congr 1
    exact List.map_congr_left fun x _ => by split_ifs <;> simp
  have h2 : (L.map fun x => if p x then B else 0).sum = (L.map fun x => if p x then (1 : ℝ) else 0).sum * B := by
    rw [← List.sum_map_mul_right]
    congr 1
    exact List.map_congr_left fun x _ => by split_ifs <;> simp
  have h3 : (L.map fun x => if p x then (1 : ℝ) else 0).sum ≠ 0 := by
    obtain ⟨x, hx, hp⟩ := hex
    refine (lt_of_lt_of_le zero_lt_one ?_).ne'
    have := List.single_le_sum (l := L.map fun x => if p x then (1 : ℝ) else 0) (fun z hz => by
      obtain ⟨w, -, rfl⟩ := List.mem_map.1 hz
      split_ifs <;> norm_num) 1 (List.mem_map.2 ⟨x, hx, by rw [if_pos hp]⟩)
    exact this
  rw [h1, h2, mul_div_mul_left _ _ h3]

end

section

variable {uniq : List (List Nat) → List (List Nat)}
  {solve : List (List Int) → Option (List Int)}
  {eigh : (n : Nat) → Matrix (Fin n) (Fin n) ℝ → Eigh n ℝ} {ratio : ℝ}
  {simplices : List (List Nat)} {t : Topo} {V : List (Vec ℝ 3)} {W : Option (List ℝ)}
  {y : Finset Nat → Nat → ℝ} {ctr : Finset Nat → Fin 3 → ℝ}

theorem coneOf_three {a b c : Nat} (hn : [a, b, c].Nodup) {l : List Nat} (hp : [a, b, c].Perm l) :
    coneOf V l = cone3 (position V a) (position V b) (position V c) := by
  have hab : a ≠ b := by rintro rfl; simp at hn
  have hac : a ≠ c := by rintro rfl; simp at hn
  have hbc : b ≠ c := by rintro rfl; simp at hn
  have hf : l.toFinset = {a, b, c} := by rw [← toFinset_perm hp]; simp
  have hsum : ∀ f : Nat → ℝ, ∑ v ∈ l.toFinset, f v = f a + f b + f c := fun f => by
    rw [hf, Finset.sum_insert (by simp [hab, hac]), Finset.sum_pair hbc, add_assoc]
  ext x
  constructor
  · rintro ⟨w, hw, hx⟩
    exact ⟨w a, w b, w c, hw a (hp.subset (by simp)), hw b (hp.subset (by simp)), hw c (hp.subset (by simp)),
      fun k => by rw [hx k, hsum]⟩
  · rintro ⟨p, q, r, h1, h2, h3, hx⟩
    refine ⟨fun v => if v = a then p else if v = b then q else r, fun v _ => ?_, fun k => ?_⟩
    · dsimp only
      split_ifs <;> assumption
    · rw [hx k, hsum]
      simp [Ne.symm hab, Ne.symm hac, Ne.symm hbc]

theorem independent_three {a b c : Nat} (hn : [a, b, c].Nodup) {l : List Nat} (hp : [a, b, c].Perm l)
    (h : IndependentCorners V l) : det3 (position V a) (position V b) (position V c) ≠ 0 := by
  have hab : a ≠ b := by rintro rfl; simp at hn
  have hac : a ≠ c := by rintro rfl; simp at hn
  have hbc : b ≠ c := by rintro rfl; simp at hn
  have hf : l.toFinset = {a, b, c} := by rw [← toFinset_perm hp]; simp
  rw [← independent_iff]
  intro p q r h0
  have key := h (fun v => if v = a then p else if v = b then q else r) fun k => by
    rw [hf, Finset.sum_insert (by simp [hab, hac]), Finset.sum_pair hbc]
    simp only [if_true, if_neg hab.symm, if_neg hac.symm, if_neg hbc.symm]
    rw [← add_assoc]
    exact h0 k
  have ka := key a (hp.subset (by simp))
  have kb := key b (hp.subset (by simp))
  have kc := key c (hp.subset (by simp))
  simp only [if_true, if_neg hab.symm, if_neg hac.symm, if_neg hbc.symm] at ka kb kc
  exact ⟨ka, kb, kc⟩

/-- the domain of an ordering of the corners of a triangle -/
theorem SphereInput.domain (h : SphereInput uniq solve eigh ratio 2 simplices t V W y ctr)
    {a b c : Nat} {l : List Nat} (hl : l ∈ simplices) (hp : [a, b, c].Perm l) :
    (∃ p q α β γ : ℝ, 0 < p ∧ 0 < q ∧ 0 < α ∧ 0 < β ∧ 0 < γ ∧ ctr {a} = position V a ∧
      ctr {a, b} = p • position V a + q • position V b ∧
      ctr {a, b, c} = α • position V a + β • position V b + γ • position V c ∧
      det3 (position V a) (position V b) (position V c) ≠ 0 ∧
      det3 (ctr {a}) (ctr {a, b}) (ctr {a, b, c}) ≠ 0) := by
  have hnl := (h.input.rows l hl).2
  have hn : [a, b, c].Nodup := hp.nodup_iff.2 hnl
  have hab : a ≠ b := by rintro rfl; simp at hn
  have hac : a ≠ c := by rintro rfl; simp at hn
  have hbc : b ≠ c := by rintro rfl; simp at hn
  have ha : a ∈ l := hp.subset (by simp)
  have hb : b ∈ l := hp.subset (by simp)
  have hc : c ∈ l := hp.subset (by simp)
  have s1 : SpansFace simplices {a} := ⟨⟨a, by simp⟩, l, hl, by simpa using ha⟩
  have s2 : SpansFace simplices {a, b} := ⟨⟨a, by simp⟩, l, hl, fun v hv => by
    rw [Finset.mem_insert, Finset.mem_singleton] at hv
    rcases hv with rfl | rfl <;> simpa⟩
  have s3 : SpansFace simplices {a, b, c} := ⟨⟨a, by simp⟩, l, hl, fun v hv => by
    rw [Finset.mem_insert, Finset.mem_insert, Finset.mem_singleton] at hv
    rcases hv with rfl | rfl | rfl <;> simpa⟩
  have hd := independent_three hn hp (h.independent l hl)
  have e3 : ctr {a, b, c} = y {a, b, c} a • position V a + y {a, b, c} b • position V b +
      y {a, b, c} c • position V c := by
    funext k
    rw [(h.input.centers _ s3).point k, Finset.sum_insert (by simp [hab, hac]), Finset.sum_pair hbc, ← add_assoc]
    rfl
  have q2 := h.inside _ s2 b (by simp)
  have q3 := h.inside _ s3 c (by simp)
  refine ⟨_, _, _, _, _, h.inside _ s2 a (by simp), q2, h.inside _ s3 a (by simp), h.inside _ s3 b (by simp), q3,
    h.center_one s1, h.center_two hab s2, e3, hd, ?_⟩
  rw [h.center_one s1, h.center_two hab s2, e3]
  have : det3 (position V a) (y {a, b} a • position V a + y {a, b} b • position V b)
      (y {a, b, c} a • position V a + y {a, b, c} b • position V b + y {a, b, c} c • position V c) =
      y {a, b} b * y {a, b, c} c * det3 (position V a) (position V b) (position V c) := by
    simp only [det3_apply, Pi.add_apply, Pi.smul_apply, smul_eq_mul]; ring
  rw [this]
  exact mul_ne_zero (mul_ne_zero q2.ne' q3.ne') hd

/-- the measures of a complex of triangles, by orderings of the corners -/
noncomputable def cellMeasure (ctr : Finset Nat → Fin 3 → ℝ) (d M : Nat) (w : List Nat) : ℝ :=
  if M = 1 then arc (ctr (w.take (d + 1)).toFinset) (ctr (w.take (d + 2)).toFinset)
  else surfaceArea (sphericalTriangle (ctr (w.take 1).toFinset) (ctr (w.take 2).toFinset) (ctr (w.take 3).toFinset))

theorem unit_triangle {a b c : E3} (h : det3 a b c ≠ 0) :
    det3 (unitOf a) (unitOf b) (unitOf c) ≠ 0 ∧
      sphericalTriangle (unitOf a) (unitOf b) (unitOf c) = sphericalTriangle a b c := by
  have ha : a ≠ 0 := fun h0 => h (by rw [h0]; simp [det3_apply])
  have hb : b ≠ 0 := fun h0 => h (by rw [h0]; simp [det3_apply])
  have hc : c ≠ 0 := fun h0 => h (by rw [h0]; simp [det3_apply])
  obtain ⟨-, -, p, hp, ep⟩ := unitOf_spec ha
  obtain ⟨-, -, q, hq, eq⟩ := unitOf_spec hb
  obtain ⟨-, -, r, hr, er⟩ := unitOf_spec hc
  rw [ep, eq, er]
  refine ⟨?_, triangle_smul a b c hp hq hr⟩
  have : det3 (p • a) (q • b) (r • c) = p * q * r * det3 a b c := by
    simp only [det3_apply, Pi.smul_apply, smul_eq_mul]; ring
  rw [this]
  exact mul_ne_zero (by positivity) h

theorem unit_arc {D : Nat} {a b : Fin D → ℝ} (ha : a ≠ 0) (hb : b ≠ 0) :
    sphericalVolumeOf [some (unitOf a), some (unitOf b)] = .ok (some (arc a b)) := by
  obtain ⟨-, ua, p, hp, ep⟩ := unitOf_spec ha
  obtain ⟨-, ub, q, hq, eq⟩ := unitOf_spec hb
  rw [sphericalVolumeOf_two ua ub, ep, eq, arc_smul a b hp hq]

theorem SphereInput.cells (h : SphereInput uniq solve eigh ratio 2 simplices t V W y ctr) :
    ∀ q ∈ flagList 1 simplices, ∀ d M, 1 ≤ M → d + M ≤ 1 + 1 →
      sphericalVolumeOf ((List.range (M + 1)).map fun k => some (unitOf (domainPos ctr q (d + k)))) =
        .ok (some (cellMeasure ctr d M q.2)) := by
  rintro ⟨j, w⟩ hq d M h1 h2
  obtain ⟨l, hl, hp⟩ := (mem_flagList h.input.rows _).1 hq
  have hlm := List.mem_of_getElem? hl
  simp only at hp
  have hwl : w.length = 3 := by rw [hp.length_eq, (h.input.rows l hlm).1]
  have hne : ∀ k, ctr (w.take (k + 1)).toFinset ≠ 0 := fun k =>
    h.center_ne_zero (spansFace_of_subset hlm (fun a ha => hp.subset (List.take_subset _ _ ha)) (by
      intro h0
      have := congrArg List.length h0
      rw [List.length_take, hwl] at this
      simp at this))
  by_cases hM : M = 1
  · subst hM
    rw [cellMeasure, if_pos rfl]
    exact unit_arc (hne d) (hne (d + 1))
  · have hM2 : M = 2 := by omega
    have hd0 : d = 0 := by omega
    subst hM2
    subst hd0
    obtain ⟨a, b, c, rfl⟩ := List.length_eq_three.1 hwl
    obtain ⟨p, q, α, β, γ, -, -, -, -, -, -, -, -, -, hd⟩ := h.domain hlm hp
    have hd' : det3 (ctr ([a, b, c].take 1).toFinset) (ctr ([a, b, c].take 2).toFinset)
        (ctr ([a, b, c].take 3).toFinset) ≠ 0 := by simpa using hd
    obtain ⟨u1, u2⟩ := unit_triangle hd'
    rw [cellMeasure, if_neg (by omega), ← u2]
    exact sphericalVolumeOf_three u1

theorem SphereInput.cell (h : SphereInput uniq solve eigh ratio 2 simplices t V W y ctr) {a b c : Nat} {l : List Nat}
    (hl : l ∈ simplices) (hp : [a, b, c].Perm l) : cellMeasure ctr 0 2 [a, b, c] =
      surfaceArea (sphericalTriangle (position V a) (ctr {a, b}) (ctr l.toFinset)) := by
  obtain ⟨-, -, -, -, -, -, -, -, -, -, e1, -⟩ := h.domain hl hp
  rw [cellMeasure, if_neg (by omega), ← toFinset_perm hp, ← e1]
  simp

/-- the domains of a triangle add up to the triangle -/
theorem SphereInput.triangle_sums (h : SphereInput uniq solve eigh ratio 2 simplices t V W y ctr) :
    (List.range simplices.length).map (fun x =>
      (((flagList 1 simplices).filter fun q => domainKey t.elements 1 (1 + 1) q = x).map
        fun q => cellMeasure ctr 0 (1 + 1) q.2).sum) = simplices.map fun l => surfaceArea (onSphere (coneOf V l)) := by
  have hi := h.input
  obtain ⟨-, wf⟩ := fromSimplices_wf hi.uniq_ok hi.rows hi.built
  have htop := hi.rows
  refine range_map_eq _ _ _ fun x l hx => ?_
  have hl := List.mem_of_getElem? hx
  rw [sum_simplex hx (cellMeasure ctr 0 (1 + 1)),
    ((wRows_permutations (htop l hl).1 (htop l hl).2).map _).sum_eq]
  obtain ⟨a, b, c, rfl⟩ := List.length_eq_three.1 (htop l hl).1
  have hn := (htop _ hl).2
  have pabc : [a, b, c].Perm [a, b, c] := List.Perm.refl _
  have pbac : [b, a, c].Perm [a, b, c] := List.Perm.swap _ _ _
  have pacb : [a, c, b].Perm [a, b, c] := (List.Perm.swap b c []).cons a
  have pbca : [b, c, a].Perm [a, b, c] := ((List.Perm.swap a c []).cons b).trans pbac
  have pcab : [c, a, b].Perm [a, b, c] := (List.Perm.swap a c [b]).trans pacb
  have pcba : [c, b, a].Perm [a, b, c] := (List.Perm.swap b c [a]).trans pbca
  obtain ⟨p, q, α, β, γ, hp, hq, hα, hβ, hγ, -, e2, e3, hd, -⟩ := h.domain hl pabc
  obtain ⟨p', q', -, -, -, hp', hq', -, -, -, -, e2', -⟩ := h.domain hl pbca
  obtain ⟨p'', q'', -, -, -, hp'', hq'', -, -, -, -, e2'', -⟩ := h.domain hl pcab
  rw [coneOf_three hn pabc]
  refine Eq.trans ?_ (area_domains hd hα hβ hγ hp hq hp' hq' hp'' hq'' e3 e2 e2' e2'')
  have hperm : ([a, b, c].permutations.map (cellMeasure ctr 0 (1 + 1))).sum =
      cellMeasure ctr 0 2 [a, b, c] + cellMeasure ctr 0 2 [b, a, c] + cellMeasure ctr 0 2 [c, b, a] +
        cellMeasure ctr 0 2 [b, c, a] + cellMeasure ctr 0 2 [c, a, b] + cellMeasure ctr 0 2 [a, c, b] := by
    simp [List.permutations, List.permutationsAux, List.permutationsAux2, List.permutationsAux.rec]
    ring
  rw [hperm, h.cell hl pabc, h.cell hl pbac, h.cell hl pcba, h.cell hl pbca, h.cell hl pcab, h.cell hl pacb,
    show ([a, b, c].toFinset : Finset Nat) = {a, b, c} by simp, Finset.pair_comm b a, Finset.pair_comm c b,
    Finset.pair_comm a c]
  ring

/-- the domains at a vertex -/
theorem SphereInput.corner_sums (h : SphereInput uniq solve eigh ratio 2 simplices t V W y ctr) :
    (List.range (t.elements[0]?.getD []).length).map (fun x =>
      (((flagList 1 simplices).filter fun q => domainKey t.elements 1 0 q = x).map
        fun q => cellMeasure ctr 0 (1 + 1) q.2).sum) =
      (t.elements[0]?.getD []).map fun e => (simplices.map fun l =>
          if e ⊆ l then ((l.diff e).map fun u => surfaceArea (sphericalTriangle (position V (e[0]?.getD 0))
            (ctr {e[0]?.getD 0, u}) (ctr l.toFinset))).sum else 0).sum := by
  have hi := h.input
  obtain ⟨-, wf⟩ := fromSimplices_wf hi.uniq_ok hi.rows hi.built
  have htop := hi.rows
  refine range_map_eq _ _ _ fun x e hx => ?_
  obtain ⟨he1, he2, -⟩ := wf.element_face htop (k := 0) (by omega) (List.mem_of_getElem? hx)
  obtain ⟨a, rfl⟩ := List.length_eq_one_iff.1 he1
  rw [sum_domains_of wf htop (by omega) hx (cellMeasure ctr 0 (1 + 1))]
  congr 1
  refine List.map_congr_left fun l hl => ?_
  by_cases hs : [a] ⊆ l
  · obtain ⟨b, c, hc, hp⟩ := diff_corner (a := a) (htop l hl).1 (hs (by simp))
    have hp' : [a, c, b].Perm l := ((List.Perm.swap b c []).cons a).trans hp
    rw [if_pos hs, if_pos hs, hc]
    have hperm : (([a] : List Nat).permutations.map fun u =>
        ([b, c].permutations.map fun v => cellMeasure ctr 0 (1 + 1) (u ++ v)).sum).sum =
        cellMeasure ctr 0 2 [a, b, c] + cellMeasure ctr 0 2 [a, c, b] := by
      have e1 : ([a] : List Nat).permutations = [[a]] := by
        simp [List.permutations, List.permutationsAux, List.permutationsAux.rec]
      have e2 : [b, c].permutations = [[b, c], [c, b]] := by
        simp [List.permutations, List.permutationsAux, List.permutationsAux2, List.permutationsAux.rec]
      rw [e1, e2]
      simp
    rw [hperm, h.cell hl hp, h.cell hl hp']
    simp
  · rw [if_neg hs, if_neg hs]

/-- C64: the metric of triangles on a sphere of radius `r`.  Primal measures: one for a vertex, the length of
the arc for an edge, the area of the spherical triangle for a triangle.  Dual measures: one for a triangle; for
an edge, the arcs from its center to the centers of the triangles around it; for a vertex, the areas of the
spherical triangles it forms with the center of an edge and the center of a triangle. -/
theorem C64_sphere (h : SphereInput uniq solve eigh ratio 2 simplices t V W y ctr) (r : ℝ) :
    sphericalMetric solve eigh ratio t V W r = .ok
      ([List.replicate (t.nElements 0) (some 1),
        (t.elements[1]?.getD []).map fun e =>
          some (arc (position V (e[0]?.getD 0)) (position V (e[1]?.getD 0)) * r),
        simplices.map fun l => some (surfaceArea (onSphere (coneOf V l)) * r ^ 2)],
       [List.replicate simplices.length (some 1),
        (t.elements[1]?.getD []).map fun e => some ((simplices.map fun l =>
          if e ⊆ l then arc (ctr e.toFinset) (ctr l.toFinset) else 0).sum * r),
        (t.elements[0]?.getD []).map fun e => some ((simplices.map fun l =>
          if e ⊆ l then ((l.diff e).map fun u => surfaceArea (sphericalTriangle (position V (e[0]?.getD 0))
            (ctr {e[0]?.getD 0, u}) (ctr l.toFinset))).sum else 0).sum * r ^ 2)]) := by
  have hi := h.input
  obtain ⟨-, wf⟩ := fromSimplices_wf hi.uniq_ok hi.rows hi.built
  have htop := hi.rows
  rw [h.values (m := 1) (by omega) r (cellMeasure ctr) h.cells]
  have hN : t.nElements (1 + 1) = simplices.length := by
    unfold Topo.nElements
    rw [wf.top_eq]
    rfl
  have p1 : (List.range (t.elements[1]?.getD []).length).map (fun x =>
      (((flagList 1 simplices).filter fun q => domainKey t.elements 1 1 q = x).map
        fun q => cellMeasure ctr 0 1 q.2).sum /
      (((flagList 1 simplices).filter fun q => domainKey t.elements 1 1 q = x).map fun _ => (1 : ℝ)).sum *
        ((1 + 1).factorial : ℝ)) = (t.elements[1]?.getD []).map fun e =>
          arc (position V (e[0]?.getD 0)) (position V (e[1]?.getD 0)) := by
    refine range_map_eq _ _ _ fun x e hx => ?_
    obtain ⟨he1, he2, l0, hl0, hs0⟩ := wf.element_face htop (k := 1) (by omega) (List.mem_of_getElem? hx)
    obtain ⟨a, b, rfl⟩ := length_two he1
    have hab : a ≠ b := by rintro rfl; simp at he2
    rw [sum_domains_of wf htop (by omega) hx (cellMeasure ctr 0 1), sum_domains_of wf htop (by omega) hx (fun _ => 1)]
    have q1 : (simplices.map fun l => if [a, b] ⊆ l then ([a, b].permutations.map fun u =>
        ((l.diff [a, b]).permutations.map fun v => cellMeasure ctr 0 1 (u ++ v)).sum).sum else 0) =
        simplices.map fun l => if [a, b] ⊆ l then arc (position V a) (position V b) else 0 := by
      refine List.map_congr_left fun l hl => ?_
      by_cases hs : [a, b] ⊆ l
      · obtain ⟨c, hc, -⟩ := diff_edge (htop l hl).1 hab (hs (by simp)) (hs (by simp))
        rw [if_pos hs, if_pos hs, hc, ← h.half_arcs hab hl (hs (by simp)) (hs (by simp))]
        simp [List.permutations, List.permutationsAux, List.permutationsAux2, List.permutationsAux.rec, cellMeasure]
      · rw [if_neg hs, if_neg hs]
    have q2 : (simplices.map fun l => if [a, b] ⊆ l then ([a, b].permutations.map fun u =>
        ((l.diff [a, b]).permutations.map fun v => (fun _ => (1 : ℝ)) (u ++ v)).sum).sum else 0) =
        simplices.map fun l => if [a, b] ⊆ l then 2 else 0 := by
      refine List.map_congr_left fun l hl => ?_
      by_cases hs : [a, b] ⊆ l
      · obtain ⟨c, hc, -⟩ := diff_edge (htop l hl).1 hab (hs (by simp)) (hs (by simp))
        rw [if_pos hs, if_pos hs, hc]
        simp [List.permutations, List.permutationsAux, List.permutationsAux2, List.permutationsAux.rec]
        norm_num
      · rw [if_neg hs, if_neg hs]
    rw [q1, q2, mean_equal simplices (fun l => [a, b] ⊆ l) ⟨l0, hl0, hs0⟩ _ 2]
    simp [Nat.factorial]
  have p2 := h.triangle_sums
  have d1 : (List.range (t.elements[1]?.getD []).length).map (fun x =>
      (((flagList 1 simplices).filter fun q => domainKey t.elements 1 1 q = x).map
        fun q => cellMeasure ctr 1 1 q.2).sum / ((1 + 1).factorial : ℝ)) =
      (t.elements[1]?.getD []).map fun e => (simplices.map fun l =>
          if e ⊆ l then arc (ctr e.toFinset) (ctr l.toFinset) else 0).sum := by
    refine range_map_eq _ _ _ fun x e hx => ?_
    obtain ⟨he1, he2, -⟩ := wf.element_face htop (k := 1) (by omega) (List.mem_of_getElem? hx)
    obtain ⟨a, b, rfl⟩ := length_two he1
    have hab : a ≠ b := by rintro rfl; simp at he2
    rw [sum_domains_of wf htop (by omega) hx (cellMeasure ctr 1 1), div_eq_mul_inv, ← List.sum_map_mul_right]
    congr 1
    refine List.map_congr_left fun l hl => ?_
    by_cases hs : [a, b] ⊆ l
    · obtain ⟨c, hc, hp⟩ := diff_edge (htop l hl).1 hab (hs (by simp)) (hs (by simp))
      rw [if_pos hs, if_pos hs, hc, ← toFinset_perm hp]
      simp [List.permutations, List.permutationsAux, List.permutationsAux2, List.permutationsAux.rec, cellMeasure,
        Nat.factorial, Finset.pair_comm b a, Finset.insert_comm b a]
      ring
    · rw [if_neg hs, if_neg hs, zero_mul]
  have d2 := h.corner_sums
  have e1 : List.range' 1 1 = [1] := rfl
  rw [e1, List.map_cons, List.map_nil, List.map_cons, List.map_nil, p1, p2, hN,
    show 1 + 1 - 1 = 1 from rfl, d1, d2]
  simp [scaleBy, List.zipIdx]

end

end Verif.Props
