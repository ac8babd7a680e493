/-
C70: what the measures add up to, and the cases in which they are wrong.
-/
import Verif.Props.RegularMetric
import Verif.Props.Grid
import Mathlib.Data.Nat.Choose.Basic

set_option linter.unusedSectionVars false

namespace Verif.Props

open Verif.Model Verif.Spec

variable {K : Type} [Field K] [LinearOrder K] [IsStrictOrderedRing K] {n : Nat} {V : List (Vec K n)} {cubes : List (List Nat)} {t : Topo}
  {uniq : List (List Nat) → List (List Nat)} {solve : List (List Int) → Option (List Int)}

/-- numbers of faces of a cube -/
theorem points_count : ∀ n k : Nat, (points n).countP (fun x => x.count 1 = k) * 2 ^ k = n.choose k * 2 ^ n
  | 0, 0 => by simp [points]
  | 0, k + 1 => by simp [points]
  | n + 1, k => by
    have ih := points_count n
    have h0 : ((points n).map (0 :: ·)).countP (fun x => x.count 1 = k) = (points n).countP (fun x => x.count 1 = k) := by
      rw [List.countP_map]
      congr 1
    have h2 : ((points n).map (2 :: ·)).countP (fun x => x.count 1 = k) = (points n).countP (fun x => x.count 1 = k) := by
      rw [List.countP_map]
      congr 1
    rw [points, List.countP_append, List.countP_append, h0, h2]
    cases k with
    | zero =>
      have h1 : ((points n).map (1 :: ·)).countP (fun x => x.count 1 = 0) = 0 := by
        rw [List.countP_map, List.countP_eq_zero]
        simp
      have := ih 0
      rw [h1]
      simp only [Nat.choose_zero_right, pow_zero] at this ⊢
      rw [pow_succ]
      omega
    | succ k =>
      have h1 : ((points n).map (1 :: ·)).countP (fun x => x.count 1 = k + 1) = (points n).countP (fun x => x.count 1 = k) := by
        rw [List.countP_map]
        congr 1
        funext x
        simp
      rw [h1, Nat.choose_succ_succ]
      have e1 := ih k
      have e2 := ih (k + 1)
      rw [pow_succ] at e2
      rw [pow_succ, pow_succ]
      linear_combination 2 * e1 + 2 * e2

theorem sum_countP {α : Type} (p : α → Prop) [DecidablePred p] (c : K) (L : List α) :
    (L.map fun x => if p x then c else 0).sum = (L.countP fun x => p x : Nat) * c := by
  induction L with
  | nil => simp
  | cons x L ih =>
    rw [List.map_cons, List.sum_cons, ih, List.countP_cons]
    by_cases h : p x <;> simp [h]
    ring

/-- a face and the part of its dual cell in a box make up the box -/
theorem face_times_dual {l lo hi σ} (hb : BoxAt V l lo hi σ) (hl : l.length = 2 ^ n) (hne : ∀ q, lo q ≠ hi q) {x e : List Nat}
    (hx : IsPoint x) (hxl : x.length = n) (he : (gridFace l x).Perm e) :
    boxMeasure V e * dualPart V e l * 2 ^ (n - x.count 1) = boxMeasure V l := by
  have hself : boxMeasure V l = ∏ q, |hi q - lo q| := by
    rw [hb.boxMeasure hl hne (x := List.replicate n 1) (fun a ha => by rw [List.eq_of_mem_replicate ha]; omega) (by simp)
      (by rw [gridFace_middle hl])]
    congr 1
    refine Finset.filter_true_of_mem fun q _ => ?_
    rw [List.getElem?_replicate, if_pos (σ.symm q).isLt]
  have hcard : (Finset.univ.filter fun q : Fin n => ¬ x[(σ.symm q).val]? = some 1).card = n - x.count 1 := by
    have h1 := card_axes (c := x.map fun a => a == 1) (by simpa using hxl) σ
    have h2 : (x.map fun a => a == 1).count true = x.count 1 := by
      rw [List.count, List.countP_map, List.count]
      congr 1
      funext a
      simp
    have h3 : (Finset.univ.filter fun q : Fin n => (x.map fun a => a == 1)[(σ.symm q).val]? = some true) =
        Finset.univ.filter fun q : Fin n => x[(σ.symm q).val]? = some 1 := by
      refine Finset.filter_congr fun q _ => ?_
      rw [List.getElem?_map]
      cases x[(σ.symm q).val]? <;> simp
    rw [h2, h3] at h1
    have h4 := Finset.card_filter_add_card_filter_not (s := Finset.univ) (fun q : Fin n => x[(σ.symm q).val]? = some 1)
    rw [Finset.card_univ, Fintype.card_fin] at h4
    omega
  rw [hself, hb.boxMeasure hl hne hx hxl he, hb.dualPart hl hne hx hxl he, Finset.prod_div_distrib, Finset.prod_const, hcard,
    mul_assoc, div_mul_cancel₀ _ (pow_ne_zero _ two_ne_zero)]
  exact Finset.prod_filter_mul_prod_filter_not _ _ _

/-- the faces of dimension `k` of one box, each with the part of its dual cell in the box -/
theorem box_total (w : CWF n cubes t) (hn : 1 ≤ n) {j : Nat} {l : List Nat} (hj : cubes[j]? = some l) (hb : IsBox V l) {k : Nat} (hk : k < n)
    {E : List (List Nat)} (hE : t.elements[k]? = some E) :
    (E.map fun e => if hasFace (n - k) k l e then boxMeasure V e * dualPart V e l else 0).sum = n.choose k * boxMeasure V l := by
  have hst := (stored_top w).2 hj
  obtain ⟨hl, hnd⟩ := w.cube hn (le_refl n) hst
  obtain ⟨lo, hi, σ, hne, hbx⟩ := hb
  have hbx : BoxAt V l lo hi σ := hbx
  have hsk : ∀ {i e}, E[i]? = some e ↔ Stored t k i e := by
    intro i e
    unfold Stored
    rw [hE, Option.getD_some]
  set T : K := boxMeasure V l / 2 ^ (n - k) with hT
  have h1 : ∀ e ∈ E, (if hasFace (n - k) k l e then boxMeasure V e * dualPart V e l else 0) =
      ((points n).map fun x => if (gridFace l x).Perm e then T else 0).sum := by
    intro e he
    obtain ⟨i, hi⟩ := List.mem_iff_getElem?.1 he
    have hel := (w.cube hn (by omega) (hsk.1 hi)).1
    have hiff := hasFace_iff hel (d := n - k) (l := l) (by rw [hl]; congr 1; omega) hnd
    rw [show k + (n - k) = n by omega] at hiff
    split
    · next h =>
      obtain ⟨x, x1, x2, x3⟩ := hiff.1 h
      rw [sum_unique (points_nodup n) (mem_points.2 ⟨x1, x2⟩), if_pos x3, hT, ← face_times_dual hbx hl hne x1 x2 x3,
        faceOf_length x1 hel x3, mul_div_cancel_right₀ _ (pow_ne_zero _ two_ne_zero)]
      intro y hy hne
      obtain ⟨y1, y2⟩ := mem_points.1 hy
      rw [if_neg]
      intro hyp
      exact hne (gridFace_perm_inj (by rw [hl, y2]) hnd y1 x1 (by omega) (hyp.trans x3.symm))
    · next h =>
      symm
      apply List.sum_eq_zero
      intro y hy
      obtain ⟨x, hx, rfl⟩ := List.mem_map.1 hy
      obtain ⟨x1, x2⟩ := mem_points.1 hx
      rw [if_neg]
      intro hp
      exact h (hiff.2 ⟨x, x1, x2, hp⟩)
  rw [List.map_congr_left h1, sum_list_comm]
  have hdist : DistinctElements E := by
    have := (w.get hk).2.2.1
    rwa [hE, Option.getD_some] at this
  have hEn : E.Nodup := List.Pairwise.imp (fun {a b} h (h' : a = b) => h (by rw [h'])) hdist
  have h2 : ∀ x ∈ points n, (E.map fun e => if (gridFace l x).Perm e then T else 0).sum = if x.count 1 = k then T else 0 := by
    intro x hx
    obtain ⟨x1, x2⟩ := mem_points.1 hx
    split
    · next hc =>
      obtain ⟨i, e, g1, g2, -⟩ := gridFace_stored w hn (le_refl n) hst x1 x2
      rw [hc] at g1
      have hie := hsk.2 g1
      rw [sum_unique hEn (List.mem_of_getElem? hie), if_pos g2]
      intro e' he' hne'
      obtain ⟨i', hi'⟩ := List.mem_iff_getElem?.1 he'
      rw [if_neg]
      intro hp
      obtain rfl := distinct_index hdist hi' hie (hp.symm.trans g2)
      exact hne' (Option.some.inj (hi'.symm.trans hie))
    · next hc =>
      apply List.sum_eq_zero
      intro y hy
      obtain ⟨e, he, rfl⟩ := List.mem_map.1 hy
      obtain ⟨i, hi⟩ := List.mem_iff_getElem?.1 he
      rw [if_neg]
      intro hp
      exact hc (faceOf_length x1 (w.cube hn (by omega) (hsk.1 hi)).1 hp)
  rw [List.map_congr_left h2, sum_countP, hT]
  have hcount : (((points n).countP fun x => x.count 1 = k : Nat) : K) * 2 ^ k = n.choose k * 2 ^ n := by
    exact_mod_cast points_count n k
  have hpow : (2 : K) ^ n = 2 ^ (n - k) * 2 ^ k := by rw [← pow_add]; congr 1; omega
  have h3 : (((points n).countP fun x => x.count 1 = k : Nat) : K) = n.choose k * 2 ^ (n - k) := by
    rw [hpow, ← mul_assoc] at hcount
    exact mul_right_cancel₀ (pow_ne_zero k two_ne_zero) hcount
  rw [h3, mul_assoc, mul_div_cancel₀ _ (pow_ne_zero _ two_ne_zero)]

theorem zipWith_map_self {α : Type} (f g : α → K) (L : List α) : (List.zipWith (· * ·) (L.map f) (L.map g)) = L.map fun x => f x * g x := by
  induction L with
  | nil => rfl
  | cons x L ih => simp [ih]

/-- C70: for every `k` the products of the measures of the elements of dimension `k` and of their dual cells add up to the
volume, once for every choice of `k` axes. With `k = 0`: the cells dual to the vertices fill the domain. -/
theorem C70_total (hu : UniqSpec uniq) (hc : Cubes n cubes) (hn : 1 ≤ n) (ht : fromCubes uniq true n cubes = .ok t)
    (hbox : ∀ l ∈ cubes, IsBox V l) (hor : isOriented solve t = .ok true)
    (hdeg : ∀ k E, 1 ≤ k → k < n → t.elements[k]? = some E → ∀ e ∈ E, (cubesAround n k cubes e).length < 128) :
    ∃ PM DM, regularMetric solve t V = .ok (PM, DM) ∧ ∀ k ≤ n, ∃ A D, PM[k]? = some A ∧ DM[n - k]? = some D ∧
      A.length = D.length ∧ (List.zipWith (· * ·) A D).sum = n.choose k * (cubes.map (boxMeasure V)).sum := by
  have w := fromCubes_wf hu hc ht
  obtain ⟨PM, DM, h1, h2, h3, h4, h5, h6⟩ := C70_metric hu hc hn ht hbox hor hdeg
  refine ⟨PM, DM, h1, fun k hk => ?_⟩
  rcases Nat.lt_or_ge k n with hkn | hkn
  · obtain ⟨E, hE⟩ : ∃ E, t.elements[k]? = some E := ⟨_, List.getElem?_eq_getElem (by have := w.lenE; omega)⟩
    refine ⟨_, _, h4 k hk E hE, h6 k hkn E hE, by simp, ?_⟩
    rw [zipWith_map_self]
    have e1 : ∀ e ∈ E, boxMeasure V e * dualMeasure V k cubes e =
        (cubes.zipIdx.map fun lj => if hasFace (n - k) k lj.1 e then boxMeasure V e * dualPart V e lj.1 else 0).sum := by
      intro e _
      unfold dualMeasure cubesAround
      rw [← List.sum_map_mul_left, ← sum_zipIdx_where cubes (fun l => hasFace (n - k) k l e)]
      congr 1
      refine List.map_congr_left fun lj hlj => ?_
      rw [List.mem_zipIdx_iff_getElem?.1 hlj, Option.getD_some]
    rw [List.map_congr_left e1, sum_list_comm]
    have e2 : ∀ lj ∈ cubes.zipIdx, (E.map fun e => if hasFace (n - k) k lj.1 e then boxMeasure V e * dualPart V e lj.1 else 0).sum =
        n.choose k * boxMeasure V lj.1 := fun lj hlj =>
      have hj := List.mem_zipIdx_iff_getElem?.1 hlj
      box_total w hn hj (hbox _ (List.mem_of_getElem? hj)) hkn hE
    rw [List.map_congr_left e2, List.sum_map_mul_left]
    congr 2
    conv_rhs => rw [← List.zipIdx_map_fst 0 cubes, List.map_map]
    rfl
  · obtain rfl : k = n := by omega
    refine ⟨_, _, h4 k hk _ w.top_eq, by rw [Nat.sub_self]; exact h5, by simp, ?_⟩
    rw [Nat.choose_self, Nat.cast_one, one_mul]
    congr 1
    apply List.ext_getElem?
    intro j
    rw [List.getElem?_zipWith, List.getElem?_map]
    rcases Nat.lt_or_ge j cubes.length with h | h
    · simp [h]
    · simp [List.getElem?_eq_none h]

/-! ### a fan of squares -/

/-- `m` squares with the edge of the vertices 0 and 1 in common -/
def fan (m : Nat) : List (List Nat) := (List.range m).map fun j : Nat => [0, 1, 2 + 2 * j, 3 + 2 * j]

/-- all of them lie on the unit square -/
def fanVertices (m : Nat) : List (Vec ℚ 2) :=
  ![0, 0] :: ![0, 1] :: (List.range m).flatMap fun _ => [![1, 0], ![1, 1]]

theorem fan_get {m j : Nat} (h : j < m) : (fan m)[j]? = some [0, 1, 2 + 2 * j, 3 + 2 * j] := by
  unfold fan
  rw [List.getElem?_map, List.getElem?_range h]
  rfl

theorem fan_cubes (m : Nat) : Cubes 2 (fan m) := by
  intro l hl
  obtain ⟨j, -, rfl⟩ := List.mem_map.1 hl
  refine ⟨rfl, ?_⟩
  simp
  omega

theorem pairs_agree {f f' : List Nat} (hf : f.length = 2) (h : f.Perm f') : ∃ σ, SymmetricCube 1 f f' σ := by
  have hf' := h.length_eq.symm.trans hf
  obtain ⟨a, b, rfl⟩ := List.length_eq_two.1 hf
  obtain ⟨c, d, rfl⟩ := List.length_eq_two.1 hf'
  have hab : (c = a ∧ d = b) ∨ (c = b ∧ d = a) := by
    have hc : c = a ∨ c = b := by simpa using h.symm.subset (List.mem_cons_self : c ∈ [c, d])
    rcases hc with rfl | rfl
    · exact Or.inl ⟨rfl, by simpa using (((List.perm_cons c).1 h).symm)⟩
    · have h2 := ((List.Perm.swap a c []).trans h)
      exact Or.inr ⟨rfl, by simpa using (((List.perm_cons c).1 h2).symm)⟩
  rcases hab with ⟨rfl, rfl⟩ | ⟨rfl, rfl⟩
  · exact ⟨_, [0], [false], ⟨List.Perm.refl _, rfl⟩, rfl, rfl⟩
  · exact ⟨_, [0], [true], ⟨List.Perm.refl _, rfl⟩, rfl, rfl⟩

theorem fan_accepted (hu : UniqSpec uniq) (m : Nat) : ∃ t, fromCubes uniq true 2 (fan (m + 1)) = .ok t := by
  refine (C19_accepts_iff hu (fan_cubes _)).2 ⟨fun _ => by norm_num, ?_, 2 * m + 4, ?_⟩
  · intro k d hk hd l hl l' hl' f f' hf hf' hp
    obtain rfl : k = 1 := by omega
    obtain rfl : d = 0 := by omega
    refine pairs_agree ?_ hp
    obtain ⟨i, hi, s, hf⟩ := hf
    obtain rfl : f = _ := hf
    exact side_length (by omega) _ _
  · intro v
    constructor
    · rintro ⟨l, hl, hv⟩
      obtain ⟨j, hj, rfl⟩ := List.mem_map.1 hl
      have := List.mem_range.1 hj
      simp at hv
      omega
    · intro hv
      refine ⟨_, List.mem_of_getElem? (fan_get (j := (v - 2) / 2) (by omega)), ?_⟩
      simp
      omega

theorem fan_side {e l : List Nat} {i : Nat} {s : Bool} (hl : l.length = 2 ^ 2) (hi : i ≤ 1) (h : e.Perm (side 1 i s l)) : ∀ v ∈ e, v ∈ l := by
  intro v hv
  obtain ⟨b, hb, rfl⟩ := List.mem_map.1 (h.subset hv)
  have hb := mem_cubeIndices.1 (List.mem_filter.1 hb).1
  unfold cubeAt
  have hlt := ravel_lt b
  rw [hb] at hlt
  rw [List.getElem?_eq_getElem (by omega), Option.getD_some]
  exact List.getElem_mem _

/-- a fan of three or more squares counts as oriented: no edge belongs to exactly two squares -/
theorem fan_oriented (hu : UniqSpec uniq) {m : Nat} (hm : 3 ≤ m) (h : fromCubes uniq true 2 (fan m) = .ok t) :
    isOriented solve t = .ok true := by
  have w := fromCubes_wf hu (fan_cubes m) h
  have hclauses : interiorClauses (t.matrix 1) = [] := by
    unfold interiorClauses
    rw [List.filterMap_eq_nil_iff]
    intro x hx
    rw [List.mem_range, (w.shape (k := 1) (by omega)).1] at hx
    simp only
    rw [if_neg]
    intro hlen
    obtain ⟨j1, j2, hz⟩ := List.length_eq_two.1 hlen
    have hcols : (t.matrix 1).cols = m := by
      rw [(w.shape (k := 1) (by omega)).2]
      unfold Topo.nElements
      rw [w.top_eq, Option.getD_some, fan, List.length_map, List.length_range]
    have hst := CWF.stored_corners (t := t) hx
    set e := WF.corners t 1 x
    obtain ⟨hel, hend⟩ := w.cube (by omega) (by omega) hst
    have htop : ∀ j < m, (t.elements[1 + 1]?.getD [])[j]? = some [0, 1, 2 + 2 * j, 3 + 2 * j] := by
      intro j hj
      rw [w.top_eq, Option.getD_some, fan_get hj]
    have hent := fun j hj => C19_entries hu (fan_cubes m) h 1 (by omega) x j e _ hst (htop j hj)
    have hcol : ∀ j, j ∈ nonzeroCols (t.matrix 1) x ↔ j < m ∧ (t.matrix 1).entry x j ≠ 0 := by
      intro j
      unfold nonzeroCols
      rw [List.mem_filter, List.mem_range, hcols]
      simp
    have hsub : ∀ j, j ∈ nonzeroCols (t.matrix 1) x → ∀ v ∈ e, v ∈ [0, 1, 2 + 2 * j, 3 + 2 * j] := by
      intro j hj
      obtain ⟨hj1, hj2⟩ := (hcol j).1 hj
      by_contra hno
      refine hj2 ((hent j hj1).2 fun i hi s hp => hno (fan_side rfl hi hp))
    have hnd := WF.nonzeroCols_nodup (t.matrix 1) x
    rw [hz] at hnd
    have hne : j1 ≠ j2 := by simpa using hnd
    have hlt : ∀ v ∈ e, v < 2 := by
      intro v hv
      have h1 := hsub j1 (by rw [hz]; simp) v hv
      have h2 := hsub j2 (by rw [hz]; simp) v hv
      simp at h1 h2
      omega
    have hperm : e.Perm [0, 1] := by
      refine (List.subperm_of_subset hend fun v hv => ?_).perm_of_length_le (by rw [hel]; simp)
      have := hlt v hv
      simp
      omega
    have hall : ∀ j < m, j ∈ nonzeroCols (t.matrix 1) x := by
      intro j hj
      refine (hcol j).2 ⟨hj, ?_⟩
      obtain ⟨σ, hσ⟩ := pairs_agree hel hperm
      have := (hent j hj).1 0 (by omega) false σ (by exact hσ)
      rw [this]
      rcases hσ.sign with rfl | rfl <;> decide
    have h0 := hall 0 (by omega)
    have h1 := hall 1 (by omega)
    have h2 := hall 2 (by omega)
    rw [hz] at h0 h1 h2
    simp at h0 h1 h2
    omega
  unfold isOriented relativeParity
  simp only [w.lenB]
  rw [if_neg (by omega), if_pos hclauses]
  show Except.ok _ = _
  congr 1
  generalize t.nElements 2 = N
  cases N with
  | zero => rfl
  | succ N => simp [List.replicate_succ, allEqual]

theorem fanVertices_get {m j : Nat} (h : j < m) : (fanVertices m)[2 + 2 * j]? = some ![1, 0] ∧ (fanVertices m)[3 + 2 * j]? = some ![1, 1] := by
  unfold fanVertices
  have key : ∀ (L : List Nat) (j : Nat), j < L.length → (L.flatMap fun _ => [(![1, 0] : Vec ℚ 2), ![1, 1]])[2 * j]? = some ![1, 0] ∧
      (L.flatMap fun _ => [(![1, 0] : Vec ℚ 2), ![1, 1]])[1 + 2 * j]? = some ![1, 1] := by
    intro L
    induction L with
    | nil => intro j h; simp at h
    | cons a L ih =>
      intro j h
      obtain _ | j := j
      · exact ⟨rfl, rfl⟩
      · have := ih j (by simpa using h)
        rw [List.flatMap_cons, show 2 * (j + 1) = (2 * j + 1) + 1 by ring, show 1 + ((2 * j + 1) + 1) = ((1 + 2 * j) + 1) + 1 by ring]
        exact this
  obtain ⟨h1, h2⟩ := key (List.range m) j (by simpa using h)
  rw [show 2 + 2 * j = (2 * j + 1) + 1 by ring, show 3 + 2 * j = ((1 + 2 * j) + 1) + 1 by ring]
  exact ⟨h1, h2⟩

theorem fan_boxes {m : Nat} : ∀ l ∈ fan m, IsBox (fanVertices m) l := by
  intro l hl
  obtain ⟨j, hj, rfl⟩ := List.mem_map.1 hl
  obtain ⟨h1, h2⟩ := fanVertices_get (List.mem_range.1 hj)
  refine ⟨![0, 0], ![1, 1], Equiv.refl _, fun q => by fin_cases q <;> decide, ?_⟩
  intro c v hc hv
  obtain ⟨a, b, rfl⟩ := List.length_eq_two.1 hc
  cases a <;> cases b
  · obtain rfl : 0 = v := Option.some.inj hv
    exact ⟨_, rfl, fun a => by fin_cases a <;> rfl⟩
  · obtain rfl : 1 = v := Option.some.inj hv
    exact ⟨_, rfl, fun a => by fin_cases a <;> rfl⟩
  · obtain rfl : 2 + 2 * j = v := Option.some.inj hv
    exact ⟨_, h1, fun a => by fin_cases a <;> rfl⟩
  · obtain rfl : 3 + 2 * j = v := Option.some.inj hv
    exact ⟨_, h2, fun a => by fin_cases a <;> rfl⟩

/-- C70: a complex of unit squares with a negative length: `m` squares around one edge, for any `m` from 128 to 255. -/
theorem C70_negative (hu : UniqSpec uniq) {m : Nat} (hm : 128 ≤ m) (hm' : m < 256) :
    ∃ t, fromCubes uniq true 2 (fan m) = .ok t ∧ (∀ l ∈ fan m, IsBox (fanVertices m) l ∧ boxMeasure (fanVertices m) l = 1) ∧
      ∃ PM DM A, regularMetric solve t (fanVertices m) = .ok (PM, DM) ∧ PM[1]? = some A ∧ ∃ x ∈ A, x < 0 := by
  obtain ⟨t, ht⟩ : ∃ t, fromCubes uniq true 2 (fan m) = .ok t := by
    obtain ⟨m, rfl⟩ : ∃ m', m = m' + 1 := ⟨m - 1, by omega⟩
    exact fan_accepted hu m
  have w := fromCubes_wf hu (fan_cubes m) ht
  refine ⟨t, ht, fun l hl => ⟨fan_boxes l hl, ?_⟩, ?_⟩
  · obtain ⟨j, hj, rfl⟩ := List.mem_map.1 hl
    obtain ⟨h1, h2⟩ := fanVertices_get (List.mem_range.1 hj)
    have hx : ∀ q, extent (fanVertices m) [0, 1, 2 + 2 * j, 3 + 2 * j] q = 1 := by
      intro q
      unfold extent
      have h3 : (fanVertices m)[0]? = some ![0, 0] := rfl
      have h4 : (fanVertices m)[1]? = some ![0, 1] := rfl
      rw [List.map_cons, List.map_cons, List.map_cons, List.map_cons, List.map_nil, h1, h2, h3, h4]
      fin_cases q <;> decide +kernel
    unfold boxMeasure
    exact Finset.prod_eq_one fun q _ => hx q
  · have hst := (stored_top w).2 (fan_get (m := m) (j := 0) (by omega))
    obtain ⟨i, e, g1, g2, -⟩ := gridFace_stored w (by omega) (le_refl 2) hst (x := [0, 1]) (by intro a ha; simp at ha; omega) rfl
    have g2 : [0, 1].Perm e := g2
    obtain ⟨E, hE⟩ : ∃ E, t.elements[1]? = some E := ⟨_, List.getElem?_eq_getElem (by have := w.lenE; omega)⟩
    have hie : E[i]? = some e := by
      have : (t.elements[1]?.getD [])[i]? = some e := g1
      rwa [hE, Option.getD_some] at this
    have hcnt : (cubesAround 2 1 (fan m) e).length = m := by
      unfold cubesAround
      rw [List.filter_eq_self.2, List.length_range, fan, List.length_map, List.length_range]
      intro j hj
      rw [List.mem_range, fan, List.length_map, List.length_range] at hj
      rw [fan_get hj, Option.getD_some, hasFace_iff (k := 1) (d := 1) (g2.length_eq.symm) rfl (by simp; omega)]
      exact ⟨[0, 1], by intro a ha; simp at ha; omega, rfl, g2⟩
    obtain ⟨PM, DM, A, x, a1, a2, a3, a4⟩ := C70_wraps hu (fan_cubes m) (by omega) ht fan_boxes (fan_oriented (solve := solve) hu (by omega) ht)
      (k := 1) (by omega) (by omega) hE hie (by omega) (by omega)
    exact ⟨PM, DM, A, a1, a2, x, List.mem_of_getElem? a3, a4⟩

end Verif.Props
