/-
C61, second part: which measures of a complex are positive, `pycomplex/complex/base.py` lines 234-258.
-/
import Verif.Props.Delaunay

set_option linter.unusedSectionVars false

namespace Verif.Props

open Verif.Model Verif.Spec Matrix

section

variable {D : Nat} {uniq : List (List Nat) → List (List Nat)}
  {solve : List (List Int) → Option (List Int)}
  {eigh : (n : Nat) → Matrix (Fin n) (Fin n) ℝ → Eigh n ℝ} {ratio : ℝ} {n : Nat}
  {simplices : List (List Nat)} {t : Topo} {V : List (Vec ℝ D)} {W : Option (List ℝ)}
  {y : Finset Nat → Nat → ℝ} {ctr : Finset Nat → Fin D → ℝ}

/-- the way from the center of a face to that of a simplex around it, one corner at a time, turns at
right angles -/
theorem power_orthogonal {w : Nat → ℝ} {R S T : Finset Nat} {a b c : Nat → ℝ} {p q r : Fin D → ℝ}
    (hR : PowerCoords V w R a p) (hS : PowerCoords V w S b q) (hT : PowerCoords V w T c r)
    (hRS : R ⊆ S) (hST : S ⊆ T) : ∑ j, (p j - q j) * (r j - q j) = 0 := by
  have h1 := equal_orthogonal (V := V) (w := w) (F := S) (c := r) (c' := q)
    (fun u hu v hv => hT.equal u (hST hu) v (hST hv)) hS.equal
  have h2 : innerProd (r - q) (p - q) = 0 := by
    refine ip_face h1 (z := fun u => (if u ∈ R then a u else 0) - b u) ?_ fun j => ?_
    · rw [Finset.sum_sub_distrib, hS.one, Finset.sum_ite_mem, Finset.inter_eq_right.2 hRS, hR.one, sub_self]
    · simp only [sub_mul, Finset.sum_sub_distrib, ite_mul, zero_mul, Pi.sub_apply]
      rw [Finset.sum_ite_mem, Finset.inter_eq_right.2 hRS, hR.point j, hS.point j]
  rw [← h2]
  simp only [innerProd, Pi.sub_apply]
  exact Finset.sum_congr rfl fun j _ => mul_comm _ _

/-- the centers on the way from a face to a simplex span a positive volume if all centers lie inside -/
theorem chain_pos {w : Nat → ℝ} {z : Finset Nat → Nat → ℝ} {pos : Finset Nat → Fin D → ℝ}
    (htop : Simplices (n + 1) simplices) (hnd : NonDegenerate V n simplices)
    (hz : PowerCenters V w simplices z pos)
    (hpos : ∀ S, SpansFace simplices S → ∀ v ∈ S, 0 < z S v) {l e v : List Nat} (hl : l ∈ simplices)
    (hp : (e ++ v).Perm l) (he : e ≠ []) : ∀ i ≤ v.length, 0 < vol (chainOfCenters pos e v i) := by
  have hface : ∀ i, SpansFace simplices (e ++ v.take i).toFinset := by
    intro i
    refine spansFace_of_subset hl (fun a ha => hp.mem_iff.1 ?_) (by simp [he])
    rcases List.mem_append.1 ha with h | h
    · exact List.mem_append_left _ h
    · exact List.mem_append_right _ (List.mem_of_mem_take h)
  have hmono : ∀ i j, i ≤ j → (e ++ v.take i).toFinset ⊆ (e ++ v.take j).toFinset := by
    intro i j hij a ha
    rw [List.mem_toFinset, List.mem_append] at ha ⊢
    exact ha.imp id fun h => List.take_subset_take_left _ hij h
  intro i
  induction i with
  | zero =>
    intro _
    simp [vol]
  | succ i ih =>
    intro hi
    have ih := ih (by omega)
    have horth := vol_orthogonal (fun r => pos (e ++ v.take r).toFinset) i 1 (by
      intro r hr s hs1 _
      exact power_orthogonal (hz _ (hface r)) (hz _ (hface i)) (hz _ (hface s)) (hmono r i hr) (hmono i s hs1))
    have hseg : 0 < vol (fun r : Fin (1 + 1) => pos (e ++ v.take (i + r)).toFinset) := by
      rw [vol_two]
      apply Real.sqrt_pos.2
      have hvi : i < v.length := by omega
      have hstep : insert v[i] (e ++ v.take i).toFinset = (e ++ v.take (i + 1)).toFinset := by
        rw [List.take_succ_eq_append_getElem hvi]
        ext u
        simp only [Finset.mem_insert, List.mem_toFinset, List.mem_append, List.mem_singleton]
        tauto
      have hnot : v[i] ∉ (e ++ v.take i).toFinset := by
        have hnd' := hp.nodup_iff.2 (htop l hl).2
        rw [List.mem_toFinset]
        intro hm
        rw [← List.take_append_drop i v, ← List.append_assoc, List.nodup_append] at hnd'
        refine hnd'.2.2 _ hm _ ?_ rfl
        rw [List.mem_iff_getElem]
        exact ⟨0, by simp; omega, by simp⟩
      obtain ⟨g, hg, hg0⟩ := hnd.height htop hnot (hface i).1 (hstep.symm ▸ hface (i + 1))
      have hz1 := hz _ (hface (i + 1))
      have hy := hpos _ (hface (i + 1)) v[i] (by rw [← hstep]; exact Finset.mem_insert_self _ _)
      rw [← hstep] at hz1 hy
      have hc := hg.center hnot hz1 (hz _ (hface i))
      simp only [Fin.val_zero, Fin.val_one, add_zero]
      rw [← hstep, hc, ip_smul_left, ip_comm g fun j => _ * g j, ip_smul_left]
      positivity
    have hpr : 0 < vol (chainOfCenters pos e v (i + 1)) * ((i + 1).factorial : ℝ) := by
      have : vol (chainOfCenters pos e v (i + 1)) * ((i + 1).factorial : ℝ) =
          (vol (chainOfCenters pos e v i) * (i.factorial : ℝ)) *
          (vol (fun r : Fin (1 + 1) => pos (e ++ v.take (i + r)).toFinset) * (Nat.factorial 1 : ℝ)) := horth
      rw [this]
      positivity
    exact (mul_pos_iff_of_pos_right (by positivity)).1 hpr

/-- C61: `is_well_centered` decides whether the (weighted) circumcenters of all elements, of every
dimension, lie strictly inside -/
theorem C61_wellcentered (h : CenterInput uniq eigh ratio n simplices t V W y ctr) :
    ∃ b, isWellCentered eigh ratio t V W = .ok b ∧
      (b = true ↔ ∀ S, SpansFace simplices S → ∀ v ∈ S, 0 < y S v) := by
  obtain ⟨hn, wf⟩ := fromSimplices_wf h.uniq_ok h.rows h.built
  unfold isWellCentered
  rw [(C61_centers h).1]
  refine ⟨_, rfl, ?_⟩
  simp only [List.all_eq_true, List.mem_map, List.mem_range, forall_exists_index, and_imp,
    forall_apply_eq_imp_iff₂, decide_eq_true_eq]
  constructor
  · rintro hall S ⟨hne, l, hl, hs⟩ v hv
    have hcard : S.card ≤ n + 1 := by
      have := Finset.card_le_card hs
      rw [List.toFinset_card_of_nodup (h.rows l hl).2, (h.rows l hl).1] at this
      exact this
    have hpos := hne.card_pos
    obtain ⟨e, he, hp⟩ := wf.hasFace h.rows (k := S.card - 1) (s := S.toList) (by omega) hl
      (List.subperm_of_subset S.nodup_toList fun a ha => List.mem_toFinset.1 (hs (Finset.mem_toList.1 ha)))
      (by rw [Finset.length_toList]; omega)
    have hS : e.toFinset = S := by rw [toFinset_perm hp, Finset.toList_toFinset]
    have := hall (S.card - 1) (by omega) e he v (by rw [← List.mem_toFinset, hS]; exact hv)
    rwa [hS] at this
  · intro hall k hk e he v hv
    obtain ⟨he1, he2, l, hl, hs⟩ := wf.element_face h.rows (by omega) he
    exact hall _ (spansFace_of_subset hl hs (List.ne_nil_of_mem hv)) v (List.mem_toFinset.2 hv)

/-- C61: a well-centered complex of at least two dimensions is pairwise Delaunay -/
theorem C61_wellcentered_delaunay (h : CenterInput uniq eigh ratio n simplices t V W y ctr) (hn : 2 ≤ n)
    (hw : isWellCentered eigh ratio t V W = .ok true) : isPairwiseDelaunay eigh ratio t V W = .ok true := by
  obtain ⟨hn1, wf⟩ := fromSimplices_wf h.uniq_ok h.rows h.built
  obtain ⟨b, hb, hiff⟩ := C61_wellcentered h
  rw [hb] at hw
  have hin := hiff.1 (Except.ok.inj hw)
  obtain ⟨X, L, hX, hL, hlen, hx⟩ := excess_sums h hn
  unfold isPairwiseDelaunay
  rw [hX]
  simp only [bind, Except.bind]
  rw [hL]
  simp only [Except.ok.injEq, List.all_eq_true, decide_eq_true_eq]
  intro z hz
  obtain ⟨x, hx1, rfl⟩ := List.getElem_of_mem hz
  have hx2 : x < (t.elements[n - 1]?.getD []).length := by rw [hlen] at hx1; exact hx1
  have h1 := hx x _ (List.getElem?_eq_getElem hx2)
  rw [List.getElem?_eq_getElem hx1] at h1
  rw [Option.some.inj h1]
  obtain ⟨he1, he2, l0, hl0, hs0⟩ := wf.element_face h.rows (Nat.sub_le n 1) (List.getElem_mem hx2)
  have he1 : ((t.elements[n - 1]?.getD [])[x]).length = n := by omega
  refine List.sum_pos _ ?_ ?_
  · intro z hz
    obtain ⟨l, hl, rfl⟩ := List.mem_map.1 hz
    obtain ⟨hl, hs⟩ := List.mem_filter.1 hl
    have hs : (t.elements[n - 1]?.getD [])[x] ⊆ l := by simpa using hs
    obtain ⟨a1, a2, am, a3, a4, g, hg, hg0⟩ := h.over hn1 hl hs he1 he2
    have hy : 0 < y l.toFinset (missing l (t.elements[n - 1]?.getD [])[x]) :=
      hin _ (spansFace_of_subset hl (List.Subset.refl l) (List.ne_nil_of_mem am)) _ (List.mem_toFinset.2 am)
    rw [signed_distance a1 a3 a4 hg, abs_of_pos hy]
    positivity
  · intro h0
    have : l0 ∈ incident simplices (t.elements[n - 1]?.getD [])[x] :=
      List.mem_filter.2 ⟨hl0, by simpa using hs0⟩
    rw [List.map_eq_nil_iff.1 h0] at this
    simp at this

/-- the dual measures are positive if the weighted circumcenters of all elements and the circumcenters
without weights of the simplices lie inside -/
theorem dual_positive {z : Finset Nat → Nat → ℝ} {pos : Finset Nat → Fin D → ℝ}
    (h : MetricInput uniq solve eigh ratio n simplices t V y ctr)
    (hW : ∀ w, W = some w → ∀ l ∈ simplices, ∀ v ∈ l, v < w.length)
    (hz : PowerCenters V (weightAt W) simplices z pos)
    (hin : ∀ l ∈ simplices, ∀ v ∈ l, 0 < y l.toFinset v)
    (hpos : ∀ S, SpansFace simplices S → ∀ v ∈ S, 0 < z S v) :
    ∃ PM DM, metric solve eigh ratio t V W = .ok (PM, DM) ∧ DM.length = n + 1 ∧
      ∀ k ≤ n, ∃ L, DM[n - k]? = some L ∧ L.length = t.nElements k ∧ ∀ x ∈ L, 0 < x := by
  obtain ⟨hn, wf⟩ := fromSimplices_wf h.uniq_ok h.rows h.built
  obtain ⟨m, rfl⟩ : ∃ m, n = m + 1 := ⟨n - 1, by omega⟩
  obtain ⟨PM, DM, hm, hd⟩ := dual_weighted h hW hz
  obtain ⟨PM', DM', hm', -, hDl, -⟩ := h.weighted_values hW hz
  rw [hm] at hm'
  obtain ⟨rfl, rfl⟩ := Prod.mk.inj (Except.ok.inj hm')
  refine ⟨PM, DM, hm, hDl, fun k hk => ?_⟩
  obtain ⟨L, hL, hlen, hx⟩ := hd k hk
  refine ⟨L, hL, hlen, fun a ha => ?_⟩
  obtain ⟨x, hx1, rfl⟩ := List.getElem_of_mem ha
  have hx3 : x < (t.elements[k]?.getD []).length := by rw [hlen] at hx1; exact hx1
  have he := List.getElem?_eq_getElem hx3
  set e := (t.elements[k]?.getD [])[x] with hedef
  obtain ⟨he1, he2, l0, hl0, hs0⟩ := wf.element_face h.rows hk (List.mem_of_getElem? he)
  obtain ⟨hA, hB⟩ := hx x _ he
  rcases Nat.eq_or_lt_of_le hk with h0 | h0
  · have := hA h0
    rw [List.getElem?_eq_getElem hx1] at this
    rw [Option.some.inj this]
    norm_num
  · obtain ⟨piece, hp, hval⟩ := hB h0
    rw [List.getElem?_eq_getElem hx1] at hval
    rw [Option.some.inj hval]
    have hne : e ≠ [] := by intro h1; rw [h1] at he1; simp at he1
    have hterm : ∀ l ∈ simplices, e ⊆ l → 0 < ((l.diff e).permutations.map fun v =>
        Real.sign (y l.toFinset (v.getLast?.getD 0)) * piece v).sum := by
      intro l hl hs
      refine List.sum_pos _ ?_ ?_
      · intro a ha
        obtain ⟨v, hv, rfl⟩ := List.mem_map.1 ha
        have hv := List.mem_permutations.1 hv
        have hw : (e ++ v).Perm l := ((List.Perm.refl e).append hv).trans (diff_append hs he2)
        have hvl : v.length = m + 1 - k := by
          have h1 := hw.length_eq
          rw [List.length_append, (h.rows l hl).1] at h1
          omega
        have hv0 : v ≠ [] := by
          intro h1
          rw [h1] at hvl
          simp at hvl
          omega
        have hmem : v.getLast?.getD 0 ∈ v := by
          rw [List.getLast?_eq_getLast_of_ne_nil hv0]
          exact List.getLast_mem hv0
        have hml : v.getLast?.getD 0 ∈ l := List.diff_subset _ _ (hv.mem_iff.1 hmem)
        rw [Real.sign_of_pos (hin l hl _ hml), one_mul]
        have h1 := hp v
        rw [volume_eq_vol (by have := h.dims; omega)] at h1
        rw [← Except.ok.inj h1]
        exact chain_pos h.rows h.nondegenerate hz hpos hl hw hne _ (by omega)
      · intro h1
        have := List.map_eq_nil_iff.1 h1
        exact List.ne_nil_of_mem (List.mem_permutations.2 (List.Perm.refl (l.diff e))) this
    refine lt_of_lt_of_le (hterm l0 hl0 hs0) ?_
    have hsingle := List.single_le_sum (l := simplices.map fun l => if e ⊆ l then
      ((l.diff e).permutations.map fun v =>
        Real.sign (y l.toFinset (v.getLast?.getD 0)) * piece v).sum else 0) (by
      intro a ha
      obtain ⟨l, hl, rfl⟩ := List.mem_map.1 ha
      split
      · next hs => exact (hterm l hl hs).le
      · exact le_refl _) _ (List.mem_map.2 ⟨l0, hl0, rfl⟩)
    rw [if_pos hs0] at hsingle
    exact hsingle

/-- C61: a complex without weights that is well-centered has a positive dual metric -/
theorem C61_wellcentered_positive (h : MetricInput uniq solve eigh ratio n simplices t V y ctr)
    (hw : isWellCentered eigh ratio t V none = .ok true) :
    positiveDualMetric solve eigh ratio t V none = .ok true := by
  obtain ⟨b, hb, hiff⟩ := C61_wellcentered h.center
  rw [hb] at hw
  have hin := hiff.1 (Except.ok.inj hw)
  obtain ⟨PM, DM, hm, hlen, hd⟩ := dual_positive h (W := none) (by simp) h.centers.power
    (fun l hl v hv => hin _ (spansFace_of_subset hl (List.Subset.refl l) (List.ne_nil_of_mem hv)) v
      (List.mem_toFinset.2 hv)) hin
  unfold positiveDualMetric
  rw [hm]
  simp only [bind, Except.bind, Except.ok.injEq, List.all_eq_true, decide_eq_true_eq]
  intro level hl x hx
  obtain ⟨i, hi, rfl⟩ := List.getElem_of_mem hl
  obtain ⟨L, hL, -, hpos⟩ := hd (n - i) (by omega)
  rw [Nat.sub_sub_self (by omega), List.getElem?_eq_getElem hi] at hL
  rw [Option.some.inj hL] at hx
  exact hpos x hx

/-- C61: the hodges of a well-centered complex without weights: the volume of every element divided by
its dual measure, and the other way round; all of them are positive -/
theorem C61_hodge (h : MetricInput uniq solve eigh ratio n simplices t V y ctr)
    (hw : isWellCentered eigh ratio t V none = .ok true) :
    ∃ M, metric solve eigh ratio t V none = .ok M ∧ (hodgePD M).length = n + 1 ∧ (hodgeDP M).length = n + 1 ∧
      ∀ k ≤ n, ∃ A B L, (hodgePD M)[k]? = some A ∧ (hodgeDP M)[k]? = some B ∧ M.2[n - k]? = some L ∧
        A.length = t.nElements k ∧ B.length = t.nElements k ∧
        ∀ (x : Nat) (e : List Nat), (t.elements[k]?.getD [])[x]? = some e →
          ∃ p d, unsignedVolume (Matrix.of (cornersOf V (k + 1) e)) = .ok p ∧ L[x]? = some d ∧ 0 < p ∧ 0 < d ∧
            A[x]? = some (p / d) ∧ B[x]? = some (d / p) := by
  obtain ⟨hn, wf⟩ := fromSimplices_wf h.uniq_ok h.rows h.built
  obtain ⟨b, hb, hiff⟩ := C61_wellcentered h.center
  rw [hb] at hw
  have hin := hiff.1 (Except.ok.inj hw)
  obtain ⟨PM, DM, hm, hlen, hd⟩ := dual_positive h (W := none) (by simp) h.centers.power
    (fun l hl v hv => hin _ (spansFace_of_subset hl (List.Subset.refl l) (List.ne_nil_of_mem hv)) v
      (List.mem_toFinset.2 hv)) hin
  obtain ⟨PM', DM', hm', hPl, -, hprim⟩ := C59_primal h
  rw [hm] at hm'
  obtain ⟨rfl, rfl⟩ := Prod.mk.inj (Except.ok.inj hm')
  refine ⟨_, hm, by simp [hodgePD, hPl, hlen], by simp [hodgeDP, hPl, hlen], fun k hk => ?_⟩
  obtain ⟨L, hL, hLl, hpos⟩ := hd k hk
  obtain ⟨P, hP, hPlen, hPx⟩ := hprim k hk (Or.inr fun S hS _ v hv => (hin S hS v hv).le)
  have hrev : DM.reverse[k]? = some L := by
    rw [List.getElem?_reverse (by omega), ← hL]
    congr 1
    omega
  have hA : (hodgePD (PM, DM))[k]? = some (List.zipWith (fun p d => p / d) P L) := by
    simp only [hodgePD, List.getElem?_zipWith, hP, hrev]
  have hB : (hodgeDP (PM, DM))[k]? = some (List.zipWith (fun p d => d / p) P L) := by
    simp only [hodgeDP, List.getElem?_zipWith, hP, hrev]
  refine ⟨_, _, L, hA, hB, hL, by simp [hPlen, hLl], by simp [hPlen, hLl], fun x e hx => ?_⟩
  obtain ⟨p, hp, hpx⟩ := hPx x e hx
  have hxl : x < L.length := by
    rw [hLl]
    exact (List.getElem?_eq_some_iff.1 hx).1
  refine ⟨p, L[x], hp, List.getElem?_eq_getElem hxl, ?_, hpos _ (List.getElem_mem hxl), ?_, ?_⟩
  · obtain ⟨he1, he2, l, hl, hs⟩ := wf.element_face h.rows hk (List.mem_of_getElem? hx)
    have h1 := (C55_unsigned_zero _ _ hp).2 (h.nondegenerate.face h.rows hl hs he2 he1)
    refine lt_of_le_of_ne ?_ (Ne.symm h1)
    rw [volume_eq_vol (by have := h.dims; omega)] at hp
    rw [← Except.ok.inj hp]
    unfold vol
    positivity
  · simp only [List.getElem?_zipWith, hpx, List.getElem?_eq_getElem hxl]
  · simp only [List.getElem?_zipWith, hpx, List.getElem?_eq_getElem hxl]

/-- C61: without weights and from two dimensions on, if no face lies in more than two simplices,
`is_pairwise_delaunay` decides whether all dual edges have positive length -/
theorem C61_dual_edges (h : MetricInput uniq solve eigh ratio n simplices t V y ctr) (hn : 2 ≤ n)
    (hman : ∀ e ∈ t.elements[n - 1]?.getD [], (incident simplices e).length ≤ 2) :
    ∃ b PM DM L, isPairwiseDelaunay eigh ratio t V none = .ok b ∧
      metric solve eigh ratio t V none = .ok (PM, DM) ∧ DM[1]? = some L ∧ (b = true ↔ ∀ x ∈ L, 0 < x) := by
  obtain ⟨hn1, wf⟩ := fromSimplices_wf h.uniq_ok h.rows h.built
  obtain ⟨X, S, hX, hS, hSlen, hSx⟩ := excess_sums h.center hn
  obtain ⟨PM, DM, hm, hd⟩ := C59_dual h
  obtain ⟨L, hL, hLlen, hLx⟩ := hd (n - 1) (Nat.sub_le _ _)
  rw [Nat.sub_sub_self (by omega)] at hL
  unfold isPairwiseDelaunay
  rw [hX]
  simp only [bind, Except.bind]
  rw [hS]
  refine ⟨_, PM, DM, L, rfl, hm, hL, ?_⟩
  simp only [List.all_eq_true, decide_eq_true_eq]
  have key : ∀ (x : Nat) (e : List Nat), (t.elements[n - 1]?.getD [])[x]? = some e →
      ∃ a b, S[x]? = some a ∧ L[x]? = some b ∧ (0 < a ↔ 0 < b) := by
    intro x e he
    obtain ⟨piece, hp, hval⟩ := (hLx x e he).2 (by omega)
    refine ⟨_, _, hSx x e he, hval, ?_⟩
    obtain ⟨he1, he2, -⟩ := wf.element_face h.rows (Nat.sub_le n 1) (List.mem_of_getElem? he)
    have he1 : e.length = n := by omega
    have hman := hman e (List.mem_of_getElem? he)
    rw [← sum_filter_real]
    change _ ↔ 0 < ((incident simplices e).map _).sum
    have hterm : ∀ l ∈ incident simplices e, ∃ s : ℝ,
        dist2 (ctr l.toFinset) (ctr e.toFinset) * Real.sign (y l.toFinset (missing l e)) = s * |s| ∧
        ((l.diff e).permutations.map fun v =>
          Real.sign (y l.toFinset (v.getLast?.getD 0)) * piece v).sum = s := by
      intro l hl
      obtain ⟨hl, hs⟩ := List.mem_filter.1 hl
      have hs : e ⊆ l := by simpa using hs
      obtain ⟨a1, a2, am, a3, a4, g, hg, hg0⟩ := h.center.over hn1 hl hs he1 he2
      obtain ⟨hdiff, -⟩ := missing_spec (h.rows l hl).1 he1 he2 hs
      refine ⟨y l.toFinset (missing l e) * Real.sqrt (innerProd g g), ?_, ?_⟩
      · rw [signed_distance a1 a3 a4 hg, abs_mul, abs_of_nonneg (Real.sqrt_nonneg _)]
        have := Real.mul_self_sqrt hg0.le
        calc _ = y l.toFinset (missing l e) * |y l.toFinset (missing l e)| *
              (Real.sqrt (innerProd g g) * Real.sqrt (innerProd g g)) := by rw [this]
          _ = _ := by ring
      · rw [hdiff]
        have hperm : [missing l e].permutations = [[missing l e]] := by
          obtain ⟨u, hu⟩ := List.length_eq_one_iff.1 (by
            rw [List.length_permutations]; rfl : [missing l e].permutations.length = 1)
          have : u ∈ [missing l e].permutations := by rw [hu]; simp
          rw [hu, List.perm_singleton.1 (List.mem_permutations.1 this)]
        rw [hperm, List.map_singleton, List.sum_singleton]
        have h1 := hp [missing l e]
        have hn2 : n - (n - 1) = 1 := by omega
        rw [hn2, volume_eq_vol (by have := h.dims; omega), vol_two] at h1
        have h2 : chainOfCenters ctr e [missing l e] 1 1 - chainOfCenters ctr e [missing l e] 1 0 =
            fun j => y l.toFinset (missing l e) * g j := by
          rw [← hg.center a1 a3 a4, ← a2]
          simp only [chainOfCenters, Fin.val_one, Fin.val_zero, List.take_zero, List.append_nil,
            List.take_succ_cons]
          congr 2
          ext u
          simp
        rw [h2, ip_smul_left, ip_comm g fun j => _ * g j, ip_smul_left] at h1
        rw [← Except.ok.inj h1, ← mul_assoc, Real.sqrt_mul (mul_self_nonneg _), Real.sqrt_mul_self_eq_abs,
          ← mul_assoc]
        congr 1
        simp only [List.getLast?_singleton, Option.getD_some]
        rcases lt_trichotomy (y l.toFinset (missing l e)) 0 with h0 | h0 | h0
        · rw [Real.sign_of_neg h0, abs_of_neg h0]
          ring
        · rw [h0]
          simp
        · rw [Real.sign_of_pos h0, abs_of_pos h0, one_mul]
    generalize incident simplices e = I at hman hterm ⊢
    match I, hman, hterm with
    | [], _, _ => simp
    | [l], _, hterm =>
      obtain ⟨s, h1, h2⟩ := hterm l (by simp)
      simp only [List.map_cons, List.map_nil, List.sum_cons, List.sum_nil, add_zero]
      rw [h1, h2]
      exact signed_square_pos
    | [l, l'], _, hterm =>
      obtain ⟨s, h1, h2⟩ := hterm l (by simp)
      obtain ⟨s', h1', h2'⟩ := hterm l' (by simp)
      simp only [List.map_cons, List.map_nil, List.sum_cons, List.sum_nil, add_zero]
      rw [h1, h2, h1', h2']
      exact signed_square_add
  constructor
  · intro hall a ha
    obtain ⟨x, hx1, rfl⟩ := List.getElem_of_mem ha
    have hx2 : x < (t.elements[n - 1]?.getD []).length := by rw [hLlen] at hx1; exact hx1
    obtain ⟨a, b, h1, h2, h3⟩ := key x _ (List.getElem?_eq_getElem hx2)
    rw [List.getElem?_eq_getElem hx1] at h2
    rw [Option.some.inj h2]
    exact h3.1 (hall _ (List.mem_of_getElem? h1))
  · intro hall a ha
    obtain ⟨x, hx1, rfl⟩ := List.getElem_of_mem ha
    have hx2 : x < (t.elements[n - 1]?.getD []).length := by rw [hSlen] at hx1; exact hx1
    obtain ⟨a, b, h1, h2, h3⟩ := key x _ (List.getElem?_eq_getElem hx2)
    rw [List.getElem?_eq_getElem hx1] at h1
    rw [Option.some.inj h1]
    exact h3.2 (hall _ (List.mem_of_getElem? h2))

/-- C61: every complex without degenerate simplices, weighted or not, meets the hypotheses for some
eigensolver and tolerance -/
theorem C61_applies (hu : UniqSpec uniq) (hs : Simplices (n + 1) simplices)
    (hb : fromSimplices uniq (n + 1) simplices = .ok t) (hne : simplices ≠ [])
    (hv : ∀ l ∈ simplices, ∀ v ∈ l, v < V.length)
    (hW : ∀ w, W = some w → ∀ l ∈ simplices, ∀ v ∈ l, v < w.length) (hnd : NonDegenerate V n simplices) :
    ∃ eigh ratio y ctr, CenterInput uniq eigh ratio n simplices t V W y ctr := by
  obtain ⟨y, ctr, hc⟩ := exists_power_centers hnd hs (weightAt W)
  obtain ⟨r, hr⟩ := exists_tolerance V t.elements n
  choose eigh he using exists_eigh_function
  exact ⟨eigh, r, y, ctr, hu, hs, hb, hne, hv, hW, he, (hr r (le_refl r)).level, hnd, hc⟩

end

/-! ### Instances -/

/-- two acute triangles -/
def acuteCorners : List (Vec ℝ 2) := [![0, 0], ![2, 0], ![1, 2], ![3, 2]]

theorem acuteCorners_nondegenerate : NonDegenerate acuteCorners 2 [[0, 1, 2], [1, 3, 2]] := by
  intro l hl
  apply affineIndependent_of
  intro w h1 h2
  have a := h2 0
  have b := h2 1
  simp only [List.mem_cons, List.not_mem_nil, or_false] at hl
  rcases hl with rfl | rfl <;>
  · simp [Fin.sum_univ_three, cornersOf, position, acuteCorners] at h1 a b
    intro i
    fin_cases i <;> simp <;> linarith

/-- two acute triangles meet all hypotheses, and their complex is well-centered -/
theorem C61_acute : ∃ (solve : List (List Int) → Option (List Int)) (t : Topo)
    (eigh : (n : Nat) → Matrix (Fin n) (Fin n) ℝ → Eigh n ℝ) (ratio : ℝ) (y : Finset Nat → Nat → ℝ)
    (ctr : Finset Nat → Fin 2 → ℝ),
    SatSpec solve ∧ MetricInput List.dedup solve eigh ratio 2 [[0, 1, 2], [1, 3, 2]] t acuteCorners y ctr ∧
    (∀ e ∈ t.elements[1]?.getD [], (incident [[0, 1, 2], [1, 3, 2]] e).length ≤ 2) ∧
    (∀ e ∈ t.elements[1]?.getD [], ∀ l l', incident [[0, 1, 2], [1, 3, 2]] e = [l, l'] →
      OppositeSide acuteCorners e.toFinset (position acuteCorners (missing l e))
        (position acuteCorners (missing l' e))) ∧
    (∃ e ∈ t.elements[1]?.getD [], (incident [[0, 1, 2], [1, 3, 2]] e).length = 2) ∧
    isWellCentered eigh ratio t acuteCorners none = .ok true := by
  have hs : Simplices 3 [[0, 1, 2], [1, 3, 2]] := simplices_of_all (by decide)
  have hf : fromSimplices List.dedup 3 [[0, 1, 2], [1, 3, 2]] =
    .ok (built 3 [[0, 1, 2], [1, 3, 2]]) := by decide +kernel
  have hco : Coherent [[0, 1, 2], [1, 3, 2]] := by
    rw [← reorient_false [[0, 1, 2], [1, 3, 2]],
      ← (wf_built hs hf).satisfies_iff_coherent hs (fun _ => false)]
    decide +kernel
  obtain ⟨solve, hsat, ho⟩ := C08_coherent_some_solver uniqSpec_dedup hs hf (by simp) hco
  obtain ⟨eigh, ratio, y, ctr, h⟩ := C59_applies (V := acuteCorners) uniqSpec_dedup hs hf (by simp) ho
    (Nat.le_refl 2) (by decide) acuteCorners_nondegenerate
  have hel : (built 3 [[0, 1, 2], [1, 3, 2]]).elements[1]?.getD [] = [[2, 0], [0, 1], [3, 2], [1, 2], [1, 3]] := by
    decide +kernel
  refine ⟨solve, _, eigh, ratio, y, ctr, hsat, h, ?_, ?_, ?_, ?_⟩
  · rw [hel]
    decide
  · rw [hel]
    intro e he l l' hi
    simp only [List.mem_cons, List.not_mem_nil, or_false] at he
    have key : e = [1, 2] ∧ l = [0, 1, 2] ∧ l' = [1, 3, 2] := by
      rcases he with rfl | rfl | rfl | rfl | rfl <;> simp [incident] at hi ⊢
      exact ⟨hi.1.symm, hi.2.symm⟩
    obtain ⟨rfl, rfl, rfl⟩ := key
    refine ⟨fun _ => 1, -1, by norm_num, ?_, fun j => ?_⟩
    · simp
      norm_num
    · rw [show missing [0, 1, 2] [1, 2] = 0 from rfl, show missing [1, 3, 2] [1, 2] = 3 from rfl]
      simp only [List.toFinset_cons, List.toFinset_nil, insert_empty_eq]
      rw [Finset.sum_pair (by decide)]
      fin_cases j
      · simp [position, acuteCorners]
        norm_num
      · simp [position, acuteCorners]
  · rw [hel]
    decide
  · obtain ⟨b, hb, hiff⟩ := C61_wellcentered h.center
    rw [hb]
    congr 1
    rw [hiff]
    intro S hS v hv
    have hcc := h.centers S hS
    obtain ⟨h0, l, hl, hsub⟩ := hS
    have hcard : S.card ≤ 3 := by
      have := Finset.card_le_card hsub
      rw [List.toFinset_card_of_nodup (hs l hl).2, (hs l hl).1] at this
      exact this
    have hcases : S.card = 1 ∨ S.card = 2 ∨ S.card = 3 := by
      have := h0.card_pos
      omega
    rcases hcases with h1 | h1 | h1
    · obtain ⟨a, rfl⟩ := Finset.card_eq_one.1 h1
      have := hcc.one
      rw [Finset.sum_singleton] at this
      rw [Finset.mem_singleton] at hv
      rw [hv, this]
      norm_num
    · obtain ⟨a, b, hab, rfl⟩ := Finset.card_eq_two.1 h1
      have ha : a ∈ l := List.mem_toFinset.1 (hsub (by simp))
      have hb : b ∈ l := List.mem_toFinset.1 (hsub (by simp))
      obtain ⟨e1, e2⟩ := hcc.edge hab (position_ne h.nondegenerate hs hl ha hb hab)
      rw [Finset.mem_insert, Finset.mem_singleton] at hv
      rcases hv with rfl | rfl
      · rw [e1]; norm_num
      · rw [e2]; norm_num
    · have hSl : S = l.toFinset := by
        refine Finset.eq_of_subset_of_card_le hsub ?_
        rw [List.toFinset_card_of_nodup (hs l hl).2, (hs l hl).1, h1]
      subst hSl
      have h2 := hcc.one
      have h3 := hcc.point 0
      have h4 := hcc.point 1
      rw [List.sum_toFinset _ (hs l hl).2] at h2 h3 h4
      simp only [List.mem_cons, List.not_mem_nil, or_false] at hl
      rcases hl with rfl | rfl
      · have h5 := hcc.equidistant 0 (by simp) 1 (by simp)
        have h6 := hcc.equidistant 0 (by simp) 2 (by simp)
        have hv : v = 0 ∨ v = 1 ∨ v = 2 := by simpa using hv
        generalize [0, 1, 2].toFinset = T at h2 h3 h4 h5 h6 ⊢
        simp [dist2, position, acuteCorners] at h2 h3 h4 h5 h6
        have h7 : ctr T 0 = 1 := by linarith
        have h8 : ctr T 1 = 3 / 4 := by rw [h7] at h6; linarith
        rcases hv with rfl | rfl | rfl <;> linarith
      · have h5 := hcc.equidistant 1 (by simp) 3 (by simp)
        have h6 := hcc.equidistant 1 (by simp) 2 (by simp)
        have hv : v = 1 ∨ v = 3 ∨ v = 2 := by simpa using hv
        generalize [1, 3, 2].toFinset = T at h2 h3 h4 h5 h6 ⊢
        simp [dist2, position, acuteCorners] at h2 h3 h4 h5 h6
        have h7 : ctr T 0 = 2 := by linarith
        have h8 : ctr T 1 = 5 / 4 := by rw [h7] at h6; linarith
        rcases hv with rfl | rfl | rfl <;> linarith

/-- three points on a line -/
def lineCorners : List (Vec ℝ 1) := [![0], ![1], ![2]]

theorem lineCorners_nondegenerate : NonDegenerate lineCorners 1 [[0, 1], [1, 2]] := by
  intro l hl
  apply affineIndependent_of
  intro w h1 h2
  have a := h2 0
  simp only [List.mem_cons, List.not_mem_nil, or_false] at hl
  rcases hl with rfl | rfl <;>
  · simp [Fin.sum_univ_two, cornersOf, position, lineCorners] at h1 a
    intro i
    fin_cases i <;> simp <;> linarith

/-- the weights of the three points -/
noncomputable def lineWeights : List ℝ := [2, 1 / 2, 0]

theorem line_centers {y : Finset Nat → Nat → ℝ} {ctr : Finset Nat → Fin 1 → ℝ}
    (h : PowerCenters lineCorners (weightAt (some lineWeights)) [[0, 1], [1, 2]] y ctr) :
    (ctr {0, 1} 0 = 5 / 4 ∧ y {0, 1} 0 = -1 / 4 ∧ y {0, 1} 1 = 5 / 4) ∧
    (ctr {1, 2} 0 = 7 / 4 ∧ y {1, 2} 1 = 1 / 4 ∧ y {1, 2} 2 = 3 / 4) ∧
    ctr {0} 0 = 0 ∧ ctr {1} 0 = 1 ∧ ctr {2} 0 = 2 := by
  have h01 := h {0, 1} ⟨by simp, [0, 1], by simp, by simp⟩
  have h12 := h {1, 2} ⟨by simp, [1, 2], by simp, by simp⟩
  have h0 := h {0} ⟨by simp, [0, 1], by simp, by simp⟩
  have h1 := h {1} ⟨by simp, [0, 1], by simp, by simp⟩
  have h2 := h {2} ⟨by simp, [1, 2], by simp, by simp⟩
  have a1 := h01.one
  have a2 := h01.point 0
  have a3 := h01.equal 0 (by simp) 1 (by simp)
  have b1 := h12.one
  have b2 := h12.point 0
  have b3 := h12.equal 1 (by simp) 2 (by simp)
  have c1 := h0.one
  have c2 := h0.point 0
  have d1 := h1.one
  have d2 := h1.point 0
  have e1 := h2.one
  have e2 := h2.point 0
  rw [Finset.sum_pair (by decide)] at a1 a2 b1 b2
  rw [Finset.sum_singleton] at c1 c2 d1 d2 e1 e2
  simp [position, lineCorners, weightAt, lineWeights, power] at a1 a2 a3 b1 b2 b3 c1 c2 d1 d2 e1 e2
  refine ⟨⟨?_, ?_, ?_⟩, ⟨?_, ?_, ?_⟩, ?_, ?_, ?_⟩ <;> linarith

/-- C61 fails in one dimension: three points with weights, whose vertices between two edges, and at the
ends, meet the condition of C61, and whose dual measures are all positive; they are not pairwise Delaunay
according to the code.  Moreover the measures are not those of the weighted cells: the measure of the
first edge, of length one, is 3/2, and the dual measures add up to 5/2 for a line of length two. -/
theorem C61_line : ∃ (solve : List (List Int) → Option (List Int)) (t : Topo)
    (eigh : (n : Nat) → Matrix (Fin n) (Fin n) ℝ → Eigh n ℝ) (ratio : ℝ) (z : Finset Nat → Nat → ℝ)
    (pos : Finset Nat → Fin 1 → ℝ),
    CenterInput List.dedup eigh ratio 1 [[0, 1], [1, 2]] t lineCorners (some lineWeights) z pos ∧
    (∀ e ∈ t.elements[0]?.getD [],
      (∀ l, incident [[0, 1], [1, 2]] e = [l] → 0 < z l.toFinset (missing l e)) ∧
      (∀ l l', incident [[0, 1], [1, 2]] e = [l, l'] → ∀ u ∈ e,
        power (pos l.toFinset) (position lineCorners u) (weightAt (some lineWeights) u) <
          power (pos l.toFinset) (position lineCorners (missing l' e))
            (weightAt (some lineWeights) (missing l' e)))) ∧
    isPairwiseDelaunay eigh ratio t lineCorners (some lineWeights) = .ok false ∧
    positiveDualMetric solve eigh ratio t lineCorners (some lineWeights) = .ok true ∧
    ∃ PM DM, metric solve eigh ratio t lineCorners (some lineWeights) = .ok (PM, DM) ∧
      DM = [[1, 1], [5 / 4, 1, 1 / 4]] ∧ (PM[1]?.getD []).sum = 5 / 2 := by
  have hs : Simplices 2 [[0, 1], [1, 2]] := simplices_of_all (by decide)
  have hf : fromSimplices List.dedup 2 [[0, 1], [1, 2]] = .ok (built 2 [[0, 1], [1, 2]]) := by decide +kernel
  have hco : Coherent [[0, 1], [1, 2]] := by
    rw [← reorient_false [[0, 1], [1, 2]],
      ← (fromSimplices_wf uniqSpec_dedup hs hf).2.satisfies_iff_coherent hs (fun _ => false)]
    decide +kernel
  obtain ⟨solve, -, ho⟩ := C08_coherent_some_solver uniqSpec_dedup hs hf (by simp) hco
  obtain ⟨eigh, ratio, y, ctr, h⟩ := C59_applies (V := lineCorners) uniqSpec_dedup hs hf (by simp) ho
    (Nat.le_refl 1) (by decide) lineCorners_nondegenerate
  obtain ⟨z, pos, hz⟩ := exists_power_centers lineCorners_nondegenerate hs (weightAt (some lineWeights))
  have hW : ∀ w, some lineWeights = some w → ∀ l ∈ [[0, 1], [1, 2]], ∀ v ∈ l, v < w.length := by
    intro w hw
    rw [← Option.some.inj hw, show lineWeights.length = 3 from rfl]
    decide
  have hci : CenterInput List.dedup eigh ratio 1 [[0, 1], [1, 2]] (built 2 [[0, 1], [1, 2]]) lineCorners
      (some lineWeights) z pos :=
    ⟨uniqSpec_dedup, hs, hf, by simp, h.vertices, hW, h.eigh_ok, h.tolerance.level, h.nondegenerate, hz⟩
  obtain ⟨⟨p1, p2, p3⟩, ⟨q1, q2, q3⟩, r0, r1, r2⟩ := line_centers hz
  have hel : (built 2 [[0, 1], [1, 2]]).elements[0]?.getD [] = [[0], [1], [2]] := by decide +kernel
  have hde : positiveDualMetric solve eigh ratio (built 2 [[0, 1], [1, 2]]) lineCorners (some lineWeights) = .ok true ∧
      ∃ PM DM, metric solve eigh ratio (built 2 [[0, 1], [1, 2]]) lineCorners (some lineWeights) = .ok (PM, DM) ∧
      DM = [[1, 1], [5 / 4, 1, 1 / 4]] ∧ (PM[1]?.getD []).sum = 5 / 2 := by
    obtain ⟨PM, DM, hm, hd⟩ := dual_weighted h hW hz
    obtain ⟨PM', DM', hm', -, hDl, -, -, -, hD0, -, htot⟩ := h.weighted_values (m := 0) hW hz
    rw [hm] at hm'
    obtain ⟨rfl, rfl⟩ := Prod.mk.inj (Except.ok.inj hm')
    obtain ⟨L, hL, hlen, hx⟩ := hd 0 (by omega)
    have hDM : DM = [[1, 1], L] := by
      apply List.ext_getElem?
      intro i
      match i with
      | 0 =>
        rw [hD0]
        rfl
      | 1 => exact hL
      | k + 2 =>
        rw [List.getElem?_eq_none (by omega)]
        rfl
    have hsign : ∀ a b : Nat, a ≠ b → SpansFace [[0, 1], [1, 2]] {a, b} →
        position lineCorners a ≠ position lineCorners b → Real.sign (y {a, b} b) = 1 := by
      intro a b hab hS hp
      rw [((h.centers _ hS).edge hab hp).2]
      exact Real.sign_of_pos (by norm_num)
    have hne : ∀ a b : Nat, a < 3 → b < 3 → a ≠ b → position lineCorners a ≠ position lineCorners b := by
      intro a b ha hb hab h0
      have := congrFun h0 0
      interval_cases a <;> interval_cases b <;> simp [position, lineCorners] at this hab
    have s01 := hsign 0 1 (by decide) ⟨by simp, [0, 1], by simp, by simp⟩ (hne 0 1 (by omega) (by omega) (by omega))
    have s10 := hsign 1 0 (by decide) ⟨by simp, [0, 1], by simp, by decide⟩ (hne 1 0 (by omega) (by omega) (by omega))
    have s12 := hsign 1 2 (by decide) ⟨by simp, [1, 2], by simp, by simp⟩ (hne 1 2 (by omega) (by omega) (by omega))
    have s21 := hsign 2 1 (by decide) ⟨by simp, [1, 2], by simp, by decide⟩ (hne 2 1 (by omega) (by omega) (by omega))
    have hlen3 : L.length = 3 := by
      rw [hlen]
      decide +kernel
    have hpiece : ∀ a b : Nat, vol (chainOfCenters pos [a] [b] 1) = |pos {a, b} 0 - pos {a} 0| := by
      intro a b
      rw [vol_two]
      simp only [chainOfCenters, Fin.val_one, Fin.val_zero, List.take_zero, List.append_nil,
        List.take_succ_cons, innerProd, Fin.sum_univ_one, Pi.sub_apply]
      rw [Real.sqrt_mul_self_eq_abs, show ([a] ++ [b]).toFinset = {a, b} by simp,
        show [a].toFinset = {a} by simp]
    have hperm : ∀ a : Nat, [a].permutations = [[a]] := by
      intro a
      obtain ⟨u, hu⟩ := List.length_eq_one_iff.1 (by
        rw [List.length_permutations]; rfl : [a].permutations.length = 1)
      have : u ∈ [a].permutations := by rw [hu]; simp
      rw [hu, List.perm_singleton.1 (List.mem_permutations.1 this)]
    have hL : L = [5 / 4, 1, 1 / 4] := by
      have hval : ∀ (x : Nat) (e : List Nat), [[0], [1], [2]][x]? = some e → L[x]? = some ([[0, 1], [1, 2]].map fun l =>
          if e ⊆ l then ((l.diff e).permutations.map fun v =>
            Real.sign (y l.toFinset (v.getLast?.getD 0)) * vol (chainOfCenters pos e v 1)).sum else 0).sum := by
        intro x e hxe
        rw [← hel] at hxe
        obtain ⟨piece, hp, hLx⟩ := (hx x e hxe).2 (by omega)
        rw [hLx]
        have : piece = fun v => vol (chainOfCenters pos e v 1) := by
          funext v
          have h1 := hp v
          rw [volume_eq_vol (by omega)] at h1
          exact (Except.ok.inj h1).symm
        rw [this]
      have v0 := hval 0 [0] rfl
      have v1 := hval 1 [1] rfl
      have v2 := hval 2 [2] rfl
      have d1 : [0, 1].diff [0] = [1] := by decide
      have d2 : [0, 1].diff [1] = [0] := by decide
      have d3 : [1, 2].diff [1] = [2] := by decide
      have d4 : [1, 2].diff [2] = [1] := by decide
      have i1 : ¬ [0] ⊆ [1, 2] := by decide
      have i2 : ¬ [2] ⊆ [0, 1] := by decide
      have i3 : [0] ⊆ [0, 1] := by decide
      have i4 : [1] ⊆ [0, 1] := by decide
      have i5 : [1] ⊆ [1, 2] := by decide
      have i6 : [2] ⊆ [1, 2] := by decide
      have f1 : [0, 1].toFinset = {0, 1} := rfl
      have f2 : [1, 2].toFinset = {1, 2} := rfl
      have c1 : ({1, 0} : Finset Nat) = {0, 1} := by decide
      have c2 : ({2, 1} : Finset Nat) = {1, 2} := by decide
      rw [c1] at s10
      rw [c2] at s21
      simp only [List.map_cons, List.map_nil, List.sum_cons, List.sum_nil, if_pos i3, if_neg i1, d1, hperm,
        f1, f2, hpiece, List.getLast?_singleton, Option.getD_some, s01, p1, r0] at v0
      simp only [List.map_cons, List.map_nil, List.sum_cons, List.sum_nil, if_pos i4, if_pos i5, d2, d3, hperm,
        f1, f2, c1, hpiece, List.getLast?_singleton, Option.getD_some, s10, s12, p1, q1, r1] at v1
      simp only [List.map_cons, List.map_nil, List.sum_cons, List.sum_nil, if_neg i2, if_pos i6, d4, hperm,
        f1, f2, c2, hpiece, List.getLast?_singleton, Option.getD_some, s21, q1, r2] at v2
      apply List.ext_getElem?
      intro i
      match i with
      | 0 =>
        rw [v0]
        norm_num
      | 1 =>
        rw [v1]
        norm_num [abs_of_pos]
      | 2 =>
        rw [v2]
        norm_num [abs_of_neg]
      | k + 3 =>
        rw [List.getElem?_eq_none (by omega)]
        rfl
    subst hL
    refine ⟨?_, PM, DM, hm, hDM, ?_⟩
    · unfold positiveDualMetric
      rw [hm, hDM]
      simp only [bind, Except.bind]
      norm_num
    · rw [Nat.zero_add] at htot
      rw [htot, hDM]
      norm_num
  refine ⟨solve, _, eigh, ratio, z, pos, hci, ?_, ?_, hde⟩
  · rw [hel]
    intro e he
    simp only [List.mem_cons, List.not_mem_nil, or_false] at he
    rcases he with rfl | rfl | rfl
    · refine ⟨fun l hl => ?_, fun l l' hl => ?_⟩
      · have : l = [0, 1] := by simpa [incident, eq_comm] using hl
        subst this
        rw [show missing [0, 1] [0] = 1 from rfl, show [0, 1].toFinset = {0, 1} from rfl, p3]
        norm_num
      · simp [incident] at hl
    · refine ⟨fun l hl => ?_, fun l l' hl u hu => ?_⟩
      · simp [incident] at hl
      · have : l = [0, 1] ∧ l' = [1, 2] := by simpa [incident, eq_comm] using hl
        obtain ⟨rfl, rfl⟩ := this
        obtain rfl : u = 1 := by simpa using hu
        rw [show missing [1, 2] [1] = 2 from rfl, show [0, 1].toFinset = {0, 1} from rfl]
        simp [power, position, lineCorners, weightAt, lineWeights, p1]
        norm_num
    · refine ⟨fun l hl => ?_, fun l l' hl => ?_⟩
      · have : l = [1, 2] := by simpa [incident, eq_comm] using hl
        subst this
        rw [show missing [1, 2] [2] = 1 from rfl, show [1, 2].toFinset = {1, 2} from rfl, q2]
        norm_num
      · simp [incident] at hl
  · unfold isPairwiseDelaunay
    have hX := C61_excess hci true
    obtain ⟨L, hL, hlen, hx⟩ := C61_remap hci.uniq_ok hci.rows hci.built false (fun j c =>
      dist2 (pos ([[0, 1], [1, 2]][j]?.getD []).toFinset)
        (pos (([[0, 1], [1, 2]][j]?.getD []).eraseIdx (oppositeCorner (1 - 1) c)).toFinset) *
          Real.sign (z ([[0, 1], [1, 2]][j]?.getD []).toFinset (([[0, 1], [1, 2]][j]?.getD [])[c]?.getD 0)))
    simp only [if_true] at hX
    rw [hX]
    simp only [bind, Except.bind]
    have hL : remapBoundaryN (built 2 [[0, 1], [1, 2]]) ([[0, 1], [1, 2]].map fun l => (List.range (1 + 1)).map
        fun c => dist2 (pos l.toFinset) (pos (l.eraseIdx (oppositeCorner (1 - 1) c)).toFinset) *
          Real.sign (z l.toFinset (l[c]?.getD 0))) false = .ok L := hL
    rw [hL]
    have h0 := hx 0 [0] (by rw [hel]; rfl)
    have h1 : L[0]? = some (-25 / 16 : ℝ) := by
      rw [h0]
      have o0 : oppositeCorner 0 0 = 1 := rfl
      have o1 : oppositeCorner 0 1 = 0 := rfl
      have f1 : [0, 1].toFinset = {0, 1} := rfl
      have f2 : [0].toFinset = {0} := rfl
      have g1 : Real.sign (-1 / 4) = -1 := Real.sign_of_neg (by norm_num)
      simp [List.range_succ, o0, o1, f1, f2, dist2, p1, p2, r0, g1]
      norm_num
    simp only [Except.ok.injEq, List.all_eq_false, decide_eq_true_eq]
    exact ⟨_, List.mem_of_getElem? h1, by norm_num⟩

end Verif.Props
