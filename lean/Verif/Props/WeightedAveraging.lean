/-
C88: weighted averages of dual 0-forms.
-/
import Verif.Lemmas.WeightedAveraging

set_option linter.unusedSectionVars false

namespace Verif.Props

open Verif Verif.Model Verif.Spec

section

variable {D : Nat} {uniq : List (List Nat) → List (List Nat)}
  {solve : List (List Int) → Option (List Int)}
  {eigh : (n : Nat) → Matrix (Fin n) (Fin n) ℝ → Eigh n ℝ} {ratio : ℝ} {n m N : Nat} {nb : Nat → Nat}
  {simplices : List (List Nat)} {t : Topo} {V : List (Vec ℝ D)} {W : Option (List ℝ)}
  {y : Finset Nat → Nat → ℝ} {ctr : Finset Nat → Fin D → ℝ} {ms : List (Mat Int)} {L : List (Mat ℝ)}

/-- the distance between the centers of two faces is positive if they lie inside -/
theorem center_step (h : CenterInput uniq eigh ratio n simplices t V W y ctr)
    (hwc : ∀ S, SpansFace simplices S → ∀ v ∈ S, 0 < y S v) {l e v : List Nat} (hl : l ∈ simplices)
    (hp : (e ++ v).Perm l) (he : e ≠ []) (hv : 1 ≤ v.length) :
    0 < distance (ctr e.toFinset) (ctr (e ++ v.take 1).toFinset) := by
  have h1 := chain_pos h.rows h.nondegenerate h.centers hwc hl hp he 1 hv
  have h2 := vol_pair (ctr e.toFinset) (ctr (e ++ v.take 1).toFinset)
    (fun r => ctr (e ++ v.take r).toFinset) (by simp) rfl
  unfold chainOfCenters at h1
  rwa [h2] at h1

theorem wayWeight_pos (h : CenterInput uniq eigh ratio n simplices t V W y ctr)
    (hwc : ∀ S, SpansFace simplices S → ∀ v ∈ S, 0 < y S v) {l e v : List Nat} (hl : l ∈ simplices)
    (hp : (e ++ v).Perm l) (he : e ≠ []) {i : Nat} (hi : v.length = i + 1) : 0 < wayWeight ctr i e v := by
  have hface : ∀ r, SpansFace simplices (e ++ v.take r).toFinset := by
    intro r
    refine spansFace_of_subset hl (fun a ha => hp.mem_iff.1 ?_) (by simp [he])
    rcases List.mem_append.1 ha with h | h
    · exact List.mem_append_left _ h
    · exact List.mem_append_right _ (List.mem_of_mem_take h)
  have hmono : ∀ a b, a ≤ b → (e ++ v.take a).toFinset ⊆ (e ++ v.take b).toFinset := by
    intro a b hab z hz
    rw [List.mem_toFinset, List.mem_append] at hz ⊢
    exact hz.imp id fun h => List.take_subset_take_left _ hab h
  have hstep : ∀ r < i + 1, 0 < distance (ctr (e ++ v.take r).toFinset) (ctr (e ++ v.take (r + 1)).toFinset) := by
    intro r hr
    have := center_step h hwc (e := e ++ v.take r) (v := v.drop r) hl
      (by rw [List.append_assoc, List.take_append_drop]; exact hp) (by simp [he]) (by rw [List.length_drop]; omega)
    rwa [List.append_assoc, ← List.take_add] at this
  unfold wayWeight
  apply div_pos
  · apply List.prod_pos
    intro a ha
    obtain ⟨r, hr, rfl⟩ := List.mem_map.1 ha
    have := List.mem_range.1 hr
    exact hstep (r + 1) (by omega)
  · apply List.prod_pos
    intro a ha
    obtain ⟨r, hr, rfl⟩ := List.mem_map.1 ha
    have hr := List.mem_range.1 hr
    have h0 := hstep 0 (by omega)
    simp only [List.take_zero, List.append_nil, zero_add] at h0
    have h1 := power_orthogonal (h.centers _ (hface 0)) (h.centers _ (hface 1)) (h.centers _ (hface (r + 1)))
      (hmono _ _ (by omega)) (hmono _ _ (by omega))
    simp only [List.take_zero, List.append_nil] at h1
    refine lt_of_lt_of_le h0 (Real.sqrt_le_sqrt ?_)
    have h2 : dist2 (ctr e.toFinset) (ctr (e ++ v.take (r + 1)).toFinset) =
        dist2 (ctr e.toFinset) (ctr (e ++ v.take 1).toFinset) +
        dist2 (ctr (e ++ v.take (r + 1)).toFinset) (ctr (e ++ v.take 1).toFinset) -
        2 * ∑ j, (ctr e.toFinset j - ctr (e ++ v.take 1).toFinset j) *
          (ctr (e ++ v.take (r + 1)).toFinset j - ctr (e ++ v.take 1).toFinset j) := by
      unfold dist2
      rw [Finset.mul_sum, ← Finset.sum_add_distrib, ← Finset.sum_sub_distrib]
      refine Finset.sum_congr rfl fun c _ => ?_
      ring
    have h3 : 0 ≤ dist2 (ctr (e ++ v.take (r + 1)).toFinset) (ctr (e ++ v.take 1).toFinset) :=
      Finset.sum_nonneg fun c _ => sq_nonneg _
    rw [h2, h1]
    linarith

/-- C88: on a well-centered mesh the simplices around an element all have positive weight -/
theorem C88_positive (h : CenterInput uniq eigh ratio n simplices t V W y ctr)
    (hwc : isWellCentered eigh ratio t V W = .ok true) {l e : List Nat} (hl : l ∈ simplices) (hs : e ⊆ l) (he : e.Nodup)
    (hne : e ≠ []) {i : Nat} (hi : e.length + (i + 1) = n + 1) : 0 < cellWeight ctr i e l := by
  obtain ⟨b, hb, hiff⟩ := C61_wellcentered h
  rw [hwc] at hb
  have hpos := hiff.1 (Except.ok.inj hb).symm
  have hpd := diff_append hs he
  have hlen : (l.diff e).length = i + 1 := by
    have := hpd.length_eq
    rw [List.length_append, (h.rows l hl).1] at this
    omega
  unfold cellWeight
  apply List.sum_pos
  · intro a ha
    obtain ⟨v, hv, rfl⟩ := List.mem_map.1 ha
    have hv := List.mem_permutations.1 hv
    exact wayWeight_pos h hpos hl (((List.Perm.refl e).append hv).trans hpd) hne (hv.length_eq.trans hlen)
  · intro h0
    have := congrArg List.length h0
    rw [List.length_map, List.length_permutations] at this
    exact Nat.factorial_ne_zero _ this

theorem sum_incident (e : List Nat) {M : Nat} (hM : simplices.length ≤ M) (f : Nat → ℝ) :
    ((List.range M).map fun j => if j ∈ Spec.incident simplices e then f j else 0).sum =
      ((Spec.incident simplices e).map f).sum := by
  have h1 : ∀ K : List Nat, (K.map fun j => if j ∈ Spec.incident simplices e then f j else 0).sum =
      ((K.filter fun j => j ∈ Spec.incident simplices e).map f).sum := by
    intro K
    induction K with
    | nil => rfl
    | cons a K ih =>
      rw [List.map_cons, List.sum_cons, ih, List.filter_cons]
      by_cases ha : a ∈ Spec.incident simplices e <;> simp [ha]
  rw [h1]
  apply List.Perm.sum_eq
  apply List.Perm.map
  rw [List.perm_ext_iff_of_nodup (List.nodup_range.filter _) (incident_nodup e)]
  intro j
  simp only [List.mem_filter, List.mem_range, decide_eq_true_eq]
  exact ⟨fun h => h.2, fun h => ⟨by have := incident_lt h; omega, h⟩⟩

/-- the entries of the weighted operators -/
theorem weighted_operators (h : CenterInput uniq eigh ratio (m + 1) simplices t V W y ctr) (hD : m + 1 ≤ D)
    (hor : isOriented solve t = .ok true) (hwc : isWellCentered eigh ratio t V W = .ok true)
    (hms : simplicialDual solve uniq t = .ok ms) (hL : averagingOperators0 ms = .ok L)
    (hE : EvenRows simplices t (m + 1) N nb L) (hN : simplices.length ≤ N) :
    ∃ R, weightedAverageOperators solve uniq eigh ratio t V W = .ok R ∧ R.length = m + 1 ∧
      ∀ i k, i + 1 + k = m + 1 → ∃ A, R[i]? = some A ∧ A.rows = t.nElements k + nb k ∧ A.cols = N ∧
        (∀ x, t.nElements k ≤ x → ∀ j, A.entry x j = 0) ∧
        (i + 1 ≤ 5 → ∀ (x : Nat) (e : List Nat), (t.elements[k]?.getD [])[x]? = some e → ∀ j,
          A.entry x j = if j ∈ Spec.incident simplices e then cellWeight ctr i e (simplices[j]?.getD []) /
            ((Spec.incident simplices e).map fun j => cellWeight ctr i e (simplices[j]?.getD [])).sum else 0) := by
  obtain ⟨-, wf⟩ := fromSimplices_wf h.uniq_ok h.rows h.built
  obtain ⟨doms, hd, hflat⟩ := domains_flatten wf h.rows
  obtain ⟨hlen, hlev⟩ := hE
  set wt : Nat → Nat × List Nat → ℝ := fun i q => pathWeight (domainPos ctr q) (m + 1 - (i + 1)) i with hwt
  set ent : Nat → List ((Nat × Nat) × ℝ) := fun i => (flagList m simplices).map fun q =>
    ((domainKey t.elements m (m + 1 - (i + 1)) q, q.1), wt i q) with hent
  set G : Nat → Mat ℝ → Mat ℝ := fun i a => scaleRows ⟨a.rows, a.cols, fun x j => a.entry x j *
    (((ent i).filter fun z => z.1 = (x, j)).map Prod.snd).sum⟩ with hG
  have hcorn : doms.flatten.mapM (fun d => (((List.range (m + 1 + 1)).map fun k =>
      (t.elements[k]?.getD []).map fun e => ctr e.toFinset).zip d).mapM fun pd => vertexAt pd.1 pd.2) =
      .ok ((flagList m simplices).map fun q => (List.range (m + 2)).map (domainPos ctr q)) := by
    rw [hflat]
    exact mapM_map_ok _ _ _ _ fun q hq => positions_mapM wf h.rows q hq
  have hW : (List.range (m + 1)).mapM (fun i => ((flagList m simplices).map fun q =>
      (List.range (m + 2)).map (domainPos ctr q)).mapM (domainWeight (m + 1) (m + 1 - (i + 1)))) =
      .ok ((List.range (m + 1)).map fun i => (flagList m simplices).map (wt i)) := by
    refine mapM_ok _ _ _ fun i hi => ?_
    have hi := List.mem_range.1 hi
    exact mapM_map_ok _ _ _ _ fun q _ => domainWeight_eq _ (by omega) hD
  have hzip : ∀ i < m + 1, List.zipWith (fun (d : List Nat) (w : ℝ) =>
      ((d[m + 1 - (i + 1)]?.getD 0, d[m + 1]?.getD 0), w)) doms.flatten ((flagList m simplices).map (wt i)) = ent i := by
    intro i hi
    rw [hflat, hent, List.zipWith_map, List.zipWith_self]
    apply List.map_congr_left
    intro q _
    rw [domain_entry t.elements m _ (by omega) q, domain_entry t.elements m _ (le_refl _) q]
    congr 2
    unfold domainKey
    rw [if_neg (by omega)]
  have hfin : ((((List.range (m + 1)).map fun i => (flagList m simplices).map (wt i)).zip L.tail).zipIdx.mapM fun wai => do
        let M ← cooMatrix wai.1.2.rows wai.1.2.cols (List.zipWith (fun d w =>
          ((d[m + 1 - (wai.2 + 1)]?.getD 0, d[m + 1]?.getD 0), w)) doms.flatten wai.1.1)
        (.ok (scaleRows ⟨wai.1.2.rows, wai.1.2.cols, fun i j => wai.1.2.entry i j * M.entry i j⟩) :
          Except PyErr (Mat ℝ))) =
      .ok ((((List.range (m + 1)).map fun i => (flagList m simplices).map (wt i)).zip L.tail).zipIdx.map
        fun wai => G wai.2 wai.1.2) := by
    refine mapM_ok _ _ _ ?_
    rintro ⟨⟨w, a⟩, i⟩ hz
    rw [List.mem_zipIdx_iff_getElem?] at hz
    simp only at hz ⊢
    rw [List.getElem?_zip_eq_some] at hz
    obtain ⟨z1, z2⟩ := hz
    have hi : i < m + 1 := by
      have := (List.getElem?_eq_some_iff.1 z1).1
      simpa using this
    rw [List.getElem?_map, List.getElem?_range hi, Option.map_some] at z1
    obtain rfl := Option.some.inj z1
    rw [List.getElem?_tail] at z2
    obtain ⟨A, a1, a2, a3, -⟩ := hlev i (m + 1 - (i + 1)) (by omega)
    rw [z2] at a1
    obtain rfl := Option.some.inj a1
    rw [hzip i hi]
    have hall : ((ent i).all fun x => decide (x.1.1 < a.rows) && decide (x.1.2 < a.cols)) = true := by
      rw [List.all_eq_true]
      intro z hz
      obtain ⟨q, hq, rfl⟩ := List.mem_map.1 hz
      have h1 := (keys_range wf h.rows (k := m + 1 - (i + 1)) (by omega) _).1 (List.mem_map.2 ⟨q, hq, rfl⟩)
      obtain ⟨l, hl, -⟩ := (mem_flagList h.rows q).1 hq
      have h2 := (List.getElem?_eq_some_iff.1 hl).1
      have h3 : t.nElements (m + 1 - (i + 1)) = (t.elements[m + 1 - (i + 1)]?.getD []).length := rfl
      simp only [Bool.and_eq_true, decide_eq_true_eq]
      rw [a2, a3]
      omega
    unfold cooMatrix
    rw [if_pos hall]
    rfl
  refine ⟨(((List.range (m + 1)).map fun i => (flagList m simplices).map (wt i)).zip L.tail).zipIdx.map
    fun wai => G wai.2 wai.1.2, ?_, ?_, fun i k hk => ?_⟩
  · unfold weightedAverageOperators
    rw [hor]
    simp only [bind, Except.bind, Bool.not_true, Bool.false_eq_true, if_false]
    rw [hwc]
    simp only [Bool.not_true, Bool.false_eq_true, if_false]
    rw [(C61_centers h).2, hd]
    simp only
    rw [hcorn]
    simp only [wf.lenB]
    rw [hW]
    simp only
    rw [hms]
    simp only
    rw [hL]
    simp only [bind, Except.bind] at hfin
    exact hfin
  · rw [List.length_map, List.length_zipIdx, List.length_zip, List.length_map, List.length_range, List.length_tail, hlen]
    simp
  · obtain ⟨A, a1, a2, a3, a4⟩ := hlev i k hk
    have hki : m + 1 - (i + 1) = k := by omega
    have hcoef : ∀ x j, (((ent i).filter fun z => z.1 = (x, j)).map Prod.snd).sum =
        (((flagList m simplices).filter fun q => domainKey t.elements m k q = x ∧ q.1 = j).map (wt i)).sum := by
      intro x j
      rw [hent]
      simp only [List.filter_map, List.map_map, hki, Function.comp_def, Prod.mk.injEq]
    refine ⟨G i A, ?_, a2, a3, fun x hx j => ?_, fun hi x e he j => ?_⟩
    · have h1 : (((List.range (m + 1)).map fun i => (flagList m simplices).map (wt i)).zip L.tail)[i]? =
          some ((flagList m simplices).map (wt i), A) := by
        rw [List.getElem?_zip_eq_some, List.getElem?_map, List.getElem?_range (by omega), List.getElem?_tail]
        exact ⟨rfl, a1⟩
      rw [List.getElem?_map, List.getElem?_zipIdx, h1]
      simp
    · have : (((ent i).filter fun z => z.1 = (x, j)).map Prod.snd).sum = 0 := by
        rw [hcoef, List.filter_eq_nil_iff.2]
        · rfl
        · intro q hq
          have h1 := (keys_range wf h.rows (k := k) (by omega) _).1 (List.mem_map.2 ⟨q, hq, rfl⟩)
          have h3 : t.nElements k = (t.elements[k]?.getD []).length := rfl
          simp only [decide_eq_true_eq]
          omega
      show 1 / _ * (A.entry x j * _) = 0
      rw [this]
      ring
    · obtain ⟨c, hc, hce⟩ := a4 hi x e he
      obtain ⟨he1, he2, -⟩ := wf.element_face h.rows (k := k) (by omega) (List.mem_of_getElem? he)
      set f : ℝ := ((k + 1).factorial : ℝ) / (i.factorial : ℝ) with hf
      have hf0 : 0 < f := by positivity
      have hw : ∀ j, (((ent i).filter fun z => z.1 = (x, j)).map Prod.snd).sum =
          if j ∈ Spec.incident simplices e then f * cellWeight ctr i e (simplices[j]?.getD []) else 0 := by
        intro j
        rw [hcoef]
        have := sum_domains_pair (j := j) wf h.rows (by omega : k ≤ m) he (fun w => wt i (0, w))
        have hq : ∀ q : Nat × List Nat, wt i q = wt i (0, q.2) := fun _ => rfl
        rw [List.map_congr_left fun q _ => hq q, this]
        by_cases hj : j ∈ Spec.incident simplices e
        · rw [if_pos hj, if_pos hj]
          have hjl := incident_lt hj
          have hsub : e ⊆ simplices[j] := by
            have := (List.mem_filter.1 hj).2
            rw [List.getElem?_eq_getElem hjl, Option.getD_some, List.all_eq_true] at this
            exact fun v hv => List.contains_iff_mem.1 (this v hv)
          rw [List.getElem?_eq_getElem hjl, Option.getD_some]
          simp only [hwt, hki]
          exact pathWeight_sum h (List.getElem_mem hjl) hsub he2 he1
        · rw [if_neg hj, if_neg hj]
      have hpos : ∀ j ∈ Spec.incident simplices e, 0 < cellWeight ctr i e (simplices[j]?.getD []) := by
        intro j hj
        have hjl := incident_lt hj
        have hsub : e ⊆ simplices[j] := by
          have := (List.mem_filter.1 hj).2
          rw [List.getElem?_eq_getElem hjl, Option.getD_some, List.all_eq_true] at this
          exact fun v hv => List.contains_iff_mem.1 (this v hv)
        rw [List.getElem?_eq_getElem hjl, Option.getD_some]
        exact C88_positive h hwc (List.getElem_mem hjl) hsub he2 (by intro h0; rw [h0] at he1; simp at he1) (by omega)
      have hentry : ∀ j, A.entry x j * (((ent i).filter fun z => z.1 = (x, j)).map Prod.snd).sum =
          if j ∈ Spec.incident simplices e then c * f * cellWeight ctr i e (simplices[j]?.getD []) else 0 := by
        intro j
        rw [hw j]
        by_cases hj : j ∈ Spec.incident simplices e
        · rw [if_pos hj, if_pos hj, hce j hj]
          ring
        · rw [if_neg hj, if_neg hj, mul_zero]
      have habs : ∀ j, |A.entry x j * (((ent i).filter fun z => z.1 = (x, j)).map Prod.snd).sum| =
          if j ∈ Spec.incident simplices e then c * f * cellWeight ctr i e (simplices[j]?.getD []) else 0 := by
        intro j
        rw [hentry j]
        by_cases hj : j ∈ Spec.incident simplices e
        · rw [if_pos hj, abs_of_pos]
          have := hpos j hj
          positivity
        · rw [if_neg hj, abs_zero]
      show 1 / ((List.range A.cols).map fun j => |A.entry x j * _|).sum * (A.entry x j * _) = _
      rw [List.map_congr_left fun j _ => habs j, hentry j, sum_incident e (by rw [a3]; exact hN),
        List.sum_map_mul_left]
      by_cases hj : j ∈ Spec.incident simplices e
      · rw [if_pos hj, if_pos hj]
        have h1 : 0 < ((Spec.incident simplices e).map fun j => cellWeight ctr i e (simplices[j]?.getD [])).sum := by
          apply List.sum_pos
          · intro a ha
            obtain ⟨j, hj, rfl⟩ := List.mem_map.1 ha
            exact hpos j hj
          · intro h0
            rw [List.map_eq_nil_iff.1 h0] at hj
            simp at hj
        field_simp
      · rw [if_neg hj, if_neg hj, mul_zero]

end

end Verif.Props
