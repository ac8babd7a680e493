/-
C59: the circumcentric metric of `pycomplex/complex/simplicial/euclidian.py`.
-/
import Verif.Lemmas.MetricValues
import Verif.Lemmas.Diamond
import Verif.Lemmas.MetricExists
import Verif.Lemmas.PowerCenters
import Verif.Props.Subdivide

set_option linter.unusedSectionVars false

namespace Verif.Props

open Verif.Model Verif.Spec Matrix

/-- a complex that `metric` is called on: a topology built from `n`-simplices, oriented, positions for
all vertices, no degenerate simplex, and no eigenvalue below the tolerance of the circumcenters -/
structure MetricInput {D : Nat} (uniq : List (List Nat) → List (List Nat))
    (solve : List (List Int) → Option (List Int))
    (eigh : (n : Nat) → Matrix (Fin n) (Fin n) ℝ → Eigh n ℝ) (ratio : ℝ) (n : Nat)
    (simplices : List (List Nat)) (t : Topo) (V : List (Vec ℝ D)) (y : Finset Nat → Nat → ℝ)
    (ctr : Finset Nat → Fin D → ℝ) : Prop where
  uniq_ok : UniqSpec uniq
  rows : Simplices (n + 1) simplices
  built : fromSimplices uniq (n + 1) simplices = .ok t
  nonempty : simplices ≠ []
  oriented : isOriented solve t = .ok true
  dims : n ≤ D
  vertices : ∀ l ∈ simplices, ∀ v ∈ l, v < V.length
  eigh_ok : ∀ k M, Mᵀ = M → IsEigh M (eigh k M).v (eigh k M).w
  tolerance : WithinTolerance ratio V t.elements n
  nondegenerate : NonDegenerate V n simplices
  centers : Centers V simplices y ctr

section

variable {D : Nat} {uniq : List (List Nat) → List (List Nat)}
  {solve : List (List Int) → Option (List Int)}
  {eigh : (n : Nat) → Matrix (Fin n) (Fin n) ℝ → Eigh n ℝ} {ratio : ℝ} {n : Nat}
  {simplices : List (List Nat)} {t : Topo} {V : List (Vec ℝ D)} {y : Finset Nat → Nat → ℝ}
  {ctr : Finset Nat → Fin D → ℝ}

theorem getElem?_three {α : Type} (a z : α) (L : List α) (i : Nat) :
    ([a] ++ L ++ [z])[i]? = if i = 0 then some a else if i ≤ L.length then L[i - 1]? else
      if i = L.length + 1 then some z else none := by
  rcases Nat.eq_zero_or_pos i with rfl | hi
  · simp
  · obtain ⟨k, rfl⟩ : ∃ k, i = k + 1 := ⟨i - 1, by omega⟩
    simp only [List.cons_append, List.nil_append, List.getElem?_cons_succ, Nat.add_sub_cancel,
      Nat.succ_ne_zero, if_false]
    by_cases h : k + 1 ≤ L.length
    · rw [if_pos h, List.getElem?_append_left (by omega)]
    · rw [if_neg h]
      by_cases h2 : k = L.length
      · subst h2; simp
      · rw [if_neg (by omega)]
        apply List.getElem?_eq_none
        simp
        omega

theorem getElem?_range'_one (m i : Nat) (h1 : 1 ≤ i) (h2 : i ≤ m) : (List.range' 1 m)[i - 1]? = some i := by
  rw [List.getElem?_range' (by omega)]
  congr 1
  omega

/-- what the entries of the primal and the dual measures are, as sums over orderings, if there are weights -/
theorem MetricInput.weighted_values {m : Nat} {W : Option (List ℝ)}
    {z : Finset Nat → Nat → ℝ} {pos : Finset Nat → Fin D → ℝ}
    (h : MetricInput uniq solve eigh ratio (m + 1) simplices t V y ctr)
    (hW : ∀ w, W = some w → ∀ l ∈ simplices, ∀ v ∈ l, v < w.length)
    (hz : PowerCenters V (weightAt W) simplices z pos) :
    ∃ PM DM, metric solve eigh ratio t V W = .ok (PM, DM) ∧ PM.length = m + 2 ∧ DM.length = m + 2 ∧
      PM[0]? = some (List.replicate (t.nElements 0) 1) ∧
      (∀ i, 1 ≤ i → i ≤ m → PM[i]? = some ((List.range (t.elements[i]?.getD []).length).map fun x =>
        (((flagList m simplices).filter fun q => domainKey t.elements m i q = x).map
          (domainVol (domainPos pos) 0 i)).sum /
        (((flagList m simplices).filter fun q => domainKey t.elements m i q = x).map fun _ => (1 : ℝ)).sum *
          ((i + 1).factorial : ℝ))) ∧
      PM[m + 1]? = some ((List.range simplices.length).map fun x =>
        (((flagList m simplices).filter fun q => domainKey t.elements m (m + 1) q = x).map
          fun q => domainVol (domainPos pos) 0 (m + 1) q * domainSign y q).sum) ∧
      DM[0]? = some (List.replicate (t.nElements (m + 1)) 1) ∧
      (∀ i, 1 ≤ i → i ≤ m + 1 → DM[i]? = some ((List.range (t.elements[m + 1 - i]?.getD []).length).map fun x =>
        (((flagList m simplices).filter fun q => domainKey t.elements m (m + 1 - i) q = x).map
          fun q => domainVol (domainPos pos) (m + 1 - i) i q * domainSign y q).sum /
            ((m + 1 - i + 1).factorial : ℝ))) ∧
      (PM[m + 1]?.getD []).sum = (DM[m + 1]?.getD []).sum := by
  obtain ⟨-, wf⟩ := fromSimplices_wf h.uniq_ok h.rows h.built
  have htop := h.rows
  have hmet := metric_weights wf htop h.nonempty solve h.oriented h.dims h.vertices hW h.eigh_ok h.tolerance
    h.nondegenerate h.centers hz
  refine ⟨_, _, hmet, by simp, by simp, by simp, ?_, ?_, by simp, ?_, ?_⟩
  · intro i h1 h2
    rw [getElem?_three, if_neg (by omega), if_pos (by simpa using h2), List.getElem?_map,
      getElem?_range'_one m i h1 h2, Option.map_some]
    rw [groupMean_eq _ _ _ (keys_range wf htop (by omega)), List.map_map]
    rfl
  · rw [getElem?_three, if_neg (by omega), if_neg (by simp), if_pos (by simp)]
    rw [groupSum_eq _ _ _ (keys_range wf htop (Nat.le_refl _)), wf.top_eq, Option.getD_some]
  · intro i h1 h2
    rw [getElem?_three, if_neg (by omega)]
    by_cases h3 : i ≤ m
    · rw [if_pos (by simpa using h3), List.getElem?_map, getElem?_range'_one m i h1 h3, Option.map_some]
      rw [groupSum_eq _ _ _ (keys_range wf htop (by omega)), List.map_map]
      rfl
    · have : i = m + 1 := by omega
      subst this
      rw [if_neg (by simp), if_pos (by simp), Nat.sub_self]
      rw [groupSum_eq _ _ _ (keys_range wf htop (by omega))]
      simp
  · rw [getElem?_three, getElem?_three, if_neg (by omega), if_neg (by simp), if_pos (by simp),
      if_neg (by omega), if_neg (by simp), if_pos (by simp), Option.getD_some, Option.getD_some,
      groupSum_total _ _ _ (keys_range wf htop (Nat.le_refl _)),
      groupSum_total _ _ _ (keys_range wf htop (Nat.zero_le _))]

/-- what the entries of the primal and the dual measures are, as sums over orderings -/
theorem MetricInput.values {m : Nat}
    (h : MetricInput uniq solve eigh ratio (m + 1) simplices t V y ctr) :
    ∃ PM DM, metric solve eigh ratio t V none = .ok (PM, DM) ∧ PM.length = m + 2 ∧ DM.length = m + 2 ∧
      PM[0]? = some (List.replicate (t.nElements 0) 1) ∧
      (∀ i, 1 ≤ i → i ≤ m → PM[i]? = some ((List.range (t.elements[i]?.getD []).length).map fun x =>
        (((flagList m simplices).filter fun q => domainKey t.elements m i q = x).map
          (domainVol (domainPos ctr) 0 i)).sum /
        (((flagList m simplices).filter fun q => domainKey t.elements m i q = x).map fun _ => (1 : ℝ)).sum *
          ((i + 1).factorial : ℝ))) ∧
      PM[m + 1]? = some ((List.range simplices.length).map fun x =>
        (((flagList m simplices).filter fun q => domainKey t.elements m (m + 1) q = x).map
          fun q => domainVol (domainPos ctr) 0 (m + 1) q * domainSign y q).sum) ∧
      DM[0]? = some (List.replicate (t.nElements (m + 1)) 1) ∧
      (∀ i, 1 ≤ i → i ≤ m + 1 → DM[i]? = some ((List.range (t.elements[m + 1 - i]?.getD []).length).map fun x =>
        (((flagList m simplices).filter fun q => domainKey t.elements m (m + 1 - i) q = x).map
          fun q => domainVol (domainPos ctr) (m + 1 - i) i q * domainSign y q).sum /
            ((m + 1 - i + 1).factorial : ℝ))) ∧
      (PM[m + 1]?.getD []).sum = (DM[m + 1]?.getD []).sum :=
  h.weighted_values (by simp) h.centers.power

/-- sums over the domains of the elements that contain an element -/
theorem sum_domains_of {m : Nat} (wf : WF (m + 1) simplices t) (htop : Simplices (m + 2) simplices)
    {k x : Nat} (hk : k ≤ m) {e : List Nat} (hx : (t.elements[k]?.getD [])[x]? = some e)
    (g : List Nat → ℝ) :
    (((flagList m simplices).filter fun q => domainKey t.elements m k q = x).map fun q => g q.2).sum =
      (simplices.map fun l => if e ⊆ l then (e.permutations.map fun u =>
        ((l.diff e).permutations.map fun v => g (u ++ v)).sum).sum else 0).sum := by
  obtain ⟨he1, he2, -⟩ := wf.element_face htop (k := k) (by omega) (List.mem_of_getElem? hx)
  rw [sum_flagList]
  rw [← List.sum_ofFn]
  congr 1
  apply List.ext_getElem
  · simp
  · intro j h1 h2
    have hj : j < simplices.length := by simpa using h1
    rw [List.getElem_ofFn, List.getElem_map]
    simp only [Fin.getElem_fin]
    obtain ⟨hl, hn⟩ := htop simplices[j] (List.getElem_mem hj)
    have hf : (wRows m simplices[j]).filter (fun w => decide (domainKey t.elements m k (j, w) = x)) =
        (wRows m simplices[j]).filter fun w => decide ((w.take (k + 1)).Perm e) := by
      apply List.filter_congr
      intro w hw
      exact decide_eq_decide.2 (key_iff wf htop hk hx (List.getElem_mem hj) ((mem_wRows m _ hl hn w).1 hw))
    rw [hf]
    by_cases hs : e ⊆ simplices[j]
    · rw [if_pos hs, wRows_begin hl hn he2 he1 hs]
    · rw [if_neg hs, wRows_begin_none hl hn hs]

theorem insideUpTo_two {m : Nat} (htop : Simplices (m + 2) simplices)
    (hnd : NonDegenerate V (m + 1) simplices) (hc : Centers V simplices y ctr) :
    InsideUpTo simplices y 2 := by
  intro S hS hcard v hv
  have hcc := hc S hS
  obtain ⟨h0, l, hl, hs⟩ := hS
  have h1 : S.card = 1 ∨ S.card = 2 := by
    have := h0.card_pos
    omega
  rcases h1 with h1 | h1
  · obtain ⟨a, rfl⟩ := Finset.card_eq_one.1 h1
    have := hcc.one
    rw [Finset.sum_singleton] at this
    rw [Finset.mem_singleton] at hv
    rw [hv, this]
    norm_num
  · obtain ⟨a, b, hab, rfl⟩ := Finset.card_eq_two.1 h1
    have ha : a ∈ l := List.mem_toFinset.1 (hs (by simp))
    have hb : b ∈ l := List.mem_toFinset.1 (hs (by simp))
    obtain ⟨e1, e2⟩ := hcc.edge hab (position_ne hnd htop hl ha hb hab)
    rw [Finset.mem_insert, Finset.mem_singleton] at hv
    rcases hv with rfl | rfl
    · rw [e1]; norm_num
    · rw [e2]; norm_num

theorem sum_list_const {α : Type} (L : List α) (c : ℝ) : (L.map fun _ => c).sum = L.length * c := by
  rw [List.map_const', List.sum_replicate, nsmul_eq_mul]

/-- the sum over the domains of a simplex -/
theorem sum_top {m : Nat} (htop : Simplices (m + 2) simplices) (hc : Centers V simplices y ctr)
    {x : Nat} {l : List Nat} (hx : simplices[x]? = some l) :
    (((flagList m simplices).filter fun q => domainKey t.elements m (m + 1) q = x).map
      fun q => domainVol (domainPos ctr) 0 (m + 1) q * domainSign y q).sum =
    ((wRows m l).map fun w => flagProd (fun s v => y s.toFinset v) w *
      Real.sign (y l.toFinset (w.getLast?.getD 0))).sum * vol (cornersOf V (m + 1 + 1) l) := by
  have hlm := List.mem_of_getElem? hx
  obtain ⟨hl1, hl2⟩ := htop l hlm
  have hxl := (List.getElem?_eq_some_iff.1 hx).1
  have hxe := (List.getElem?_eq_some_iff.1 hx).2
  rw [sum_flagList]
  have hkey : ∀ q : Nat × List Nat, domainKey t.elements m (m + 1) q = q.1 := by
    intro q
    unfold domainKey
    rw [if_neg (by omega)]
  rw [Finset.sum_eq_single ⟨x, hxl⟩]
  · simp only [hkey, decide_true, List.filter_true]
    rw [show simplices[(⟨x, hxl⟩ : Fin simplices.length)] = l from hxe]
    set β : List Nat → Nat → ℝ := fun s v => y s.toFinset v with hβd
    have hval : ∀ w ∈ wRows m l, domainVol (domainPos ctr) 0 (m + 1) (x, w) * domainSign y (x, w) =
        flagProd β w * Real.sign (β l (w.getLast?.getD 0)) * vol (cornersOf V (m + 1 + 1) l) := by
      intro w hw
      have hp := (mem_wRows m l hl1 hl2 w).1 hw
      have htake : w.take (m + 1 + 1) = w := List.take_of_length_le (by rw [hp.length_eq, hl1])
      rw [domainVol_eq htop hc hlm hp x (Nat.le_refl _) (e := l) (by rw [htake]; exact hp), htake]
      simp only [domainSign, hβd, toFinset_perm hp]
      ring
    rw [List.map_congr_left hval, sum_map_mul_right']
  · intro j _ hj
    have : ∀ w, decide (domainKey t.elements m (m + 1) (j.val, w) = x) = false := by
      intro w
      rw [hkey, decide_eq_false_iff_not]
      intro h0
      exact hj (Fin.ext h0)
    simp [this]
  · simp

/-- C59: the primal measure of an element is its volume, if the circumcenters of its faces of at most
`n` corners lie inside the faces.  Edges always have their centers inside. -/
theorem C59_primal (h : MetricInput uniq solve eigh ratio n simplices t V y ctr) :
    ∃ PM DM, metric solve eigh ratio t V none = .ok (PM, DM) ∧ PM.length = n + 1 ∧ DM.length = n + 1 ∧
      ∀ k ≤ n, (min (k + 1) n ≤ 2 ∨ InsideUpTo simplices y (min (k + 1) n)) →
        ∃ L, PM[k]? = some L ∧ L.length = t.nElements k ∧
          ∀ (x : Nat) (e : List Nat), (t.elements[k]?.getD [])[x]? = some e →
            ∃ v, unsignedVolume (Matrix.of (cornersOf V (k + 1) e)) = .ok v ∧ L[x]? = some v := by
  obtain ⟨hn, wf⟩ := fromSimplices_wf h.uniq_ok h.rows h.built
  obtain ⟨m, rfl⟩ : ∃ m, n = m + 1 := ⟨n - 1, by omega⟩
  have htop := h.rows
  obtain ⟨PM, DM, hm, hPl, hDl, hP0, hPi, hPn, hD0, hDi, htot⟩ := h.values
  refine ⟨PM, DM, hm, hPl, hDl, ?_⟩
  intro k hk hin
  have hin : InsideUpTo simplices y (min (k + 1) (m + 1)) := by
    rcases hin with hin | hin
    · intro S hS hcard
      exact insideUpTo_two htop h.nondegenerate h.centers S hS (by omega)
    · exact hin
  have hnel : ∀ k, t.nElements k = (t.elements[k]?.getD []).length := fun _ => rfl
  rcases Nat.eq_zero_or_pos k with rfl | hk1
  · refine ⟨_, hP0, by simp, ?_⟩
    intro x e hx
    refine ⟨1, ?_, ?_⟩
    · rw [volume_eq_vol (by omega)]
      simp [vol]
    · rw [List.getElem?_replicate, if_pos]
      exact (List.getElem?_eq_some_iff.1 hx).1
  · have hβ : ∀ {l : List Nat}, l ∈ simplices → ∀ (s : List Nat) v, s.Subperm l → s.length ≤ min (k + 1) (m + 1) →
        v ∈ s → 0 ≤ y s.toFinset v := by
      intro l hl s v hs hlen hv
      refine hin s.toFinset (spansFace_of_subset hl hs.subset (List.ne_nil_of_mem hv)) ?_ v
        (List.mem_toFinset.2 hv)
      exact (List.toFinset_card_le s).trans hlen
    by_cases hkm : k ≤ m
    · refine ⟨_, hPi k hk1 hkm, by simp [hnel], ?_⟩
      intro x e hx
      obtain ⟨he1, he2, l0, hl0, hs0⟩ := wf.element_face htop hk (List.mem_of_getElem? hx)
      refine ⟨vol (cornersOf V (k + 1) e), volume_eq_vol (by have := h.dims; omega) _, ?_⟩
      rw [List.getElem?_map, List.getElem?_range (List.getElem?_eq_some_iff.1 hx).1, Option.map_some]
      congr 1
      set β : List Nat → Nat → ℝ := fun s v => y s.toFinset v with hβd
      have hval : ∀ q ∈ (flagList m simplices).filter (fun q => decide (domainKey t.elements m k q = x)),
          domainVol (domainPos ctr) 0 k q = flagProd β (q.2.take (k + 1)) * vol (cornersOf V (k + 1) e) := by
        rintro ⟨j, w⟩ hq
        obtain ⟨hq1, hq2⟩ := List.mem_filter.1 hq
        obtain ⟨l, hl, hp⟩ := (mem_flagList htop _).1 hq1
        have hlm := List.mem_of_getElem? hl
        exact domainVol_eq htop h.centers hlm hp j hk
          ((key_iff wf htop hkm hx hlm hp).1 (of_decide_eq_true hq2))
      rw [List.map_congr_left hval]
      rw [sum_domains_of wf htop hkm hx (fun w => flagProd β (w.take (k + 1)) * vol (cornersOf V (k + 1) e)),
        sum_domains_of wf htop hkm hx (fun _ => 1)]
      have hu : ∀ u ∈ e.permutations, ∀ v : List Nat, (u ++ v).take (k + 1) = u := by
        intro u hu v
        have := (List.mem_permutations.1 hu).length_eq
        rw [List.take_append_of_le_length (by omega), List.take_of_length_le (by omega)]
      obtain ⟨k', rfl⟩ : ∃ k', k = k' + 1 := ⟨k - 1, by omega⟩
      have hone : (e.permutations.map (flagProd β)).sum = 1 := by
        rw [← ((wRows_permutations he1 he2).map (flagProd β)).sum_eq]
        refine sum_flagProd β k' e he1 he2 ((barycentric htop h.centers hl0).sub
          (List.subperm_of_subset he2 hs0)) ?_
        intro s v hs _ hv
        refine hβ hl0 s v (hs.trans (List.subperm_of_subset he2 hs0)) ?_ hv
        have := hs.length_le
        omega
      have hterm : ∀ l ∈ simplices, (if e ⊆ l then (e.permutations.map fun u =>
          ((l.diff e).permutations.map fun v =>
            flagProd β ((u ++ v).take (k' + 1 + 1)) * vol (cornersOf V (k' + 1 + 1) e)).sum).sum else 0) =
          (if e ⊆ l then ((l.diff e).permutations.length : ℝ) else 0) * vol (cornersOf V (k' + 1 + 1) e) := by
        intro l _
        by_cases hs : e ⊆ l
        · rw [if_pos hs, if_pos hs]
          have : ∀ u ∈ e.permutations, ((l.diff e).permutations.map fun v =>
              flagProd β ((u ++ v).take (k' + 1 + 1)) * vol (cornersOf V (k' + 1 + 1) e)).sum =
              flagProd β u * (((l.diff e).permutations.length : ℝ) * vol (cornersOf V (k' + 1 + 1) e)) := by
            intro u hu'
            simp only [hu u hu', sum_list_const]
            ring
          rw [List.map_congr_left this, sum_map_mul_right', hone, one_mul]
        · rw [if_neg hs, if_neg hs, zero_mul]
      have hterm1 : ∀ l ∈ simplices, (if e ⊆ l then (e.permutations.map fun u =>
          ((l.diff e).permutations.map fun v => (1 : ℝ)).sum).sum else 0) =
          (if e ⊆ l then ((l.diff e).permutations.length : ℝ) else 0) * ((k' + 1 + 1).factorial : ℝ) := by
        intro l _
        by_cases hs : e ⊆ l
        · rw [if_pos hs, if_pos hs]
          simp only [sum_list_const, mul_one]
          rw [List.length_permutations e, he1]
          ring
        · rw [if_neg hs, if_neg hs, zero_mul]
      rw [List.map_congr_left hterm, List.map_congr_left hterm1, sum_map_mul_right', sum_map_mul_right']
      have hC : (0 : ℝ) < (simplices.map fun l =>
          if e ⊆ l then ((l.diff e).permutations.length : ℝ) else 0).sum := by
        refine lt_of_lt_of_le (b := ((l0.diff e).permutations.length : ℝ)) ?_ ?_
        · rw [List.length_permutations]
          exact_mod_cast Nat.factorial_pos _
        · have : (if e ⊆ l0 then ((l0.diff e).permutations.length : ℝ) else 0) =
              ((l0.diff e).permutations.length : ℝ) := if_pos hs0
          rw [← this]
          refine List.single_le_sum ?_ _ (List.mem_map.2 ⟨l0, hl0, rfl⟩)
          intro z hz
          obtain ⟨l, -, rfl⟩ := List.mem_map.1 hz
          split
          · positivity
          · exact le_refl _
      have hf : ((k' + 1 + 1).factorial : ℝ) ≠ 0 := Nat.cast_ne_zero.2 (Nat.factorial_ne_zero _)
      field_simp
    · have : k = m + 1 := by omega
      subst this
      refine ⟨_, hPn, by simp [hnel, wf.top_eq], ?_⟩
      intro x l hx
      rw [wf.top_eq, Option.getD_some] at hx
      have hlm := List.mem_of_getElem? hx
      obtain ⟨hl1, hl2⟩ := htop l hlm
      refine ⟨vol (cornersOf V (m + 1 + 1) l), volume_eq_vol h.dims _, ?_⟩
      have hxl := (List.getElem?_eq_some_iff.1 hx).1
      have hxe := (List.getElem?_eq_some_iff.1 hx).2
      rw [List.getElem?_map, List.getElem?_range hxl, Option.map_some]
      congr 1
      rw [sum_top htop h.centers hx]
      set β : List Nat → Nat → ℝ := fun s v => y s.toFinset v with hβd
      have hb := barycentric htop h.centers hlm
      cases m with
      | zero =>
        have h2 : ∀ (s : List Nat) v, s.Subperm l → v ∈ s → 0 ≤ β s v := by
          intro s v hs hv
          refine insideUpTo_two htop h.nondegenerate h.centers s.toFinset
            (spansFace_of_subset hlm hs.subset (List.ne_nil_of_mem hv)) ?_ v (List.mem_toFinset.2 hv)
          refine (List.toFinset_card_le s).trans ?_
          have := hs.length_le
          omega
        have h3 := sum_flagProd β 0 l hl1 hl2 hb (fun s v hs _ hv => h2 s v hs hv)
        have h4 : ∀ w ∈ wRows 0 l, flagProd β w * Real.sign (β l (w.getLast?.getD 0)) = flagProd β w := by
          intro w hw
          have hp := (mem_wRows 0 l hl1 hl2 w).1 hw
          obtain ⟨a, b, rfl⟩ := length_two (hp.length_eq.trans hl1)
          have hab : a ≠ b := by
            have := hp.nodup_iff.2 hl2
            simpa using this
          have hcc := h.centers _ (spansFace_of_subset hlm (List.Subset.refl l)
            (by intro h0; rw [h0] at hl1; simp at hl1))
          have hfs : l.toFinset = {a, b} := by rw [← toFinset_perm hp]; simp
          rw [hfs] at hcc
          obtain ⟨e1, e2⟩ := hcc.edge hab (position_ne h.nondegenerate htop hlm
            (hp.mem_iff.1 (by simp)) (hp.mem_iff.1 (by simp)) hab)
          have : β l b = 1 / 2 := by simp only [hβd, hfs]; exact e2
          rw [show [a, b].getLast?.getD 0 = b from rfl, this, Real.sign_of_pos (by norm_num), mul_one]
        rw [List.map_congr_left h4]
        change ((wRows 0 l).map (flagProd β)).sum * _ = _
        rw [h3, one_mul]
      | succ k =>
        rw [sum_flagProd_sign β k l hl1 hl2 hb, one_mul]
        intro s v hs _ hlen hv
        exact hβ hlm s v hs (by omega) hv

theorem diff_append {e l : List Nat} (hs : e ⊆ l) (he : e.Nodup) : (e ++ l.diff e).Perm l :=
  List.subperm_append_diff_self_of_count_le fun a ha => by
    rw [List.count_eq_one_of_mem he ha]
    exact List.one_le_count_iff.2 (hs ha)

theorem sign_nonneg_of {x : ℝ} (h : 0 ≤ x) : 0 ≤ Real.sign x := by
  rcases h.lt_or_eq with h | h
  · rw [Real.sign_of_pos h]; norm_num
  · rw [← h, Real.sign_zero]

theorem domain_dual {u e : List Nat} (hu : u.Perm e) {k : Nat} (hul : u.length = k + 1) (v : List Nat)
    (i j : Nat) : domainVol (domainPos ctr) k i (j, u ++ v) = vol (chainOfCenters ctr e v i) := by
  unfold domainVol
  apply congrArg vol
  funext r
  unfold domainPos chainOfCenters
  simp only
  congr 1
  rw [show k + r.val + 1 = u.length + r.val by omega, List.take_length_add_append]
  exact toFinset_perm (hu.append (List.Perm.refl _))

/-- the dual measures of a weighted complex -/
theorem dual_weighted {W : Option (List ℝ)} {z : Finset Nat → Nat → ℝ} {pos : Finset Nat → Fin D → ℝ}
    (h : MetricInput uniq solve eigh ratio n simplices t V y ctr)
    (hW : ∀ w, W = some w → ∀ l ∈ simplices, ∀ v ∈ l, v < w.length)
    (hz : PowerCenters V (weightAt W) simplices z pos) :
    ∃ PM DM, metric solve eigh ratio t V W = .ok (PM, DM) ∧
      ∀ k ≤ n, ∃ L, DM[n - k]? = some L ∧ L.length = t.nElements k ∧
        ∀ (x : Nat) (e : List Nat), (t.elements[k]?.getD [])[x]? = some e →
          (k = n → L[x]? = some 1) ∧
          (k < n → ∃ piece : List Nat → ℝ,
            (∀ v, unsignedVolume (Matrix.of (chainOfCenters pos e v (n - k))) = .ok (piece v)) ∧
            L[x]? = some (simplices.map fun l => if e ⊆ l then ((l.diff e).permutations.map fun v =>
              Real.sign (y l.toFinset (v.getLast?.getD 0)) * piece v).sum else 0).sum) := by
  obtain ⟨hn, wf⟩ := fromSimplices_wf h.uniq_ok h.rows h.built
  obtain ⟨m, rfl⟩ : ∃ m, n = m + 1 := ⟨n - 1, by omega⟩
  have htop := h.rows
  obtain ⟨PM, DM, hm, hPl, hDl, hP0, hPi, hPn, hD0, hDi, htot⟩ := h.weighted_values hW hz
  refine ⟨PM, DM, hm, ?_⟩
  intro k hk
  have hnel : ∀ k, t.nElements k = (t.elements[k]?.getD []).length := fun _ => rfl
  rcases Nat.eq_or_lt_of_le hk with rfl | hkm
  · rw [Nat.sub_self]
    refine ⟨_, hD0, by simp, fun x e hx => ⟨fun _ => ?_, fun h0 => absurd h0 (Nat.lt_irrefl _)⟩⟩
    rw [List.getElem?_replicate]
    exact if_pos (List.getElem?_eq_some_iff.1 hx).1
  · obtain ⟨i, hi⟩ : ∃ i, m + 1 = k + (i + 1) := ⟨m - k, by omega⟩
    have hik : m + 1 - k = i + 1 := by omega
    have hki : m + 1 - (i + 1) = k := by omega
    rw [hik]
    have hDi := hDi (i + 1) (by omega) (by omega)
    rw [hki] at hDi
    refine ⟨_, hDi, by simp [hnel], ?_⟩
    intro x e hx
    refine ⟨fun h0 => by omega, fun _ => ?_⟩
    obtain ⟨he1, he2, l0, hl0, hs0⟩ := wf.element_face htop hk (List.mem_of_getElem? hx)
    refine ⟨fun v => vol (chainOfCenters pos e v (i + 1)), fun v =>
      volume_eq_vol (by have := h.dims; omega) _, ?_⟩
    rw [List.getElem?_map, List.getElem?_range (List.getElem?_eq_some_iff.1 hx).1, Option.map_some]
    congr 1
    have := sum_domains_of wf htop (by omega) hx
      (fun w => domainVol (domainPos pos) k (i + 1) (0, w) * domainSign y (0, w))
    have hq : ∀ q : Nat × List Nat, domainVol (domainPos pos) k (i + 1) q * domainSign y q =
        domainVol (domainPos pos) k (i + 1) (0, q.2) * domainSign y (0, q.2) := fun _ => rfl
    rw [List.map_congr_left fun q _ => hq q]
    rw [this]
    have hterm : ∀ l ∈ simplices, (if e ⊆ l then (e.permutations.map fun u =>
        ((l.diff e).permutations.map fun v =>
          domainVol (domainPos pos) k (i + 1) (0, u ++ v) * domainSign y (0, u ++ v)).sum).sum else 0) =
        (if e ⊆ l then ((l.diff e).permutations.map fun v =>
          Real.sign (y l.toFinset (v.getLast?.getD 0)) * vol (chainOfCenters pos e v (i + 1))).sum else 0) *
          ((k + 1).factorial : ℝ) := by
      intro l hl
      by_cases hs : e ⊆ l
      · rw [if_pos hs, if_pos hs]
        have hpd := diff_append hs he2
        have hval : ∀ u ∈ e.permutations, ((l.diff e).permutations.map fun v =>
            domainVol (domainPos pos) k (i + 1) (0, u ++ v) * domainSign y (0, u ++ v)).sum =
            ((l.diff e).permutations.map fun v =>
              Real.sign (y l.toFinset (v.getLast?.getD 0)) * vol (chainOfCenters pos e v (i + 1))).sum := by
          intro u hu
          have hu := List.mem_permutations.1 hu
          have hul : u.length = k + 1 := hu.length_eq.trans he1
          apply congrArg List.sum
          apply List.map_congr_left
          intro v hv
          have hv := List.mem_permutations.1 hv
          have hw : (u ++ v).Perm l := (hu.append hv).trans hpd
          have hvl : v.length = i + 1 := by
            have h1 := hw.length_eq
            rw [List.length_append, (htop l hl).1] at h1
            omega
          have hlast : (u ++ v).getLast? = v.getLast? := by
            rw [List.getLast?_append]
            cases hvv : v.getLast? with
            | none =>
              rw [List.getLast?_eq_none_iff] at hvv
              rw [hvv] at hvl
              simp at hvl
            | some a => rfl
          unfold domainVol domainSign
          simp only
          rw [toFinset_perm hw, hlast, mul_comm]
          congr 1
          exact domain_dual hu hul v (i + 1) 0
        rw [List.map_congr_left hval, sum_list_const, List.length_permutations, he1]
        ring
      · rw [if_neg hs, if_neg hs, zero_mul]
    rw [List.map_congr_left hterm, sum_map_mul_right']
    exact mul_div_cancel_right₀ _ (Nat.cast_ne_zero.2 (Nat.factorial_ne_zero _))

/-- C59: the dual measure of an element: for every simplex around the element and every order in which
the missing corners can be added, the volume spanned by the circumcenters on the way from the element
to the simplex, counted negative if the circumcenter of the simplex lies outside on the last step -/
theorem C59_dual (h : MetricInput uniq solve eigh ratio n simplices t V y ctr) :
    ∃ PM DM, metric solve eigh ratio t V none = .ok (PM, DM) ∧
      ∀ k ≤ n, ∃ L, DM[n - k]? = some L ∧ L.length = t.nElements k ∧
        ∀ (x : Nat) (e : List Nat), (t.elements[k]?.getD [])[x]? = some e →
          (k = n → L[x]? = some 1) ∧
          (k < n → ∃ piece : List Nat → ℝ,
            (∀ v, unsignedVolume (Matrix.of (chainOfCenters ctr e v (n - k))) = .ok (piece v)) ∧
            L[x]? = some (simplices.map fun l => if e ⊆ l then ((l.diff e).permutations.map fun v =>
              Real.sign (y l.toFinset (v.getLast?.getD 0)) * piece v).sum else 0).sum) :=
  dual_weighted h (by simp) h.centers.power

/-- C59: the dual measures of the vertices add up to the primal measures of the simplices -/
theorem C59_total (h : MetricInput uniq solve eigh ratio n simplices t V y ctr) :
    ∃ PM DM, metric solve eigh ratio t V none = .ok (PM, DM) ∧
      ∃ P L, PM[n]? = some P ∧ DM[n]? = some L ∧ L.sum = P.sum := by
  obtain ⟨hn, wf⟩ := fromSimplices_wf h.uniq_ok h.rows h.built
  obtain ⟨m, rfl⟩ : ∃ m, n = m + 1 := ⟨n - 1, by omega⟩
  obtain ⟨PM, DM, hm, hPl, hDl, hP0, hPi, hPn, hD0, hDi, htot⟩ := h.values
  refine ⟨PM, DM, hm, _, _, hPn, hDi (m + 1) (by omega) (Nat.le_refl _), ?_⟩
  rw [hPn, hDi (m + 1) (by omega) (Nat.le_refl _)] at htot
  exact htot.symm

/-- the sum of the values of all domains, element by element -/
theorem sum_by_key {m : Nat} (wf : WF (m + 1) simplices t) (htop : Simplices (m + 2) simplices)
    {k : Nat} (hk : k ≤ m + 1) (g : Nat × List Nat → ℝ) :
    ((List.range (t.elements[k]?.getD []).length).map fun x =>
      (((flagList m simplices).filter fun q => domainKey t.elements m k q = x).map g).sum).sum =
      ((flagList m simplices).map g).sum := by
  rw [← groupSum_total _ (domainKey t.elements m k) g (keys_range wf htop hk),
    groupSum_eq _ _ _ (keys_range wf htop hk)]

/-- C59: the products of the primal and the dual measures of the elements of dimension `k` add up to
the total volume, `n` over `k` times.  For vertices and edges this needs no circumcenter to lie
inside. -/
theorem C59_diamond (h : MetricInput uniq solve eigh ratio n simplices t V y ctr) :
    ∃ PM DM, metric solve eigh ratio t V none = .ok (PM, DM) ∧
      ∀ k ≤ n, (min (k + 1) n ≤ 2 ∨ InsideUpTo simplices y (min (k + 1) n)) →
        ∃ P L Q, PM[k]? = some P ∧ DM[n - k]? = some L ∧ PM[n]? = some Q ∧
          (List.zipWith (· * ·) P L).sum = (n.choose k : ℝ) * Q.sum := by
  obtain ⟨PM, DM, hm, hPl, hDl, hprim⟩ := C59_primal h
  obtain ⟨PM', DM', hm', hdual⟩ := C59_dual h
  rw [hm] at hm'
  obtain ⟨rfl, rfl⟩ := Prod.mk.inj (Except.ok.inj hm')
  refine ⟨PM, DM, hm, ?_⟩
  intro k hk hin
  obtain ⟨P, hP, hPlen, hPx⟩ := hprim k hk hin
  obtain ⟨L, hL, hLlen, hLx⟩ := hdual k hk
  obtain ⟨hn, wf⟩ := fromSimplices_wf h.uniq_ok h.rows h.built
  obtain ⟨m, rfl⟩ : ∃ m, n = m + 1 := ⟨n - 1, by omega⟩
  have htop := h.rows
  obtain ⟨PM', DM', hm', -, -, -, -, hPn, hD0, -, -⟩ := h.values
  rw [hm] at hm'
  obtain ⟨rfl, rfl⟩ := Prod.mk.inj (Except.ok.inj hm')
  refine ⟨P, L, _, hP, hL, hPn, ?_⟩
  rcases Nat.eq_or_lt_of_le hk with rfl | hkm
  · rw [hPn] at hP
    have hP := Option.some.inj hP
    rw [Nat.choose_self, Nat.cast_one, one_mul, hP]
    apply congrArg List.sum
    apply List.ext_getElem
    · rw [List.length_zipWith, hPlen, hLlen, Nat.min_self]
    · intro x h1 h2
      rw [List.getElem_zipWith]
      have hx3 : x < (t.elements[m + 1]?.getD []).length := by rw [hPlen] at h2; exact h2
      have := (hLx x _ (List.getElem?_eq_getElem hx3)).1 rfl
      obtain ⟨_, h5⟩ := List.getElem?_eq_some_iff.1 this
      rw [h5, mul_one]
  · obtain ⟨i, hi⟩ : ∃ i, m + 1 = k + (i + 1) := ⟨m - k, by omega⟩
    have hin : InsideUpTo simplices y (k + 1) := by
      rcases hin with hin | hin
      · intro S hS hcard
        exact insideUpTo_two htop h.nondegenerate h.centers S hS (by omega)
      · intro S hS hcard
        exact hin S hS (by omega)
    set f : List Nat → ℝ := fun w => domainVol (domainPos ctr) 0 (m + 1) (0, w) * domainSign y (0, w) with hf
    have hq : ∀ q : Nat × List Nat, domainVol (domainPos ctr) 0 (m + 1) q * domainSign y q = f q.2 :=
      fun _ => rfl
    have hQ := sum_by_key wf htop (Nat.le_refl (m + 1)) (fun q => f q.2)
    rw [wf.top_eq, Option.getD_some] at hQ
    simp only [hq]
    rw [hQ, ← sum_by_key wf htop hk (fun q => f q.2), ← List.sum_map_mul_left]
    apply congrArg List.sum
    apply List.ext_getElem
    · rw [List.length_zipWith, hPlen, hLlen, Nat.min_self, List.length_map, List.length_range]
      rfl
    · intro x h1 h2
      rw [List.getElem_zipWith, List.getElem_map, List.getElem_range]
      have hx3 : x < (t.elements[k]?.getD []).length := by
        rw [List.length_map, List.length_range] at h2; exact h2
      have hx := List.getElem?_eq_getElem hx3
      set e := (t.elements[k]?.getD [])[x] with he
      obtain ⟨he1, he2, l0, hl0, hs0⟩ := wf.element_face htop hk (List.mem_of_getElem? hx)
      obtain ⟨ve, hve, hPxe⟩ := hPx x e hx
      obtain ⟨piece, hpiece, hLxe⟩ := (hLx x e hx).2 hkm
      rw [volume_eq_vol (by have := h.dims; omega)] at hve
      have hve := Except.ok.inj hve
      have hpiece : ∀ v, vol (chainOfCenters ctr e v (m + 1 - k)) = piece v := by
        intro v
        have := hpiece v
        rw [volume_eq_vol (by have := h.dims; omega)] at this
        exact Except.ok.inj this
      obtain ⟨_, h5⟩ := List.getElem?_eq_some_iff.1 hPxe
      obtain ⟨_, h6⟩ := List.getElem?_eq_some_iff.1 hLxe
      rw [h5, h6, sum_domains_of wf htop (by omega) hx f]
      set β : List Nat → Nat → ℝ := fun s v => y s.toFinset v with hβd
      have hbary := (barycentric htop h.centers hl0).sub (List.subperm_of_subset he2 hs0)
      have hone : (e.permutations.map (flagProd β)).sum = 1 := by
        rcases Nat.eq_zero_or_pos k with hk0 | hk1
        · have hlen : e.length = 1 := by omega
          obtain ⟨a, ha⟩ := List.length_eq_one_iff.1 hlen
          have := hbary.one e (List.Subperm.refl e) (by rw [ha]; simp)
          rw [ha] at this ⊢
          simp only [List.map_cons, List.map_nil, List.sum_cons, List.sum_nil, add_zero] at this
          have hsingle : flagProd β [a] = |β [a] a| := by simp [flagProd]
          have hperm : [a].permutations = [[a]] := by
            obtain ⟨u, hu⟩ := List.length_eq_one_iff.1 (by
              rw [List.length_permutations]; rfl : [a].permutations.length = 1)
            have : u ∈ [a].permutations := by rw [hu]; simp
            rw [hu, List.perm_singleton.1 (List.mem_permutations.1 this)]
          rw [hperm, List.map_singleton, List.sum_singleton, hsingle, show β [a] a = 1 from this, abs_one]
        · obtain ⟨k', rfl⟩ : ∃ k', k = k' + 1 := ⟨k - 1, by omega⟩
          rw [← ((wRows_permutations he1 he2).map (flagProd β)).sum_eq]
          refine sum_flagProd β k' e he1 he2 hbary ?_
          intro s v hs _ hv
          refine hin s.toFinset (spansFace_of_subset hl0 (fun _ hx => hs0 (hs.subset hx)) (List.ne_nil_of_mem hv)) ?_ v
            (List.mem_toFinset.2 hv)
          refine (List.toFinset_card_le s).trans ?_
          have := hs.length_le
          omega
      have hfac : ((m + 1).choose k : ℝ) * (k.factorial : ℝ) * ((m + 1 - k).factorial : ℝ) =
          ((m + 1).factorial : ℝ) := by
        exact_mod_cast Nat.choose_mul_factorial_mul_factorial hk
      have hterm : ∀ l ∈ simplices, ((m + 1).choose k : ℝ) * (if e ⊆ l then (e.permutations.map fun u =>
          ((l.diff e).permutations.map fun v => f (u ++ v)).sum).sum else 0) =
          ve * (if e ⊆ l then ((l.diff e).permutations.map fun v =>
            Real.sign (y l.toFinset (v.getLast?.getD 0)) * piece v).sum else 0) := by
        intro l hl
        by_cases hs : e ⊆ l
        · rw [if_pos hs, if_pos hs]
          have hpd := diff_append hs he2
          have hval : ∀ u ∈ e.permutations, ((l.diff e).permutations.map fun v => f (u ++ v)).sum =
              flagProd β u * (((l.diff e).permutations.map fun v =>
                Real.sign (y l.toFinset (v.getLast?.getD 0)) * piece v).sum *
                (ve * (k.factorial : ℝ) * ((m + 1 - k).factorial : ℝ) / ((m + 1).factorial : ℝ))) := by
            intro u hu
            have hu := List.mem_permutations.1 hu
            have hul : u.length = k + 1 := hu.length_eq.trans he1
            rw [← sum_map_mul_right', ← List.sum_map_mul_left]
            apply congrArg List.sum
            apply List.map_congr_left
            intro v hv
            have hv := List.mem_permutations.1 hv
            have hw : (u ++ v).Perm l := (hu.append hv).trans hpd
            have hwl : (u ++ v).length = m + 2 := hw.length_eq.trans (htop l hl).1
            have hvl : v.length = i + 1 := by
              rw [List.length_append] at hwl
              omega
            have hlast : (u ++ v).getLast? = v.getLast? := by
              rw [List.getLast?_append]
              cases hvv : v.getLast? with
              | none =>
                rw [List.getLast?_eq_none_iff] at hvv
                rw [hvv] at hvl
                simp at hvl
              | some a => rfl
            have hface : ∀ r, SpansFace simplices ((u ++ v).take (r + 1)).toFinset := by
              intro r
              refine spansFace_of_subset hl (fun a ha => hw.subset (List.mem_of_mem_take ha)) ?_
              intro h0
              rcases List.take_eq_nil_iff.1 h0 with h0 | h0
              · omega
              · rw [h0] at hwl; simp at hwl
            have hmono : ∀ r s, r ≤ s → ((u ++ v).take (r + 1)).toFinset ⊆ ((u ++ v).take (s + 1)).toFinset := by
              intro r s hrs a ha
              rw [List.mem_toFinset] at ha ⊢
              exact List.take_subset_take_left _ (by omega) ha
            have horth := vol_orthogonal (fun r => domainPos ctr (0, u ++ v) r) k (m + 1 - k) (by
              intro r hr s hs1 _
              exact centers_orthogonal (h.centers _ (hface r)) (h.centers _ (hface k)) (h.centers _ (hface s))
                (hmono r k hr) (hmono k s hs1) (hface k).1)
            have hprimal := domainVol_eq htop h.centers hl hw 0 hk (e := e) (by
              rw [List.take_append_of_le_length (by omega), List.take_of_length_le (by omega)]
              exact hu)
            rw [List.take_append_of_le_length (by omega), List.take_of_length_le (by omega), hve] at hprimal
            have hd := domain_dual (ctr := ctr) hu hul v (m + 1 - k) 0
            rw [hpiece] at hd
            have h0 : domainVol (domainPos ctr) 0 (m + 1) (0, u ++ v) * ((m + 1).factorial : ℝ) =
                (domainVol (domainPos ctr) 0 k (0, u ++ v) * (k.factorial : ℝ)) *
                (domainVol (domainPos ctr) k (m + 1 - k) (0, u ++ v) * ((m + 1 - k).factorial : ℝ)) := by
              have hkk : k + (m + 1 - k) = m + 1 := by omega
              unfold domainVol
              simp only [Nat.zero_add]
              rw [hkk] at horth
              exact horth
            rw [hprimal, hd] at h0
            have hne : ((m + 1).factorial : ℝ) ≠ 0 := Nat.cast_ne_zero.2 (Nat.factorial_ne_zero _)
            simp only [hf, domainSign]
            rw [toFinset_perm hw, hlast, eq_div_of_mul_eq hne h0]
            ring
          rw [List.map_congr_left hval, sum_map_mul_right', hone, one_mul]
          have hne : ((m + 1).factorial : ℝ) ≠ 0 := Nat.cast_ne_zero.2 (Nat.factorial_ne_zero _)
          rw [show ∀ A : ℝ, ((m + 1).choose k : ℝ) * (A * (ve * (k.factorial : ℝ) *
              ((m + 1 - k).factorial : ℝ) / ((m + 1).factorial : ℝ))) =
              ve * A * (((m + 1).choose k : ℝ) * (k.factorial : ℝ) * ((m + 1 - k).factorial : ℝ) /
                ((m + 1).factorial : ℝ)) from fun A => by ring, hfac, div_self hne, mul_one]
        · rw [if_neg hs, if_neg hs, mul_zero, mul_zero]
      rw [← List.sum_map_mul_left, ← List.sum_map_mul_left, List.map_congr_left hterm]

/-- C59: if all circumcenters lie inside, no dual measure is negative -/
theorem C59_wellcentred (h : MetricInput uniq solve eigh ratio n simplices t V y ctr)
    (hin : InsideUpTo simplices y (n + 1)) :
    ∃ PM DM, metric solve eigh ratio t V none = .ok (PM, DM) ∧
      ∀ k ≤ n, ∃ L, DM[k]? = some L ∧ ∀ v ∈ L, 0 ≤ v := by
  obtain ⟨PM, DM, hm, hd⟩ := C59_dual h
  refine ⟨PM, DM, hm, ?_⟩
  intro k hk
  obtain ⟨L, hL, hlen, hx⟩ := hd (n - k) (Nat.sub_le _ _)
  rw [Nat.sub_sub_self hk] at hL
  refine ⟨L, hL, ?_⟩
  intro v hv
  obtain ⟨x, hx1, hx2⟩ := List.getElem_of_mem hv
  have hx3 : x < (t.elements[n - k]?.getD []).length := by rw [hlen] at hx1; exact hx1
  have he := List.getElem?_eq_getElem hx3
  obtain ⟨-, wf⟩ := fromSimplices_wf h.uniq_ok h.rows h.built
  obtain ⟨he1, he2, -⟩ := wf.element_face h.rows (Nat.sub_le n k) (List.mem_of_getElem? he)
  obtain ⟨ha, hb⟩ := hx x _ he
  rcases Nat.eq_or_lt_of_le (Nat.sub_le n k) with h0 | h0
  · have := ha h0
    rw [List.getElem?_eq_getElem hx1, hx2] at this
    rw [Option.some.inj this]
    norm_num
  · obtain ⟨piece, hp, hval⟩ := hb h0
    rw [List.getElem?_eq_getElem hx1, hx2] at hval
    rw [Option.some.inj hval]
    refine List.sum_nonneg ?_
    intro z hz
    obtain ⟨l, hl, rfl⟩ := List.mem_map.1 hz
    split
    · next hs =>
      refine List.sum_nonneg ?_
      intro z hz
      obtain ⟨v, hv, rfl⟩ := List.mem_map.1 hz
      have hv := List.mem_permutations.1 hv
      have hpos : 0 ≤ piece v := by
        have h1 := hp v
        rw [volume_eq_vol (by have := h.dims; omega)] at h1
        rw [← Except.ok.inj h1]
        unfold vol
        positivity
      refine mul_nonneg ?_ hpos
      have hv0 : v ≠ [] := by
        rintro rfl
        have h1 : l.Perm _ := (diff_append hs he2).symm
        have h2 := h1.length_eq
        rw [List.length_append, ← hv.length_eq, he1, (h.rows l hl).1] at h2
        simp at h2
        omega
      · have hmem : v.getLast?.getD 0 ∈ v := by
          rw [List.getLast?_eq_getLast_of_ne_nil hv0]
          exact List.getLast_mem hv0
        have hml : v.getLast?.getD 0 ∈ l := List.diff_subset _ _ (hv.mem_iff.1 hmem)
        refine sign_nonneg_of (hin l.toFinset (spansFace_of_subset hl (List.Subset.refl l)
          (List.ne_nil_of_mem hml)) ?_ _ (List.mem_toFinset.2 hml))
        rw [List.toFinset_card_of_nodup (h.rows l hl).2, (h.rows l hl).1]
    · exact le_refl _

theorem face_toFinset {l : List Nat} (hn : l.Nodup) {c : Nat} (hc : c < l.length) :
    (simplexFace l c).toFinset = l.toFinset.erase (l[c]?.getD 0) := by
  rw [toFinset_perm (simplexFace_perm hc), List.getElem?_eq_getElem hc, Option.getD_some]
  ext v
  have h1 := (eraseIdx_append_perm hc).mem_iff (a := v)
  have h2 := (eraseIdx_append_perm hc).nodup_iff.2 hn
  rw [List.nodup_append] at h2
  rw [Finset.mem_erase, List.mem_toFinset, List.mem_toFinset, ← h1, List.mem_append, List.mem_singleton]
  constructor
  · intro hv
    exact ⟨h2.2.2 v hv _ (by simp), Or.inl hv⟩
  · rintro ⟨hv, h | h⟩
    · exact h
    · exact absurd h hv

theorem sum_range_toFinset {l : List Nat} (hn : l.Nodup) (f : Nat → ℝ) :
    ((List.range l.length).map fun c => f (l[c]?.getD 0)).sum = ∑ v ∈ l.toFinset, f v := by
  rw [map_range_getElem, List.sum_toFinset _ hn]

/-- C59: what the measure of a tetrahedron is if its faces may be obtuse: the volume, times a factor
that is one if the circumcenters of its triangles lie inside -/
theorem C59_tetrahedron (h : MetricInput uniq solve eigh ratio 3 simplices t V y ctr) :
    ∃ PM DM, metric solve eigh ratio t V none = .ok (PM, DM) ∧
      ∃ L, PM[3]? = some L ∧ ∀ (x : Nat) (l : List Nat), simplices[x]? = some l →
        ∃ v, unsignedVolume (Matrix.of (cornersOf V 4 l)) = .ok v ∧
          L[x]? = some ((∑ a ∈ l.toFinset, y l.toFinset a *
            ∑ b ∈ l.toFinset.erase a, |y (l.toFinset.erase a) b|) * v) := by
  have htop := h.rows
  obtain ⟨PM, DM, hm, hPl, hDl, hP0, hPi, hPn, hD0, hDi, htot⟩ := h.values
  refine ⟨PM, DM, hm, _, hPn, ?_⟩
  intro x l hx
  have hlm := List.mem_of_getElem? hx
  obtain ⟨hl1, hl2⟩ := htop l hlm
  refine ⟨vol (cornersOf V 4 l), volume_eq_vol h.dims _, ?_⟩
  rw [List.getElem?_map, List.getElem?_range (List.getElem?_eq_some_iff.1 hx).1, Option.map_some,
    sum_top htop h.centers hx]
  congr 2
  have hb := barycentric htop h.centers hlm
  have h0 := sum_wRows_succ (fun s v => y s.toFinset v) (fun v => Real.sign (y l.toFinset v)) 1 l hl1 hl2 hb
  rw [h0, ← sum_range_toFinset hl2]
  apply congrArg List.sum
  apply List.map_congr_left
  intro c hc
  have hc := List.mem_range.1 hc
  rw [sign_mul_abs', mul_comm]
  congr 1
  have hfl : (simplexFace l c).length = 3 := by rw [simplexFace_length hc]; omega
  have hfn := simplexFace_nodup hl2 hc
  have hsub := simplexFace_subperm hc
  have h1 := sum_wRows_succ (fun s v => y s.toFinset v) (fun _ => 1) 0 (simplexFace l c) hfl hfn (hb.sub hsub)
  simp only [mul_one] at h1
  change ((wRows 1 (simplexFace l c)).map fun w => flagProd (fun s v => y s.toFinset v) w).sum = _
  rw [h1, ← face_toFinset hl2 hc, ← sum_range_toFinset hfn]
  apply congrArg List.sum
  apply List.map_congr_left
  intro c' hc'
  have hc' := List.mem_range.1 hc'
  have hsub' := simplexFace_subperm hc'
  rw [sum_flagProd _ 0 _ (by rw [simplexFace_length hc']; omega) (simplexFace_nodup hfn hc')
    ((hb.sub hsub).sub hsub'), one_mul]
  intro s v hs _ hv
  refine insideUpTo_two htop h.nondegenerate h.centers s.toFinset
    (spansFace_of_subset hlm ((hs.trans hsub').trans hsub).subset (List.ne_nil_of_mem hv)) ?_ v
    (List.mem_toFinset.2 hv)
  refine (List.toFinset_card_le s).trans ?_
  have := hs.length_le
  rw [simplexFace_length hc', hfl] at this
  exact this

/-- C59: the hypotheses about eigenvalues and circumcenters can be met for every oriented complex
without degenerate simplices -/
theorem C59_applies (hu : UniqSpec uniq) (hs : Simplices (n + 1) simplices)
    (hb : fromSimplices uniq (n + 1) simplices = .ok t) (hne : simplices ≠ [])
    (ho : isOriented solve t = .ok true) (hD : n ≤ D) (hv : ∀ l ∈ simplices, ∀ v ∈ l, v < V.length)
    (hnd : NonDegenerate V n simplices) :
    ∃ eigh ratio y ctr, MetricInput uniq solve eigh ratio n simplices t V y ctr := by
  obtain ⟨y, ctr, hc⟩ := exists_centers hnd hs
  obtain ⟨r, hr⟩ := exists_tolerance V t.elements n
  choose eigh he using exists_eigh_function
  exact ⟨eigh, r, y, ctr, hu, hs, hb, hne, ho, hD, hv, he, hr r (le_refl r), hnd, hc⟩

/-- C59: a complex that is not oriented has no metric -/
theorem C59_assert {D : Nat} (solve : List (List Int) → Option (List Int))
    (eigh : (n : Nat) → Matrix (Fin n) (Fin n) ℝ → Eigh n ℝ) (ratio : ℝ) (t : Topo) (V : List (Vec ℝ D))
    (weights : Option (List ℝ)) (h : isOriented solve t = .ok false) :
    metric solve eigh ratio t V weights = .error .assertionError := by
  unfold metric
  rw [h]
  rfl

end

/-! ### Instances -/

theorem affineIndependent_of {N D : Nat} {p : Fin N → Fin D → ℝ}
    (h : ∀ w : Fin N → ℝ, ∑ i, w i = 0 → (∀ j, ∑ i, w i * p i j = 0) → ∀ i, w i = 0) :
    AffineIndependent ℝ p := by
  rw [affineIndependent_iff]
  intro s w h1 h2 i hi
  have := h (fun i => if i ∈ s then w i else 0) (by simpa using h1) (by
    intro j
    have := congrFun h2 j
    simpa [Finset.sum_apply] using this) i
  simpa [hi] using this

/-- the corners of the unit square -/
def squareCorners : List (Vec ℝ 2) := [![0, 0], ![1, 0], ![1, 1], ![0, 1]]

theorem squareCorners_nondegenerate : NonDegenerate squareCorners 2 [[0, 1, 2], [0, 2, 3]] := by
  intro l hl
  apply affineIndependent_of
  intro w h1 h2
  have a := h2 0
  have b := h2 1
  simp only [List.mem_cons, List.not_mem_nil, or_false] at hl
  rcases hl with rfl | rfl <;>
  · simp [Fin.sum_univ_three, cornersOf, position, squareCorners] at h1 a b
    intro i
    fin_cases i <;> simp <;> linarith

/-- a tetrahedron over a triangle with an obtuse angle -/
def obtuseCorners : List (Vec ℝ 3) := [![0, 0, 0], ![4, 0, 0], ![2, 1, 0], ![2, 0, 3]]

theorem obtuseCorners_nondegenerate : NonDegenerate obtuseCorners 3 [[0, 1, 2, 3]] := by
  intro l hl
  apply affineIndependent_of
  intro w h1 h2
  have a := h2 0
  have b := h2 1
  have c := h2 2
  simp only [List.mem_cons, List.not_mem_nil, or_false] at hl
  subst hl
  simp [Fin.sum_univ_four, cornersOf, position, obtuseCorners] at h1 a b c
  intro i
  fin_cases i <;> simp <;> linarith

/-- the two triangles of a square meet all hypotheses -/
example : ∃ (solve : List (List Int) → Option (List Int)) (t : Topo)
    (eigh : (n : Nat) → Matrix (Fin n) (Fin n) ℝ → Eigh n ℝ) (ratio : ℝ) (y : Finset Nat → Nat → ℝ)
    (ctr : Finset Nat → Fin 2 → ℝ),
    MetricInput List.dedup solve eigh ratio 2 [[0, 1, 2], [0, 2, 3]] t squareCorners y ctr := by
  have hs : Simplices 3 [[0, 1, 2], [0, 2, 3]] := simplices_of_all (by decide)
  have hf : fromSimplices List.dedup 3 [[0, 1, 2], [0, 2, 3]] =
    .ok (built 3 [[0, 1, 2], [0, 2, 3]]) := by decide +kernel
  have hco : Coherent [[0, 1, 2], [0, 2, 3]] := by
    rw [← reorient_false [[0, 1, 2], [0, 2, 3]],
      ← (wf_built hs hf).satisfies_iff_coherent hs (fun _ => false)]
    decide +kernel
  obtain ⟨solve, -, ho⟩ := C08_coherent_some_solver uniqSpec_dedup hs hf (by simp) hco
  obtain ⟨eigh, ratio, y, ctr, h⟩ := C59_applies (V := squareCorners) uniqSpec_dedup hs hf (by simp) ho
    (Nat.le_refl 2) (by decide) squareCorners_nondegenerate
  exact ⟨solve, _, eigh, ratio, y, ctr, h⟩

/-- C59 fails for tetrahedra with obtuse faces: a tetrahedron of volume 2 with one obtuse face is given
the measure 11/3 -/
theorem C59_obtuse_face : ∃ (solve : List (List Int) → Option (List Int)) (t : Topo)
    (eigh : (n : Nat) → Matrix (Fin n) (Fin n) ℝ → Eigh n ℝ) (ratio : ℝ) (y : Finset Nat → Nat → ℝ)
    (ctr : Finset Nat → Fin 3 → ℝ),
    MetricInput List.dedup solve eigh ratio 3 [[0, 1, 2, 3]] t obtuseCorners y ctr ∧
    ∃ PM DM, metric solve eigh ratio t obtuseCorners none = .ok (PM, DM) ∧
      unsignedVolume (Matrix.of (cornersOf obtuseCorners 4 [0, 1, 2, 3])) = .ok 2 ∧
      PM[3]? = some [11 / 3] := by
  have hs : Simplices 4 [[0, 1, 2, 3]] := simplices_of_all (by decide)
  have hf : fromSimplices List.dedup 4 [[0, 1, 2, 3]] = .ok (built 4 [[0, 1, 2, 3]]) := by decide +kernel
  obtain ⟨n, hn, -, wf⟩ := wf_of_ok uniqSpec_dedup hs hf
  obtain rfl : n = 3 := by omega
  have hco : Coherent [[0, 1, 2, 3]] := by
    rw [← reorient_false [[0, 1, 2, 3]], ← wf.satisfies_iff_coherent hs (fun _ => false)]
    decide +kernel
  obtain ⟨solve, -, ho⟩ := C08_coherent_some_solver uniqSpec_dedup hs hf (by simp) hco
  obtain ⟨eigh, ratio, y, ctr, h⟩ := C59_applies (V := obtuseCorners) uniqSpec_dedup hs hf (by simp) ho
    (Nat.le_refl 3) (by decide) obtuseCorners_nondegenerate
  refine ⟨solve, _, eigh, ratio, y, ctr, h, ?_⟩
  obtain ⟨PM, DM, hm, L, hL, hx⟩ := C59_tetrahedron h
  obtain ⟨v, hv, hLx⟩ := hx 0 [0, 1, 2, 3] rfl
  obtain ⟨PM', DM', hm', -, -, -, -, hPn, -⟩ := h.values (m := 2)
  rw [hm] at hm'
  obtain ⟨rfl, rfl⟩ := Prod.mk.inj (Except.ok.inj hm')
  have hlen : L.length = 1 := by
    rw [hL] at hPn
    rw [Option.some.inj hPn]
    simp
  obtain ⟨x, hx1⟩ := List.length_eq_one_iff.1 hlen
  subst hx1
  have hv2 : v = 2 := by
    rw [volume_eq_vol (by omega)] at hv
    rw [← Except.ok.inj hv]
    have he : edgeRows (Matrix.of (cornersOf obtuseCorners 4 [0, 1, 2, 3])) =
        !![4, 0, 0; 2, 1, 0; 2, 0, 3] := by
      ext i j
      fin_cases i <;> fin_cases j <;> simp [edgeRows, cornersOf, position, obtuseCorners]
    unfold vol
    rw [he, det_mul, det_transpose]
    have hdet : (!![4, 0, 0; 2, 1, 0; 2, 0, 3] : Matrix (Fin 3) (Fin 3) ℝ).det = 12 := by
      rw [det_fin_three]
      simp
      norm_num
    rw [hdet, abs_mul_self, Real.sqrt_mul_self (by norm_num)]
    norm_num [Nat.factorial]
  refine ⟨PM, DM, hm, hv2 ▸ hv, ?_⟩
  · rw [hL]
    have hLx : x = _ := Option.some.inj hLx
    rw [hLx]
    have hface : ∀ S : Finset Nat, S.Nonempty → S ⊆ {0, 1, 2, 3} → SpansFace [[0, 1, 2, 3]] S := by
      intro S h0 h1
      exact ⟨h0, _, List.mem_singleton_self _, h1⟩
    have hd : ∀ a b c : Fin 3 → ℝ, (dist2 c a = dist2 c b ↔
        (c 0 - a 0) ^ 2 + (c 1 - a 1) ^ 2 + (c 2 - a 2) ^ 2 = (c 0 - b 0) ^ 2 + (c 1 - b 1) ^ 2 + (c 2 - b 2) ^ 2) := by
      intro a b c
      simp [dist2, Fin.sum_univ_three]
    have c012 := h.centers {0, 1, 2} (hface _ (by decide) (by decide))
    have c013 := h.centers {0, 1, 3} (hface _ (by decide) (by decide))
    have c023 := h.centers {0, 2, 3} (hface _ (by decide) (by decide))
    have c123 := h.centers {1, 2, 3} (hface _ (by decide) (by decide))
    have c0123 := h.centers {0, 1, 2, 3} (hface _ (by decide) (by decide))
    have v012 : y {0, 1, 2} 0 = 5 / 4 ∧ y {0, 1, 2} 1 = 5 / 4 ∧ y {0, 1, 2} 2 = -3 / 2 := by
      have e0 := c012.one
      have e1 := c012.point 0
      have e2 := c012.point 1
      have e3 := c012.point 2
      have e4 := (hd _ _ _).1 (c012.equidistant 0 (by simp) 1 (by simp))
      have e5 := (hd _ _ _).1 (c012.equidistant 0 (by simp) 2 (by simp))
      simp [position, obtuseCorners] at e0 e1 e2 e3 e4 e5
      refine ⟨?_, ?_, ?_⟩ <;> linarith
    have v013 : y {0, 1, 3} 0 = 13 / 36 ∧ y {0, 1, 3} 1 = 13 / 36 ∧ y {0, 1, 3} 3 = 5 / 18 := by
      have e0 := c013.one
      have e1 := c013.point 0
      have e2 := c013.point 1
      have e3 := c013.point 2
      have e4 := (hd _ _ _).1 (c013.equidistant 0 (by simp) 1 (by simp))
      have e5 := (hd _ _ _).1 (c013.equidistant 0 (by simp) 3 (by simp))
      simp [position, obtuseCorners] at e0 e1 e2 e3 e4 e5
      refine ⟨?_, ?_, ?_⟩ <;> linarith
    have v023 : y {0, 2, 3} 0 = 20 / 49 ∧ y {0, 2, 3} 2 = 13 / 98 ∧ y {0, 2, 3} 3 = 45 / 98 := by
      have e0 := c023.one
      have e1 := c023.point 0
      have e2 := c023.point 1
      have e3 := c023.point 2
      have e4 := (hd _ _ _).1 (c023.equidistant 0 (by simp) 2 (by simp))
      have e5 := (hd _ _ _).1 (c023.equidistant 0 (by simp) 3 (by simp))
      simp [position, obtuseCorners] at e0 e1 e2 e3 e4 e5
      refine ⟨?_, ?_, ?_⟩ <;> linarith
    have v123 : y {1, 2, 3} 1 = 20 / 49 ∧ y {1, 2, 3} 2 = 13 / 98 ∧ y {1, 2, 3} 3 = 45 / 98 := by
      have e0 := c123.one
      have e1 := c123.point 0
      have e2 := c123.point 1
      have e3 := c123.point 2
      have e4 := (hd _ _ _).1 (c123.equidistant 1 (by simp) 2 (by simp))
      have e5 := (hd _ _ _).1 (c123.equidistant 1 (by simp) 3 (by simp))
      simp [position, obtuseCorners] at e0 e1 e2 e3 e4 e5
      refine ⟨?_, ?_, ?_⟩ <;> linarith
    have v0123 : y {0, 1, 2, 3} 0 = 10 / 9 ∧ y {0, 1, 2, 3} 1 = 10 / 9 ∧ y {0, 1, 2, 3} 2 = -3 / 2 ∧ y {0, 1, 2, 3} 3 = 5 / 18 := by
      have e0 := c0123.one
      have e1 := c0123.point 0
      have e2 := c0123.point 1
      have e3 := c0123.point 2
      have e4 := (hd _ _ _).1 (c0123.equidistant 0 (by simp) 1 (by simp))
      have e5 := (hd _ _ _).1 (c0123.equidistant 0 (by simp) 2 (by simp))
      have e6 := (hd _ _ _).1 (c0123.equidistant 0 (by simp) 3 (by simp))
      simp [position, obtuseCorners] at e0 e1 e2 e3 e4 e5 e6
      refine ⟨?_, ?_, ?_, ?_⟩ <;> linarith
    have hset : ([0, 1, 2, 3] : List Nat).toFinset = {0, 1, 2, 3} := by decide
    have s0 : ({0, 1, 2, 3} : Finset Nat).erase 0 = {1, 2, 3} := by decide
    have s1 : ({0, 1, 2, 3} : Finset Nat).erase 1 = {0, 2, 3} := by decide
    have s2 : ({0, 1, 2, 3} : Finset Nat).erase 2 = {0, 1, 3} := by decide
    have s3 : ({0, 1, 2, 3} : Finset Nat).erase 3 = {0, 1, 2} := by decide
    have f : ∀ (g : Nat → ℝ) (a b c : Nat), a ≠ b → a ≠ c → b ≠ c →
        ∑ v ∈ ({a, b, c} : Finset Nat), g v = g a + g b + g c := by
      intro g a b c hab hac hbc
      rw [Finset.sum_insert (by simp [hab, hac]), Finset.sum_pair hbc, add_assoc]
    rw [hset, Finset.sum_insert (by decide), f _ 1 2 3 (by decide) (by decide) (by decide), s0, s1, s2, s3,
      f _ 1 2 3 (by decide) (by decide) (by decide), f _ 0 2 3 (by decide) (by decide) (by decide),
      f _ 0 1 3 (by decide) (by decide) (by decide), f _ 0 1 2 (by decide) (by decide) (by decide),
      v012.1, v012.2.1, v012.2.2, v013.1, v013.2.1, v013.2.2, v023.1, v023.2.1, v023.2.2, v123.1, v123.2.1,
      v123.2.2, v0123.1, v0123.2.1, v0123.2.2.1, v0123.2.2.2, hv2]
    norm_num [abs_of_pos, abs_of_neg]

end Verif.Props
