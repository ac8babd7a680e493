/-
Weights of fundamental domains, and the averaging operators that they are applied to.
-/
import Verif.Model.WeightedAveraging
import Verif.Spec.WeightedAveraging
import Verif.Props.DualAveraging
import Verif.Props.WellCentered

set_option linter.unusedSectionVars false

namespace Verif.Props

open Verif Verif.Model Verif.Spec

variable {uniq : List (List Nat) → List (List Nat)} {solve : List (List Int) → Option (List Int)}
variable {n m : Nat} {simplices : List (List Nat)} {t : Topo} {s : Sub}

/-! ### the averaging operators -/

/-- what is needed of the averaging operators: the number of rows and columns, and that all the simplices around an element have the
same positive entry in its row -/
def EvenRows (simplices : List (List Nat)) (t : Topo) (n N : Nat) (nb : Nat → Nat) (L : List (Mat ℝ)) : Prop :=
  L.length = n + 1 ∧ ∀ i k, i + 1 + k = n → ∃ A, L[i + 1]? = some A ∧ A.rows = t.nElements k + nb k ∧ A.cols = N ∧
    (i + 1 ≤ 5 → ∀ (x : Nat) (e : List Nat), (t.elements[k]?.getD [])[x]? = some e → ∃ c : ℝ, 0 < c ∧
      ∀ j ∈ Spec.incident simplices e, A.entry x j = c)

theorem sum_indicator {L : List Nat} (hL : L.Nodup) {j : Nat} (hj : j ∈ L) (f : Nat → ℝ) :
    (L.map fun k => f k * (if k = j then 1 else 0)).sum = f j := by
  rw [← List.sum_toFinset _ hL]
  rw [Finset.sum_eq_single j]
  · rw [if_pos rfl, mul_one]
  · intro b _ hb
    rw [if_neg hb, mul_zero]
  · intro h
    exact absurd (List.mem_toFinset.2 hj) h

theorem incident_nodup (e : List Nat) : (Spec.incident simplices e).Nodup := List.nodup_range.filter _

theorem incident_lt {e : List Nat} {j : Nat} (hj : j ∈ Spec.incident simplices e) : j < simplices.length :=
  List.mem_range.1 (List.mem_filter.1 hj).1

/-- the entry of a row that takes means -/
theorem entry_of_cell {A : Mat ℝ} {x j : Nat} {e : List Nat} {F : List (List Nat)} (hN : simplices.length ≤ A.cols)
    (h : ∀ z : Nat → ℝ, ((List.range A.cols).map fun j => A.entry x j * z j).sum = mean (dualCell simplices F e z))
    (hj : j ∈ Spec.incident simplices e) : A.entry x j = 1 / ((Spec.incident simplices e).length + (Spec.incident F e).length : ℕ) := by
  have hlt := incident_lt hj
  have h1 := h fun k => if k = j then 1 else 0
  rw [sum_indicator List.nodup_range (List.mem_range.2 (by omega))] at h1
  rw [h1]
  unfold mean dualCell
  rw [List.length_append, List.length_map, List.length_map, List.sum_append]
  have h2 := sum_indicator (incident_nodup e) hj fun _ => (1 : ℝ)
  simp only [one_mul] at h2
  have h3 : ((Spec.incident F e).map fun r => if simplices.length + r = j then (1 : ℝ) else 0).sum = 0 := by
    apply List.sum_eq_zero
    intro a ha
    obtain ⟨r, -, rfl⟩ := List.mem_map.1 ha
    rw [if_neg (by omega)]
  rw [h2, h3, add_zero]

theorem even_of_mean {A : Mat ℝ} {x : Nat} {e : List Nat} {F : List (List Nat)} (hN : simplices.length ≤ A.cols)
    (h : ∀ z : Nat → ℝ, ((List.range A.cols).map fun j => A.entry x j * z j).sum = mean (dualCell simplices F e z))
    (hne : Spec.incident simplices e ≠ []) :
    ∃ c : ℝ, 0 < c ∧ ∀ j ∈ Spec.incident simplices e, A.entry x j = c := by
  refine ⟨_, ?_, fun j hj => entry_of_cell hN h hj⟩
  have := List.length_pos_iff.2 hne
  positivity

theorem incident_ne (wf : WF n simplices t) (hs : Simplices (n + 1) simplices) {k x : Nat} (hk : k ≤ n) {e : List Nat}
    (he : (t.elements[k]?.getD [])[x]? = some e) : Spec.incident simplices e ≠ [] := by
  obtain ⟨-, -, l, hl, hsub⟩ := wf.element_face hs hk (List.mem_of_getElem? he)
  obtain ⟨j, hj, rfl⟩ := List.getElem_of_mem hl
  apply List.ne_nil_of_mem (a := j)
  refine List.mem_filter.2 ⟨List.mem_range.2 hj, ?_⟩
  rw [List.getElem?_eq_getElem hj, Option.getD_some, List.all_eq_true]
  intro v hv
  exact List.contains_iff_mem.2 (hsub hv)

theorem even_closed (hu : UniqSpec uniq) (hs : Simplices (n + 1) simplices) (h : fromSimplices uniq (n + 1) simplices = .ok t)
    (hb : boundary solve uniq t = .ok none) :
    ∃ ms L, simplicialDual solve uniq t = .ok ms ∧ averagingOperators0 ms = .ok L ∧
      EvenRows simplices t n simplices.length (fun _ => 0) L := by
  obtain ⟨hn, wf⟩ := fromSimplices_wf hu hs h
  obtain ⟨L, h1, h2, h0, h3⟩ := averagingN (K := ℝ) hu hs h
  refine ⟨_, _, by unfold simplicialDual; rw [hb]; rfl, closed_averaging h1, by rw [List.length_reverse, h2], fun i k hk => ?_⟩
  obtain ⟨A, a1, a2, a3, a4⟩ := h3 k (by omega)
  refine ⟨A, by rw [List.getElem?_reverse (by omega), h2, show n + 1 - 1 - (i + 1) = k by omega, a1], by rw [a2]; rfl, a3,
    fun hi x e he => ?_⟩
  have hEk : t.elements[k]? = some (t.elements[k]?.getD []) := by
    rw [List.getElem?_eq_getElem (by rw [wf.lenE]; omega)]
    rfl
  refine even_of_mean (F := []) (by rw [a3]) (fun z => ?_) (incident_ne wf hs (by omega) he)
  have := a4 _ hEk x e he z
  rw [show n - k = i + 1 by omega] at this
  rw [this]
  have hw : Glued.weight ℝ (i + 1) = 1 := weight_one hi
  unfold Glued.weight at hw
  rw [hw, one_mul]
  simp [dualCell, Spec.incident]

theorem even_open (hu : UniqSpec uniq) (hs : Simplices (m + 3) simplices) (h : fromSimplices uniq (m + 3) simplices = .ok t)
    (hb : boundary solve uniq t = .ok (some s)) {ms : List (Mat Int)} (hd : simplicialDual solve uniq t = .ok ms)
    (hord : InOrder s.parentIdx) :
    ∃ L, averagingOperators0 ms = .ok L ∧
      EvenRows simplices t (m + 2) (simplices.length + (bRows t).length) (Glued.nB s) L := by
  have hor := oriented_of_boundary hb
  obtain ⟨hor', hms⟩ := oriented_of_dual hb hd
  obtain ⟨wf, hok⟩ := boundary_sub hu hs h hor hb
  have g := glued_simplicial wf hs hok hord
  obtain ⟨hn, L, l1, l2, -, l4⟩ := simplicial_means (K := ℝ) wf hs hok hord
  rw [g.matrices_eq hor'] at hms
  rw [Except.ok.inj hms] at l1
  refine ⟨L, l1, l2, fun i k hk => ?_⟩
  obtain ⟨A, a1, a2, a3, a4, -⟩ := l4 i k hk
  refine ⟨A, a1, a2, a3, fun hi x e he => ?_⟩
  refine even_of_mean (F := bRows t) (by rw [a3]; omega) (fun z => ?_) (incident_ne wf hs (by omega) he)
  have hx := (List.getElem?_eq_some_iff.1 he).1
  rw [a4 x hx z, weight_one hi, one_mul]
  unfold WF.corners
  rw [he, Option.getD_some]

/-! ### the weights of domains -/

section

variable {D : Nat} {eigh : (n : Nat) → Matrix (Fin n) (Fin n) ℝ → Eigh n ℝ} {ratio : ℝ}
  {V : List (Vec ℝ D)} {W : Option (List ℝ)} {y : Finset Nat → Nat → ℝ} {ctr : Finset Nat → Fin D → ℝ}

theorem vol_pair (p q : Vec ℝ D) (X : Nat → Vec ℝ D) (h0 : X 0 = p) (h1 : X 1 = q) :
    vol (fun r : Fin (1 + 1) => X r) = distance p q := by
  rw [vol_two]
  unfold distance dist2
  congr 1
  simp only [Fin.val_zero, Fin.val_one, h0, h1, innerProd]
  refine Finset.sum_congr rfl fun c _ => ?_
  simp only [Pi.sub_apply]
  ring

/-- the volume of a path whose steps are at right angles -/
theorem vol_steps (X : Nat → Vec ℝ D) : ∀ M, (∀ i j k, i ≤ j → j ≤ k → k ≤ M → ∑ c, (X i c - X j c) * (X k c - X j c) = 0) →
    vol (fun r : Fin (M + 1) => X r) * (M.factorial : ℝ) = ((List.range M).map fun r => distance (X r) (X (r + 1))).prod := by
  intro M
  induction M with
  | zero =>
    intro _
    simp [vol]
  | succ M ih =>
    intro h
    have h1 := vol_orthogonal X M 1 fun i hi j hj1 hj2 => h i M j hi hj1 (by omega)
    rw [ih fun i j k a b c => h i j k a b (by omega)] at h1
    rw [List.range_succ, List.map_append, List.prod_append, List.map_singleton, List.prod_singleton, h1]
    rw [vol_pair (X M) (X (M + 1)) (fun r => X (M + r)) rfl rfl]
    simp

/-- the weight of a domain with the corners `X` -/
noncomputable def pathWeight (X : Nat → Vec ℝ D) (k i : Nat) : ℝ :=
  vol (fun r : Fin (i + 1) => X (k + 1 + r)) / ((List.range (i + 1)).map fun r => distance (X k) (X (k + 1 + r))).prod

theorem domainWeight_eq (X : Nat → Vec ℝ D) {k i N : Nat} (hN : k + (i + 1) = N) (hD : N ≤ D) :
    domainWeight N k ((List.range (N + 1)).map X) = .ok (pathWeight X k i) := by
  unfold domainWeight
  rw [map_range_drop, show N + 1 - (k + 1) = i + 1 by omega, volumeOf_range (by omega)]
  simp only [bind, Except.bind]
  have hit : ∀ r ≤ N, itemAt ((List.range (N + 1)).map X) r = .ok (X r) := by
    intro r hr
    unfold itemAt
    rw [List.getElem?_map, List.getElem?_range (by omega)]
    rfl
  rw [mapM_ok _ (fun r => distance (X k) (X (r + 1)))]
  swap
  · intro r hr
    have hr := List.mem_range'_1.1 hr
    rw [hit k (by omega), hit (r + 1) (by omega)]
    have := volumeOf_range (M := 1) (show 1 ≤ D by omega) (fun z => if z = 0 then X k else X (r + 1))
    rw [vol_pair (X k) (X (r + 1)) (fun z => if z = 0 then X k else X (r + 1)) rfl rfl] at this
    exact this
  unfold pathWeight
  simp only
  congr 3
  rw [List.range'_eq_map_range, List.map_map, show N - k = i + 1 by omega]
  apply List.map_congr_left
  intro r _
  simp only [Function.comp]
  rw [show k + r + 1 = k + 1 + r by omega]

/-- sums over the domains of a simplex at an element -/
theorem sum_domains_pair (wf : WF (m + 1) simplices t) (htop : Simplices (m + 2) simplices)
    {k x j : Nat} (hk : k ≤ m) {e : List Nat} (hx : (t.elements[k]?.getD [])[x]? = some e)
    (g : List Nat → ℝ) :
    (((flagList m simplices).filter fun q => domainKey t.elements m k q = x ∧ q.1 = j).map fun q => g q.2).sum =
      if j ∈ Spec.incident simplices e then (e.permutations.map fun u =>
        (((simplices[j]?.getD []).diff e).permutations.map fun v => g (u ++ v)).sum).sum else 0 := by
  obtain ⟨he1, he2, -⟩ := wf.element_face htop (k := k) (by omega) (List.mem_of_getElem? hx)
  rw [sum_flagList]
  by_cases hj : j < simplices.length
  · rw [Finset.sum_eq_single (⟨j, hj⟩ : Fin simplices.length)]
    · simp only [Fin.getElem_fin, and_true]
      obtain ⟨hl, hn⟩ := htop simplices[j] (List.getElem_mem hj)
      have hf : (wRows m simplices[j]).filter (fun w => decide (domainKey t.elements m k (j, w) = x)) =
          (wRows m simplices[j]).filter fun w => decide ((w.take (k + 1)).Perm e) := by
        apply List.filter_congr
        intro w hw
        exact decide_eq_decide.2 (key_iff wf htop hk hx (List.getElem_mem hj) ((mem_wRows m _ hl hn w).1 hw))
      rw [hf, List.getElem?_eq_getElem hj, Option.getD_some]
      have hiff : j ∈ Spec.incident simplices e ↔ e ⊆ simplices[j] := by
        unfold Spec.incident
        rw [List.mem_filter, List.getElem?_eq_getElem hj, Option.getD_some, List.all_eq_true]
        simp only [List.mem_range, hj, true_and, List.contains_iff_mem]
        exact Iff.rfl
      by_cases hs : e ⊆ simplices[j]
      · rw [if_pos (hiff.2 hs), wRows_begin hl hn he2 he1 hs]
      · rw [if_neg fun h => hs (hiff.1 h), wRows_begin_none hl hn hs]
    · intro j' _ hne
      have : ¬ j'.val = j := fun h => hne (Fin.ext h)
      simp [this]
    · intro h
      exact absurd (Finset.mem_univ _) h
  · rw [if_neg fun h => hj (incident_lt h)]
    apply Finset.sum_eq_zero
    intro j' _
    have : ¬ j'.val = j := by have := j'.2; omega
    simp [this]

/-- the positions of a domain that begins with the corners of an element -/
theorem domainPos_split {u e v : List Nat} (hu : u.Perm e) {k : Nat} (hul : u.length = k + 1) (j r : Nat) :
    domainPos ctr (j, u ++ v) (k + r) = ctr (e ++ v.take r).toFinset := by
  unfold domainPos
  simp only
  congr 1
  rw [show k + r + 1 = u.length + r by omega, List.take_length_add_append]
  exact toFinset_perm (hu.append (List.Perm.refl _))

/-- the weights of the domains of a simplex at an element add up to the weight of the simplex, up to a factor that is the same for all
simplices -/
theorem pathWeight_sum (h : CenterInput uniq eigh ratio n simplices t V W y ctr) {k i : Nat}
    {e l : List Nat} (hl : l ∈ simplices) (hs : e ⊆ l) (he : e.Nodup) (hel : e.length = k + 1) :
    (e.permutations.map fun u => ((l.diff e).permutations.map fun v =>
      pathWeight (domainPos ctr (0, u ++ v)) k i).sum).sum =
      ((k + 1).factorial : ℝ) / (i.factorial : ℝ) * cellWeight ctr i e l := by
  have hpd := diff_append hs he
  have hval : ∀ u ∈ e.permutations, ((l.diff e).permutations.map fun v =>
      pathWeight (domainPos ctr (0, u ++ v)) k i).sum = cellWeight ctr i e l / (i.factorial : ℝ) := by
    intro u hu
    have hu := List.mem_permutations.1 hu
    have hul : u.length = k + 1 := hu.length_eq.trans hel
    unfold cellWeight
    rw [div_eq_mul_inv, ← List.sum_map_mul_right]
    apply congrArg List.sum
    apply List.map_congr_left
    intro v hv
    have hv := List.mem_permutations.1 hv
    have hw : (e ++ v).Perm l := ((List.Perm.refl e).append hv).trans hpd
    have hface : ∀ r, SpansFace simplices (e ++ v.take r).toFinset := by
      intro r
      refine spansFace_of_subset hl (fun a ha => hw.mem_iff.1 ?_) (by
        intro h0
        rw [List.append_eq_nil_iff] at h0
        rw [h0.1] at hel
        simp at hel)
      rcases List.mem_append.1 ha with h | h
      · exact List.mem_append_left _ h
      · exact List.mem_append_right _ (List.mem_of_mem_take h)
    have hmono : ∀ a b, a ≤ b → (e ++ v.take a).toFinset ⊆ (e ++ v.take b).toFinset := by
      intro a b hab z hz
      rw [List.mem_toFinset, List.mem_append] at hz ⊢
      exact hz.imp id fun h => List.take_subset_take_left _ hab h
    have hX : ∀ r, domainPos ctr (0, u ++ v) (k + 1 + r) = ctr (e ++ v.take (r + 1)).toFinset := by
      intro r
      rw [show k + 1 + r = k + (r + 1) by omega]
      exact domainPos_split hu hul 0 (r + 1)
    have hX0 : domainPos ctr (0, u ++ v) k = ctr e.toFinset := by
      have := domainPos_split (ctr := ctr) (v := v) hu hul 0 0
      simpa using this
    unfold pathWeight wayWeight
    simp only [hX, hX0]
    have hvol := vol_steps (fun r => ctr (e ++ v.take (r + 1)).toFinset) i (fun a b c hab hbc _ =>
      power_orthogonal (h.centers _ (hface (a + 1))) (h.centers _ (hface (b + 1))) (h.centers _ (hface (c + 1)))
        (hmono _ _ (by omega)) (hmono _ _ (by omega)))
    rw [← hvol]
    have hf : (i.factorial : ℝ) ≠ 0 := Nat.cast_ne_zero.2 (Nat.factorial_ne_zero _)
    field_simp
  rw [List.map_congr_left hval, sum_list_const, List.length_permutations, hel]
  ring

end

end Verif.Props
