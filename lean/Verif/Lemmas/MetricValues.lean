/-
The entries of the measures.
-/
import Verif.Lemmas.MetricCenters

set_option linter.unusedSectionVars false

namespace Verif

open Verif.Model Verif.Spec Matrix

section

variable {D m : Nat} {V : List (Vec ℝ D)} {top : List (List Nat)} {t : Topo} {y : Finset Nat → Nat → ℝ}
  {ctr : Finset Nat → Fin D → ℝ} {eigh : (n : Nat) → Matrix (Fin n) (Fin n) ℝ → Eigh n ℝ} {ratio : ℝ}

/-- the positions of a domain -/
def domainPos (ctr : Finset Nat → Fin D → ℝ) (q : Nat × List Nat) (k : Nat) : Vec ℝ D :=
  ctr (q.2.take (k + 1)).toFinset

/-- the sign of a domain -/
noncomputable def domainSign (y : Finset Nat → Nat → ℝ) (q : Nat × List Nat) : ℝ :=
  Real.sign (y q.2.toFinset (q.2.getLast?.getD 0))

theorem toFinset_perm {s s' : List Nat} (h : s.Perm s') : s.toFinset = s'.toFinset :=
  List.toFinset_eq_of_perm _ _ h

theorem domains_flatten (wf : WF (m + 1) top t) (htop : Simplices (m + 2) top) :
    ∃ doms, fundamentalDomains t = .ok doms ∧
      doms.flatten = (flagList m top).map fun q => flagOf t.elements m q.2 ++ [q.1] := by
  refine ⟨_, wf.domains_eq htop, ?_⟩
  unfold flagList
  rw [List.map_flatten, List.map_map]
  congr 1
  apply List.ext_getElem
  · simp
  · intro j h1 h2
    simp

theorem positions_mapM (wf : WF (m + 1) top t) (htop : Simplices (m + 2) top)
    (q : Nat × List Nat) (hq : q ∈ flagList m top) :
    ((((List.range (m + 2)).map fun k => (t.elements[k]?.getD []).map fun e => ctr e.toFinset).zip
      (flagOf t.elements m q.2 ++ [q.1])).mapM fun pd => vertexAt pd.1 pd.2) =
        .ok ((List.range (m + 2)).map (domainPos ctr q)) := by
  obtain ⟨l, hl, hp⟩ := (mem_flagList htop q).1 hq
  have hlm := List.mem_of_getElem? hl
  have hzip : ((List.range (m + 2)).map fun k => (t.elements[k]?.getD []).map fun e => ctr e.toFinset).zip
      (flagOf t.elements m q.2 ++ [q.1]) = (List.range (m + 2)).map fun k =>
        ((t.elements[k]?.getD []).map fun e => ctr e.toFinset, domainKey t.elements m k q) := by
    apply List.ext_getElem
    · simp [flagOf]
    · intro k h1 h2
      have hk : k < m + 2 := by simpa using h2
      rw [List.getElem_zip, List.getElem_map, List.getElem_map, List.getElem_range]
      congr 1
      rw [← domain_entry t.elements m k (by omega) q, List.getElem?_eq_getElem (by simp [flagOf]; omega)]
      rfl
  rw [hzip, mapM_map_ok _ _ (domainPos ctr q)]
  intro k hk
  have hk : k < m + 2 := List.mem_range.1 hk
  have hget : ∃ e : List Nat, (t.elements[k]?.getD [])[domainKey t.elements m k q]? = some e ∧
      e.Perm (q.2.take (k + 1)) := by
    unfold domainKey
    by_cases h : k ≤ m
    · rw [if_pos h]
      exact (elIdx_get (wf.hasFace htop (k := k) (by omega) hlm
        ((List.take_sublist (k + 1) q.2).subperm.trans hp.subperm)
        (by rw [List.length_take, hp.length_eq, (htop l hlm).1]; omega))).2
    · have h' : k = m + 1 := by omega
      subst h'
      rw [if_neg h, wf.top_eq]
      refine ⟨l, hl, ?_⟩
      rw [List.take_of_length_le (by rw [hp.length_eq, (htop l hlm).1])]
      exact hp.symm
  obtain ⟨e, he, hpe⟩ := hget
  unfold vertexAt
  simp only [List.getElem?_map, he, Option.map_some]
  rw [domainPos, toFinset_perm hpe]

/-- an edge has its center in the middle -/
theorem Spec.CenterCoords.edge {a b : Nat} (hab : a ≠ b) (hp : position V a ≠ position V b) {z : Nat → ℝ}
    {c : Fin D → ℝ} (h : CenterCoords V {a, b} z c) : z a = 1 / 2 ∧ z b = 1 / 2 := by
  have h1 := h.one
  rw [Finset.sum_pair hab] at h1
  have h2 : ∀ j, c j = z a * position V a j + z b * position V b j := fun j => by
    rw [h.point j, Finset.sum_pair hab]
  have h3 := h.equidistant a (by simp) b (by simp)
  set d := dist2 (position V a) (position V b) with hd
  have ha : dist2 c (position V a) = z b ^ 2 * d := by
    simp only [hd, dist2, Finset.mul_sum]
    refine Finset.sum_congr rfl fun j _ => ?_
    rw [h2 j, show z a = 1 - z b by linarith]
    ring
  have hb : dist2 c (position V b) = z a ^ 2 * d := by
    simp only [hd, dist2, Finset.mul_sum]
    refine Finset.sum_congr rfl fun j _ => ?_
    rw [h2 j, show z b = 1 - z a by linarith]
    ring
  have hd0 : d ≠ 0 := by
    intro h0
    apply hp
    funext j
    have := (Finset.sum_eq_zero_iff_of_nonneg (fun j _ => sq_nonneg (position V a j - position V b j))).1 h0 j
      (Finset.mem_univ j)
    have := pow_eq_zero_iff (two_ne_zero) |>.1 this
    linarith
  rw [ha, hb] at h3
  have h4 : z b ^ 2 = z a ^ 2 := mul_right_cancel₀ hd0 h3
  have h5 : z a - z b = 0 := by nlinarith
  constructor <;> linarith

theorem position_ne {n : Nat} (hnd : NonDegenerate V n top) (htop : Simplices (n + 1) top) {l : List Nat}
    (hl : l ∈ top) {a b : Nat} (ha : a ∈ l) (hb : b ∈ l) (hab : a ≠ b) : position V a ≠ position V b := by
  obtain ⟨i, hi, rfl⟩ := List.getElem_of_mem ha
  obtain ⟨j, hj, rfl⟩ := List.getElem_of_mem hb
  intro h
  have hll := (htop l hl).1
  have := (hnd l hl).injective (a₁ := ⟨i, by omega⟩) (a₂ := ⟨j, by omega⟩)
    (by simp only [cornersOf, List.getElem?_eq_getElem hi, List.getElem?_eq_getElem hj]; exact h)
  have : i = j := by simpa using this
  subst this
  exact hab rfl

theorem signs_eq (htop : Simplices (m + 2) top) (hnd : NonDegenerate V (m + 1) top)
    (hc : Centers V top y ctr) :
    (top.flatMap fun l => l.flatMap fun v =>
        List.replicate (m + 1).factorial (Real.sign (y l.toFinset v))) =
      (flagList m top).map (domainSign y) := by
  unfold flagList
  rw [List.map_flatten, List.map_map]
  simp only [List.flatMap]
  congr 1
  apply List.ext_getElem
  · simp
  · intro j h1 h2
    have hj : j < top.length := by simpa using h1
    obtain ⟨hll, hln⟩ := htop top[j] (List.getElem_mem hj)
    simp only [List.getElem_map, Function.comp, List.getElem_zipIdx, List.map_map]
    cases m with
    | zero =>
      obtain ⟨a, b, hab⟩ := length_two hll
      have hne : a ≠ b := by rw [hab] at hln; simpa using hln
      have hmem := List.getElem_mem hj
      have hcc := hc _ (spansFace_of_subset hmem (List.Subset.refl top[j])
        (by intro h0; rw [h0] at hll; simp at hll))
      have hpn := position_ne hnd htop hmem (a := a) (b := b) (by rw [hab]; simp) (by rw [hab]; simp) hne
      rw [hab] at hcc ⊢
      have hfs : [a, b].toFinset = {a, b} := by simp
      rw [hfs] at hcc
      obtain ⟨ha, hb⟩ := hcc.edge hne hpn
      have hfs' : [b, a].toFinset = {a, b} := by simp [Finset.pair_comm]
      simp [wRows, domainSign, ha, hb, Finset.pair_comm b a]
    | succ k =>
      simp only [wRows, List.map_flatten, List.map_map]
      congr 1
      apply List.ext_getElem
      · simp
      · intro c g1 g2
        have hc' : c < top[j].length := by simpa using g1
        simp only [List.getElem_map, List.getElem_range, Function.comp, List.map_map]
        have hfl := wRows_length k (simplexFace top[j] c) (by rw [simplexFace_length hc']; omega)
        refine Eq.trans (b := (wRows k (simplexFace top[j] c)).map fun _ =>
          Real.sign (y top[j].toFinset top[j][c])) (by rw [List.map_const', hfl]) ?_
        apply List.map_congr_left
        intro w hw
        have hp := (mem_wRows k _ (by rw [simplexFace_length hc']; omega) (simplexFace_nodup hln hc') w).1 hw
        have hp2 : (w ++ [top[j][c]?.getD 0]).Perm top[j] := by
          rw [List.getElem?_eq_getElem hc', Option.getD_some]
          exact ((hp.trans (simplexFace_perm hc')).append_right _).trans (eraseIdx_append_perm hc')
        simp only [Function.comp, domainSign, toFinset_perm hp2, List.getLast?_concat, Option.getD_some]
        rw [List.getElem?_eq_getElem hc', Option.getD_some]

theorem keys_range (wf : WF (m + 1) top t) (htop : Simplices (m + 2) top) {k : Nat} (hk : k ≤ m + 1)
    (x : Nat) : x ∈ (flagList m top).map (domainKey t.elements m k) ↔ x < (t.elements[k]?.getD []).length := by
  rw [List.mem_map]
  constructor
  · rintro ⟨q, hq, rfl⟩
    obtain ⟨l, hl, hp⟩ := (mem_flagList htop q).1 hq
    have hlm := List.mem_of_getElem? hl
    unfold domainKey
    by_cases h : k ≤ m
    · rw [if_pos h]
      obtain ⟨e, he, -⟩ := (elIdx_get (wf.hasFace htop (k := k) (by omega) hlm
        ((List.take_sublist (k + 1) q.2).subperm.trans hp.subperm)
        (by rw [List.length_take, hp.length_eq, (htop l hlm).1]; omega))).2
      exact (List.getElem?_eq_some_iff.1 he).1
    · have h' : k = m + 1 := by omega
      subst h'
      rw [if_neg h, wf.top_eq]
      exact (List.getElem?_eq_some_iff.1 hl).1
  · intro hx
    unfold domainKey
    by_cases h : k ≤ m
    · have hmem := List.getElem_mem hx
      obtain ⟨h1, h2, l, hl, hs⟩ := wf.element_face htop (k := k) (by omega) hmem
      obtain ⟨j, hj, hjl⟩ := List.getElem_of_mem hl
      have hle : ((t.elements[k]?.getD [])[x] ++ l.diff (t.elements[k]?.getD [])[x]).Perm l :=
        List.subperm_append_diff_self_of_count_le
          (fun z _ => (List.subperm_of_subset h2 hs).count_le z)
      refine ⟨(j, _), (mem_flagList htop _).2 ⟨l, by rw [List.getElem?_eq_getElem hj, hjl], hle⟩, ?_⟩
      rw [if_pos h]
      simp only
      rw [List.take_append_of_le_length (by omega), List.take_of_length_le (by omega)]
      obtain ⟨-, -, hd, -⟩ := wf.get (k := k) (by omega)
      exact (elIdx_unique hd (List.getElem?_eq_getElem hx) (List.Perm.refl _)).symm
    · have h' : k = m + 1 := by omega
      subst h'
      rw [wf.top_eq] at hx
      have hx : x < top.length := hx
      exact ⟨(x, top[x]), (mem_flagList htop _).2 ⟨top[x], List.getElem?_eq_getElem hx, List.Perm.refl _⟩,
        by rw [if_neg h]⟩

theorem key_iff (wf : WF (m + 1) top t) (htop : Simplices (m + 2) top) {k : Nat} (hk : k ≤ m) {x : Nat}
    {e : List Nat} (hx : (t.elements[k]?.getD [])[x]? = some e) {l w : List Nat} {j : Nat} (hl : l ∈ top)
    (hp : w.Perm l) : domainKey t.elements m k (j, w) = x ↔ (w.take (k + 1)).Perm e := by
  unfold domainKey
  rw [if_pos hk]
  obtain ⟨e', he', hpe'⟩ := (elIdx_get (wf.hasFace htop (k := k) (by omega) hl
    ((List.take_sublist (k + 1) w).subperm.trans hp.subperm)
    (by rw [List.length_take, hp.length_eq, (htop l hl).1]; omega))).2
  obtain ⟨-, -, hd, -⟩ := wf.get (k := k) (by omega)
  constructor
  · intro h
    simp only at h
    rw [h, hx] at he'
    obtain rfl := Option.some.inj he'
    exact hpe'.symm
  · intro h
    exact (elIdx_unique hd hx h.symm).symm

theorem barycentric (htop : Simplices (m + 2) top) (hc : Centers V top y ctr) {l : List Nat} (hl : l ∈ top) :
    Barycentric (fun s v => y s.toFinset v) l := by
  refine ⟨fun s s' v _ hp => by rw [toFinset_perm hp], fun s hs h0 => ?_⟩
  have hsn := subperm_nodup' hs (htop l hl).2
  rw [← List.sum_toFinset _ hsn]
  exact (hc _ (spansFace_of_subset hl hs.subset h0)).one

/-- the volume of the first positions of a domain -/
theorem domainVol_eq (htop : Simplices (m + 2) top) (hc : Centers V top y ctr) {l w : List Nat} (hl : l ∈ top)
    (hp : w.Perm l) (j : Nat) {i : Nat} (hi : i ≤ m + 1) {e : List Nat} (he : (w.take (i + 1)).Perm e) :
    domainVol (domainPos ctr) 0 i (j, w) =
      flagProd (fun s v => y s.toFinset v) (w.take (i + 1)) * vol (cornersOf V (i + 1) e) := by
  have hwl : w.length = m + 2 := hp.length_eq.trans (htop l hl).1
  have hlen : (w.take (i + 1)).length = i + 1 := by rw [List.length_take]; omega
  have hsub : ∀ k, (w.take (k + 1)).Subperm l := fun k => (List.take_sublist _ _).subperm.trans hp.subperm
  have hne : ∀ k, w.take (k + 1) ≠ [] := by
    intro k h
    rcases List.take_eq_nil_iff.1 h with h | h
    · omega
    · rw [h] at hwl
      simp at hwl
  have hb := barycentric htop hc hl
  have htt : ∀ k ≤ i, (w.take (i + 1)).take (k + 1) = w.take (k + 1) := by
    intro k hk
    rw [List.take_take, Nat.min_eq_left (by omega)]
  have := vol_flag (M := i) (position V) (fun s v => y s.toFinset v) (fun s => ctr s.toFinset) (w.take (i + 1))
    hlen (fun k hk => by rw [htt k hk]; exact hb.one _ (hsub k) (hne k)) (fun k hk c => by
      rw [htt k hk, (hc _ (spansFace_of_subset hl (hsub k).subset (hne k))).point c,
        List.sum_toFinset _ (subperm_nodup' (hsub k) (htop l hl).2)])
  have hnd : e.Nodup := he.nodup_iff.1 (subperm_nodup' (hsub i) (htop l hl).2)
  have hel : e.length = i + 1 := by rw [← he.length_eq]; exact hlen
  have h2 := vol_perm (position V) (w.take (i + 1)) e hlen hel he hnd
  have hcor : (fun k : Fin (i + 1) => position V e[k]) = cornersOf V (i + 1) e := by
    funext k
    simp [cornersOf, List.getElem?_eq_getElem (show k.val < e.length by omega)]
  rw [h2, hcor] at this
  rw [← this]
  unfold domainVol
  congr 1
  funext k
  simp only [domainPos, Nat.zero_add]
  rw [htt k.val (by omega)]

/-- `metric` of a complex whose eigenvalues stay within the tolerance -/
theorem metric_ok (wf : WF (m + 1) top t) (htop : Simplices (m + 2) top) (hne : top ≠ [])
    (solve : List (List Int) → Option (List Int)) (ho : isOriented solve t = .ok true)
    (hD : m + 1 ≤ D) (hV : ∀ l ∈ top, ∀ v ∈ l, v < V.length)
    (hE : ∀ k M, Mᵀ = M → IsEigh M (eigh k M).v (eigh k M).w)
    (hw : WithinTolerance ratio V t.elements (m + 1))
    (hnd : NonDegenerate V (m + 1) top) (hc : Centers V top y ctr) :
    metric solve eigh ratio t V none =
    .ok ([List.replicate (t.nElements 0) 1] ++
        (List.range' 1 m).map (fun i => (groupMean ((flagList m top).map (domainKey t.elements m i))
          ((flagList m top).map (domainVol (domainPos ctr) 0 i))).map fun x => x * ((i + 1).factorial : ℝ)) ++
        [groupSum ((flagList m top).map (domainKey t.elements m (m + 1)))
          ((flagList m top).map fun q => domainVol (domainPos ctr) 0 (m + 1) q * domainSign y q)],
      [List.replicate (t.nElements (m + 1)) 1] ++
        (List.range' 1 m).map (fun i => (groupSum ((flagList m top).map
            (domainKey t.elements m (m + 1 - i)))
          ((flagList m top).map fun q => domainVol (domainPos ctr) (m + 1 - i) i q * domainSign y q)).map
            fun x => x / ((m + 1 - i + 1).factorial : ℝ)) ++
        [groupSum ((flagList m top).map (domainKey t.elements m 0))
          ((flagList m top).map fun q => domainVol (domainPos ctr) 0 (m + 1) q * domainSign y q)]) := by
  unfold metric
  rw [ho]
  obtain ⟨doms, hdoms, hflat⟩ := domains_flatten wf htop
  have hcen := hw.centred
  rw [wf.top_eq, Option.getD_some] at hcen
  obtain ⟨bary, hb, hs⟩ := topBarycentric_ok wf htop hne hV hE hcen hnd hc
  rw [primalPositions_ok wf htop hne hV hE hw.level hc, hdoms, hb]
  simp only [bind, Except.bind, Bool.not_true, Bool.false_eq_true, if_false]
  rw [hs, hflat, signs_eq htop hnd hc]
  exact metricOf_eq wf.lenB hD _ _ _ (positions_mapM wf htop)

end

end Verif
