/-
The weighted circumcenters that `primal_barycentric` and `primal_position` find.
-/
import Verif.Lemmas.MetricExists
import Verif.Model.Delaunay
import Verif.Spec.Delaunay

set_option linter.unusedSectionVars false

namespace Verif

open Verif.Model Verif.Spec Matrix

variable {D : Nat} {V : List (Vec ℝ D)}

theorem Spec.CenterCoords.power {S : Finset Nat} {y : Nat → ℝ} {c : Fin D → ℝ}
    (h : CenterCoords V S y c) : PowerCoords V (fun _ => 0) S y c := by
  refine ⟨h.one, h.point, fun u hu v hv => ?_⟩
  have := h.equidistant u hu v hv
  simp only [Spec.power, sub_zero]
  exact this

theorem Spec.Centers.power {top : List (List Nat)} {y : Finset Nat → Nat → ℝ} {ctr : Finset Nat → Fin D → ℝ}
    (h : Centers V top y ctr) : PowerCenters V (weightAt none) top y ctr :=
  fun S hS => (h S hS).power

/-- the weights of the corners of a row -/
def rowWeights (W : Option (List ℝ)) (P : Nat) (row : List Nat) : Option (Vec ℝ P) :=
  W.map fun _ => fun i => weightAt W (row[i.val]?.getD 0)

theorem cornerBatch_weights {P : Nat} {rows : List (List Nat)} {W : Option (List ℝ)}
    (h : ∀ e ∈ rows, e.length = P ∧ ∀ v ∈ e, v < V.length)
    (hW : ∀ w, W = some w → ∀ e ∈ rows, ∀ v ∈ e, v < w.length) :
    cornerBatch V W P rows = .ok (rows.map fun e => (Matrix.of (cornersOf V P e), rowWeights W P e)) := by
  unfold cornerBatch
  rw [mapM_ok]
  intro e he
  rw [rowValues_ok (h e he).1 (h e he).2]
  cases W with
  | none => rfl
  | some w =>
    have hr : rowValues w P e = .ok fun i => weightAt (some w) (e[i.val]?.getD 0) := by
      unfold rowValues
      have hb := hW w rfl e he
      rw [dif_pos ⟨(h e he).1, fun i => hb _ (List.getElem_mem _)⟩]
      congr 1
      funext i
      simp only [weightAt]
      have hi : i.val < e.length := by have := (h e he).1; omega
      rw [List.getElem?_eq_getElem hi, Option.getD_some, List.getElem?_eq_getElem (hb _ (List.getElem_mem hi)),
        Option.getD_some]
      rfl
    simp only [bind, Except.bind, hr]
    rfl

theorem weightsOf_row (W : Option (List ℝ)) (P : Nat) (row : List Nat) (i : Fin P) :
    weightsOf (rowWeights W P row) i = weightAt W (row[i.val]?.getD 0) := by
  cases W with
  | none => rfl
  | some w => rfl

/-- the weighted center of a face, in the form used for circumcenters -/
theorem Spec.PowerCoords.isCenter {w : Nat → ℝ} {e : List Nat} (hn : e.Nodup) {P : Nat} (hl : e.length = P)
    {y : Nat → ℝ} {c : Fin D → ℝ} (h : PowerCoords V w e.toFinset y c) :
    Combines (cornersOf V P e) (fun i => y (e[i.val]?.getD 0)) c ∧
      ∀ i j : Fin P, Spec.power c (cornersOf V P e i) (w (e[i.val]?.getD 0)) =
        Spec.power c (cornersOf V P e j) (w (e[j.val]?.getD 0)) := by
  have hm : ∀ i : Fin P, e[i.val]?.getD 0 ∈ e.toFinset := by
    intro i
    have hi : i.val < e.length := by omega
    rw [List.getElem?_eq_getElem hi, Option.getD_some, List.mem_toFinset]
    exact List.getElem_mem hi
  refine ⟨⟨?_, fun j => ?_⟩, fun i j => ?_⟩
  · rw [sum_fin_list e hn hl y]
    exact h.one
  · rw [h.point j, ← sum_fin_list e hn hl (fun v => y v * position V v j)]
    rfl
  · exact h.equal _ (hm i) _ (hm j)

/-- the corners of a face of a simplex that is not degenerate, in any order -/
theorem Spec.NonDegenerate.face {n : Nat} {top : List (List Nat)} (hnd : NonDegenerate V n top)
    (htop : Simplices (n + 1) top) {l e : List Nat} (hl : l ∈ top) (hs : e ⊆ l) (hen : e.Nodup) {P : Nat}
    (hP : e.length = P) : AffineIndependent ℝ (cornersOf V P e) := by
  obtain ⟨hll, hln⟩ := htop l hl
  have hml : ∀ i : Fin P, e[i.val]?.getD 0 ∈ l := by
    intro i
    have hi : i.val < e.length := by omega
    rw [List.getElem?_eq_getElem hi, Option.getD_some]
    exact hs (List.getElem_mem hi)
  set σ : Fin P → Fin (n + 1) := fun i => ⟨l.idxOf (e[i.val]?.getD 0), by
    rw [← hll]; exact List.idxOf_lt_length_of_mem (hml i)⟩ with hσ
  have hval : ∀ i, l[(σ i).val]?.getD 0 = e[i.val]?.getD 0 := by
    intro i
    have h1 : (σ i).val < l.length := by rw [hll]; exact (σ i).2
    rw [List.getElem?_eq_getElem h1, Option.getD_some]
    exact List.getElem_idxOf h1
  have hinj : Function.Injective σ := by
    intro i j hij
    have h1 := hval i
    rw [hij, hval j] at h1
    have hi : i.val < e.length := by omega
    have hj : j.val < e.length := by omega
    rw [List.getElem?_eq_getElem hi, List.getElem?_eq_getElem hj, Option.getD_some, Option.getD_some] at h1
    exact (Fin.ext ((List.Nodup.getElem_inj_iff hen).1 h1)).symm
  have := (hnd l hl).comp_embedding ⟨σ, hinj⟩
  refine (Eq.mp (congrArg (AffineIndependent ℝ) ?_) this)
  funext i
  simp only [Function.comp_apply, Function.Embedding.coeFn_mk, cornersOf, hval]

/-- every face of a simplex that is not degenerate has a weighted circumcenter -/
theorem exists_power_center {n : Nat} {top : List (List Nat)} (hnd : NonDegenerate V n top)
    (htop : Simplices (n + 1) top) (w : Nat → ℝ) {S : Finset Nat} (hS : SpansFace top S) :
    ∃ (y : Nat → ℝ) (c : Fin D → ℝ), PowerCoords V w S y c := by
  obtain ⟨h0, l, hl, hs⟩ := hS
  set e := S.toList with he
  have hen : e.Nodup := S.nodup_toList
  have hes : e.toFinset = S := S.toList_toFinset
  have hel : e.length = S.card := S.length_toList
  obtain ⟨P, hP⟩ : ∃ P, S.card = P + 1 := ⟨S.card - 1, by have := h0.card_pos; omega⟩
  have haff := hnd.face htop hl (e := e) (fun v hv => List.mem_toFinset.1 (hs (Finset.mem_toList.1 hv))) hen
    (hel.trans hP)
  obtain ⟨⟨c, ⟨⟨z, hz1, hz2⟩, hc2⟩, -⟩, -⟩ := Props.C57_exists (cornersOf V (P + 1) e) haff
    (fun i => w (e[i.val]?.getD 0))
  set y : Nat → ℝ := fun v => if h : e.idxOf v < P + 1 then z ⟨e.idxOf v, h⟩ else 0 with hy
  have hyz : ∀ i : Fin (P + 1), y (e[i.val]?.getD 0) = z i := by
    intro i
    have hi : i.val < e.length := by omega
    rw [List.getElem?_eq_getElem hi, Option.getD_some]
    simp only [hy, List.Nodup.idxOf_getElem hen _ hi]
    rw [dif_pos i.2]
  have hidx : ∀ v ∈ S, ∃ i : Fin (P + 1), e[i.val]?.getD 0 = v := by
    intro v hv
    rw [← hes, List.mem_toFinset] at hv
    obtain ⟨i, hi, rfl⟩ := List.getElem_of_mem hv
    exact ⟨⟨i, by omega⟩, by simp [List.getElem?_eq_getElem hi]⟩
  refine ⟨y, c, ?_, ?_, ?_⟩
  · rw [← hes, ← sum_fin_list e hen (hel.trans hP) y, ← hz1]
    exact Finset.sum_congr rfl fun i _ => hyz i
  · intro j
    rw [← hes, ← sum_fin_list e hen (hel.trans hP) (fun v => y v * position V v j), hz2 j]
    exact Finset.sum_congr rfl fun i _ => by rw [hyz i]; rfl
  · intro u hu v hv
    obtain ⟨i, rfl⟩ := hidx u hu
    obtain ⟨j, rfl⟩ := hidx v hv
    exact hc2 i j

theorem exists_power_centers {n : Nat} {top : List (List Nat)} (hnd : NonDegenerate V n top)
    (htop : Simplices (n + 1) top) (w : Nat → ℝ) : ∃ y ctr, PowerCenters V w top y ctr := by
  have : ∀ S : Finset Nat, ∃ yc : (Nat → ℝ) × (Fin D → ℝ), SpansFace top S → PowerCoords V w S yc.1 yc.2 := by
    intro S
    by_cases hS : SpansFace top S
    · obtain ⟨y, c, h⟩ := exists_power_center hnd htop w hS
      exact ⟨(y, c), fun _ => h⟩
    · exact ⟨(0, 0), fun h => absurd h hS⟩
  choose f hf using this
  exact ⟨fun S => (f S).1, fun S => (f S).2, hf⟩

section

variable {n : Nat} {top : List (List Nat)} {t : Topo} {y : Finset Nat → Nat → ℝ}
  {ctr : Finset Nat → Fin D → ℝ} {eigh : (n : Nat) → Matrix (Fin n) (Fin n) ℝ → Eigh n ℝ} {ratio : ℝ}
  {W : Option (List ℝ)}

/-- the coordinates that `circumcenter_barycentric` finds for the elements of one dimension -/
theorem level_coords (wf : WF n top t) (htop : Simplices (n + 1) top) (hne : top ≠ [])
    (hV : ∀ l ∈ top, ∀ v ∈ l, v < V.length) (hW : ∀ w, W = some w → ∀ l ∈ top, ∀ v ∈ l, v < w.length)
    (hE : ∀ k M, Mᵀ = M → IsEigh M (eigh k M).v (eigh k M).w)
    (hnd : NonDegenerate V n top) (hc : PowerCenters V (weightAt W) top y ctr) {k : Nat} (hk : k ≤ n)
    (hw : EigenvaluesWithin ratio ((t.elements[k]?.getD []).map (cornersOf V (k + 1)))) :
    cornerBatch V W (k + 1) (t.elements[k]?.getD []) = .ok ((t.elements[k]?.getD []).map fun e =>
        (Matrix.of (cornersOf V (k + 1) e), rowWeights W (k + 1) e)) ∧
      circumcenterBarycentric (eigh (k + 1 + 1)) ratio ((t.elements[k]?.getD []).map fun e =>
        (Matrix.of (cornersOf V (k + 1) e), rowWeights W (k + 1) e)) =
        .ok ((t.elements[k]?.getD []).map fun e => fun i : Fin (k + 1) => y e.toFinset (e[i.val]?.getD 0)) := by
  have hnek := wf.level_ne htop hne hk
  have hel : ∀ e ∈ t.elements[k]?.getD [], e.length = k + 1 ∧ e.Nodup ∧ ∃ l ∈ top, e ⊆ l :=
    fun e he => wf.element_face htop hk he
  generalize t.elements[k]?.getD [] = E at *
  refine ⟨cornerBatch_weights (fun e he => ⟨(hel e he).1, fun v hv => by
    obtain ⟨-, -, l, hl, hs⟩ := hel e he
    exact hV l hl v (hs hv)⟩) (fun w hw e he v hv => by
    obtain ⟨-, -, l, hl, hs⟩ := hel e he
    exact hW w hw l hl v (hs hv)), ?_⟩
  obtain ⟨out, h1, h2, h3⟩ := Props.C57_center (eigh (k + 1 + 1)) ratio (hE (k + 1 + 1))
    (E.map fun e => (Matrix.of (cornersOf V (k + 1) e), rowWeights W (k + 1) e))
    (by simpa using hnek) (by rw [List.map_map]; exact hw)
  rw [h1]
  congr 1
  apply List.ext_getElem
  · simp [h2]
  · intro x hx1 hx2
    have hx : x < E.length := by simpa using hx2
    rw [List.getElem_map]
    obtain ⟨hl, hn, l, hlt, hs⟩ := hel E[x] (List.getElem_mem hx)
    have hface := spansFace_of_subset hlt hs (by intro h0; rw [h0] at hl; simp at hl)
    obtain ⟨hcomb, hpow⟩ := (hc _ hface).isCenter hn hl
    have h4 := h3 x (Matrix.of (cornersOf V (k + 1) E[x]), rowWeights W (k + 1) E[x]) out[x]
      (by simp [hx]) (List.getElem?_eq_getElem hx1) (ctr E[x].toFinset) ⟨⟨_, hcomb⟩, fun i j => by
        rw [weightsOf_row, weightsOf_row]
        exact hpow i j⟩
    exact (Props.C57_exists _ (hnd.face htop hlt hs hn hl) 0).2 _ _ _ h4 hcomb

theorem zipIdx_levels (hlen : t.elements.length = n + 1) {β : Type} (f : Nat → List (List Nat) → β) :
    t.elements.zipIdx.map (fun ek : List (List Nat) × Nat => f ek.2 ek.1) =
      (List.range (n + 1)).map fun k => f k (t.elements[k]?.getD []) := by
  apply List.ext_getElem
  · simp [hlen]
  · intro k h1 h2
    simp at h1
    simp [h1]

theorem mem_levels (hlen : t.elements.length = n + 1) {ek : List (List Nat) × Nat}
    (h : ek ∈ t.elements.zipIdx) : ek.2 ≤ n ∧ ek.1 = t.elements[ek.2]?.getD [] := by
  obtain ⟨E, k⟩ := ek
  have hEk' := List.mem_zipIdx' h
  refine ⟨by have := hEk'.1; rw [hlen] at this; simp only; omega, ?_⟩
  simp only
  rw [hEk'.2, List.getElem?_eq_getElem hEk'.1]
  rfl

theorem primalBarycentric_ok (wf : WF n top t) (htop : Simplices (n + 1) top) (hne : top ≠ [])
    (hV : ∀ l ∈ top, ∀ v ∈ l, v < V.length) (hW : ∀ w, W = some w → ∀ l ∈ top, ∀ v ∈ l, v < w.length)
    (hE : ∀ k M, Mᵀ = M → IsEigh M (eigh k M).v (eigh k M).w)
    (hw : ∀ k ≤ n, EigenvaluesWithin ratio ((t.elements[k]?.getD []).map (cornersOf V (k + 1))))
    (hnd : NonDegenerate V n top) (hc : PowerCenters V (weightAt W) top y ctr) :
    primalBarycentric eigh ratio t V W =
      .ok ((List.range (n + 1)).map fun k => (t.elements[k]?.getD []).map fun e => e.map (y e.toFinset)) := by
  unfold primalBarycentric
  rw [mapM_ok _ (fun ek : List (List Nat) × Nat => ek.1.map fun e => e.map (y e.toFinset)),
    zipIdx_levels wf.lenE fun _ E => E.map fun e => e.map (y e.toFinset)]
  rintro ⟨E, k⟩ hEk
  obtain ⟨hk, hEe⟩ := mem_levels wf.lenE hEk
  simp only at hk hEe
  obtain ⟨h1, h2⟩ := level_coords wf htop hne hV hW hE hnd hc hk (hw k hk)
  have hel : ∀ e ∈ t.elements[k]?.getD [], e.length = k + 1 := fun e he => (wf.element_face htop hk he).1
  subst hEe
  simp only
  rw [h1]
  simp only [bind, Except.bind]
  rw [h2]
  simp only [List.map_map]
  congr 1
  apply List.map_congr_left
  intro e he
  apply List.ext_getElem
  · simp [hel e he]
  · intro i h3 h4
    have hi : i < e.length := by simpa using h4
    simp only [Function.comp, List.getElem_ofFn, List.getElem_map]
    rw [List.getElem?_eq_getElem hi, Option.getD_some]

/-- the positions that `primal_position` finds are the weighted circumcenters -/
theorem primalPositions_weights (wf : WF n top t) (htop : Simplices (n + 1) top) (hne : top ≠ [])
    (hV : ∀ l ∈ top, ∀ v ∈ l, v < V.length) (hW : ∀ w, W = some w → ∀ l ∈ top, ∀ v ∈ l, v < w.length)
    (hE : ∀ k M, Mᵀ = M → IsEigh M (eigh k M).v (eigh k M).w)
    (hw : ∀ k ≤ n, EigenvaluesWithin ratio ((t.elements[k]?.getD []).map (cornersOf V (k + 1))))
    (hnd : NonDegenerate V n top) (hc : PowerCenters V (weightAt W) top y ctr) :
    primalPositions eigh ratio t V W =
      .ok ((List.range (n + 1)).map fun k => (t.elements[k]?.getD []).map fun e => ctr e.toFinset) := by
  unfold primalPositions
  rw [mapM_ok _ (fun ek : List (List Nat) × Nat => ek.1.map fun e => ctr e.toFinset),
    zipIdx_levels wf.lenE fun _ E => E.map fun e => ctr e.toFinset]
  rintro ⟨E, k⟩ hEk
  obtain ⟨hk, hEe⟩ := mem_levels wf.lenE hEk
  simp only at hk hEe
  obtain ⟨h1, h2⟩ := level_coords wf htop hne hV hW hE hnd hc hk (hw k hk)
  have hel : ∀ e ∈ t.elements[k]?.getD [], e.length = k + 1 ∧ e.Nodup ∧ ∃ l ∈ top, e ⊆ l :=
    fun e he => wf.element_face htop hk he
  subst hEe
  simp only
  rw [h1]
  simp only [bind, Except.bind]
  unfold primalPosition
  rw [h2]
  simp only [bind, Except.bind]
  congr 1
  apply List.ext_getElem
  · simp
  · intro x hx1 hx2
    have hx : x < (t.elements[k]?.getD []).length := by simpa using hx2
    rw [List.getElem_zipWith, List.getElem_map, List.getElem_map, List.getElem_map]
    obtain ⟨hl, hn, l, hlt, hs⟩ := hel _ (List.getElem_mem hx)
    have hface := spansFace_of_subset hlt hs (by intro h0; rw [h0] at hl; simp at hl)
    obtain ⟨hcomb, -⟩ := (hc _ hface).isCenter hn hl
    funext j
    rw [hcomb.2 j]
    exact Finset.sum_congr rfl fun i _ => mul_comm _ _

end

/-- the measures of a weighted complex: the weighted circumcenters are the positions, but the signs are
those of the circumcenters without weights -/
theorem metric_weights {m : Nat} {W : Option (List ℝ)} {z : Finset Nat → Nat → ℝ} {pos : Finset Nat → Fin D → ℝ}
    {top : List (List Nat)} {t : Topo} {y : Finset Nat → Nat → ℝ} {ctr : Finset Nat → Fin D → ℝ}
    {eigh : (n : Nat) → Matrix (Fin n) (Fin n) ℝ → Eigh n ℝ} {ratio : ℝ}
    (wf : WF (m + 1) top t) (htop : Simplices (m + 2) top) (hne : top ≠ [])
    (solve : List (List Int) → Option (List Int)) (ho : isOriented solve t = .ok true)
    (hD : m + 1 ≤ D) (hV : ∀ l ∈ top, ∀ v ∈ l, v < V.length)
    (hW : ∀ w, W = some w → ∀ l ∈ top, ∀ v ∈ l, v < w.length)
    (hE : ∀ k M, Mᵀ = M → IsEigh M (eigh k M).v (eigh k M).w)
    (hw : WithinTolerance ratio V t.elements (m + 1))
    (hnd : NonDegenerate V (m + 1) top) (hc : Centers V top y ctr)
    (hz : PowerCenters V (weightAt W) top z pos) :
    metric solve eigh ratio t V W =
    .ok ([List.replicate (t.nElements 0) 1] ++
        (List.range' 1 m).map (fun i => (groupMean ((flagList m top).map (domainKey t.elements m i))
          ((flagList m top).map (domainVol (domainPos pos) 0 i))).map fun x => x * ((i + 1).factorial : ℝ)) ++
        [groupSum ((flagList m top).map (domainKey t.elements m (m + 1)))
          ((flagList m top).map fun q => domainVol (domainPos pos) 0 (m + 1) q * domainSign y q)],
      [List.replicate (t.nElements (m + 1)) 1] ++
        (List.range' 1 m).map (fun i => (groupSum ((flagList m top).map
            (domainKey t.elements m (m + 1 - i)))
          ((flagList m top).map fun q => domainVol (domainPos pos) (m + 1 - i) i q * domainSign y q)).map
            fun x => x / ((m + 1 - i + 1).factorial : ℝ)) ++
        [groupSum ((flagList m top).map (domainKey t.elements m 0))
          ((flagList m top).map fun q => domainVol (domainPos pos) 0 (m + 1) q * domainSign y q)]) := by
  unfold metric
  rw [ho]
  obtain ⟨doms, hdoms, hflat⟩ := domains_flatten wf htop
  have hcen := hw.centred
  rw [wf.top_eq, Option.getD_some] at hcen
  obtain ⟨bary, hb, hs⟩ := topBarycentric_ok wf htop hne hV hE hcen hnd hc
  rw [primalPositions_weights wf htop hne hV hW hE hw.level hnd hz, hdoms, hb]
  simp only [bind, Except.bind, Bool.not_true, Bool.false_eq_true, if_false]
  rw [hs, hflat, signs_eq htop hnd hc]
  exact metricOf_eq wf.lenB hD _ _ _ (positions_mapM wf htop)

end Verif
