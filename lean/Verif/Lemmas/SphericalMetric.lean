/-
The measures on the sphere as sums over the orderings of the corners.
-/
import Verif.Model.SphericalMetric
import Verif.Spec.SphericalMetric
import Verif.Props.WellCentered
import Verif.Props.Spherical

set_option linter.unusedSectionVars false

namespace Verif

open Verif.Model Verif.Spec Verif.Props Matrix

theorem mapM_id_some {α : Type} (L : List α) : (L.map some).mapM id = some L := by
  induction L with
  | nil => rfl
  | cons a L ih => rw [List.map_cons, List.mapM_cons, ih]; rfl

theorem sumNan_some (L : List ℝ) : sumNan (L.map some) = some L.sum := by
  unfold sumNan
  rw [mapM_id_some]
  rfl

theorem zip_filter_some (keys : List Nat) (vals : List ℝ) (k : Nat) :
    ((keys.zip (vals.map some)).filter fun p => p.1 = k).map Prod.snd =
      (((keys.zip vals).filter fun p => p.1 = k).map Prod.snd).map some := by
  have : keys.zip (vals.map some) = (keys.zip vals).map fun p => (p.1, some p.2) := by
    rw [List.zip_map_right]; rfl
  rw [this, List.filter_map, List.map_map, List.map_map]
  rfl

theorem groupSumNan_some (keys : List Nat) (vals : List ℝ) :
    groupSumNan keys (vals.map some) = (groupSum keys vals).map some := by
  unfold groupSumNan groupSum
  rw [List.map_map]
  refine List.map_congr_left fun k _ => ?_
  rw [zip_filter_some, sumNan_some]
  rfl

theorem groupMeanNan_some (keys : List Nat) (vals : List ℝ) :
    groupMeanNan keys (vals.map some) = (groupMean keys vals).map some := by
  unfold groupMeanNan groupMean
  rw [List.map_map]
  refine List.map_congr_left fun k _ => ?_
  rw [zip_filter_some, sumNan_some]
  rfl

/-- every measure times the power of the radius of its dimension -/
noncomputable def scaleBy (r : ℝ) (M : List (List ℝ)) : List (List (Option ℝ)) :=
  M.zipIdx.map fun mi => mi.1.map fun x => some (x * r ^ mi.2)

theorem scaleBy_get (r : ℝ) (M : List (List ℝ)) (i : Nat) :
    (scaleBy r M)[i]? = M[i]?.map fun L => L.map fun x => some (x * r ^ i) := by
  unfold scaleBy
  rw [List.getElem?_map, List.getElem?_zipIdx, Option.map_map, Nat.zero_add]
  rfl

theorem scale_some (r : ℝ) (M : List (List ℝ)) :
    ((M.map fun L => L.map some).zipIdx.map fun mi : List (Option ℝ) × Nat =>
      mi.1.map fun x => x.map fun x => x * r ^ mi.2) = scaleBy r M := by
  unfold scaleBy
  rw [List.zipIdx_map, List.map_map]
  refine List.map_congr_left fun p _ => ?_
  simp [Function.comp_def]

variable {D m : Nat} {top : List (List Nat)} {t : Topo}

theorem positionAt_mapM (PP : List (List (Vec ℝ D))) (g : Vec ℝ D → Option (Vec ℝ D)) :
    ∀ d : List Nat, ∀ r, (PP.zip d).mapM (fun pd => vertexAt pd.1 pd.2) = .ok r →
    ((PP.map fun L => L.map g).zip d).mapM (fun pd => positionAt pd.1 pd.2) = .ok (r.map g) := by
  induction PP with
  | nil => intro d r h; cases d <;> (rw [← Except.ok.inj h]; rfl)
  | cons L PP ih =>
    intro d r h
    cases d with
    | nil => rw [← Except.ok.inj h]; rfl
    | cons x d =>
      rw [List.zip_cons_cons, List.mapM_cons] at h
      rw [List.map_cons, List.zip_cons_cons, List.mapM_cons]
      unfold vertexAt at h
      unfold positionAt
      simp only [List.getElem?_map]
      cases hL : L[x]? with
      | none => rw [hL] at h; cases h
      | some v =>
        rw [hL] at h
        simp only [bind, Except.bind] at h
        cases hr : (PP.zip d).mapM (fun pd => vertexAt pd.1 pd.2) with
        | error e =>
          unfold vertexAt at hr
          rw [hr] at h; cases h
        | ok r' =>
          have := ih d r' hr
          unfold vertexAt at hr
          rw [hr] at h
          unfold positionAt at this
          rw [← Except.ok.inj h]
          simp only [Option.map_some, bind, Except.bind, this]
          rfl

theorem sphericalMetricOf_eq (lenB : t.boundary.length = m + 1)
    (PP : List (List (Option (Vec ℝ D)))) (r : ℝ) (X : Nat × List Nat → Nat → Vec ℝ D)
    (U : Nat → Nat → Nat × List Nat → ℝ)
    (hX : ∀ q ∈ flagList m top, (PP.zip (flagOf t.elements m q.2 ++ [q.1])).mapM
      (fun pd => positionAt pd.1 pd.2) = .ok ((List.range (m + 2)).map fun k => some (X q k)))
    (hU : ∀ q ∈ flagList m top, ∀ d M, 1 ≤ M → d + M ≤ m + 1 →
      sphericalVolumeOf ((List.range (M + 1)).map fun k => some (X q (d + k))) = .ok (some (U d M q))) :
    sphericalMetricOf t ((flagList m top).map fun q => flagOf t.elements m q.2 ++ [q.1]) PP r =
    .ok (scaleBy r ([List.replicate (t.nElements 0) 1] ++
        (List.range' 1 m).map (fun i => (groupMean ((flagList m top).map (domainKey t.elements m i))
          ((flagList m top).map (U 0 i))).map fun x => x * ((i + 1).factorial : ℝ)) ++
        [groupSum ((flagList m top).map (domainKey t.elements m (m + 1)))
          ((flagList m top).map (U 0 (m + 1)))]),
      scaleBy r ([List.replicate (t.nElements (m + 1)) 1] ++
        (List.range' 1 m).map (fun i => (groupSum ((flagList m top).map
            (domainKey t.elements m (m + 1 - i)))
          ((flagList m top).map (U (m + 1 - i) i))).map fun x => x / ((m + 1 - i + 1).factorial : ℝ)) ++
        [groupSum ((flagList m top).map (domainKey t.elements m 0))
          ((flagList m top).map (U 0 (m + 1)))])) := by
  unfold sphericalMetricOf
  simp only [lenB]
  rw [mapM_map_ok (fun d => (PP.zip d).mapM fun pd => positionAt pd.1 pd.2)
    (fun q => flagOf t.elements m q.2 ++ [q.1]) (fun q => (List.range (m + 2)).map fun k => some (X q k))
    (flagList m top) hX]
  simp only [bind, Except.bind, Nat.add_sub_cancel, List.map_map]
  have hv : ((flagList m top).map fun q => (List.range (m + 2)).map fun k => some (X q k)).mapM sphericalVolumeOf =
      .ok (((flagList m top).map (U 0 (m + 1))).map some) := by
    rw [List.map_map, mapM_map_ok _ _ (some ∘ U 0 (m + 1)) (flagList m top)]
    intro q hq
    have := hU q hq 0 (m + 1) (by omega) (by omega)
    simpa using this
  have hcol : ∀ k ≤ m + 1, (flagList m top).map ((fun d : List Nat => d[k]?.getD 0) ∘
      fun q => flagOf t.elements m q.2 ++ [q.1]) = (flagList m top).map (domainKey t.elements m k) := by
    intro k hk
    apply List.map_congr_left
    intro q _
    exact domain_entry t.elements m k hk q
  rw [mapM_ok _
    (fun i => (((groupMean ((flagList m top).map (domainKey t.elements m i))
          ((flagList m top).map (U 0 i))).map fun x => x * ((i + 1).factorial : ℝ)).map some,
        ((groupSum ((flagList m top).map (domainKey t.elements m (m + 1 - i)))
          ((flagList m top).map (U (m + 1 - i) i))).map
            fun x => x / ((m + 1 - i + 1).factorial : ℝ)).map some)) (List.range' 1 m)]
  · simp only [hv, hcol _ (Nat.le_refl _), hcol _ (Nat.zero_le _), groupSumNan_some]
    rw [← scale_some, ← scale_some]
    simp only [List.map_append, List.map_map, List.map_cons, List.map_nil, List.map_replicate,
      Function.comp_def]
  · intro i hi
    have hi := List.mem_range'_1.1 hi
    have h1 : ((flagList m top).map fun q => (List.range (m + 2)).map fun k => some (X q k)).mapM
        (fun c => sphericalVolumeOf (c.take (i + 1))) = .ok (((flagList m top).map (U 0 i)).map some) := by
      rw [List.map_map, mapM_map_ok _ _ (some ∘ U 0 i) (flagList m top)]
      intro q hq
      simp only [map_range_take (fun k => some (X q k)) (show i + 1 ≤ m + 2 by omega)]
      simpa using hU q hq 0 i (by omega) (by omega)
    have h2 : ((flagList m top).map fun q => (List.range (m + 2)).map fun k => some (X q k)).mapM
        (fun c => sphericalVolumeOf (c.drop (m + 1 - i))) =
          .ok (((flagList m top).map (U (m + 1 - i) i)).map some) := by
      rw [List.map_map, mapM_map_ok _ _ (some ∘ U (m + 1 - i) i) (flagList m top)]
      intro q hq
      simp only [map_range_drop]
      rw [show m + 2 - (m + 1 - i) = i + 1 by omega]
      exact hU q hq (m + 1 - i) i (by omega) (by omega)
    rw [h1, h2]
    simp only [hcol i (by omega), hcol (m + 1 - i) (by omega), groupSumNan_some, groupMeanNan_some]
    simp only [List.map_map, Function.comp_def, Option.map_some]

end Verif
