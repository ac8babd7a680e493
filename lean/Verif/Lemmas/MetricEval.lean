/-
What `metricOf` evaluates to, as grouped sums over orderings.
-/
import Verif.Lemmas.Metric

set_option linter.unusedSectionVars false

namespace Verif

open Verif.Model Verif.Spec

theorem mapM_map_ok {α β γ : Type} (f : β → Except PyErr γ) (a : α → β) (g : α → γ) (L : List α)
    (h : ∀ q ∈ L, f (a q) = .ok (g q)) : (L.map a).mapM f = .ok (L.map g) := by
  induction L with
  | nil => rfl
  | cons x L ih =>
    rw [List.map_cons, List.mapM_cons, h x (by simp), ih fun q hq => h q (by simp [hq])]
    rfl

theorem volumeOf_range {D M : Nat} (h : M ≤ D) (f : Nat → Vec ℝ D) :
    volumeOf ((List.range (M + 1)).map f) = .ok (vol fun k : Fin (M + 1) => f k) := by
  have gen : ∀ (l : List (Vec ℝ D)) (hl : l.length = M + 1),
      volumeOf l = .ok (vol fun k : Fin (M + 1) => l[k.val]'(by omega)) := by
    intro l hl
    unfold volumeOf
    have : ∀ (P : Nat) (hP : l.length = P), unsignedVolume (Matrix.of fun i : Fin l.length => l[i]) =
        unsignedVolume (Matrix.of fun i : Fin P => l[i.val]'(by omega)) := by
      intro P hP
      subst hP
      rfl
    rw [this (M + 1) hl]
    exact volume_eq_vol h _
  rw [gen _ (by simp)]
  congr 2
  funext k
  simp

theorem map_range_take {α : Type} (f : Nat → α) {a b : Nat} (h : a ≤ b) :
    ((List.range b).map f).take a = (List.range a).map f := by
  rw [← List.map_take, List.take_range, Nat.min_eq_left h]

theorem map_range_drop {α : Type} (f : Nat → α) (a b : Nat) :
    ((List.range b).map f).drop a = (List.range (b - a)).map fun r => f (a + r) := by
  apply List.ext_getElem
  · simp
  · intro i h1 h2
    simp

/-- entry `k` of a domain -/
def domainKey (E : List (List (List Nat))) (m k : Nat) (q : Nat × List Nat) : Nat :=
  if k ≤ m then elIdx (E[k]?.getD []) (q.2.take (k + 1)) else q.1

theorem domain_entry (E : List (List (List Nat))) (m k : Nat) (hk : k ≤ m + 1) (q : Nat × List Nat) :
    ((flagOf E m q.2 ++ [q.1])[k]?).getD 0 = domainKey E m k q := by
  unfold domainKey flagOf
  by_cases h : k ≤ m
  · rw [if_pos h, List.getElem?_append_left (by simp; omega)]
    simp [List.getElem?_range (show k < m + 1 by omega)]
  · have h' : k = m + 1 := by omega
    subst h'
    rw [if_neg h, List.getElem?_append_right (by simp)]
    simp

variable {D m : Nat} {top : List (List Nat)} {t : Topo}

/-- the volume spanned by the positions `d .. d + M` of a domain -/
noncomputable def domainVol (X : Nat × List Nat → Nat → Vec ℝ D) (d M : Nat) (q : Nat × List Nat) : ℝ :=
  vol fun r : Fin (M + 1) => X q (d + r)

theorem metricOf_eq (lenB : t.boundary.length = m + 1) (hD : m + 1 ≤ D)
    (PP : List (List (Vec ℝ D))) (X : Nat × List Nat → Nat → Vec ℝ D) (σ : Nat × List Nat → ℝ)
    (hX : ∀ q ∈ flagList m top, (PP.zip (flagOf t.elements m q.2 ++ [q.1])).mapM
      (fun pd => vertexAt pd.1 pd.2) = .ok ((List.range (m + 2)).map (X q))) :
    metricOf t ((flagList m top).map fun q => flagOf t.elements m q.2 ++ [q.1]) PP
      ((flagList m top).map σ) =
    .ok ([List.replicate (t.nElements 0) 1] ++
        (List.range' 1 m).map (fun i => (groupMean ((flagList m top).map (domainKey t.elements m i))
          ((flagList m top).map (domainVol X 0 i))).map fun x => x * ((i + 1).factorial : ℝ)) ++
        [groupSum ((flagList m top).map (domainKey t.elements m (m + 1)))
          ((flagList m top).map fun q => domainVol X 0 (m + 1) q * σ q)],
      [List.replicate (t.nElements (m + 1)) 1] ++
        (List.range' 1 m).map (fun i => (groupSum ((flagList m top).map
            (domainKey t.elements m (m + 1 - i)))
          ((flagList m top).map fun q => domainVol X (m + 1 - i) i q * σ q)).map
            fun x => x / ((m + 1 - i + 1).factorial : ℝ)) ++
        [groupSum ((flagList m top).map (domainKey t.elements m 0))
          ((flagList m top).map fun q => domainVol X 0 (m + 1) q * σ q)]) := by
  unfold metricOf
  simp only [lenB]
  rw [mapM_map_ok (fun d => (PP.zip d).mapM fun pd => vertexAt pd.1 pd.2)
    (fun q => flagOf t.elements m q.2 ++ [q.1]) (fun q => (List.range (m + 2)).map (X q)) (flagList m top) hX]
  simp only [bind, Except.bind, Nat.add_sub_cancel, List.map_map]
  have hv : ((flagList m top).map fun q => (List.range (m + 2)).map (X q)).mapM volumeOf =
      .ok ((flagList m top).map (domainVol X 0 (m + 1))) := by
    rw [mapM_map_ok _ _ (domainVol X 0 (m + 1)) (flagList m top)]
    intro q _
    rw [volumeOf_range (M := m + 1) hD]
    simp [domainVol]
  have hcol : ∀ k ≤ m + 1, (flagList m top).map ((fun d : List Nat => d[k]?.getD 0) ∘
      fun q => flagOf t.elements m q.2 ++ [q.1]) = (flagList m top).map (domainKey t.elements m k) := by
    intro k hk
    apply List.map_congr_left
    intro q _
    exact domain_entry t.elements m k hk q
  rw [mapM_ok _
    (fun i => ((groupMean ((flagList m top).map (domainKey t.elements m i))
          ((flagList m top).map (domainVol X 0 i))).map fun x => x * ((i + 1).factorial : ℝ),
        (groupSum ((flagList m top).map (domainKey t.elements m (m + 1 - i)))
          ((flagList m top).map fun q => domainVol X (m + 1 - i) i q * σ q)).map
            fun x => x / ((m + 1 - i + 1).factorial : ℝ))) (List.range' 1 m)]
  · simp only [hv, List.map_map, hcol _ (Nat.le_refl _), hcol _ (Nat.zero_le _), zipWith_map_map]
    rfl
  · intro i hi
    have hi := List.mem_range'_1.1 hi
    have h1 : ((flagList m top).map fun q => (List.range (m + 2)).map (X q)).mapM
        (fun c => volumeOf (c.take (i + 1))) = .ok ((flagList m top).map (domainVol X 0 i)) := by
      rw [mapM_map_ok _ _ (domainVol X 0 i) (flagList m top)]
      intro q _
      simp only [map_range_take (X q) (show i + 1 ≤ m + 2 by omega)]
      rw [volumeOf_range (by omega)]
      simp [domainVol]
    have h2 : ((flagList m top).map fun q => (List.range (m + 2)).map (X q)).mapM
        (fun c => volumeOf (c.drop (m + 1 - i))) = .ok ((flagList m top).map (domainVol X (m + 1 - i) i)) := by
      rw [mapM_map_ok _ _ (domainVol X (m + 1 - i) i) (flagList m top)]
      intro q _
      simp only [map_range_drop]
      rw [show m + 2 - (m + 1 - i) = i + 1 by omega, volumeOf_range (by omega)]
      rfl
    rw [h1, h2]
    simp only [hcol i (by omega), hcol (m + 1 - i) (by omega), zipWith_map_map]

end Verif
