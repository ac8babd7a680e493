/-
The simplices at the corners of a cube: each lists the facets of the cube that meet in the corner.
-/
import Verif.Lemmas.Orientation
import Verif.Spec.Boundary
import Mathlib.Algebra.BigOperators.Ring.Finset
import Mathlib.Algebra.BigOperators.Intervals

set_option linter.unusedSectionVars false

namespace Verif

open Verif.Model Verif.Spec

/-- `F` lists the facets of the `n`-cube with the corners `0, ..., 2 ^ n - 1`, of which corner `v` lies on the side `bit v a`
of axis `a`; `facet a s` is the number of the facet on side `s` of axis `a` -/
structure Facets (n : Nat) (F : List (List Nat)) (bit : Nat → Nat → Bool) (axis : Nat → Nat) (sd : Nat → Bool)
    (facet : Nat → Bool → Nat) : Prop where
  inj : ∀ v < 2 ^ n, ∀ w < 2 ^ n, (∀ a < n, bit v a = bit w a) → v = w
  surj : ∀ f : Nat → Bool, ∃ v < 2 ^ n, ∀ a < n, bit v a = f a
  axis_lt : ∀ j < F.length, axis j < n
  mem : ∀ (j : Nat) (f : List Nat), F[j]? = some f → ∀ v, v ∈ f ↔ v < 2 ^ n ∧ bit v (axis j) = sd j
  facet_lt : ∀ a < n, ∀ s, facet a s < F.length
  axis_facet : ∀ a < n, ∀ s, axis (facet a s) = a
  sd_facet : ∀ a < n, ∀ s, sd (facet a s) = s
  facet_axis : ∀ j < F.length, facet (axis j) (sd j) = j

/-- the facets at a corner -/
def cornerFacets (F : List (List Nat)) (v : Nat) : List Nat :=
  (List.range F.length).filter fun j => decide (v ∈ F[j]?.getD [])

/-- all simplices -/
def cornerSimplices (n : Nat) (F : List (List Nat)) : List (List Nat) := (List.range (2 ^ n)).map (cornerFacets F)

/-- the facets at a corner in the order of the axes -/
def axisFacets (n : Nat) (bit : Nat → Nat → Bool) (facet : Nat → Bool → Nat) (v : Nat) : List Nat :=
  (List.range n).map fun a => facet a (bit v a)

variable {n : Nat} {F : List (List Nat)} {bit : Nat → Nat → Bool} {axis : Nat → Nat} {sd : Nat → Bool}
  {facet : Nat → Bool → Nat}

section
variable (H : Facets n F bit axis sd facet)
include H

theorem Facets.mem_corner {v j : Nat} (hv : v < 2 ^ n) :
    j ∈ cornerFacets F v ↔ j < F.length ∧ bit v (axis j) = sd j := by
  unfold cornerFacets
  rw [List.mem_filter, List.mem_range]
  refine and_congr_right fun hj => ?_
  rw [List.getElem?_eq_getElem hj, Option.getD_some, decide_eq_true_iff, H.mem j _ (List.getElem?_eq_getElem hj)]
  exact and_iff_right hv

theorem Facets.mem_axisFacets {v j : Nat} : j ∈ axisFacets n bit facet v ↔ j < F.length ∧ bit v (axis j) = sd j := by
  unfold axisFacets
  rw [List.mem_map]
  constructor
  · rintro ⟨a, ha, rfl⟩
    have ha := List.mem_range.1 ha
    exact ⟨H.facet_lt a ha _, by rw [H.axis_facet a ha, H.sd_facet a ha]⟩
  · rintro ⟨hj, hb⟩
    exact ⟨axis j, List.mem_range.2 (H.axis_lt j hj), by rw [hb, H.facet_axis j hj]⟩

theorem Facets.axisFacets_axis (v : Nat) : (axisFacets n bit facet v).map axis = List.range n := by
  unfold axisFacets
  rw [List.map_map]
  conv_rhs => rw [← List.map_id (List.range n)]
  exact List.map_congr_left fun a ha => H.axis_facet a (List.mem_range.1 ha) _

theorem Facets.axisFacets_nodup (v : Nat) : (axisFacets n bit facet v).Nodup :=
  List.Nodup.of_map axis (by rw [H.axisFacets_axis]; exact List.nodup_range)

theorem Facets.perm {v : Nat} (hv : v < 2 ^ n) : (cornerFacets F v).Perm (axisFacets n bit facet v) := by
  have hnd : (cornerFacets F v).Nodup := List.nodup_range.filter _
  rw [List.perm_ext_iff_of_nodup hnd (H.axisFacets_nodup v)]
  intro j
  rw [H.mem_corner hv, H.mem_axisFacets]

omit H in
theorem axisFacets_length (v : Nat) : (axisFacets n bit facet v).length = n := by simp [axisFacets]

theorem Facets.simplices : Simplices n (cornerSimplices n F) := by
  intro l hl
  obtain ⟨v, hv, rfl⟩ := List.mem_map.1 hl
  have hv := List.mem_range.1 hv
  exact ⟨by rw [(H.perm hv).length_eq, axisFacets_length], List.nodup_range.filter _⟩

omit H in
theorem cornerSimplices_get {v : Nat} {l : List Nat} :
    (cornerSimplices n F)[v]? = some l ↔ v < 2 ^ n ∧ l = cornerFacets F v := by
  unfold cornerSimplices
  rw [List.getElem?_map]
  by_cases hv : v < 2 ^ n
  · rw [List.getElem?_range hv]
    simp [hv, eq_comm]
  · rw [List.getElem?_eq_none (by simpa using hv)]
    simp [hv]

omit H in
theorem axisFacets_get {v a : Nat} (ha : a < n) : (axisFacets n bit facet v)[a]? = some (facet a (bit v a)) := by
  simp [axisFacets, List.getElem?_range ha]

/-- the face without the facet along axis `a` belongs to the corners that agree along the other axes -/
theorem Facets.face_iff {v w a : Nat} (ha : a < n) :
    IsFace ((axisFacets n bit facet v).eraseIdx a) (axisFacets n bit facet w) ↔ ∀ b < n, b ≠ a → bit w b = bit v b := by
  have hmem : ∀ (u c j : Nat), c < n → (j ∈ (axisFacets n bit facet u).eraseIdx c ↔
      (j < F.length ∧ bit u (axis j) = sd j) ∧ axis j ≠ c) := by
    intro u c j hc
    rw [List.mem_eraseIdx_iff_getElem?]
    constructor
    · rintro ⟨i, hic, hi⟩
      have hin : i < n := by
        have := (List.getElem?_eq_some_iff.1 hi).1
        rwa [axisFacets_length] at this
      refine ⟨H.mem_axisFacets.1 (List.mem_of_getElem? hi), ?_⟩
      rw [axisFacets_get hin] at hi
      rw [← Option.some.inj hi, H.axis_facet i hin]
      exact hic
    · rintro ⟨⟨hj, hb⟩, hne⟩
      exact ⟨axis j, hne, by rw [axisFacets_get (H.axis_lt j hj), hb, H.facet_axis j hj]⟩
  constructor
  · rintro ⟨c, hc, hp⟩ b hb hne
    rw [axisFacets_length] at hc
    have hj : facet b (bit v b) ∈ (axisFacets n bit facet v).eraseIdx a := by
      rw [hmem v a _ ha, H.axis_facet b hb, H.sd_facet b hb]
      exact ⟨⟨H.facet_lt b hb _, rfl⟩, hne⟩
    have := (hmem w c _ hc).1 (hp.mem_iff.1 hj)
    rw [H.axis_facet b hb, H.sd_facet b hb] at this
    exact this.1.2
  · intro hall
    refine ⟨a, by rw [axisFacets_length]; exact ha, ?_⟩
    rw [List.perm_ext_iff_of_nodup ((H.axisFacets_nodup v).eraseIdx a) ((H.axisFacets_nodup w).eraseIdx a)]
    intro j
    rw [hmem v a j ha, hmem w a j ha]
    refine and_congr_left fun hne => and_congr_right fun hj => ?_
    rw [hall _ (H.axis_lt j hj) hne]

/-- the erased lists agree -/
theorem Facets.erase_eq {v w a : Nat} (h : ∀ b < n, b ≠ a → bit w b = bit v b) :
    (axisFacets n bit facet w).eraseIdx a = (axisFacets n bit facet v).eraseIdx a := by
  apply List.ext_getElem?
  intro i
  rw [List.getElem?_eraseIdx, List.getElem?_eraseIdx]
  have key : ∀ k, k ≠ a → (axisFacets n bit facet w)[k]? = (axisFacets n bit facet v)[k]? := by
    intro k hk
    by_cases hkn : k < n
    · rw [axisFacets_get hkn, axisFacets_get hkn, h k hkn hk]
    · rw [List.getElem?_eq_none (by rw [axisFacets_length]; omega), List.getElem?_eq_none (by rw [axisFacets_length]; omega)]
  split
  · exact key i (by omega)
  · exact key (i + 1) (by omega)

/-- the neighbour of a corner along an axis -/
theorem Facets.neighbour {v a : Nat} (hv : v < 2 ^ n) (ha : a < n) : ∃ w < 2 ^ n, w ≠ v ∧ bit w a ≠ bit v a ∧
    (∀ b < n, b ≠ a → bit w b = bit v b) ∧ ∀ u < 2 ^ n, (∀ b < n, b ≠ a → bit u b = bit v b) → u = v ∨ u = w := by
  obtain ⟨w, hw, hwb⟩ := H.surj fun b => if b = a then !bit v a else bit v b
  have h1 : bit w a = !bit v a := by rw [hwb a ha, if_pos rfl]
  have h2 : ∀ b < n, b ≠ a → bit w b = bit v b := fun b hb hne => by rw [hwb b hb, if_neg hne]
  refine ⟨w, hw, fun e => ?_, by rw [h1]; cases bit v a <;> decide, h2, fun u hu hall => ?_⟩
  · rw [e] at h1; revert h1; cases bit v a <;> decide
  · by_cases hb : bit u a = bit v a
    · left
      refine H.inj u hu v hv fun b hbn => ?_
      by_cases hba : b = a
      · rw [hba, hb]
      · exact hall b hbn hba
    · right
      refine H.inj u hu w hw fun b hbn => ?_
      by_cases hba : b = a
      · rw [hba, h1]
        revert hb
        cases bit u a <;> cases bit v a <;> decide
      · rw [hall b hbn hba, h2 b hbn hba]

/-- every face of a simplex is shared by exactly two: the simplex and its neighbour -/
theorem Facets.shared {v : Nat} {e : List Nat} (hv : v < 2 ^ n) (he : IsFace e (cornerFacets F v)) :
    ∃ w a, a < n ∧ w < 2 ^ n ∧ e.Perm ((axisFacets n bit facet v).eraseIdx a) ∧ bit w a ≠ bit v a ∧
      (∀ b < n, b ≠ a → bit w b = bit v b) ∧ SharedFace (cornerSimplices n F) e v w := by
  obtain ⟨a, ha, hp⟩ := (isFace_perm_iff (H.perm hv) (List.nodup_range.filter _)).1 he
  rw [axisFacets_length] at ha
  obtain ⟨w, hw, hne, hb, hall, hu⟩ := H.neighbour hv ha
  refine ⟨w, a, ha, hw, hp, hb, hall, hne.symm, by simpa [cornerSimplices] using hv, by simpa [cornerSimplices] using hw, ?_⟩
  intro j l hl
  obtain ⟨hj, rfl⟩ := cornerSimplices_get.1 hl
  rw [isFace_perm_iff (H.perm hj) (List.nodup_range.filter _)]
  have : IsFace e (axisFacets n bit facet j) ↔ IsFace ((axisFacets n bit facet v).eraseIdx a) (axisFacets n bit facet j) :=
    ⟨fun ⟨c, hc, h⟩ => ⟨c, hc, hp.symm.trans h⟩, fun ⟨c, hc, h⟩ => ⟨c, hc, hp.trans h⟩⟩
  rw [this, H.face_iff ha]
  constructor
  · exact hu j hj
  · rintro (rfl | rfl)
    · intros; rfl
    · exact hall

theorem Facets.atMostTwo : AtMostTwo (cornerSimplices n F) := by
  intro e j1 j2 j3 l1 l2 l3 h1 h2 h3 f1 f2 f3
  obtain ⟨hj, rfl⟩ := cornerSimplices_get.1 h1
  obtain ⟨w, a, -, -, -, -, -, -, -, -, hs⟩ := H.shared hj f1
  have a2 := (hs j2 l2 h2).1 f2
  have a3 := (hs j3 l3 h3).1 f3
  omega

theorem Facets.closed (e : List Nat) : ¬ BoundaryFace (cornerSimplices n F) e := by
  rintro ⟨j, l, hl, hf, hu⟩
  obtain ⟨hj, rfl⟩ := cornerSimplices_get.1 hl
  obtain ⟨w, a, -, hw, -, -, -, hne, -, -, hs⟩ := H.shared hj hf
  have hw' : (cornerSimplices n F)[w]? = some (cornerFacets F w) := cornerSimplices_get.2 ⟨hw, rfl⟩
  exact hne (hu w _ hw' ((hs w _ hw').2 (.inr rfl))).symm

/-- the sign of a corner: the parity of the number of axes along which it lies on the second side -/
theorem Facets.orientable (hn : 2 ≤ n) : Orientable (cornerSimplices n F) := by
  let par : Nat → Int := fun v => ∏ a ∈ Finset.range n, if bit v a then -1 else 1
  let ε : Nat → Int := fun v => relSign (axisFacets n bit facet v) (cornerFacets F v) * par v
  have hpar : ∀ v, par v = 1 ∨ par v = -1 := by
    intro v
    have : ∀ s : Finset Nat, (∏ a ∈ s, if bit v a then (-1 : Int) else 1) = 1 ∨ (∏ a ∈ s, if bit v a then (-1 : Int) else 1) = -1 := by
      intro s
      induction s using Finset.induction_on with
      | empty => simp
      | insert x s hx ih =>
        rw [Finset.prod_insert hx]
        rcases ih with ih | ih <;> rw [ih] <;> split <;> simp
    exact this _
  have hrel : ∀ v < 2 ^ n, relSign (axisFacets n bit facet v) (cornerFacets F v) = 1 ∨
      relSign (axisFacets n bit facet v) (cornerFacets F v) = -1 := fun v hv =>
    relSign_eq_one_or (H.axisFacets_nodup v) (H.perm hv)
  refine ⟨fun v => decide (ε v = -1), (coherent_reorient_iff hn H.simplices _).2 ?_⟩
  intro e v w l1 l2 h1 h2 hsh
  obtain ⟨hv, rfl⟩ := cornerSimplices_get.1 h1
  obtain ⟨hw, rfl⟩ := cornerSimplices_get.1 h2
  have hfv : IsFace e (cornerFacets F v) := (hsh.2.2.2 v _ h1).2 (.inl rfl)
  obtain ⟨w', a, ha, hw', hp, hb, hall, hsh'⟩ := H.shared hv hfv
  have hww : w = w' := by
    have := (hsh'.2.2.2 w _ h2).1 ((hsh.2.2.2 w _ h2).2 (.inr rfl))
    rcases this with rfl | h
    · exact absurd rfl hsh.1
    · exact h
  subst hww
  have hsign : ∀ u < 2 ^ n, flipSign (decide (ε u = -1)) * inducedSign e (cornerFacets F u) =
      par u * inducedSign e (axisFacets n bit facet u) := by
    intro u hu
    have hflip : flipSign (decide (ε u = -1)) = ε u := by
      rcases hrel u hu with h | h <;> rcases hpar u with h' | h' <;> simp [ε, flipSign, h, h']
    rw [hflip, inducedSign_eq_cob, inducedSign_eq_cob,
      (alt_relSign e).cob.eq_relSign (H.axisFacets_nodup u) (H.perm hu)]
    simp only [ε, smul_eq_mul]
    rcases hrel u hu with h | h <;> rw [h] <;> ring
  rw [hsign v hv, hsign w hw]
  have e1 : inducedSign e (axisFacets n bit facet w) = inducedSign e (axisFacets n bit facet v) := by
    have heq := H.erase_eq hall
    rw [inducedSign_eq_cob, inducedSign_eq_cob,
      cob_relSign_face (H.axisFacets_nodup w) (c := a) (by rw [axisFacets_length]; exact ha) (by rw [heq]; exact hp),
      cob_relSign_face (H.axisFacets_nodup v) (c := a) (by rw [axisFacets_length]; exact ha) hp, heq]
  have e2 : par w = - par v := by
    have ha' := Finset.mem_range.2 ha
    have hrest : (∏ b ∈ (Finset.range n).erase a, if bit w b then (-1 : Int) else 1) =
        ∏ b ∈ (Finset.range n).erase a, if bit v b then (-1 : Int) else 1 :=
      Finset.prod_congr rfl fun b hb => by
        have := Finset.mem_erase.1 hb
        rw [hall b (Finset.mem_range.1 this.2) this.1]
    simp only [par]
    rw [← Finset.mul_prod_erase _ _ ha', ← Finset.mul_prod_erase _ _ ha', hrest]
    revert hb
    cases bit w a <;> cases bit v a <;> simp
  rw [e1, e2]
  ring

/-- the simplices are connected: change the sides one axis after the other -/
theorem Facets.connected : Connected (cornerSimplices n F) := by
  intro v hv w hw
  have hv : v < 2 ^ n := by simpa [cornerSimplices] using hv
  have hw : w < 2 ^ n := by simpa [cornerSimplices] using hw
  have step : ∀ k ≤ n, ∃ u < 2 ^ n, (∀ a < n, bit u a = if a < k then bit w a else bit v a) ∧
      Relation.ReflTransGen (Adjacent (cornerSimplices n F)) v u := by
    intro k
    induction k with
    | zero => exact fun _ => ⟨v, hv, fun a _ => by simp, .refl⟩
    | succ k ih =>
      intro hk
      obtain ⟨u, hu, hub, hr⟩ := ih (by omega)
      by_cases hkk : bit w k = bit v k
      · refine ⟨u, hu, fun a ha => ?_, hr⟩
        rw [hub a ha]
        by_cases hak : a = k
        · subst hak; simp [hkk]
        · have : a < k ↔ a < k + 1 := by omega
          simp only [this]
      · have hfu : IsFace ((axisFacets n bit facet u).eraseIdx k) (cornerFacets F u) :=
          (isFace_perm_iff (H.perm hu) (List.nodup_range.filter _)).2
            ⟨k, by rw [axisFacets_length]; omega, List.Perm.refl _⟩
        have hg : IsFace ((axisFacets n bit facet u).eraseIdx k) (axisFacets n bit facet u) :=
          ⟨k, by rw [axisFacets_length]; omega, List.Perm.refl _⟩
        obtain ⟨u', hu', hne, hb, hall, hun⟩ := H.neighbour hu (a := k) (by omega)
        refine ⟨u', hu', fun a ha => ?_, hr.tail ⟨(axisFacets n bit facet u).eraseIdx k, hne.symm,
          by simpa [cornerSimplices] using hu, by simpa [cornerSimplices] using hu', ?_⟩⟩
        · by_cases hak : a = k
          · subst hak
            have h0 := hub a ha
            simp only [lt_irrefl, if_false] at h0
            rw [h0] at hb
            rw [if_pos (by omega)]
            revert hb hkk
            cases bit u' a <;> cases bit v a <;> cases bit w a <;> decide
          · rw [hall a ha hak, hub a ha]
            have : a < k ↔ a < k + 1 := by omega
            simp only [this]
        · intro j l hl
          obtain ⟨hj, rfl⟩ := cornerSimplices_get.1 hl
          rw [isFace_perm_iff (H.perm hj) (List.nodup_range.filter _), H.face_iff (by omega)]
          constructor
          · exact hun j hj
          · rintro (rfl | rfl)
            · intros; rfl
            · exact hall
  obtain ⟨u, hu, hub, hr⟩ := step n le_rfl
  have : u = w := H.inj u hu w hw fun a ha => by rw [hub a ha, if_pos ha]
  rw [← this]
  exact hr

end

end Verif
