/-
The graph whose components are taken has an edge exactly where two simplices share a face.
-/
import Verif.Model.Components
import Verif.Spec.Components
import Verif.Lemmas.Averaging
import Verif.Lemmas.Orientation
import Verif.Props.Boundary

namespace Verif

open Verif.Model Verif.Spec

/-- the coboundary sign of a face is one of the two units -/
theorem cob_face_pm {e l : List Nat} (he : e.Nodup) (hl : l.Nodup) (h : IsFace e l) :
    cob (relSign e) l = 1 ∨ cob (relSign e) l = -1 := by
  obtain ⟨c, hc, hp⟩ := h
  rw [cob_relSign_face hl hc hp]
  rcases relSign_eq_one_or he hp.symm with h | h <;> rw [h] <;>
    rcases neg_one_pow_eq_or ℤ c with h' | h' <;> rw [h'] <;> simp

theorem cob_not_face {e l : List Nat} (h : ¬ IsFace e l) : cob (relSign e) l = 0 :=
  cob_relSign_not_face fun c hc hp => h ⟨c, hc, hp⟩

theorem isFace_congr {e e' l : List Nat} (h : e.Perm e') : IsFace e l ↔ IsFace e' l :=
  ⟨fun ⟨c, hc, hp⟩ => ⟨c, hc, h.symm.trans hp⟩, fun ⟨c, hc, hp⟩ => ⟨c, hc, h.trans hp⟩⟩

/-- two simplices with two different common faces have the same corners -/
theorem perm_of_two_faces {e e' l l' : List Nat} (hl : l.Nodup) (hlen : l'.length ≤ l.length)
    (h1 : IsFace e l) (h2 : IsFace e l') (h1' : IsFace e' l) (h2' : IsFace e' l') (hne : ¬ e.Perm e') :
    l.Perm l' := by
  obtain ⟨c, hc, hp⟩ := h1
  obtain ⟨d, hd, hq⟩ := h1'
  have sub : ∀ {e}, IsFace e l' → e ⊆ l' := by
    rintro e ⟨c, -, hp⟩ x hx
    exact List.mem_of_mem_eraseIdx (hp.mem_iff.1 hx)
  have hcd : c ≠ d := by
    rintro rfl
    exact hne (hp.trans hq.symm)
  refine (List.subperm_of_subset hl fun x hx => ?_).perm_of_length_le hlen
  obtain ⟨i, hi, rfl⟩ := List.getElem_of_mem hx
  by_cases hic : i = c
  · exact sub h2' (hq.mem_iff.2 (mem_eraseIdx_ne hi (by omega)))
  · exact sub h2 (hp.mem_iff.2 (mem_eraseIdx_ne hi hic))

/-- a list of simplices without repetitions contains at most `l.length` faces of `l` -/
theorem faces_le {E : List (List Nat)} (hd : DistinctElements E) (l : List Nat) (N : Nat) (hN : N ≤ E.length)
    [∀ i : Nat, Decidable (IsFace (E[i]?.getD []) l)] :
    ((List.range N).filter fun i => IsFace (E[i]?.getD []) l).length ≤ l.length := by
  have key : ∀ i : Nat, ∃ c, i < N → IsFace (E[i]?.getD []) l → c < l.length ∧ (E[i]?.getD []).Perm (l.eraseIdx c) := by
    intro i
    by_cases h : IsFace (E[i]?.getD []) l
    · obtain ⟨c, hc⟩ := h
      exact ⟨c, fun _ _ => hc⟩
    · exact ⟨0, fun _ h' => absurd h' h⟩
  choose f hf using key
  have hnd : ((List.range N).filter fun i => IsFace (E[i]?.getD []) l).Nodup := List.nodup_range.filter _
  have hinj : (((List.range N).filter fun i => IsFace (E[i]?.getD []) l).map f).Nodup := by
    rw [List.nodup_map_iff_inj_on hnd]
    intro a ha b hb hab
    simp only [List.mem_filter, List.mem_range, decide_eq_true_eq] at ha hb
    have h1 := (hf a ha.1 ha.2).2
    have h2 := (hf b hb.1 hb.2).2
    rw [hab] at h1
    have ga := List.getElem?_eq_getElem (l := E) (i := a) (by omega)
    have gb := List.getElem?_eq_getElem (l := E) (i := b) (by omega)
    rw [ga, Option.getD_some] at h1
    rw [gb, Option.getD_some] at h2
    exact distinct_index hd ga gb (h1.trans h2.symm)
  have hsub : ((List.range N).filter fun i => IsFace (E[i]?.getD []) l).map f ⊆ List.range l.length := by
    intro c hc
    obtain ⟨i, hi, rfl⟩ := List.mem_map.1 hc
    simp only [List.mem_filter, List.mem_range, decide_eq_true_eq] at hi
    exact List.mem_range.2 (hf i hi.1 hi.2).1
  have := (List.subperm_of_subset hinj hsub).length_le
  simpa using this

theorem wrap8_eq_zero {x : Int} (h : wrap8 x = 0) : (256 : Int) ∣ x := by
  unfold wrap8 at h
  omega

variable {m : Nat} {top : List (List Nat)} {t : Topo}

/-- an entry of the graph is not zero exactly if the two simplices share a face -/
theorem shareEntry (wf : WF (m + 1) top t) (htop : Simplices (m + 2) top) (hm : m + 2 < 256) {a b : Nat}
    (ha : a < top.length) (hb : b < top.length) :
    wrap8 (((List.range (t.matrix m).rows).map fun i =>
      (t.matrix m).entry i a * (t.matrix m).entry i b).sum) ≠ 0 ↔ ShareFace top a b := by
  classical
  obtain ⟨hE, -, hd, hF, -⟩ := wf.get (k := m) (by omega)
  rw [wf.top_eq, Option.getD_some] at hF
  have hrows := (wf.shape (k := m) (by omega)).1
  have hcols : t.nElements (m + 1) = top.length := by
    unfold Topo.nElements
    rw [wf.top_eq, Option.getD_some]
  have hla := htop _ (List.getElem_mem ha)
  have hlb := htop _ (List.getElem_mem hb)
  have ga := List.getElem?_eq_getElem ha
  have gb := List.getElem?_eq_getElem hb
  have hval : ∀ i ∈ List.range (t.matrix m).rows,
      (t.matrix m).entry i a * (t.matrix m).entry i b =
        cob (relSign ((t.elements[m]?.getD [])[i]?.getD [])) top[a] *
          cob (relSign ((t.elements[m]?.getD [])[i]?.getD [])) top[b] := by
    intro i hi
    rw [List.mem_range, hrows] at hi
    rw [wf.entry (by omega) hi (by omega), wf.entry (by omega) hi (by omega), wf.top_eq, Option.getD_some, ga, gb,
      Option.getD_some, Option.getD_some]
    have : levelSign m * levelSign m = 1 := by unfold levelSign; split <;> rfl
    linear_combination (cob (relSign ((t.elements[m]?.getD [])[i]?.getD [])) top[a] *
          cob (relSign ((t.elements[m]?.getD [])[i]?.getD [])) top[b]) * this
  rw [List.map_congr_left hval, hrows]
  unfold Topo.nElements
  generalize t.elements[m]?.getD [] = E at hE hd hF
  have hnd : ∀ i < E.length, (E[i]?.getD []).Nodup := by
    intro i hi
    rw [List.getElem?_eq_getElem hi, Option.getD_some]
    exact (hE _ (List.getElem_mem hi)).2
  constructor
  · intro h
    by_contra hns
    refine h ?_
    rw [List.map_congr_left (g := fun _ => (0 : ℤ))]
    · simp [wrap8_zero]
    · intro i hi
      by_cases h1 : IsFace (E[i]?.getD []) top[a]
      · by_cases h2 : IsFace (E[i]?.getD []) top[b]
        · exact absurd ⟨_, _, ga, gb, _, h1, h2⟩ hns
        · rw [cob_not_face h2, mul_zero]
      · rw [cob_not_face h1, zero_mul]
  · rintro ⟨l, l', hl, hl', e, h1, h2⟩
    rw [ga] at hl
    rw [gb] at hl'
    obtain rfl := Option.some.inj hl
    obtain rfl := Option.some.inj hl'
    obtain ⟨i, hi, hei⟩ : ∃ i, ∃ hi : i < E.length, E[i].Perm e := by
      obtain ⟨c, hc, hp⟩ := h1
      obtain ⟨e', he', hp'⟩ := hF.1 _ (List.getElem_mem ha) c hc
      obtain ⟨i, hi, rfl⟩ := List.getElem_of_mem he'
      exact ⟨i, hi, hp'.trans hp.symm⟩
    have gi : E[i]?.getD [] = E[i] := by rw [List.getElem?_eq_getElem hi, Option.getD_some]
    have f1 : IsFace (E[i]?.getD []) top[a] := by rw [gi]; exact (isFace_congr hei).2 h1
    have f2 : IsFace (E[i]?.getD []) top[b] := by rw [gi]; exact (isFace_congr hei).2 h2
    by_cases hp : top[a].Perm top[b]
    · obtain ⟨ε, hε, h⟩ := alt_perm_sign hp
      have hterm : ∀ i ∈ List.range E.length,
          cob (relSign (E[i]?.getD [])) top[a] * cob (relSign (E[i]?.getD [])) top[b] =
            ε * (if IsFace (E[i]?.getD []) top[b] then 1 else 0) := by
        intro i hi
        rw [List.mem_range] at hi
        rw [h _ (alt_relSign _).cob, smul_eq_mul]
        split
        · next hf =>
          rcases cob_face_pm (hnd i hi) hlb.2 hf with h | h <;> rw [h] <;> ring
        · next hf => rw [cob_not_face hf]; ring
      rw [List.map_congr_left hterm, List.sum_map_mul_left]
      have hcount : ((List.range E.length).map fun i => (if IsFace (E[i]?.getD []) top[b] then 1 else 0 : ℤ)).sum =
          (((List.range E.length).filter fun i => IsFace (E[i]?.getD []) top[b]).length : ℤ) := by
        generalize List.range E.length = L
        induction L with
        | nil => rfl
        | cons x L ih =>
          rw [List.map_cons, List.sum_cons, ih, List.filter_cons]
          by_cases hx : IsFace (E[x]?.getD []) top[b]
          · simp [hx]; ring
          · simp [hx]
      rw [hcount]
      have hle := faces_le hd top[b] E.length (Nat.le_refl _)
      have hpos : 0 < ((List.range E.length).filter fun i => IsFace (E[i]?.getD []) top[b]).length :=
        List.length_pos_of_mem (List.mem_filter.2 ⟨List.mem_range.2 hi, by simpa using f2⟩)
      rw [hlb.1] at hle
      intro h0
      have := wrap8_eq_zero h0
      rcases hε with rfl | rfl <;> omega
    · have hsingle := sum_map_eq_single (List.range E.length) List.nodup_range i
        (fun i => cob (relSign (E[i]?.getD [])) top[a] * cob (relSign (E[i]?.getD [])) top[b])
        (List.mem_range.2 hi) (by
          intro x hx hxi
          rw [List.mem_range] at hx
          by_cases g1 : IsFace (E[x]?.getD []) top[a]
          · by_cases g2 : IsFace (E[x]?.getD []) top[b]
            · refine absurd (perm_of_two_faces hla.2 (by rw [hla.1, hlb.1]) g1 g2 f1 f2 fun hpp => hxi ?_) hp
              rw [gi, List.getElem?_eq_getElem hx, Option.getD_some] at hpp
              exact distinct_index hd (List.getElem?_eq_getElem hx) (List.getElem?_eq_getElem hi) hpp
            · simp only [cob_not_face g2, mul_zero]
          · simp only [cob_not_face g1, zero_mul])
      rw [hsingle]
      rcases cob_face_pm (hnd i hi) hla.2 f1 with h | h <;>
        rcases cob_face_pm (hnd i hi) hlb.2 f2 with h' | h' <;> rw [h, h'] <;> decide

end Verif
