/-
Helper lemmas on orientation.
-/
import Verif.Lemmas.Chain
import Verif.Model.Orientation
import Verif.Spec.Orientation
import Mathlib.Tactic.LinearCombination

namespace Verif

open Verif.Model Verif.Spec

theorem inducedSign_eq_cob (e l : List Nat) : inducedSign e l = cob (relSign e) l := by
  unfold inducedSign cob
  simp

theorem isFace_perm {e l l' : List Nat} (hp : l.Perm l') (hn : l.Nodup) :
    IsFace e l → IsFace e l' := by
  rintro ⟨c, hc, he⟩
  obtain ⟨d, hd, hd'⟩ := perm_eraseIdx hp.symm hn hc
  exact ⟨d, hd, he.trans hd'.symm⟩

theorem isFace_perm_iff {e l l' : List Nat} (hp : l.Perm l') (hn : l.Nodup) :
    IsFace e l ↔ IsFace e l' :=
  ⟨isFace_perm hp hn, isFace_perm hp.symm (hp.nodup_iff.1 hn)⟩

theorem swap01_perm (l : List Nat) : (swap01 l).Perm l := by
  rcases l with _ | ⟨a, _ | ⟨b, t⟩⟩
  · exact List.Perm.refl _
  · exact List.Perm.refl _
  · exact List.Perm.swap _ _ _

theorem inducedSign_swap01 (e : List Nat) {l : List Nat} (h : 2 ≤ l.length) :
    inducedSign e (swap01 l) = - inducedSign e l := by
  rw [inducedSign_eq_cob, inducedSign_eq_cob]
  rcases l with _ | ⟨a, _ | ⟨b, t⟩⟩
  · simp at h
  · simp at h
  · exact (alt_relSign e).cob [] b a t

/-- changing the corner order of the face multiplies all induced signs by one common sign -/
theorem inducedSign_face_perm {e e' l : List Nat} (hp : e.Perm e') (he : e.Nodup)
    (hl : l.Nodup) : inducedSign e l = relSign e e' * inducedSign e' l := by
  by_cases h : IsFace e l
  · obtain ⟨c, hc, hec⟩ := h
    rw [inducedSign_eq_cob, inducedSign_eq_cob, cob_relSign_face hl hc hec,
      cob_relSign_face hl hc (hp.symm.trans hec)]
    have := (alt_relSign e).eq_relSign (c := e') (l := l.eraseIdx c) (hp.nodup_iff.1 he)
      (hec.symm.trans hp)
    rw [this]
    simp only [smul_eq_mul]
    ring
  · have h' : ¬ IsFace e' l := fun ⟨c, hc, hec⟩ => h ⟨c, hc, hp.trans hec⟩
    rw [inducedSign_eq_cob, inducedSign_eq_cob, cob_relSign_not_face, cob_relSign_not_face]
    · simp
    · exact fun c hc hec => h' ⟨c, hc, hec⟩
    · exact fun c hc hec => h ⟨c, hc, hec⟩

theorem inducedSign_ne_zero {e l : List Nat} (he : e.Nodup) (hl : l.Nodup) :
    inducedSign e l ≠ 0 ↔ IsFace e l := by
  constructor
  · intro h
    by_contra hn
    apply h
    rw [inducedSign_eq_cob]
    exact cob_relSign_not_face fun c hc hec => hn ⟨c, hc, hec⟩
  · rintro ⟨c, hc, hec⟩
    rw [inducedSign_eq_cob, cob_relSign_face hl hc hec]
    apply mul_ne_zero
    · exact pow_ne_zero _ (by decide)
    · exact (relSign_ne_zero_iff he).2 hec.symm

theorem inducedSign_of_face {e l : List Nat} (he : e.Nodup) (hl : l.Nodup) (h : IsFace e l) :
    inducedSign e l = 1 ∨ inducedSign e l = -1 := by
  obtain ⟨c, hc, hec⟩ := h
  rw [inducedSign_eq_cob, cob_relSign_face hl hc hec]
  rcases relSign_eq_one_or he hec.symm with a | a <;>
    rcases neg_one_pow_eq_or ℤ c with b | b <;> rw [a, b] <;> decide

theorem reorient_getElem? (flip : Nat → Bool) (rows : List (List Nat)) (j : Nat) :
    (reorient flip rows)[j]? = rows[j]?.map fun l => if flip j then swap01 l else l := by
  unfold reorient
  rw [List.getElem?_mapIdx]
  congr 1
  funext l
  rcases l with _ | ⟨a, _ | ⟨b, t⟩⟩ <;> rfl

theorem reorient_length (flip : Nat → Bool) (rows : List (List Nat)) :
    (reorient flip rows).length = rows.length := by
  simp [reorient]

theorem sharedFace_symm {rows : List (List Nat)} {e : List Nat} {j1 j2 : Nat}
    (h : SharedFace rows e j1 j2) : SharedFace rows e j2 j1 := by
  obtain ⟨h1, h2, h3, h4⟩ := h
  refine ⟨h1.symm, h3, h2, fun j l hl => ?_⟩
  rw [h4 j l hl]
  tauto

/-- sign by which a flip changes the induced orientations -/
def flipSign (b : Bool) : Int := if b then -1 else 1

theorem sharedFace_reorient {m : Nat} {rows : List (List Nat)} (hs : Simplices m rows)
    (flip : Nat → Bool) (e : List Nat) (j1 j2 : Nat) :
    SharedFace (reorient flip rows) e j1 j2 ↔ SharedFace rows e j1 j2 := by
  unfold SharedFace
  rw [reorient_length]
  refine and_congr_right fun _ => and_congr_right fun _ => and_congr_right fun _ => ?_
  constructor
  · intro h j l hj
    have hn := (hs l (List.mem_of_getElem? hj)).2
    have h1 := h j (if flip j then swap01 l else l) (by rw [reorient_getElem?, hj]; rfl)
    rw [← h1]
    split
    · exact isFace_perm_iff (swap01_perm l).symm hn
    · exact Iff.rfl
  · intro h j l hj
    rw [reorient_getElem?] at hj
    cases hr : rows[j]? with
    | none => rw [hr] at hj; simp at hj
    | some l0 =>
      rw [hr] at hj
      have hn := (hs l0 (List.mem_of_getElem? hr)).2
      have := Option.some.inj hj
      subst this
      rw [← h j l0 hr]
      split
      · exact isFace_perm_iff (swap01_perm l0) ((swap01_perm l0).nodup_iff.2 hn)
      · exact Iff.rfl

theorem coherent_reorient_iff {m : Nat} (hm : 2 ≤ m) {rows : List (List Nat)}
    (hs : Simplices m rows) (flip : Nat → Bool) :
    Coherent (reorient flip rows) ↔ ∀ e j1 j2 l1 l2, rows[j1]? = some l1 → rows[j2]? = some l2 →
      SharedFace rows e j1 j2 →
      flipSign (flip j1) * inducedSign e l1 + flipSign (flip j2) * inducedSign e l2 = 0 := by
  have hflip : ∀ e j l, rows[j]? = some l →
      inducedSign e (if flip j then swap01 l else l) = flipSign (flip j) * inducedSign e l := by
    intro e j l hl
    unfold flipSign
    cases flip j with
    | false => simp
    | true =>
      simp only [if_true]
      rw [inducedSign_swap01 e (by rw [(hs l (List.mem_of_getElem? hl)).1]; exact hm)]
      ring
  constructor
  · intro h e j1 j2 l1 l2 h1 h2 hsh
    have := h e j1 j2 _ _ (by rw [reorient_getElem?, h1]; rfl) (by rw [reorient_getElem?, h2]; rfl)
      ((sharedFace_reorient hs flip e j1 j2).2 hsh)
    rw [hflip e j1 l1 h1, hflip e j2 l2 h2] at this
    exact this
  · intro h e j1 j2 l1 l2 h1 h2 hsh
    rw [sharedFace_reorient hs] at hsh
    rw [reorient_getElem?] at h1 h2
    cases hr1 : rows[j1]? with
    | none => rw [hr1] at h1; simp at h1
    | some k1 =>
      cases hr2 : rows[j2]? with
      | none => rw [hr2] at h2; simp at h2
      | some k2 =>
        rw [hr1] at h1; rw [hr2] at h2
        have e1 := Option.some.inj h1
        have e2 := Option.some.inj h2
        subst e1; subst e2
        rw [hflip e j1 k1 hr1, hflip e j2 k2 hr2]
        exact h e j1 j2 k1 k2 hr1 hr2 hsh

/-! ### the top incidence matrix -/

namespace WF

variable {m : Nat} {top : List (List Nat)} {t : Topo}

theorem nTop (h : WF (m + 1) top t) : t.nElements (m + 1) = top.length := by
  unfold Topo.nElements; rw [h.top_eq]; rfl

theorem top_entry (h : WF (m + 1) top t) {i j : Nat} {e l : List Nat}
    (hi : (t.elements[m]?.getD [])[i]? = some e) (hj : top[j]? = some l) :
    (t.matrix m).entry i j = levelSign m * inducedSign e l := by
  have hi' : i < t.nElements m := (List.getElem?_eq_some_iff.1 hi).1
  have hj' : j < t.nElements (m + 1) := by rw [h.nTop]; exact (List.getElem?_eq_some_iff.1 hj).1
  have := h.entry (k := m) (by omega) hi' hj'
  rw [hi, h.top_eq, Option.getD_some, Option.getD_some, hj, Option.getD_some] at this
  rw [this, inducedSign_eq_cob]

theorem levelSign_ne (k : Nat) : levelSign k = 1 ∨ levelSign k = -1 := by
  unfold levelSign; split <;> simp

theorem top_entry_ne (h : WF (m + 1) top t) (htop : Simplices (m + 2) top) {i j : Nat}
    {e l : List Nat}
    (hi : (t.elements[m]?.getD [])[i]? = some e) (hj : top[j]? = some l) :
    (t.matrix m).entry i j ≠ 0 ↔ IsFace e l := by
  rw [h.top_entry hi hj]
  have he := ((h.get (k := m) (by omega)).1 e (List.mem_of_getElem? hi)).2
  have hl := (htop l (List.mem_of_getElem? hj)).2
  rw [← inducedSign_ne_zero he hl]
  rcases levelSign_ne m with a | a <;> rw [a] <;> simp

theorem mem_nonzeroCols (h : WF (m + 1) top t) (htop : Simplices (m + 2) top) {i : Nat}
    {e : List Nat} (hi : (t.elements[m]?.getD [])[i]? = some e) (j : Nat) :
    j ∈ nonzeroCols (t.matrix m) i ↔ ∃ l, top[j]? = some l ∧ IsFace e l := by
  unfold nonzeroCols
  rw [List.mem_filter, List.mem_range, (h.shape (k := m) (by omega)).2, h.nTop]
  simp only [ne_eq, decide_not, Bool.not_eq_eq_eq_not, Bool.not_true, decide_eq_false_iff_not]
  constructor
  · rintro ⟨hj, hne⟩
    exact ⟨top[j], List.getElem?_eq_getElem hj,
      (h.top_entry_ne htop hi (List.getElem?_eq_getElem hj)).1 hne⟩
  · rintro ⟨l, hl, hf⟩
    exact ⟨(List.getElem?_eq_some_iff.1 hl).1, (h.top_entry_ne htop hi hl).2 hf⟩

theorem nonzeroCols_nodup (M : Mat Int) (i : Nat) : (nonzeroCols M i).Nodup :=
  List.nodup_range.filter _

theorem shared_of_pair (h : WF (m + 1) top t) (htop : Simplices (m + 2) top) {i j1 j2 : Nat}
    {e : List Nat} (hi : (t.elements[m]?.getD [])[i]? = some e)
    (hz : nonzeroCols (t.matrix m) i = [j1, j2]) : SharedFace top e j1 j2 := by
  have hn := nonzeroCols_nodup (t.matrix m) i
  rw [hz] at hn
  have hm' := h.mem_nonzeroCols htop hi
  rw [hz] at hm'
  have hlt : ∀ j, (∃ l, top[j]? = some l ∧ IsFace e l) → j < top.length := by
    rintro j ⟨l, hl, -⟩
    exact (List.getElem?_eq_some_iff.1 hl).1
  refine ⟨by simpa using hn, hlt j1 ((hm' j1).1 (by simp)), hlt j2 ((hm' j2).1 (by simp)), ?_⟩
  intro j l hl
  have := hm' j
  simp only [List.mem_cons, List.not_mem_nil, or_false] at this
  rw [this]
  constructor
  · intro hf; exact ⟨l, hl, hf⟩
  · rintro ⟨l', hl', hf⟩
    rw [hl] at hl'
    exact (Option.some.inj hl') ▸ hf

theorem pair_of_shared (h : WF (m + 1) top t) (htop : Simplices (m + 2) top) {j1 j2 : Nat}
    {e : List Nat} (hsh : SharedFace top e j1 j2) :
    ∃ i e', (t.elements[m]?.getD [])[i]? = some e' ∧ e'.Perm e ∧ i < (t.matrix m).rows ∧
      (nonzeroCols (t.matrix m) i).Perm [j1, j2] := by
  obtain ⟨hne, h1, h2, hall⟩ := hsh
  have hf := (hall j1 _ (List.getElem?_eq_getElem h1)).2 (Or.inl rfl)
  obtain ⟨c, hc, hec⟩ := hf
  obtain ⟨g1, g2, g3, g4, g5⟩ := h.get (k := m) (by omega)
  rw [h.top_eq, Option.getD_some] at g4
  obtain ⟨e', he', hp⟩ := g4.1 _ (List.getElem_mem h1) c hc
  obtain ⟨i, hi, rfl⟩ := List.getElem_of_mem he'
  have hpe := hp.trans hec.symm
  refine ⟨i, _, List.getElem?_eq_getElem hi, hpe, ?_, ?_⟩
  · rw [(h.shape (k := m) (by omega)).1]; exact hi
  · rw [List.perm_ext_iff_of_nodup (nonzeroCols_nodup _ _) (by simpa using hne)]
    intro j
    rw [h.mem_nonzeroCols htop (List.getElem?_eq_getElem hi)]
    simp only [List.mem_cons, List.not_mem_nil, or_false]
    constructor
    · rintro ⟨l, hl, d, hd, hed⟩
      exact (hall j l hl).1 ⟨d, hd, hpe.symm.trans hed⟩
    · intro hj
      have hjl : j < top.length := by rcases hj with rfl | rfl <;> assumption
      obtain ⟨d, hd, hed⟩ := (hall j _ (List.getElem?_eq_getElem hjl)).2 hj
      exact ⟨_, List.getElem?_eq_getElem hjl, d, hd, hpe.trans hed⟩

end WF

/-! ### clauses -/

/-- sign value of a boolean choice -/
def sg (b : Bool) : Int := if b then 1 else -1

theorem satisfies_pair (σ : Nat → Bool) (j1 j2 : Nat) {s1 s2 : Int} (h1 : s1 = 1 ∨ s1 = -1)
    (h2 : s2 = 1 ∨ s2 = -1) :
    (Satisfies σ [((j1 : Int) + 1) * s1, ((j2 : Int) + 1) * s2] ∧
      Satisfies σ [-(((j1 : Int) + 1) * s1), -(((j2 : Int) + 1) * s2)]) ↔
    sg (σ (j1 + 1)) * s1 + sg (σ (j2 + 1)) * s2 = 0 := by
  have a1 : ((j1 : Int) + 1).natAbs = j1 + 1 := by omega
  have a2 : ((j2 : Int) + 1).natAbs = j2 + 1 := by omega
  have p1 : (0 : Int) < (j1 : Int) + 1 := by omega
  have p2 : (0 : Int) < (j2 : Int) + 1 := by omega
  have q1 : ¬ ((0 : Int) < -((j1 : Int) + 1)) := by omega
  have q2 : ¬ ((0 : Int) < -((j2 : Int) + 1)) := by omega
  unfold Satisfies sg
  rcases h1 with rfl | rfl <;> rcases h2 with rfl | rfl <;>
    cases hb1 : σ (j1 + 1) <;> cases hb2 : σ (j2 + 1) <;>
    simp [a1, a2, hb1, hb2, Int.natAbs_neg, -neg_add_rev] <;> omega

/-- the clauses that the code passes to the solver -/
def allClauses (M : Mat Int) : List (List Int) :=
  interiorClauses M ++ (interiorClauses M).map (fun c => c.map fun x => -x)

theorem mem_interiorClauses {M : Mat Int} {c : List Int} :
    c ∈ interiorClauses M ↔ ∃ i < M.rows, ∃ j1 j2, nonzeroCols M i = [j1, j2] ∧
      c = [((j1 : Int) + 1) * M.entry i j1, ((j2 : Int) + 1) * M.entry i j2] := by
  unfold interiorClauses
  rw [List.mem_filterMap]
  constructor
  · rintro ⟨i, hi, hc⟩
    rw [List.mem_range] at hi
    simp only at hc
    split at hc
    · next hl =>
      obtain ⟨a, b, hab⟩ := length_two hl
      rw [hab] at hc
      exact ⟨i, hi, a, b, hab, by simpa using hc.symm⟩
    · simp at hc
  · rintro ⟨i, hi, j1, j2, hz, rfl⟩
    exact ⟨i, List.mem_range.2 hi, by simp [hz]⟩

namespace WF

variable {m : Nat} {top : List (List Nat)} {t : Topo}

theorem entry_pm (h : WF (m + 1) top t) (htop : Simplices (m + 2) top) {i j : Nat}
    (hi : i < (t.matrix m).rows) (hj : j ∈ nonzeroCols (t.matrix m) i) :
    (t.matrix m).entry i j = 1 ∨ (t.matrix m).entry i j = -1 := by
  rw [(h.shape (k := m) (by omega)).1] at hi
  unfold Topo.nElements at hi
  have hi' := List.getElem?_eq_getElem hi
  obtain ⟨l, hl, hf⟩ := (h.mem_nonzeroCols htop hi' j).1 hj
  rw [h.top_entry hi' hl]
  have he := ((h.get (k := m) (by omega)).1 _ (List.mem_of_getElem? hi')).2
  have hln := (htop l (List.mem_of_getElem? hl)).2
  rcases inducedSign_of_face he hln hf with a | a <;> rcases levelSign_ne m with b | b <;>
    rw [a, b] <;> decide

/-- the clauses express that flipping the simplices with a positive variable gives a coherent
orientation -/
theorem satisfies_iff_coherent (h : WF (m + 1) top t) (htop : Simplices (m + 2) top)
    (σ : Nat → Bool) :
    (∀ c ∈ allClauses (t.matrix m), Satisfies σ c) ↔
      Coherent (reorient (fun j => σ (j + 1)) top) := by
  rw [coherent_reorient_iff (by omega) htop]
  have hE := (h.get (k := m) (by omega)).1
  have hfs : ∀ b, flipSign b = - sg b := by intro b; cases b <;> rfl
  have step1 : (∀ c ∈ allClauses (t.matrix m), Satisfies σ c) ↔
      ∀ i < (t.matrix m).rows, ∀ j1 j2, nonzeroCols (t.matrix m) i = [j1, j2] →
        sg (σ (j1 + 1)) * (t.matrix m).entry i j1 + sg (σ (j2 + 1)) * (t.matrix m).entry i j2
          = 0 := by
    constructor
    · intro hall i hi j1 j2 hz
      have hm1 := h.entry_pm htop hi (j := j1) (by rw [hz]; simp)
      have hm2 := h.entry_pm htop hi (j := j2) (by rw [hz]; simp)
      rw [← satisfies_pair σ j1 j2 hm1 hm2]
      have hin := mem_interiorClauses.2 ⟨i, hi, j1, j2, hz, rfl⟩
      refine ⟨hall _ (List.mem_append_left _ hin), ?_⟩
      exact hall _ (List.mem_append_right _ (List.mem_map.2 ⟨_, hin, rfl⟩))
    · intro hall c hc
      rcases List.mem_append.1 hc with hc | hc
      · obtain ⟨i, hi, j1, j2, hz, rfl⟩ := mem_interiorClauses.1 hc
        have hm1 := h.entry_pm htop hi (j := j1) (by rw [hz]; simp)
        have hm2 := h.entry_pm htop hi (j := j2) (by rw [hz]; simp)
        exact ((satisfies_pair σ j1 j2 hm1 hm2).2 (hall i hi j1 j2 hz)).1
      · obtain ⟨c', hc', rfl⟩ := List.mem_map.1 hc
        obtain ⟨i, hi, j1, j2, hz, rfl⟩ := mem_interiorClauses.1 hc'
        have hm1 := h.entry_pm htop hi (j := j1) (by rw [hz]; simp)
        have hm2 := h.entry_pm htop hi (j := j2) (by rw [hz]; simp)
        exact ((satisfies_pair σ j1 j2 hm1 hm2).2 (hall i hi j1 j2 hz)).2
  rw [step1]
  constructor
  · intro hall e j1 j2 l1 l2 h1 h2 hsh
    obtain ⟨i, e', hi, hp, hir, hz⟩ := h.pair_of_shared htop hsh
    have he' := (hE e' (List.mem_of_getElem? hi)).2
    have hen : e.Nodup := hp.nodup_iff.1 he'
    have hlen : (nonzeroCols (t.matrix m) i).length = 2 := hz.length_eq
    obtain ⟨a, b, hab⟩ := length_two hlen
    have hsum := hall i hir a b hab
    rw [hab] at hz
    have hcase : (a = j1 ∧ b = j2) ∨ (a = j2 ∧ b = j1) := by
      have ha : a ∈ [j1, j2] := hz.mem_iff.1 (by simp)
      have hb : b ∈ [j1, j2] := hz.mem_iff.1 (by simp)
      have hnd : ([a, b] : List Nat).Nodup := hab ▸ nonzeroCols_nodup (t.matrix m) i
      simp at ha hb hnd
      omega
    have key : sg (σ (j1 + 1)) * (t.matrix m).entry i j1 +
        sg (σ (j2 + 1)) * (t.matrix m).entry i j2 = 0 := by
      rcases hcase with ⟨rfl, rfl⟩ | ⟨rfl, rfl⟩
      · exact hsum
      · rw [add_comm]; exact hsum
    rw [h.top_entry hi h1, h.top_entry hi h2] at key
    rw [hfs, hfs, inducedSign_face_perm hp.symm hen (htop l1 (List.mem_of_getElem? h1)).2,
      inducedSign_face_perm hp.symm hen (htop l2 (List.mem_of_getElem? h2)).2]
    rcases levelSign_ne m with a | a <;> rw [a] at key
    · linear_combination (-(relSign e e')) * key
    · linear_combination (relSign e e') * key
  · intro hco i hi j1 j2 hz
    rw [(h.shape (k := m) (by omega)).1] at hi
    unfold Topo.nElements at hi
    have hi' := List.getElem?_eq_getElem hi
    have hsh := h.shared_of_pair htop hi' hz
    have h1 := List.getElem?_eq_getElem hsh.2.1
    have h2 := List.getElem?_eq_getElem hsh.2.2.1
    have := hco _ j1 j2 _ _ h1 h2 hsh
    rw [h.top_entry hi' h1, h.top_entry hi' h2]
    rw [hfs, hfs] at this
    linear_combination (-(levelSign m)) * this

theorem allClauses_ne_zero (h : WF (m + 1) top t) (htop : Simplices (m + 2) top) :
    ∀ c ∈ allClauses (t.matrix m), ∀ v ∈ c, v ≠ 0 := by
  intro c hc v hv
  have base : ∀ c ∈ interiorClauses (t.matrix m), ∀ v ∈ c, v ≠ 0 := by
    intro c hc v hv
    obtain ⟨i, hi, j1, j2, hz, rfl⟩ := mem_interiorClauses.1 hc
    have hm1 := h.entry_pm htop hi (j := j1) (by rw [hz]; simp)
    have hm2 := h.entry_pm htop hi (j := j2) (by rw [hz]; simp)
    simp only [List.mem_cons, List.not_mem_nil, or_false] at hv
    rcases hv with rfl | rfl
    · apply mul_ne_zero (by omega); rcases hm1 with a | a <;> rw [a] <;> decide
    · apply mul_ne_zero (by omega); rcases hm2 with a | a <;> rw [a] <;> decide
  rcases List.mem_append.1 hc with hc | hc
  · exact base c hc v hv
  · obtain ⟨c', hc', rfl⟩ := List.mem_map.1 hc
    obtain ⟨w, hw, rfl⟩ := List.mem_map.1 hv
    have := base c' hc' w hw
    omega

/-- number of variables of the solver problem -/
def nVars (t : Topo) (m : Nat) : Nat :=
  ((allClauses (t.matrix m)).flatten.map Int.natAbs).foldl max 0

theorem var_iff (h : WF (m + 1) top t) (htop : Simplices (m + 2) top) (j : Nat) :
    (j + 1 ∈ (allClauses (t.matrix m)).flatten.map Int.natAbs) ↔
      ∃ e j', SharedFace top e j j' := by
  have hkey : ∀ {i j : Nat}, i < (t.matrix m).rows → j ∈ nonzeroCols (t.matrix m) i →
      (((j : Int) + 1) * (t.matrix m).entry i j).natAbs = j + 1 := by
    intro i j hi hj
    rcases h.entry_pm htop hi hj with a | a <;> rw [a] <;> omega
  constructor
  · intro hv
    obtain ⟨v, hv, hvj⟩ := List.mem_map.1 hv
    obtain ⟨c, hc, hvc⟩ := List.mem_flatten.1 hv
    have : ∃ c' ∈ interiorClauses (t.matrix m), ∃ v' ∈ c', v'.natAbs = j + 1 := by
      rcases List.mem_append.1 hc with hc | hc
      · exact ⟨c, hc, v, hvc, hvj⟩
      · obtain ⟨c', hc', rfl⟩ := List.mem_map.1 hc
        obtain ⟨w, hw, rfl⟩ := List.mem_map.1 hvc
        exact ⟨c', hc', w, hw, by rw [← hvj, Int.natAbs_neg]⟩
    obtain ⟨c', hc', v', hv', hvj'⟩ := this
    obtain ⟨i, hi, j1, j2, hz, rfl⟩ := mem_interiorClauses.1 hc'
    have k1 := hkey hi (j := j1) (by rw [hz]; simp)
    have k2 := hkey hi (j := j2) (by rw [hz]; simp)
    have hi2 := hi
    rw [(h.shape (k := m) (by omega)).1] at hi2
    unfold Topo.nElements at hi2
    have hsh := h.shared_of_pair htop (List.getElem?_eq_getElem hi2) hz
    simp only [List.mem_cons, List.not_mem_nil, or_false] at hv'
    rcases hv' with rfl | rfl
    · have : j1 = j := by omega
      subst this
      exact ⟨_, _, hsh⟩
    · have : j2 = j := by omega
      subst this
      exact ⟨_, j1, sharedFace_symm hsh⟩
  · rintro ⟨e, j', hsh⟩
    obtain ⟨i, e', hi, hp, hir, hz⟩ := h.pair_of_shared htop hsh
    obtain ⟨a, b, hab⟩ := length_two hz.length_eq
    have hj : j ∈ nonzeroCols (t.matrix m) i := hz.mem_iff.2 (by simp)
    have hin := mem_interiorClauses.2 ⟨i, hir, a, b, hab, rfl⟩
    refine List.mem_map.2 ⟨((j : Int) + 1) * (t.matrix m).entry i j, ?_, hkey hir hj⟩
    refine List.mem_flatten.2 ⟨_, List.mem_append_left _ hin, ?_⟩
    rw [hab] at hj
    simp only [List.mem_cons, List.not_mem_nil, or_false] at hj ⊢
    rcases hj with rfl | rfl
    · left; rfl
    · right; rfl

theorem nVars_le (h : WF (m + 1) top t) (htop : Simplices (m + 2) top) :
    nVars t m ≤ top.length := by
  apply foldl_max_le (Nat.zero_le _)
  intro x hx
  have hx0 : x ≠ 0 := by
    obtain ⟨v, hv, rfl⟩ := List.mem_map.1 hx
    obtain ⟨c, hc, hvc⟩ := List.mem_flatten.1 hv
    have := h.allClauses_ne_zero htop c hc v hvc
    omega
  obtain ⟨j, rfl⟩ : ∃ j, x = j + 1 := ⟨x - 1, by omega⟩
  obtain ⟨e, j', hsh⟩ := (h.var_iff htop j).1 hx
  exact hsh.2.1

theorem foldl_max_mem (l : List Nat) (a : Nat) : l.foldl max a = a ∨ l.foldl max a ∈ l := by
  induction l generalizing a with
  | nil => left; rfl
  | cons b t ih =>
    rw [List.foldl_cons]
    rcases ih (max a b) with h | h
    · rw [h]
      rcases le_total a b with hab | hab
      · right; rw [max_eq_right hab]; simp
      · left; exact max_eq_left hab
    · right; exact List.mem_cons_of_mem _ h

theorem nVars_eq_iff (h : WF (m + 1) top t) (htop : Simplices (m + 2) top) (hne : top ≠ []) :
    nVars t m = top.length ↔ ∃ e j', SharedFace top e (top.length - 1) j' := by
  have hpos : 0 < top.length := List.length_pos_of_ne_nil hne
  rw [← h.var_iff htop]
  constructor
  · intro he
    rcases foldl_max_mem ((allClauses (t.matrix m)).flatten.map Int.natAbs) 0 with h0 | h0
    · unfold nVars at he; rw [h0] at he; omega
    · rw [show top.length - 1 + 1 = top.length by omega, ← he]
      exact h0
  · intro hmem
    apply Nat.le_antisymm (h.nVars_le htop)
    have : top.length - 1 + 1 ≤ nVars t m := le_foldl_max hmem
    omega

theorem interiorClauses_eq_nil (h : WF (m + 1) top t) (htop : Simplices (m + 2) top) :
    interiorClauses (t.matrix m) = [] ↔ ∀ e j j', ¬ SharedFace top e j j' := by
  constructor
  · intro h0 e j j' hsh
    have := (h.var_iff htop j).2 ⟨e, j', hsh⟩
    unfold allClauses at this
    rw [h0] at this
    simp at this
  · intro hno
    by_contra hne
    obtain ⟨c, hc⟩ := List.exists_mem_of_ne_nil _ hne
    obtain ⟨i, hi, j1, j2, hz, -⟩ := mem_interiorClauses.1 hc
    rw [(h.shape (k := m) (by omega)).1] at hi
    unfold Topo.nElements at hi
    exact hno _ _ _ (h.shared_of_pair htop (List.getElem?_eq_getElem hi) hz)

end WF

end Verif
