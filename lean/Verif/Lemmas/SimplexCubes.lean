/-
The cubes at the corners of the simplices of a topology.
-/
import Verif.Lemmas.CornerCubes

set_option linter.unusedSectionVars false

namespace Verif

open Verif.Model Verif.Spec

/-- the number of the vertex that stands for a face of simplex `j` -/
def snum (t : Topo) (n j : Nat) (S : List Nat) : Nat :=
  if S.length = n + 1 then levelOffset t n + j
  else levelOffset t (S.length - 1) + elIdx (t.elements[S.length - 1]?.getD []) S

theorem snum_permInv (t : Topo) (n j : Nat) : PermInv (snum t n j) := by
  intro f f' h
  unfold snum elIdx
  rw [h.length_eq, (sortRow_eq_iff f f').2 h]

variable {n : Nat} {top : List (List Nat)} {t : Topo}

theorem snum_spec (wf : WF n top t) (htop : Simplices (n + 1) top) {j : Nat} {l S : List Nat} (hj : top[j]? = some l)
    (hS : S.Subperm l) (h0 : S ≠ []) : ∃ i e, Stored t (S.length - 1) i e ∧ e.Perm S ∧
      snum t n j S = offs t.nElements (S.length - 1) + i ∧ (S.length = n + 1 → i = j) := by
  have hl := htop l (List.mem_of_getElem? hj)
  have hle := hS.length_le
  have hpos := List.length_pos_iff.2 h0
  by_cases h : S.length = n + 1
  · refine ⟨j, l, ?_, (hS.perm_of_length_le (by omega)).symm, ?_, fun _ => rfl⟩
    · unfold Stored
      rw [h, Nat.add_sub_cancel, wf.top_eq]
      exact hj
    · unfold snum
      rw [if_pos h, h]
      rfl
  · obtain ⟨e', he', hp'⟩ := wf.hasFace htop (k := S.length - 1) (by omega) (List.mem_of_getElem? hj) hS (by omega)
    obtain ⟨-, e, h1, h2⟩ := elIdx_get ⟨e', he', hp'⟩
    refine ⟨_, e, h1, h2, ?_, fun hn => absurd hn h⟩
    unfold snum
    rw [if_neg h]
    rfl

theorem snum_inj (wf : WF n top t) (htop : Simplices (n + 1) top) {j j' : Nat} {l l' S S' : List Nat}
    (hj : top[j]? = some l) (hj' : top[j']? = some l') (hS : S.Subperm l) (hS' : S'.Subperm l') (h0 : S ≠ []) (h0' : S' ≠ [])
    (h : snum t n j S = snum t n j' S') : S.Perm S' ∧ (S.length = n + 1 → j = j') := by
  obtain ⟨i, e, h1, h2, h3, h4⟩ := snum_spec wf htop hj hS h0
  obtain ⟨i', e', g1, g2, g3, g4⟩ := snum_spec wf htop hj' hS' h0'
  rw [h3, g3] at h
  obtain ⟨hk, rfl⟩ := offs_encode_inj h1.lt g1.lt h
  have hpos := List.length_pos_iff.2 h0
  have hpos' := List.length_pos_iff.2 h0'
  rw [hk] at h1
  obtain rfl := h1.unique g1
  exact ⟨h2.symm.trans g2, fun hn => (h4 hn).symm.trans (g4 (by omega))⟩

/-- for smaller sets the number does not depend on the simplex -/
theorem snum_congr {j j' : Nat} {S : List Nat} (h : S.length = n + 1 → j = j') : snum t n j S = snum t n j' S := by
  unfold snum
  split
  · rw [h ‹_›]
  · rfl

theorem nodup_of_subperm {S l : List Nat} (h : S.Subperm l) (hl : l.Nodup) : S.Nodup := by
  obtain ⟨S', h1, h2⟩ := h
  exact h1.nodup_iff.1 (hl.sublist h2)

theorem marked_subperm {A D l : List Nat} (h : (A ++ D).Subperm l) (b : List Bool) : (A ++ marked D b).Subperm l :=
  (List.Sublist.append_left (marked_sublist D b) A).subperm.trans h

theorem between_nodup (wf : WF n top t) (htop : Simplices (n + 1) top) {j : Nat} {l A D : List Nat} (hj : top[j]? = some l)
    (h : (A ++ D).Subperm l) (h0 : A ≠ []) : (between (snum t n j) A D).Nodup := by
  have hl := htop l (List.mem_of_getElem? hj)
  have hD : D.Nodup := nodup_of_subperm ((List.sublist_append_right A D).subperm.trans h) hl.2
  unfold between cubeOf
  refine List.Nodup.map_on ?_ (cubeIndices_nodup _)
  intro b hb b' hb' hW
  obtain ⟨hp, -⟩ := snum_inj wf htop hj hj (marked_subperm h b) (marked_subperm h b') (by simp [h0]) (by simp [h0]) hW
  exact marked_inj hD (mem_cubeIndices.1 hb) (mem_cubeIndices.1 hb') ((List.perm_append_left_iff A).1 hp)

/-- cubes with the same corners are between the same sets -/
theorem between_inj (wf : WF n top t) (htop : Simplices (n + 1) top) {j j' : Nat} {l l' A D A' D' : List Nat}
    (hj : top[j]? = some l) (hj' : top[j']? = some l') (h : (A ++ D).Subperm l) (h' : (A' ++ D').Subperm l')
    (h0 : A ≠ []) (h0' : A' ≠ []) (hp : (between (snum t n j) A D).Perm (between (snum t n j') A' D')) :
    A.Perm A' ∧ D.Perm D' ∧ ((A ++ D).length = n + 1 → j = j') := by
  -- the smallest set
  have key : ∀ {j j' : Nat} {l l' A D A' D' : List Nat}, top[j]? = some l → top[j']? = some l' → (A ++ D).Subperm l →
      (A' ++ D').Subperm l' → A ≠ [] → A' ≠ [] → (between (snum t n j) A D).Perm (between (snum t n j') A' D') →
      (∃ b' : List Bool, A.Perm (A' ++ marked D' b')) ∧
      ∃ b' : List Bool, (A ++ D).Perm (A' ++ marked D' b') ∧ ((A ++ D).length = n + 1 → j = j') := by
    intro j j' l l' A D A' D' hj hj' h h' h0 h0' hp
    constructor
    · have hm : snum t n j A ∈ between (snum t n j) A D :=
        mem_between.2 ⟨List.replicate D.length false, by simp, by rw [marked_false, List.append_nil]⟩
      obtain ⟨b', -, hb'⟩ := mem_between.1 (hp.mem_iff.1 hm)
      exact ⟨b', (snum_inj wf htop hj hj' ((List.sublist_append_left A D).subperm.trans h) (marked_subperm h' b') h0
        (by simp [h0']) hb'.symm).1⟩
    · have hm : snum t n j (A ++ D) ∈ between (snum t n j) A D :=
        mem_between.2 ⟨List.replicate D.length true, by simp, by rw [marked_true]⟩
      obtain ⟨b', -, hb'⟩ := mem_between.1 (hp.mem_iff.1 hm)
      exact ⟨b', snum_inj wf htop hj hj' h (marked_subperm h' b') (by simp [h0]) (by simp [h0']) hb'.symm⟩
  obtain ⟨⟨b1, a1⟩, b2, a2, a3⟩ := key hj hj' h h' h0 h0' hp
  obtain ⟨⟨b3, a4⟩, b4, a5, -⟩ := key hj' hj h' h h0' h0 hp.symm
  have hA : A.Perm A' := by
    have e1 := a1.length_eq
    have e2 := a4.length_eq
    simp only [List.length_append] at e1 e2
    have : marked D' b1 = [] := List.length_eq_zero_iff.1 (by omega)
    rw [this, List.append_nil] at a1
    exact a1
  refine ⟨hA, ?_, a3⟩
  have e1 := a2.length_eq
  have e2 := a5.length_eq
  have s1 := (marked_sublist D' b2).length_le
  have s2 := (marked_sublist D b4).length_le
  have e3 := hA.length_eq
  simp only [List.length_append] at e1 e2
  have : marked D' b2 = D' := (marked_sublist D' b2).eq_of_length (by omega)
  rw [this] at a2
  exact (List.perm_append_left_iff A').1 ((hA.symm.append_right D).trans a2)

/-- the same sets give the same cube, listed along other axes -/
theorem between_agree (htop : Simplices (n + 1) top) {j j' : Nat} {l' A D A' D' : List Nat}
    (hj' : top[j']? = some l') (h' : (A' ++ D').Subperm l') (hA : A.Perm A') (hD : D.Perm D')
    (hjj : (A ++ D).length = n + 1 → j = j') :
    SymmetricCube D.length (between (snum t n j) A D) (between (snum t n j') A' D') (relSign D D') := by
  have hn : D'.Nodup := nodup_of_subperm ((List.sublist_append_right A' D').subperm.trans h') (htop l' (List.mem_of_getElem? hj')).2
  have e : between (snum t n j) A D = between (snum t n j') A' D := by
    refine between_congr fun S hS => ?_
    rw [snum_permInv t n j _ _ (hA.append_right S)]
    refine snum_congr fun hlen => hjj ?_
    have h1 := hS.length_le
    have h2 := h'.length_le
    have h3 := (htop l' (List.mem_of_getElem? hj')).1
    have h4 := hA.length_eq
    have h5 := hD.length_eq
    simp only [List.length_append] at hlen h2 ⊢
    omega
  rw [e]
  exact between_symmetric (snum_permInv t n j') (hD.nodup_iff.2 hn) hD.symm

/-! ### the cubes at the corners -/

/-- the cubes at the corners of all simplices; `order l i` lists the other corners of `l` along the axes -/
def cornerCubes (t : Topo) (n : Nat) (order : List Nat → Nat → List Nat) (top : List (List Nat)) : List (List (List Nat)) :=
  top.mapIdx fun j l => (List.range (n + 1)).map fun i => between (snum t n j) [l[i]?.getD 0] (order l i)

/-- `order l i` lists the other corners of `l` -/
def Others (n : Nat) (order : List Nat → Nat → List Nat) : Prop :=
  ∀ (l : List Nat) (i : Nat), l.length = n + 1 → i ≤ n → (l[i]?.getD 0 :: order l i).Perm l

variable {order : List Nat → Nat → List Nat}

theorem mem_cornerCubes {c : List Nat} : c ∈ (cornerCubes t n order top).flatten ↔
    ∃ (j : Nat) (l : List Nat) (i : Nat), top[j]? = some l ∧ i ≤ n ∧ c = between (snum t n j) [l[i]?.getD 0] (order l i) := by
  unfold cornerCubes
  simp only [List.mem_flatten, List.mem_mapIdx]
  constructor
  · rintro ⟨cs, ⟨j, hj, rfl⟩, hc⟩
    obtain ⟨i, hi, rfl⟩ := List.mem_map.1 hc
    exact ⟨j, top[j], i, List.getElem?_eq_getElem hj, by have := List.mem_range.1 hi; omega, rfl⟩
  · rintro ⟨j, l, i, h1, h2, rfl⟩
    obtain ⟨hj, rfl⟩ := List.getElem?_eq_some_iff.1 h1
    exact ⟨_, ⟨j, hj, rfl⟩, List.mem_map.2 ⟨i, List.mem_range.2 (by omega), rfl⟩⟩

theorem Others.length (ho : Others n order) {l : List Nat} {i : Nat} (hl : l.length = n + 1) (hi : i ≤ n) :
    (order l i).length = n := by
  have := (ho l i hl hi).length_eq
  simp only [List.length_cons] at this
  omega

theorem cornerCubes_cubes (wf : WF n top t) (htop : Simplices (n + 1) top) (ho : Others n order) :
    Cubes n (cornerCubes t n order top).flatten := by
  intro c hc
  obtain ⟨j, l, i, h1, h2, rfl⟩ := mem_cornerCubes.1 hc
  have hl := (htop l (List.mem_of_getElem? h1)).1
  refine ⟨by rw [between_length, ho.length hl h2], ?_⟩
  exact between_nodup wf htop h1 (by simpa using (ho l i hl h2).subperm) (by simp)

/-- the faces of the cubes -/
theorem face_cornerCubes (htop : Simplices (n + 1) top) (ho : Others n order) {d k : Nat} (hkd : k + d = n)
    {c f : List Nat} (hc : c ∈ (cornerCubes t n order top).flatten) (hf : IsCubeFace d k c f) :
    ∃ j l A D, top[j]? = some l ∧ (A ++ D).Subperm l ∧ A ≠ [] ∧ D.length = k ∧ f = between (snum t n j) A D := by
  obtain ⟨j, l, i, h1, h2, rfl⟩ := mem_cornerCubes.1 hc
  have hl := (htop l (List.mem_of_getElem? h1)).1
  obtain ⟨P, Q, R, h3, h4, h5⟩ := between_face (snum_permInv t n j) (by rw [ho.length hl h2, hkd]) hf
  refine ⟨j, l, [l[i]?.getD 0] ++ P, Q, h1, ?_, by simp, h4, h3⟩
  refine List.Subperm.trans ?_ ((h5.cons _).trans (ho l i hl h2)).subperm
  refine List.Sublist.subperm ?_
  simp

theorem cornerCubes_agree (wf : WF n top t) (htop : Simplices (n + 1) top) (ho : Others n order) :
    FacesAgree n (cornerCubes t n order top).flatten := by
  intro k d hk hkd c hc c' hc' f f' hf hf' hp
  obtain ⟨j, l, A, D, h1, h2, h3, h4, rfl⟩ := face_cornerCubes htop ho hkd hc hf
  obtain ⟨j', l', A', D', g1, g2, g3, g4, rfl⟩ := face_cornerCubes htop ho hkd hc' hf'
  obtain ⟨e1, e2, e3⟩ := between_inj wf htop h1 g1 h2 g2 h3 g3 hp
  exact ⟨_, h4 ▸ between_agree htop g1 g2 e1 e2 e3⟩

/-- a face of the cubes between any two sets -/
theorem exists_face_cornerCubes (htop : Simplices (n + 1) top) (ho : Others n order) {j : Nat} {l A D : List Nat}
    (hj : top[j]? = some l) (h : (A ++ D).Subperm l) (h0 : A ≠ []) {d : Nat} (hd : D.length + d = n) :
    ∃ c ∈ (cornerCubes t n order top).flatten, ∃ f, IsCubeFace d D.length c f ∧ f.Perm (between (snum t n j) A D) := by
  obtain ⟨hll, hln⟩ := htop l (List.mem_of_getElem? hj)
  obtain ⟨v, A, rfl⟩ := List.exists_cons_of_ne_nil h0
  obtain ⟨i, hi, hv⟩ := List.getElem_of_mem (h.subset (List.mem_append_left _ (List.mem_cons_self ..)))
  have hvi : l[i]?.getD 0 = v := by rw [List.getElem?_eq_getElem hi, hv]; rfl
  have hperm := ho l i hll (by omega)
  rw [hvi] at hperm
  have hsub : (A ++ D).Subperm (order l i) := by
    have : (v :: (A ++ D)).Subperm (v :: order l i) := h.trans hperm.symm.subperm
    exact (List.subperm_cons v).1 this
  obtain ⟨S, hS1, hS2⟩ := hsub
  obtain ⟨R, hR⟩ := hS2.exists_perm_append
  have hn : (order l i).Nodup := (hperm.nodup_iff.2 hln).of_cons
  have hRp : (A ++ D ++ R).Perm (order l i) := (hS1.symm.append_right R).trans hR.symm
  obtain ⟨Q', q1, q2⟩ := exists_between_face (snum_permInv t n j) (A := [v]) (by rw [ho.length hll (by omega), hd]) hn rfl hRp
  refine ⟨_, mem_cornerCubes.2 ⟨j, l, i, hj, by omega, rfl⟩, between (snum t n j) ([v] ++ A) Q', by rw [hvi]; exact q2, ?_⟩
  have hg : ((v :: A) ++ D).Subperm l := h
  have hs := between_agree (t := t) (j := j) (j' := j) (A := [v] ++ A) htop hj hg (List.Perm.refl _) q1 (fun _ => rfl)
  exact (hs.perm (by rw [between_length])).symm

/-- the numbers of the corners are all numbers of elements -/
theorem cornerCubes_vertices (wf : WF n top t) (htop : Simplices (n + 1) top) (ho : Others n order) (v : Nat) :
    (∃ c ∈ (cornerCubes t n order top).flatten, v ∈ c) ↔ v < offs t.nElements (n + 1) := by
  constructor
  · rintro ⟨c, hc, hv⟩
    obtain ⟨j, l, i, h1, h2, rfl⟩ := mem_cornerCubes.1 hc
    have hl := (htop l (List.mem_of_getElem? h1)).1
    obtain ⟨b, -, rfl⟩ := mem_between.1 hv
    have hsub : ([l[i]?.getD 0] ++ marked (order l i) b).Subperm l :=
      marked_subperm (by simpa using (ho l i hl h2).subperm) b
    obtain ⟨x, e, g1, -, g3, -⟩ := snum_spec wf htop h1 hsub (by simp)
    rw [g3]
    have := g1.lt
    have hlen := hsub.length_le
    have hm := offs_mono t.nElements (show ([l[i]?.getD 0] ++ marked (order l i) b).length - 1 + 1 ≤ n + 1 by omega)
    rw [offs_succ] at hm
    omega
  · intro hv
    obtain ⟨k, x, hk, hx, rfl⟩ : ∃ k x, k ≤ n ∧ x < t.nElements k ∧ offs t.nElements k + x = v := by
      clear htop ho wf
      induction n with
      | zero => exact ⟨0, v, le_refl 0, by simpa [offs] using hv, by simp [offs]⟩
      | succ n ih =>
        rw [offs_succ] at hv
        by_cases h : v < offs t.nElements (n + 1)
        · obtain ⟨k, x, h1, h2, h3⟩ := ih h
          exact ⟨k, x, by omega, h2, h3⟩
        · exact ⟨n + 1, v - offs t.nElements (n + 1), le_refl _, by omega, by omega⟩
    have hst : Stored t k x (t.elements[k]?.getD [])[x] := List.getElem?_eq_getElem hx
    set e := (t.elements[k]?.getD [])[x] with he
    obtain ⟨j, l, hj, hsub, hlen, hkn⟩ : ∃ (j : Nat) (l : List Nat), top[j]? = some l ∧ e.Subperm l ∧ e.length = k + 1 ∧
        (k = n → j = x) := by
      by_cases hkn : k = n
      · subst hkn
        have := hst
        unfold Stored at this
        rw [wf.top_eq] at this
        exact ⟨x, e, this, List.Subperm.refl _, (htop e (List.mem_of_getElem? this)).1, fun _ => rfl⟩
      · obtain ⟨h1, l, h2, h3⟩ := (wf.faces htop (n - k) k (by omega) e).1 ⟨e, List.mem_of_getElem? hst, List.Perm.refl _⟩
        obtain ⟨j, hj, rfl⟩ := List.getElem_of_mem h2
        exact ⟨j, _, List.getElem?_eq_getElem hj, h3, h1, fun h => absurd h hkn⟩
    have hnum : snum t n j e = offs t.nElements k + x := by
      unfold snum
      by_cases hkn' : k = n
      · rw [if_pos (by omega), hkn hkn', ← hkn']
        rfl
      · rw [if_neg (by omega), hlen, Nat.add_sub_cancel, ← elIdx_unique (wf.get (by omega)).2.2.1 hst (List.Perm.refl _)]
        rfl
    have he0 : e ≠ [] := by intro h; rw [h] at hlen; simp at hlen
    obtain ⟨a, e', hae⟩ := List.exists_cons_of_ne_nil he0
    obtain ⟨hll, hln⟩ := htop l (List.mem_of_getElem? hj)
    obtain ⟨i, hi, hvi⟩ := List.getElem_of_mem (hsub.subset (hae ▸ List.mem_cons_self ..) : a ∈ l)
    have hvi' : l[i]?.getD 0 = a := by rw [List.getElem?_eq_getElem hi, hvi]; rfl
    have hperm := ho l i hll (by omega)
    rw [hvi'] at hperm
    have hs2 : e'.Subperm (order l i) := by
      rw [hae] at hsub
      exact (List.subperm_cons a).1 (hsub.trans hperm.symm.subperm)
    obtain ⟨S, hS1, hS2⟩ := hs2
    obtain ⟨b, hb1, hb2⟩ := exists_marks hS2
    refine ⟨_, mem_cornerCubes.2 ⟨j, l, i, hj, by omega, rfl⟩, mem_between.2 ⟨b, hb1, ?_⟩⟩
    rw [hvi', hb2, ← hnum]
    refine snum_permInv t n j _ _ ?_
    rw [hae]
    exact hS1.cons a

end Verif
