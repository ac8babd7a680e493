/-
Every coherent orientation of a closed oriented surface gives one.
-/
import Verif.Lemmas.LoopSurface
import Verif.Props.Extrude

set_option linter.unusedSectionVars false

namespace Verif

open Model Spec Props

variable {T : List (List Nat)}

theorem reorient_row {flip : Nat → Bool} {j : Nat} {l : List Nat} (h : T[j]? = some l) :
    ∃ l', (reorient flip T)[j]? = some l' ∧ l'.Perm l := by
  rw [reorient_getElem?, h]
  refine ⟨_, rfl, ?_⟩
  split
  · exact swap01_perm l
  · exact List.Perm.refl _

theorem reorient_row' {flip : Nat → Bool} {j : Nat} {l' : List Nat} (h : (reorient flip T)[j]? = some l') :
    ∃ l, T[j]? = some l ∧ l'.Perm l := by
  have hj : j < T.length := by
    have := (List.getElem?_eq_some_iff.mp h).1
    rwa [reorient_length] at this
  obtain ⟨l'', h1, h2⟩ := reorient_row (flip := flip) (List.getElem?_eq_getElem hj)
  rw [h] at h1
  obtain rfl := Option.some.inj h1
  exact ⟨_, List.getElem?_eq_getElem hj, h2⟩

theorem isFace_reordered {e l l' : List Nat} (hn : l.Nodup) (hp : l'.Perm l) : IsFace e l' ↔ IsFace e l :=
  (isFace_perm_iff hp.symm hn).symm

theorem atMostTwo_reorient {n : Nat} (hs : Simplices n T) (f g : Nat → Bool) (h : AtMostTwo (reorient f T)) :
    AtMostTwo (reorient g T) := by
  have conv : ∀ {e : List Nat} {j : Nat} {l : List Nat}, (reorient g T)[j]? = some l → IsFace e l →
      ∃ l', (reorient f T)[j]? = some l' ∧ IsFace e l' := by
    intro e j l hj he
    obtain ⟨l0, h0, p0⟩ := reorient_row' hj
    obtain ⟨l1, h1, p1⟩ := reorient_row (flip := f) h0
    have hn := (hs l0 (List.mem_of_getElem? h0)).2
    exact ⟨l1, h1, (isFace_reordered hn p1).mpr ((isFace_reordered hn p0).mp he)⟩
  intro e j1 j2 j3 l1 l2 l3 e1 e2 e3 f1 f2 f3
  obtain ⟨l1', g1, k1⟩ := conv e1 f1
  obtain ⟨l2', g2, k2⟩ := conv e2 f2
  obtain ⟨l3', g3, k3⟩ := conv e3 f3
  exact h e j1 j2 j3 _ _ _ g1 g2 g3 k1 k2 k3

/-- any coherent orientation of a closed oriented surface is one -/
theorem reorient_surface (hs : Simplices 3 T) (f g : Nat → Bool) (h : OrientedSurface (reorient f T))
    (hco : Coherent (reorient g T)) : OrientedSurface (reorient g T) := by
  have hsg := reorient_simplices hs g
  have hsf := reorient_simplices hs f
  have htwo := atMostTwo_reorient hs f g (atMostTwo_of_nodup hsf h.once)
  have honce := directedEdges_nodup hsg htwo hco
  refine ⟨hsg, ?_, honce, ?_, ?_⟩
  · refine List.pairwise_iff_getElem.mpr fun i j hi hj hij hp => ?_
    have hi' : i < T.length := by rwa [reorient_length] at hi
    have hj' : j < T.length := by rwa [reorient_length] at hj
    obtain ⟨li, e1, p1⟩ := reorient_row (flip := f) (List.getElem?_eq_getElem hi')
    obtain ⟨lj, e2, p2⟩ := reorient_row (flip := f) (List.getElem?_eq_getElem hj')
    obtain ⟨mi, e3, p3⟩ := reorient_row (flip := g) (List.getElem?_eq_getElem hi')
    obtain ⟨mj, e4, p4⟩ := reorient_row (flip := g) (List.getElem?_eq_getElem hj')
    rw [List.getElem?_eq_getElem hi] at e3
    rw [List.getElem?_eq_getElem hj] at e4
    obtain rfl := Option.some.inj e3
    obtain rfl := Option.some.inj e4
    have hd := List.pairwise_iff_getElem.mp h.distinct i j (by rwa [reorient_length]) (by rwa [reorient_length]) hij
    rw [List.getElem?_eq_getElem (by rwa [reorient_length])] at e1 e2
    obtain rfl := Option.some.inj e1
    obtain rfl := Option.some.inj e2
    exact hd (p1.trans (p3.symm.trans (hp.trans (p4.trans p2.symm))))
  · -- every directed edge has its reverse
    have hrev : ∀ a b, (a, b) ∈ directedEdges (reorient g T) → (b, a) ∈ directedEdges (reorient g T) := by
      intro a b hab
      obtain ⟨l, hl, hp⟩ := List.mem_flatMap.mp hab
      obtain ⟨j, hj⟩ := List.mem_iff_getElem?.mp hl
      have sl := hsg l hl
      have hne := triangleEdges_ne sl.2 hp
      -- the triangle in the given orientation
      obtain ⟨l0, h0, p0⟩ := reorient_row' hj
      obtain ⟨l1, h1, p1⟩ := reorient_row (flip := f) h0
      have hn0 := (hs l0 (List.mem_of_getElem? h0)).2
      have sl1 := hsf l1 (List.mem_of_getElem? h1)
      have hf1 : IsFace [a, b] l1 := (isFace_reordered hn0 p1).mpr ((isFace_reordered hn0 p0).mp ((isFace_pair sl.1).mpr (Or.inl hp)))
      -- its neighbour there
      obtain ⟨j2, hsh⟩ : ∃ j2, SharedFace (reorient f T) [a, b] j j2 := by
        have hcl := h.closed
        have flip' : ∀ x y, (x, y) ∈ triangleEdges l1 → ∃ (l2 : List Nat) (j2 : Nat),
            (reorient f T)[j2]? = some l2 ∧ (y, x) ∈ triangleEdges l2 := by
          intro x y hxy
          have h1' : (x, y) ∈ directedEdges (reorient f T) := List.mem_flatMap.mpr ⟨l1, List.mem_of_getElem? h1, hxy⟩
          have h2' : (y, x) ∈ directedEdges (reorient f T) := by
            rw [← List.count_pos_iff, ← hcl x y, List.count_pos_iff]
            exact h1'
          obtain ⟨l2, hl2, h2⟩ := List.mem_flatMap.mp h2'
          obtain ⟨j2, hj2⟩ := List.mem_iff_getElem?.mp hl2
          exact ⟨l2, j2, hj2, h2⟩
        rcases (isFace_pair sl1.1).mp hf1 with hd | hd
        · obtain ⟨l2, j2, hj2, h2⟩ := flip' a b hd
          exact ⟨j2, shared_of_count hsf h1 hj2 hd h2 (fun _ _ k1 k2 => nodup_flatMap_index _ h.once k1 h1 k2 hd)
            fun _ _ k1 k2 => nodup_flatMap_index _ h.once k1 hj2 k2 h2⟩
        · obtain ⟨l2, j2, hj2, h2⟩ := flip' b a hd
          have hsh := shared_of_count hsf hj2 h1 h2 hd (fun _ _ k1 k2 => nodup_flatMap_index _ h.once k1 hj2 k2 h2)
            fun _ _ k1 k2 => nodup_flatMap_index _ h.once k1 h1 k2 hd
          exact ⟨j2, hsh.1.symm, hsh.2.2.1, hsh.2.1, fun j l hj => by rw [hsh.2.2.2 j l hj, or_comm]⟩
      have hsh' : SharedFace (reorient g T) [a, b] j j2 :=
        (sharedFace_reorient hs g _ _ _).mpr ((sharedFace_reorient hs f _ _ _).mp hsh)
      have hlt := hsh'.2.2.1
      have hj2 := List.getElem?_eq_getElem hlt
      have hsum := hco _ _ _ _ _ hj hj2 hsh'
      have s2 := hsg _ (List.mem_of_getElem? hj2)
      have hf2 : IsFace [a, b] (reorient g T)[j2] := (hsh'.2.2.2 _ _ hj2).mpr (Or.inr rfl)
      rcases (isFace_pair s2.1).mp hf2 with hd | hd
      · exact absurd (nodup_flatMap_index _ honce hj hj2 hp hd) hsh'.1
      · exact List.mem_flatMap.mpr ⟨_, List.getElem_mem _, hd⟩
    intro a b
    by_cases hab : (a, b) ∈ directedEdges (reorient g T)
    · rw [List.count_eq_one_of_mem honce hab, List.count_eq_one_of_mem honce (hrev a b hab)]
    · have hba : (b, a) ∉ directedEdges (reorient g T) := fun hba => hab (hrev b a hba)
      rw [List.count_eq_zero_of_not_mem hab, List.count_eq_zero_of_not_mem hba]
  · intro j1 h1 j2 h2
    rw [reorient_length] at h1 h2
    have hc := h.connected j1 (by rwa [reorient_length]) j2 (by rwa [reorient_length])
    refine Relation.ReflTransGen.mono (fun x y hxy => ?_) _ _ hc
    obtain ⟨e, he⟩ := hxy
    exact ⟨e, (sharedFace_reorient hs g _ _ _).mpr ((sharedFace_reorient hs f _ _ _).mp he)⟩

end Verif
