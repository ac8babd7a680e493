/-
Components of a graph on a list of simplices, and classes of linked simplices.
-/
import Verif.Lemmas.Components
import Mathlib.Data.List.Sort

namespace Verif

open Verif.Model Verif.Spec

theorem shareFace_symm {rows : List (List Nat)} {a b : Nat} (h : ShareFace rows a b) : ShareFace rows b a := by
  obtain ⟨l, l', h1, h2, e, h3, h4⟩ := h
  exact ⟨l', l, h2, h1, e, h4, h3⟩

theorem linked_symm {rows : List (List Nat)} {S : List Nat} {a b : Nat} (h : FaceLinked rows S a b) :
    FaceLinked rows S b a := by
  have hs : Std.Symm fun x y => x ∈ S ∧ y ∈ S ∧ ShareFace rows x y :=
    ⟨fun x y ⟨h1, h2, h3⟩ => ⟨h2, h1, shareFace_symm h3⟩⟩
  exact Relation.ReflTransGen.stdSymm.symm _ _ h

theorem linked_trans {rows : List (List Nat)} {S : List Nat} {a b c : Nat} (h : FaceLinked rows S a b)
    (h' : FaceLinked rows S b c) : FaceLinked rows S a c := Relation.ReflTransGen.trans h h'

/-- the number of classes is determined by the relation -/
theorem Spec.HasClasses.unique {S : List Nat} {R : Nat → Nat → Prop} (symm : ∀ a b, R a b → R b a)
    (trans : ∀ a b c, R a b → R b c → R a c) {k k' : Nat} (h : HasClasses S R k) (h' : HasClasses S R k') :
    k = k' := by
  have le : ∀ {k k'}, HasClasses S R k → HasClasses S R k' → k ≤ k' := by
    rintro k k' ⟨r, rfl, h1, h2, h3⟩ ⟨r', rfl, h1', h2', h3'⟩
    have key : ∀ a, ∃ b, a ∈ r → b ∈ r' ∧ R a b := by
      intro a
      by_cases ha : a ∈ r
      · obtain ⟨b, hb, hab⟩ := h3' a (h1 a ha)
        exact ⟨b, fun _ => ⟨hb, hab⟩⟩
      · exact ⟨0, fun h => absurd h ha⟩
    choose f hf using key
    have hinj : (r.map f).Nodup := by
      rw [List.nodup_iff_pairwise_ne, List.pairwise_map]
      refine h2.imp_of_mem fun {a b} ha hb hab he => hab ?_
      have hb' := symm _ _ (hf b hb).2
      rw [← he] at hb'
      exact trans _ _ _ (hf a ha).2 hb'
    have hsub : r.map f ⊆ r' := by
      intro x hx
      obtain ⟨a, ha, rfl⟩ := List.mem_map.1 hx
      exact (hf a ha).1
    simpa using (List.subperm_of_subset hinj hsub).length_le
  exact Nat.le_antisymm (le h h') (le h' h)

/-- one class means that everything is related, and there is something -/
theorem hasClasses_one {S : List Nat} {R : Nat → Nat → Prop} (symm : ∀ a b, R a b → R b a)
    (trans : ∀ a b c, R a b → R b c → R a c) :
    HasClasses S R 1 ↔ S ≠ [] ∧ ∀ a ∈ S, ∀ b ∈ S, R a b := by
  constructor
  · rintro ⟨reps, h, h1, -, h3⟩
    obtain ⟨r, rfl⟩ := List.length_eq_one_iff.1 h
    refine ⟨List.ne_nil_of_mem (h1 r (by simp)), fun a ha b hb => ?_⟩
    obtain ⟨r', hr', ha'⟩ := h3 a ha
    obtain ⟨r'', hr'', hb'⟩ := h3 b hb
    simp at hr' hr''
    subst hr' hr''
    exact trans _ _ _ ha' (symm _ _ hb')
  · rintro ⟨hne, h⟩
    obtain ⟨a, ha⟩ := List.exists_mem_of_ne_nil S hne
    exact ⟨[a], rfl, by simpa using ha, by simp, fun b hb => ⟨a, by simp, h b hb a ha⟩⟩

variable {cc : Mat Int → Nat × List Nat} {top : List (List Nat)}

/-- the labels of a graph whose edges are the pairs of simplices of `S` that share a face -/
theorem labels_linked (hcc : ComponentsSpec cc) {S : List Nat} (hnd : S.Nodup) {G : Mat Int}
    (hr : G.rows = S.length) (hc : G.cols = S.length)
    (hG : ∀ a b, (ha : a < S.length) → (hb : b < S.length) → (G.entry a b ≠ 0 ↔ ShareFace top S[a] S[b])) :
    (cc G).2.length = S.length ∧ (∀ l, l ∈ (cc G).2 ↔ l < (cc G).1) ∧
    (∀ a b, (ha : a < S.length) → (hb : b < S.length) →
      ((cc G).2[a]? = (cc G).2[b]? ↔ FaceLinked top S S[a] S[b])) ∧
    HasClasses S (FaceLinked top S) (cc G).1 := by
  obtain ⟨h1, h2, h3⟩ := hcc G (hr.trans hc.symm)
  rw [hr] at h1 h3
  have key : ∀ a b, (ha : a < S.length) → (hb : b < S.length) →
      ((cc G).2[a]? = (cc G).2[b]? ↔ FaceLinked top S S[a] S[b]) := by
    intro a b ha hb
    rw [h3 a ha b hb]
    constructor
    · intro h
      have : FaceLinked top S (S[a]?.getD 0) (S[b]?.getD 0) := by
        clear ha hb
        induction h with
        | rel x y h =>
          obtain ⟨hx, hy, he⟩ := h
          rw [hr] at hx hy
          rw [List.getElem?_eq_getElem hx, List.getElem?_eq_getElem hy]
          exact Relation.ReflTransGen.single ⟨List.getElem_mem hx, List.getElem_mem hy, (hG x y hx hy).1 he⟩
        | refl x => exact Relation.ReflTransGen.refl
        | symm x y _ ih => exact linked_symm ih
        | trans x y z _ _ ih1 ih2 => exact linked_trans ih1 ih2
      rwa [List.getElem?_eq_getElem ha, List.getElem?_eq_getElem hb] at this
    · intro h
      have : ∀ y, FaceLinked top S S[a] y → ∀ b, S[b]? = some y → Relation.EqvGen (Edge G) a b := by
        intro y h
        induction h with
        | refl =>
          intro b hb
          obtain ⟨hb', he⟩ := List.getElem?_eq_some_iff.1 hb
          obtain rfl := (List.Nodup.getElem_inj_iff hnd).1 he
          exact Relation.EqvGen.refl _
        | tail _ hxy ih =>
          intro b hb
          obtain ⟨hb', rfl⟩ := List.getElem?_eq_some_iff.1 hb
          obtain ⟨hx, -, hs⟩ := hxy
          obtain ⟨c, hc', rfl⟩ := List.getElem_of_mem hx
          refine (ih c (List.getElem?_eq_getElem hc')).trans _ _ _ (Relation.EqvGen.rel _ _ ⟨?_, ?_, ?_⟩)
          · omega
          · omega
          · exact (hG c b hc' hb').2 hs
      exact this _ h b (List.getElem?_eq_getElem hb)
  refine ⟨h1, h2, key, (List.range (cc G).1).map fun l => S[(cc G).2.idxOf l]?.getD 0, by simp, ?_, ?_, ?_⟩
  · intro r hr'
    obtain ⟨l, hl, rfl⟩ := List.mem_map.1 hr'
    have := List.idxOf_lt_length_of_mem ((h2 l).2 (List.mem_range.1 hl))
    rw [h1] at this
    rw [List.getElem?_eq_getElem this]
    exact List.getElem_mem _
  · rw [List.pairwise_map]
    refine (List.nodup_range (n := (cc G).1)).imp_of_mem fun {a b} ha hb hab hl => hab ?_
    have ha' := List.idxOf_lt_length_of_mem ((h2 a).2 (List.mem_range.1 ha))
    have hb' := List.idxOf_lt_length_of_mem ((h2 b).2 (List.mem_range.1 hb))
    rw [List.getElem?_eq_getElem (by omega), List.getElem?_eq_getElem (by omega)] at hl
    have := (key _ _ (by omega) (by omega)).2 hl
    rw [List.getElem?_eq_getElem ha', List.getElem?_eq_getElem hb', List.getElem_idxOf, List.getElem_idxOf] at this
    exact Option.some.inj this
  · intro a ha
    obtain ⟨i, hi, rfl⟩ := List.getElem_of_mem ha
    have hi' : i < (cc G).2.length := by omega
    have hl : (cc G).2[i] ∈ (cc G).2 := List.getElem_mem hi'
    have hx := List.idxOf_lt_length_of_mem hl
    refine ⟨_, List.mem_map.2 ⟨(cc G).2[i], List.mem_range.2 ((h2 _).1 hl), rfl⟩, ?_⟩
    rw [List.getElem?_eq_getElem (by omega), Option.getD_some]
    refine (key _ _ hi (by omega)).1 ?_
    rw [List.getElem?_eq_getElem hi', List.getElem?_eq_getElem hx, List.getElem_idxOf]

variable {m : Nat} {t : Topo}

/-- `label_connections` -/
theorem labelConnections_ok (hcc : ComponentsSpec cc) (wf : WF (m + 1) top t) (htop : Simplices (m + 2) top)
    (hm : m + 2 < 256) :
    ∃ n labels, labelConnections cc t = .ok (n, labels) ∧ labels.length = top.length ∧
      (∀ l, l ∈ labels ↔ l < n) ∧
      (∀ a b, a < top.length → b < top.length →
        (labels[a]? = labels[b]? ↔ FaceLinked top (List.range top.length) a b)) ∧
      HasClasses (List.range top.length) (FaceLinked top (List.range top.length)) n := by
  have hM := wf.shape (k := m) (by omega)
  have hcols : t.nElements (m + 1) = top.length := by
    unfold Topo.nElements
    rw [wf.top_eq, Option.getD_some]
  rw [hcols] at hM
  have hg : faceGraph t = .ok ⟨(t.matrix m).cols, (t.matrix m).cols, fun a b =>
      wrap8 (((List.range (t.matrix m).rows).map fun i => (t.matrix m).entry i a * (t.matrix m).entry i b).sum)⟩ := by
    unfold faceGraph mul8 Mat.mul
    simp only [wf.lenB, Nat.add_sub_cancel]
    simp only [Mat.transpose, if_true]
    rfl
  obtain ⟨h1, h2, h3, h4⟩ := labels_linked (top := top) hcc (S := List.range top.length) List.nodup_range
    (G := ⟨(t.matrix m).cols, (t.matrix m).cols, fun a b =>
      wrap8 (((List.range (t.matrix m).rows).map fun i => (t.matrix m).entry i a * (t.matrix m).entry i b).sum)⟩)
    (by simpa using hM.2) (by simpa using hM.2) (by
      intro a b ha hb
      rw [List.getElem_range, List.getElem_range]
      rw [List.length_range] at ha hb
      exact shareEntry wf htop hm ha hb)
  refine ⟨_, _, ?_, by simpa using h1, h2, fun a b ha hb => ?_, h4⟩
  · unfold labelConnections
    rw [hg]
    rfl
  · have := h3 a b (by simpa using ha) (by simpa using hb)
    rwa [List.getElem_range, List.getElem_range] at this

theorem isConnected_ok (hcc : ComponentsSpec cc) (wf : WF (m + 1) top t) (htop : Simplices (m + 2) top)
    (hm : m + 2 < 256) :
    ∃ b, isConnected cc t = .ok b ∧
      (b = true ↔ top ≠ [] ∧ ∀ i < top.length, ∀ j < top.length, FaceLinked top (List.range top.length) i j) := by
  obtain ⟨n, labels, h, -, -, -, hk⟩ := labelConnections_ok hcc wf htop hm
  refine ⟨n == 1, by unfold isConnected; rw [h]; rfl, ?_⟩
  have h1 := hasClasses_one (S := List.range top.length) (R := FaceLinked top (List.range top.length))
    (fun _ _ => linked_symm) fun _ _ _ => linked_trans
  rw [beq_iff_eq]
  constructor
  · rintro rfl
    obtain ⟨h2, h3⟩ := h1.1 hk
    exact ⟨by rintro rfl; exact h2 rfl, fun i hi j hj => h3 i (List.mem_range.2 hi) j (List.mem_range.2 hj)⟩
  · rintro ⟨h2, h3⟩
    refine Spec.HasClasses.unique (R := FaceLinked top (List.range top.length)) (fun _ _ => linked_symm) (fun _ _ _ => linked_trans) hk (h1.2 ⟨?_, ?_⟩)
    · intro h0
      rw [List.range_eq_nil, List.length_eq_zero_iff] at h0
      exact h2 h0
    · intro a ha b hb
      exact h3 a (List.mem_range.1 ha) b (List.mem_range.1 hb)

end Verif
