/-
C16, C49: Loop subdivision of triangle meshes.
-/
import Verif.Lemmas.Loop
import Verif.Props.Boundary

namespace Verif.Props

open Verif.Model Verif.Spec

variable {uniq : List (List Nat) → List (List Nat)} {simplices : List (List Nat)} {t : Topo}

/-- which children contain the half edge from the vertex `v` towards `w`, and with which sign -/
theorem half_edge {top : List (List Nat)} (wf : WF 2 top t) (hs : Simplices 3 top)
    {l : List Nat} (hl : l ∈ top) {l0 : List Nat} (hl0 : l0 ∈ top) {v w : Nat} (hv : v ∈ l0)
    (hw : w ∈ l0) (hne : v ≠ w) {i : Nat} {r : List Nat} (hr : (kidsOf t l)[i]? = some r)
    (hf : IsFace [v, mid t v w] r) :
    v ∈ l ∧ w ∈ l ∧ l[i - 1]? = some v ∧ 1 ≤ i ∧
      inducedSign [v, mid t v w] r = inducedSign [v, w] l := by
  have hvlt := wf.vertex_lt hs hl0 hv
  have hmid := WF.mid_ge t v w
  rcases kid_cases (hs l hl).1 hr with ⟨rfl, a, b, c, hrot⟩ | ⟨k, a, b, c, rfl, hrot, rfl⟩
  · exfalso
    obtain ⟨r', h1, h2, -⟩ := hrot.middle (t := t) []
    rw [hr] at h1
    obtain rfl := Option.some.inj h1
    obtain ⟨d, hd, hp⟩ := hf
    have hvr : v ∈ r := (List.eraseIdx_sublist r d).subset (hp.mem_iff.1 (by simp))
    rw [h2.mem_iff] at hvr
    have g1 := WF.mid_ge t a b
    have g2 := WF.mid_ge t b c
    have g3 := WF.mid_ge t c a
    simp at hvr
    omega
  · obtain ⟨m1, m2, m3⟩ := hrot.mem
    obtain ⟨n1, n2, n3⟩ := hrot.ne (hs l hl).2
    obtain ⟨q1, q2, q3, q4, q5, q6⟩ := wf.rot_ne hs hl hrot
    have halt := wf.vertex_lt hs hl m1
    have g1 := WF.mid_ge t a b
    have g3 := WF.mid_ge t c a
    have hkv : l[k + 1 - 1]? = some a := by
      rcases hrot with ⟨rfl, rfl⟩ | ⟨rfl, rfl⟩ | ⟨rfl, rfl⟩ <;> rfl
    rw [isFace_three] at hf
    rcases hf with hf | hf | hf
    · rcases perm_pair.1 hf with ⟨h1, h2⟩ | ⟨h1, h2⟩ <;> omega
    · rcases perm_pair.1 hf with ⟨h1, h2⟩ | ⟨h1, h2⟩
      · subst h1
        have hw' : w = c := by
          rcases wf.mid_inj hs hl0 hl hv hw hne m3 m1 n3.symm h2 with ⟨x, y⟩ | ⟨x, y⟩ <;> omega
        subst hw'
        refine ⟨m1, m3, hkv, by omega, ?_⟩
        rw [hrot.sign, inducedSign_bwd hne n1 n2.symm, h2]
        exact inducedSign_bwd q2 q1 q4.symm
      · omega
    · rcases perm_pair.1 hf with ⟨h1, h2⟩ | ⟨h1, h2⟩
      · subst h1
        have hw' : w = b := by
          rcases wf.mid_inj hs hl0 hl hv hw hne m1 m2 n1 h2 with ⟨x, y⟩ | ⟨x, y⟩ <;> omega
        subst hw'
        refine ⟨m1, m2, hkv, by omega, ?_⟩
        rw [hrot.sign, inducedSign_fwd hne n3 n2]
        exact inducedSign_fwd q1 q2 q4
      · omega

/-- a triangle with the edge `v w` has a child with the half edge at `v` -/
theorem has_half_edge {top : List (List Nat)} (hs : Simplices 3 top)
    {l : List Nat} (hl : l ∈ top) {v w : Nat} (hv : v ∈ l) (hw : w ∈ l) (hne : v ≠ w) :
    ∃ k r, k < 3 ∧ (kidsOf t l)[k + 1]? = some r ∧ IsFace [v, mid t v w] r := by
  obtain ⟨k, z, hrot | hrot⟩ := rot_of_mem (hs l hl).1 hv hw hne
  · refine ⟨k, _, ?_, hrot.kid, isFace_three.2 (Or.inr (Or.inr (List.Perm.refl _)))⟩
    rcases hrot with ⟨rfl, -⟩ | ⟨rfl, -⟩ | ⟨rfl, -⟩ <;> omega
  · refine ⟨k, _, ?_, hrot.kid, isFace_three.2 (Or.inr (Or.inl ?_))⟩
    · rcases hrot with ⟨rfl, -⟩ | ⟨rfl, -⟩ | ⟨rfl, -⟩ <;> omega
    · rw [mid_comm t v w]

theorem perm_sum_zero {e e' l1 l2 : List Nat} (hp : e.Perm e') (he : e.Nodup)
    (n1 : l1.Nodup) (n2 : l2.Nodup)
    (h : inducedSign e' l1 + inducedSign e' l2 = 0) : inducedSign e l1 + inducedSign e l2 = 0 := by
  rw [inducedSign_face_perm hp he n1, inducedSign_face_perm hp he n2, ← mul_add, h, mul_zero]

theorem isFace_of_perm {e e' l : List Nat} (hp : e.Perm e') (h : IsFace e l) : IsFace e' l := by
  obtain ⟨c, hc, hec⟩ := h
  exact ⟨c, hc, hp.symm.trans hec⟩

theorem sharedFace_of_perm {rows : List (List Nat)} {e e' : List Nat} {j1 j2 : Nat}
    (hp : e.Perm e') (h : SharedFace rows e j1 j2) : SharedFace rows e' j1 j2 := by
  obtain ⟨h1, h2, h3, h4⟩ := h
  refine ⟨h1, h2, h3, fun j l hj => ?_⟩
  rw [← h4 j l hj]
  exact ⟨isFace_of_perm hp.symm, isFace_of_perm hp⟩

theorem loop_coherent {top : List (List Nat)} (wf : WF 2 top t) (hs : Simplices 3 top)
    (hcoh : Coherent top) : Coherent (top.map (kidsOf t)).flatten := by
  have hsim := wf.loop_simplices hs
  -- index of a child
  have hidx : ∀ {j i : Nat} {l r : List Nat}, top[j]? = some l → i < 4 →
      (kidsOf t l)[i]? = some r → (top.map (kidsOf t)).flatten[4 * j + i]? = some r := by
    intro j i l r hl hi hr
    refine (WF.loop_row _ _).2 ⟨l, ?_, ?_⟩
    · rw [show (4 * j + i) / 4 = j by omega]; exact hl
    · rw [show (4 * j + i) % 4 = i by omega]; exact hr
  -- the half edge case
  have half : ∀ (v w I1 I2 : Nat) (l0 r1 r2 : List Nat), l0 ∈ top → v ∈ l0 → w ∈ l0 → v ≠ w →
      (top.map (kidsOf t)).flatten[I1]? = some r1 → (top.map (kidsOf t)).flatten[I2]? = some r2 →
      SharedFace (top.map (kidsOf t)).flatten [v, mid t v w] I1 I2 →
      inducedSign [v, mid t v w] r1 + inducedSign [v, mid t v w] r2 = 0 := by
    intro v w I1 I2 l0 r1 r2 hl0 hv hw hne hr1 hr2 hsh
    obtain ⟨hI, hlt1, hlt2, hall⟩ := hsh
    obtain ⟨l1, hj1, hk1⟩ := (WF.loop_row _ _).1 hr1
    obtain ⟨l2, hj2, hk2⟩ := (WF.loop_row _ _).1 hr2
    have hm1 := List.mem_of_getElem? hj1
    have hm2 := List.mem_of_getElem? hj2
    obtain ⟨hv1, hw1, hi1, hp1, hs1⟩ := half_edge wf hs hm1 hl0 hv hw hne hk1
      ((hall I1 r1 hr1).2 (Or.inl rfl))
    obtain ⟨hv2, hw2, hi2, hp2, hs2⟩ := half_edge wf hs hm2 hl0 hv hw hne hk2
      ((hall I2 r2 hr2).2 (Or.inr rfl))
    have hjj : I1 / 4 ≠ I2 / 4 := by
      intro hj
      rw [hj, hj2] at hj1
      obtain rfl := Option.some.inj hj1
      obtain ⟨q1, e1⟩ := List.getElem?_eq_some_iff.1 hi1
      obtain ⟨q2, e2⟩ := List.getElem?_eq_some_iff.1 hi2
      have := (List.Nodup.getElem_inj_iff (hs _ hm1).2).1 (e1.trans e2.symm)
      omega
    rw [hs1, hs2]
    refine hcoh [v, w] (I1 / 4) (I2 / 4) l1 l2 hj1 hj2 ⟨hjj, (List.getElem?_eq_some_iff.1 hj1).1,
      (List.getElem?_eq_some_iff.1 hj2).1, ?_⟩
    intro j l hj
    have hml := List.mem_of_getElem? hj
    constructor
    · rintro ⟨c, hc, hp⟩
      have hvl : v ∈ l := (List.eraseIdx_sublist l c).subset (hp.mem_iff.1 (by simp))
      have hwl : w ∈ l := (List.eraseIdx_sublist l c).subset (hp.mem_iff.1 (by simp))
      obtain ⟨k, r, hk, hr, hf⟩ := has_half_edge (t := t) hs hml hvl hwl hne
      rcases (hall _ r (hidx hj (by omega) hr)).1 hf with h | h
      · left; omega
      · right; omega
    · have key : ∀ {l : List Nat}, l ∈ top → v ∈ l → w ∈ l → IsFace [v, w] l := by
        intro l hml hvl hwl
        obtain ⟨k, z, hrot | hrot⟩ := rot_of_mem (hs l hml).1 hvl hwl hne
        · rcases hrot with ⟨rfl, rfl⟩ | ⟨rfl, rfl⟩ | ⟨rfl, rfl⟩
          · exact isFace_three.2 (Or.inr (Or.inr (List.Perm.refl _)))
          · exact isFace_three.2 (Or.inl (List.Perm.refl _))
          · exact isFace_three.2 (Or.inr (Or.inl (List.Perm.swap _ _ _)))
        · rcases hrot with ⟨rfl, rfl⟩ | ⟨rfl, rfl⟩ | ⟨rfl, rfl⟩
          · exact isFace_three.2 (Or.inr (Or.inl (List.Perm.refl _)))
          · exact isFace_three.2 (Or.inr (Or.inr (List.Perm.swap _ _ _)))
          · exact isFace_three.2 (Or.inl (List.Perm.swap _ _ _))
      rintro (rfl | rfl)
      · rw [hj1] at hj
        obtain rfl := Option.some.inj hj
        exact key hml hv1 hw1
      · rw [hj2] at hj
        obtain rfl := Option.some.inj hj
        exact key hml hv2 hw2
  -- the inner edge case
  have inner : ∀ (j I1 I2 k v w z : Nat) (l r1 r2 : List Nat), top[j]? = some l → Rot l k v w z →
      (top.map (kidsOf t)).flatten[I1]? = some r1 → (top.map (kidsOf t)).flatten[I2]? = some r2 →
      SharedFace (top.map (kidsOf t)).flatten [mid t v w, mid t z v] I1 I2 →
      inducedSign [mid t v w, mid t z v] r1 + inducedSign [mid t v w, mid t z v] r2 = 0 := by
    intro j I1 I2 k v w z l r1 r2 hj hrot hr1 hr2 hsh
    have hml := List.mem_of_getElem? hj
    have hk3 : k < 3 := by rcases hrot with ⟨rfl, -⟩ | ⟨rfl, -⟩ | ⟨rfl, -⟩ <;> omega
    obtain ⟨q1, q2, q3, q4, q5, q6⟩ := wf.rot_ne hs hml hrot
    obtain ⟨rm, hrm, hpm, hsm⟩ := hrot.middle (t := t) [mid t v w, mid t z v]
    have hRm := hidx hj (by omega) hrm
    have hRc := hidx hj (by omega) (hrot.kid (t := t))
    have hfm : IsFace [mid t v w, mid t z v] rm :=
      (isFace_perm_iff hpm ((hsim _ (List.mem_of_getElem? hRm)).2)).2
        (isFace_three.2 (Or.inr (Or.inl (List.Perm.refl _))))
    have hfc : IsFace [mid t v w, mid t z v] [v, mid t v w, mid t z v] :=
      isFace_three.2 (Or.inl (List.Perm.refl _))
    have hsc : inducedSign [mid t v w, mid t z v] [v, mid t v w, mid t z v] = 1 := by
      rw [inducedSign_rot]; exact inducedSign_fwd q4 q1.symm q2.symm
    have hsm' : inducedSign [mid t v w, mid t z v] rm = -1 := by
      rw [hsm]; exact inducedSign_bwd q4 q5 q6
    obtain ⟨hI, -, -, hall⟩ := hsh
    have h1 := (hall _ _ hRm).1 hfm
    have h2 := (hall _ _ hRc).1 hfc
    have e1 : ∀ {I : Nat} {r r' : List Nat}, (top.map (kidsOf t)).flatten[I]? = some r →
        (top.map (kidsOf t)).flatten[I]? = some r' → r = r' := by
      intro I r r' a b; rw [a] at b; exact Option.some.inj b
    rcases h1 with h1 | h1 <;> rcases h2 with h2 | h2
    · omega
    · rw [h1] at hRm; rw [h2] at hRc
      rw [e1 hr1 hRm, e1 hr2 hRc, hsm', hsc]; rfl
    · rw [h1] at hRm; rw [h2] at hRc
      rw [e1 hr1 hRc, e1 hr2 hRm, hsm', hsc]; rfl
    · omega
  intro e I1 I2 r1 r2 hr1 hr2 hsh
  have n1 := (hsim _ (List.mem_of_getElem? hr1)).2
  have n2 := (hsim _ (List.mem_of_getElem? hr2)).2
  have hf1 := (hsh.2.2.2 I1 r1 hr1).2 (Or.inl rfl)
  obtain ⟨l, hj, hk⟩ := (WF.loop_row _ _).1 hr1
  have hml := List.mem_of_getElem? hj
  have hen : e.Nodup := by
    obtain ⟨c, hc, hp⟩ := hf1
    exact hp.nodup_iff.2 (eraseIdx_nodup n1 c)
  have finish : ∀ e', e.Perm e' → (SharedFace (top.map (kidsOf t)).flatten e' I1 I2 →
      inducedSign e' r1 + inducedSign e' r2 = 0) → inducedSign e r1 + inducedSign e r2 = 0 :=
    fun e' hp h => perm_sum_zero hp hen n1 n2 (h (sharedFace_of_perm hp hsh))
  rcases kid_cases (hs l hml).1 hk with ⟨h0, v, w, z, hrot⟩ | ⟨k, v, w, z, h0, hrot, rfl⟩
  · obtain ⟨r', h1, h2, -⟩ := hrot.middle (t := t) []
    rw [h0, h1] at hk
    obtain rfl := Option.some.inj hk
    have hl : l = [v, w, z] := by
      rcases hrot with ⟨-, h⟩ | ⟨h, -⟩ | ⟨h, -⟩
      · exact h
      · omega
      · omega
    have hf1' := (isFace_perm_iff h2 n1).1 hf1
    rcases isFace_three.1 hf1' with hp | hp | hp
    · refine finish _ (hp.trans (List.Perm.swap _ _ _))
        (inner (I1 / 4) I1 I2 2 z v w l _ _ hj (Or.inr (Or.inr ⟨rfl, hl⟩)) hr1 hr2)
    · exact finish _ hp (inner (I1 / 4) I1 I2 0 v w z l _ _ hj hrot hr1 hr2)
    · exact finish _ (hp.trans (List.Perm.swap _ _ _))
        (inner (I1 / 4) I1 I2 1 w z v l _ _ hj (Or.inr (Or.inl ⟨rfl, hl⟩)) hr1 hr2)
  · obtain ⟨m1, m2, m3⟩ := hrot.mem
    obtain ⟨d1, d2, d3⟩ := hrot.ne (hs l hml).2
    rcases isFace_three.1 hf1 with hp | hp | hp
    · exact finish _ hp (inner (I1 / 4) I1 I2 k v w z l _ _ hj hrot hr1 hr2)
    · rw [mid_comm t z v] at hp hr1 ⊢
      have := half v z I1 I2 l _ r2 hml m1 m3 d3 hr1 hr2
      refine perm_sum_zero hp hen ?_ n2 (this (sharedFace_of_perm hp hsh))
      rw [mid_comm t v z]; exact n1
    · exact finish _ hp (half v w I1 I2 l _ r2 hml m1 m2 d1 hr1 hr2)

/-- C16: Loop subdivision of a triangle mesh succeeds; there is one vertex per vertex and per edge
of the original and there are four triangles per triangle; if the mesh is coherently oriented then
so is the subdivided mesh. -/
theorem C16_counts_and_orientation (hu : UniqSpec uniq) (hs : Simplices 3 simplices)
    (h : fromSimplices uniq 3 simplices = .ok t) :
    ∃ t' rows, subdivideLoop uniq t = .ok t' ∧ t'.elements[2]? = some rows ∧ Simplices 3 rows ∧
      t'.nElements 0 = t.nElements 0 + t.nElements 1 ∧ rows.length = 4 * simplices.length ∧
      (Coherent simplices → Coherent rows) := by
  obtain ⟨n, hn, -, wf⟩ := wf_of_ok hu hs h
  obtain rfl : n = 2 := by omega
  obtain ⟨t', ht', wf'⟩ := wf.subdivideLoop_ok hu hs
  refine ⟨t', _, ht', wf'.top_eq, wf.loop_simplices hs, ?_, ?_, loop_coherent wf hs⟩
  · exact wf'.nVertices_eq (n := 1) (wf.loop_simplices hs) (wf.loop_used hs)
  · rw [List.length_flatten, List.map_map]
    have : ∀ l ∈ simplices, (List.length ∘ kidsOf t) l = 4 := fun _ _ => rfl
    rw [List.map_congr_left this, List.map_const', List.sum_replicate, smul_eq_mul, Nat.mul_comm]

/-- C16: the boundary of the four children together is the boundary of the parent triangle with
every edge replaced by its two halves: for every pair of vertices `x, y`, the signs that the four
children induce on the edge from `x` to `y` add up to the number of times the subdivided boundary
loop `a, ab, b, bc, c, ca` runs from `x` to `y` minus the number of times it runs from `y` to `x`
(`relSign [x, y] [p, q]` is `1`, `-1` or `0`). -/
theorem C16_children_boundary (hu : UniqSpec uniq) (hs : Simplices 3 simplices)
    (h : fromSimplices uniq 3 simplices = .ok t) (j a b c : Nat)
    (hj : simplices[j]? = some [a, b, c]) :
    ∃ t' rows, subdivideLoop uniq t = .ok t' ∧ t'.elements[2]? = some rows ∧
      ∃ (ab bc ca : Nat) (e1 e2 e3 : List Nat),
        (t.elements[1]?.getD [])[ab]? = some e1 ∧ e1.Perm [a, b] ∧
        (t.elements[1]?.getD [])[bc]? = some e2 ∧ e2.Perm [b, c] ∧
        (t.elements[1]?.getD [])[ca]? = some e3 ∧ e3.Perm [c, a] ∧
        ∀ x y, ((List.range 4).map fun i =>
            inducedSign [x, y] (rows[4 * j + i]?.getD [])).sum =
          relSign [x, y] [a, t.nElements 0 + ab] + relSign [x, y] [t.nElements 0 + ab, b] +
          relSign [x, y] [b, t.nElements 0 + bc] + relSign [x, y] [t.nElements 0 + bc, c] +
          relSign [x, y] [c, t.nElements 0 + ca] + relSign [x, y] [t.nElements 0 + ca, a] := by
  obtain ⟨n, hn, -, wf⟩ := wf_of_ok hu hs h
  obtain rfl : n = 2 := by omega
  obtain ⟨t', ht', wf'⟩ := wf.subdivideLoop_ok hu hs
  refine ⟨t', _, ht', wf'.top_eq, ?_⟩
  have hl := List.mem_of_getElem? hj
  have hn := (hs _ hl).2
  have hd : a ≠ b ∧ b ≠ c ∧ c ≠ a := by simp at hn; omega
  obtain ⟨e1, q1, p1⟩ := wf.edge_get hs hl (v := a) (w := b) (by simp) (by simp) hd.1
  obtain ⟨e2, q2, p2⟩ := wf.edge_get hs hl (v := b) (w := c) (by simp) (by simp) hd.2.1
  obtain ⟨e3, q3, p3⟩ := wf.edge_get hs hl (v := c) (w := a) (by simp) (by simp) hd.2.2
  refine ⟨_, _, _, e1, e2, e3, q1, p1, q2, p2, q3, p3, ?_⟩
  intro x y
  have g1 := WF.mid_ge t a b
  have g2 := WF.mid_ge t b c
  have g3 := WF.mid_ge t c a
  rw [show t.nElements 0 + (mid t a b - t.nElements 0) = mid t a b by omega,
    show t.nElements 0 + (mid t b c - t.nElements 0) = mid t b c by omega,
    show t.nElements 0 + (mid t c a - t.nElements 0) = mid t c a by omega]
  have hrow : ∀ (i : Nat) (r : List Nat), i < 4 → (kidsOf t [a, b, c])[i]? = some r →
      (simplices.map (kidsOf t)).flatten[4 * j + i]? = some r := by
    intro i r hi hr
    refine (WF.loop_row _ _).2 ⟨[a, b, c], ?_, ?_⟩
    · rw [show (4 * j + i) / 4 = j by omega]; exact hj
    · rw [show (4 * j + i) % 4 = i by omega]; exact hr
  have r0 := hrow 0 _ (by omega) rfl
  have r1 := hrow 1 _ (by omega) rfl
  have r2 := hrow 2 _ (by omega) rfl
  have r3 := hrow 3 _ (by omega) rfl
  have hr4 : List.range 4 = [0, 1, 2, 3] := rfl
  rw [hr4]
  simp only [List.map_cons, List.map_nil, List.sum_cons, List.sum_nil, r0, r1, r2, r3,
    Option.getD_some, inducedSign_three, List.getElem?_cons_zero, List.getElem?_cons_succ]
  rw [relSign_pair_swap _ (mid t c a) (mid t a b), relSign_pair_swap _ (mid t b c) (mid t a b),
    relSign_pair_swap _ (mid t c a) (mid t b c), relSign_pair_swap _ (mid t c a) a,
    relSign_pair_swap _ (mid t a b) b, relSign_pair_swap _ (mid t b c) c]
  ring

/-! ### concrete cases -/

example : ∃ t, Simplices 3 [[0, 1, 2], [2, 1, 3]] ∧
    fromSimplices List.dedup 3 [[0, 1, 2], [2, 1, 3]] = .ok t ∧
    Coherent [[0, 1, 2], [2, 1, 3]] := by
  have hs : Simplices 3 [[0, 1, 2], [2, 1, 3]] := simplices_of_all (by decide)
  have hf : fromSimplices List.dedup 3 [[0, 1, 2], [2, 1, 3]] =
    .ok (built 3 [[0, 1, 2], [2, 1, 3]]) := by decide +kernel
  refine ⟨_, hs, hf, ?_⟩
  rw [← reorient_false [[0, 1, 2], [2, 1, 3]],
    ← (wf_built hs hf).satisfies_iff_coherent hs (fun _ => false)]
  decide +kernel

example : (do
    let t ← fromSimplices List.dedup 3 [[0, 1, 2], [2, 1, 3]]
    let t' ← subdivideLoop List.dedup t
    Except.ok (t'.nElements 0, t'.nElements 1, t'.elements[2]?.getD [])) = .ok
    (9, 16, [[8, 4, 5], [0, 5, 4], [1, 8, 5], [2, 4, 8], [6, 7, 8], [2, 8, 7], [1, 6, 8],
      [3, 7, 6]]) := by decide +kernel

end Verif.Props
