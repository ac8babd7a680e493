/-
Cubical meshes closed along their boundary.
-/
import Verif.Lemmas.DualSimplicial
import Verif.Props.CubeAveraging
import Verif.Props.CubicalBoundary

set_option linter.unusedSectionVars false

namespace Verif

open Verif.Model Verif.Spec Verif.Props

open WF (corners)
open scoped Classical

theorem gridFace_map {K : Nat} {l x : List Nat} (hl : l.length = 2 ^ K) (hx : x.length = K) (φ : Nat → Nat) :
    gridFace (l.map φ) x = (gridFace l x).map φ := by
  unfold gridFace
  rw [List.map_map]
  apply List.map_congr_left
  intro c hc
  exact cubeAt_map hl φ (by rw [← hx]; exact mem_cubeIndices.1 (List.mem_filter.1 hc).1)

theorem faceOf_map_iff {K : Nat} {e l : List Nat} {φ ψ : Nat → Nat} (hl : l.length = 2 ^ K) (he' : ∀ x ∈ e, ψ (φ x) = x)
    (hl' : ∀ x ∈ l, ψ (φ x) = x) : FaceOf K (e.map φ) (l.map φ) ↔ FaceOf K e l := by
  constructor
  · rintro ⟨x, x1, x2, x3⟩
    rw [gridFace_map hl x2] at x3
    refine ⟨x, x1, x2, (perm_map_iff (ψ := ψ) (fun v hv => hl' v ?_) he').1 x3⟩
    exact mem_of_gridFace hl x2 hv
  · rintro ⟨x, x1, x2, x3⟩
    refine ⟨x, x1, x2, ?_⟩
    rw [gridFace_map hl x2]
    exact x3.map φ

section

variable {uniq : List (List Nat) → List (List Nat)} {m : Nat} {cubes : List (List Nat)} {t : Topo} {s : Sub}

/-- corners of a boundary element and of its parent -/
theorem CSubOK.at_parent {rows : List (List Nat)} {n N : Nat} {top : List (List Nat)} (wf : CWF N top t) (htop : Cubes N top)
    (hnN : n < N) (hok : CSubOK uniq n t rows s) {k q p : Nat} (hk : k ≤ n)
    (hq : (s.parentIdx[k]?.getD [])[q]? = some p) :
    q < s.topo.nElements k ∧ p < t.nElements k ∧ (corners t k p).Perm ((corners s.topo k q).map (back rows)) ∧
      ∃ σ, SymmetricCube k (corners t k p) ((corners s.topo k q).map (back rows)) σ := by
  obtain ⟨P, hP, hlen, hidx⟩ := hok.idx k hk
  rw [hP, Option.getD_some] at hq
  have hql : q < s.topo.nElements k := by
    rw [← hlen]
    exact (List.getElem?_eq_some_iff.1 hq).1
  obtain ⟨p', e', h1, h2, h3⟩ := hidx q _ (WF.corners_get hql)
  obtain rfl := Option.some.inj (hq.symm.trans h1)
  have he : corners t k p = e' := by
    unfold WF.corners
    rw [h2, Option.getD_some]
  subst he
  refine ⟨hql, (List.getElem?_eq_some_iff.1 h2).1, h3, ?_⟩
  obtain ⟨e2, he2, σ, hσ⟩ := hok.parent k hk _ (List.mem_of_getElem? (WF.corners_get hql))
  obtain ⟨i, hi, rfl⟩ := List.getElem_of_mem he2
  have hc := wf.cubes htop (k := k) (by omega) _ he2
  have hd : DistinctElements (t.elements[k]?.getD []) := by
    exact (wf.get (k := k) (by omega)).2.2.1
  have : i = p := distinct_index hd (List.getElem?_eq_getElem hi) h2 ((hσ.perm hc.1).symm.trans h3.symm)
  subst this
  have hcc : corners t k i = (t.elements[k]?.getD [])[i] := by
    unfold WF.corners
    rw [List.getElem?_eq_getElem hi, Option.getD_some]
  rw [hcc]
  exact ⟨σ, hσ⟩

theorem CSubOK.face_iff {rows : List (List Nat)} {n N : Nat} {top : List (List Nat)} (wf : CWF N top t) (htop : Cubes N top)
    (hnN : n < N) (hn : 1 ≤ n) (hok : CSubOK uniq n t rows s) {k j q p r a : Nat} (hk : k ≤ n)
    (hj : j ≤ n) (hq : (s.parentIdx[k]?.getD [])[q]? = some p) (hr : (s.parentIdx[j]?.getD [])[r]? = some a) :
    FaceOf j (corners t k p) (corners t j a) ↔ FaceOf j (corners s.topo k q) (corners s.topo j r) := by
  obtain ⟨h1, -, h2, -⟩ := hok.at_parent wf htop hnN hk hq
  obtain ⟨h3, h3', -, σ, h4⟩ := hok.at_parent wf htop hnN hj hr
  have hb : ∀ v ∈ corners s.topo k q, fresh rows (back rows v) = v := fun v hv =>
    fresh_back rows (hok.bound k hk _ (List.mem_of_getElem? (WF.corners_get h1)) v hv)
  have hb' : ∀ v ∈ corners s.topo j r, fresh rows (back rows v) = v := fun v hv =>
    fresh_back rows (hok.bound j hj _ (List.mem_of_getElem? (WF.corners_get h3)) v hv)
  have hc := wf.cube (by omega) (by omega : j ≤ N) (CWF.stored_corners h3')
  rw [← faceOf_symmetric hc.1 hc.2 h4, ← faceOf_map_iff (φ := back rows) (ψ := fresh rows) (hok.wf.corners_length hj h3 hn) hb hb']
  exact ⟨fun h => h.perm h2, fun h => h.perm h2.symm⟩

variable (wf : CWF (m + 2) cubes t) (hc : Cubes (m + 2) cubes) (hok : CSubOK uniq (m + 1) t (bRows t) s)
include wf hc hok

/-- faces of boundary elements are boundary elements -/
theorem cube_parents_closed {k j a p : Nat} (hk : k ≤ m + 1) (hj : j ≤ m + 1) (ha : a < t.nElements k)
    (hp : p ∈ s.parentIdx[j]?.getD []) (h : FaceOf j (corners t k a) (corners t j p)) : a ∈ s.parentIdx[k]?.getD [] := by
  obtain ⟨q, hq⟩ := List.mem_iff_getElem?.1 hp
  obtain ⟨hql, hpl, -, σ, hσ⟩ := hok.at_parent wf hc (by omega) hj hq
  have hcp := wf.cube (by omega) (by omega : j ≤ m + 2) (CWF.stored_corners hpl)
  obtain ⟨x, x1, x2, x3⟩ := (faceOf_symmetric hcp.1 hcp.2 hσ _).2 h
  have hlen := hok.wf.corners_length hj hql
  rw [gridFace_map hlen x2] at x3
  obtain ⟨i, e, g1, g2, -⟩ := gridFace_stored hok.wf (by omega) hj (CWF.stored_corners hql) x1 x2
  have hcount : x.count 1 = k := by
    have hl1 := (wf.corners_length (by omega : k ≤ m + 2) ha)
    have := faceOf_length (k := k) x1 
      (by rw [← List.length_map (f := back (bRows t)), x3.length_eq, hl1]) (List.Perm.refl _)
    exact this
  rw [hcount] at g1
  obtain ⟨P, hP, hPl, hidx⟩ := hok.idx k hk
  obtain ⟨p', e', h1, h2, h3⟩ := hidx i e g1
  have hpe : p' = a := distinct_index (wf.get (k := k) (by omega)).2.2.1 h2 (WF.corners_get ha)
    (h3.trans ((g2.symm.map _).trans x3))
  rw [hP, Option.getD_some, ← hpe]
  exact List.mem_of_getElem? h1

/-- the mesh and its boundary fit together -/
theorem glued_cubical (hord : InOrder s.parentIdx) : Glued (m + 1) t s := by
  have hpk : ∀ k ≤ m + 1, Picks (boundarySelector t s k) (s.parentIdx[k]?.getD []) := by
    intro k hk
    refine selector_picks (fun c hcc => ?_) hord
    obtain ⟨q, hq⟩ := List.mem_iff_getElem?.1 hcc
    exact (hok.at_parent wf hc (by omega) hk hq).2.1
  refine ⟨wf.lenB, fun k hk => (wf.shape (by omega)).1, fun k hk => (wf.shape (by omega)).2, hok.wf.lenB,
    fun k hk => (hok.wf.shape hk).1, fun k hk => (hok.wf.shape hk).2, hpk, fun k hk => ?_, ?_⟩
  · obtain ⟨P, hP, hlen, -⟩ := hok.idx k hk
    rw [hP]
    exact hlen
  · intro k hk a ha q p hp
    obtain ⟨hql, hpl, -⟩ := hok.at_parent wf hc (by omega) (k := k + 1) (by omega) hp
    rw [wf.entryC (by omega) ha hpl]
    by_cases hm : a ∈ s.parentIdx[k]?.getD []
    · obtain ⟨r, hr⟩ := List.mem_iff_getElem?.1 hm
      have hrl := (hok.at_parent wf hc (by omega) (k := k) (by omega) hr).1
      rw [Finset.sum_eq_single r]
      · rw [if_pos hr, one_mul, hok.wf.entryC hk hrl hql]
        exact if_congr (hok.face_iff wf hc (by omega) (by omega) (by omega) (by omega) hr hp) rfl rfl
      · intro r' _ hne
        rw [if_neg, zero_mul]
        intro h
        obtain ⟨h1, h2⟩ := List.getElem?_eq_some_iff.1 h
        obtain ⟨h3, h4⟩ := List.getElem?_eq_some_iff.1 hr
        exact hne ((List.Nodup.getElem_inj_iff (hpk k (by omega)).1).1 (h2.trans h4.symm))
      · intro h
        rw [Finset.mem_range] at h
        omega
    · rw [if_neg, Finset.sum_eq_zero]
      · intro r _
        rw [if_neg, zero_mul]
        exact fun h => hm (List.mem_of_getElem? h)
      · exact fun h => hm (cube_parents_closed wf hc hok (by omega) (j := k + 1) (by omega) ha (List.mem_of_getElem? hp) h)

omit hc in
theorem cube_boundary_count : s.topo.nElements (m + 1) = (bRows t).length := by
  unfold Topo.nElements
  rw [hok.wf.top_eq, Option.getD_some, relabel_rows, List.length_map]

/-- the boundary sides, in the numbering of the mesh -/
theorem cube_top_parent {r : Nat} (hr : r < s.topo.nElements (m + 1)) :
    ∃ p, (s.parentIdx[m + 1]?.getD [])[r]? = some p ∧ corners t (m + 1) p = (bRows t)[r]?.getD [] := by
  obtain ⟨P, hP, hlen, -⟩ := hok.idx (m + 1) (by omega)
  have hn := cube_boundary_count wf hok
  have hrP : r < P.length := by omega
  have hq : (s.parentIdx[m + 1]?.getD [])[r]? = some P[r] := by
    rw [hP, Option.getD_some, List.getElem?_eq_getElem hrP]
  refine ⟨P[r], hq, ?_⟩
  obtain ⟨-, hpl, hperm, -⟩ := hok.at_parent wf hc (by omega) (k := m + 1) (by omega) hq
  have hback : (corners s.topo (m + 1) r).map (back (bRows t)) = (bRows t)[r]?.getD [] := by
    unfold WF.corners
    rw [hok.wf.top_eq, Option.getD_some]
    conv_rhs => rw [← relabel_back (bRows t)]
    rw [List.getElem?_map]
    have : r < (relabel (bRows t)).2.length := by rw [relabel_rows, List.length_map]; omega
    rw [List.getElem?_eq_getElem this]
    rfl
  rw [hback] at hperm
  have hrb : r < (bRows t).length := by omega
  have hmem := cubes_bRows_mem wf _ (List.getElem_mem hrb)
  obtain ⟨i, hi, hi'⟩ := List.getElem_of_mem hmem
  rw [List.getElem?_eq_getElem hrb, Option.getD_some] at hperm ⊢
  have hst : (t.elements[m + 1]?.getD [])[i]? = some (bRows t)[r] := by rw [List.getElem?_eq_getElem hi, hi']
  have : P[r] = i := distinct_index (wf.get (k := m + 1) (by omega)).2.2.1 (WF.corners_get hpl) hst hperm
  rw [this]
  unfold WF.corners
  rw [hst, Option.getD_some]

theorem cubical_means {K : Type} [Field K] [CharZero K] (hord : InOrder s.parentIdx) :
    ∃ L : List (Mat K), averagingOperators0 ((List.range (m + 2)).map (Glued.block t s)).reverse = .ok L ∧ L.length = m + 3 ∧
      (∃ A, L[0]? = some A ∧ A.rows = cubes.length + (bRows t).length ∧ A.cols = A.rows ∧
        ∀ i < A.rows, ∀ x : Nat → K, ((List.range A.cols).map fun j => A.entry i j * x j).sum = x i) ∧
      ∀ d k, d + 1 + k = m + 2 → ∃ A, L[d + 1]? = some A ∧ A.rows = t.nElements k + Glued.nB s k ∧
        A.cols = cubes.length + (bRows t).length ∧
        (∀ c < t.nElements k, ∀ x : Nat → K, ((List.range A.cols).map fun j => A.entry c j * x j).sum =
          Glued.weight K (d + 1) * mean (dualCubeCell (m + 2) k cubes (bRows t) (corners t k c) x)) ∧
        (∀ j q p : Nat, k = j + 1 → (s.parentIdx[j]?.getD [])[q]? = some p → ∀ x : Nat → K,
          ((List.range A.cols).map fun j => A.entry (t.nElements k + q) j * x j).sum =
          Glued.weight K (d + 1) * mean (boundaryCubeCell (m + 2) j cubes (bRows t) (corners t j p) x)) := by
  have g := glued_cubical wf hc hok hord
  have hnF := cube_boundary_count wf hok
  have hnT : t.nElements (m + 2) = cubes.length := by
    unfold Topo.nElements; rw [wf.top_eq]; rfl
  obtain ⟨LX, x1, x2, -, x4⟩ := wf.accumulatedN (by omega)
  obtain ⟨LW, w1, w2, ⟨W0, w3, -, -, w5⟩, w4⟩ := hok.wf.accumulatedN (by omega)
  have hX := closed_accumulated x1
  have hW := closed_accumulated w1
  rw [wf.lenB] at hX
  rw [hok.wf.lenB] at hW
  have hside : ∀ {k p a r : Nat}, k ≤ m + 1 → p < t.nElements k → a < t.nElements (m + 1) →
      corners t (m + 1) a = (bRows t)[r]?.getD [] →
      (hasFace (m + 1 - k) k ((bRows t)[r]?.getD []) (corners t k p) = true ↔ FaceOf (m + 1) (corners t k p) (corners t (m + 1) a)) := by
    intro k p a r hk hp ha har
    rw [← har]
    have h1 := wf.cube (by omega) (by omega : m + 1 ≤ m + 2) (CWF.stored_corners ha)
    have h2 := hasFace_iff (wf.corners_length (by omega) hp) (d := m + 1 - k) (l := corners t (m + 1) a)
      (by rw [show k + (m + 1 - k) = m + 1 by omega]; exact h1.1) h1.2
    rwa [show k + (m + 1 - k) = m + 1 by omega] at h2
  obtain ⟨L, l1, l2, l3, l4⟩ := g.average (K := K)
    (fun k c r => hasFace (m + 2 - k) k (cubes[r]?.getD []) (corners t k c))
    (fun k c r => hasFace (m + 1 - k) k ((bRows t)[r]?.getD []) (corners t k c)) hX hW
    (by
      intro d k hk X hXd r hr c hcc
      obtain ⟨A, a1, a2, a3, a4⟩ := x4 k (by omega)
      rw [List.getElem?_reverse (by omega), x2, show m + 2 + 1 - 1 - (d + 1) = k by omega, a1] at hXd
      obtain rfl := Option.some.inj hXd
      rw [a4 r hr c hcc, show m + 2 - k = d + 1 by omega]
      have := hasFace_corners wf (by omega) (by omega : k ≤ m + 2) hcc hr
      rw [show m + 2 - k = d + 1 by omega] at this
      exact congrArg wrap8 (if_congr this.symm rfl rfl))
    (by
      intro d k hk W hWd r hr q p hq
      obtain ⟨hql, hpl, -⟩ := hok.at_parent wf hc (by omega) (by omega) hq
      obtain ⟨a, ha1, ha2⟩ := cube_top_parent wf hc hok hr
      have hal := (hok.at_parent wf hc (by omega) (k := m + 1) (by omega) ha1).2.1
      have hsub := hok.face_iff wf hc (by omega) (by omega) (by omega) (by omega) hq ha1
      rw [List.getElem?_reverse (by omega), w2, show m + 1 + 1 - 1 - d = k by omega] at hWd
      have hrw := hside (by omega) hpl hal ha2
      simp only [hrw]
      rcases Nat.lt_or_ge k (m + 1) with hlt | hge
      · obtain ⟨A, a1, a2, a3, a4⟩ := w4 k hlt
        rw [a1] at hWd
        obtain rfl := Option.some.inj hWd
        rw [a4 r hr q hql, show m + 1 - k = d by omega]
        simp only [hsub]
      · obtain rfl : k = m + 1 := by omega
        obtain rfl : d = 0 := by omega
        rw [w3] at hWd
        obtain rfl := Option.some.inj hWd
        rw [w5]
        have hiff : r = q ↔ FaceOf (m + 1) (corners t (m + 1) p) (corners t (m + 1) a) := by
          have h1 := wf.cube (by omega) (by omega : m + 1 ≤ m + 2) (CWF.stored_corners hpl)
          have h2 := wf.cube (by omega) (by omega : m + 1 ≤ m + 2) (CWF.stored_corners hal)
          constructor
          · rintro rfl
            rw [Option.some.inj (hq.symm.trans ha1)]
            exact faceOf_self h2.1
          · intro h
            have hperm : (corners t (m + 1) p).Perm (corners t (m + 1) a) :=
              (List.subperm_of_subset h1.2 (fun v hv => h.subset h2.1 v hv)).perm_of_length_le (by rw [h1.1, h2.1])
            have hpa : p = a := distinct_index (wf.get (k := m + 1) (by omega)).2.2.1 (WF.corners_get hpl)
              (WF.corners_get hal) hperm
            subst hpa
            obtain ⟨h3, h4⟩ := List.getElem?_eq_some_iff.1 hq
            obtain ⟨h5, h6⟩ := List.getElem?_eq_some_iff.1 ha1
            exact (List.Nodup.getElem_inj_iff (g.picks (m + 1) (by omega)).1).1 (h6.trans h4.symm)
        simp only [hiff, Nat.factorial_zero, Nat.cast_one]
        split <;> rfl)
    (by
      intro k hk c hcc r hr hV
      obtain ⟨a, ha1, ha2⟩ := cube_top_parent wf hc hok hr
      have hal := (hok.at_parent wf hc (by omega) (k := m + 1) (by omega) ha1).2.1
      exact cube_parents_closed wf hc hok hk (j := m + 1) (by omega) hcc (List.mem_of_getElem? ha1)
        ((hside hk hcc hal ha2).1 hV))
  rw [hnF, hnT] at l3 l4
  exact ⟨L, l1, l2, l3, l4⟩

end

end Verif
