/-
C48: cutting triangle meshes with a plane.
-/
import Verif.Lemmas.Clip
import Verif.Spec.Clip
import Verif.Props.Boundary
import Mathlib.Tactic.Linarith
import Mathlib.Tactic.Positivity
import Mathlib.Algebra.Order.Field.Rat

set_option linter.unusedSectionVars false

namespace Verif.Props

open Verif.Model Verif.Spec

section

variable {K : Type} [Field K] [LinearOrder K] [IsStrictOrderedRing K] {d : Nat}

theorem dot_height (s n v : Vec K d) : dot (v - s) n = height s n v := rfl

theorem side_iff (s n v : Vec K d) : side s n v = true ↔ 0 < height s n v :=
  decide_eq_true_iff

theorem side_false_iff (s n v : Vec K d) : side s n v = false ↔ height s n v ≤ 0 := by
  rw [← not_lt, ← side_iff, Bool.not_eq_true]

theorem height_diff (s n v w : Vec K d) : dot (w - v) n = height s n w - height s n v := by
  simp [dot, height, ← Finset.sum_sub_distrib]
  exact Finset.sum_congr rfl fun i _ => by ring

theorem height_mix (s n v w : Vec K d) (a b : K) (h : a + b = 1) :
    height s n (fun i => v i * a + w i * b) = height s n v * a + height s n w * b := by
  simp only [height, Finset.sum_mul, ← Finset.sum_add_distrib]
  refine Finset.sum_congr rfl fun i _ => ?_
  have : b = 1 - a := by linear_combination h
  rw [this]; ring

theorem insertAt_comm (s n v w : Vec K d) : insertAt s n v w = insertAt s n w v := by
  funext i
  simp only [insertAt]
  rw [height_diff s n w v, height_diff s n v w, show height s n w - height s n v =
    -(height s n v - height s n w) by ring, div_neg, div_neg, abs_neg, abs_neg]
  ring

/-- the vertex inserted between a point above the plane and one that is not -/
theorem insertAt_spec {s n v w : Vec K d} (hv : height s n v ≤ 0) (hw : 0 < height s n w) :
    ∃ r : K, 0 ≤ r ∧ r ≤ 1 ∧ insertAt s n v w = (fun i => v i * (1 - r) + w i * r) ∧
      height s n (insertAt s n v w) = 0 := by
  set a := height s n v with ha
  set b := height s n w with hb
  have hlen : 0 < b - a := by linarith
  have e1 : |b / (b - a)| = b / (b - a) := abs_of_nonneg (by positivity)
  have e2 : |a / (b - a)| = -a / (b - a) := by
    rw [abs_of_nonpos (div_nonpos_of_nonpos_of_nonneg hv hlen.le), neg_div]
  have hform : insertAt s n v w = fun i => v i * (1 - -a / (b - a)) + w i * (-a / (b - a)) := by
    funext i
    simp only [insertAt]
    rw [height_diff s n v w, dot_height, dot_height, ← ha, ← hb, e1, e2]
    have : b / (b - a) = 1 - -a / (b - a) := by field_simp; ring
    rw [this]
  refine ⟨-a / (b - a), div_nonneg (by linarith) hlen.le, ?_, hform, ?_⟩
  · rw [div_le_one hlen]; linarith
  · rw [hform, height_mix _ _ _ _ _ _ (by ring), ← ha, ← hb]
    field_simp
    ring

theorem insertAt_mixed {s n v w : Vec K d} (h : side s n v ≠ side s n w) :
    ∃ r : K, 0 ≤ r ∧ r ≤ 1 ∧ insertAt s n v w = (fun i => v i * (1 - r) + w i * r) ∧
      height s n (insertAt s n v w) = 0 := by
  cases hv : side s n v <;> cases hw : side s n w
  · rw [hv, hw] at h; exact absurd rfl h
  · exact insertAt_spec ((side_false_iff _ _ _).mp hv) ((side_iff _ _ _).mp hw)
  · obtain ⟨r, h1, h2, h3, h4⟩ := insertAt_spec ((side_false_iff _ _ _).mp hw) ((side_iff _ _ _).mp hv)
    rw [insertAt_comm]
    refine ⟨1 - r, by linarith, by linarith, ?_, h4⟩
    rw [h3]; funext i; ring
  · rw [hv, hw] at h; exact absurd rfl h

variable {t : Topo} {top : List (List Nat)} {V : List (Vec K d)} {s n : Vec K d}

theorem pos_append_left {W : List (Vec K d)} {i : Nat} (h : i < V.length) : pos (V ++ W) i = pos V i := by
  rw [pos, List.getElem?_append_left h]; rfl

/-- the position of the vertex between two corners on different sides -/
theorem pos_mid (wf : WF 2 top t) (hs : Simplices 3 top) (hV : V.length = t.nElements 0) {x y : Nat}
    (h : CutPair top (sideOf V s n) x y) :
    pos (V ++ inserted V t s n) (cutMid t (sideOf V s n) x y) = insertAt s n (pos V x) (pos V y) := by
  obtain ⟨e, hp, he⟩ := h.inserted wf hs (insertPair V s n)
  have hge := h.mid_ge wf hs
  rw [pos, List.getElem?_append_right (by omega), hV, inserted, he, Option.getD_some]
  have hl : e.length = 2 := hp.length_eq
  obtain ⟨a, b, rfl⟩ := length_two hl
  rcases perm_pair.mp hp with ⟨rfl, rfl⟩ | ⟨rfl, rfl⟩
  · rfl
  · rw [insertAt_comm]; rfl

theorem rot_mem {l : List Nat} {x y z : Nat} (h : l = [x, y, z] ∨ l = [z, x, y] ∨ l = [y, z, x]) :
    x ∈ l ∧ y ∈ l ∧ z ∈ l := by
  rcases h with rfl | rfl | rfl <;> simp

/-- what is known about the triangles that replace a cut one -/
theorem cut_geometry (wf : WF 2 top t) (hs : Simplices 3 top) (hV : V.length = t.nElements 0)
    {l : List Nat} (hl : l ∈ top) {x y z : Nat}
    (hrot : l = [x, y, z] ∨ l = [z, x, y] ∨ l = [y, z, x])
    (h1 : sideOf V s n x ≠ sideOf V s n y) (h2 : sideOf V s n z = sideOf V s n y) :
    ∃ r q : K, 0 ≤ r ∧ r ≤ 1 ∧ 0 ≤ q ∧ q ≤ 1 ∧
      pos (V ++ inserted V t s n) (cutMid t (sideOf V s n) x y) =
        (fun i => pos V x i * (1 - r) + pos V y i * r) ∧
      height s n (pos (V ++ inserted V t s n) (cutMid t (sideOf V s n) x y)) = 0 ∧
      pos (V ++ inserted V t s n) (cutMid t (sideOf V s n) z x) =
        (fun i => pos V x i * (1 - q) + pos V z i * q) ∧
      height s n (pos (V ++ inserted V t s n) (cutMid t (sideOf V s n) z x)) = 0 ∧
      pos (V ++ inserted V t s n) x = pos V x ∧ pos (V ++ inserted V t s n) y = pos V y ∧
      pos (V ++ inserted V t s n) z = pos V z := by
  obtain ⟨p1, p2⟩ := tip_pairs hl hrot h1 h2
  obtain ⟨hx, hy, hz⟩ := rot_mem hrot
  obtain ⟨r, r1, r2, r3, r4⟩ := insertAt_mixed (s := s) (n := n) p1.side
  obtain ⟨q, q1, q2, q3, q4⟩ := insertAt_mixed (s := s) (n := n) p2.symm.side
  have hlt : ∀ v ∈ l, v < V.length := fun v hv => by rw [hV]; exact wf.vertex_lt hs hl hv
  rw [pos_mid wf hs hV p1, pos_mid wf hs hV p2, insertAt_comm s n (pos V z)]
  exact ⟨r, q, r1, r2, q1, q2, r3, r4, q3, q4, pos_append_left (hlt x hx), pos_append_left (hlt y hy),
    pos_append_left (hlt z hz)⟩

/-- the heights of the corners of the replacements -/
theorem kids_one_side (wf : WF 2 top t) (hs : Simplices 3 top) (hV : V.length = t.nElements 0)
    {l : List Nat} (hl : l ∈ top) {r : List Nat} (hr : r ∈ cutKids t (sideOf V s n) l) :
    ((∀ v ∈ r, height s n (pos (V ++ inserted V t s n) v) ≤ 0) ∧
        sideOf V s n (r[0]?.getD 0) = false) ∨
      ((∀ v ∈ r, 0 ≤ height s n (pos (V ++ inserted V t s n) v)) ∧
        sideOf V s n (r[0]?.getD 0) = true ∧
        0 < height s n (pos (V ++ inserted V t s n) (r[0]?.getD 0)) ∧ r[0]?.getD 0 ∈ r) := by
  have hlt : ∀ v ∈ l, v < V.length := fun v hv => by rw [hV]; exact wf.vertex_lt hs hl hv
  rcases cutKids_cases t (sideOf V s n) (hs l hl).1 with ⟨-, h, hall⟩ | ⟨-, x, y, z, hrot, h1, h2, h⟩
  · rw [h] at hr
    obtain rfl := List.mem_singleton.mp hr
    obtain ⟨a, b, c, rfl⟩ := length_three (hs r hl).1
    cases ha : sideOf V s n a
    · refine Or.inl ⟨fun v hv => ?_, ha⟩
      rw [pos_append_left (hlt v hv)]
      exact (side_false_iff _ _ _).mp ((hall v hv a (by simp)).trans ha)
    · refine Or.inr ⟨fun v hv => ?_, ha, ?_, by simp⟩
      · rw [pos_append_left (hlt v hv)]
        exact ((side_iff _ _ _).mp ((hall v hv a (by simp)).trans ha)).le
      · show 0 < height s n (pos _ a)
        rw [pos_append_left (hlt a (by simp))]
        exact (side_iff _ _ _).mp ha
  · obtain ⟨-, -, -, -, -, -, -, g1, -, g2, ex, ey, ez⟩ := cut_geometry wf hs hV hl hrot h1 h2
    rw [h] at hr
    have key : ∀ v, pos (V ++ inserted V t s n) v = pos V v →
        (sideOf V s n v = false → height s n (pos (V ++ inserted V t s n) v) ≤ 0) ∧
        (sideOf V s n v = true → 0 < height s n (pos (V ++ inserted V t s n) v)) := fun v hv =>
      ⟨fun h => by rw [hv]; exact (side_false_iff _ _ _).mp h,
        fun h => by rw [hv]; exact (side_iff _ _ _).mp h⟩
    simp only [tipKids, List.mem_cons, List.not_mem_nil, or_false] at hr
    have kx := key x ex
    have ky := key y ey
    have kz := key z ez
    rcases hr with rfl | rfl | rfl
    · cases hx : sideOf V s n x
      · refine Or.inl ⟨fun v hv => ?_, hx⟩
        simp at hv
        rcases hv with rfl | rfl | rfl
        · exact kx.1 hx
        · exact g1.le
        · exact g2.le
      · refine Or.inr ⟨fun v hv => ?_, hx, kx.2 hx, by simp⟩
        simp at hv
        rcases hv with rfl | rfl | rfl
        · exact (kx.2 hx).le
        · exact g1.ge
        · exact g2.ge
    · cases hy : sideOf V s n y
      · refine Or.inl ⟨fun v hv => ?_, hy⟩
        simp at hv
        rcases hv with rfl | rfl | rfl
        · exact ky.1 hy
        · exact g2.le
        · exact g1.le
      · refine Or.inr ⟨fun v hv => ?_, hy, ky.2 hy, by simp⟩
        simp at hv
        rcases hv with rfl | rfl | rfl
        · exact (ky.2 hy).le
        · exact g2.ge
        · exact g1.ge
    · cases hy : sideOf V s n y
      · rw [hy] at h2
        refine Or.inl ⟨fun v hv => ?_, h2⟩
        simp at hv
        rcases hv with rfl | rfl | rfl
        · exact kz.1 h2
        · exact g2.le
        · exact ky.1 hy
      · rw [hy] at h2
        refine Or.inr ⟨fun v hv => ?_, h2, kz.2 h2, by simp⟩
        simp at hv
        rcases hv with rfl | rfl | rfl
        · exact (kz.2 h2).le
        · exact g2.ge
        · exact (ky.2 hy).le

/-! ### boundary of the replacements -/

theorem net_append (L M : List (Nat × Nat)) (a b : Nat) : net (L ++ M) a b = net L a b + net M a b := by
  simp [net]; ring

theorem net_swap (p q a b : Nat) : net [(p, q)] a b = - net [(q, p)] a b := by
  simp only [net, List.count_cons, List.count_nil, beq_iff_eq, Prod.mk.injEq]
  have e1 : (q = a ∧ p = b) ↔ (p = b ∧ q = a) := and_comm
  have e2 : (q = b ∧ p = a) ↔ (p = a ∧ q = b) := and_comm
  simp only [e1, e2]
  push_cast
  ring

theorem net_cons (e e' : Nat × Nat) (L : List (Nat × Nat)) (a b : Nat) :
    net (e :: e' :: L) a b = net [e] a b + net (e' :: L) a b := by
  rw [← net_append]; rfl

theorem net_nil (a b : Nat) : net [] a b = 0 := by simp [net]

theorem kids_net (t : Topo) (P : Nat → Bool) {l : List Nat} (hl : l.length = 3) (a b : Nat) :
    net (directedEdges (cutKids t P l)) a b = net (refinedEdges P (cutMid t P) l) a b := by
  rcases cutKids_cases t P hl with ⟨-, h, hall⟩ | ⟨-, x, y, z, hrot, h1, h2, h⟩
  · obtain ⟨x, y, z, rfl⟩ := triple hl
    rw [h]
    have e1 := hall x (by simp) y (by simp)
    have e2 := hall y (by simp) z (by simp)
    have e3 := hall z (by simp) x (by simp)
    simp only [directedEdges, refinedEdges, triangleEdges, List.flatMap_cons, List.flatMap_nil,
      if_pos e1, if_pos e2, if_pos e3, List.append_nil, List.cons_append, List.nil_append]
  · rw [h]
    have hzx : P z ≠ P x := by rw [h2]; exact h1.symm
    have lhs : net (directedEdges (tipKids t P x y z)) a b =
        net [(x, cutMid t P x y)] a b + net [(cutMid t P x y, y)] a b + net [(y, z)] a b +
          net [(z, cutMid t P z x)] a b + net [(cutMid t P z x, x)] a b := by
      simp only [directedEdges, tipKids, triangleEdges, List.flatMap_cons, List.flatMap_nil,
        List.append_nil, List.cons_append, List.nil_append]
      rw [net_cons, net_cons, net_cons, net_cons, net_cons, net_cons, net_cons, net_cons,
        net_swap (cutMid t P z x) (cutMid t P x y), net_swap (cutMid t P z x) y]
      ring
    rw [lhs]
    rcases hrot with rfl | rfl | rfl
    all_goals
      simp only [refinedEdges, triangleEdges, List.flatMap_cons, List.flatMap_nil, if_neg h1, if_neg hzx,
        if_pos h2.symm, List.append_nil, List.cons_append, List.nil_append]
      rw [net_cons, net_cons, net_cons, net_cons]
      ring

theorem net_flatMap {α : Type} (L : List α) (f : α → List (Nat × Nat)) (a b : Nat) :
    net (L.flatMap f) a b = (L.map fun x => net (f x) a b).sum := by
  induction L with
  | nil => simp [net_nil]
  | cons x L ih => rw [List.flatMap_cons, net_append, ih]; rfl

theorem net_perm {L M : List (Nat × Nat)} (h : L.Perm M) (a b : Nat) : net L a b = net M a b := by
  rw [net, net, h.count_eq, h.count_eq]

theorem closed_iff_net (T : List (List Nat)) :
    ClosedSurface T ↔ ∀ a b, net (directedEdges T) a b = 0 := by
  constructor
  · intro h a b; rw [net, h a b]; ring
  · intro h a b
    have := h a b
    rw [net] at this
    omega

/-- refining the edges of a closed surface leaves it closed -/
theorem refined_closed (P : Nat → Bool) (ins : Nat → Nat → Nat) (hins : ∀ a b, ins a b = ins b a)
    {T : List (List Nat)} (hT : Simplices 3 T) (hc : ClosedSurface T) (a b : Nat) :
    (T.map fun l => net (refinedEdges P ins l) a b).sum = 0 := by
  set f : Nat → Nat → ℤ := fun p q =>
    net (if P p = P q then [(p, q)] else [(p, ins p q), (ins p q, q)]) a b with hf
  have key := sum_closed (α := ℤ) (fun a h => by omega) f (fun p q => by
    simp only [hf]
    by_cases hpq : P p = P q
    · rw [if_pos hpq, if_pos hpq.symm, net_swap]
    · rw [if_neg hpq, if_neg (Ne.symm hpq), net_cons, net_cons, hins q p,
        net_swap q, net_swap (ins p q) p]
      ring) hT hc
  rw [← key]
  refine congrArg List.sum (List.map_congr_left fun l hl => ?_)
  obtain ⟨x, y, z, rfl⟩ := triple (hT l hl).1
  simp only [refinedEdges, triangleEdges, List.flatMap_cons, List.flatMap_nil, List.append_nil,
    net_append, onTriangle, hf]
  ring

/-! ### the split mesh -/

theorem WF.cut_mesh (wf : WF 2 top t) (hs : Simplices 3 top) (hV : V.length = t.nElements 0)
    (s n : Vec K d) : Mesh (V ++ inserted V t s n) (cutRows t (sideOf V s n) top) := by
  have hp := cutRows_perm t (sideOf V s n) top
  refine ⟨fun l hl => wf.cut_simplices hs l (hp.mem_iff.mp hl), fun l hl i hi => ?_⟩
  rw [List.length_append, hV, inserted, maskOf_length _ _ (by simp [cutEdges])]
  exact (wf.cut_used hs i).mp ⟨l, hp.mem_iff.mp hl, hi⟩

theorem split_ok {uniq : List (List Nat) → List (List Nat)} (hu : UniqSpec uniq) (wf : WF 2 top t)
    (hs : Simplices 3 top) (hV : V.length = t.nElements 0) (s n : Vec K d) :
    ∃ topo, fromSimplices uniq 3 (cutRows t (sideOf V s n) top) = .ok topo ∧
      clip uniq V t s n false = .ok (V ++ inserted V t s n, topo) := by
  have hp := cutRows_perm t (sideOf V s n) top
  obtain ⟨topo, h⟩ := (C03_accepts_iff (nCorners := 1) hu (WF.cut_mesh wf hs hV s n).simplices).mpr
    ⟨t.nElements 0 + (cutEdges t (sideOf V s n)).count true, fun v => by
      rw [← wf.cut_used hs v]
      exact ⟨fun ⟨l, hl, hv⟩ => ⟨l, hp.mem_iff.mp hl, hv⟩, fun ⟨l, hl, hv⟩ => ⟨l, hp.mem_iff.mpr hl, hv⟩⟩⟩
  refine ⟨topo, h, ?_⟩
  rw [clip, wf.cutMesh_ok hs hV]
  simp only [bind, Except.bind]
  rw [show fromSimplices uniq 3 (cutRows t (sideOf V s n) top) = .ok topo from h]
  rfl

variable {uniq : List (List Nat) → List (List Nat)} {T : List (List Nat)}

/-- C48: without removing a side, `clip` keeps the vertices and appends vertices that lie on the plane,
each on the segment between two corners of a triangle one of which is strictly above the plane and one
of which is not; no triangle of the result has corners strictly on both sides -/
theorem C48_split (hu : UniqSpec uniq) (hs : Simplices 3 T) (h : fromSimplices uniq 3 T = .ok t)
    (hV : V.length = t.nElements 0) (s n : Vec K d) :
    ∃ new topo T', clip uniq V t s n false = .ok (V ++ new, topo) ∧ topo.elements[2]? = some T' ∧
      Mesh (V ++ new) T' ∧ topo.nElements 0 = (V ++ new).length ∧
      (∀ v ∈ new, height s n v = 0 ∧ ∃ l ∈ T, ∃ a ∈ l, ∃ b ∈ l, height s n (pos V a) ≤ 0 ∧
        0 < height s n (pos V b) ∧ OnSegment (pos V a) (pos V b) v) ∧
      ∀ l ∈ T', (∀ v ∈ l, height s n (pos (V ++ new) v) ≤ 0) ∨
        ∀ v ∈ l, 0 ≤ height s n (pos (V ++ new) v) := by
  obtain ⟨k, hk, -, wf⟩ := wf_of_ok hu hs h
  obtain rfl : k = 2 := by omega
  obtain ⟨topo, hf, hc⟩ := split_ok hu wf hs hV s n
  have hm := WF.cut_mesh wf hs hV s n
  obtain ⟨k, hk, -, wf'⟩ := wf_of_ok hu hm.simplices hf
  obtain rfl : k = 2 := by omega
  have hp := cutRows_perm t (sideOf V s n) T
  refine ⟨_, _, _, hc, wf'.top_eq, hm, ?_, fun v hv => ?_, fun l hl => ?_⟩
  · rw [List.length_append, inserted, maskOf_length _ _ (by simp [cutEdges]), hV]
    exact WF.nVertices_eq wf' hm.simplices fun v => by
      rw [← wf.cut_used hs v]
      exact ⟨fun ⟨l, hl, hv⟩ => ⟨l, hp.mem_iff.mp hl, hv⟩, fun ⟨l, hl, hv⟩ => ⟨l, hp.mem_iff.mpr hl, hv⟩⟩
  · obtain ⟨r, hr, rfl⟩ := List.getElem_of_mem hv
    have hr' : r < (cutEdges t (sideOf V s n)).count true := by
      rwa [inserted, maskOf_length _ _ (by simp [cutEdges])] at hr
    obtain ⟨x, y, hxy, hmid⟩ := wf.cut_surj hr'
    have hpos := pos_mid wf hs hV hxy
    rw [hmid, pos, List.getElem?_append_right (by omega), hV, Nat.add_sub_cancel_left,
      List.getElem?_eq_getElem hr, Option.getD_some] at hpos
    rw [hpos]
    obtain ⟨⟨l, hl, hx, hy⟩, hside⟩ := hxy
    have key : ∀ a ∈ l, ∀ b ∈ l, sideOf V s n a = false → sideOf V s n b = true →
        height s n (insertAt s n (pos V a) (pos V b)) = 0 ∧ ∃ l ∈ T, ∃ a' ∈ l, ∃ b' ∈ l,
          height s n (pos V a') ≤ 0 ∧ 0 < height s n (pos V b') ∧
          OnSegment (pos V a') (pos V b') (insertAt s n (pos V a) (pos V b)) := by
      intro a ha b hb h1 h2
      obtain ⟨r, r1, r2, r3, r4⟩ := insertAt_spec ((side_false_iff _ _ _).mp h1)
        ((side_iff _ _ _).mp h2)
      refine ⟨r4, l, hl, a, ha, b, hb, (side_false_iff _ _ _).mp h1, (side_iff _ _ _).mp h2,
        r, r1, r2, fun i => ?_⟩
      rw [r3]; ring
    cases h1 : sideOf V s n x <;> cases h2 : sideOf V s n y
    · rw [h1, h2] at hside; exact absurd rfl hside
    · exact key x hx y hy h1 h2
    · rw [insertAt_comm]; exact key y hy x hx h2 h1
    · rw [h1, h2] at hside; exact absurd rfl hside
  · obtain ⟨l0, hl0, hr⟩ := List.mem_flatMap.mp (hp.mem_iff.mp hl)
    rcases kids_one_side wf hs hV hl0 hr with ⟨h1, -⟩ | ⟨h1, -⟩
    · exact Or.inl h1
    · exact Or.inr h1

/-- C48: the triangles of the split mesh come in groups, one for every triangle: the triangle itself if
its corners are all above the plane or all not above it, else three triangles the boundary of which is
that of the triangle with one vertex placed on every edge that crosses the plane, the same for both
directions of the edge -/
theorem C48_boundary (hu : UniqSpec uniq) (hs : Simplices 3 T) (h : fromSimplices uniq 3 T = .ok t)
    (hV : V.length = t.nElements 0) (s n : Vec K d) :
    ∃ W topo T' kids ins, clip uniq V t s n false = .ok (W, topo) ∧ topo.elements[2]? = some T' ∧
      T'.Perm (T.flatMap kids) ∧ (∀ a b, ins a b = ins b a) ∧
      ∀ l ∈ T, (((∀ v ∈ l, 0 < height s n (pos V v)) ∨ ∀ v ∈ l, height s n (pos V v) ≤ 0) →
          kids l = [l]) ∧
        ((∃ v ∈ l, 0 < height s n (pos V v)) → (∃ v ∈ l, height s n (pos V v) ≤ 0) →
          (kids l).length = 3 ∧ ∀ k ∈ kids l, k.length = 3) ∧
        ∀ a b, net (directedEdges (kids l)) a b =
          net (refinedEdges (fun v => decide (0 < height s n (pos V v))) ins l) a b := by
  obtain ⟨k, hk, -, wf⟩ := wf_of_ok hu hs h
  obtain rfl : k = 2 := by omega
  obtain ⟨topo, hf, hc⟩ := split_ok hu wf hs hV s n
  have hm := WF.cut_mesh wf hs hV s n
  obtain ⟨k, hk, -, wf'⟩ := wf_of_ok hu hm.simplices hf
  obtain rfl : k = 2 := by omega
  have hside : ∀ v, sideOf V s n v = decide (0 < height s n (pos V v)) := fun v => rfl
  refine ⟨_, _, _, cutKids t (sideOf V s n), cutMid t (sideOf V s n), hc, wf'.top_eq,
    cutRows_perm _ _ _, cutMid_comm _ _, fun l hl => ⟨fun hone => ?_, fun h1 h2 => ?_, fun a b => ?_⟩⟩
  · rcases cutKids_cases t (sideOf V s n) (hs l hl).1 with ⟨-, h, -⟩ | ⟨-, x, y, z, hrot, h1, h2, h⟩
    · exact h
    · exfalso
      obtain ⟨hx, hy, -⟩ := rot_mem hrot
      rw [hside, hside] at h1
      rcases hone with hone | hone
      · exact h1 (by simp [hone x hx, hone y hy])
      · exact h1 (by rw [decide_eq_false (not_lt.mpr (hone x hx)),
          decide_eq_false (not_lt.mpr (hone y hy))])
  · rcases cutKids_cases t (sideOf V s n) (hs l hl).1 with ⟨-, h, hall⟩ | ⟨-, x, y, z, hrot, -, -, h⟩
    · exfalso
      obtain ⟨v, hv, hv'⟩ := h1
      obtain ⟨w, hw, hw'⟩ := h2
      have := hall v hv w hw
      rw [hside, hside, decide_eq_true hv', decide_eq_false (not_lt.mpr hw')] at this
      exact absurd this (by simp)
    · rw [h]
      refine ⟨rfl, fun k hk => ?_⟩
      simp only [tipKids, List.mem_cons, List.not_mem_nil, or_false] at hk
      rcases hk with rfl | rfl | rfl <;> rfl
  · exact kids_net t (sideOf V s n) (hs l hl).1 a b

/-- C48: splitting a closed surface gives a closed surface -/
theorem C48_closed (hu : UniqSpec uniq) (hs : Simplices 3 T) (h : fromSimplices uniq 3 T = .ok t)
    (hV : V.length = t.nElements 0) (s n : Vec K d) (hc : ClosedSurface T) :
    ∃ W topo T', clip uniq V t s n false = .ok (W, topo) ∧ topo.elements[2]? = some T' ∧
      ClosedSurface T' := by
  obtain ⟨W, topo, T', kids, ins, h1, h2, h3, h4, h5⟩ := C48_boundary hu hs h hV s n
  refine ⟨W, topo, T', h1, h2, (closed_iff_net _).mpr fun a b => ?_⟩
  rw [directedEdges, net_perm (h3.flatMap_right triangleEdges), List.flatMap_assoc, net_flatMap]
  have e : T.map (fun l => net (List.flatMap triangleEdges (kids l)) a b) = _ :=
    List.map_congr_left fun l hl => (h5 l hl).2.2 a b
  rw [e]
  exact refined_closed _ ins h4 hs hc a b

/-! ### the clipped mesh -/

theorem picked_map {p : List Nat → Bool} (L : List (List Nat)) :
    picked ((L.map p).map fun b => if b then 1 else 0) L = L.filter p := by
  induction L with
  | nil => rfl
  | cons l L ih =>
    have hp : picked (((l :: L).map p).map fun b => if b then 1 else 0) (l :: L) =
        (if p l then [l] else []) ++ picked ((L.map p).map fun b => if b then 1 else 0) L := by
      cases h : p l <;> simp [picked, h]
    rw [hp, ih, List.filter_cons]
    cases p l <;> rfl

theorem cutKeep_eq (wf : WF 2 top t) (hs : Simplices 3 top) (hV : V.length = t.nElements 0)
    (s n : Vec K d) :
    cutKeep t (sideOf V s n) top = (cutRows t (sideOf V s n) top).map fun l =>
      decide (∀ v ∈ l, height s n (pos (V ++ inserted V t s n) v) ≤ 0) := by
  unfold cutKeep cutRows
  rw [List.map_append]
  congr 1
  · refine List.map_congr_left fun l hl => ?_
    obtain ⟨hl, hcut⟩ := List.mem_filter.mp hl
    have hlt : ∀ v ∈ l, v < V.length := fun v hv => by rw [hV]; exact wf.vertex_lt hs hl hv
    rw [triKeep, decide_eq_decide, List.count_eq_zero, List.mem_map]
    constructor
    · intro h v hv
      rw [pos_append_left (hlt v hv)]
      refine (side_false_iff _ _ _).mp ?_
      cases hv' : side s n (pos V v)
      · rfl
      · exact absurd ⟨v, hv, hv'⟩ h
    · rintro h ⟨v, hv, hv'⟩
      have := h v hv
      rw [pos_append_left (hlt v hv)] at this
      exact absurd ((side_iff _ _ _).mp hv') (not_lt.mpr this)
  · refine List.map_congr_left fun r hr => ?_
    obtain ⟨k, hk, hrk⟩ := List.mem_flatten.mp hr
    obtain ⟨l, hl, rfl⟩ := List.mem_map.mp hk
    obtain ⟨hl, -⟩ := List.mem_filter.mp hl
    have hlen := (wf.cut_simplices hs r (List.mem_flatMap.mpr ⟨l, hl, hrk⟩)).1
    obtain ⟨a, b, c, rfl⟩ := length_three hlen
    rcases kids_one_side wf hs hV hl hrk with ⟨h1, h2⟩ | ⟨-, h2, h3, h4⟩
    · rw [decide_eq_true h1]
      have h2 : sideOf V s n a = false := h2
      simp [h2]
    · have h2 : sideOf V s n a = true := h2
      rw [decide_eq_false]
      · simp [h2]
      · intro hall
        exact absurd h3 (not_lt.mpr (hall _ h4))

/-- C48: clipping keeps exactly those triangles of the split mesh that have no corner strictly above
the plane, in their order and with their positions, and the vertices they use; so no vertex of the
result is strictly above the plane -/
theorem C48_clip (hu : UniqSpec uniq) (hs : Simplices 3 T) (h : fromSimplices uniq 3 T = .ok t)
    (hV : V.length = t.nElements 0) (s n : Vec K d) :
    ∃ (W : List (Vec K d)) (topo : Topo) (T' : List (List Nat)) (P0 : List Nat) (topo' : Topo)
      (T'' : List (List Nat)), clip uniq V t s n false = .ok (W, topo) ∧ topo.elements[2]? = some T' ∧
      clip uniq V t s n true = .ok (P0.map (pos W), topo') ∧ topo'.elements[2]? = some T'' ∧
      T''.map (fun l => l.map fun v => P0[v]?.getD 0) =
        T'.filter (fun l => decide (∀ v ∈ l, height s n (pos W v) ≤ 0)) ∧
      (∀ l ∈ T'', ∀ v ∈ l, v < P0.length) ∧
      ∀ v ∈ P0.map (pos W), height s n v ≤ 0 := by
  obtain ⟨k, hk, -, wf⟩ := wf_of_ok hu hs h
  obtain rfl : k = 2 := by omega
  obtain ⟨topo, hf, hc⟩ := split_ok hu wf hs hV s n
  have hm := WF.cut_mesh wf hs hV s n
  obtain ⟨k, hk, -, wf'⟩ := wf_of_ok hu hm.simplices hf
  obtain rfl : k = 2 := by omega
  obtain ⟨sub, P0, new, g1, g2, g3, g4, -, g6, -⟩ := C10_select_subset hu hm.simplices hf
    ((cutKeep t (sideOf V s n) T).map fun b => if b then 1 else 0) (by
      rw [cutKeep_eq wf hs hV, List.length_map, List.length_map])
  rw [cutKeep_eq wf hs hV, picked_map] at g4
  have mem : ∀ i ∈ P0, ∃ l ∈ (cutRows t (sideOf V s n) T).filter (fun l =>
      decide (∀ v ∈ l, height s n (pos (V ++ inserted V t s n) v) ≤ 0)), i ∈ l := by
    intro i hi
    obtain ⟨j, hj, rfl⟩ := List.getElem_of_mem hi
    obtain ⟨r, hr, hjr⟩ := (g6 j).mpr hj
    refine ⟨r.map fun v => P0[v]?.getD 0, ?_, List.mem_map.mpr ⟨j, hjr, by simp [hj]⟩⟩
    rw [← g4]
    exact List.mem_map_of_mem hr
  refine ⟨_, _, _, P0, sub.topo, new, hc, wf'.top_eq, ?_, g3, g4, fun l hl v hv => (g6 v).mp ⟨l, hl, hv⟩,
    fun v hv => ?_⟩
  · have hV' : P0.mapM (vertexAt (V ++ inserted V t s n)) =
        .ok (P0.map (pos (V ++ inserted V t s n))) := by
      refine mapM_ok _ _ _ fun i hi => vertexAt_ok ?_
      obtain ⟨l, hl, hil⟩ := mem i hi
      exact hm.inRange l (List.mem_filter.mp hl).1 i hil
    rw [clip, wf.cutMesh_ok hs hV]
    simp only [bind, Except.bind]
    rw [show fromSimplices uniq 3 (cutRows t (sideOf V s n) T) = .ok topo from hf]
    simp only [if_true, selectComplex, bind, Except.bind]
    rw [g1]
    simp only [g2, Option.getD_some]
    rw [hV']
  · obtain ⟨i, hi, rfl⟩ := List.mem_map.mp hv
    obtain ⟨l, hl, hil⟩ := mem i hi
    exact of_decide_eq_true (List.mem_filter.mp hl).2 i hil

end

/-! ### normals and volume -/

section

variable {K : Type} [Field K] [LinearOrder K] [IsStrictOrderedRing K]
  {t : Topo} {T : List (List Nat)} {V : List (Vec K 3)} {uniq : List (List Nat) → List (List Nat)}

theorem det_rot {f : Nat → Nat → Nat → K} (hf : ∀ a b c, f a b c = f b c a) {l : List Nat}
    {x y z : Nat} (h : l = [x, y, z] ∨ l = [z, x, y] ∨ l = [y, z, x]) :
    onTriangle f l = f x y z := by
  rcases h with rfl | rfl | rfl
  · rfl
  · exact hf z x y
  · exact (hf x y z).symm

/-- C48: splitting does not change the volume of a mesh, closed or not -/
theorem C48_volume (hu : UniqSpec uniq) (hs : Simplices 3 T) (h : fromSimplices uniq 3 T = .ok t)
    (hV : V.length = t.nElements 0) (s n : Vec K 3) :
    ∃ W topo T' v, clip uniq V t s n false = .ok (W, topo) ∧ topo.elements[2]? = some T' ∧
      volume V T = .ok v ∧ volume W T' = .ok v := by
  obtain ⟨k, hk, -, wf⟩ := wf_of_ok hu hs h
  obtain rfl : k = 2 := by omega
  obtain ⟨topo, hf, hc⟩ := split_ok hu wf hs hV s n
  have hm := WF.cut_mesh wf hs hV s n
  obtain ⟨k, hk, -, wf'⟩ := wf_of_ok hu hm.simplices hf
  obtain rfl : k = 2 := by omega
  have hm0 : Mesh V T := ⟨hs, fun l hl i hi => by rw [hV]; exact wf.vertex_lt hs hl hi⟩
  refine ⟨_, _, _, _, hc, wf'.top_eq, volume_ok hm0, ?_⟩
  rw [volume_ok hm]
  congr 2
  set g := fun l => onTriangle (fun a b c => dot (pos (V ++ inserted V t s n) a)
    (cross (pos (V ++ inserted V t s n) b) (pos (V ++ inserted V t s n) c))) l with hg
  rw [((cutRows_perm t (sideOf V s n) T).map g).sum_eq, List.map_flatMap, List.flatMap_def, List.sum_flatten,
    List.map_map]
  refine congrArg List.sum (List.map_congr_left fun l hl => ?_)
  have hlt : ∀ v ∈ l, v < V.length := hm0.inRange l hl
  rcases cutKids_cases t (sideOf V s n) (hs l hl).1 with ⟨-, h, -⟩ | ⟨-, x, y, z, hrot, h1, h2, h⟩
  · obtain ⟨a, b, c, rfl⟩ := triple (hs l hl).1
    simp [h, hg, onTriangle, pos_append_left (hlt a (by simp)), pos_append_left (hlt b (by simp)),
      pos_append_left (hlt c (by simp))]
  · obtain ⟨r, q, -, -, -, -, g1, -, g2, -, ex, ey, ez⟩ := cut_geometry wf hs hV hl hrot h1 h2
    rw [Function.comp_apply, h, det_rot (fun a b c => by simp [dot, Fin.sum_univ_three, cross]; ring) hrot]
    simp only [tipKids, List.map_cons, List.map_nil, List.sum_cons, List.sum_nil, hg, onTriangle, g1, g2,
      ex, ey, ez]
    simp [dot, Fin.sum_univ_three, cross]
    ring

/-- C48: the normals of the triangles that replace a triangle are multiples of its normal, with
coefficients that are not negative and add up to one: the replacements lie in its plane, face the same
way and have its area together -/
theorem C48_normals (hu : UniqSpec uniq) (hs : Simplices 3 T) (h : fromSimplices uniq 3 T = .ok t)
    (hV : V.length = t.nElements 0) (s n : Vec K 3) :
    ∃ W topo T' kids, clip uniq V t s n false = .ok (W, topo) ∧ topo.elements[2]? = some T' ∧
      T'.Perm (T.flatMap kids) ∧ ∀ l ∈ T, ∃ (N : Vec K 3) (cs : List K), triangleNormals V [l] = .ok [N] ∧
        triangleNormals W (kids l) = .ok (cs.map fun c i => c * N i) ∧
        (∀ c ∈ cs, 0 ≤ c) ∧ cs.sum = 1 := by
  obtain ⟨k, hk, -, wf⟩ := wf_of_ok hu hs h
  obtain rfl : k = 2 := by omega
  obtain ⟨topo, hf, hc⟩ := split_ok hu wf hs hV s n
  have hm := WF.cut_mesh wf hs hV s n
  obtain ⟨k, hk, -, wf'⟩ := wf_of_ok hu hm.simplices hf
  obtain rfl : k = 2 := by omega
  have hm0 : Mesh V T := ⟨hs, fun l hl i hi => by rw [hV]; exact wf.vertex_lt hs hl hi⟩
  have hp := cutRows_perm t (sideOf V s n) T
  refine ⟨_, _, _, cutKids t (sideOf V s n), hc, wf'.top_eq, hp, fun l hl => ?_⟩
  have hlt : ∀ v ∈ l, v < V.length := hm0.inRange l hl
  have hml : Mesh V [l] := ⟨fun l' hl' => by rw [List.mem_singleton.mp hl']; exact hs l hl,
    fun l' hl' => by rw [List.mem_singleton.mp hl']; exact hm0.inRange l hl⟩
  have hmk : Mesh (V ++ inserted V t s n) (cutKids t (sideOf V s n) l) :=
    ⟨fun k hk => hm.simplices k (hp.mem_iff.mpr (List.mem_flatMap.mpr ⟨l, hl, hk⟩)),
      fun k hk => hm.inRange k (hp.mem_iff.mpr (List.mem_flatMap.mpr ⟨l, hl, hk⟩))⟩
  rw [normals_ok hmk, normals_ok hml]
  rcases cutKids_cases t (sideOf V s n) (hs l hl).1 with ⟨-, h, -⟩ | ⟨-, x, y, z, hrot, h1, h2, h⟩
  · obtain ⟨a, b, c, rfl⟩ := triple (hs l hl).1
    refine ⟨_, [1], rfl, ?_, by simp, by simp⟩
    simp [h, onTriangle, pos_append_left (hlt a (by simp)), pos_append_left (hlt b (by simp)),
      pos_append_left (hlt c (by simp))]
  · obtain ⟨r, q, r1, r2, q1, q2, g1, -, g2, -, ex, ey, ez⟩ := cut_geometry wf hs hV hl hrot h1 h2
    refine ⟨cross (pos V y - pos V x) (pos V z - pos V y), [r * q, q * (1 - r), 1 - q], ?_, ?_, ?_, ?_⟩
    · rw [List.map_singleton]
      congr 2
      rcases hrot with rfl | rfl | rfl <;> simp only [onTriangle] <;> rw [cross_edges, cross_edges] <;>
        abel
    · rw [h]
      simp only [tipKids, List.map_cons, List.map_nil, onTriangle, g1, g2, ex, ey, ez]
      congr 2
      · funext i; fin_cases i <;> simp [cross] <;> ring
      · congr 1
        · funext i; fin_cases i <;> simp [cross] <;> ring
        · congr 1
          funext i; fin_cases i <;> simp [cross] <;> ring
    · intro c hc
      simp only [List.mem_cons, List.not_mem_nil, or_false] at hc
      rcases hc with rfl | rfl | rfl
      · exact mul_nonneg r1 q1
      · exact mul_nonneg q1 (by linarith)
      · linarith
    · simp; ring

end

/-! ### a tetrahedron -/

/-- the hypotheses are met by a tetrahedron -/
example (s n : Vec ℚ 3) : ∃ W topo T', clip List.dedup tetraPositions (built 3 tetraSurface) s n false =
    .ok (W, topo) ∧ topo.elements[2]? = some T' ∧ ClosedSurface T' :=
  C48_closed uniqSpec_dedup tetra_mesh.simplices (by decide +kernel) (by decide +kernel) s n tetra_closed

/-- sizes of a result of `clip` and the heights of its vertices -/
def clipSizes (r : Except PyErr (List (Vec ℚ 3) × Topo)) (s n : Vec ℚ 3) :
    Option (List ℚ × Option (List (List Nat))) :=
  match r with
  | .ok (W, topo) => some (W.map (height s n), topo.elements[2]?)
  | .error _ => none

/-- three of its triangles cross the plane at half height and one vertex is above it; three vertices
are inserted, and the part that is not above the plane has the bottom and two triangles on each of the
three sides -/
example : clipSizes (clip List.dedup tetraPositions (built 3 tetraSurface) ![0, 0, 1 / 2] ![0, 0, 1] false)
      ![0, 0, 1 / 2] ![0, 0, 1] = some ([-1 / 2, -1 / 2, -1 / 2, 1 / 2, 0, 0, 0],
        some [[0, 2, 1], [3, 4, 6], [0, 6, 4], [1, 6, 0], [3, 5, 4], [2, 4, 5], [0, 4, 2], [3, 6, 5],
          [1, 5, 6], [2, 5, 1]]) ∧
    clipSizes (clip List.dedup tetraPositions (built 3 tetraSurface) ![0, 0, 1 / 2] ![0, 0, 1] true)
      ![0, 0, 1 / 2] ![0, 0, 1] = some ([-1 / 2, -1 / 2, -1 / 2, 0, 0, 0],
        some [[0, 2, 1], [0, 5, 3], [1, 5, 0], [2, 3, 4], [0, 3, 2], [1, 4, 5], [2, 4, 1]]) := by
  decide +kernel

/-- a plane that touches the bottom from above keeps the bottom and cuts the sides at the bottom -/
example : clipSizes (clip List.dedup tetraPositions (built 3 tetraSurface) 0 ![0, 0, 1] true)
      0 ![0, 0, 1] = some ([0, 0, 0, 0, 0, 0],
        some [[0, 2, 1], [0, 5, 3], [1, 5, 0], [2, 3, 4], [0, 3, 2], [1, 4, 5], [2, 4, 1]]) := by
  decide +kernel

/-- C48: if the complex has a position that no triangle uses, which the constructor allows, the claim
fails: the inserted vertices are numbered from the number of vertices of the topology but appended after
all positions, so the clipped mesh has a vertex strictly above the plane -/
theorem C48_spare_vertex :
    ∃ (V : List (Vec ℚ 2)) (t : Topo) (s n : Vec ℚ 2) (W : List (Vec ℚ 2)) (topo : Topo),
      fromSimplices List.dedup 3 [[0, 1, 2]] = .ok t ∧ t.nElements 0 + 1 = V.length ∧
      clip List.dedup V t s n true = .ok (W, topo) ∧ ∃ v ∈ W, 0 < height s n v := by
  have key : (match clip List.dedup [![0, 0], ![1, 0], ![0, 1], ![5, 5]] (built 3 [[0, 1, 2]])
      (![1 / 2, 0] : Vec ℚ 2) ![1, 0] true with
    | .ok (W, _) => W.any fun v => decide (0 < height (![1 / 2, 0] : Vec ℚ 2) ![1, 0] v)
    | .error _ => false) = true := by decide +kernel
  split at key
  · rename_i W topo h
    obtain ⟨v, hv, hpos⟩ := List.any_eq_true.mp key
    exact ⟨_, built 3 [[0, 1, 2]], _, _, W, topo, by decide +kernel, by decide +kernel, h, v, hv,
      of_decide_eq_true hpos⟩
  · exact absurd key (by simp)

end Verif.Props
