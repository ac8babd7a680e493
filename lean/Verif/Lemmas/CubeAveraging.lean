/-
Chains of faces in cubical topologies: the accumulated topology matrices.
-/
import Verif.Lemmas.CubeFaces
import Verif.Spec.CubeAround

set_option linter.unusedSectionVars false

namespace Verif

open Verif.Model Verif.Spec

variable {n : Nat} {top : List (List Nat)} {t : Topo}

theorem faceOf_length {k : Nat} {l e x : List Nat} (hx : IsPoint x) (he : e.length = 2 ^ k)
    (h : (gridFace l x).Perm e) : x.count 1 = k := by
  have := h.length_eq
  rw [gridFace_length hx, he] at this
  exact Nat.pow_right_injective (le_refl 2) this

theorem faceOf_of_slice {K a : Nat} {l e : List Nat} (hl : l.length = 2 ^ (K + 1)) (hn : l.Nodup) (ha : a ≤ K) {s : Bool}
    (h : FaceOf K e (sliceAxis K a s l)) : FaceOf (K + 1) e l := by
  obtain ⟨x, x1, x2, x3⟩ := h
  refine ⟨x.insertIdx a (2 * s.toNat), ?_, ?_, (gridFace_slice s ha hl hn x2).symm.trans x3⟩
  · intro b hb
    rcases (List.mem_insertIdx (by omega)).1 hb with rfl | hb
    · cases s <;> simp
    · exact x1 b hb
  · rw [List.length_insertIdx, if_pos (by omega), x2]

/-- every face of a stored element is a face of a top cube -/
theorem faceOf_top (w : CWF n top t) (hn : 1 ≤ n) : ∀ {d K i : Nat} {e g : List Nat}, K + d = n → Stored t K i e → FaceOf K g e →
    ∃ j l, Stored t n j l ∧ FaceOf n g l := by
  intro d
  induction d with
  | zero =>
    intro K i e g hK he hg
    obtain rfl : K = n := by omega
    exact ⟨i, e, he, hg⟩
  | succ d ih =>
    intro K i e g hK he hg
    obtain ⟨i', e', h1, a, ha, s, σ, h2⟩ := w.parent (by omega) he
    have hc := w.cube hn (by omega) he
    have hc' := w.cube hn (by omega) h1
    exact ih (K := K + 1) (by omega) h1 (faceOf_of_slice hc'.1 hc'.2 ha ((faceOf_symmetric hc.1 hc.2 h2 g).2 hg))

theorem faceOf_self {K : Nat} {e : List Nat} (he : e.length = 2 ^ K) : FaceOf K e e :=
  ⟨List.replicate K 1, fun a ha => by rw [List.eq_of_mem_replicate ha]; omega, by simp, by rw [gridFace_middle he]⟩

theorem faceOf_slice {K : Nat} {l e : List Nat} (hl : l.length = 2 ^ (K + 1)) (hn : l.Nodup) (he : e.length ≠ 2 ^ (K + 1)) :
    FaceOf (K + 1) e l ↔ ∃ a ≤ K, ∃ s, FaceOf K e (sliceAxis K a s l) := by
  constructor
  · rintro ⟨x, x1, x2, x3⟩
    rcases x1.cases x2 with rfl | ⟨a, k, hk, ha, s, z, hz, hzp, rfl⟩
    · rw [gridFace_middle hl] at x3
      exact absurd (x3.length_eq.symm.trans hl) he
    · obtain rfl : K = k := by omega
      exact ⟨a, ha, s, z, hzp, hz, (gridFace_slice s ha hl hn hz).trans x3⟩
  · rintro ⟨a, ha, s, h⟩
    exact faceOf_of_slice hl hn ha h

theorem hasFace_iff {k : Nat} {e : List Nat} (he : e.length = 2 ^ k) : ∀ {d : Nat} {l : List Nat}, l.length = 2 ^ (k + d) →
    l.Nodup → (hasFace d k l e = true ↔ FaceOf (k + d) e l) := by
  intro d
  induction d with
  | zero =>
    intro l hl hn
    rw [hasFace, List.isPerm_iff]
    constructor
    · intro h
      exact ⟨List.replicate k 1, fun a ha => by rw [List.eq_of_mem_replicate ha]; omega, by simp,
        by rw [gridFace_middle (n := k) hl]; exact h⟩
    · rintro ⟨x, x1, x2, x3⟩
      rw [count_eq_length x2 (faceOf_length x1 he x3), Nat.add_zero, gridFace_middle (n := k) hl] at x3
      exact x3
  | succ d ih =>
    intro l hl hn
    have hne : e.length ≠ 2 ^ (k + d + 1) := by
      rw [he]
      intro h
      have := Nat.pow_right_injective (le_refl 2) h
      omega
    have hside : ∀ i ≤ k + d, ∀ s, (hasFace d k (side (k + d) i s l) e = true ↔ FaceOf (k + d) e (sliceAxis (k + d) i s l)) := by
      intro i hi s
      rw [side_eq hi]
      exact ih (sliceAxis_length _ _ _ _) (sliceAxis_nodup hi s hl hn)
    rw [show k + (d + 1) = k + d + 1 from rfl, faceOf_slice (K := k + d) hl hn hne, hasFace, List.any_eq_true]
    constructor
    · rintro ⟨i, hi, h⟩
      have hi : i ≤ k + d := by have := List.mem_range.1 hi; omega
      rcases (Bool.or_eq_true _ _).mp h with h | h
      · exact ⟨i, hi, false, (hside i hi false).1 h⟩
      · exact ⟨i, hi, true, (hside i hi true).1 h⟩
    · rintro ⟨i, hi, s, h⟩
      refine ⟨i, List.mem_range.2 (by omega), (Bool.or_eq_true _ _).mpr ?_⟩
      cases s
      · exact Or.inl ((hside i hi false).2 h)
      · exact Or.inr ((hside i hi true).2 h)

/-- a corner of a stored cube is the vertex with its number, and a face -/
theorem faceOf_vertex {K : Nat} {l : List Nat} (hl : l.length = 2 ^ K) {v : Nat} : FaceOf K [v] l ↔ v ∈ l := by
  constructor
  · intro h
    exact h.subset hl v (by simp)
  · intro hv
    obtain ⟨x, hx⟩ := List.mem_iff_getElem?.1 hv
    have hxl := (List.getElem?_eq_some_iff.1 hx).1
    rw [hl] at hxl
    obtain ⟨b, hb, rfl⟩ := exists_ravel hxl
    have hp : IsPoint (b.map fun s => 2 * s.toNat) := by
      intro a ha
      obtain ⟨s, -, rfl⟩ := List.mem_map.1 ha
      cases s <;> simp
    refine ⟨_, hp, by simpa using hb, ?_⟩
    have hcount : (b.map fun s => 2 * s.toNat).count 1 = 0 := by
      rw [List.count_eq_zero]
      intro h
      obtain ⟨s, -, h⟩ := List.mem_map.1 h
      cases s <;> simp at h
    have hlen := gridFace_length (l := l) hp
    rw [hcount, pow_zero] at hlen
    obtain ⟨w, hw⟩ := List.length_eq_one_iff.1 hlen
    have hvm : v ∈ gridFace l (b.map fun s => 2 * s.toNat) := by
      refine mem_gridFace.2 ⟨b, ?_, ?_⟩
      · clear hx hxl hb hp hcount hlen hw
        induction b with
        | nil => rfl
        | cons s b ih => simp [agrees, ih]
      · unfold cubeAt
        rw [hx]
        rfl
    rw [hw] at hvm ⊢
    rw [List.mem_singleton.1 hvm]

theorem sum_range_ite_card {N : Nat} (P : Nat → Prop) [DecidablePred P] :
    ((List.range N).map fun i => if P i then (1 : ℤ) else 0).sum = (((Finset.range N).filter P).card : ℤ) := by
  induction N with
  | zero => rfl
  | succ N ih =>
    rw [List.range_succ, List.map_append, List.sum_append, ih, Finset.range_add_one, Finset.filter_insert]
    by_cases h : P N
    · rw [if_pos h, Finset.card_insert_of_notMem (by simp)]
      simp [h]
    · simp [h]

namespace CWF

open Classical WF

theorem abs_shape (w : CWF n top t) {k : Nat} (hk : k < n) :
    (abs8 (t.matrix k)).rows = t.nElements k ∧ (abs8 (t.matrix k)).cols = t.nElements (k + 1) :=
  w.shape hk

theorem stored_corners {k i : Nat} (hi : i < t.nElements k) : Stored t k i (corners t k i) := corners_get hi

theorem corners_length (w : CWF n top t) {k i : Nat} (hk : k ≤ n) (hi : i < t.nElements k) (hn : 1 ≤ n := by omega) :
    (corners t k i).length = 2 ^ k := (w.cube hn hk (stored_corners hi)).1

theorem entryC (w : CWF n top t) {k i j : Nat} (hk : k < n) (hi : i < t.nElements k) (hj : j < t.nElements (k + 1)) :
    (abs8 (t.matrix k)).entry i j = if FaceOf (k + 1) (corners t k i) (corners t (k + 1) j) then 1 else 0 :=
  w.abs_entry (by omega) hk (stored_corners hi) (stored_corners hj)

theorem vertex_corner (w : CWF n top t) {v : Nat} (hn : 0 < n) (hv : v < t.nElements 0) : corners t 0 v = [v] := by
  have h : (t.elements[0]?.getD [])[v]? = some (corners t 0 v) := stored_corners (t := t) hv
  obtain ⟨E, h1, h2⟩ := w.vertices
  rw [h1, Option.getD_some] at h
  have hE : ∀ e ∈ E, e.length = 1 := by
    intro e he
    obtain ⟨i, hi⟩ := List.mem_iff_getElem?.1 he
    exact (w.cube hn (Nat.zero_le n) (i := i) (by unfold Stored; rw [h1]; exact hi)).1
  have hsing : ∀ (E : List (List Nat)) (s i : Nat) (e : List Nat), (∀ e ∈ E, e.length = 1) → E.flatten = List.range' s E.length →
      E[i]? = some e → e = [s + i] := by
    intro E
    induction E with
    | nil => intro s i e _ _ h; simp at h
    | cons a E ih =>
      intro s i e hl hr he
      obtain ⟨b, rfl⟩ := List.length_eq_one_iff.1 (hl a (by simp))
      rw [List.flatten_cons, List.length_cons, List.range'_succ, List.singleton_append, List.cons.injEq] at hr
      obtain _ | i := i
      · simp at he
        rw [← he, hr.1, Nat.add_zero]
      · rw [List.getElem?_cons_succ] at he
        rw [ih (s + 1) i e (fun e he => hl e (by simp [he])) hr.2 he]
        congr 1
        omega
  rw [hsing E 0 v _ hE (by rw [h2, List.range_eq_range']) h, Nat.zero_add]

/-- the faces of a cube at one of its corners -/
theorem faces_with (w : CWF n top t) {k j v : Nat} (hk : k + 1 < n) (hj : j < t.nElements (k + 2)) :
    ((List.range (t.nElements (k + 1))).map fun m => (if v ∈ corners t (k + 1) m then (1 : ℤ) else 0) *
      if FaceOf (k + 2) (corners t (k + 1) m) (corners t (k + 2) j) then 1 else 0).sum =
      if v ∈ corners t (k + 2) j then ((k + 2 : ℕ) : ℤ) else 0 := by
  have hl := w.corners_length (by omega) hj
  by_cases hv : v ∈ corners t (k + 2) j
  · rw [if_pos hv]
    obtain ⟨x, x1, x2, x3⟩ := (faceOf_vertex hl).2 hv
    have hx := faceOf_length (k := 0) x1 rfl x3
    have := count_faces w (by omega) (m := k + 1) (by omega) (by omega) (stored_corners hj) x1 x2 (by omega)
    rw [hx, Nat.sub_zero, Nat.sub_zero, Nat.choose_succ_self_right] at this
    rw [show ((k + 2 : ℕ) : ℤ) = ((k + 1 + 1 : ℕ) : ℤ) from rfl]
    refine Eq.trans ?_ (congrArg Nat.cast this)
    rw [← sum_range_ite_card]
    refine congrArg List.sum (List.map_congr_left fun m _ => ?_)
    have hiff : (∀ u ∈ gridFace (corners t (k + 2) j) x, u ∈ corners t (k + 1) m) ↔ v ∈ corners t (k + 1) m := by
      constructor
      · intro h
        exact h v (x3.mem_iff.2 (by simp))
      · intro h u hu
        rw [List.mem_singleton.1 (x3.mem_iff.1 hu)]
        exact h
    change _ = if FaceOf (k + 2) (corners t (k + 1) m) (corners t (k + 2) j) ∧
      (∀ u ∈ gridFace (corners t (k + 2) j) x, u ∈ corners t (k + 1) m) then (1 : ℤ) else 0
    simp only [hiff]
    by_cases h1 : v ∈ corners t (k + 1) m
    · simp [h1]
    · simp [h1]
  · rw [if_neg hv]
    apply List.sum_eq_zero
    intro z hz
    obtain ⟨m, hm, rfl⟩ := List.mem_map.mp hz
    by_cases hg : FaceOf (k + 2) (corners t (k + 1) m) (corners t (k + 2) j)
    · rw [if_neg fun h => hv (hg.subset hl v h), zero_mul]
    · rw [if_neg hg, mul_zero]

/-- the faces of a cube one dimension above one of its faces -/
theorem cofaces_in (w : CWF n top t) {k i j : Nat} (hk : k + 1 < n) (hi : i < t.nElements k) (hj : j < t.nElements n) :
    ((List.range (t.nElements (k + 1))).map fun f => (if FaceOf n (corners t (k + 1) f) (corners t n j) then (1 : ℤ) else 0) *
      if FaceOf (k + 1) (corners t k i) (corners t (k + 1) f) then 1 else 0).sum =
      if FaceOf n (corners t k i) (corners t n j) then ((n - k : ℕ) : ℤ) else 0 := by
  have key : ∀ f < t.nElements (k + 1), FaceOf n (corners t (k + 1) f) (corners t n j) →
      (FaceOf (k + 1) (corners t k i) (corners t (k + 1) f) ↔ FaceOf n (corners t k i) (corners t n j) ∧
        ∀ v ∈ corners t k i, v ∈ corners t (k + 1) f) := fun f hf h =>
    faceOf_face w (by omega) (le_refl n) hk (stored_corners hj) (stored_corners hf) h _
  by_cases hv : FaceOf n (corners t k i) (corners t n j)
  · rw [if_pos hv]
    obtain ⟨x, x1, x2, x3⟩ := id hv
    have hx := faceOf_length (k := k) x1 (w.corners_length (by omega) hi) x3
    have := count_faces w (by omega) (m := k + 1) (le_refl n) (by omega) (stored_corners hj) x1 x2 (by omega)
    rw [hx, Nat.add_sub_cancel_left, Nat.choose_one_right] at this
    rw [← this, ← sum_range_ite_card]
    refine congrArg List.sum (List.map_congr_left fun f hf => ?_)
    have hf := List.mem_range.1 hf
    have hiff : (∀ u ∈ gridFace (corners t n j) x, u ∈ corners t (k + 1) f) ↔
        ∀ u ∈ corners t k i, u ∈ corners t (k + 1) f :=
      ⟨fun h u hu => h u (x3.mem_iff.2 hu), fun h u hu => h u (x3.mem_iff.1 hu)⟩
    change _ = if FaceOf n (corners t (k + 1) f) (corners t n j) ∧
      (∀ u ∈ gridFace (corners t n j) x, u ∈ corners t (k + 1) f) then (1 : ℤ) else 0
    simp only [hiff]
    by_cases h1 : FaceOf n (corners t (k + 1) f) (corners t n j)
    · simp only [h1, key f hf h1, hv, true_and, if_true, one_mul]
    · simp [h1]
  · rw [if_neg hv]
    apply List.sum_eq_zero
    intro z hz
    obtain ⟨f, hf, rfl⟩ := List.mem_map.mp hz
    have hf := List.mem_range.1 hf
    by_cases hg : FaceOf n (corners t (k + 1) f) (corners t n j)
    · rw [if_neg (c := FaceOf (k + 1) (corners t k i) (corners t (k + 1) f)) fun h => hv ((key f hf hg).1 h).1, mul_zero]
    · rw [if_neg hg, zero_mul]

theorem chained_range (w : CWF n top t) : ∀ (m a : Nat), a + m ≤ n →
    Chained (t.nElements a) ((List.range' a m).map fun k => abs8 (t.matrix k)) := by
  intro m
  induction m with
  | zero => intro a _; trivial
  | succ m ih =>
    intro a h
    rw [List.range'_succ, List.map_cons]
    refine ⟨((w.abs_shape (k := a) (by omega)).1).symm, ?_⟩
    rw [(w.abs_shape (k := a) (by omega)).2]
    exact ih (a + 1) (by omega)

/-- the matrices of the topology, the first one apart -/
theorem matrices_cons (w : CWF n top t) (hn : 0 < n) : t.matrices.map abs8 =
    abs8 (t.matrix 0) :: (List.range' 1 (n - 1)).map fun k => abs8 (t.matrix k) := by
  unfold Topo.matrices
  rw [w.lenB, List.map_map, List.range_eq_range']
  obtain ⟨m, rfl⟩ : ∃ m, n = m + 1 := ⟨n - 1, by omega⟩
  rw [List.range'_succ, List.map_cons]
  rfl

/-- chains of faces from a vertex to an element -/
theorem partials0 (w : CWF n top t) (hn : 0 < n) : ∀ k < n,
    ∃ A, (partials (abs8 (t.matrix 0)) ((List.range' 1 (n - 1)).map fun k => abs8 (t.matrix k)))[k]? =
        some A ∧ A.rows = t.nElements 0 ∧ A.cols = t.nElements (k + 1) ∧
      ∀ v < t.nElements 0, ∀ j < t.nElements (k + 1),
        A.entry v j = wrap8 (if v ∈ corners t (k + 1) j then ((k + 1).factorial : ℤ) else 0) := by
  intro k
  induction k with
  | zero =>
    intro _
    refine ⟨_, partials_zero _ _, (w.abs_shape hn).1, (w.abs_shape hn).2, fun v hv j hj => ?_⟩
    rw [w.entryC hn hv hj, w.vertex_corner hn hv]
    simp only [faceOf_vertex (w.corners_length (by omega) hj), zero_add, Nat.factorial_one, Nat.cast_one]
    split <;> rfl
  | succ k ih =>
    intro hk
    obtain ⟨A, h1, h2, h3, h4⟩ := ih (by omega)
    have hm : ((List.range' 1 (n - 1)).map fun k => abs8 (t.matrix k))[k]? =
        some (abs8 (t.matrix (k + 1))) := by
      rw [List.getElem?_map, List.getElem?_range' (by omega), Option.map_some, one_mul, add_comm 1 k]
    refine ⟨_, partials_succ _ _ _ _ _ h1 hm, h2, (w.abs_shape hk).2, fun v hv j hj => ?_⟩
    show wrap8 ((List.range A.cols).map fun m => A.entry v m * (abs8 (t.matrix (k + 1))).entry m j).sum = _
    rw [h3]
    apply wrap8_eq
    have step : ((List.range (t.nElements (k + 1))).map fun m =>
        A.entry v m * (abs8 (t.matrix (k + 1))).entry m j).sum ≡
        ((List.range (t.nElements (k + 1))).map fun m => ((k + 1).factorial : ℤ) *
          ((if v ∈ corners t (k + 1) m then (1 : ℤ) else 0) *
          if FaceOf (k + 2) (corners t (k + 1) m) (corners t (k + 2) j) then 1 else 0)).sum [ZMOD 256] := by
      apply sum_modEq
      intro m hm
      have hm := List.mem_range.1 hm
      rw [h4 v hv m hm, w.entryC hk hm hj, ← mul_assoc]
      refine Int.ModEq.mul_right _ ((wrap8_modEq _).trans ?_)
      split
      · rw [mul_one]
      · rw [mul_zero]
    refine step.trans ?_
    rw [List.sum_map_mul_left, w.faces_with hk hj, Nat.factorial_succ (k + 1)]
    split
    · push_cast
      rw [mul_comm, show (k : ℤ) + 2 = k + 1 + 1 by ring]
    · rw [mul_zero]

theorem chained_down (w : CWF n top t) : ∀ (a : Nat), a ≤ n →
    Chained (t.nElements a) ((List.range a).reverse.map fun k => abs8 (t.matrix k).transpose) := by
  intro a
  induction a with
  | zero => intro _; trivial
  | succ a ih =>
    intro h
    rw [List.range_succ, List.reverse_append, List.reverse_singleton, List.singleton_append,
      List.map_cons]
    refine ⟨((w.shape (k := a) (by omega)).2).symm, ?_⟩
    show Chained (t.matrix a).rows _
    rw [(w.shape (k := a) (by omega)).1]
    exact ih (by omega)

theorem matrices_reverse (w : CWF n top t) {m : Nat} (hn : n = m + 1) :
    (t.matrices.reverse.map fun M => abs8 M.transpose) = abs8 (t.matrix m).transpose ::
      (List.range m).reverse.map fun k => abs8 (t.matrix k).transpose := by
  unfold Topo.matrices
  rw [w.lenB, hn, List.range_succ, List.map_append, List.reverse_append]
  simp [List.map_reverse]

/-- chains of faces from an element to a top element -/
theorem partialsN (w : CWF n top t) {m : Nat} (hn : n = m + 1) :
    ∀ p k, p + k = m →
    ∃ A, (partials (abs8 (t.matrix m).transpose)
        ((List.range m).reverse.map fun k => abs8 (t.matrix k).transpose))[p]? = some A ∧
      A.rows = t.nElements n ∧ A.cols = t.nElements k ∧
      ∀ j < t.nElements n, ∀ i < t.nElements k,
        A.entry j i = wrap8 (if FaceOf n (corners t k i) (corners t n j) then ((p + 1).factorial : ℤ) else 0) := by
  intro p
  induction p with
  | zero =>
    intro k hk
    obtain rfl : k = m := by omega
    subst hn
    refine ⟨_, partials_zero _ _, (w.shape (by omega)).2, (w.shape (by omega)).1, fun j hj i hi => ?_⟩
    show (abs8 (t.matrix k)).entry i j = _
    rw [w.entryC (by omega) hi hj]
    simp only [zero_add, Nat.factorial_one, Nat.cast_one]
    split <;> rfl
  | succ p ih =>
    intro k hk
    obtain ⟨A, h1, h2, h3, h4⟩ := ih (k + 1) (by omega)
    have hm : ((List.range m).reverse.map fun k => abs8 (t.matrix k).transpose)[p]? =
        some (abs8 (t.matrix k).transpose) := by
      rw [List.getElem?_map, List.getElem?_reverse (by simp; omega), List.length_range,
        List.getElem?_range (by omega), Option.map_some, show m - 1 - p = k by omega]
    refine ⟨_, partials_succ _ _ _ _ _ h1 hm, h2, (w.shape (by omega)).1, fun j hj i hi => ?_⟩
    show wrap8 ((List.range A.cols).map fun f => A.entry j f * (abs8 (t.matrix k)).entry i f).sum = _
    rw [h3]
    apply wrap8_eq
    have step : ((List.range (t.nElements (k + 1))).map fun f =>
        A.entry j f * (abs8 (t.matrix k)).entry i f).sum ≡
        ((List.range (t.nElements (k + 1))).map fun f => ((p + 1).factorial : ℤ) *
          ((if FaceOf n (corners t (k + 1) f) (corners t n j) then (1 : ℤ) else 0) *
          if FaceOf (k + 1) (corners t k i) (corners t (k + 1) f) then 1 else 0)).sum [ZMOD 256] := by
      apply sum_modEq
      intro f hf
      have hf := List.mem_range.1 hf
      rw [h4 j hj f hf, w.entryC (by omega) hi hf, ← mul_assoc]
      refine Int.ModEq.mul_right _ ((wrap8_modEq _).trans ?_)
      split
      · rw [mul_one]
      · rw [mul_zero]
    refine step.trans ?_
    rw [List.sum_map_mul_left, w.cofaces_in (by omega) hi hj, Nat.factorial_succ (p + 1)]
    split
    · have : ((n - k : ℕ) : ℤ) = ((p + 1 + 1 : ℕ) : ℤ) := by omega
      rw [this, mul_comm]
      push_cast
      rfl
    · rw [mul_zero]

/-- `accumulated_operators_0` -/
theorem accumulated0 (w : CWF n top t) (hn : 0 < n) :
    ∃ L, accumulatedOperators0 t.matrices = .ok L ∧ L.length = n + 1 ∧ ∀ k ≤ n, ∃ A, L[k]? = some A ∧
      A.rows = t.nElements 0 ∧ A.cols = t.nElements k ∧
      ∀ v < t.nElements 0, ∀ j < t.nElements k,
        A.entry v j = wrap8 (if v ∈ corners t k j then (k.factorial : ℤ) else 0) := by
  have hp := accumulateMul_ok (abs8 (t.matrix 0)) ((List.range' 1 (n - 1)).map fun k => abs8 (t.matrix k))
    (by rw [(w.abs_shape hn).2]; exact w.chained_range _ _ (by omega))
  have hpart := w.partials0 hn
  have h0 := partials_zero (abs8 (t.matrix 0)) ((List.range' 1 (n - 1)).map fun k => abs8 (t.matrix k))
  have hlen := partials_length ((List.range' 1 (n - 1)).map fun k => abs8 (t.matrix k)) (abs8 (t.matrix 0))
  unfold accumulatedOperators0
  rw [w.matrices_cons hn, hp]
  simp only [bind, Except.bind]
  generalize partials (abs8 (t.matrix 0)) ((List.range' 1 (n - 1)).map fun k => abs8 (t.matrix k)) = L
    at hpart h0 hlen
  cases L with
  | nil => simp at h0
  | cons a L =>
    refine ⟨_, rfl, by simp at hlen ⊢; omega, fun k hk => ?_⟩
    cases k with
    | zero =>
      simp at h0
      subst h0
      refine ⟨_, rfl, (w.abs_shape hn).1, (w.abs_shape hn).1, fun v hv j hj => ?_⟩
      rw [w.vertex_corner hn hj]
      simp only [identity8, List.mem_singleton, Nat.factorial_zero, Nat.cast_one]
      split <;> rfl
    | succ k =>
      obtain ⟨A, h⟩ := hpart k (by omega)
      exact ⟨A, by rw [List.getElem?_cons_succ]; exact h⟩

/-- `accumulated_operators_N`; the identity on the top level compares numbers, not corners -/
theorem accumulatedN (w : CWF n top t) (hn : 0 < n) :
    ∃ L, accumulatedOperatorsN t.matrices = .ok L ∧ L.length = n + 1 ∧
      (∃ A, L[n]? = some A ∧ A.rows = t.nElements n ∧ A.cols = t.nElements n ∧
        ∀ i j, A.entry i j = if i = j then 1 else 0) ∧
      ∀ k < n, ∃ A, L[k]? = some A ∧ A.rows = t.nElements n ∧ A.cols = t.nElements k ∧
      ∀ j < t.nElements n, ∀ i < t.nElements k,
        A.entry j i = wrap8 (if FaceOf n (corners t k i) (corners t n j) then ((n - k).factorial : ℤ) else 0) := by
  obtain ⟨m, hm⟩ : ∃ m, n = m + 1 := ⟨n - 1, by omega⟩
  have hp := accumulateMul_ok (abs8 (t.matrix m).transpose)
    ((List.range m).reverse.map fun k => abs8 (t.matrix k).transpose) (by
      show Chained (t.matrix m).rows _
      rw [(w.shape (by omega)).1]
      exact w.chained_down _ (by omega))
  have hpart := w.partialsN hm
  have h0 := partials_zero (abs8 (t.matrix m).transpose)
    ((List.range m).reverse.map fun k => abs8 (t.matrix k).transpose)
  have hlen := partials_length ((List.range m).reverse.map fun k => abs8 (t.matrix k).transpose)
    (abs8 (t.matrix m).transpose)
  unfold accumulatedOperatorsN
  rw [w.matrices_reverse hm, hp]
  simp only [bind, Except.bind]
  generalize partials (abs8 (t.matrix m).transpose)
    ((List.range m).reverse.map fun k => abs8 (t.matrix k).transpose) = L at hpart h0 hlen
  cases L with
  | nil => simp at h0
  | cons a L =>
    have hl : (identity8 a.rows :: a :: L).length = n + 1 := by simp at hlen ⊢; omega
    have hget : ∀ k ≤ n, (identity8 a.rows :: a :: L).reverse[k]? = (identity8 a.rows :: a :: L)[n - k]? := by
      intro k hk
      rw [List.getElem?_reverse (by omega), hl, show n + 1 - 1 - k = n - k by omega]
    refine ⟨_, rfl, by rw [List.length_reverse, hl], ⟨identity8 a.rows, ?_, ?_⟩, fun k hk => ?_⟩
    · rw [hget n (Nat.le_refl n), Nat.sub_self]; rfl
    · simp at h0
      subst h0
      have : (t.matrix m).cols = t.nElements n := by rw [hm]; exact (w.shape (by omega)).2
      exact ⟨this, this, fun i j => rfl⟩
    · obtain ⟨A, h⟩ := hpart (m - k) k (by omega)
      refine ⟨A, ?_⟩
      rw [hget k hk.le, show n - k = m - k + 1 by omega, List.getElem?_cons_succ]
      exact h

end CWF

end Verif
