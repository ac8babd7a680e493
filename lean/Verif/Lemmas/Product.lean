/-
Products of cubes: faces and symmetries.
-/
import Verif.Spec.Product
import Verif.Model.Grid
import Verif.Props.Cubical

set_option linter.unusedSectionVars false

namespace Verif

open Verif.Model Verif.Spec Verif.Props

variable {nv n m : Nat}

/-! ### indices -/

theorem cubeIndices_add (n m : Nat) :
    cubeIndices (n + m) = (cubeIndices n).flatMap fun b => (cubeIndices m).map (b ++ ·) := by
  induction n with
  | zero => simp [cubeIndices]
  | succ n ih =>
    rw [Nat.succ_add, cubeIndices, ih]
    simp [cubeIndices, List.map_flatMap, List.flatMap_map, Function.comp_def]

theorem split_index {b : List Bool} (hb : b.length = n + m) :
    ∃ b1 b2 : List Bool, b1.length = n ∧ b2.length = m ∧ b = b1 ++ b2 :=
  ⟨b.take n, b.drop n, by simp [hb], by simp [hb], (List.take_append_drop n b).symm⟩

theorem cubeAt_pairCube {l g : List Nat} {b1 b2 : List Bool} (h1 : b1.length = n) (h2 : b2.length = m) :
    cubeAt (pairCube nv n m l g) (b1 ++ b2) = cubeAt l b1 + cubeAt g b2 * nv := by
  unfold pairCube
  rw [cubeAt_cubeOf _ (by simp [h1, h2])]
  subst h1
  simp

theorem pairCube_length (l g : List Nat) : (pairCube nv n m l g).length = 2 ^ (n + m) := cubeOf_length _ _

/-- comparing products corner by corner -/
theorem pairCube_ext {l g : List Nat} {r : List Nat} (hr : r.length = 2 ^ (n + m))
    (h : ∀ b1 b2 : List Bool, b1.length = n → b2.length = m → cubeAt r (b1 ++ b2) = cubeAt l b1 + cubeAt g b2 * nv) :
    r = pairCube nv n m l g := by
  refine cube_ext hr (pairCube_length _ _) fun b hb => ?_
  obtain ⟨b1, b2, h1, h2, rfl⟩ := split_index hb
  rw [h b1 b2 h1 h2, cubeAt_pairCube h1 h2]

theorem productCube_eq {l g : List Nat} (hl : l.length = 2 ^ n) (hg : g.length = 2 ^ m) :
    productCube nv l g = pairCube nv n m l g := by
  have e1 := cubeOf_self hl
  have e2 := cubeOf_self hg
  conv_lhs => rw [← e1, ← e2]
  unfold productCube pairCube cubeOf
  rw [cubeIndices_add, List.map_flatMap, List.flatMap_map]
  rw [List.flatMap_def, List.flatMap_def]
  congr 1
  refine List.map_congr_left fun b1 hb1 => ?_
  rw [List.map_map, List.map_map]
  refine List.map_congr_left fun b2 hb2 => ?_
  rw [mem_cubeIndices] at hb1
  subst hb1
  simp

theorem mem_pairCube {l g : List Nat} (hl : l.length = 2 ^ n) (hg : g.length = 2 ^ m) {v : Nat} :
    v ∈ pairCube nv n m l g ↔ ∃ x ∈ l, ∃ y ∈ g, v = x + y * nv := by
  rw [← productCube_eq hl hg]
  unfold productCube
  simp only [List.mem_flatMap, List.mem_map]
  constructor
  · rintro ⟨x, hx, y, hy, rfl⟩; exact ⟨x, hx, y, hy, rfl⟩
  · rintro ⟨x, hx, y, hy, rfl⟩; exact ⟨x, hx, y, hy, rfl⟩

theorem decode {x x' y y' : Nat} (hx : x < nv) (hx' : x' < nv) (h : x + y * nv = x' + y' * nv) : x = x' ∧ y = y' := by
  have h1 : (x + y * nv) % nv = x := by rw [Nat.add_mul_mod_self_right, Nat.mod_eq_of_lt hx]
  have h2 : (x' + y' * nv) % nv = x' := by rw [Nat.add_mul_mod_self_right, Nat.mod_eq_of_lt hx']
  have hxx : x = x' := by rw [← h1, ← h2, h]
  subst hxx
  exact ⟨rfl, Nat.eq_of_mul_eq_mul_right (by omega) (Nat.add_left_cancel h)⟩

theorem pairCube_nodup {l g : List Nat} (hl : l.length = 2 ^ n) (hg : g.length = 2 ^ m) (hln : l.Nodup) (hgn : g.Nodup)
    (hlt : ∀ x ∈ l, x < nv) : (pairCube nv n m l g).Nodup := by
  unfold pairCube cubeOf
  refine List.Nodup.map_on ?_ (cubeIndices_nodup _)
  intro b hb b' hb' he
  rw [mem_cubeIndices] at hb hb'
  obtain ⟨b1, b2, h1, h2, rfl⟩ := split_index hb
  obtain ⟨c1, c2, g1, g2, rfl⟩ := split_index hb'
  rw [show (b1 ++ b2).take n = b1 by simp [← h1], show (b1 ++ b2).drop n = b2 by simp [← h1],
    show (c1 ++ c2).take n = c1 by simp [← g1], show (c1 ++ c2).drop n = c2 by simp [← g1]] at he
  obtain ⟨e1, e2⟩ := decode (hlt _ (cubeAt_mem hl h1)) (hlt _ (cubeAt_mem hl g1)) he
  rw [cubeAt_inj hl hln h1 g1 e1, cubeAt_inj hg hgn h2 g2 e2]

/-- products with the same corners have factors with the same corners -/
theorem pairCube_perm {n' m' : Nat} {l g l' g' : List Nat} (hl : l.length = 2 ^ n) (hg : g.length = 2 ^ m)
    (hl' : l'.length = 2 ^ n') (hg' : g'.length = 2 ^ m') (hln : l.Nodup) (hgn : g.Nodup) (hln' : l'.Nodup)
    (hgn' : g'.Nodup) (hlt : ∀ x ∈ l, x < nv) (hlt' : ∀ x ∈ l', x < nv)
    (hp : (pairCube nv n m l g).Perm (pairCube nv n' m' l' g')) : l.Perm l' ∧ g.Perm g' := by
  have hne : ∀ {k : Nat} {l : List Nat}, l.length = 2 ^ k → ∃ x, x ∈ l := by
    intro k l h
    exact List.exists_mem_of_length_pos (by rw [h]; positivity)
  have key : ∀ x y, (x ∈ l ∧ y ∈ g) ↔ (x ∈ l' ∧ y ∈ g') := by
    intro x y
    constructor
    · rintro ⟨hx, hy⟩
      obtain ⟨x', hx', y', hy', h⟩ := (mem_pairCube hl' hg').1 (hp.mem_iff.1 ((mem_pairCube hl hg).2 ⟨x, hx, y, hy, rfl⟩))
      obtain ⟨rfl, rfl⟩ := decode (hlt x hx) (hlt' x' hx') h
      exact ⟨hx', hy'⟩
    · rintro ⟨hx, hy⟩
      obtain ⟨x', hx', y', hy', h⟩ := (mem_pairCube hl hg).1 (hp.mem_iff.2 ((mem_pairCube hl' hg').2 ⟨x, hx, y, hy, rfl⟩))
      obtain ⟨rfl, rfl⟩ := decode (hlt' x hx) (hlt x' hx') h
      exact ⟨hx', hy'⟩
  constructor
  · rw [List.perm_ext_iff_of_nodup hln hln']
    intro x
    obtain ⟨y, hy⟩ := hne hg
    obtain ⟨y', hy'⟩ := hne hg'
    exact ⟨fun hx => ((key x y).1 ⟨hx, hy⟩).1, fun hx => ((key x y').2 ⟨hx, hy'⟩).1⟩
  · rw [List.perm_ext_iff_of_nodup hgn hgn']
    intro y
    obtain ⟨x, hx⟩ := hne hl
    obtain ⟨x', hx'⟩ := hne hl'
    exact ⟨fun hy => ((key x y).1 ⟨hx, hy⟩).2, fun hy => ((key x' y).2 ⟨hx', hy⟩).2⟩

/-! ### flips and exchanges of axes -/

theorem modify_append_lt {f : Bool → Bool} : ∀ {i : Nat} {b1 b2 : List Bool}, i < b1.length →
    (b1 ++ b2).modify i f = b1.modify i f ++ b2
  | _, [], _, h => by simp at h
  | 0, a :: b1, b2, _ => by simp
  | i + 1, a :: b1, b2, h => by simp [modify_append_lt (b1 := b1) (b2 := b2) (by simpa using h)]

theorem modify_append_ge {f : Bool → Bool} : ∀ {i : Nat} {b1 b2 : List Bool},
    (b1 ++ b2).modify (b1.length + i) f = b1 ++ b2.modify i f
  | i, [], b2 => by simp
  | i, a :: b1, b2 => by
    rw [List.length_cons, show b1.length + 1 + i = (b1.length + i) + 1 by omega, List.cons_append,
      List.modify_succ_cons, modify_append_ge, List.cons_append]

theorem swapAt_append_lt : ∀ {i : Nat} {b1 b2 : List Bool}, i + 1 < b1.length →
    swapAt i (b1 ++ b2) = swapAt i b1 ++ b2
  | _, [], _, h => by simp at h
  | _, [a], _, h => by simp at h
  | 0, a :: c :: b1, b2, _ => by simp [swapAt]
  | i + 1, a :: c :: b1, b2, h => by
    have := swapAt_append_lt (i := i) (b1 := c :: b1) (b2 := b2) (by simpa using h)
    simp only [List.cons_append] at this ⊢
    simp [swapAt, this]

theorem swapAt_append_ge : ∀ {i : Nat} {b1 b2 : List Bool},
    swapAt (b1.length + i) (b1 ++ b2) = b1 ++ swapAt i b2
  | i, [], b2 => by simp
  | i, a :: b1, b2 => by
    rw [List.length_cons, show b1.length + 1 + i = (b1.length + i) + 1 by omega, List.cons_append]
    rw [show swapAt (b1.length + i + 1) (a :: (b1 ++ b2)) = a :: swapAt (b1.length + i) (b1 ++ b2) by
      cases b1 <;> cases b2 <;> simp [swapAt]]
    rw [swapAt_append_ge, List.cons_append]

theorem insertIdx_append_le {s : Bool} : ∀ {i : Nat} {b1 b2 : List Bool}, i ≤ b1.length →
    (b1 ++ b2).insertIdx i s = b1.insertIdx i s ++ b2
  | 0, [], _, _ => by simp
  | i + 1, [], _, h => by simp at h
  | 0, a :: b1, b2, _ => by simp
  | i + 1, a :: b1, b2, h => by simp [insertIdx_append_le (b1 := b1) (b2 := b2) (by simpa using h)]

theorem insertIdx_append_ge {s : Bool} : ∀ {i : Nat} {b1 b2 : List Bool},
    (b1 ++ b2).insertIdx (b1.length + i) s = b1 ++ b2.insertIdx i s
  | i, [], b2 => by simp
  | i, a :: b1, b2 => by
    rw [List.length_cons, show b1.length + 1 + i = (b1.length + i) + 1 by omega, List.cons_append,
      List.insertIdx_succ_cons, insertIdx_append_ge, List.cons_append]

theorem flipAxis_pair_left {i : Nat} (l g : List Nat) (hi : i < n) :
    flipAxis (n + m) i (pairCube nv n m l g) = pairCube nv n m (flipAxis n i l) g := by
  refine pairCube_ext (flipAxis_length _ _ _) fun b1 b2 h1 h2 => ?_
  unfold flipAxis
  rw [cubeAt_cubeOf _ (by simp [h1, h2]), cubeAt_cubeOf _ h1, modify_append_lt (by omega),
    cubeAt_pairCube (by simpa using h1) h2]

theorem flipAxis_pair_right {i : Nat} (l g : List Nat) :
    flipAxis (n + m) (n + i) (pairCube nv n m l g) = pairCube nv n m l (flipAxis m i g) := by
  refine pairCube_ext (flipAxis_length _ _ _) fun b1 b2 h1 h2 => ?_
  unfold flipAxis
  rw [cubeAt_cubeOf _ (by simp [h1, h2]), cubeAt_cubeOf _ h2, ← h1, modify_append_ge, h1,
    cubeAt_pairCube h1 (by simpa using h2)]

theorem swapAxes_pair_left {i : Nat} (l g : List Nat) (hi : i + 1 < n) :
    swapAxes (n + m) i (pairCube nv n m l g) = pairCube nv n m (swapAxes n i l) g := by
  refine pairCube_ext (swapAxes_length _ _ _) fun b1 b2 h1 h2 => ?_
  unfold swapAxes
  rw [cubeAt_cubeOf _ (by simp [h1, h2]), cubeAt_cubeOf _ h1, swapAt_append_lt (by omega),
    cubeAt_pairCube (by rw [swapAt_length]; exact h1) h2]

theorem swapAxes_pair_right {i : Nat} (l g : List Nat) :
    swapAxes (n + m) (n + i) (pairCube nv n m l g) = pairCube nv n m l (swapAxes m i g) := by
  refine pairCube_ext (swapAxes_length _ _ _) fun b1 b2 h1 h2 => ?_
  unfold swapAxes
  rw [cubeAt_cubeOf _ (by simp [h1, h2]), cubeAt_cubeOf _ h2, ← h1, swapAt_append_ge, h1,
    cubeAt_pairCube h1 (by rw [swapAt_length]; exact h2)]

theorem slice_pair_left {i : Nat} (s : Bool) (l g : List Nat) (hi : i ≤ n) :
    sliceAxis (n + m) i s (pairCube nv (n + 1) m l g) = pairCube nv n m (sliceAxis n i s l) g := by
  refine pairCube_ext (sliceAxis_length _ _ _ _) fun b1 b2 h1 h2 => ?_
  unfold sliceAxis
  rw [cubeAt_cubeOf _ (by simp [h1, h2]), cubeAt_cubeOf _ h1, insertIdx_append_le (by omega),
    cubeAt_pairCube (insertIdx_length s h1 hi) h2]

theorem slice_pair_right {i : Nat} (s : Bool) (l g : List Nat) (hi : i ≤ m) :
    sliceAxis (n + m) (n + i) s (pairCube nv n (m + 1) l g) = pairCube nv n m l (sliceAxis m i s g) := by
  refine pairCube_ext (sliceAxis_length _ _ _ _) fun b1 b2 h1 h2 => ?_
  unfold sliceAxis
  rw [cubeAt_cubeOf _ (by simp [h1, h2]), cubeAt_cubeOf _ h2, ← h1, insertIdx_append_ge, h1,
    cubeAt_pairCube h1 (insertIdx_length s h2 hi)]

/-! ### symmetries of products -/

theorem symmetric_pair_left {e l g : List Nat} {σ : ℤ} (he : e.length = 2 ^ n) (hn : e.Nodup)
    (h : SymmetricCube n e l σ) : SymmetricCube (n + m) (pairCube nv n m e g) (pairCube nv n m l g) σ := by
  have := symmetric_induction (n := n) (P := fun l => ∃ τ, SymmetricCube n e l τ ∧
    SymmetricCube (n + m) (pairCube nv n m e g) (pairCube nv n m l g) τ) ?_ ?_ he hn h
    ⟨1, SymmetricCube.refl he, SymmetricCube.refl (pairCube_length _ _)⟩
  · obtain ⟨τ, h1, h2⟩ := this
    rw [SymmetricCube.unique he hn h h1]
    exact h2
  · rintro i hi l - ⟨τ, h1, h2⟩
    refine ⟨-τ, h1.flip hi, ?_⟩
    rw [← flipAxis_pair_left l g hi]
    exact h2.flip (by omega)
  · rintro i hi l - ⟨τ, h1, h2⟩
    refine ⟨-τ, h1.swap hi, ?_⟩
    rw [← swapAxes_pair_left l g hi]
    exact h2.swap (by omega)

theorem symmetric_pair_right {l e g : List Nat} {σ : ℤ} (he : e.length = 2 ^ m) (hn : e.Nodup)
    (h : SymmetricCube m e g σ) : SymmetricCube (n + m) (pairCube nv n m l e) (pairCube nv n m l g) σ := by
  have := symmetric_induction (n := m) (P := fun g => ∃ τ, SymmetricCube m e g τ ∧
    SymmetricCube (n + m) (pairCube nv n m l e) (pairCube nv n m l g) τ) ?_ ?_ he hn h
    ⟨1, SymmetricCube.refl he, SymmetricCube.refl (pairCube_length _ _)⟩
  · obtain ⟨τ, h1, h2⟩ := this
    rw [SymmetricCube.unique he hn h h1]
    exact h2
  · rintro i hi g - ⟨τ, h1, h2⟩
    refine ⟨-τ, h1.flip hi, ?_⟩
    rw [← flipAxis_pair_right l g]
    exact h2.flip (by omega)
  · rintro i hi g - ⟨τ, h1, h2⟩
    refine ⟨-τ, h1.swap hi, ?_⟩
    rw [← swapAxes_pair_right l g]
    exact h2.swap (by omega)

theorem symmetric_pair {e l f g : List Nat} {σ τ : ℤ} (he : e.length = 2 ^ n) (hn : e.Nodup) (hf : f.length = 2 ^ m)
    (hfn : f.Nodup) (hlt : ∀ x ∈ e, x < nv) (h : SymmetricCube n e l σ) (h' : SymmetricCube m f g τ) :
    SymmetricCube (n + m) (pairCube nv n m e f) (pairCube nv n m l g) (σ * τ) :=
  (symmetric_pair_left he hn h).trans (pairCube_length _ _) (pairCube_nodup he hf hn hfn hlt) (symmetric_pair_right hf hfn h')

/-! ### faces of products -/

theorem face_pair : ∀ {d k : Nat} {n m : Nat} {l g f : List Nat}, n + m = k + d → IsCubeFace d k (pairCube nv n m l g) f →
    ∃ d1 k1 d2 k2 f1 f2, d = d1 + d2 ∧ k = k1 + k2 ∧ n = k1 + d1 ∧ m = k2 + d2 ∧ IsCubeFace d1 k1 l f1 ∧ IsCubeFace d2 k2 g f2 ∧
      f = pairCube nv k1 k2 f1 f2 := by
  intro d
  induction d with
  | zero =>
    intro k n m l g f h hf
    exact ⟨0, n, 0, m, l, g, rfl, by omega, rfl, rfl, rfl, rfl, hf⟩
  | succ d ih =>
    rintro k n m l g f h ⟨i, hi, s, hf⟩
    by_cases hin : i < n
    · obtain ⟨n, rfl⟩ : ∃ n', n = n' + 1 := ⟨n - 1, by omega⟩
      rw [side_eq hi, show k + d = n + m by omega, slice_pair_left s l g (by omega)] at hf
      obtain ⟨d1, k1, d2, k2, f1, f2, h1, h2, h3, h4, h5, h6, h7⟩ := ih (by omega) hf
      refine ⟨d1 + 1, k1, d2, k2, f1, f2, by omega, h2, by omega, h4, ⟨i, by omega, s, ?_⟩, h6, h7⟩
      rw [side_eq (by omega), ← h3]
      exact h5
    · obtain ⟨m, rfl⟩ : ∃ m', m = m' + 1 := ⟨m - 1, by omega⟩
      obtain ⟨i, rfl⟩ : ∃ i', i = n + i' := ⟨i - n, by omega⟩
      rw [side_eq hi, show k + d = n + m by omega, slice_pair_right s l g (by omega)] at hf
      obtain ⟨d1, k1, d2, k2, f1, f2, h1, h2, h3, h4, h5, h6, h7⟩ := ih (by omega) hf
      refine ⟨d1, k1, d2 + 1, k2, f1, f2, by omega, h2, h3, by omega, h5, ⟨i, by omega, s, ?_⟩, h7⟩
      rw [side_eq (by omega), ← h4]
      exact h6

theorem face_pair_left : ∀ {d k m : Nat} {l f g : List Nat}, IsCubeFace d k l f →
    IsCubeFace d (k + m) (pairCube nv (k + d) m l g) (pairCube nv k m f g) := by
  intro d
  induction d with
  | zero => rintro k m l f g rfl; rfl
  | succ d ih =>
    rintro k m l f g ⟨i, hi, s, hf⟩
    refine ⟨i, by omega, s, ?_⟩
    rw [side_eq (by omega), show k + m + d = k + d + m by omega, show k + (d + 1) = k + d + 1 by omega,
      slice_pair_left s l g hi, ← side_eq hi]
    exact ih hf

theorem face_pair_right : ∀ {d k n : Nat} {l f g : List Nat}, IsCubeFace d k g f →
    IsCubeFace d (n + k) (pairCube nv n (k + d) l g) (pairCube nv n k l f) := by
  intro d
  induction d with
  | zero => rintro k n l f g rfl; rfl
  | succ d ih =>
    rintro k n l f g ⟨i, hi, s, hf⟩
    refine ⟨n + i, by omega, s, ?_⟩
    rw [side_eq (by omega), show n + k + d = n + (k + d) by omega, show k + (d + 1) = k + d + 1 by omega,
      slice_pair_right s l g hi, ← side_eq hi]
    exact ih hf

theorem isCubeFace_trans : ∀ {d1 d2 k : Nat} {l g f : List Nat}, IsCubeFace d1 (k + d2) l g → IsCubeFace d2 k g f →
    IsCubeFace (d1 + d2) k l f := by
  intro d1
  induction d1 with
  | zero => rintro d2 k l g f rfl h; rwa [Nat.zero_add]
  | succ d1 ih =>
    rintro d2 k l g f ⟨i, hi, s, hf⟩ h
    rw [show d1 + 1 + d2 = (d1 + d2) + 1 by omega]
    refine ⟨i, by omega, s, ?_⟩
    rw [show k + (d1 + d2) = k + d2 + d1 by omega]
    exact ih hf h

theorem face_pair_both {d1 d2 k1 k2 : Nat} {l g f1 f2 : List Nat} (h1 : IsCubeFace d1 k1 l f1) (h2 : IsCubeFace d2 k2 g f2) :
    IsCubeFace (d1 + d2) (k1 + k2) (pairCube nv (k1 + d1) (k2 + d2) l g) (pairCube nv k1 k2 f1 f2) := by
  refine isCubeFace_trans (g := pairCube nv k1 (k2 + d2) f1 g) ?_ (face_pair_right h2)
  rw [show k1 + k2 + d2 = k1 + (k2 + d2) by omega]
  exact face_pair_left h1

end Verif
