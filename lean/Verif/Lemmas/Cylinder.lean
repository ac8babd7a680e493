/-
The line and the quadrilaterals of a cylinder.
-/
import Verif.Lemmas.PolygonOrient
import Verif.Props.Grid
import Verif.Spec.Circle

namespace Verif

open Verif.Model Verif.Spec Verif.Props

variable {uniq : List (List Nat) → List (List Nat)} {N n : Nat} {edges : List (List Nat)} {t : Topo} {c : Nat → Nat}
  {solve : List (List Int) → Option (List Int)}

/-! ### the line -/

theorem gridIndices_one (n : Nat) : gridIndices [n] = (List.range n).map fun i => [i] := by
  simp only [gridIndices, List.map_cons, List.map_nil]
  exact List.map_eq_flatMap.symm

theorem line_cubes (n : Nat) : gridCubes [n] = (List.range n).map fun i => [i, i + 1] := by
  rw [gridCubes_eq, gridIndices_one, List.map_map]
  apply List.map_congr_left
  intro i _
  simp [cellCorners, cubeOf, cubeIndices, num, strides, vshape, corner]

theorem line_get {i : Nat} (hi : i < n) : (gridCubes [n])[i]? = some [i, i + 1] := by
  rw [line_cubes]; simp [hi]

theorem line_mem {l : List Nat} : l ∈ gridCubes [n] ↔ ∃ i < n, l = [i, i + 1] := by
  rw [line_cubes]; simp [eq_comm]

theorem line_distinct (n : Nat) : DistinctElements (gridCubes [n]) := by
  rw [line_cubes, DistinctElements, List.pairwise_map]
  refine List.nodup_range.imp ?_
  intro a b hab hp
  have h1 := (hp.mem_iff (a := a)).1 (by simp)
  have h2 := (hp.mem_iff (a := a + 1)).1 (by simp)
  simp at h1 h2
  omega

theorem line_connected (n : Nat) : CubesConnected 0 (gridCubes [n]) := by
  have hlen : (gridCubes [n]).length = n := by rw [line_cubes]; simp
  have hstep : ∀ i, i + 1 < n → SharedSide 0 (gridCubes [n]) [i + 1] i (i + 1) ∧
      SharedSide 0 (gridCubes [n]) [i + 1] (i + 1) i := by
    intro i hi
    have key : ∀ j l, (gridCubes [n])[j]? = some l → (IsCubeSide 0 [i + 1] l ↔ j = i ∨ j = i + 1) := by
      intro j l hl
      have hj : j < n := hlen ▸ (List.getElem?_eq_some_iff.1 hl).1
      rw [line_get hj] at hl
      obtain rfl := Option.some.inj hl
      rw [isCubeSide_edge]
      omega
    exact ⟨⟨by omega, by omega, by omega, key⟩, by omega, by omega, by omega, fun j l hl => by rw [key j l hl]; omega⟩
  have hup : ∀ m i, i + m < n → Relation.ReflTransGen (fun a b => ∃ e, SharedSide 0 (gridCubes [n]) e a b) i (i + m) ∧
      Relation.ReflTransGen (fun a b => ∃ e, SharedSide 0 (gridCubes [n]) e a b) (i + m) i := by
    intro m
    induction m with
    | zero => intro i _; exact ⟨.refl, .refl⟩
    | succ m ih =>
      intro i hi
      obtain ⟨a, b⟩ := ih i (by omega)
      obtain ⟨c, d⟩ := hstep (i + m) (by omega)
      exact ⟨a.tail ⟨_, c⟩, .head ⟨_, d⟩ b⟩
  intro j1 h1 j2 h2
  rw [hlen] at h1 h2
  rcases Nat.le_total j1 j2 with h | h
  · have := (hup (j2 - j1) j1 (by omega)).1
    rwa [show j1 + (j2 - j1) = j2 by omega] at this
  · have := (hup (j1 - j2) j2 (by omega)).2
    rwa [show j2 + (j1 - j2) = j1 by omega] at this

/-- the positions of the centered line -/
theorem line_positions {i : Nat} (hi : i ≤ n) : (gridVertices (K := ℝ) [n] true)[i]? = some [(i : ℝ) - n / 2] := by
  have h0 : (gridVertices (K := ℝ) [n] false)[i]? = some [(i : ℝ)] := by
    simp [gridVertices, vshape, gridIndices_one, Nat.lt_succ_iff, hi]
  rw [C22_centering i _ h0]
  rfl

theorem line_vertices (n : Nat) : (gridVertices (K := ℝ) [n] true).length = n + 1 := by
  simp [gridVertices, vshape, gridIndices_one]

/-! ### the polygon -/

theorem Spec.ClosedPolygon.distinct (h : ClosedPolygon N edges c) (hN : 3 ≤ N) : DistinctElements edges := by
  unfold DistinctElements
  refine List.Pairwise.imp_of_mem ?_ h.nodup
  intro a b ha hb hab hp
  obtain ⟨k, -, rfl⟩ := h.exists_of_mem ha
  obtain ⟨l, -, rfl⟩ := h.exists_of_mem hb
  have h1 : c k = c l ∨ c k = c (l + 1) := by simpa using (hp.mem_iff (a := c k)).1 (by simp)
  have h2 : c (k + 1) = c l ∨ c (k + 1) = c (l + 1) := by simpa using (hp.mem_iff (a := c (k + 1))).1 (by simp)
  rcases h1 with h1 | h1
  · have : c (k + 1) = c (l + 1) := (h.period _ _).2 (((h.period _ _).1 h1).add_right 1)
    exact hab (by rw [h1, this])
  · rcases h2 with h2 | h2
    · have : c (k + 1) = c (l + 1 + 1) := (h.period _ _).2 (((h.period _ _).1 h1).add_right 1)
      exact h.ne_two hN l (h2.symm.trans this)
    · exact h.ne (by omega) k (h1.trans h2.symm)

/-! ### the quadrilaterals -/

theorem productCube_patch (nv i k : Nat) : productCube nv [i, i + 1] [c k, c (k + 1)] = patch nv c i k := by
  simp [productCube, patch, ring]

theorem mem_patches (h : ClosedPolygon N edges c) {q : List Nat} :
    q ∈ productCubes (n + 1) (gridCubes [n]) edges ↔ ∃ i < n, ∃ k < N, q = patch (n + 1) c i k := by
  unfold productCubes
  simp only [List.mem_flatMap, List.mem_map]
  constructor
  · rintro ⟨l, hl, g, hg, rfl⟩
    obtain ⟨i, hi, rfl⟩ := line_mem.1 hl
    obtain ⟨k, hk, rfl⟩ := h.exists_of_mem hg
    exact ⟨i, hi, k, hk, productCube_patch _ _ _⟩
  · rintro ⟨i, hi, k, hk, rfl⟩
    exact ⟨_, line_mem.2 ⟨i, hi, rfl⟩, _, h.mem k, productCube_patch _ _ _⟩

theorem code_inj {nv i i' v v' : Nat} (hi : i < nv) (hi' : i' < nv) (e : i + v * nv = i' + v' * nv) : i = i' ∧ v = v' := by
  have h1 := congrArg (· % nv) e
  have h2 := congrArg (· / nv) e
  simp only [Nat.add_mul_mod_self_right, Nat.mod_eq_of_lt hi, Nat.mod_eq_of_lt hi'] at h1
  refine ⟨h1, ?_⟩
  simp only [Nat.add_mul_div_right _ _ (by omega : 0 < nv), Nat.div_eq_of_lt hi, Nat.div_eq_of_lt hi', Nat.zero_add] at h2
  exact h2

theorem isCubeSide_patch {nv i k : Nat} {e : List Nat} : IsCubeSide 1 e (patch nv c i k) ↔
    e.Perm (ring nv c i k) ∨ e.Perm (ring nv c (i + 1) k) ∨ e.Perm (rod nv c i k) ∨ e.Perm (rod nv c i (k + 1)) := by
  have s1 : side 1 0 false (patch nv c i k) = ring nv c i k := rfl
  have s2 : side 1 0 true (patch nv c i k) = ring nv c (i + 1) k := rfl
  have s3 : side 1 1 false (patch nv c i k) = rod nv c i k := rfl
  have s4 : side 1 1 true (patch nv c i k) = rod nv c i (k + 1) := rfl
  constructor
  · rintro ⟨a, ha, s, hs⟩
    have : a = 0 ∨ a = 1 := by omega
    rcases this with rfl | rfl <;> cases s <;> simp only [s1, s2, s3, s4] at hs <;> simp [hs]
  · rintro (h | h | h | h)
    · exact ⟨0, by omega, false, s1 ▸ h⟩
    · exact ⟨0, by omega, true, s2 ▸ h⟩
    · exact ⟨1, by omega, false, s3 ▸ h⟩
    · exact ⟨1, by omega, true, s4 ▸ h⟩

namespace Spec.ClosedPolygon

theorem ring_inj (h : ClosedPolygon N edges c) (hN : 3 ≤ N) {i i' k k' : Nat} (hi : i ≤ n) (hi' : i' ≤ n)
    (hp : (ring (n + 1) c i k).Perm (ring (n + 1) c i' k')) : i = i' ∧ k ≡ k' [MOD N] := by
  have h1 := (hp.mem_iff (a := i + c k * (n + 1))).1 (by simp [ring])
  have h2 := (hp.mem_iff (a := i + c (k + 1) * (n + 1))).1 (by simp [ring])
  simp only [ring, List.mem_cons, List.not_mem_nil, or_false] at h1 h2
  rcases h1 with h1 | h1
  · obtain ⟨e, e'⟩ := code_inj (by omega) (by omega) h1
    exact ⟨e, (h.period _ _).1 e'⟩
  · obtain ⟨e, e1⟩ := code_inj (by omega) (by omega) h1
    refine ⟨e, ?_⟩
    rcases h2 with h2 | h2
    · obtain ⟨-, e2⟩ := code_inj (by omega) (by omega) h2
      have : c (k + 1) = c (k' + 1 + 1) := (h.period _ _).2 (((h.period _ _).1 e1).add_right 1)
      exact absurd (e2.symm.trans this) (h.ne_two hN k')
    · obtain ⟨-, e2⟩ := code_inj (by omega) (by omega) h2
      exact absurd (e1.trans e2.symm) (h.ne (by omega) k)

theorem rod_inj (h : ClosedPolygon N edges c) {i i' k k' : Nat} (hi : i < n) (hi' : i' < n)
    (hp : (rod (n + 1) c i k).Perm (rod (n + 1) c i' k')) : i = i' ∧ k ≡ k' [MOD N] := by
  have h1 := (hp.mem_iff (a := i + c k * (n + 1))).1 (by simp [rod])
  have h2 := (hp.mem_iff (a := i + 1 + c k * (n + 1))).1 (by simp [rod])
  simp only [rod, List.mem_cons, List.not_mem_nil, or_false] at h1 h2
  rcases h1 with h1 | h1
  · obtain ⟨e, e'⟩ := code_inj (by omega) (by omega) h1
    exact ⟨e, (h.period _ _).1 e'⟩
  · obtain ⟨e1, -⟩ := code_inj (by omega) (by omega) h1
    rcases h2 with h2 | h2
    · obtain ⟨e2, -⟩ := code_inj (by omega) (by omega) h2
      omega
    · obtain ⟨e2, -⟩ := code_inj (by omega) (by omega) h2
      omega

theorem ring_ne_rod (h : ClosedPolygon N edges c) (hN : 3 ≤ N) {i i' k k' : Nat} (hi : i ≤ n) (hi' : i' < n) :
    ¬ (ring (n + 1) c i k).Perm (rod (n + 1) c i' k') := by
  intro hp
  have h1 := (hp.mem_iff (a := i' + c k' * (n + 1))).2 (by simp [rod])
  have h2 := (hp.mem_iff (a := i' + 1 + c k' * (n + 1))).2 (by simp [rod])
  simp only [ring, List.mem_cons, List.not_mem_nil, or_false] at h1 h2
  have a : i' = i := by
    rcases h1 with h1 | h1 <;> exact (code_inj (by omega) (by omega) h1).1
  have b : i' + 1 = i := by
    rcases h2 with h2 | h2 <;> exact (code_inj (by omega) (by omega) h2).1
  omega

theorem patches_nodup (h : ClosedPolygon N edges c) : (productCubes (n + 1) (gridCubes [n]) edges).Nodup := by
  unfold productCubes
  rw [List.nodup_flatMap]
  constructor
  · intro l hl
    obtain ⟨i, hi, rfl⟩ := line_mem.1 hl
    rw [List.nodup_map_iff_inj_on h.nodup]
    intro x hx y hy e
    obtain ⟨k, hk, rfl⟩ := h.exists_of_mem hx
    obtain ⟨k', hk', rfl⟩ := h.exists_of_mem hy
    rw [productCube_patch, productCube_patch] at e
    have e1 : i + c k * (n + 1) = i + c k' * (n + 1) := (List.cons.inj e).1
    have := h.inj hk hk' (code_inj (by omega) (by omega) e1).2
    rw [this]
  · rw [line_cubes, List.pairwise_map]
    refine List.Pairwise.imp_of_mem ?_ List.nodup_range
    intro a b ha hb hab
    have ha := List.mem_range.1 ha
    have hb := List.mem_range.1 hb
    simp only [Function.onFun]
    intro q h1 h2
    obtain ⟨x, hx, rfl⟩ := List.mem_map.1 h1
    obtain ⟨y, hy, e⟩ := List.mem_map.1 h2
    obtain ⟨k, hk, rfl⟩ := h.exists_of_mem hx
    obtain ⟨k', hk', rfl⟩ := h.exists_of_mem hy
    rw [productCube_patch, productCube_patch] at e
    have e1 : b + c k' * (n + 1) = a + c k * (n + 1) := (List.cons.inj e).1
    exact hab (code_inj (by omega) (by omega) e1).1.symm

/-- the quadrilateral with a number -/
theorem patch_at (h : ClosedPolygon N edges c) {j : Nat} {l : List Nat}
    (hl : (productCubes (n + 1) (gridCubes [n]) edges)[j]? = some l) : ∃ i < n, ∃ k < N, l = patch (n + 1) c i k :=
  (mem_patches h).1 (List.mem_of_getElem? hl)

theorem patch_number (h : ClosedPolygon N edges c) {j j' : Nat} {l : List Nat}
    (hl : (productCubes (n + 1) (gridCubes [n]) edges)[j]? = some l)
    (hl' : (productCubes (n + 1) (gridCubes [n]) edges)[j']? = some l) : j = j' :=
  (List.getElem?_inj (List.getElem?_eq_some_iff.1 hl).1 h.patches_nodup).1 (hl.trans hl'.symm)

theorem modEq_eq {N k k' : Nat} (hk : k < N) (hk' : k' < N) (h : k ≡ k' [MOD N]) : k = k' :=
  Nat.ModEq.eq_of_lt_of_lt h hk hk'

/-- the quadrilaterals at a ring -/
theorem side_ring (h : ClosedPolygon N edges c) (hN : 3 ≤ N) {i i' k k' : Nat} (hi : i < n) (hi' : i' ≤ n) :
    IsCubeSide 1 (ring (n + 1) c i' k') (patch (n + 1) c i k) ↔ (i = i' ∨ i + 1 = i') ∧ k ≡ k' [MOD N] := by
  rw [isCubeSide_patch]
  constructor
  · rintro (hp | hp | hp | hp)
    · obtain ⟨e, e'⟩ := h.ring_inj hN (by omega) (by omega) hp
      exact ⟨Or.inl e.symm, e'.symm⟩
    · obtain ⟨e, e'⟩ := h.ring_inj hN (by omega) (by omega) hp
      exact ⟨Or.inr e.symm, e'.symm⟩
    · exact absurd hp (h.ring_ne_rod hN hi' hi)
    · exact absurd hp (h.ring_ne_rod hN hi' hi)
  · rintro ⟨hii, hkk⟩
    have e1 := (h.period _ _).2 hkk
    have e2 := (h.period _ _).2 (hkk.add_right 1)
    rcases hii with rfl | rfl
    · left; rw [ring, ring, e1, e2]
    · right; left; rw [ring, ring, e1, e2]

/-- the quadrilaterals at a rod -/
theorem side_rod (h : ClosedPolygon N edges c) (hN : 3 ≤ N) {i i' k k' : Nat} (hi : i < n) (hi' : i' < n) :
    IsCubeSide 1 (rod (n + 1) c i' k') (patch (n + 1) c i k) ↔ i = i' ∧ (k ≡ k' [MOD N] ∨ k + 1 ≡ k' [MOD N]) := by
  rw [isCubeSide_patch]
  constructor
  · rintro (hp | hp | hp | hp)
    · exact absurd hp.symm (h.ring_ne_rod hN (by omega) hi')
    · exact absurd hp.symm (h.ring_ne_rod hN (by omega) hi')
    · obtain ⟨e, e'⟩ := h.rod_inj (by omega) (by omega) hp
      exact ⟨e.symm, Or.inl e'.symm⟩
    · obtain ⟨e, e'⟩ := h.rod_inj (by omega) (by omega) hp
      exact ⟨e.symm, Or.inr e'.symm⟩
  · rintro ⟨rfl, hkk | hkk⟩
    · right; right; left; rw [rod, rod, (h.period _ _).2 hkk]
    · right; right; right; rw [rod, rod, (h.period _ _).2 hkk]

theorem side_kind {e : List Nat} {i k : Nat} (hi : i < n) (h : IsCubeSide 1 e (patch (n + 1) c i k)) :
    (∃ i' ≤ n, ∃ k', e.Perm (ring (n + 1) c i' k')) ∨ (∃ i' < n, ∃ k', e.Perm (rod (n + 1) c i' k')) := by
  rcases isCubeSide_patch.1 h with hp | hp | hp | hp
  · exact Or.inl ⟨i, by omega, k, hp⟩
  · exact Or.inl ⟨i + 1, by omega, k, hp⟩
  · exact Or.inr ⟨i, by omega, k, hp⟩
  · exact Or.inr ⟨i, by omega, k + 1, hp⟩

theorem sides_two (h : ClosedPolygon N edges c) (hN : 3 ≤ N) :
    SidesAtMostTwo 1 (productCubes (n + 1) (gridCubes [n]) edges) := by
  intro e j1 j2 j3 l1 l2 l3 h1 h2 h3 s1 s2 s3
  obtain ⟨i1, hi1, k1, hk1, rfl⟩ := h.patch_at h1
  obtain ⟨i2, hi2, k2, hk2, rfl⟩ := h.patch_at h2
  obtain ⟨i3, hi3, k3, hk3, rfl⟩ := h.patch_at h3
  rcases side_kind hi1 s1 with ⟨i, hi, k, hp⟩ | ⟨i, hi, k, hp⟩
  · obtain ⟨a1, b1⟩ := (h.side_ring hN hi1 hi).1 ((isSide_perm hp).1 s1)
    obtain ⟨a2, b2⟩ := (h.side_ring hN hi2 hi).1 ((isSide_perm hp).1 s2)
    obtain ⟨a3, b3⟩ := (h.side_ring hN hi3 hi).1 ((isSide_perm hp).1 s3)
    obtain rfl := modEq_eq hk1 hk2 (b1.trans b2.symm)
    obtain rfl := modEq_eq hk1 hk3 (b1.trans b3.symm)
    have : i1 = i2 ∨ i1 = i3 ∨ i2 = i3 := by omega
    rcases this with rfl | rfl | rfl
    · exact Or.inl (h.patch_number h1 h2)
    · exact Or.inr (Or.inl (h.patch_number h1 h3))
    · exact Or.inr (Or.inr (h.patch_number h2 h3))
  · obtain ⟨rfl, b1⟩ := (h.side_rod hN hi1 hi).1 ((isSide_perm hp).1 s1)
    obtain ⟨rfl, b2⟩ := (h.side_rod hN hi2 hi).1 ((isSide_perm hp).1 s2)
    obtain ⟨rfl, b3⟩ := (h.side_rod hN hi3 hi).1 ((isSide_perm hp).1 s3)
    have hcase : ∀ {x y : Nat}, x < N → y < N → (x ≡ k [MOD N] ∧ y ≡ k [MOD N]) ∨
        (x + 1 ≡ k [MOD N] ∧ y + 1 ≡ k [MOD N]) → x = y := by
      rintro x y hx hy (⟨p, q⟩ | ⟨p, q⟩)
      · exact modEq_eq hx hy (p.trans q.symm)
      · exact modEq_eq hx hy (Nat.ModEq.add_right_cancel' 1 (p.trans q.symm))
    have : k1 = k2 ∨ k1 = k3 ∨ k2 = k3 := by
      rcases b1 with b1 | b1 <;> rcases b2 with b2 | b2 <;> rcases b3 with b3 | b3
      · exact Or.inl (hcase hk1 hk2 (Or.inl ⟨b1, b2⟩))
      · exact Or.inl (hcase hk1 hk2 (Or.inl ⟨b1, b2⟩))
      · exact Or.inr (Or.inl (hcase hk1 hk3 (Or.inl ⟨b1, b3⟩)))
      · exact Or.inr (Or.inr (hcase hk2 hk3 (Or.inr ⟨b2, b3⟩)))
      · exact Or.inr (Or.inr (hcase hk2 hk3 (Or.inl ⟨b2, b3⟩)))
      · exact Or.inr (Or.inl (hcase hk1 hk3 (Or.inr ⟨b1, b3⟩)))
      · exact Or.inl (hcase hk1 hk2 (Or.inr ⟨b1, b2⟩))
      · exact Or.inl (hcase hk1 hk2 (Or.inr ⟨b1, b2⟩))
    rcases this with rfl | rfl | rfl
    · exact Or.inl (h.patch_number h1 h2)
    · exact Or.inr (Or.inl (h.patch_number h1 h3))
    · exact Or.inr (Or.inr (h.patch_number h2 h3))

theorem patch_mod (h : ClosedPolygon N edges c) {nv i k k' : Nat} (hk : k ≡ k' [MOD N]) : patch nv c i k = patch nv c i k' := by
  rw [patch, patch, ring, ring, ring, ring, (h.period _ _).2 hk, (h.period _ _).2 (hk.add_right 1)]

theorem patch_index (h : ClosedPolygon N edges c) {i : Nat} (hi : i < n) (k : Nat) :
    ∃ j : Nat, (productCubes (n + 1) (gridCubes [n]) edges)[j]? = some (patch (n + 1) c i k) := by
  refine List.mem_iff_getElem?.1 ((mem_patches h).2 ⟨i, hi, k % N, Nat.mod_lt _ h.pos, ?_⟩)
  exact h.patch_mod (Nat.mod_modEq k N).symm

theorem patch_inj (h : ClosedPolygon N edges c) {i i' k k' : Nat} (hi : i < n) (hi' : i' < n)
    (e : patch (n + 1) c i k = patch (n + 1) c i' k') : i = i' ∧ k ≡ k' [MOD N] := by
  have e1 : i + c k * (n + 1) = i' + c k' * (n + 1) := (List.cons.inj e).1
  obtain ⟨a, b⟩ := code_inj (by omega) (by omega) e1
  exact ⟨a, (h.period _ _).1 b⟩

/-- the boundary consists of the first and the last ring -/
theorem boundary_rings (h : ClosedPolygon N edges c) (hN : 3 ≤ N) (hn : 1 ≤ n) {e : List Nat} :
    BoundarySide 1 (productCubes (n + 1) (gridCubes [n]) edges) e ↔
      ∃ k < N, e.Perm (ring (n + 1) c 0 k) ∨ e.Perm (ring (n + 1) c n k) := by
  constructor
  · rintro ⟨j, l, hl, hs, hun⟩
    obtain ⟨i, hi, k, hk, rfl⟩ := h.patch_at hl
    rcases isCubeSide_patch.1 hs with hp | hp | hp | hp
    · by_cases h0 : i = 0
      · subst h0; exact ⟨k, hk, Or.inl hp⟩
      · exfalso
        obtain ⟨j', hj'⟩ := h.patch_index (i := i - 1) (n := n) (by omega) k
        have hs' := (isSide_perm hp).2 ((h.side_ring hN (i := i - 1) (k := k) (by omega) (i' := i) (by omega)).2
          ⟨Or.inr (by omega), rfl⟩)
        have := hun _ _ hj' hs'
        subst this
        have := (h.patch_inj hi (by omega) (Option.some.inj (hl.symm.trans hj'))).1
        omega
    · by_cases h0 : i + 1 = n
      · rw [h0] at hp; exact ⟨k, hk, Or.inr hp⟩
      · exfalso
        obtain ⟨j', hj'⟩ := h.patch_index (i := i + 1) (n := n) (by omega) k
        have hs' := (isSide_perm hp).2 ((h.side_ring hN (i := i + 1) (k := k) (by omega) (i' := i + 1) (by omega)).2
          ⟨Or.inl rfl, rfl⟩)
        have := hun _ _ hj' hs'
        subst this
        have := (h.patch_inj hi (by omega) (Option.some.inj (hl.symm.trans hj'))).1
        omega
    · exfalso
      obtain ⟨j', hj'⟩ := h.patch_index (i := i) (n := n) hi (k + N - 1)
      have hs' := (isSide_perm hp).2 ((h.side_rod hN (i := i) (k := k + N - 1) hi (i' := i) (k' := k) hi).2
        ⟨rfl, Or.inr (by rw [show k + N - 1 + 1 = k + N by omega]; simp [Nat.ModEq])⟩)
      have := hun _ _ hj' hs'
      subst this
      have := (h.patch_inj hi hi (Option.some.inj (hl.symm.trans hj'))).2
      have h1 : k + 1 ≡ k + 0 [MOD N] := by
        have := this.add_right 1
        rw [show k + N - 1 + 1 = k + N by omega] at this
        exact this.trans (by simp [Nat.ModEq])
      have := Nat.ModEq.eq_of_lt_of_lt (Nat.ModEq.add_left_cancel' k h1) (by omega) (by omega)
      omega
    · exfalso
      obtain ⟨j', hj'⟩ := h.patch_index (i := i) (n := n) hi (k + 1)
      have hs' := (isSide_perm hp).2 ((h.side_rod hN (i := i) (k := k + 1) hi (i' := i) (k' := k + 1) hi).2
        ⟨rfl, Or.inl rfl⟩)
      have := hun _ _ hj' hs'
      subst this
      have h1 : k + 0 ≡ k + 1 [MOD N] := (h.patch_inj hi hi (Option.some.inj (hl.symm.trans hj'))).2
      have := Nat.ModEq.eq_of_lt_of_lt (Nat.ModEq.add_left_cancel' k h1) (by omega) (by omega)
      omega
  · have key : ∀ i' ≤ n, ∀ i < n, (∀ x < n, (x = i' ∨ x + 1 = i') ↔ x = i) → ∀ k, e.Perm (ring (n + 1) c i' k) →
        BoundarySide 1 (productCubes (n + 1) (gridCubes [n]) edges) e := by
      intro i' hi' i hi hx k hp
      obtain ⟨j, hj⟩ := h.patch_index (n := n) hi k
      refine ⟨j, _, hj, (isSide_perm hp).2 ((h.side_ring hN hi hi').2 ⟨(hx i hi).2 rfl, rfl⟩), ?_⟩
      intro j' l' hl' hs'
      obtain ⟨x, hxn, k', hk', rfl⟩ := h.patch_at hl'
      obtain ⟨a, b⟩ := (h.side_ring hN hxn hi').1 ((isSide_perm hp).1 hs')
      rw [(hx x hxn).1 a, h.patch_mod b] at hl'
      exact h.patch_number hl' hj
    rintro ⟨k, hk, hp | hp⟩
    · exact key 0 (by omega) 0 (by omega) (fun x _ => by omega) k hp
    · exact key n (by omega) (n - 1) (by omega) (fun x _ => by omega) k hp

end Spec.ClosedPolygon

end Verif
