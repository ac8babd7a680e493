/-
The topology built from the fine cubes: its elements are the open cells of the stored elements.
-/
import Verif.Lemmas.CubeTables

set_option linter.unusedSectionVars false

namespace Verif

open Verif.Model Verif.Spec

/-! ### faces of cells -/

theorem cut_inCube : ∀ {B : Box} (i : Nat) (s : Bool), InCube B → InCube (cut B i s)
  | [], _, _, h => by simpa [cut] using h
  | (a, false) :: B, i, s, h => by
    obtain ⟨h1, h2⟩ := InCube.cons.1 h
    exact InCube.cons.2 ⟨h1, cut_inCube i s h2⟩
  | (a, true) :: B, 0, s, h => by
    obtain ⟨h1, h2⟩ := InCube.cons.1 h
    refine InCube.cons.2 ⟨?_, h2⟩
    have : s.toNat ≤ 1 := by cases s <;> simp
    simp at h1 ⊢
    omega
  | (a, true) :: B, i + 1, s, h => by
    obtain ⟨h1, h2⟩ := InCube.cons.1 h
    exact InCube.cons.2 ⟨h1, cut_inCube i s h2⟩

theorem face_cell {W : List Nat → Nat} {l : List Nat} : ∀ {d k : Nat} {B : Box} {f : List Nat}, InCube B → free B = k + d →
    IsCubeFace d k (cell W l B) f → ∃ B', B'.length = B.length ∧ InCube B' ∧ free B' = k ∧ f = cell W l B'
  | 0, k, B, f, hB, hk, h => ⟨B, rfl, hB, hk, h⟩
  | d + 1, k, B, f, hB, hk, ⟨i, hi, s, h⟩ => by
    rw [cell_side s (show free B = (k + d) + 1 by omega) hi] at h
    have hf := cut_free B i s (by omega)
    obtain ⟨B', h1, h2, h3, h4⟩ := face_cell (cut_inCube i s hB) (by omega) h
    exact ⟨B', by rw [h1, cut_length], h2, h3, h4⟩

theorem exists_boxCut : ∀ {C : Box}, InCube C → free C < C.length →
    ∃ D i s, D.length = C.length ∧ InCube D ∧ i < free D ∧ C = cut D i s
  | [], _, h => by simp at h
  | (a, false) :: C, hC, _ => by
    obtain ⟨h1, h2⟩ := InCube.cons.1 hC
    simp at h1
    rcases Nat.eq_zero_or_pos a with rfl | ha
    · exact ⟨(0, true) :: C, 0, false, rfl, InCube.cons.2 ⟨by simp, h2⟩, by simp [free], by simp [cut]⟩
    · refine ⟨(a - 1, true) :: C, 0, true, rfl, InCube.cons.2 ⟨by simp; omega, h2⟩, by simp [free], ?_⟩
      simp [cut]
      omega
  | (a, true) :: C, hC, h => by
    obtain ⟨h1, h2⟩ := InCube.cons.1 hC
    obtain ⟨D, i, s, g1, g2, g3, g4⟩ := exists_boxCut h2 (by simpa [free] using h)
    exact ⟨(a, true) :: D, i + 1, s, by simp [g1], InCube.cons.2 ⟨h1, g2⟩, by simpa [free] using g3, by simp [cut, ← g4]⟩

theorem cellBox_of_free : ∀ {C : Box}, InCube C → free C = C.length →
    ∃ p : List Bool, p.length = C.length ∧ C = cellBox (p.map Bool.toNat)
  | [], _, _ => ⟨[], rfl, rfl⟩
  | (a, false) :: C, _, h => by
    have := free_le C
    simp [free] at h
    omega
  | (a, true) :: C, hC, h => by
    obtain ⟨h1, h2⟩ := InCube.cons.1 hC
    obtain ⟨p, g1, g2⟩ := cellBox_of_free h2 (by simpa [free] using h)
    refine ⟨(a == 1) :: p, by simp [g1], ?_⟩
    simp at h1
    simp only [List.map_cons, cellBox]
    rw [g2, cellBox]
    congr 1
    interval_cases a <;> rfl

/-- every cell is a face of a fine cube -/
theorem exists_face {W : List Nat → Nat} {l : List Nat} {n : Nat} : ∀ {d k : Nat} {C : Box}, C.length = n → InCube C →
    free C = k → k + d = n → ∃ p : List Bool, p.length = n ∧
      IsCubeFace d k (cell W l (cellBox (p.map Bool.toNat))) (cell W l C)
  | 0, k, C, hl, hC, hk, hd => by
    obtain ⟨p, h1, h2⟩ := cellBox_of_free hC (by omega)
    exact ⟨p, by omega, by rw [h2]; rfl⟩
  | d + 1, k, C, hl, hC, hk, hd => by
    obtain ⟨D, i, s, h1, h2, h3, h4⟩ := exists_boxCut hC (by omega)
    have hf := cut_free D i s h3
    rw [← h4] at hf
    obtain ⟨p, g1, g2⟩ := exists_face (W := W) (l := l) (d := d) (k := k + 1) (C := D) (by omega) h2 (by omega) (by omega)
    refine ⟨p, by omega, (Props.isCubeFace_succ d k _ _).2 ⟨_, g2, i, by omega, s, ?_⟩⟩
    rw [cell_side s (by omega) (by omega), ← h4]

theorem inCube_cellBox (p : List Bool) : InCube (cellBox (p.map Bool.toNat)) := by
  intro q hq
  unfold cellBox at hq
  rw [List.map_map] at hq
  obtain ⟨s, -, rfl⟩ := List.mem_map.1 hq
  cases s <;> simp

theorem openBox_cellBox (c : List Nat) : OpenBox (cellBox c) := by
  intro q hq
  obtain ⟨s, -, rfl⟩ := List.mem_map.1 hq
  exact Or.inl rfl

theorem cellBox_length (c : List Nat) : (cellBox c).length = c.length := by simp [cellBox]

theorem exists_corner : ∀ {x : List Nat}, IsPoint x → ∃ p b : List Bool, p.length = x.length ∧ b.length = x.length ∧
    corner (p.map Bool.toNat) b = x
  | [], _ => ⟨[], [], rfl, rfl, rfl⟩
  | a :: x, h => by
    obtain ⟨h1, h2⟩ := IsPoint.cons.1 h
    obtain ⟨p, b, g1, g2, g3⟩ := exists_corner h2
    refine ⟨(a == 2) :: p, (a != 0) :: b, by simp [g1], by simp [g2], ?_⟩
    unfold corner at g3 ⊢
    simp only [List.map_cons, List.zipWith_cons_cons, g3]
    congr 1
    interval_cases a <;> rfl

theorem offs_decode (N : Nat → Nat) : ∀ {m v : Nat}, v < offs N m → ∃ k < m, ∃ i < N k, v = offs N k + i
  | 0, v, h => by simp [offs] at h
  | m + 1, v, h => by
    rw [offs_succ] at h
    rcases Nat.lt_or_ge v (offs N m) with hlt | hge
    · obtain ⟨k, hk, i, hi, rfl⟩ := offs_decode N hlt
      exact ⟨k, by omega, i, hi, rfl⟩
    · exact ⟨m, by omega, v - offs N m, by omega, by omega⟩

theorem distinctElements_of {E : List (List Nat)}
    (h : ∀ (i j : Nat) (e f : List Nat), E[i]? = some e → E[j]? = some f → e.Perm f → i = j) : DistinctElements E := by
  unfold DistinctElements
  rw [List.pairwise_iff_getElem]
  intro i j hi hj hij hp
  have := h i j _ _ (List.getElem?_eq_getElem hi) (List.getElem?_eq_getElem hj) hp
  omega

/-! ### the fine cubes -/

section

variable {n : Nat} {top : List (List Nat)} {t : Topo}

/-- all fine cubes -/
def allFine (t : Topo) (n : Nat) (top : List (List Nat)) : List (List Nat) :=
  (top.zipIdx.map fun lj => fineCubes t n lj.2 lj.1).flatten

theorem fineCubes_length (t : Topo) (n j : Nat) (l : List Nat) : (fineCubes t n j l).length = 2 ^ n := by
  simp [fineCubes, cubeIndices_length]

theorem stored_top (w : CWF n top t) {j : Nat} {l : List Nat} : Stored t n j l ↔ top[j]? = some l := by
  unfold Stored
  rw [w.top_eq, Option.getD_some]

theorem allFine_length (t : Topo) (n : Nat) (top : List (List Nat)) : (allFine t n top).length = top.length * 2 ^ n := by
  unfold allFine
  rw [List.length_flatten, List.map_map,
    List.map_congr_left (g := fun _ => 2 ^ n) (fun lj _ => fineCubes_length t n lj.2 lj.1)]
  simp

/-- the fine cube at the corner `p` of cube `j` -/
theorem allFine_get {j : Nat} {l : List Nat} (hl : top[j]? = some l) {p : List Bool} (hp : p.length = n) :
    (allFine t n top)[2 ^ n * j + ravel p]? = some (cell (vnum t n j) l (cellBox (p.map Bool.toNat))) := by
  unfold allFine
  rw [← List.flatMap_def, Nat.mul_comm,
    flatMap_getElem (m := 2 ^ n) (f := fun lj : List Nat × Nat => fineCubes t n lj.2 lj.1)
      (fun lj => fineCubes_length t n lj.2 lj.1) _ _ _ (by rw [← hp]; exact ravel_lt p)]
  simp [hl, fineCubes, cubeIndices_ravel hp]

theorem allFine_get' {x : Nat} {c : List Nat} (h : (allFine t n top)[x]? = some c) :
    ∃ j l, ∃ p : List Bool, top[j]? = some l ∧ p.length = n ∧ x = 2 ^ n * j + ravel p ∧
      c = cell (vnum t n j) l (cellBox (p.map Bool.toNat)) := by
  have hx := (List.getElem?_eq_some_iff.1 h).1
  rw [allFine_length] at hx
  have hj : x / 2 ^ n < top.length := by
    rw [Nat.div_lt_iff_lt_mul (by positivity)]
    exact hx
  obtain ⟨p, hp, hr⟩ := exists_ravel (n := n) (Nat.mod_lt x (by positivity))
  have hx2 : x = 2 ^ n * (x / 2 ^ n) + ravel p := by rw [hr, Nat.div_add_mod]
  have := allFine_get (t := t) (List.getElem?_eq_getElem hj) hp
  rw [← hx2, h] at this
  exact ⟨_, _, p, List.getElem?_eq_getElem hj, hp, hx2, Option.some.inj this⟩

theorem mem_allFine {c : List Nat} : c ∈ allFine t n top ↔ ∃ j l, ∃ p : List Bool, top[j]? = some l ∧ p.length = n ∧
    c = cell (vnum t n j) l (cellBox (p.map Bool.toNat)) := by
  constructor
  · intro h
    obtain ⟨x, hx⟩ := List.mem_iff_getElem?.1 h
    obtain ⟨j, l, p, h1, h2, -, h4⟩ := allFine_get' hx
    exact ⟨j, l, p, h1, h2, h4⟩
  · rintro ⟨j, l, p, h1, h2, rfl⟩
    exact List.mem_of_getElem? (allFine_get h1 h2)

theorem allFine_cubes (w : CWF n top t) (hn : 1 ≤ n) : Cubes n (allFine t n top) := by
  intro c hc
  obtain ⟨j, l, p, h1, h2, rfl⟩ := mem_allFine.1 hc
  refine ⟨?_, cell_nodup w hn (le_refl n) ((stored_top w).2 h1) (inCube_cellBox p) (by simp [cellBox, h2])⟩
  rw [cell_length, cellBox_free, List.length_map, h2]

theorem allFine_distinct (w : CWF n top t) (hn : 1 ≤ n) : DistinctElements (allFine t n top) := by
  apply distinctElements_of
  intro x y c d hx hy hp
  obtain ⟨j, l, p, h1, h2, rfl, rfl⟩ := allFine_get' hx
  obtain ⟨j', l', p', g1, g2, rfl, rfl⟩ := allFine_get' hy
  obtain ⟨-, rfl, h⟩ := cell_unique w hn (le_refl n) (le_refl n) ((stored_top w).2 h1) ((stored_top w).2 g1)
    (inCube_cellBox p) (inCube_cellBox p') (by simp [cellBox, h2]) (by simp [cellBox, g2]) (openBox_cellBox _)
    (openBox_cellBox _) hp
  have : p = p' := by
    have h := congrArg (List.map Prod.fst) h
    simp only [cellBox, List.map_map] at h
    exact List.map_injective_iff.2 (fun a b hab => by cases a <;> cases b <;> simp_all) h
  rw [this]

theorem allFine_facesAgree (w : CWF n top t) (hn : 1 ≤ n) : FacesAgree n (allFine t n top) := by
  intro k d hk hd c hc c' hc' f f' hf hf' hp
  obtain ⟨j, l, p, h1, h2, rfl⟩ := mem_allFine.1 hc
  obtain ⟨j', l', p', g1, g2, rfl⟩ := mem_allFine.1 hc'
  obtain ⟨B, b1, b2, b3, rfl⟩ := face_cell (inCube_cellBox p) (by rw [cellBox_free, List.length_map, h2, hd]) hf
  obtain ⟨B', b1', b2', b3', rfl⟩ := face_cell (inCube_cellBox p') (by rw [cellBox_free, List.length_map, g2, hd]) hf'
  rw [cellBox_length, List.length_map] at b1 b1'
  obtain ⟨K, i, e, C, c1, c2, c3, c4, c5, c6, τ, hτ⟩ := cell_reduce w hn (le_refl n) ((stored_top w).2 h1) b2 (by omega)
  obtain ⟨K', i', e', C', c1', c2', c3', c4', c5', c6', τ', hτ'⟩ :=
    cell_reduce w hn (le_refl n) ((stored_top w).2 g1) b2' (by omega)
  rw [b3] at hτ c6
  rw [b3'] at hτ' c6'
  have e1 := hτ.perm (by rw [cell_length, c6])
  have e2 := hτ'.perm (by rw [cell_length, c6'])
  obtain ⟨rfl, rfl, rfl⟩ := cell_unique w hn c1 c1' c2 c2' c4 c4' c3 c3' c5 c5' (e1.symm.trans (hp.trans e2))
  obtain rfl := c2.unique c2'
  have hlen : (cell (vnum t K i) e C).length = 2 ^ k := by rw [cell_length, c6]
  have hnd := cell_nodup w hn c1 c2 c4 c3
  exact ⟨_, (hτ.symm hlen hnd).trans (hτ.length) (hτ.nodup hlen hnd) hτ'⟩

theorem replicate_fixed (K : Nat) : free (List.replicate K (1, false)) = 0 ∧
    (∀ b, point (List.replicate K (1, false)) b = List.replicate K 1) := by
  induction K with
  | zero => exact ⟨rfl, fun b => rfl⟩
  | succ K ih => exact ⟨by simp [List.replicate_succ, free, ih.1], fun b => by simp [List.replicate_succ, point, ih.2]⟩

theorem allFine_vertices (w : CWF n top t) (hn : 1 ≤ n) (v : Nat) :
    (∃ c ∈ allFine t n top, v ∈ c) ↔ v < levelOffset t (n + 1) := by
  constructor
  · rintro ⟨c, hc, hv⟩
    obtain ⟨j, l, p, h1, h2, rfl⟩ := mem_allFine.1 hc
    obtain ⟨b, -, rfl⟩ := mem_cell.1 hv
    have hle := vnum_le w hn (le_refl n) ((stored_top w).2 h1) (point_isPoint b (inCube_cellBox p))
      (by rw [point_length, cellBox_length, List.length_map, h2])
    have h3 := ((stored_top w).2 h1).lt
    have h4 := offs_succ t.nElements n
    change _ ≤ offs t.nElements n + j at hle
    change _ < offs t.nElements (n + 1)
    omega
  · intro hv
    obtain ⟨K, hK, i, hi, rfl⟩ := offs_decode t.nElements hv
    obtain ⟨e, he⟩ : ∃ e, Stored t K i e := ⟨_, List.getElem?_eq_getElem hi⟩
    obtain ⟨j, l, C, h1, h2, h3, h4, τ, hτ⟩ := cell_lift w hn (d := n - K) (by omega) he
      (B := List.replicate K (1, false)) (by intro p hp; rw [List.eq_of_mem_replicate hp]; simp) (by simp)
    obtain ⟨hf, hpt⟩ := replicate_fixed K
    have hm : offs t.nElements K + i ∈ cell (vnum t K i) e (List.replicate K (1, false)) :=
      mem_cell.2 ⟨[], by rw [hf]; rfl, by rw [hpt, vnum_middle w hn (by omega) he]; rfl⟩
    rw [(hτ.perm (by rw [cell_length, h4])).mem_iff] at hm
    obtain ⟨b, hb, hbv⟩ := mem_cell.1 hm
    obtain ⟨p, q, g1, g2, g3⟩ := exists_corner (point_isPoint b h3)
    rw [point_length, h2] at g1 g2
    refine ⟨_, mem_allFine.2 ⟨j, l, p, (stored_top w).1 h1, g1, rfl⟩, mem_cell.2 ⟨q, ?_, ?_⟩⟩
    · rw [cellBox_free, List.length_map]; omega
    · rw [point_cellBox (by simp; omega), g3, hbv]

/-- the fine cubes are accepted whenever the dimension is -/
theorem allFine_accepts {uniq : List (List Nat) → List (List Nat)} (hu : UniqSpec uniq) (w : CWF n top t) (hn : 1 ≤ n)
    (hdim : 1 ≤ n - 1 → 2 ^ (n - 1) < 128) : ∃ s, fromCubes uniq true n (allFine t n top) = .ok s := by
  obtain ⟨m, rfl⟩ : ∃ m, n = m + 1 := ⟨n - 1, by omega⟩
  exact (Props.C19_accepts_iff hu (allFine_cubes w hn)).2
    ⟨hdim, allFine_facesAgree w hn, _, allFine_vertices w hn⟩

/-! ### elements of the fine topology -/

/-- `e'` is the open cell `B` of element `i` of level `K`, up to the order of its corners -/
def IsCell (t : Topo) (e' : List Nat) (k K i : Nat) (B : Box) : Prop :=
  ∃ e, Stored t K i e ∧ B.length = K ∧ InCube B ∧ OpenBox B ∧ free B = k ∧
    ∃ τ, SymmetricCube k e' (cell (vnum t K i) e B) τ

theorem IsCell.unique (w : CWF n top t) (hn : 1 ≤ n) {k K i K' i' : Nat} {B B' : Box} {e e' : List Nat} (hK : K ≤ n)
    (hK' : K' ≤ n) (he : e.length = 2 ^ k) (he' : e'.length = 2 ^ k) (hp : e.Perm e') (h : IsCell t e k K i B)
    (h' : IsCell t e' k K' i' B') : K = K' ∧ i = i' ∧ B = B' := by
  obtain ⟨f, h1, h2, h3, h4, h5, τ, hτ⟩ := h
  obtain ⟨f', g1, g2, g3, g4, g5, τ', hτ'⟩ := h'
  exact cell_unique w hn hK hK' h1 g1 h3 g3 h2 g2 h4 g4 ((hτ.perm he).trans (hp.trans (hτ'.perm he').symm))

theorem IsCell.perm {k K i : Nat} {B : Box} {e e' : List Nat} (he : e.length = 2 ^ k)
    (he' : e'.length = 2 ^ k) (h : IsCell t e k K i B) (h' : IsCell t e' k K i B) : e.Perm e' := by
  obtain ⟨f, h1, h2, h3, h4, h5, τ, hτ⟩ := h
  obtain ⟨f', g1, g2, g3, g4, g5, τ', hτ'⟩ := h'
  obtain rfl := h1.unique g1
  exact (hτ.perm he).symm.trans (hτ'.perm he')

section

variable {uniq : List (List Nat) → List (List Nat)} {s : Topo}

/-- every element of the fine topology is an open cell -/
theorem fine_isCell (hu : UniqSpec uniq) (w : CWF n top t) (hn : 1 ≤ n) (hs : fromCubes uniq true n (allFine t n top) = .ok s)
    {k : Nat} (hk : k ≤ n) {x : Nat} {e' : List Nat} (hx : Stored s k x e') : ∃ K ≤ n, ∃ i B, IsCell t e' k K i B := by
  have ws := fromCubes_wf hu (allFine_cubes w hn) hs
  obtain ⟨c, hc, f, σ, hf, hσ⟩ := (Props.C19_elements_are_faces hu (allFine_cubes w hn) hs (n - k) k (by omega)).1 e'
    (List.mem_of_getElem? hx)
  obtain ⟨j, l, p, h1, h2, rfl⟩ := mem_allFine.1 hc
  obtain ⟨B, b1, b2, b3, rfl⟩ := face_cell (inCube_cellBox p)
    (by rw [cellBox_free, List.length_map, h2]; omega) hf
  rw [cellBox_length, List.length_map] at b1
  obtain ⟨K, i, e, C, c1, c2, c3, c4, c5, c6, τ, hτ⟩ := cell_reduce w hn (le_refl n) ((stored_top w).2 h1) b2 (by omega)
  rw [b3] at c6 hτ
  have hlen : (cell (vnum t K i) e C).length = 2 ^ k := by rw [cell_length, c6]
  have hnd := cell_nodup w hn c1 c2 c4 c3
  have hcube := ws.cube hn hk hx
  exact ⟨K, c1, i, C, e, c2, c3, c4, c5, c6, _, hσ.trans hcube.1 hcube.2 (hτ.symm hlen hnd)⟩

/-- every open cell is an element of the fine topology -/
theorem fine_exists (hu : UniqSpec uniq) (w : CWF n top t) (hn : 1 ≤ n) (hs : fromCubes uniq true n (allFine t n top) = .ok s)
    {k K i : Nat} (hK : K ≤ n) {e : List Nat} (he : Stored t K i e) {B : Box} (hB : InCube B) (hlen : B.length = K)
    (ho : OpenBox B) (hf : free B = k) : ∃ x e', Stored s k x e' ∧ IsCell t e' k K i B := by
  have ws := fromCubes_wf hu (allFine_cubes w hn) hs
  have hkK : k ≤ K := by rw [← hf, ← hlen]; exact free_le B
  obtain ⟨j, l, C, h1, h2, h3, h4, τ, hτ⟩ := cell_lift w hn (d := n - K) (by omega) he hB hlen
  rw [hf] at h4 hτ
  obtain ⟨p, hp, hface⟩ := exists_face (W := vnum t n j) (l := l) (d := n - k) h2 h3 h4 (by omega)
  obtain ⟨e', he', σ, hσ⟩ := (Props.C19_elements_are_faces hu (allFine_cubes w hn) hs (n - k) k (by omega)).2 _
    (mem_allFine.2 ⟨j, l, p, (stored_top w).1 h1, hp, rfl⟩) _ hface
  obtain ⟨x, hx⟩ := List.mem_iff_getElem?.1 he'
  have hcube := ws.cube hn (by omega) hx
  exact ⟨x, e', hx, e, he, hlen, hB, ho, hf, _, hσ.trans hcube.1 hcube.2 hτ⟩

/-- different elements of the fine topology are different cells -/
theorem fine_distinct (hu : UniqSpec uniq) (w : CWF n top t) (hn : 1 ≤ n) (hs : fromCubes uniq true n (allFine t n top) = .ok s)
    {k : Nat} (hk : k ≤ n) : DistinctElements (s.elements[k]?.getD []) := by
  have ws := fromCubes_wf hu (allFine_cubes w hn) hs
  rcases Nat.lt_or_ge k n with hlt | hge
  · exact (ws.get hlt).2.2.1
  · obtain rfl : k = n := by omega
    rw [ws.top_eq]
    exact allFine_distinct w hn

end

end

end Verif
