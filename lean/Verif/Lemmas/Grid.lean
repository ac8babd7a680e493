/-
Grids of cubes: vertex numbers, cells and boxes.
-/
import Verif.Model.Grid
import Verif.Lemmas.CubeChain

set_option linter.unusedSectionVars false

namespace Verif

open Verif.Model Verif.Spec Verif.Props

/-! ### indices in C order -/

/-- number of the entry with index `x` of an array in C order -/
def num (shape x : List Nat) : Nat := (List.zipWith (· * ·) x (strides shape)).sum

theorem mem_gridIndices : ∀ {shape x : List Nat}, x ∈ gridIndices shape ↔ List.Forall₂ (· < ·) x shape := by
  intro shape
  induction shape with
  | nil => intro x; simp [gridIndices]
  | cons m shape ih =>
    intro x
    simp only [gridIndices, List.mem_flatMap, List.mem_range, List.mem_map]
    constructor
    · rintro ⟨a, ha, y, hy, rfl⟩
      exact List.Forall₂.cons ha (ih.1 hy)
    · intro h
      obtain ⟨a, y, ha, hy, rfl⟩ := List.forall₂_cons_right_iff.1 h
      exact ⟨a, ha, y, ih.2 hy, rfl⟩

theorem gridIndices_length (shape : List Nat) : (gridIndices shape).length = shape.prod := by
  induction shape with
  | nil => rfl
  | cons m shape ih =>
    simp [gridIndices, List.length_flatMap, ih]

theorem flatMap_getElem {α β : Type} {m : Nat} {f : α → List β} (hf : ∀ a, (f a).length = m) :
    ∀ (L : List α) (i c : Nat), c < m → (L.flatMap f)[i * m + c]? = (L[i]?).bind fun a => (f a)[c]? := by
  intro L
  induction L with
  | nil => intro i c _; simp
  | cons a t ih =>
    intro i c hc
    rw [List.flatMap_cons]
    cases i with
    | zero =>
      rw [List.getElem?_append_left (by rw [hf]; omega)]
      simp
    | succ i =>
      have : (i + 1) * m + c - m = i * m + c := by
        rw [Nat.succ_mul]; omega
      rw [List.getElem?_append_right (by rw [hf, Nat.succ_mul]; omega), hf, this, ih i c hc]
      simp

theorem num_lt : ∀ {shape x : List Nat}, List.Forall₂ (· < ·) x shape → num shape x < shape.prod := by
  intro shape
  induction shape with
  | nil => intro x h; cases h; simp [num]
  | cons m shape ih =>
    intro x h
    obtain ⟨a, y, ha, hy, rfl⟩ := List.forall₂_cons_right_iff.1 h
    have := ih hy
    unfold num at this ⊢
    simp only [strides, List.zipWith_cons_cons, List.sum_cons, List.prod_cons]
    calc a * shape.prod + _ < a * shape.prod + shape.prod := by omega
      _ = (a + 1) * shape.prod := by ring
      _ ≤ m * shape.prod := Nat.mul_le_mul_right _ ha

theorem gridIndices_num : ∀ {shape x : List Nat}, List.Forall₂ (· < ·) x shape →
    (gridIndices shape)[num shape x]? = some x := by
  intro shape
  induction shape with
  | nil => intro x h; cases h; rfl
  | cons m shape ih =>
    intro x h
    obtain ⟨a, y, ha, hy, rfl⟩ := List.forall₂_cons_right_iff.1 h
    have hnum : num (m :: shape) (a :: y) = a * shape.prod + num shape y := by
      simp [num, strides]
    rw [gridIndices, hnum, flatMap_getElem (m := shape.prod) (fun x => by simp [gridIndices_length]) _ _ _ (num_lt hy),
      List.getElem?_range ha]
    simp [ih hy]

theorem num_inj {shape x y : List Nat} (hx : List.Forall₂ (· < ·) x shape) (hy : List.Forall₂ (· < ·) y shape)
    (h : num shape x = num shape y) : x = y := by
  have h1 := gridIndices_num hx
  rw [h, gridIndices_num hy] at h1
  exact (Option.some.inj h1).symm

theorem gridIndices_nodup (shape : List Nat) : (gridIndices shape).Nodup := by
  induction shape with
  | nil => simp [gridIndices]
  | cons m shape ih =>
    rw [gridIndices, List.nodup_flatMap]
    constructor
    · intro x _
      exact ih.map fun a b h => by simpa using h
    · refine List.Pairwise.imp ?_ List.nodup_range
      intro a b hab y h1 h2
      obtain ⟨z, -, rfl⟩ := List.mem_map.1 h1
      obtain ⟨w, -, h⟩ := List.mem_map.1 h2
      exact hab (by simpa using (List.cons.inj h).1.symm)

theorem gridIndices_getElem_num {shape x : List Nat} {v : Nat} (h : (gridIndices shape)[v]? = some x) :
    num shape x = v := by
  obtain ⟨hv, rfl⟩ := List.getElem?_eq_some_iff.1 h
  have hx := mem_gridIndices.1 (List.getElem_mem hv)
  have h1 := gridIndices_num hx
  obtain ⟨h2, h3⟩ := List.getElem?_eq_some_iff.1 h1
  exact (gridIndices_nodup shape).getElem_inj_iff.1 h3

theorem strides_length (shape : List Nat) : (strides shape).length = shape.length := by
  induction shape with
  | nil => rfl
  | cons m shape ih => simp [strides, ih]

/-! ### cells -/

/-- the vertex at a corner of a cell -/
def corner (c : List Nat) (b : List Bool) : List Nat := List.zipWith (· + ·) c (b.map Bool.toNat)

theorem corner_lt : ∀ {shape c : List Nat} {b : List Bool}, List.Forall₂ (· < ·) c shape → b.length = shape.length →
    List.Forall₂ (· < ·) (corner c b) (vshape shape) := by
  intro shape
  induction shape with
  | nil => intro c b h hb; cases h; simp [corner, vshape]
  | cons m shape ih =>
    intro c b h hb
    obtain ⟨a, y, ha, hy, rfl⟩ := List.forall₂_cons_right_iff.1 h
    cases b with
    | nil => simp at hb
    | cons s b =>
      refine List.Forall₂.cons ?_ (ih hy (by simpa using hb))
      have : s.toNat ≤ 1 := by cases s <;> simp
      show a + s.toNat < m + 1
      omega

theorem num_append (st : List Nat) : ∀ (c : List Nat) (b : List Nat), c.length = st.length → b.length = st.length →
    (List.zipWith (· * ·) (c ++ b) (st ++ st)).sum = (List.zipWith (· * ·) (List.zipWith (· + ·) c b) st).sum := by
  intro c b hc hb
  rw [List.zipWith_append hc, List.sum_append]
  induction st generalizing c b with
  | nil => simp
  | cons s st ih =>
    cases c with
    | nil => simp at hc
    | cons x c =>
      cases b with
      | nil => simp at hb
      | cons y b =>
        have := ih c b (by simpa using hc) (by simpa using hb)
        simp only [List.zipWith_cons_cons, List.sum_cons]
        rw [← this]
        ring

/-- the list of corners of a cell -/
def cellCorners (shape c : List Nat) : List Nat := cubeOf shape.length fun b => num (vshape shape) (corner c b)

theorem gridCubes_eq (shape : List Nat) : gridCubes shape = (gridIndices shape).map (cellCorners shape) := by
  unfold gridCubes
  refine List.map_congr_left fun c hc => cubeOf_congr fun b hb => ?_
  have hc := mem_gridIndices.1 hc
  have hlt := num_lt (corner_lt hc hb)
  have e : (List.zipWith (· * ·) (c ++ b.map Bool.toNat) (strides (vshape shape) ++ strides (vshape shape))).sum =
      num (vshape shape) (corner c b) := by
    rw [num_append _ _ _ (by rw [strides_length, hc.length_eq]; simp [vshape])
      (by rw [strides_length, List.length_map, hb]; simp [vshape])]
    rfl
  simp only [e]
  rw [List.getElem?_range hlt]
  rfl

/-! ### boxes -/

/-- a box: for every axis the smaller coordinate, and whether the box extends to the next one -/
abbrev Box := List (Nat × Bool)

/-- number of axes along which a box extends -/
def free : Box → Nat
  | [] => 0
  | (_, true) :: B => free B + 1
  | (_, false) :: B => free B

/-- corner of a box -/
def point : Box → List Bool → List Nat
  | [], _ => []
  | (a, false) :: B, b => a :: point B b
  | (a, true) :: B, b => (a + (b.headD false).toNat) :: point B b.tail

/-- one side of a box -/
def cut : Box → Nat → Bool → Box
  | [], _, _ => []
  | (a, false) :: B, i, s => (a, false) :: cut B i s
  | (a, true) :: B, 0, s => (a + s.toNat, false) :: B
  | (a, true) :: B, i + 1, s => (a, true) :: cut B i s

/-- the box lies within the vertices of the grid -/
def Within (B : Box) (vs : List Nat) : Prop := List.Forall₂ (fun p m => p.1 + p.2.toNat < m) B vs

theorem cut_free : ∀ (B : Box) (i : Nat) (s : Bool), i < free B → free (cut B i s) + 1 = free B
  | [], _, _, h => absurd h (by simp [free])
  | (_, false) :: B, i, s, h => by simpa [cut, free] using cut_free B i s h
  | (_, true) :: B, 0, s, _ => by simp [cut, free]
  | (_, true) :: B, i + 1, s, h => by
    have := cut_free B i s (by simpa [free] using h)
    simpa [cut, free] using this

theorem point_cut : ∀ (B : Box) (i : Nat) (s : Bool) (b : List Bool), i ≤ b.length → b.length + 1 = free B →
    point (cut B i s) b = point B (b.insertIdx i s)
  | [], _, _, _, _, h => absurd h (by simp [free])
  | (a, false) :: B, i, s, b, hi, h => by simp [cut, point, point_cut B i s b hi (by simpa [free] using h)]
  | (a, true) :: B, 0, s, b, hi, h => by simp [cut, point]
  | (a, true) :: B, i + 1, s, [], hi, h => by simp at hi
  | (a, true) :: B, i + 1, s, c :: b, hi, h => by
    have := point_cut B i s b (by simpa using hi) (by simpa [free] using h)
    simp [cut, point, this]

theorem cut_within : ∀ {B : Box} {vs : List Nat} (i : Nat) (s : Bool), Within B vs → Within (cut B i s) vs := by
  intro B
  induction B with
  | nil => intro vs i s h; simpa [cut] using h
  | cons p B ih =>
    intro vs i s h
    obtain ⟨m, vs', h1, h2, rfl⟩ := List.forall₂_cons_left_iff.1 h
    obtain ⟨a, f⟩ := p
    cases f with
    | false => exact List.Forall₂.cons h1 (ih i s h2)
    | true =>
      cases i with
      | zero =>
        refine List.Forall₂.cons ?_ h2
        have : s.toNat ≤ 1 := by cases s <;> simp
        simp at h1 ⊢
        omega
      | succ i => exact List.Forall₂.cons h1 (ih i s h2)

theorem cut_length : ∀ (B : Box) (i : Nat) (s : Bool), (cut B i s).length = B.length
  | [], _, _ => rfl
  | (_, false) :: B, i, s => by simp [cut, cut_length B i s]
  | (_, true) :: B, 0, s => by simp [cut]
  | (_, true) :: B, i + 1, s => by simp [cut, cut_length B i s]

theorem point_lt : ∀ {B : Box} {vs : List Nat} (b : List Bool), Within B vs → List.Forall₂ (· < ·) (point B b) vs := by
  intro B
  induction B with
  | nil => intro vs b h; cases h; simp [point]
  | cons p B ih =>
    intro vs b h
    obtain ⟨m, vs', h1, h2, rfl⟩ := List.forall₂_cons_left_iff.1 h
    obtain ⟨a, f⟩ := p
    cases f with
    | false => exact List.Forall₂.cons (by simpa using h1) (ih b h2)
    | true =>
      refine List.Forall₂.cons ?_ (ih _ h2)
      have : (b.headD false).toNat ≤ 1 := by cases b.headD false <;> simp
      simp at h1
      omega

theorem point_inj : ∀ {B : Box} {b b' : List Bool}, b.length = free B → b'.length = free B →
    point B b = point B b' → b = b' := by
  intro B
  induction B with
  | nil =>
    intro b b' h h' _
    simp [free] at h h'
    rw [h, h']
  | cons p B ih =>
    intro b b' h h' e
    obtain ⟨a, f⟩ := p
    cases f with
    | false =>
      simp only [point, List.cons.injEq, true_and] at e
      exact ih h h' e
    | true =>
      cases b with
      | nil => simp [free] at h
      | cons x b =>
        cases b' with
        | nil => simp [free] at h'
        | cons y b' =>
          simp only [point, List.cons.injEq, List.headD_cons, List.tail_cons] at e
          rw [ih (by simpa [free] using h) (by simpa [free] using h') e.2]
          congr 1
          have := e.1
          cases x <;> cases y <;> simp at this <;> rfl

/-- a box is determined by its corners -/
theorem box_ext : ∀ {B B' : Box}, B.length = B'.length →
    (∀ v, (∃ b : List Bool, b.length = free B ∧ point B b = v) ↔
      ∃ b : List Bool, b.length = free B' ∧ point B' b = v) → B = B' := by
  intro B
  induction B with
  | nil => intro B' h _; exact (List.length_eq_zero_iff.1 h.symm).symm
  | cons p B ih =>
    intro B' h hv
    cases B' with
    | nil => simp at h
    | cons q B' =>
      obtain ⟨a, f⟩ := p
      obtain ⟨a', f'⟩ := q
      -- the corners, head and tail
      have key : ∀ (a : Nat) (f : Bool) (B : Box) (x : Nat) (v : List Nat),
          (∃ b : List Bool, b.length = free ((a, f) :: B) ∧ point ((a, f) :: B) b = x :: v) ↔
          (x = a ∨ (f = true ∧ x = a + 1)) ∧ ∃ b : List Bool, b.length = free B ∧ point B b = v := by
        intro a f B x v
        cases f with
        | false =>
          simp only [free, point, List.cons.injEq]
          constructor
          · rintro ⟨b, h1, rfl, h2⟩
            exact ⟨Or.inl rfl, b, h1, h2⟩
          · rintro ⟨h1 | h1, b, h2, h3⟩
            · exact ⟨b, h2, h1.symm, h3⟩
            · simp at h1
        | true =>
          simp only [free, point, List.cons.injEq, true_and]
          constructor
          · rintro ⟨b, h1, rfl, h2⟩
            cases b with
            | nil => simp at h1
            | cons c b =>
              refine ⟨?_, b, by simpa using h1, by simpa using h2⟩
              cases c <;> simp
          · rintro ⟨h1 | h1, b, h2, h3⟩
            · exact ⟨false :: b, by simp [h2], by simp [h1], by simpa using h3⟩
            · exact ⟨true :: b, by simp [h2], by simp [h1], by simpa using h3⟩
      have hv' : ∀ x v, ((x = a ∨ (f = true ∧ x = a + 1)) ∧ ∃ b : List Bool, b.length = free B ∧ point B b = v) ↔
          ((x = a' ∨ (f' = true ∧ x = a' + 1)) ∧ ∃ b : List Bool, b.length = free B' ∧ point B' b = v) := by
        intro x v
        rw [← key, ← key]
        exact hv _
      have hne : ∀ B : Box, ∃ v, ∃ b : List Bool, b.length = free B ∧ point B b = v :=
        fun B => ⟨_, List.replicate (free B) false, by simp, rfl⟩
      obtain ⟨v, hvB⟩ := hne B
      obtain ⟨v', hvB'⟩ := hne B'
      have hhead : ∀ x, (x = a ∨ (f = true ∧ x = a + 1)) ↔ (x = a' ∨ (f' = true ∧ x = a' + 1)) := by
        intro x
        exact ⟨fun hx => ((hv' x v).1 ⟨hx, hvB⟩).1, fun hx => ((hv' x v').2 ⟨hx, hvB'⟩).1⟩
      have haf : a = a' ∧ f = f' := by
        have h1 := hhead a
        have h2 := hhead a'
        have h3 := hhead (a + 1)
        cases f <;> cases f' <;> simp at h1 h2 h3 ⊢ <;> omega
      obtain ⟨rfl, rfl⟩ := haf
      congr 1
      refine ih (by simpa using h) fun w => ?_
      have := hv' a w
      simpa using this

/-- the list of the corners of a box -/
def boxCorners (vs : List Nat) (B : Box) : List Nat := cubeOf (free B) fun b => num vs (point B b)

theorem mem_boxCorners {vs : List Nat} {B : Box} {v : Nat} :
    v ∈ boxCorners vs B ↔ ∃ b : List Bool, b.length = free B ∧ num vs (point B b) = v := by
  unfold boxCorners cubeOf
  simp [mem_cubeIndices]

/-- boxes with the same corners are the same -/
theorem box_perm {vs : List Nat} {B B' : Box} (h : Within B vs) (h' : Within B' vs)
    (hp : (boxCorners vs B).Perm (boxCorners vs B')) : B = B' := by
  refine box_ext (h.length_eq.trans h'.length_eq.symm) fun v => ?_
  constructor
  · rintro ⟨b, hb, rfl⟩
    obtain ⟨b', hb', he⟩ := mem_boxCorners.1 (hp.mem_iff.1 (mem_boxCorners.2 ⟨b, hb, rfl⟩))
    exact ⟨b', hb', num_inj (point_lt b' h') (point_lt b h) he⟩
  · rintro ⟨b, hb, rfl⟩
    obtain ⟨b', hb', he⟩ := mem_boxCorners.1 (hp.mem_iff.2 (mem_boxCorners.2 ⟨b, hb, rfl⟩))
    exact ⟨b', hb', num_inj (point_lt b' h) (point_lt b h') he⟩

theorem boxCorners_nodup {vs : List Nat} {B : Box} (h : Within B vs) : (boxCorners vs B).Nodup := by
  unfold boxCorners cubeOf
  refine List.Nodup.map_on ?_ (cubeIndices_nodup _)
  intro b hb b' hb' he
  rw [mem_cubeIndices] at hb hb'
  exact point_inj hb hb' (num_inj (point_lt b h) (point_lt b' h) he)

theorem boxCorners_length (vs : List Nat) (B : Box) : (boxCorners vs B).length = 2 ^ free B := cubeOf_length _ _

theorem side_boxCorners {vs : List Nat} {B : Box} {k i : Nat} (s : Bool) (hk : free B = k + 1) (hi : i ≤ k) :
    side k i s (boxCorners vs B) = boxCorners vs (cut B i s) := by
  have hc := cut_free B i s (by omega)
  unfold boxCorners
  rw [side_eq hi, hk, sliceAxis_cubeOf hi, show free (cut B i s) = k by omega]
  refine cubeOf_congr fun b hb => ?_
  rw [point_cut B i s b (by omega) (by omega)]

theorem face_boxCorners {vs : List Nat} : ∀ {d k : Nat} {B : Box} {f : List Nat}, Within B vs → free B = k + d →
    IsCubeFace d k (boxCorners vs B) f → ∃ B', Within B' vs ∧ free B' = k ∧ f = boxCorners vs B' := by
  intro d
  induction d with
  | zero =>
    rintro k B f h hk rfl
    exact ⟨B, h, hk, rfl⟩
  | succ d ih =>
    rintro k B f h hk ⟨i, hi, s, hf⟩
    rw [side_boxCorners (k := k + d) s (by omega) hi] at hf
    have hc := cut_free B i s (by omega)
    exact ih (cut_within i s h) (by omega) hf

/-- a cell as a box -/
def cellBox (c : List Nat) : Box := c.map fun a => (a, true)

theorem cellBox_free (c : List Nat) : free (cellBox c) = c.length := by
  induction c with
  | nil => rfl
  | cons a c ih => simpa [cellBox, free] using ih

theorem cellBox_within : ∀ {shape c : List Nat}, List.Forall₂ (· < ·) c shape → Within (cellBox c) (vshape shape) := by
  intro shape
  induction shape with
  | nil => intro c h; cases h; exact List.Forall₂.nil
  | cons m shape ih =>
    intro c h
    obtain ⟨a, y, ha, hy, rfl⟩ := List.forall₂_cons_right_iff.1 h
    exact List.Forall₂.cons (by simpa using ha) (ih hy)

theorem point_cellBox : ∀ {c : List Nat} {b : List Bool}, b.length = c.length → point (cellBox c) b = corner c b := by
  intro c
  induction c with
  | nil => intro b h; simp [cellBox, point, corner]
  | cons a c ih =>
    intro b h
    cases b with
    | nil => simp at h
    | cons s b =>
      have := ih (b := b) (by simpa using h)
      simp only [cellBox, corner] at this ⊢
      simp [point, this]

theorem cellCorners_eq {shape c : List Nat} (h : c.length = shape.length) :
    cellCorners shape c = boxCorners (vshape shape) (cellBox c) := by
  unfold cellCorners boxCorners
  rw [cellBox_free, h]
  refine cubeOf_congr fun b hb => ?_
  rw [point_cellBox (by rw [hb, h])]

theorem mem_gridCubes {shape l : List Nat} : l ∈ gridCubes shape ↔
    ∃ c, List.Forall₂ (· < ·) c shape ∧ l = boxCorners (vshape shape) (cellBox c) := by
  rw [gridCubes_eq, List.mem_map]
  constructor
  · rintro ⟨c, hc, rfl⟩
    have hc := mem_gridIndices.1 hc
    exact ⟨c, hc, cellCorners_eq hc.length_eq⟩
  · rintro ⟨c, hc, rfl⟩
    exact ⟨c, mem_gridIndices.2 hc, cellCorners_eq hc.length_eq⟩

theorem gridCubes_cubes (shape : List Nat) : Cubes shape.length (gridCubes shape) := by
  intro l hl
  obtain ⟨c, hc, rfl⟩ := mem_gridCubes.1 hl
  refine ⟨?_, boxCorners_nodup (cellBox_within hc)⟩
  rw [boxCorners_length, cellBox_free, hc.length_eq]

theorem grid_facesAgree (shape : List Nat) : FacesAgree shape.length (gridCubes shape) := by
  intro k d hk hkd l hl l' hl' f f' hf hf' hp
  obtain ⟨c, hc, rfl⟩ := mem_gridCubes.1 hl
  obtain ⟨c', hc', rfl⟩ := mem_gridCubes.1 hl'
  obtain ⟨B, h1, h2, rfl⟩ := face_boxCorners (cellBox_within hc) (by rw [cellBox_free, hc.length_eq, hkd]) hf
  obtain ⟨B', h1', h2', rfl⟩ := face_boxCorners (cellBox_within hc') (by rw [cellBox_free, hc'.length_eq, hkd]) hf'
  obtain rfl := box_perm h1 h1' hp
  exact ⟨1, SymmetricCube.refl (by rw [boxCorners_length, h2])⟩

/-- every vertex is a corner of a cell -/
theorem exists_cell : ∀ {shape x : List Nat}, (∀ m ∈ shape, 1 ≤ m) → List.Forall₂ (· < ·) x (vshape shape) →
    ∃ c b, List.Forall₂ (· < ·) c shape ∧ b.length = shape.length ∧ corner c b = x := by
  intro shape
  induction shape with
  | nil => intro x _ h; cases h; exact ⟨[], [], List.Forall₂.nil, rfl, rfl⟩
  | cons m shape ih =>
    intro x hm h
    obtain ⟨a, y, ha, hy, rfl⟩ := List.forall₂_cons_right_iff.1 h
    obtain ⟨c, b, h1, h2, h3⟩ := ih (fun k hk => hm k (List.mem_cons_of_mem _ hk)) hy
    have hm1 := hm m List.mem_cons_self
    replace ha : a < m + 1 := ha
    by_cases hlt : a < m
    · exact ⟨a :: c, false :: b, List.Forall₂.cons hlt h1, by simp [h2], by
        simp only [corner] at h3 ⊢; simp [h3]⟩
    · refine ⟨(m - 1) :: c, true :: b, List.Forall₂.cons (by omega) h1, by simp [h2], ?_⟩
      simp only [corner] at h3 ⊢
      simp [h3]
      omega

theorem mem_cellCorners {shape c : List Nat} {v : Nat} :
    v ∈ cellCorners shape c ↔ ∃ b : List Bool, b.length = shape.length ∧ num (vshape shape) (corner c b) = v := by
  unfold cellCorners cubeOf
  simp [mem_cubeIndices]

theorem grid_vertices {shape : List Nat} (hs : ∀ m ∈ shape, 1 ≤ m) (v : Nat) :
    (∃ l ∈ gridCubes shape, v ∈ l) ↔ v < (vshape shape).prod := by
  constructor
  · rintro ⟨l, hl, hv⟩
    rw [gridCubes_eq] at hl
    obtain ⟨c, hc, rfl⟩ := List.mem_map.1 hl
    obtain ⟨b, hb, rfl⟩ := mem_cellCorners.1 hv
    exact num_lt (corner_lt (mem_gridIndices.1 hc) hb)
  · intro hv
    rw [← gridIndices_length] at hv
    have hx := List.getElem?_eq_getElem hv
    obtain ⟨c, b, h1, h2, h3⟩ := exists_cell hs (mem_gridIndices.1 (List.getElem_mem hv))
    refine ⟨cellCorners shape c, ?_, ?_⟩
    · rw [gridCubes_eq]
      exact List.mem_map_of_mem (mem_gridIndices.2 h1)
    · exact mem_cellCorners.2 ⟨b, h2, by rw [h3]; exact gridIndices_getElem_num hx⟩

end Verif
