/-
The faces of a cube as the points of a grid with three points along every axis, and boxes of such points.
-/
import Verif.Lemmas.Grid
import Verif.Lemmas.CubeChain
import Mathlib.Data.List.Perm.Subperm

set_option linter.unusedSectionVars false

namespace Verif

open Verif.Model Verif.Spec

/-! ### faces of a cube -/

/-- the corner `c` of a cube belongs to the face at the grid point `x`: coordinate `1` is the middle of the cube,
`0` and `2` are the two sides -/
def agrees : List Nat → List Bool → Bool
  | [], [] => true
  | a :: x, s :: c => (a == 1 || a == 2 * s.toNat) && agrees x c
  | _, _ => false

/-- coordinates of a grid point -/
def IsPoint (x : List Nat) : Prop := ∀ a ∈ x, a ≤ 2

/-- the corners of the face at a grid point -/
def gridFace (l x : List Nat) : List Nat := ((cubeIndices x.length).filter (agrees x)).map (cubeAt l)

theorem agrees_length : ∀ {x : List Nat} {c : List Bool}, agrees x c = true → c.length = x.length
  | [], [], _ => rfl
  | [], _ :: _, h => by simp [agrees] at h
  | _ :: _, [], h => by simp [agrees] at h
  | a :: x, s :: c, h => by
    simp only [agrees, Bool.and_eq_true] at h
    simp [agrees_length h.2]

theorem mem_gridFace {l x : List Nat} {v : Nat} : v ∈ gridFace l x ↔ ∃ c, agrees x c = true ∧ cubeAt l c = v := by
  unfold gridFace
  simp only [List.mem_map, List.mem_filter, mem_cubeIndices]
  constructor
  · rintro ⟨c, ⟨-, h⟩, rfl⟩
    exact ⟨c, h, rfl⟩
  · rintro ⟨c, h, rfl⟩
    exact ⟨c, ⟨agrees_length h, h⟩, rfl⟩

theorem IsPoint.cons {a : Nat} {x : List Nat} : IsPoint (a :: x) ↔ a ≤ 2 ∧ IsPoint x := by
  simp [IsPoint]

theorem exists_agrees : ∀ {x : List Nat}, IsPoint x → ∃ c, agrees x c = true
  | [], _ => ⟨[], rfl⟩
  | a :: x, h => by
    obtain ⟨h1, h2⟩ := IsPoint.cons.1 h
    obtain ⟨c, hc⟩ := exists_agrees h2
    exact ⟨(a == 2) :: c, by
      simp only [agrees, hc, Bool.and_true]
      interval_cases a <;> rfl⟩

theorem agrees_ext : ∀ {x x' : List Nat}, IsPoint x → IsPoint x' → x.length = x'.length →
    (∀ c, agrees x c = true ↔ agrees x' c = true) → x = x'
  | [], [], _, _, _, _ => rfl
  | [], _ :: _, _, _, h, _ => by simp at h
  | _ :: _, [], _, _, h, _ => by simp at h
  | a :: x, a' :: x', h1, h2, h3, h => by
    obtain ⟨ha, hx⟩ := IsPoint.cons.1 h1
    obtain ⟨ha', hx'⟩ := IsPoint.cons.1 h2
    obtain ⟨c, hc⟩ := exists_agrees hx
    obtain ⟨c', hc'⟩ := exists_agrees hx'
    have e1 := h (false :: c)
    have e2 := h (true :: c)
    have e1' := h (false :: c')
    have e2' := h (true :: c')
    simp only [agrees, hc, hc', Bool.and_true, Bool.and_eq_true] at e1 e2 e1' e2'
    have haa : a = a' := by
      interval_cases a <;> interval_cases a' <;> simp at e1 e2 e1' e2' ⊢
    subst haa
    rw [agrees_ext hx hx' (by simpa using h3) fun d => ?_]
    have e3 := h ((a == 2) :: d)
    have : (a == 1 || a == 2 * (a == 2).toNat) = true := by interval_cases a <;> rfl
    simpa [agrees, this] using e3

theorem gridFace_nodup {l x : List Nat} (hl : l.length = 2 ^ x.length) (hn : l.Nodup) : (gridFace l x).Nodup := by
  unfold gridFace
  refine List.Nodup.map_on ?_ ((cubeIndices_nodup _).filter _)
  intro c hc c' hc' he
  exact cubeAt_inj hl hn (mem_cubeIndices.1 (List.mem_filter.1 hc).1) (mem_cubeIndices.1 (List.mem_filter.1 hc').1) he

theorem gridFace_perm_inj {l x x' : List Nat} (hl : l.length = 2 ^ x.length) (hn : l.Nodup) (hx : IsPoint x)
    (hx' : IsPoint x') (hlen : x.length = x'.length) (hp : (gridFace l x).Perm (gridFace l x')) : x = x' := by
  refine agrees_ext hx hx' hlen fun c => ?_
  constructor
  · intro h
    obtain ⟨c', h', he⟩ := mem_gridFace.1 (hp.mem_iff.1 (mem_gridFace.2 ⟨c, h, rfl⟩))
    have := cubeAt_inj hl hn (by rw [agrees_length h', hlen]) (agrees_length h) he
    rwa [← this]
  · intro h
    obtain ⟨c', h', he⟩ := mem_gridFace.1 (hp.mem_iff.2 (mem_gridFace.2 ⟨c, h, rfl⟩))
    have := cubeAt_inj hl hn (agrees_length h') (by rw [agrees_length h, hlen]) he
    rwa [← this]

theorem gridFace_length {l : List Nat} : ∀ {x : List Nat}, IsPoint x → (gridFace l x).length = 2 ^ x.count 1 := by
  intro x
  unfold gridFace
  rw [List.length_map]
  induction x with
  | nil => intro _; rfl
  | cons a x ih =>
    intro h
    obtain ⟨ha, hx⟩ := IsPoint.cons.1 h
    have ih := ih hx
    rw [List.length_cons, cubeIndices, List.filter_append, List.length_append, List.filter_map, List.filter_map,
      List.length_map, List.length_map]
    have e : ∀ s : Bool, (agrees (a :: x) ∘ fun c => s :: c) =
        fun c => (a == 1 || a == 2 * s.toNat) && agrees x c := by
      intro s; funext c; rfl
    rw [e, e]
    interval_cases a
    · simp [ih]
    · simp [ih, pow_succ]; omega
    · simp [ih]

/-- the face in the middle is the cube -/
theorem agrees_replicate : ∀ (n : Nat) {c : List Bool}, agrees (List.replicate n 1) c = true ↔ c.length = n
  | 0, [] => by simp [agrees]
  | 0, _ :: _ => by simp [agrees]
  | n + 1, [] => by simp [agrees, List.replicate_succ]
  | n + 1, s :: c => by simp [agrees, List.replicate_succ, agrees_replicate n]

theorem gridFace_middle {n : Nat} {l : List Nat} (hl : l.length = 2 ^ n) : gridFace l (List.replicate n 1) = l := by
  unfold gridFace
  rw [List.length_replicate, List.filter_eq_self.2]
  · exact cubeOf_self hl
  · intro c hc
    exact (agrees_replicate n).2 (mem_cubeIndices.1 hc)

/-- two faces are the same when they have the same corners -/
theorem gridFace_perm_of_mem {l l' x x' : List Nat} (hl : l.length = 2 ^ x.length) (hn : l.Nodup)
    (hl' : l'.length = 2 ^ x'.length) (hn' : l'.Nodup)
    (h : ∀ v, (∃ c, agrees x c = true ∧ cubeAt l c = v) ↔ ∃ c, agrees x' c = true ∧ cubeAt l' c = v) :
    (gridFace l x).Perm (gridFace l' x') := by
  rw [List.perm_ext_iff_of_nodup (gridFace_nodup hl hn) (gridFace_nodup hl' hn')]
  intro v
  rw [mem_gridFace, mem_gridFace, h]

/-! ### faces of reflected cubes, cubes with exchanged axes, and sides -/

theorem agrees_modify : ∀ {x : List Nat} (i : Nat) {c : List Bool}, IsPoint x →
    (agrees (x.modify i (2 - ·)) c = true ↔ agrees x (c.modify i not) = true)
  | [], _, [], _ => by simp [agrees]
  | [], 0, _ :: _, _ => by simp [agrees]
  | [], _ + 1, _ :: _, _ => by simp [agrees]
  | _ :: _, 0, [], _ => by simp [agrees]
  | _ :: _, _ + 1, [], _ => by simp [agrees]
  | a :: x, 0, s :: c, h => by
    have ha := (IsPoint.cons.1 h).1
    simp only [List.modify_zero_cons, agrees]
    interval_cases a <;> cases s <;> simp
  | a :: x, i + 1, s :: c, h => by
    simp only [List.modify_succ_cons, agrees, Bool.and_eq_true, agrees_modify i (IsPoint.cons.1 h).2]

theorem IsPoint.modify {x : List Nat} (h : IsPoint x) (i : Nat) : IsPoint (x.modify i (2 - ·)) := by
  intro a ha
  rcases List.mem_iff_getElem?.1 ha with ⟨j, hj⟩
  rw [List.getElem?_modify] at hj
  rcases hx : x[j]? with _ | y
  · simp [hx] at hj
  · have := h y (List.mem_of_getElem? hx)
    simp only [hx] at hj
    split at hj <;> simp at hj <;> omega

theorem agrees_swapAt : ∀ (i : Nat) {x : List Nat} {c : List Bool},
    agrees (swapAt i x) c = true ↔ agrees x (swapAt i c) = true
  | 0, [], [] => by simp [swapAt, agrees]
  | 0, [], [_] => by simp [swapAt, agrees]
  | 0, [], _ :: _ :: _ => by simp [swapAt, agrees]
  | 0, [_], [] => by simp [swapAt, agrees]
  | 0, [_], [_] => by simp [swapAt, agrees]
  | 0, [_], _ :: _ :: _ => by simp [swapAt, agrees]
  | 0, _ :: _ :: _, [] => by simp [swapAt, agrees]
  | 0, _ :: _ :: _, [_] => by simp [swapAt, agrees]
  | 0, a :: a' :: x, s :: s' :: c => by
    simp only [swapAt, agrees, Bool.and_eq_true]
    tauto
  | _ + 1, [], [] => by simp [swapAt, agrees]
  | _ + 1, [], _ :: _ => by simp [swapAt, agrees]
  | _ + 1, _ :: _, [] => by simp [swapAt, agrees]
  | i + 1, a :: x, s :: c => by
    simp only [swapAt, agrees, Bool.and_eq_true, agrees_swapAt i]

theorem agrees_insertIdx (a : Nat) (s : Bool) : ∀ (i : Nat) {x : List Nat} {c : List Bool}, i ≤ x.length →
    i ≤ c.length → agrees (x.insertIdx i a) (c.insertIdx i s) = ((a == 1 || a == 2 * s.toNat) && agrees x c)
  | 0, x, c, _, _ => by simp [agrees]
  | i + 1, [], c, h, _ => by simp at h
  | i + 1, _ :: _, [], _, h => by simp at h
  | i + 1, b :: x, r :: c, h, h' => by
    rw [List.insertIdx_succ_cons, List.insertIdx_succ_cons]
    simp only [agrees, agrees_insertIdx a s i (by simpa using h : i ≤ x.length) (by simpa using h' : i ≤ c.length)]
    cases (b == 1 || b == 2 * r.toNat) <;> simp

theorem gridFace_flip {n i : Nat} {l x : List Nat} (hl : l.length = 2 ^ n) (hn : l.Nodup) (hx : IsPoint x)
    (hlen : x.length = n) : (gridFace (flipAxis n i l) x).Perm (gridFace l (x.modify i (2 - ·))) := by
  refine gridFace_perm_of_mem (by rw [flipAxis_length, hlen]) ?_ (by rw [List.length_modify, hl, hlen]) hn fun v => ?_
  · refine cubeOf_nodup hl hn _ (fun b hb => by rw [List.length_modify, hb]) ?_
    intro b b' _ _ h
    rw [← modify_modify_not i b, h, modify_modify_not]
  · constructor
    · rintro ⟨c, hc, rfl⟩
      refine ⟨c.modify i not, (agrees_modify i hx).2 (by rwa [modify_modify_not]), ?_⟩
      rw [flipAxis, cubeAt_cubeOf _ (by rw [agrees_length hc, hlen])]
    · rintro ⟨c, hc, rfl⟩
      have hc' := (agrees_modify i hx).1 hc
      refine ⟨c.modify i not, hc', ?_⟩
      rw [flipAxis, cubeAt_cubeOf _ (by rw [agrees_length hc', hlen]), modify_modify_not]

theorem gridFace_swap {n i : Nat} {l x : List Nat} (hl : l.length = 2 ^ n) (hn : l.Nodup)
    (hlen : x.length = n) : (gridFace (swapAxes n i l) x).Perm (gridFace l (swapAt i x)) := by
  refine gridFace_perm_of_mem (by rw [swapAxes_length, hlen]) ?_ (by rw [swapAt_length, hl, hlen]) hn fun v => ?_
  · refine cubeOf_nodup hl hn _ (fun b hb => by rw [swapAt_length, hb]) ?_
    intro b b' _ _ h
    rw [← swapAt_swapAt i b, h, swapAt_swapAt]
  · constructor
    · rintro ⟨c, hc, rfl⟩
      refine ⟨swapAt i c, (agrees_swapAt i).2 (by rwa [swapAt_swapAt]), ?_⟩
      rw [swapAxes, cubeAt_cubeOf _ (by rw [agrees_length hc, hlen])]
    · rintro ⟨c, hc, rfl⟩
      have hc' := (agrees_swapAt i).1 hc
      refine ⟨swapAt i c, hc', ?_⟩
      rw [swapAxes, cubeAt_cubeOf _ (by rw [agrees_length hc', hlen]), swapAt_swapAt]

theorem insertIdx_eraseIdx_self {α : Type} : ∀ (i : Nat) (c : List α) (a : α), c[i]? = some a →
    (c.eraseIdx i).insertIdx i a = c
  | _, [], _, h => by simp at h
  | 0, b :: c, a, h => by simp at h; simp [h]
  | i + 1, b :: c, a, h => by
    rw [List.eraseIdx_cons_succ, List.insertIdx_succ_cons, insertIdx_eraseIdx_self i c a (by simpa using h)]

theorem gridFace_slice {n i : Nat} {l x : List Nat} (s : Bool) (hi : i ≤ n) (hl : l.length = 2 ^ (n + 1))
    (hn : l.Nodup) (hlen : x.length = n) :
    (gridFace (sliceAxis n i s l) x).Perm (gridFace l (x.insertIdx i (2 * s.toNat))) := by
  have hxl : (x.insertIdx i (2 * s.toNat)).length = n + 1 := by
    rw [List.length_insertIdx, if_pos (by omega), hlen]
  refine gridFace_perm_of_mem (by rw [sliceAxis_length, hlen]) (sliceAxis_nodup hi s hl hn) (by rw [hxl, hl]) hn
    fun v => ?_
  constructor
  · rintro ⟨c, hc, rfl⟩
    have hcl := agrees_length hc
    refine ⟨c.insertIdx i s, by rw [agrees_insertIdx _ _ i (by omega) (by omega), hc]; simp, ?_⟩
    rw [sliceAxis, cubeAt_cubeOf _ (by omega)]
  · rintro ⟨c, hc, rfl⟩
    have hcl := agrees_length hc
    rw [hxl] at hcl
    obtain ⟨r, hr⟩ : ∃ r, c[i]? = some r := ⟨c[i], List.getElem?_eq_getElem (by omega)⟩
    have he := insertIdx_eraseIdx_self i c r hr
    have hel : (c.eraseIdx i).length = n := by rw [List.length_eraseIdx, if_pos (by omega)]; omega
    rw [← he, agrees_insertIdx _ _ i (by omega) (by omega), Bool.and_eq_true] at hc
    have hrs : r = s := by
      cases r <;> cases s <;> simp at hc <;> rfl
    subst hrs
    refine ⟨c.eraseIdx i, hc.2, ?_⟩
    rw [sliceAxis, cubeAt_cubeOf _ hel, he]

end Verif
