/-
The cells of the cubes of a cubical topology, reduced to the cells in the interior of stored elements.
-/
import Verif.Lemmas.CubeCells
import Verif.Lemmas.Offset
import Verif.Model.CubicalDomains
import Verif.Props.Cubical
import Mathlib.Data.Nat.Log

set_option linter.unusedSectionVars false

namespace Verif

open Verif.Model Verif.Spec

theorem IsPoint.insertIdx {x : List Nat} {i a : Nat} (h : IsPoint (x.insertIdx i a)) : IsPoint x := by
  intro c hc
  by_cases hi : i ≤ x.length
  · exact h c ((List.mem_insertIdx hi).2 (Or.inr hc))
  · rw [List.insertIdx_of_length_lt (by omega)] at h
    exact h c hc

theorem count_insertIdx {x : List Nat} {i a : Nat} (ha : a ≠ 1) : (x.insertIdx i a).count 1 = x.count 1 := by
  by_cases hi : i ≤ x.length
  · rw [(List.perm_insertIdx a x hi).count_eq, List.count_cons, if_neg (by simpa using ha)]
    rfl
  · rw [List.insertIdx_of_length_lt (by omega)]

/-- a point that is not the middle lies in a side -/
theorem IsPoint.cases {x : List Nat} {m : Nat} (hx : IsPoint x) (hlen : x.length = m) :
    x = List.replicate m 1 ∨ ∃ i k, m = k + 1 ∧ i ≤ k ∧ ∃ (s : Bool) (y : List Nat), y.length = k ∧ IsPoint y ∧
      x = y.insertIdx i (2 * s.toNat) := by
  by_cases h : ∀ a ∈ x, a = 1
  · left
    rw [List.eq_replicate_iff]
    exact ⟨hlen, h⟩
  · push Not at h
    obtain ⟨a, ha, hne⟩ := h
    right
    obtain ⟨i, hi, rfl⟩ := List.getElem_of_mem ha
    obtain ⟨k, rfl⟩ : ∃ k, m = k + 1 := ⟨m - 1, by omega⟩
    have h2 := hx _ ha
    have hs : x[i] = 2 * (x[i] == 2).toNat := by
      generalize x[i] = a at *
      interval_cases a <;> simp_all
    refine ⟨i, k, rfl, by omega, x[i] == 2, x.eraseIdx i, ?_, ?_, ?_⟩
    · rw [List.length_eraseIdx, if_pos hi]; omega
    · exact fun c hc => hx c (List.mem_of_mem_eraseIdx hc)
    · rw [← hs, insertIdx_eraseIdx_self i x _ (List.getElem?_eq_getElem hi)]

theorem count_modify_reflect : ∀ {x : List Nat} (i : Nat), IsPoint x → (x.modify i (2 - ·)).count 1 = x.count 1
  | [], i, _ => by simp
  | a :: x, 0, h => by
    have := (IsPoint.cons.1 h).1
    simp [List.count_cons]
    interval_cases a <;> simp
  | a :: x, i + 1, h => by
    simp [List.count_cons, count_modify_reflect i (IsPoint.cons.1 h).2]

/-- the faces of a cube listed along other axes -/
theorem gridFace_symmetric {n : Nat} {e l : List Nat} {σ : ℤ} (he : e.length = 2 ^ n) (hn : e.Nodup)
    (h : SymmetricCube n e l σ) {x : List Nat} (hx : IsPoint x) (hlen : x.length = n) :
    ∃ x', x'.length = n ∧ IsPoint x' ∧ x'.count 1 = x.count 1 ∧ (gridFace l x).Perm (gridFace e x') := by
  have key := symmetric_induction (n := n) (P := fun l => l.Nodup ∧ ∀ x : List Nat, IsPoint x → x.length = n →
    ∃ x', x'.length = n ∧ IsPoint x' ∧ x'.count 1 = x.count 1 ∧ (gridFace l x).Perm (gridFace e x')) ?_ ?_ he hn h
    ⟨hn, fun x hx hlen => ⟨x, hlen, hx, rfl, List.Perm.refl _⟩⟩
  · exact key.2 x hx hlen
  · rintro i hi l hl ⟨hnl, hP⟩
    constructor
    · refine cubeOf_nodup hl hnl _ (fun b hb => by rw [List.length_modify, hb]) ?_
      intro b b' _ _ h
      rw [← modify_modify_not i b, h, modify_modify_not]
    · intro x hx hlen
      obtain ⟨x', h1, h2, h3, h4⟩ := hP (x.modify i (2 - ·)) (hx.modify i) (by rw [List.length_modify, hlen])
      exact ⟨x', h1, h2, by rw [h3, count_modify_reflect i hx], (gridFace_flip hl hnl hx hlen).trans h4⟩
  · rintro i hi l hl ⟨hnl, hP⟩
    constructor
    · refine cubeOf_nodup hl hnl _ (fun b hb => by rw [swapAt_length, hb]) ?_
      intro b b' _ _ h
      rw [← swapAt_swapAt i b, h, swapAt_swapAt]
    · intro x hx hlen
      obtain ⟨x', h1, h2, h3, h4⟩ := hP (swapAt i x) (fun a ha => hx a ((swapAt_perm i x).mem_iff.1 ha))
        (by rw [swapAt_length, hlen])
      exact ⟨x', h1, h2, by rw [h3, (swapAt_perm i x).count_eq], (gridFace_swap hl hnl hlen).trans h4⟩

/-! ### stored elements -/

/-- element `i` of level `k` of a topology -/
def Stored (t : Topo) (k i : Nat) (e : List Nat) : Prop := (t.elements[k]?.getD [])[i]? = some e

theorem Stored.lt {t : Topo} {k i : Nat} {e : List Nat} (h : Stored t k i e) : i < t.nElements k :=
  (List.getElem?_eq_some_iff.1 h).1

theorem Stored.unique {t : Topo} {k i : Nat} {e e' : List Nat} (h : Stored t k i e) (h' : Stored t k i e') : e = e' :=
  Option.some.inj (h.symm.trans h')

/-- the number of the vertex that stands for a face of element `i` of level `K` -/
def vnum (t : Topo) (K i : Nat) (f : List Nat) : Nat :=
  if f.length = 2 ^ K then levelOffset t K + i
  else levelOffset t (Nat.log 2 f.length) +
    ((t.elements[Nat.log 2 f.length]?.getD []).map sortRow).idxOf (sortRow f)

theorem vnum_permInv (t : Topo) (K i : Nat) : PermInv (vnum t K i) := by
  intro f f' h
  unfold vnum
  rw [h.length_eq, (sortRow_eq_iff f f').2 h]

theorem idxOf_stored {E : List (List Nat)} (hd : DistinctElements E) {i : Nat} {e f : List Nat} (he : E[i]? = some e)
    (hp : f.Perm e) : (E.map sortRow).idxOf (sortRow f) = i := by
  have hm : sortRow f ∈ E.map sortRow :=
    List.mem_map.2 ⟨e, List.mem_of_getElem? he, ((sortRow_eq_iff _ _).2 hp).symm⟩
  have h1 := List.idxOf_lt_length_of_mem hm
  have h2 : (E.map sortRow)[(E.map sortRow).idxOf (sortRow f)]? = some (sortRow f) := by
    rw [List.getElem?_eq_getElem h1, List.getElem_idxOf]
  rw [List.getElem?_map, Option.map_eq_some_iff] at h2
  obtain ⟨e', h3, h4⟩ := h2
  exact distinct_index hd h3 he (((sortRow_eq_iff _ _).1 h4).trans hp)

section

variable {n : Nat} {top : List (List Nat)} {t : Topo}

theorem CWF.cube (w : CWF n top t) (hn : 1 ≤ n) {K i : Nat} {e : List Nat} (hK : K ≤ n) (h : Stored t K i e) :
    e.length = 2 ^ K ∧ e.Nodup := by
  rcases Nat.lt_or_ge K n with hlt | hge
  · exact (w.get hlt).1 e (List.mem_of_getElem? h)
  · obtain ⟨k, rfl⟩ : ∃ k, K = k + 1 := ⟨K - 1, by omega⟩
    exact (w.get (k := k) (by omega)).2.1 e (List.mem_of_getElem? h)

/-- every side of a stored element is a stored element -/
theorem CWF.side (w : CWF n top t) {k i a : Nat} {e : List Nat} (hk : k + 1 ≤ n) (h : Stored t (k + 1) i e)
    (ha : a ≤ k) (s : Bool) : ∃ i' e', Stored t k i' e' ∧ ∃ σ, SymmetricCube k e' (sliceAxis k a s e) σ := by
  obtain ⟨e', h1, σ, h2⟩ := (w.get (k := k) (by omega)).2.2.2.1.1 e (List.mem_of_getElem? h) a ha s
  obtain ⟨i', hi'⟩ := List.mem_iff_getElem?.1 h1
  rw [side_eq ha] at h2
  exact ⟨i', e', hi', σ, h2⟩

/-- every stored element is a side of a stored element -/
theorem CWF.parent (w : CWF n top t) {k i : Nat} {e : List Nat} (hk : k + 1 ≤ n) (h : Stored t k i e) :
    ∃ i' e', Stored t (k + 1) i' e' ∧ ∃ a ≤ k, ∃ s σ, SymmetricCube k e (sliceAxis k a s e') σ := by
  obtain ⟨e', h1, a, ha, s, σ, h2⟩ := (w.get (k := k) (by omega)).2.2.2.1.2 e (List.mem_of_getElem? h)
  obtain ⟨i', hi'⟩ := List.mem_iff_getElem?.1 h1
  rw [side_eq ha] at h2
  exact ⟨i', e', hi', a, ha, s, σ, h2⟩

/-- every face of a stored element is a stored element -/
theorem gridFace_stored (w : CWF n top t) (hn : 1 ≤ n) : ∀ {K i : Nat} {e : List Nat}, K ≤ n → Stored t K i e →
    ∀ {x : List Nat}, IsPoint x → x.length = K →
    ∃ i' e', Stored t (x.count 1) i' e' ∧ (gridFace e x).Perm e' ∧ (x = List.replicate K 1 → i' = i) := by
  intro K
  induction K with
  | zero =>
    intro i e hK he x hx hlen
    obtain rfl := List.length_eq_zero_iff.1 hlen
    refine ⟨i, e, he, ?_, fun _ => rfl⟩
    exact List.Perm.of_eq (gridFace_middle (n := 0) (w.cube hn hK he).1)
  | succ K ih =>
    intro i e hK he x hx hlen
    have hc := w.cube hn hK he
    rcases hx.cases hlen with rfl | ⟨a, k, hk, ha, s, y, hy, hyp, rfl⟩
    · refine ⟨i, e, ?_, ?_, fun _ => rfl⟩
      · rwa [List.count_replicate_self]
      · rw [gridFace_middle hc.1]
    · obtain rfl : K = k := by omega
      obtain ⟨i', e', h1, σ, h2⟩ := w.side hK he ha s
      have hc' := w.cube hn (by omega) h1
      obtain ⟨y', hy1, hy2, hy3, hy4⟩ := gridFace_symmetric hc'.1 hc'.2 h2 hyp hy
      obtain ⟨i2, e2, h3, h4, -⟩ := ih (by omega) h1 hy2 hy1
      have h1s : 2 * s.toNat ≠ 1 := by cases s <;> simp
      refine ⟨i2, e2, ?_, ?_, ?_⟩
      · rw [count_insertIdx h1s, ← hy3]; exact h3
      · exact (gridFace_slice s ha hc.1 hc.2 hy).symm.trans (hy4.trans h4)
      · intro h
        have := congrArg (List.count 1) h
        rw [count_insertIdx h1s, List.count_replicate_self] at this
        have := List.count_le_length (a := 1) (l := y)
        omega

theorem log_two_pow (k : Nat) : Nat.log 2 (2 ^ k) = k := Nat.log_pow (by omega) k

theorem count_eq_length {x : List Nat} {K : Nat} (hlen : x.length = K) (h : x.count 1 = K) :
    x = List.replicate K 1 := by
  rw [List.eq_replicate_iff]
  exact ⟨hlen, fun b hb => (List.count_eq_length.1 (h.trans hlen.symm) b hb).symm⟩

/-- the vertex that stands for a face -/
theorem vnum_gridFace (w : CWF n top t) (hn : 1 ≤ n) {K i : Nat} {e : List Nat} (hK : K ≤ n) (he : Stored t K i e)
    {x : List Nat} (hx : IsPoint x) (hlen : x.length = K) :
    ∃ i' e', Stored t (x.count 1) i' e' ∧ (gridFace e x).Perm e' ∧ (x = List.replicate K 1 → i' = i) ∧
      vnum t K i (gridFace e x) = levelOffset t (x.count 1) + i' := by
  obtain ⟨i', e', h1, h2, h3⟩ := gridFace_stored w hn hK he hx hlen
  refine ⟨i', e', h1, h2, h3, ?_⟩
  have hle := List.count_le_length (a := 1) (l := x)
  unfold vnum
  rw [gridFace_length hx]
  split
  · next h =>
    have hxc := Nat.pow_right_injective (le_refl 2) h
    rw [hxc, h3 (count_eq_length hlen hxc)]
  · next h =>
    have hlt : x.count 1 < n := by
      have : x.count 1 ≠ K := fun h' => h (by rw [h'])
      omega
    rw [log_two_pow, idxOf_stored (w.get hlt).2.2.1 h1 h2]

/-- the number of a face that is a stored element does not depend on the cube -/
theorem vnum_change (w : CWF n top t) (hn : 1 ≤ n) {K i K' i' : Nat} {e' : List Nat} (hK : K ≤ n) (hK' : K' < K)
    (he' : Stored t K' i' e') {x : List Nat} (hx : IsPoint x) (hlen : x.length = K') :
    vnum t K i (gridFace e' x) = vnum t K' i' (gridFace e' x) := by
  obtain ⟨j, f, h1, h2, -, h4⟩ := vnum_gridFace w hn (by omega) he' hx hlen
  have hle := List.count_le_length (a := 1) (l := x)
  rw [h4]
  unfold vnum
  rw [gridFace_length hx, if_neg, log_two_pow, idxOf_stored (w.get (by omega)).2.2.1 h1 h2]
  intro h
  have := Nat.pow_right_injective (le_refl 2) h
  omega

theorem cell_change (w : CWF n top t) (hn : 1 ≤ n) {K i K' i' : Nat} {e' : List Nat} (hK : K ≤ n) (hK' : K' < K)
    (he' : Stored t K' i' e') {B : Box} (hB : InCube B) (hlen : B.length = K') :
    cell (vnum t K i) e' B = cell (vnum t K' i') e' B := by
  unfold cell
  refine cubeOf_congr fun b _ => ?_
  exact vnum_change w hn hK hK' he' (point_isPoint b hB) (by rw [point_length, hlen])

theorem offs_encode_inj {N : Nat → Nat} {k k' i i' : Nat} (hi : i < N k) (hi' : i' < N k')
    (h : offs N k + i = offs N k' + i') : k = k' ∧ i = i' := by
  have h1 := levelOf_encode N (le_max_left k k') hi
  have h2 := levelOf_encode N (le_max_right k k') hi'
  rw [Nat.add_comm, h, Nat.add_comm] at h1
  have : k = k' := h1.symm.trans h2
  subst this
  exact ⟨rfl, by omega⟩

theorem vnum_inj (w : CWF n top t) (hn : 1 ≤ n) {K i : Nat} {e : List Nat} (hK : K ≤ n) (he : Stored t K i e)
    {x y : List Nat} (hx : IsPoint x) (hy : IsPoint y) (hlen : x.length = K) (hlen' : y.length = K)
    (h : vnum t K i (gridFace e x) = vnum t K i (gridFace e y)) : x = y := by
  obtain ⟨i', e', h1, h2, -, h4⟩ := vnum_gridFace w hn hK he hx hlen
  obtain ⟨i2, e2, g1, g2, -, g4⟩ := vnum_gridFace w hn hK he hy hlen'
  rw [h4, g4] at h
  obtain ⟨h5, rfl⟩ := offs_encode_inj h1.lt g1.lt h
  rw [h5] at h1
  obtain rfl := h1.unique g1
  have hc := w.cube hn hK he
  exact gridFace_perm_inj (by rw [hlen, hc.1]) hc.2 hx hy (by rw [hlen, hlen']) (h2.trans g2.symm)

theorem cell_nodup (w : CWF n top t) (hn : 1 ≤ n) {K i : Nat} {e : List Nat} (hK : K ≤ n) (he : Stored t K i e)
    {B : Box} (hB : InCube B) (hlen : B.length = K) : (cell (vnum t K i) e B).Nodup := by
  unfold cell cubeOf
  refine List.Nodup.map_on ?_ (cubeIndices_nodup _)
  intro b hb b' hb' h
  rw [mem_cubeIndices] at hb hb'
  exact point_inj hb hb' (vnum_inj w hn hK he (point_isPoint b hB) (point_isPoint b' hB)
    (by rw [point_length, hlen]) (by rw [point_length, hlen]) h)

/-! ### reduction to open cells -/

/-- a box that is not open lies in a side -/
theorem InCube.cases {B : Box} {m : Nat} (hB : InCube B) (hlen : B.length = m) :
    OpenBox B ∨ ∃ i k, m = k + 1 ∧ i ≤ k ∧ ∃ (s : Bool) (C : Box), C.length = k ∧ InCube C ∧
      B = C.insertIdx i (2 * s.toNat, false) := by
  by_cases h : OpenBox B
  · exact Or.inl h
  · right
    unfold OpenBox at h
    push Not at h
    obtain ⟨p, hp, h1, h2⟩ := h
    obtain ⟨i, hi, rfl⟩ := List.getElem_of_mem hp
    obtain ⟨k, rfl⟩ : ∃ k, m = k + 1 := ⟨m - 1, by omega⟩
    have h3 := hB _ hp
    have hs : B[i] = (2 * (B[i].1 == 2).toNat, false) := by
      generalize B[i] = p at *
      obtain ⟨a, u⟩ := p
      cases u
      · simp at h2 h3
        interval_cases a <;> simp_all
      · simp at h1
    refine ⟨i, k, rfl, by omega, B[i].1 == 2, B.eraseIdx i, ?_, ?_, ?_⟩
    · rw [List.length_eraseIdx, if_pos hi]; omega
    · exact fun c hc => hB c (List.mem_of_mem_eraseIdx hc)
    · rw [← hs, insertIdx_eraseIdx_self i B _ (List.getElem?_eq_getElem hi)]

/-- every cell of a stored element is an open cell of a stored element, listed along other axes -/
theorem cell_reduce (w : CWF n top t) (hn : 1 ≤ n) : ∀ {K i : Nat} {e : List Nat}, K ≤ n → Stored t K i e →
    ∀ {B : Box}, InCube B → B.length = K →
    ∃ K' i' e' B', K' ≤ K ∧ Stored t K' i' e' ∧ B'.length = K' ∧ InCube B' ∧ OpenBox B' ∧ free B' = free B ∧
      ∃ τ, SymmetricCube (free B) (cell (vnum t K' i') e' B') (cell (vnum t K i) e B) τ := by
  intro K
  induction K with
  | zero =>
    intro i e hK he B hB hlen
    obtain rfl := List.length_eq_zero_iff.1 hlen
    exact ⟨0, i, e, [], le_refl 0, he, rfl, hB, by simp [OpenBox], rfl, 1, SymmetricCube.refl (cell_length _ _ _)⟩
  | succ K ih =>
    intro i e hK he B hB hlen
    have hc := w.cube hn hK he
    rcases hB.cases hlen with ho | ⟨a, k, hk, ha, s, C, hC, hCi, rfl⟩
    · exact ⟨K + 1, i, e, B, le_refl _, he, hlen, hB, ho, rfl, 1, SymmetricCube.refl (cell_length _ _ _)⟩
    · obtain rfl : K = k := by omega
      obtain ⟨i', e', h1, σ, h2⟩ := w.side hK he ha s
      have hc' := w.cube hn (by omega) h1
      obtain ⟨D, hD1, hD2, hD3, -, τ, hτ⟩ := cell_symmetric (vnum_permInv t (K + 1) i) hc'.1 hc'.2 h2 hC hCi
      obtain ⟨K2, i2, e2, B2, g1, g2, g3, g4, g5, g6, ρ, hρ⟩ := ih (by omega) h1 hD2 hD1
      rw [cell_change w hn hK (by omega) h1 hD2 hD1] at hτ
      refine ⟨K2, i2, e2, B2, by omega, g2, g3, g4, g5, ?_, ρ * τ, ?_⟩
      · rw [free_insertIdx, g6, hD3]
      · rw [free_insertIdx, ← cell_slice (vnum_permInv t (K + 1) i) hc.1 hc.2 hC ha s]
        rw [hD3] at hρ
        exact hρ.trans (by rw [cell_length, g6, hD3]) (cell_nodup w hn (by omega) g2 g4 g3) hτ

/-- the middle of an open box -/
theorem OpenBox.middle : ∀ {B : Box}, OpenBox B → InCube B → ∃ b : List Bool, b.length = free B ∧
    point B b = List.replicate B.length 1
  | [], _, _ => ⟨[], rfl, rfl⟩
  | (a, false) :: B, h, hi => by
    obtain ⟨b, h1, h2⟩ := OpenBox.middle (fun q hq => h q (List.mem_cons_of_mem _ hq)) (InCube.cons.1 hi).2
    have := h (a, false) List.mem_cons_self
    simp at this
    exact ⟨b, by simpa [free] using h1, by simp [point, this, h2, List.replicate_succ]⟩
  | (a, true) :: B, h, hi => by
    obtain ⟨b, h1, h2⟩ := OpenBox.middle (fun q hq => h q (List.mem_cons_of_mem _ hq)) (InCube.cons.1 hi).2
    have := (InCube.cons.1 hi).1
    simp at this
    refine ⟨(a == 0) :: b, by simp [free, h1], ?_⟩
    simp only [point, List.headD_cons, List.tail_cons, h2, List.length_cons, List.replicate_succ, List.cons.injEq,
      and_true]
    interval_cases a <;> rfl

theorem vnum_middle (w : CWF n top t) (hn : 1 ≤ n) {K i : Nat} {e : List Nat} (hK : K ≤ n) (he : Stored t K i e) :
    vnum t K i (gridFace e (List.replicate K 1)) = levelOffset t K + i := by
  rw [gridFace_middle (w.cube hn hK he).1, vnum, if_pos (w.cube hn hK he).1]

theorem vnum_le (w : CWF n top t) (hn : 1 ≤ n) {K i : Nat} {e : List Nat} (hK : K ≤ n) (he : Stored t K i e)
    {x : List Nat} (hx : IsPoint x) (hlen : x.length = K) :
    vnum t K i (gridFace e x) ≤ levelOffset t K + i := by
  obtain ⟨i', e', h1, h2, h3, h4⟩ := vnum_gridFace w hn hK he hx hlen
  rw [h4]
  have hle := List.count_le_length (a := 1) (l := x)
  rcases Nat.lt_or_ge (x.count 1) K with hlt | hge
  · have g1 := offs_mono t.nElements (show x.count 1 + 1 ≤ K by omega)
    have g2 := offs_succ t.nElements (x.count 1)
    have g3 := h1.lt
    show offs t.nElements _ + i' ≤ offs t.nElements _ + i
    omega
  · have hxc : x.count 1 = K := by omega
    rw [hxc, h3 (count_eq_length hlen hxc)]

/-- open cells with the same vertices are the same -/
theorem cell_unique (w : CWF n top t) (hn : 1 ≤ n) {K i K' i' : Nat} {e e' : List Nat} (hK : K ≤ n) (hK' : K' ≤ n)
    (he : Stored t K i e) (he' : Stored t K' i' e') {B B' : Box} (hB : InCube B) (hB' : InCube B') (hlen : B.length = K)
    (hlen' : B'.length = K') (ho : OpenBox B) (ho' : OpenBox B')
    (hp : (cell (vnum t K i) e B).Perm (cell (vnum t K' i') e' B')) : K = K' ∧ i = i' ∧ B = B' := by
  have hmax : ∀ {K i K' i' : Nat} {e e' : List Nat}, K ≤ n → K' ≤ n → Stored t K i e → Stored t K' i' e' →
      ∀ {B B' : Box}, InCube B → InCube B' → B.length = K → B'.length = K' → OpenBox B →
      (∀ v, v ∈ cell (vnum t K i) e B → v ∈ cell (vnum t K' i') e' B') →
      levelOffset t K + i ≤ levelOffset t K' + i' := by
    intro K i K' i' e e' hK hK' he he' B B' hB hB' hlen hlen' ho hv
    obtain ⟨b, hb, hm⟩ := ho.middle hB
    obtain ⟨b', hb', h2⟩ := mem_cell.1 (hv _ (mem_cell.2 ⟨b, hb, rfl⟩))
    rw [hm, hlen, vnum_middle w hn hK he] at h2
    rw [← h2]
    exact vnum_le w hn hK' he' (point_isPoint b' hB') (by rw [point_length, hlen'])
  have h1 := hmax hK hK' he he' hB hB' hlen hlen' ho (fun v => hp.mem_iff.1)
  have h2 := hmax hK' hK he' he hB' hB hlen' hlen ho' (fun v => hp.mem_iff.2)
  obtain ⟨rfl, rfl⟩ := offs_encode_inj he.lt he'.lt (Nat.le_antisymm h1 h2)
  obtain rfl := he.unique he'
  refine ⟨rfl, rfl, box_ext (by rw [hlen, hlen']) ?_⟩
  have key : ∀ {B B' : Box}, InCube B → InCube B' → B.length = K → B'.length = K →
      (∀ v, v ∈ cell (vnum t K i) e B → v ∈ cell (vnum t K i) e B') →
      ∀ v, (∃ b : List Bool, b.length = free B ∧ point B b = v) → ∃ b : List Bool, b.length = free B' ∧ point B' b = v := by
    rintro B B' hB hB' hlen hlen' hv v ⟨b, hb, rfl⟩
    obtain ⟨b', hb', h2⟩ := mem_cell.1 (hv _ (mem_cell.2 ⟨b, hb, rfl⟩))
    exact ⟨b', hb', vnum_inj w hn hK he (point_isPoint b' hB') (point_isPoint b hB) (by rw [point_length, hlen'])
      (by rw [point_length, hlen]) h2⟩
  exact fun v => ⟨key hB hB' hlen hlen' (fun v => hp.mem_iff.1) v, key hB' hB hlen' hlen (fun v => hp.mem_iff.2) v⟩

/-- every cell of a stored element is a cell of a top cube, listed along other axes -/
theorem cell_lift (w : CWF n top t) (hn : 1 ≤ n) : ∀ {d K i : Nat} {e : List Nat}, K + d = n → Stored t K i e →
    ∀ {B : Box}, InCube B → B.length = K →
    ∃ j l C, Stored t n j l ∧ C.length = n ∧ InCube C ∧ free C = free B ∧
      ∃ τ, SymmetricCube (free B) (cell (vnum t n j) l C) (cell (vnum t K i) e B) τ := by
  intro d
  induction d with
  | zero =>
    intro K i e hK he B hB hlen
    obtain rfl : K = n := by omega
    exact ⟨i, e, B, he, hlen, hB, rfl, 1, SymmetricCube.refl (cell_length _ _ _)⟩
  | succ d ih =>
    intro K i e hK he B hB hlen
    obtain ⟨i', e', h1, a, ha, s, σ, h2⟩ := w.parent (by omega) he
    have hc := w.cube hn (by omega) he
    have hc' := w.cube hn (by omega) h1
    have hsl := sliceAxis_length K a s e'
    have hsn := sliceAxis_nodup ha s hc'.1 hc'.2
    obtain ⟨D, hD1, hD2, hD3, -, τ, hτ⟩ := cell_symmetric (vnum_permInv t (K + 1) i') hsl hsn (h2.symm hc.1 hc.2) hlen hB
    rw [cell_change w hn (by omega) (by omega) he hB hlen, cell_slice (vnum_permInv t (K + 1) i') hc'.1 hc'.2 hD1 ha s] at hτ
    have hI : InCube (D.insertIdx a (2 * s.toNat, false)) := by
      intro p hp
      rcases (List.mem_insertIdx (by omega)).1 hp with rfl | hp
      · cases s <;> simp
      · exact hD2 p hp
    have hIl : (D.insertIdx a (2 * s.toNat, false)).length = K + 1 := by
      rw [List.length_insertIdx, if_pos (by omega), hD1]
    obtain ⟨j, l, C, g1, g2, g3, g4, ρ, hρ⟩ := ih (by omega) h1 hI hIl
    rw [free_insertIdx, hD3] at g4 hρ
    refine ⟨j, l, C, g1, g2, g3, g4, ρ * τ, ?_⟩
    exact hρ.trans (by rw [cell_length, g4]) (cell_nodup w hn (le_refl n) g1 g3 g2) hτ

end

end Verif
