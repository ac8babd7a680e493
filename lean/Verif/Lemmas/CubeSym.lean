/-
Symmetries of cubes: composition with reversals and exchanges of axes, signs, and the lookup table.
-/
import Verif.Lemmas.CubeAlt

set_option linter.unusedSectionVars false

namespace Verif

open Verif.Model Verif.Spec

variable {n : Nat}

theorem turnIndex_length (axes : List Nat) (flips b : List Bool) : (turnIndex n axes flips b).length = n := by
  simp [turnIndex]

theorem turnIndex_get {axes : List Nat} {flips b : List Bool} {j : Nat} (hj : j < n) :
    (turnIndex n axes flips b)[j]? =
      some (xor (b[axes.idxOf j]?.getD false) (flips[axes.idxOf j]?.getD false)) := by
  rw [turnIndex, List.getElem?_map, List.getElem?_range hj]
  rfl

theorem turn_length (axes : List Nat) (flips : List Bool) (l : List Nat) :
    (turn n axes flips l).length = 2 ^ n := cubeOf_length _ _

theorem Spec.IsSymmetry.length {axes : List Nat} {flips : List Bool} (h : IsSymmetry n axes flips) :
    axes.length = n := by rw [h.1.length_eq, List.length_range]

theorem Spec.IsSymmetry.nodup {axes : List Nat} {flips : List Bool} (h : IsSymmetry n axes flips) :
    axes.Nodup := h.1.nodup_iff.mpr List.nodup_range

theorem Spec.IsSymmetry.mem {axes : List Nat} {flips : List Bool} (h : IsSymmetry n axes flips) {j : Nat}
    (hj : j < n) : j ∈ axes := h.1.mem_iff.mpr (List.mem_range.2 hj)

theorem Spec.IsSymmetry.idxOf_lt {axes : List Nat} {flips : List Bool} (h : IsSymmetry n axes flips) {j : Nat}
    (hj : j < n) : axes.idxOf j < n := by
  have := List.idxOf_lt_length_of_mem (h.mem hj)
  rwa [h.length] at this

theorem swapAt_perm {α : Type} : ∀ (i : Nat) (l : List α), (swapAt i l).Perm l
  | 0, [] => List.Perm.refl _
  | 0, [_] => List.Perm.refl _
  | 0, _ :: _ :: _ => List.Perm.swap _ _ _
  | _ + 1, [] => List.Perm.refl _
  | i + 1, _ :: t => (swapAt_perm i t).cons _

/-- reading at the new place of an entry -/
theorem get_swapAt {β : Type} {j : Nat} : ∀ (i : Nat) (axes : List Nat) (x : List β), axes.length = x.length →
    axes.Nodup → j ∈ axes → x[(swapAt i axes).idxOf j]? = (swapAt i x)[axes.idxOf j]?
  | _, [], _, _, _, h => by simp at h
  | 0, [a], x, h, _, _ => by
    rcases x with _ | ⟨x0, _ | ⟨x1, x⟩⟩
    · simp at h
    · rfl
    · simp at h
  | 0, a :: b :: t, x, h, hn, hj => by
    rcases x with _ | ⟨x0, _ | ⟨x1, x⟩⟩
    · simp at h
    · simp at h
    · simp only [List.nodup_cons, List.mem_cons, not_or] at hn
      simp only [swapAt, List.idxOf_cons]
      by_cases h1 : a = j
      · subst h1
        have : (b == a) = false := by simpa using fun e : b = a => hn.1.1 e.symm
        simp [this]
      · by_cases h2 : b = j
        · subst h2
          have : (a == b) = false := by simpa using h1
          simp [this]
        · have e1 : (a == j) = false := by simpa using h1
          have e2 : (b == j) = false := by simpa using h2
          simp [e1, e2]
  | i + 1, a :: t, x, h, hn, hj => by
    rcases x with _ | ⟨x0, x⟩
    · simp at h
    · rw [List.nodup_cons] at hn
      simp only [swapAt, List.idxOf_cons]
      by_cases h1 : a = j
      · simp [h1]
      · have hjt : j ∈ t := by
          rcases List.mem_cons.mp hj with rfl | hj
          · exact absurd rfl h1
          · exact hj
        have := get_swapAt i t x (by simpa using h) hn.2 hjt
        have e1 : (a == j) = false := by simpa using h1
        simp [e1, this]

theorem turnIndex_swapAt {axes : List Nat} {flips : List Bool} (h : IsSymmetry n axes flips) (i : Nat)
    {b : List Bool} (hb : b.length = n) :
    turnIndex n axes flips (swapAt i b) = turnIndex n (swapAt i axes) (swapAt i flips) b := by
  unfold turnIndex
  refine List.map_congr_left fun j hj => ?_
  have hj := h.mem (List.mem_range.1 hj)
  rw [← get_swapAt i axes b (by rw [h.length, hb]) h.nodup hj]
  have := get_swapAt i axes (swapAt i flips) (by rw [swapAt_length, h.length, h.2]) h.nodup hj
  rw [swapAt_swapAt] at this
  rw [this]

theorem Spec.IsSymmetry.swapped {axes : List Nat} {flips : List Bool} (h : IsSymmetry n axes flips) (i : Nat) :
    IsSymmetry n (swapAt i axes) (swapAt i flips) :=
  ⟨(swapAt_perm i axes).trans h.1, by rw [swapAt_length, h.2]⟩

theorem swapAxes_turn {axes : List Nat} {flips : List Bool} (h : IsSymmetry n axes flips) (i : Nat)
    (l : List Nat) : swapAxes n i (turn n axes flips l) = turn n (swapAt i axes) (swapAt i flips) l := by
  unfold turn
  rw [swapAxes_cubeOf]
  exact cubeOf_congr fun b hb => by rw [turnIndex_swapAt h i hb]

theorem turnIndex_modify {axes : List Nat} {flips : List Bool} (h : IsSymmetry n axes flips) (i : Nat)
    {b : List Bool} (hb : b.length = n) :
    turnIndex n axes flips (b.modify i not) = turnIndex n axes (flips.modify i not) b := by
  unfold turnIndex
  refine List.map_congr_left fun j hj => ?_
  have hk := h.idxOf_lt (List.mem_range.1 hj)
  have h1 : axes.idxOf j < b.length := by omega
  have h2 : axes.idxOf j < flips.length := by rw [h.2]; omega
  rw [List.getElem?_modify, List.getElem?_modify, List.getElem?_eq_getElem h1,
    List.getElem?_eq_getElem h2]
  simp only [Option.map_eq_map, Option.map_some, Option.getD_some]
  split
  · cases b[axes.idxOf j] <;> cases flips[axes.idxOf j] <;> rfl
  · rfl

theorem Spec.IsSymmetry.modified {axes : List Nat} {flips : List Bool} (h : IsSymmetry n axes flips) (i : Nat) :
    IsSymmetry n axes (flips.modify i not) := ⟨h.1, by rw [List.length_modify, h.2]⟩

theorem flipAxis_turn {axes : List Nat} {flips : List Bool} (h : IsSymmetry n axes flips) (i : Nat)
    (l : List Nat) : flipAxis n i (turn n axes flips l) = turn n axes (flips.modify i not) l := by
  unfold turn
  rw [flipAxis_cubeOf]
  exact cubeOf_congr fun b hb => by rw [turnIndex_modify h i hb]

theorem isSymmetry_refl (n : Nat) : IsSymmetry n (List.range n) (List.replicate n false) :=
  ⟨List.Perm.refl _, by simp⟩

theorem turn_refl {l : List Nat} (hl : l.length = 2 ^ n) :
    turn n (List.range n) (List.replicate n false) l = l := by
  refine Eq.trans (cubeOf_congr fun b hb => ?_) (cubeOf_self hl)
  congr 1
  apply List.ext_getElem (by rw [turnIndex_length, hb])
  intro j h1 h2
  rw [turnIndex_length] at h1
  have h3 : (List.range n).idxOf j = j := by
    have := (List.nodup_range (n := n)).idxOf_getElem j (by simpa using h1)
    simpa using this
  have := turnIndex_get (n := n) (axes := List.range n) (flips := List.replicate n false) (b := b) h1
  rw [List.getElem?_eq_getElem (by rw [turnIndex_length]; exact h1), h3,
    List.getElem?_eq_getElem h2, List.getElem?_replicate, if_pos h1] at this
  simpa using this

/-! ### signs -/

theorem sgn_swapAt {i : Nat} {axes : List Nat} (h : i + 1 < axes.length) : sgn (swapAt i axes) = - sgn axes := by
  obtain ⟨u, a, b, v, rfl, -, h2⟩ := swapAt_split i axes h
  rw [h2]
  exact alt_sgn u b a v

theorem neg_one_pow_modify : ∀ (i : Nat) (flips : List Bool), i < flips.length →
    (-1 : ℤ) ^ (flips.modify i not).count true = - (-1) ^ flips.count true
  | _, [], h => by simp at h
  | 0, a :: t, _ => by cases a <;> simp [pow_succ]
  | i + 1, a :: t, h => by
    have := neg_one_pow_modify i t (by simpa using h)
    cases a
    · simpa using this
    · simp [pow_succ, this]

theorem symmetrySign_swapAt {axes : List Nat} {flips : List Bool} (h : IsSymmetry n axes flips) {i : Nat}
    (hi : i + 1 < n) :
    symmetrySign (swapAt i axes) (swapAt i flips) = - symmetrySign axes flips := by
  unfold symmetrySign
  rw [sgn_swapAt (by rw [h.length]; exact hi), (swapAt_perm i flips).count_eq]
  ring

theorem symmetrySign_modify {axes : List Nat} {flips : List Bool} (h : IsSymmetry n axes flips) {i : Nat}
    (hi : i < n) : symmetrySign axes (flips.modify i not) = - symmetrySign axes flips := by
  unfold symmetrySign
  rw [neg_one_pow_modify i flips (by rw [h.2]; exact hi)]
  ring

theorem sgn_range (n : Nat) : sgn (List.range n) = 1 := by
  unfold sgn
  rw [if_pos List.nodup_range, inversions_of_sorted List.pairwise_le_range, pow_zero]

theorem symmetrySign_refl (n : Nat) : symmetrySign (List.range n) (List.replicate n false) = 1 := by
  unfold symmetrySign
  rw [sgn_range]
  simp [List.count_replicate]

theorem symmetrySign_eq {axes : List Nat} {flips : List Bool} (h : IsSymmetry n axes flips) :
    symmetrySign axes flips = (-1) ^ (inversions axes + flips.count true) := by
  unfold symmetrySign sgn
  rw [if_pos h.nodup, pow_add]

theorem neg_one_pow_eq (k : Nat) : (-1 : ℤ) ^ k = 1 ∨ (-1 : ℤ) ^ k = -1 := by
  rcases Nat.even_or_odd k with h | h
  · exact Or.inl h.neg_one_pow
  · exact Or.inr h.neg_one_pow

theorem Spec.SymmetricCube.refl {l : List Nat} (hl : l.length = 2 ^ n) : SymmetricCube n l l 1 :=
  ⟨_, _, isSymmetry_refl n, (turn_refl hl).symm, (symmetrySign_refl n).symm⟩

theorem Spec.SymmetricCube.sign {e l : List Nat} {s : ℤ} (h : SymmetricCube n e l s) : s = 1 ∨ s = -1 := by
  obtain ⟨axes, flips, h1, -, rfl⟩ := h
  rw [symmetrySign_eq h1]
  exact neg_one_pow_eq _

theorem Spec.SymmetricCube.length {e l : List Nat} {s : ℤ} (h : SymmetricCube n e l s) : l.length = 2 ^ n := by
  obtain ⟨axes, flips, -, rfl, -⟩ := h
  exact turn_length _ _ _

theorem Spec.SymmetricCube.flip {e l : List Nat} {s : ℤ} (h : SymmetricCube n e l s) {i : Nat} (hi : i < n) :
    SymmetricCube n e (flipAxis n i l) (-s) := by
  obtain ⟨axes, flips, h1, rfl, rfl⟩ := h
  exact ⟨axes, _, h1.modified i, flipAxis_turn h1 i e, (symmetrySign_modify h1 hi).symm⟩

theorem Spec.SymmetricCube.swap {e l : List Nat} {s : ℤ} (h : SymmetricCube n e l s) {i : Nat} (hi : i + 1 < n) :
    SymmetricCube n e (swapAxes n i l) (-s) := by
  obtain ⟨axes, flips, h1, rfl, rfl⟩ := h
  exact ⟨_, _, h1.swapped i, swapAxes_turn h1 i e, (symmetrySign_swapAt h1 hi).symm⟩

theorem turn_inj {e : List Nat} (he : e.length = 2 ^ n) (hn : e.Nodup) {axes axes' : List Nat}
    {flips flips' : List Bool} (h : IsSymmetry n axes flips) (h' : IsSymmetry n axes' flips')
    (heq : turn n axes flips e = turn n axes' flips' e) : axes = axes' ∧ flips = flips' := by
  have hidx : ∀ b : List Bool, b.length = n → turnIndex n axes flips b = turnIndex n axes' flips' b := by
    intro b hb
    refine cubeAt_inj he hn (turnIndex_length _ _ _) (turnIndex_length _ _ _) ?_
    have := congrArg (fun l => cubeAt l b) heq
    simp only [turn] at this
    rwa [cubeAt_cubeOf _ hb, cubeAt_cubeOf _ hb] at this
  have hent : ∀ b : List Bool, b.length = n → ∀ j < n,
      xor (b[axes.idxOf j]?.getD false) (flips[axes.idxOf j]?.getD false) =
        xor (b[axes'.idxOf j]?.getD false) (flips'[axes'.idxOf j]?.getD false) := by
    intro b hb j hj
    have := congrArg (fun x => x[j]?) (hidx b hb)
    simp only [turnIndex_get hj] at this
    exact Option.some.inj this
  have hflip : ∀ j < n, flips[axes.idxOf j]?.getD false = flips'[axes'.idxOf j]?.getD false := by
    intro j hj
    have := hent (List.replicate n false) (by simp) j hj
    simpa [List.getElem?_replicate, h.idxOf_lt hj, h'.idxOf_lt hj] using this
  have hpos : ∀ j < n, axes'.idxOf j = axes.idxOf j := by
    intro j hj
    have := hent ((List.range n).map fun k => k == axes.idxOf j) (by simp) j hj
    rw [List.getElem?_map, List.getElem?_map, List.getElem?_range (h.idxOf_lt hj),
      List.getElem?_range (h'.idxOf_lt hj), hflip j hj] at this
    simp only [Option.map_some, Option.getD_some, beq_self_eq_true] at this
    rw [← beq_iff_eq]
    generalize (axes'.idxOf j == axes.idxOf j) = q at this ⊢
    generalize flips'[axes'.idxOf j]?.getD false = r at this
    revert this
    cases q <;> cases r <;> decide
  have haxes : axes = axes' := by
    apply List.ext_getElem (by rw [h.length, h'.length])
    intro k h1 h2
    have hk : axes[k] < n := List.mem_range.1 (h.1.mem_iff.mp (List.getElem_mem _))
    have h3 := hpos _ hk
    rw [h.nodup.idxOf_getElem k h1] at h3
    have h4 := List.getElem_idxOf (List.idxOf_lt_length_of_mem (h'.mem hk))
    simp only [h3] at h4
    exact h4.symm
  refine ⟨haxes, ?_⟩
  apply List.ext_getElem (by rw [h.2, h'.2])
  intro k h1 h2
  have h3 : k < axes.length := by rw [h.length, ← h.2]; exact h1
  have hk : axes[k] < n := List.mem_range.1 (h.1.mem_iff.mp (List.getElem_mem _))
  have h4 := hflip _ hk
  rw [← haxes, h.nodup.idxOf_getElem k h3, List.getElem?_eq_getElem h1, List.getElem?_eq_getElem h2] at h4
  simpa using h4

/-- the sign of a symmetric cube is determined -/
theorem Spec.SymmetricCube.unique {e l : List Nat} (he : e.length = 2 ^ n) (hn : e.Nodup) {s s' : ℤ}
    (h : SymmetricCube n e l s) (h' : SymmetricCube n e l s') : s = s' := by
  obtain ⟨axes, flips, h1, h2, rfl⟩ := h
  obtain ⟨axes', flips', h1', h2', rfl⟩ := h'
  obtain ⟨rfl, rfl⟩ := turn_inj he hn h1 h1' (h2.symm.trans h2')
  rfl

/-- an alternating function of a symmetric cube -/
theorem CAlt.turn {φ : List Nat → ℤ} (hφ : CAlt n φ) {e : List Nat} (he : e.length = 2 ^ n)
    {axes : List Nat} {flips : List Bool} (h : IsSymmetry n axes flips) :
    φ (turn n axes flips e) = symmetrySign axes flips * φ e := by
  -- the flips
  have hflips : ∀ m, ∀ flips : List Bool, flips.count true = m → IsSymmetry n axes flips →
      φ (Spec.turn n axes flips e) = (-1) ^ m * φ (Spec.turn n axes (List.replicate n false) e) := by
    intro m
    induction m with
    | zero =>
      intro flips hm hs
      have : flips = List.replicate n false := by
        rw [List.eq_replicate_iff]
        refine ⟨hs.2, fun b hb => ?_⟩
        cases b with
        | false => rfl
        | true => exact absurd hb (List.count_eq_zero.mp hm)
      rw [this]
      simp
    | succ m ih =>
      intro flips hm hs
      have hmem : true ∈ flips := List.count_pos_iff.mp (by omega)
      have hi : flips.idxOf true < n := by
        have := List.idxOf_lt_length_of_mem hmem
        rwa [hs.2] at this
      have hcount : (flips.modify (flips.idxOf true) not).count true = m := by
        have key : ∀ f : List Bool, true ∈ f → (f.modify (f.idxOf true) not).count true + 1 = f.count true := by
          intro f
          induction f with
          | nil => intro h; simp at h
          | cons a t ih =>
            intro ht
            cases a with
            | true => simp
            | false =>
              have := ih (by simpa using ht)
              simpa [List.idxOf_cons] using this
        have := key flips hmem
        omega
      have := ih _ hcount (hs.modified _)
      rw [← flipAxis_turn hs, hφ.flip _ hi _ (turn_length _ _ _)] at this
      rw [pow_succ]
      linarith
  -- the axes
  have hperm : φ (Spec.turn n axes (List.replicate n false) e) = sgn axes * φ e := by
    set ψ : List Nat → ℤ := fun a => if a.Perm (List.range n) then
      φ (Spec.turn n a (List.replicate n false) e) else 0 with hψ
    have hrep : ∀ i, swapAt i (List.replicate n false) = List.replicate n false := by
      intro i
      rw [List.eq_replicate_iff]
      refine ⟨by rw [swapAt_length, List.length_replicate], fun b hb => ?_⟩
      exact List.eq_of_mem_replicate ((swapAt_perm i _).mem_iff.mp hb)
    have hsw : ∀ (u : List Nat) (a b : Nat) (v : List Nat),
        swapAt u.length (u ++ a :: b :: v) = u ++ b :: a :: v := by
      intro u a b v
      induction u with
      | nil => rfl
      | cons x u ih => simp [swapAt, ih]
    have halt : Alt ψ := by
      intro u a b v
      simp only [hψ]
      have hp : (u ++ a :: b :: v).Perm (u ++ b :: a :: v) :=
        List.Perm.append_left _ (List.Perm.swap _ _ _)
      by_cases hr : (u ++ b :: a :: v).Perm (List.range n)
      · rw [if_pos (hp.trans hr), if_pos hr]
        have hs : IsSymmetry n (u ++ b :: a :: v) (List.replicate n false) := ⟨hr, by simp⟩
        have h1 := swapAxes_turn hs u.length e
        rw [hrep, hsw] at h1
        rw [← h1, hφ.swap _ _ _ (turn_length _ _ _)]
        have := hs.length
        simp at this
        omega
      · rw [if_neg fun h => hr (hp.symm.trans h), if_neg hr, neg_zero]
    have h1 := halt.eq_relSign (List.nodup_range (n := n)) h.1
    simp only [hψ] at h1
    rw [if_pos h.1, if_pos (List.Perm.refl _), turn_refl he] at h1
    rw [h1, smul_eq_mul]
    congr 1
    unfold relSign
    rw [if_pos (List.isPerm_iff.mpr h.1)]
    congr 1
    have : ∀ x ∈ axes, (List.range n).idxOf x = x := by
      intro x hx
      have hx := List.mem_range.1 (h.1.mem_iff.mp hx)
      have := (List.nodup_range (n := n)).idxOf_getElem x (by simpa using hx)
      simpa using this
    rw [List.map_congr_left this, List.map_id']
  rw [hflips _ flips rfl h, hperm]
  unfold symmetrySign
  ring

theorem CAlt.symmetric {φ : List Nat → ℤ} (hφ : CAlt n φ) {e l : List Nat} {s : ℤ} (he : e.length = 2 ^ n)
    (h : SymmetricCube n e l s) : φ l = s * φ e := by
  obtain ⟨axes, flips, h1, rfl, rfl⟩ := h
  exact hφ.turn he h1

open Classical in
/-- sign of a cube relative to another one with the same corners, zero if they are not symmetric -/
noncomputable def csign (n : Nat) (e l : List Nat) : ℤ :=
  if h : ∃ s, SymmetricCube n e l s then h.choose else 0

theorem csign_eq {e l : List Nat} (he : e.length = 2 ^ n) (hn : e.Nodup) {s : ℤ}
    (h : SymmetricCube n e l s) : csign n e l = s := by
  unfold csign
  have : ∃ s, SymmetricCube n e l s := ⟨s, h⟩
  rw [dif_pos this]
  exact SymmetricCube.unique he hn this.choose_spec h

theorem csign_none {e l : List Nat} (h : ¬ ∃ s, SymmetricCube n e l s) : csign n e l = 0 := by
  unfold csign
  rw [dif_neg h]

theorem calt_csign {e : List Nat} (he : e.length = 2 ^ n) (hn : e.Nodup) : CAlt n (csign n e) := by
  constructor
  · intro i hi l hl
    by_cases h : ∃ s, SymmetricCube n e l s
    · obtain ⟨s, h⟩ := h
      rw [csign_eq he hn h, csign_eq he hn (h.flip hi)]
    · rw [csign_none h, csign_none, neg_zero]
      rintro ⟨s, hs⟩
      have := hs.flip hi
      rw [flipAxis_flipAxis hl] at this
      exact h ⟨_, this⟩
  · intro i hi l hl
    by_cases h : ∃ s, SymmetricCube n e l s
    · obtain ⟨s, h⟩ := h
      rw [csign_eq he hn h, csign_eq he hn (h.swap hi)]
    · rw [csign_none h, csign_none, neg_zero]
      rintro ⟨s, hs⟩
      have := hs.swap hi
      rw [swapAxes_swapAxes hl] at this
      exact h ⟨_, this⟩

/-- turning a cube rearranges its corners -/
theorem turn_perm {l : List Nat} (hl : l.length = 2 ^ n) {axes : List Nat} {flips : List Bool}
    (h : IsSymmetry n axes flips) : (turn n axes flips l).Perm l := by
  -- through positions
  have hinj : ∀ b b' : List Bool, b.length = n → b'.length = n →
      turnIndex n axes flips b = turnIndex n axes flips b' → b = b' := by
    intro b b' hb hb' he
    apply List.ext_getElem (hb.trans hb'.symm)
    intro k h1 h2
    have h3 : k < axes.length := by rw [h.length, ← hb]; exact h1
    have hk : axes[k] < n := List.mem_range.1 (h.1.mem_iff.mp (List.getElem_mem _))
    have := congrArg (fun x => x[axes[k]]?) he
    simp only [turnIndex_get hk] at this
    rw [h.nodup.idxOf_getElem k h3, List.getElem?_eq_getElem h1, List.getElem?_eq_getElem h2] at this
    simpa using this
  have hp : (cubeOf n fun b => cubeAt (List.range (2 ^ n)) (turnIndex n axes flips b)).Perm
      (List.range (2 ^ n)) := by
    have hnd : (cubeOf n fun b => cubeAt (List.range (2 ^ n)) (turnIndex n axes flips b)).Nodup :=
      cubeOf_nodup (n := n) (by simp) List.nodup_range _ (fun b _ => turnIndex_length _ _ _) hinj
    have hsub : (cubeOf n fun b => cubeAt (List.range (2 ^ n)) (turnIndex n axes flips b)) ⊆
        List.range (2 ^ n) := by
      intro v hv
      obtain ⟨b, -, rfl⟩ := List.mem_map.mp hv
      exact cubeAt_mem (by simp) (turnIndex_length _ _ _)
    exact (hnd.subperm hsub).perm_of_length_le (by rw [cubeOf_length, List.length_range])
  have hmap := hp.map (fun x => l[x]?.getD 0)
  have h1 : (List.range (2 ^ n)).map (fun x => l[x]?.getD 0) = l := by
    apply List.ext_getElem (by simp [hl])
    intro i _ h2
    simp [List.getElem?_eq_getElem h2]
  have h2 : (cubeOf n fun b => cubeAt (List.range (2 ^ n)) (turnIndex n axes flips b)).map
      (fun x => l[x]?.getD 0) = turn n axes flips l := by
    unfold turn cubeOf
    rw [List.map_map]
    refine List.map_congr_left fun b _ => ?_
    have hlt := ravel_lt (turnIndex n axes flips b)
    rw [turnIndex_length] at hlt
    simp [cubeAt, hlt]
  rw [h1, h2] at hmap
  exact hmap

theorem Spec.SymmetricCube.perm {e l : List Nat} {s : ℤ} (he : e.length = 2 ^ n) (h : SymmetricCube n e l s) :
    l.Perm e := by
  obtain ⟨axes, flips, h1, rfl, rfl⟩ := h
  exact turn_perm he h1

/-- the relation is symmetric -/
theorem Spec.SymmetricCube.symm {e l : List Nat} {s : ℤ} (he : e.length = 2 ^ n) (hn : e.Nodup)
    (h : SymmetricCube n e l s) : SymmetricCube n l e s := by
  have hp := h.perm he
  have hl := h.length
  have hln : l.Nodup := hp.nodup_iff.mpr hn
  have h1 := (calt_csign hl hln).symmetric he h
  rw [csign_eq hl hln (SymmetricCube.refl hl)] at h1
  have hne : csign n l e ≠ 0 := by
    intro h0
    rw [h0, mul_zero] at h1
    exact one_ne_zero h1
  by_cases hs : ∃ s, SymmetricCube n l e s
  · obtain ⟨s', hs'⟩ := hs
    rw [csign_eq hl hln hs'] at h1
    have : s' = s := by
      rcases h.sign with rfl | rfl <;> rcases hs'.sign with rfl | rfl <;> simp at h1 ⊢
    rw [← this]
    exact hs'
  · exact absurd (csign_none hs) hne

end Verif
