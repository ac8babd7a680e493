/-
Cells of a grid around a point, and the faces they share.
-/
import Verif.Props.RegularFundamental
import Verif.Lemmas.CubeAveraging

set_option linter.unusedSectionVars false

namespace Verif

open Verif.Model Verif.Spec Verif.Props

variable {K : Type} [Field K] [LinearOrder K] [IsStrictOrderedRing K]
variable {n : Nat} {V : List (Vec K n)} {l l' : List Nat} {h m m' : Vec K n}

theorem agrees_iff : ∀ {x : List Nat} {c : List Bool}, agrees x c = true ↔ c.length = x.length ∧
    ∀ (a y : Nat) (s : Bool), x[a]? = some y → c[a]? = some s → y = 1 ∨ y = 2 * s.toNat
  | [], [] => by simp [agrees]
  | [], _ :: _ => by simp [agrees]
  | _ :: _, [] => by simp [agrees]
  | b :: x, s :: c => by
    simp only [agrees, Bool.and_eq_true, Bool.or_eq_true, beq_iff_eq, agrees_iff (x := x) (c := c), List.length_cons,
      Nat.add_right_cancel_iff]
    constructor
    · rintro ⟨h1, h2, h3⟩
      refine ⟨h2, fun a y s' ha hs => ?_⟩
      cases a with
      | zero =>
        obtain rfl := Option.some.inj ha
        obtain rfl := Option.some.inj hs
        exact h1
      | succ a => exact h3 a y s' ha hs
    · rintro ⟨h1, h2⟩
      exact ⟨h2 0 b s rfl rfl, h1, fun a y s' ha hs => h2 (a + 1) y s' ha hs⟩

/-- the cube `l` is the cell with the center `m` of a grid with the spacing `h` -/
def CellAt (V : List (Vec K n)) (h m : Vec K n) (l : List Nat) : Prop :=
  ∃ lo hi, BoxAt V l lo hi (Equiv.refl _) ∧ ∀ q, (lo q = m q - h q / 2 ∧ hi q = m q + h q / 2) ∨
    (lo q = m q + h q / 2 ∧ hi q = m q - h q / 2)

/-- the coordinate of a face -/
def flatAt (lo hi : Vec K n) (x : List Nat) (q : Fin n) : K := lo q + ((x[q.val]?.getD 0 : Nat) : K) / 2 * (hi q - lo q)

theorem flatAt_ofFn (lo hi : Vec K n) (g : Fin n → Nat) (q : Fin n) :
    flatAt lo hi (List.ofFn g) q = lo q + (g q : K) / 2 * (hi q - lo q) := by
  unfold flatAt
  rw [List.getElem?_ofFn, dif_pos q.isLt, Option.getD_some]

theorem boxFace_subset {lo hi lo' hi' : Vec K n} (hb : BoxAt V l lo hi (Equiv.refl _)) (hl : l.length = 2 ^ n)
    (hb' : BoxAt V l' lo' hi' (Equiv.refl _)) (hl' : l'.length = 2 ^ n) (hne : ∀ q, lo' q ≠ hi' q)
    (sep : ∀ v ∈ l, ∀ w ∈ l', V[v]?.getD 0 = V[w]?.getD 0 → v = w) {x x' : List Nat} (hx : x.length = n) (hx' : x'.length = n)
    (hp' : IsPoint x')
    (h1 : ∀ q : Fin n, x[q.val]? = some 1 → x'[q.val]? = some 1 ∧ ((lo q = lo' q ∧ hi q = hi' q) ∨ (lo q = hi' q ∧ hi q = lo' q)))
    (h2 : ∀ q : Fin n, x[q.val]? ≠ some 1 → x'[q.val]? ≠ some 1 ∧ flatAt lo hi x q = flatAt lo' hi' x' q) :
    ∀ v ∈ gridFace l x, v ∈ gridFace l' x' := by
  intro v hv
  have hvl := mem_of_gridFace hl hx hv
  obtain ⟨c, hc, rfl⟩ := mem_gridFace.1 hv
  obtain ⟨hcl, hcx⟩ := agrees_iff.1 hc
  rw [hx] at hcl
  have hpos := hb.coord hl hcl
  have hcases : ∀ q : Fin n, ∃ (y : Nat) (s : Bool) (y' : Nat), x[q.val]? = some y ∧ c[q.val]? = some s ∧ x'[q.val]? = some y' ∧
      (y = 1 ∨ y = 2 * s.toNat) ∧ y' ≤ 2 := by
    intro q
    have a1 : q.val < x.length := by rw [hx]; exact q.isLt
    have a2 : q.val < c.length := by rw [hcl]; exact q.isLt
    have a3 : q.val < x'.length := by rw [hx']; exact q.isLt
    exact ⟨_, _, _, List.getElem?_eq_getElem a1, List.getElem?_eq_getElem a2, List.getElem?_eq_getElem a3,
      hcx q.val _ _ (List.getElem?_eq_getElem a1) (List.getElem?_eq_getElem a2), hp' _ (List.getElem_mem a3)⟩
  have hval : ∀ q : Fin n, ∃ y' : Nat, x'[q.val]? = some y' ∧
      ((y' = 1 ∧ ((V[cubeAt l c]?.getD 0) q = hi' q ∨ (V[cubeAt l c]?.getD 0) q = lo' q)) ∨
       (y' = 0 ∧ (V[cubeAt l c]?.getD 0) q = lo' q) ∨ (y' = 2 ∧ (V[cubeAt l c]?.getD 0) q = hi' q)) := by
    intro q
    obtain ⟨y, s, y', e1, e2, e3, e4, e5⟩ := hcases q
    refine ⟨y', e3, ?_⟩
    have hq := hpos q
    simp only [Equiv.refl_symm, Equiv.refl_apply, e2, Option.some.injEq] at hq
    by_cases hy : y = 1
    · obtain ⟨g1, g2⟩ := h1 q (by rw [e1, hy])
      left
      refine ⟨by rw [e3] at g1; exact Option.some.inj g1, ?_⟩
      rw [hq]
      rcases g2 with ⟨g, g'⟩ | ⟨g, g'⟩ <;> split <;> simp [g, g']
    · obtain ⟨g1, g2⟩ := h2 q (by rw [e1]; exact fun e => hy (Option.some.inj e))
      right
      have hy' : y' ≠ 1 := by
        intro e
        rw [e3, e] at g1
        exact g1 rfl
      have hyy := e4.resolve_left hy
      unfold flatAt at g2
      rw [e1, e3, Option.getD_some, Option.getD_some, hyy] at g2
      have hv : (V[cubeAt l c]?.getD 0) q = lo q + ((2 * s.toNat : ℕ) : K) / 2 * (hi q - lo q) := by
        rw [hq]
        cases s <;> simp
      rw [hv, g2]
      have : y' = 0 ∨ y' = 2 := by omega
      rcases this with rfl | rfl
      · left; simp
      · right; simp
  refine mem_gridFace.2 ⟨List.ofFn fun q : Fin n => decide ((V[cubeAt l c]?.getD 0) q = hi' q), ?_, ?_⟩
  · refine agrees_iff.2 ⟨by simp [hx'], fun a y s ha hs => ?_⟩
    have han : a < n := by
      rw [← hx']
      exact (List.getElem?_eq_some_iff.1 ha).1
    rw [List.getElem?_ofFn, dif_pos han] at hs
    obtain rfl := Option.some.inj hs
    obtain ⟨y', g1, g2⟩ := hval ⟨a, han⟩
    obtain rfl : y = y' := Option.some.inj (ha.symm.trans g1)
    rcases g2 with ⟨rfl, -⟩ | ⟨rfl, g⟩ | ⟨rfl, g⟩
    · exact Or.inl rfl
    · right
      rw [g, decide_eq_false (hne _)]
      rfl
    · right
      rw [g, decide_eq_true rfl]
      rfl
  · symm
    have hcl' : (List.ofFn fun q : Fin n => decide ((V[cubeAt l c]?.getD 0) q = hi' q)).length = n := by simp
    refine sep _ hvl _ ?_ ?_
    · exact cubeAt_mem hl' hcl'
    · funext q
      rw [hb'.coord hl' hcl' q, List.getElem?_ofFn, dif_pos ((Equiv.refl (Fin n)).symm q).isLt]
      simp only [Equiv.refl_symm, Equiv.refl_apply, Fin.eta, Option.some.injEq]
      obtain ⟨y', -, g2⟩ := hval q
      rcases g2 with ⟨-, g | g⟩ | ⟨-, g⟩ | ⟨-, g⟩ <;> simp [g]

theorem boxFace_perm {lo hi lo' hi' : Vec K n} (hb : BoxAt V l lo hi (Equiv.refl _)) (hl : l.length = 2 ^ n) (hn : l.Nodup)
    (hb' : BoxAt V l' lo' hi' (Equiv.refl _)) (hl' : l'.length = 2 ^ n) (hn' : l'.Nodup) (hne : ∀ q, lo q ≠ hi q)
    (hne' : ∀ q, lo' q ≠ hi' q) (sep : ∀ v ∈ l, ∀ w ∈ l', V[v]?.getD 0 = V[w]?.getD 0 → v = w) {x x' : List Nat}
    (hx : x.length = n) (hp : IsPoint x) (hx' : x'.length = n) (hp' : IsPoint x')
    (h1 : ∀ q : Fin n, x[q.val]? = some 1 → x'[q.val]? = some 1 ∧ ((lo q = lo' q ∧ hi q = hi' q) ∨ (lo q = hi' q ∧ hi q = lo' q)))
    (h2 : ∀ q : Fin n, x[q.val]? ≠ some 1 → x'[q.val]? ≠ some 1 ∧ flatAt lo hi x q = flatAt lo' hi' x' q) :
    (gridFace l' x').Perm (gridFace l x) := by
  rw [List.perm_ext_iff_of_nodup (gridFace_nodup (by rw [hl', hx']) hn') (gridFace_nodup (by rw [hl, hx]) hn)]
  intro v
  constructor
  · refine boxFace_subset hb' hl' hb hl hne (fun v hv w hw e => (sep w hw v hv e.symm).symm) hx' hx hp (fun q hq => ?_) (fun q hq => ?_) v
    · by_cases hq1 : x[q.val]? = some 1
      · refine ⟨hq1, ?_⟩
        rcases (h1 q hq1).2 with ⟨g, g'⟩ | ⟨g, g'⟩
        · exact Or.inl ⟨g.symm, g'.symm⟩
        · exact Or.inr ⟨g'.symm, g.symm⟩
      · exact absurd hq (h2 q hq1).1
    · by_cases hq1 : x[q.val]? = some 1
      · exact absurd (h1 q hq1).1 hq
      · exact ⟨hq1, (h2 q hq1).2.symm⟩
  · exact boxFace_subset hb hl hb' hl' hne' sep hx hx' hp' h1 h2 v

/-- the faces that two cells share -/
theorem cell_face_iff (hh : ∀ q, 0 < h q) (hc : CellAt V h m l) (hl : l.length = 2 ^ n) (hn : l.Nodup)
    (hc' : CellAt V h m' l') (hl' : l'.length = 2 ^ n) (hn' : l'.Nodup)
    (sep : ∀ v ∈ l, ∀ w ∈ l', V[v]?.getD 0 = V[w]?.getD 0 → v = w) {x : List Nat} (hx : x.length = n) (hp : IsPoint x) :
    FaceOf n (gridFace l x) l' ↔ ∀ q : Fin n, (x[q.val]? = some 1 → m' q = m q) ∧
      (x[q.val]? ≠ some 1 → m' q = centerOf V (gridFace l x) q - h q / 2 ∨ m' q = centerOf V (gridFace l x) q + h q / 2) := by
  obtain ⟨lo, hi, hb, hm⟩ := hc
  obtain ⟨lo', hi', hb', hm'⟩ := hc'
  have hne : ∀ q, lo q ≠ hi q := by
    intro q
    have := hh q
    rcases hm q with ⟨g, g'⟩ | ⟨g, g'⟩ <;> rw [g, g'] <;> intro e <;> linarith
  have hne' : ∀ q, lo' q ≠ hi' q := by
    intro q
    have := hh q
    rcases hm' q with ⟨g, g'⟩ | ⟨g, g'⟩ <;> rw [g, g'] <;> intro e <;> linarith
  have hcen : ∀ q, centerOf V (gridFace l x) q = flatAt lo hi x q := fun q => hb.center hl hp hx q
  constructor
  · rintro ⟨x', hp', hx', hper⟩ q
    have hcen' : centerOf V (gridFace l x) q = flatAt lo' hi' x' q := by
      rw [← centerOf_perm hper]
      exact hb'.center hl' hp' hx' q
    have h1 := hb.extent hl hp hx q
    have h2 := hb'.extent hl' hp' hx' q
    have hext : Spec.extent V (gridFace l' x') q = Spec.extent V (gridFace l x) q := extent_perm hper q
    rw [hext, h1] at h2
    simp only [Equiv.refl_symm, Equiv.refl_apply] at h2
    have e1 : |hi q - lo q| ≠ 0 := by rw [abs_ne_zero, sub_ne_zero]; exact (hne q).symm
    have e2 : |hi' q - lo' q| ≠ 0 := by rw [abs_ne_zero, sub_ne_zero]; exact (hne' q).symm
    have hiff : x[q.val]? = some 1 ↔ x'[q.val]? = some 1 := by
      constructor
      · intro hq
        by_contra hq'
        simp only [hq, hq', if_true, if_false] at h2
        exact e1 h2
      · intro hq'
        by_contra hq
        simp only [hq, hq', if_true, if_false] at h2
        exact e2 h2.symm
    constructor
    · intro hq
      have a1 := hcen q
      rw [hcen'] at a1
      unfold flatAt at a1
      rw [hq, hiff.1 hq, Option.getD_some, Nat.cast_one] at a1
      rcases hm q with ⟨g, g'⟩ | ⟨g, g'⟩ <;> rcases hm' q with ⟨k, k'⟩ | ⟨k, k'⟩ <;> rw [g, g', k, k'] at a1 <;> linarith
    · intro hq
      have hq' : x'[q.val]? ≠ some 1 := fun e => hq (hiff.2 e)
      rw [hcen']
      unfold flatAt
      have hlt : q.val < x'.length := by rw [hx']; exact q.isLt
      rw [List.getElem?_eq_getElem hlt] at hq' ⊢
      have hle := hp' _ (List.getElem_mem hlt)
      have : x'[q.val] = 0 ∨ x'[q.val] = 2 := by
        have : x'[q.val] ≠ 1 := fun e => hq' (by rw [e])
        omega
      rw [Option.getD_some]
      rcases this with e | e <;> rw [e] <;> rcases hm' q with ⟨k, k'⟩ | ⟨k, k'⟩ <;> rw [k, k'] <;> push_cast
      · right; ring
      · left; ring
      · left; ring
      · right; ring
  · intro hq
    have hflat : ∀ q : Fin n, x[q.val]? ≠ some 1 → flatAt lo hi x q = lo' q ∨ flatAt lo hi x q = hi' q := by
      intro q hq1
      have := (hq q).2 hq1
      rw [hcen q] at this
      rcases this with e | e <;> rcases hm' q with ⟨k, k'⟩ | ⟨k, k'⟩
      · right; rw [k', e]; ring
      · left; rw [k, e]; ring
      · left; rw [k, e]; ring
      · right; rw [k', e]; ring
    classical
    refine ⟨List.ofFn fun q : Fin n => if x[q.val]? = some 1 then 1 else if flatAt lo hi x q = hi' q then 2 else 0, ?_, by simp, ?_⟩
    · intro a ha
      obtain ⟨q, rfl⟩ := (List.mem_ofFn' _ _).1 ha
      dsimp only
      split
      · omega
      · split <;> omega
    · refine boxFace_perm hb hl hn hb' hl' hn' hne hne' sep hx hp (by simp) ?_ (fun q hq1 => ?_) (fun q hq1 => ?_)
      · intro a ha
        obtain ⟨q, rfl⟩ := (List.mem_ofFn' _ _).1 ha
        dsimp only
        split
        · omega
        · split <;> omega
      · rw [List.getElem?_ofFn, dif_pos q.isLt]
        simp only [Fin.eta]
        refine ⟨by rw [if_pos hq1], ?_⟩
        have := (hq q).1 hq1
        rcases hm q with ⟨g, g'⟩ | ⟨g, g'⟩ <;> rcases hm' q with ⟨k, k'⟩ | ⟨k, k'⟩ <;> rw [g, g', k, k', this] <;> simp
      · rw [flatAt_ofFn, List.getElem?_ofFn, dif_pos q.isLt]
        simp only [Fin.eta, if_neg hq1]
        refine ⟨?_, ?_⟩
        · split <;> simp
        · rcases hflat q hq1 with e | e
          · rw [if_neg (by rw [e]; exact hne' q), e]
            simp
          · rw [if_pos e, e]
            simp

end Verif
