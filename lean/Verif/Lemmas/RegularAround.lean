/-
The cells of a grid around a face well inside, and the mean of a function over their centers.
-/
import Verif.Lemmas.RegularCells
import Verif.Spec.RegularDualSample
import Verif.Spec.Averaging
import Verif.Spec.CubicalBoundary

set_option linter.unusedSectionVars false

namespace Verif

open Verif.Model Verif.Spec Verif.Props

variable {K : Type} [Field K] [LinearOrder K] [IsStrictOrderedRing K]
variable {n : Nat} {V : List (Vec K n)} {l l' : List Nat} {o h m m' : Vec K n} {cubes : List (List Nat)} {t : Topo}

/-! ### points on all sides -/

/-- the points half a step away from `y` along all of the axes `A` -/
def spread (h : Vec K n) : List (Fin n) → Vec K n → List (Vec K n)
  | [], y => [y]
  | q :: A, y => spread h A (Function.update y q (y q - h q / 2)) ++ spread h A (Function.update y q (y q + h q / 2))

theorem spread_length : ∀ (A : List (Fin n)) (y : Vec K n), (spread h A y).length = 2 ^ A.length
  | [], _ => rfl
  | q :: A, y => by
    rw [spread, List.length_append, spread_length, spread_length, List.length_cons]
    ring

theorem spread_sum {f : Vec K n → K} (hf : AffineInEach f) : ∀ (A : List (Fin n)) (y : Vec K n),
    ((spread h A y).map f).sum = 2 ^ A.length * f y
  | [], y => by simp [spread]
  | q :: A, y => by
    rw [spread, List.map_append, List.sum_append, spread_sum hf, spread_sum hf, List.length_cons]
    have := hf y q (y q - h q / 2) (y q + h q / 2) (1 / 2)
    rw [show (1 - 1 / 2) * (y q - h q / 2) + 1 / 2 * (y q + h q / 2) = y q by ring, Function.update_eq_self] at this
    rw [this]
    ring

theorem mem_spread : ∀ {A : List (Fin n)} {y z : Vec K n}, A.Nodup → (z ∈ spread h A y ↔
    ∀ q, (q ∈ A → z q = y q - h q / 2 ∨ z q = y q + h q / 2) ∧ (q ∉ A → z q = y q))
  | [], y, z, _ => by
    rw [spread, List.mem_singleton]
    constructor
    · rintro rfl q
      simp
    · intro hz
      funext q
      exact (hz q).2 (by simp)
  | a :: A, y, z, hA => by
    obtain ⟨ha, hA⟩ := List.nodup_cons.1 hA
    rw [spread, List.mem_append, mem_spread hA, mem_spread hA]
    constructor
    · intro hz q
      by_cases hq : q = a
      · subst hq
        refine ⟨fun _ => ?_, fun hn => absurd List.mem_cons_self hn⟩
        rcases hz with hz | hz
        · left
          rw [(hz q).2 ha, Function.update_self]
        · right
          rw [(hz q).2 ha, Function.update_self]
      · rcases hz with hz | hz <;> have := hz q <;> rw [Function.update_of_ne hq] at this <;>
          exact ⟨fun hm => this.1 ((List.mem_cons.1 hm).resolve_left hq), fun hm => this.2 fun hm' => hm (List.mem_cons_of_mem _ hm')⟩
    · intro hz
      have key : ∀ s : K, z a = s → ∀ q, (q ∈ A → z q = Function.update y a s q - h q / 2 ∨ z q = Function.update y a s q + h q / 2) ∧
          (q ∉ A → z q = Function.update y a s q) := by
        intro s hs q
        by_cases hq : q = a
        · subst hq
          refine ⟨fun hm => absurd hm ha, fun _ => ?_⟩
          rw [Function.update_self, hs]
        · rw [Function.update_of_ne hq]
          exact ⟨fun hm => (hz q).1 (List.mem_cons_of_mem _ hm), fun hm => (hz q).2 fun hm' =>
            hm ((List.mem_cons.1 hm').resolve_left hq)⟩
      rcases (hz a).1 List.mem_cons_self with e | e
      · exact Or.inl (key _ e)
      · exact Or.inr (key _ e)

theorem spread_nodup (hh : ∀ q, 0 < h q) : ∀ {A : List (Fin n)} {y : Vec K n}, A.Nodup → (spread h A y).Nodup
  | [], y, _ => by simp [spread]
  | a :: A, y, hA => by
    obtain ⟨ha, hA⟩ := List.nodup_cons.1 hA
    rw [spread, List.nodup_append]
    refine ⟨spread_nodup hh hA, spread_nodup hh hA, fun z hz z' hz' e => ?_⟩
    subst e
    have h1 := ((mem_spread hA).1 hz a).2 ha
    have h2 := ((mem_spread hA).1 hz' a).2 ha
    rw [Function.update_self] at h1 h2
    have := hh a
    linarith

/-! ### cells of a mesh -/

theorem cell_of (hl : l.length = 2 ^ n) (hbox : IsBox V l) (hup : Upright V l) (hh : ∀ q, 0 < h q)
    (hz : ∀ q, ∃ z : ℤ, ∀ v ∈ l, (V[v]?.getD 0) q = o q + z * h q ∨ (V[v]?.getD 0) q = o q + (z + 1) * h q) :
    CellAt V h (cubeCenter V l) l ∧ ∀ q, ∃ z : ℤ, cubeCenter V l q = o q + (z + 1 / 2) * h q ∧
      ∀ v ∈ l, (V[v]?.getD 0) q = o q + z * h q ∨ (V[v]?.getD 0) q = o q + (z + 1) * h q := by
  obtain ⟨lo, hi, σ, hne, hb⟩ := hbox
  have hb : BoxAt V l lo hi σ := hb
  obtain rfl := upright_refl hb hne hl hup
  have hcp : ∀ q, cubeCenter V l q = (lo q + hi q) / 2 := by
    intro q
    have h1 : cornerPosition V l 0 q = lo q := by
      have := hb.coord hl (c := List.replicate n false) (by simp) q
      unfold cubeAt at this
      rw [ravel_false, if_neg (by rw [List.getElem?_replicate]; split <;> simp)] at this
      exact this
    have h2 : cornerPosition V l (2 ^ n - 1) q = hi q := by
      have := hb.coord hl (c := List.replicate n true) (by simp) q
      unfold cubeAt at this
      rw [ravel_true, if_pos (by rw [List.getElem?_replicate, if_pos ((Equiv.refl (Fin n)).symm q).isLt])] at this
      exact this
    unfold cubeCenter
    rw [h1, h2]
  constructor
  · refine ⟨lo, hi, hb, fun q => ?_⟩
    obtain ⟨z, hz⟩ := hz q
    obtain ⟨g1, g2, g3⟩ := hb.cell hl (hne q) (hh q) hz
    rw [hcp]
    rcases g3 with ⟨a, b⟩ | ⟨a, b⟩ <;> rw [a, b]
    · left; constructor <;> ring
    · right; constructor <;> ring
  · intro q
    obtain ⟨z, hz⟩ := hz q
    obtain ⟨g1, g2, g3⟩ := hb.cell hl (hne q) (hh q) hz
    exact ⟨z, by rw [hcp, g2], hz⟩

theorem CellAt.corner (hc : CellAt V h m l) (hl : l.length = 2 ^ n) {v : Nat} (hv : v ∈ l) (q : Fin n) :
    m q = (V[v]?.getD 0) q - h q / 2 ∨ m q = (V[v]?.getD 0) q + h q / 2 := by
  obtain ⟨lo, hi, hb, hm⟩ := hc
  rcases hb.ends hl hv q with e | e <;> rcases hm q with ⟨g, g'⟩ | ⟨g, g'⟩ <;> rw [e]
  · right; rw [g]; ring
  · left; rw [g]; ring
  · left; rw [g']; ring
  · right; rw [g']; ring

theorem CellAt.face (hc : CellAt V h m l) (hl : l.length = 2 ^ n) {x : List Nat} (hx : x.length = n) (hp : IsPoint x) (q : Fin n) :
    (x[q.val]? = some 1 → centerOf V (gridFace l x) q = m q) ∧
    (x[q.val]? ≠ some 1 → ∀ v ∈ gridFace l x, (V[v]?.getD 0) q = centerOf V (gridFace l x) q) := by
  obtain ⟨lo, hi, hb, hm⟩ := hc
  have hcen := hb.center hl hp hx q
  simp only [Equiv.refl_symm, Equiv.refl_apply] at hcen
  constructor
  · intro hq
    rw [hcen, hq, Option.getD_some, Nat.cast_one]
    rcases hm q with ⟨g, g'⟩ | ⟨g, g'⟩ <;> rw [g, g'] <;> ring
  · intro hq v hv
    obtain ⟨c, hc, rfl⟩ := mem_gridFace.1 hv
    obtain ⟨hcl, hcx⟩ := agrees_iff.1 hc
    rw [hx] at hcl
    rw [hcen, hb.coord hl hcl q]
    have a1 : q.val < x.length := by rw [hx]; exact q.isLt
    have a2 : q.val < c.length := by rw [hcl]; exact q.isLt
    have := hcx q.val _ _ (List.getElem?_eq_getElem a1) (List.getElem?_eq_getElem a2)
    rw [List.getElem?_eq_getElem a1] at hq
    have := this.resolve_left fun e => hq (by rw [e])
    simp only [Equiv.refl_symm, Equiv.refl_apply, List.getElem?_eq_getElem a1, List.getElem?_eq_getElem a2, Option.getD_some, this,
      Option.some.injEq]
    cases c[q.val] <;> simp

/-- all the cells that meet at `a` are there -/
def Around (V : List (Vec K n)) (cubes : List (List Nat)) (h a : Vec K n) : Prop :=
  ∀ m : Vec K n, (∀ q, m q = a q - h q / 2 ∨ m q = a q + h q / 2) → ∃ (j : Nat) (l : List Nat), cubes[j]? = some l ∧ cubeCenter V l = m

theorem InBox.between {p : Vec K n} (hp : InBox V l p) {q : Fin n} {a b : K}
    (hz : ∀ v ∈ l, (V[v]?.getD 0) q = a ∨ (V[v]?.getD 0) q = b) (hab : a ≤ b) : a ≤ p q ∧ p q ≤ b := by
  obtain ⟨v, hv, w, hw, h1, h2⟩ := hp q
  rcases hz v hv with e | e <;> rcases hz w hw with e' | e' <;> rw [e] at h1 <;> rw [e'] at h2 <;> constructor <;> linarith

theorem around_of_inside (hlen : ∀ l ∈ cubes, l.length = 2 ^ n) (hbox : ∀ l ∈ cubes, IsBox V l) (hup : ∀ l ∈ cubes, Upright V l)
    (hg : OnGrid V cubes o h) {p : Vec K n} (hp : WellInside V cubes h p) (hl : l ∈ cubes) {v : Nat} (hv : v ∈ l)
    (hd : ∀ q, |p q - (V[v]?.getD 0) q| ≤ h q / 2) : Around V cubes h (V[v]?.getD 0) := by
  intro m hm
  obtain ⟨r, hr, hin⟩ := hp
  set ε : Fin n → K := fun q => min (r q - h q / 2) (h q / 2) with hε
  have hεpos : ∀ q, 0 < ε q ∧ ε q ≤ h q / 2 ∧ ε q ≤ r q - h q / 2 := fun q =>
    ⟨lt_min (by have := hr q; linarith) (by have := hg.1 q; linarith), min_le_right _ _, min_le_left _ _⟩
  classical
  obtain ⟨l', hl', hy⟩ := hin (fun q => if m q = (V[v]?.getD 0) q - h q / 2 then (V[v]?.getD 0) q - ε q else (V[v]?.getD 0) q + ε q) (by
    intro q
    obtain ⟨e1, e2, e3⟩ := hεpos q
    have := hd q
    rw [abs_le] at this ⊢
    split <;> constructor <;> linarith)
  obtain ⟨j, hj⟩ := List.mem_iff_getElem?.1 hl'
  refine ⟨j, l', hj, ?_⟩
  funext q
  obtain ⟨z', c1, c2⟩ := (cell_of (hlen l' hl') (hbox l' hl') (hup l' hl') hg.1 (hg.2 l' hl')).2 q
  obtain ⟨z, hz⟩ := hg.2 l hl q
  have hhq := hg.1 q
  obtain ⟨e1, e2, e3⟩ := hεpos q
  have hb := InBox.between hy c2 (by nlinarith)
  obtain ⟨k, hk⟩ : ∃ k : ℤ, (V[v]?.getD 0) q = o q + k * h q := by
    rcases hz v hv with e | e
    · exact ⟨z, e⟩
    · exact ⟨z + 1, by rw [e]; push_cast; ring⟩
  rw [c1]
  have lt_of : ∀ a b : ℤ, (a : K) * h q < b * h q → a < b := by
    intro a b hab
    exact_mod_cast lt_of_mul_lt_mul_right hab hhq.le
  rcases hm q with e | e
  · rw [if_pos e, hk] at hb
    rw [e, hk]
    have a1 : z' < k := lt_of _ _ (by linarith)
    have a2 : k < z' + 2 := lt_of _ _ (by push_cast; linarith)
    obtain rfl : k = z' + 1 := by omega
    push_cast
    ring
  · rw [if_neg (by rw [e]; intro e'; linarith), hk] at hb
    rw [e, hk]
    have a1 : z' < k + 1 := lt_of _ _ (by push_cast; linarith)
    have a2 : k < z' + 1 := lt_of _ _ (by push_cast; linarith)
    obtain rfl : k = z' := by omega
    ring

/-! ### the mean -/

section mesh

variable (hlen : ∀ l ∈ cubes, l.length = 2 ^ n) (hnd : ∀ l ∈ cubes, l.Nodup) (hbox : ∀ l ∈ cubes, IsBox V l)
  (hup : ∀ l ∈ cubes, Upright V l) (hg : OnGrid V cubes o h) (hsep : Separate V cubes)
include hlen hnd hbox hup hg hsep

theorem around_face_iff {x : List Nat} (hl : l ∈ cubes) (hl' : l' ∈ cubes) (hx : x.length = n) (hp : IsPoint x) {e : List Nat}
    (he : (gridFace l x).Perm e) : FaceOf n e l' ↔ ∀ q : Fin n, (x[q.val]? = some 1 → cubeCenter V l' q = cubeCenter V l q) ∧
      (x[q.val]? ≠ some 1 → cubeCenter V l' q = centerOf V e q - h q / 2 ∨ cubeCenter V l' q = centerOf V e q + h q / 2) := by
  have h1 := (cell_of (hlen l hl) (hbox l hl) (hup l hl) hg.1 (hg.2 l hl)).1
  have h2 := (cell_of (hlen l' hl') (hbox l' hl') (hup l' hl') hg.1 (hg.2 l' hl')).1
  rw [← centerOf_perm he, ← cell_face_iff hg.1 h1 (hlen l hl) (hnd l hl) h2 (hlen l' hl') (hnd l' hl')
    (hsep.1 l hl l' hl') hx hp]
  exact ⟨fun hf => hf.perm he.symm, fun hf => hf.perm he⟩

/-- cubes with the same center -/
theorem center_inj {i j : Nat} (hi : cubes[i]? = some l) (hj : cubes[j]? = some l') (hc : cubeCenter V l = cubeCenter V l') : i = j := by
  have hl := List.mem_of_getElem? hi
  have hl' := List.mem_of_getElem? hj
  refine hsep.2 i j l l' hi hj ?_
  have hx : (List.replicate n 1).length = n := by simp
  have hp : IsPoint (List.replicate n 1) := fun a ha => by rw [List.eq_of_mem_replicate ha]; omega
  have := (around_face_iff hlen hnd hbox hup hg hsep hl hl' hx hp (e := l) (by rw [gridFace_middle (hlen l hl)])).2 fun q => by
    rw [List.getElem?_replicate, if_pos q.isLt]
    exact ⟨fun _ => by rw [hc], fun hq => absurd rfl hq⟩
  have hsub := this.subset (hlen l' hl')
  exact (((hnd l hl).subperm hsub).perm_of_length_le (by rw [hlen l hl, hlen l' hl']))

theorem around_mean {x : List Nat} (hl : l ∈ cubes) (hx : x.length = n) (hp : IsPoint x) {e : List Nat} {k : Nat} (hk : k ≤ n)
    (he : (gridFace l x).Perm e) (hel : e.length = 2 ^ k) {v : Nat} (hv : v ∈ e) (har : Around V cubes h (V[v]?.getD 0))
    {f : Vec K n → K} (hf : AffineInEach f) :
    mean ((cubesAround n k cubes e).map fun j => f (cubeCenter V (cubes[j]?.getD []))) = f (centerOf V e) := by
  set A := (List.finRange n).filter fun q => decide (x[q.val]? ≠ some 1) with hA
  have hAn : A.Nodup := (List.nodup_finRange n).filter _
  have hAm : ∀ q, q ∈ A ↔ x[q.val]? ≠ some 1 := by simp [hA]
  have hcell := (cell_of (hlen l hl) (hbox l hl) (hup l hl) hg.1 (hg.2 l hl)).1
  have hface := fun q => hcell.face (hlen l hl) hx hp q
  rw [centerOf_perm he] at hface
  have hv' : v ∈ gridFace l x := he.mem_iff.2 hv
  have hvl := mem_of_gridFace (hlen l hl) hx hv'
  have hmem : ∀ j, j ∈ cubesAround n k cubes e ↔ ∃ l', cubes[j]? = some l' ∧ FaceOf n e l' := by
    intro j
    unfold cubesAround
    rw [List.mem_filter, List.mem_range]
    constructor
    · rintro ⟨hj, hf⟩
      rw [List.getElem?_eq_getElem hj, Option.getD_some] at hf
      have hm := List.getElem_mem hj
      rw [hasFace_iff hel (by rw [hlen _ hm]; congr 1; omega) (hnd _ hm), show k + (n - k) = n by omega] at hf
      exact ⟨_, List.getElem?_eq_getElem hj, hf⟩
    · rintro ⟨l', hj, hf⟩
      have hm := List.mem_of_getElem? hj
      refine ⟨(List.getElem?_eq_some_iff.1 hj).1, ?_⟩
      rw [hj, Option.getD_some, hasFace_iff hel (by rw [hlen _ hm]; congr 1; omega) (hnd _ hm), show k + (n - k) = n by omega]
      exact hf
  have hperm : ((cubesAround n k cubes e).map fun j => cubeCenter V (cubes[j]?.getD [])).Perm (spread h A (centerOf V e)) := by
    rw [List.perm_ext_iff_of_nodup _ (spread_nodup hg.1 hAn)]
    · intro z
      rw [mem_spread hAn, List.mem_map]
      constructor
      · rintro ⟨j, hj, rfl⟩ q
        obtain ⟨l', hj, hf⟩ := (hmem j).1 hj
        have := (around_face_iff hlen hnd hbox hup hg hsep hl (List.mem_of_getElem? hj) hx hp he).1 hf q
        rw [hj, Option.getD_some, hAm]
        refine ⟨this.2, fun hq => ?_⟩
        rw [not_not] at hq
        rw [this.1 hq, ((hface q).1 hq)]
      · intro hz
        obtain ⟨j, l', hj, hc⟩ := har z fun q => by
          by_cases hq : x[q.val]? = some 1
          · rw [(hz q).2 (by rw [hAm, not_not]; exact hq), (hface q).1 hq]
            exact hcell.corner (hlen l hl) hvl q
          · rw [(hface q).2 hq v hv']
            exact (hz q).1 ((hAm q).2 hq)
        refine ⟨j, (hmem j).2 ⟨l', hj, ?_⟩, by rw [hj, Option.getD_some, hc]⟩
        rw [around_face_iff hlen hnd hbox hup hg hsep hl (List.mem_of_getElem? hj) hx hp he]
        intro q
        rw [hc]
        refine ⟨fun hq => ?_, fun hq => (hz q).1 ((hAm q).2 hq)⟩
        rw [(hz q).2 (by rw [hAm, not_not]; exact hq), (hface q).1 hq]
    · refine List.Nodup.map_on ?_ (List.nodup_range.filter _)
      intro i hi j hj hij
      obtain ⟨l1, hi, -⟩ := (hmem i).1 hi
      obtain ⟨l2, hj, -⟩ := (hmem j).1 hj
      rw [hi, hj] at hij
      exact center_inj hlen hnd hbox hup hg hsep hi hj hij
  have hsum := (hperm.map f).sum_eq
  have hcount := hperm.length_eq
  rw [List.map_map] at hsum
  rw [List.length_map, spread_length] at hcount
  unfold mean
  rw [List.length_map, hcount]
  have h2 : ((2 ^ A.length : ℕ) : K) ≠ 0 := by positivity
  rw [div_eq_iff h2]
  refine hsum.trans ?_
  rw [spread_sum hf]
  push_cast
  ring

omit hsep in
theorem cubeSide_iff {k : Nat} {e : List Nat} (he : e.length = 2 ^ k) (hl : l ∈ cubes) (hk : n = k + 1) : IsCubeSide k e l ↔ FaceOf n e l := by
  subst hk
  rw [← hasFace_iff he (d := 1) (hlen l hl) (hnd l hl)]
  unfold IsCubeSide
  simp only [hasFace, List.any_eq_true, List.mem_range, Bool.or_eq_true, List.isPerm_iff]
  constructor
  · rintro ⟨i, hi, s, hs⟩
    refine ⟨i, by omega, ?_⟩
    cases s
    · exact Or.inl hs.symm
    · exact Or.inr hs.symm
  · rintro ⟨i, hi, hs | hs⟩
    · exact ⟨i, by omega, false, hs.symm⟩
    · exact ⟨i, by omega, true, hs.symm⟩

/-- there is no boundary where all the cells are -/
theorem no_boundary {k : Nat} (hk : n = k + 1) {g : List Nat} (hgl : g.length = 2 ^ k) (hbd : BoundarySide k cubes g) {v : Nat}
    (hv : v ∈ g) (har : Around V cubes h (V[v]?.getD 0)) : False := by
  obtain ⟨j, l, hj, hs, huniq⟩ := hbd
  have hl := List.mem_of_getElem? hj
  rw [cubeSide_iff hlen hnd hbox hup hg hgl hl hk] at hs
  obtain ⟨x, hp, hx, he⟩ := hs
  have hcell := (cell_of (hlen l hl) (hbox l hl) (hup l hl) hg.1 (hg.2 l hl)).1
  have hface := fun q => hcell.face (hlen l hl) hx hp q
  rw [centerOf_perm he] at hface
  have hv' : v ∈ gridFace l x := he.mem_iff.2 hv
  have hvl := mem_of_gridFace (hlen l hl) hx hv'
  obtain ⟨q0, hq0⟩ : ∃ q0 : Fin n, x[q0.val]? ≠ some 1 := by
    by_contra hall
    push Not at hall
    have hx1 : x = List.replicate n 1 := by
      rw [List.eq_replicate_iff]
      refine ⟨hx, fun b hb => ?_⟩
      obtain ⟨a, ha, rfl⟩ := List.getElem_of_mem hb
      have := hall ⟨a, by omega⟩
      rw [List.getElem?_eq_getElem ha] at this
      exact Option.some.inj this
    have := he.length_eq
    rw [hx1, gridFace_middle (hlen l hl), hlen l hl, hgl, hk] at this
    have := Nat.pow_right_injective (le_refl 2) this
    omega
  have hcor := fun q => hcell.corner (hlen l hl) hvl q
  obtain ⟨j', l', hj', hc'⟩ := har (Function.update (cubeCenter V l) q0 (2 * (V[v]?.getD 0) q0 - cubeCenter V l q0)) fun q => by
    by_cases hq : q = q0
    · subst hq
      rw [Function.update_self]
      rcases hcor q with e | e <;> rw [e]
      · right; ring
      · left; ring
    · rw [Function.update_of_ne hq]
      exact hcor q
  have hl' := List.mem_of_getElem? hj'
  have hs' : IsCubeSide k g l' := by
    rw [cubeSide_iff hlen hnd hbox hup hg hgl hl' hk, around_face_iff hlen hnd hbox hup hg hsep hl hl' hx hp he]
    intro q
    rw [hc']
    constructor
    · intro hq
      rw [Function.update_of_ne]
      rintro rfl
      exact hq0 hq
    · intro hq
      rw [← (hface q).2 hq v hv']
      by_cases hq' : q = q0
      · subst hq'
        rw [Function.update_self]
        rcases hcor q with e | e <;> rw [e]
        · right; ring
        · left; ring
      · rw [Function.update_of_ne hq']
        exact hcor q
  obtain rfl := huniq j' l' hj' hs'
  obtain rfl := Option.some.inj (hj.symm.trans hj')
  have := congrFun hc' q0
  rw [Function.update_self] at this
  have hpos := hg.1 q0
  rcases hcor q0 with e | e <;> linarith

/-- a side of a cell is shared by at most one other cell -/
theorem sides_two {k : Nat} (hk : n = k + 1) : SidesAtMostTwo k cubes := by
  intro e j1 j2 j3 l1 l2 l3 h1 h2 h3 s1 s2 s3
  have m1 := List.mem_of_getElem? h1
  have m2 := List.mem_of_getElem? h2
  have m3 := List.mem_of_getElem? h3
  obtain ⟨i, hi, s, hs⟩ := s1
  have hel : e.length = 2 ^ k := by rw [hs.length_eq, side_length hi]
  have hgf : (gridFace l1 ((List.replicate k 1).insertIdx i (2 * s.toNat))).Perm e := by
    have := gridFace_slice (x := List.replicate k 1) s hi (by rw [hlen l1 m1, hk]) (hnd l1 m1) (by simp)
    rw [gridFace_middle (sliceAxis_length ..), ← side_eq hi] at this
    exact (hs.trans this).symm
  have hxl : ((List.replicate k 1).insertIdx i (2 * s.toNat)).length = n := by
    rw [List.length_insertIdx, if_pos (by simpa using hi), List.length_replicate, hk]
  have hxp : IsPoint ((List.replicate k 1).insertIdx i (2 * s.toNat)) := by
    intro a ha
    rcases List.eq_or_mem_of_mem_insertIdx ha with rfl | ha
    · cases s <;> simp
    · rw [List.eq_of_mem_replicate ha]; omega
  have hget : ∀ q : Fin n, q.val ≠ i → ((List.replicate k 1).insertIdx i (2 * s.toNat))[q.val]? = some 1 := by
    intro q hq
    have := q.isLt
    rcases Nat.lt_or_gt_of_ne hq with h | h
    · rw [List.getElem?_insertIdx_of_lt h, List.getElem?_replicate, if_pos (by omega)]
    · rw [List.getElem?_insertIdx_of_gt h, List.getElem?_replicate, if_pos (by omega)]
  have hne : ((List.replicate k 1).insertIdx i (2 * s.toNat))[i]? ≠ some 1 := by
    rw [List.getElem?_insertIdx_self, if_pos (by simpa using hi)]
    cases s <;> simp
  have hfc : ∀ l ∈ cubes, IsCubeSide k e l → (∀ q : Fin n, q.val ≠ i → cubeCenter V l q = cubeCenter V l1 q) ∧
      (cubeCenter V l ⟨i, by omega⟩ = centerOf V e ⟨i, by omega⟩ - h ⟨i, by omega⟩ / 2 ∨
        cubeCenter V l ⟨i, by omega⟩ = centerOf V e ⟨i, by omega⟩ + h ⟨i, by omega⟩ / 2) := by
    intro l hl hsl
    rw [cubeSide_iff hlen hnd hbox hup hg hel hl hk, around_face_iff hlen hnd hbox hup hg hsep m1 hl hxl hxp hgf] at hsl
    exact ⟨fun q hq => (hsl q).1 (hget q hq), (hsl ⟨i, by omega⟩).2 hne⟩
  have key : ∀ {j j' : Nat} {l l' : List Nat}, cubes[j]? = some l → cubes[j']? = some l' → IsCubeSide k e l → IsCubeSide k e l' →
      cubeCenter V l ⟨i, by omega⟩ = cubeCenter V l' ⟨i, by omega⟩ → j = j' := by
    intro j j' l l' hj hj' hsl hsl' heq
    refine center_inj hlen hnd hbox hup hg hsep hj hj' ?_
    funext q
    by_cases hq : q.val = i
    · have : q = ⟨i, by omega⟩ := Fin.ext hq
      rw [this]
      exact heq
    · rw [(hfc l (List.mem_of_getElem? hj) hsl).1 q hq, (hfc l' (List.mem_of_getElem? hj') hsl').1 q hq]
  have s1 : IsCubeSide k e l1 := ⟨i, hi, s, hs⟩
  rcases (hfc l1 m1 s1).2 with e1 | e1 <;> rcases (hfc l2 m2 s2).2 with e2 | e2 <;> rcases (hfc l3 m3 s3).2 with e3 | e3
  · exact Or.inl (key h1 h2 s1 s2 (e1.trans e2.symm))
  · exact Or.inl (key h1 h2 s1 s2 (e1.trans e2.symm))
  · exact Or.inr (Or.inl (key h1 h3 s1 s3 (e1.trans e3.symm)))
  · exact Or.inr (Or.inr (key h2 h3 s2 s3 (e2.trans e3.symm)))
  · exact Or.inr (Or.inr (key h2 h3 s2 s3 (e2.trans e3.symm)))
  · exact Or.inr (Or.inl (key h1 h3 s1 s3 (e1.trans e3.symm)))
  · exact Or.inl (key h1 h2 s1 s2 (e1.trans e2.symm))
  · exact Or.inl (key h1 h2 s1 s2 (e1.trans e2.symm))

end mesh

end Verif
