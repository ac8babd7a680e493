/-
The metric of regular complexes: centers and extents of the faces of a box.
-/
import Verif.Lemmas.RegularMetric
import Verif.Props.CubicalComplex
import Mathlib.Tactic.FieldSimp
import Mathlib.Tactic.Linarith

set_option linter.unusedSectionVars false

namespace Verif

open Verif.Model Verif.Spec

variable {K : Type} [Field K] [LinearOrder K] [IsStrictOrderedRing K] {n : Nat}
variable {V : List (Vec K n)} {l : List Nat} {lo hi : Vec K n} {σ : Equiv.Perm (Fin n)}

/-- the cube `l` is the box between `lo` and `hi` -/
def BoxAt (V : List (Vec K n)) (l : List Nat) (lo hi : Vec K n) (σ : Equiv.Perm (Fin n)) : Prop :=
  ∀ (c : List Bool) (v : Nat), c.length = n → l[ravel c]? = some v → ∃ x, V[v]? = some x ∧
      ∀ a : Fin n, x (σ a) = if c[a.val]? = some true then hi (σ a) else lo (σ a)

theorem BoxAt.coord (hb : BoxAt V l lo hi σ) (hl : l.length = 2 ^ n) {c : List Bool} (hc : c.length = n) (q : Fin n) :
    (V[cubeAt l c]?.getD 0) q = if c[(σ.symm q).val]? = some true then hi q else lo q := by
  have hlt := ravel_lt c
  rw [hc, ← hl] at hlt
  obtain ⟨x, h1, h2⟩ := hb c _ hc (List.getElem?_eq_getElem hlt)
  unfold cubeAt
  rw [List.getElem?_eq_getElem hlt, Option.getD_some, h1, Option.getD_some]
  have := h2 (σ.symm q)
  rwa [Equiv.apply_symm_apply] at this

/-- center of the vertices of an element -/
def centerOf (V : List (Vec K n)) (e : List Nat) : Vec K n := fun q => (e.map fun v => (V[v]?.getD 0) q).sum / (e.length : K)

theorem centerOf_perm {e f : List Nat} (h : e.Perm f) : centerOf V e = centerOf V f := by
  funext q
  unfold centerOf
  rw [(h.map _).sum_eq, h.length_eq]

theorem BoxAt.center (hb : BoxAt V l lo hi σ) (hl : l.length = 2 ^ n) {x : List Nat} (hx : IsPoint x) (hxl : x.length = n)
    (q : Fin n) : centerOf V (gridFace l x) q = lo q + ((x[(σ.symm q).val]?.getD 0 : Nat) : K) / 2 * (hi q - lo q) := by
  have hs := (σ.symm q).isLt
  have h6 : ((gridFace l x).map fun v => (V[v]?.getD 0) q).sum = (((cubeIndices x.length).filter (agrees x)).map
      fun c => lo q + ((List.range x.length).map fun a => (if c[a]? = some true then
        (if a = (σ.symm q).val then hi q - lo q else 0) else 0)).sum).sum := by
    unfold gridFace
    rw [List.map_map]
    congr 1
    refine List.map_congr_left fun c hcm => ?_
    have hcl := mem_cubeIndices.1 (List.mem_filter.1 hcm).1
    rw [Function.comp_apply, hb.coord hl (by omega)]
    rw [sum_unique List.nodup_range (a := (σ.symm q).val) (List.mem_range.2 (by omega))]
    · simp only [if_true]
      split <;> ring
    · intro a _ ha
      simp [ha]
  have h7 := Props.sum_face (fun a => if a = (σ.symm q).val then hi q - lo q else 0) x hx (lo q)
  rw [← h6, sum_unique List.nodup_range (a := (σ.symm q).val) (List.mem_range.2 (by omega))] at h7
  · unfold centerOf
    rw [gridFace_length hx]
    have h2 : (2 : K) ^ x.count 1 ≠ 0 := pow_ne_zero _ two_ne_zero
    push_cast
    rw [div_eq_iff h2]
    simp only [if_true] at h7
    have : (2 : K) * ((gridFace l x).map fun v => (V[v]?.getD 0) q).sum =
        2 * ((lo q + ((x[(σ.symm q).val]?.getD 0 : Nat) : K) / 2 * (hi q - lo q)) * 2 ^ x.count 1) := by
      rw [h7]; ring
    exact mul_left_cancel₀ two_ne_zero this
  · intro a _ ha
    simp [ha]

/-! ### extents -/

theorem extent_perm {e f : List Nat} (h : e.Perm f) (q : Fin n) : extent V e q = extent V f q := by
  have hmax : ∀ {a b : List K}, a.Perm b → a.max?.getD 0 = b.max?.getD 0 := by
    intro a b hab
    cases ha : a.max? with
    | none =>
      rw [List.max?_eq_none_iff] at ha
      subst ha
      rw [List.nil_perm.1 hab]
      rfl
    | some m =>
      rw [List.max?_eq_some_iff] at ha
      rw [List.max?_eq_some_iff.2 ⟨hab.mem_iff.1 ha.1, fun x hx => ha.2 x (hab.mem_iff.2 hx)⟩]
  have hmin : ∀ {a b : List K}, a.Perm b → a.min?.getD 0 = b.min?.getD 0 := by
    intro a b hab
    cases ha : a.min? with
    | none =>
      rw [List.min?_eq_none_iff] at ha
      subst ha
      rw [List.nil_perm.1 hab]
      rfl
    | some m =>
      rw [List.min?_eq_some_iff] at ha
      rw [List.min?_eq_some_iff.2 ⟨hab.mem_iff.1 ha.1, fun x hx => ha.2 x (hab.mem_iff.2 hx)⟩]
  unfold extent
  rw [hmax (h.map _), hmin (h.map _)]

theorem spread_two {xs : List K} {a b : K} (ha : a ∈ xs) (hb : b ∈ xs) (h : ∀ x ∈ xs, x = a ∨ x = b) :
    xs.max?.getD 0 - xs.min?.getD 0 = |b - a| := by
  have h1 : xs.max? = some (max a b) := by
    rw [List.max?_eq_some_iff]
    constructor
    · rcases max_choice a b with h | h <;> rw [h] <;> assumption
    · intro x hx
      rcases h x hx with rfl | rfl
      · exact le_max_left _ _
      · exact le_max_right _ _
  have h2 : xs.min? = some (min a b) := by
    rw [List.min?_eq_some_iff]
    constructor
    · rcases min_choice a b with h | h <;> rw [h] <;> assumption
    · intro x hx
      rcases h x hx with rfl | rfl
      · exact min_le_left _ _
      · exact min_le_right _ _
  rw [h1, h2]
  exact max_sub_min_eq_abs a b

/-- the corners of a face extend to both sides of the axes that the face has -/
theorem agrees_coord : ∀ {x : List Nat}, IsPoint x → ∀ {a : Nat} (_ : a < x.length) (s : Bool),
    (∃ c, agrees x c = true ∧ c[a]? = some s) ↔ (x[a]? = some 1 ∨ x[a]? = some (2 * s.toNat))
  | [], _, a, h, s => by simp at h
  | b :: x, hx, a, h, s => by
    obtain ⟨hb, hx'⟩ := IsPoint.cons.1 hx
    have hex : ∀ {x : List Nat}, IsPoint x → ∃ c, agrees x c = true := by
      intro x hx
      induction x with
      | nil => exact ⟨[], rfl⟩
      | cons b x ih =>
        obtain ⟨hb, hx'⟩ := IsPoint.cons.1 hx
        obtain ⟨c, hc⟩ := ih hx'
        interval_cases b
        · exact ⟨false :: c, by simp [agrees, hc]⟩
        · exact ⟨false :: c, by simp [agrees, hc]⟩
        · exact ⟨true :: c, by simp [agrees, hc]⟩
    rcases a with _ | a
    · obtain ⟨c, hc⟩ := hex hx'
      simp only [List.getElem?_cons_zero, Option.some.injEq]
      constructor
      · rintro ⟨c', h1, h2⟩
        obtain _ | ⟨s', c'⟩ := c'
        · simp at h2
        · simp only [agrees, Bool.and_eq_true, Bool.or_eq_true, beq_iff_eq, List.getElem?_cons_zero, Option.some.injEq] at h1 h2
          subst h2
          exact h1.1
      · intro h
        exact ⟨s :: c, by simp only [agrees, Bool.and_eq_true, Bool.or_eq_true, beq_iff_eq]; exact ⟨h, hc⟩, rfl⟩
    · have ih := agrees_coord hx' (a := a) (by simpa using h) s
      rw [List.getElem?_cons_succ, ← ih]
      constructor
      · rintro ⟨c', h1, h2⟩
        obtain _ | ⟨s', c'⟩ := c'
        · simp at h2
        · simp only [agrees, Bool.and_eq_true] at h1
          exact ⟨c', h1.2, by simpa using h2⟩
      · rintro ⟨c, h1, h2⟩
        interval_cases b
        · exact ⟨false :: c, by simp [agrees, h1], by simpa using h2⟩
        · exact ⟨false :: c, by simp [agrees, h1], by simpa using h2⟩
        · exact ⟨true :: c, by simp [agrees, h1], by simpa using h2⟩

theorem BoxAt.extent (hb : BoxAt V l lo hi σ) (hl : l.length = 2 ^ n) {x : List Nat} (hx : IsPoint x) (hxl : x.length = n)
    (q : Fin n) : Spec.extent V (gridFace l x) q = if x[(σ.symm q).val]? = some 1 then |hi q - lo q| else 0 := by
  have hs := (σ.symm q).isLt
  have hmem : ∀ y : K, y ∈ (gridFace l x).map (fun v => (V[v]?.getD 0) q) ↔
      ∃ s : Bool, (∃ c, agrees x c = true ∧ c[(σ.symm q).val]? = some s) ∧ y = if s then hi q else lo q := by
    intro y
    simp only [List.mem_map, mem_gridFace]
    constructor
    · rintro ⟨v, ⟨c, h1, rfl⟩, rfl⟩
      have hcl := agrees_length h1
      refine ⟨c[(σ.symm q).val]'(by omega), ⟨c, h1, List.getElem?_eq_getElem _⟩, ?_⟩
      rw [hb.coord hl (by omega), List.getElem?_eq_getElem (by omega)]
      simp
    · rintro ⟨s, ⟨c, h1, h2⟩, rfl⟩
      have hcl := agrees_length h1
      refine ⟨_, ⟨c, h1, rfl⟩, ?_⟩
      rw [hb.coord hl (by omega), h2]
      simp
  simp only [agrees_coord hx (show (σ.symm q).val < x.length by omega)] at hmem
  have hxs : x[(σ.symm q).val]? = some (x[(σ.symm q).val]'(by omega)) := List.getElem?_eq_getElem _
  have h2 := hx _ (List.getElem_mem (show (σ.symm q).val < x.length by omega))
  unfold Spec.extent
  split
  · next h1 =>
    apply spread_two
    · exact (hmem _).2 ⟨false, Or.inl h1, rfl⟩
    · exact (hmem _).2 ⟨true, Or.inl h1, rfl⟩
    · intro y hy
      obtain ⟨s, -, rfl⟩ := (hmem y).1 hy
      cases s
      · exact Or.inl rfl
      · exact Or.inr rfl
  · next h1 =>
    rw [hxs] at h1 hmem
    simp only [Option.some.injEq] at h1 hmem
    obtain ⟨s, hs2⟩ : ∃ s : Bool, x[(σ.symm q).val]'(by omega) = 2 * s.toNat := by
      generalize x[(σ.symm q).val]'(by omega) = z at h1 h2
      interval_cases z
      · exact ⟨false, rfl⟩
      · exact absurd rfl h1
      · exact ⟨true, rfl⟩
    have : ∀ y ∈ (gridFace l x).map (fun v => (V[v]?.getD 0) q), y = if s then hi q else lo q := by
      intro y hy
      obtain ⟨s', h3, rfl⟩ := (hmem y).1 hy
      rcases h3 with h3 | h3
      · exact absurd h3 h1
      · have : s' = s := by
          rw [hs2] at h3
          cases s <;> cases s' <;> simp at h3 ⊢
        rw [this]
    have hin := (hmem (if s then hi q else lo q)).2 ⟨s, Or.inr hs2, rfl⟩
    rw [spread_two hin hin fun y hy => Or.inl (this y hy), sub_self, abs_zero]

theorem BoxAt.extent_self (hb : BoxAt V l lo hi σ) (hl : l.length = 2 ^ n) (q : Fin n) : Spec.extent V l q = |hi q - lo q| := by
  have h := hb.extent hl (x := List.replicate n 1) (fun a ha => by rw [List.eq_of_mem_replicate ha]; omega) (by simp) q
  rw [gridFace_middle hl, List.getElem?_replicate, if_pos (σ.symm q).isLt, if_pos rfl] at h
  exact h

theorem BoxAt.boxMeasure (hb : BoxAt V l lo hi σ) (hl : l.length = 2 ^ n) (hne : ∀ q, lo q ≠ hi q) {x e : List Nat}
    (hx : IsPoint x) (hxl : x.length = n) (he : (gridFace l x).Perm e) :
    Spec.boxMeasure V e = ∏ q with x[(σ.symm q).val]? = some 1, |hi q - lo q| := by
  unfold Spec.boxMeasure
  have hq : ∀ q, Spec.extent V e q = if x[(σ.symm q).val]? = some 1 then |hi q - lo q| else 0 := fun q => by
    rw [← extent_perm he q, hb.extent hl hx hxl]
  have hfil : (Finset.univ.filter fun q => Spec.extent V e q ≠ 0) = Finset.univ.filter fun q => x[(σ.symm q).val]? = some 1 := by
    refine Finset.filter_congr fun q _ => ?_
    rw [hq]
    split
    · next h => simp [h, sub_ne_zero.2 (hne q).symm]
    · next h => simp [h]
  rw [hfil]
  refine Finset.prod_congr rfl fun q hqm => ?_
  rw [hq, if_pos (Finset.mem_filter.1 hqm).2]

theorem BoxAt.dualPart (hb : BoxAt V l lo hi σ) (hl : l.length = 2 ^ n) (hne : ∀ q, lo q ≠ hi q) {x e : List Nat}
    (hx : IsPoint x) (hxl : x.length = n) (he : (gridFace l x).Perm e) :
    Spec.dualPart V e l = ∏ q with x[(σ.symm q).val]? ≠ some 1, |hi q - lo q| / 2 := by
  unfold Spec.dualPart
  have hq : ∀ q, Spec.extent V e q = if x[(σ.symm q).val]? = some 1 then |hi q - lo q| else 0 := fun q => by
    rw [← extent_perm he q, hb.extent hl hx hxl]
  have hfil : (Finset.univ.filter fun q => Spec.extent V e q = 0) = Finset.univ.filter fun q => x[(σ.symm q).val]? ≠ some 1 := by
    refine Finset.filter_congr fun q _ => ?_
    rw [hq]
    split
    · next h => simp [h, sub_ne_zero.2 (hne q).symm]
    · next h => simp [h]
  rw [hfil]
  refine Finset.prod_congr rfl fun q _ => ?_
  rw [hb.extent_self hl]

/-! ### volumes of the parts -/

theorem partPoint_get {p c : List Bool} (hp : p.length = n) (hc : c.length = n) {a : Nat} (ha : a < n) :
    (partPoint p c)[a]? = some (if c[a]? = some true then 1 else 2 * (p[a]?.getD false).toNat) := by
  unfold partPoint
  rw [List.getElem?_zipWith, List.getElem?_eq_getElem (show a < p.length by omega), List.getElem?_eq_getElem (show a < c.length by omega)]
  simp

theorem partPoint_isPoint (p c : List Bool) : IsPoint (partPoint p c) := by
  intro a ha
  unfold partPoint at ha
  obtain ⟨i, hi, rfl⟩ := List.mem_iff_getElem.1 ha
  rw [List.getElem_zipWith]
  split
  · omega
  · cases p[i]'(by simp at hi; omega) <;> simp

theorem partPoint_length {p c : List Bool} (hp : p.length = n) (hc : c.length = n) : (partPoint p c).length = n := by
  unfold partPoint
  rw [List.length_zipWith, hp, hc, Nat.min_self]

theorem partPoint_count : ∀ {p c : List Bool}, p.length = c.length → (partPoint p c).count 1 = c.count true
  | [], [], _ => rfl
  | [], _ :: _, h => by simp at h
  | _ :: _, [], h => by simp at h
  | a :: p, true :: c, h => by
    have := partPoint_count (p := p) (c := c) (by simpa using h)
    unfold partPoint at this ⊢
    simp [this]
  | a :: p, false :: c, h => by
    have := partPoint_count (p := p) (c := c) (by simpa using h)
    unfold partPoint at this ⊢
    cases a <;> simp [this]

theorem card_axes {c : List Bool} (hc : c.length = n) (σ : Equiv.Perm (Fin n)) :
    (Finset.univ.filter fun q : Fin n => c[(σ.symm q).val]? = some true).card = c.count true := by
  have h1 : (Finset.univ.filter fun q : Fin n => c[(σ.symm q).val]? = some true).card =
      (Finset.univ.filter fun a : Fin n => c[a.val]? = some true).card := by
    refine Finset.card_bij (fun q _ => σ.symm q) ?_ ?_ ?_
    · intro q hq
      simpa using hq
    · intro a _ b _ h
      exact σ.symm.injective h
    · intro a ha
      exact ⟨σ a, by simpa using ha, by simp⟩
  rw [h1]
  subst hc
  clear h1 σ
  induction c with
  | nil => rfl
  | cons s c ih =>
    rw [List.length_cons, Fin.univ_succ, Finset.filter_cons, List.count_cons]
    have : ((Finset.univ.map ⟨Fin.succ, Fin.succ_injective c.length⟩).filter
        fun a : Fin (c.length + 1) => (s :: c)[a.val]? = some true).card = c.count true := by
      rw [Finset.filter_map, Finset.card_map, ← ih]
      rfl
    cases s
    · simpa using this
    · simpa using this

theorem BoxAt.hypervolume (hb : BoxAt V l lo hi σ) (hl : l.length = 2 ^ n) {p c b : List Bool} (hp : p.length = n) (hc : c.length = n)
    (hbl : b.length = n) {m : Nat} (hm : 0 < m) (hcb : ∀ a : Nat, c[a]? = some true → b[a]? = some true)
    (hcard : b.count true - c.count true = m) :
    Model.hypervolume (centerOf V (gridFace l (partPoint p c))) (centerOf V (gridFace l (partPoint p b))) m =
      ∏ q with b[(σ.symm q).val]? = some true ∧ c[(σ.symm q).val]? ≠ some true, |hi q - lo q| / 2 := by
  have hval : ∀ q, |centerOf V (gridFace l (partPoint p c)) q - centerOf V (gridFace l (partPoint p b)) q| =
      if b[(σ.symm q).val]? = some true ∧ c[(σ.symm q).val]? ≠ some true then |hi q - lo q| / 2 else 0 := by
    intro q
    have hs := (σ.symm q).isLt
    rw [hb.center hl (partPoint_isPoint p c) (partPoint_length hp hc), hb.center hl (partPoint_isPoint p b) (partPoint_length hp hbl),
      partPoint_get hp hc hs, partPoint_get hp hbl hs]
    by_cases h1 : c[(σ.symm q).val]? = some true
    · simp [h1, hcb _ h1]
    · by_cases h2 : b[(σ.symm q).val]? = some true
      · simp only [h1, h2, if_true, if_false, Option.getD_some, ne_eq, not_false_eq_true, and_self]
        rw [show |hi q - lo q| / 2 = |(hi q - lo q) / 2| by rw [abs_div, abs_of_pos (two_pos : (0 : K) < 2)]]
        cases p[(σ.symm q).val]?.getD false
        · rw [← abs_neg]
          congr 1
          simp
          ring
        · congr 1
          simp
          ring
      · simp [h1, h2]
  rw [hypervolume_eq (S := Finset.univ.filter fun q => b[(σ.symm q).val]? = some true ∧ c[(σ.symm q).val]? ≠ some true) hm]
  · refine Finset.prod_congr rfl fun q hq => ?_
    rw [hval, if_pos (Finset.mem_filter.1 hq).2]
  · have h1 := card_axes hbl σ
    have h2 := card_axes hc σ
    rw [← hcard, ← h1, ← h2]
    have : (Finset.univ.filter fun q : Fin n => b[(σ.symm q).val]? = some true ∧ c[(σ.symm q).val]? ≠ some true) =
        (Finset.univ.filter fun q : Fin n => b[(σ.symm q).val]? = some true) \
          (Finset.univ.filter fun q : Fin n => c[(σ.symm q).val]? = some true) := by
      ext q
      simp
    rw [this, Finset.card_sdiff_of_subset]
    intro q hq
    simp only [Finset.mem_filter, Finset.mem_univ, true_and] at hq ⊢
    exact hcb _ hq
  · intro q hq
    have := hval q
    rw [if_neg (by simpa using hq), abs_eq_zero, sub_eq_zero] at this
    exact this

end Verif
