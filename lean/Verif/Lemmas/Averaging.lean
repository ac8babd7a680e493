/-
Accumulated incidence matrices count chains of faces.
-/
import Verif.Model.Averaging
import Verif.Lemmas.Flags
import Verif.Props.Iter
import Mathlib.Data.Nat.Factorial.Basic
import Mathlib.Data.Int.ModEq

set_option linter.unusedSectionVars false

namespace Verif

open Verif.Model Verif.Spec

/-! ### arithmetic that wraps around -/

theorem wrap8_eq {x y : Int} (h : x ≡ y [ZMOD 256]) : wrap8 x = wrap8 y := by
  unfold wrap8
  rw [(h.add_right 128 : (x + 128) % 256 = (y + 128) % 256)]

theorem wrap8_modEq (x : Int) : wrap8 x ≡ x [ZMOD 256] := by
  unfold wrap8 Int.ModEq
  omega

theorem wrap8_small {x : Int} (h1 : -128 ≤ x) (h2 : x < 128) : wrap8 x = x := by
  unfold wrap8
  omega

theorem sum_modEq {α : Type} (L : List α) (f g : α → Int) (h : ∀ x ∈ L, f x ≡ g x [ZMOD 256]) :
    (L.map f).sum ≡ (L.map g).sum [ZMOD 256] := by
  induction L with
  | nil => exact Int.ModEq.refl _
  | cons a L ih =>
    rw [List.map_cons, List.map_cons, List.sum_cons, List.sum_cons]
    exact (h a (by simp)).add (ih fun x hx => h x (by simp [hx]))

/-! ### accumulated products -/

/-- product with entries in `int8`, shapes not compared -/
def prod8 (A B : Mat Int) : Mat Int :=
  ⟨A.rows, B.cols, fun i j => wrap8 ((List.range A.cols).map fun m => A.entry i m * B.entry m j).sum⟩

theorem mul8_ok {A B : Mat Int} (h : A.cols = B.rows) : mul8 A B = .ok (prod8 A B) := by
  unfold mul8 Mat.mul
  rw [if_pos h]
  rfl

/-- products of the first matrices of a list -/
def partials (x : Mat Int) : List (Mat Int) → List (Mat Int)
  | [] => [x]
  | y :: ms => x :: partials (prod8 x y) ms

/-- neighbours have matching shapes -/
def Chained : Nat → List (Mat Int) → Prop
  | _, [] => True
  | c, y :: ms => c = y.rows ∧ Chained y.cols ms

theorem accumulateMul_ok (x : Mat Int) : ∀ (ms : List (Mat Int)), Chained x.cols ms →
    accumulateMul (x :: ms) = .ok (partials x ms) := by
  have loop : ∀ (ms : List (Mat Int)) (x : Mat Int), Chained x.cols ms →
      (x :: []).map Except.ok ++ accumulateLoop (fun (a b : Except PyErr (Mat Int)) => do
        let x ← a
        let y ← b
        mul8 x y) (.ok x) (ms.map Except.ok) = (partials x ms).map Except.ok := by
    intro ms
    induction ms with
    | nil => intro x _; rfl
    | cons y ms ih =>
      intro x h
      obtain ⟨h1, h2⟩ := h
      have := ih (prod8 x y) h2
      have e : (do
        let x ← (Except.ok x : Except PyErr (Mat Int))
        let y ← Except.ok y
        mul8 x y) = .ok (prod8 x y) := mul8_ok h1
      simp only [List.map_cons, List.map_nil, accumulateLoop, partials, List.singleton_append] at this ⊢
      rw [e, this]
  intro ms h
  have h1 := loop ms x h
  simp only [List.map_cons, List.map_nil, List.singleton_append] at h1
  unfold accumulateMul
  simp only [List.map_cons, accumulate]
  rw [h1, List.mapM_map]
  have := mapM_ok (fun a : Mat Int => (id ∘ Except.ok) a) id (partials x ms) fun a _ => rfl
  rw [List.map_id] at this
  exact this

theorem partials_length (ms : List (Mat Int)) : ∀ x, (partials x ms).length = ms.length + 1 := by
  induction ms with
  | nil => intro x; rfl
  | cons y ms ih => intro x; simp [partials, ih]

theorem partials_zero (x : Mat Int) (ms : List (Mat Int)) : (partials x ms)[0]? = some x := by
  cases ms <;> rfl

theorem partials_succ (ms : List (Mat Int)) : ∀ (x : Mat Int) (i : Nat) (A y : Mat Int),
    (partials x ms)[i]? = some A → ms[i]? = some y → (partials x ms)[i + 1]? = some (prod8 A y) := by
  induction ms with
  | nil => intro x i A y _ h; simp at h
  | cons z ms ih =>
    intro x i A y hA hy
    cases i with
    | zero =>
      rw [partials_zero] at hA
      obtain rfl := Option.some.inj hA
      simp at hy
      subst hy
      simp [partials, partials_zero]
    | succ i =>
      simp only [partials, List.getElem?_cons_succ] at hA hy ⊢
      exact ih _ i A y hA hy

/-! ### faces -/

/-- the faces one level down -/
theorem subset_iff_face {k : Nat} {e l : List Nat} (he : e.length = k + 1 ∧ e.Nodup)
    (hl : l.length = k + 2 ∧ l.Nodup) : e ⊆ l ↔ ∃ c < l.length, e.Perm (l.eraseIdx c) := by
  constructor
  · intro h
    obtain ⟨s, hs, hsub⟩ := List.subperm_of_subset he.2 h
    obtain ⟨l', h1, c, hc, h2⟩ := sublist_extend hsub (by rw [hs.length_eq]; omega)
    have hlen : l'.length = l.length := by
      have := List.length_eraseIdx_of_lt hc
      rw [h2, hs.length_eq] at this
      omega
    obtain rfl := h1.eq_of_length hlen
    exact ⟨c, hc, by rw [h2]; exact hs.symm⟩
  · rintro ⟨c, -, hp⟩ v hv
    exact List.mem_of_mem_eraseIdx (hp.mem_iff.mp hv)

namespace WF

variable {n : Nat} {top : List (List Nat)} {t : Topo}

/-- the corners of element `i` on level `k` -/
abbrev corners (t : Topo) (k i : Nat) : List Nat := (t.elements[k]?.getD [])[i]?.getD []

theorem corners_simplex (wf : WF n top t) (htop : Simplices (n + 1) top) {k : Nat} (hk : k ≤ n)
    {i : Nat} (hi : i < t.nElements k) : (corners t k i).length = k + 1 ∧ (corners t k i).Nodup := by
  have hs : Simplices (k + 1) (t.elements[k]?.getD []) := by
    rcases Nat.lt_or_ge k n with h | h
    · exact (wf.get h).1
    · obtain rfl : k = n := by omega
      rw [wf.top_eq]; exact htop
  refine hs _ ?_
  unfold Topo.nElements at hi
  rw [corners, List.getElem?_eq_getElem hi]
  exact List.getElem_mem _

theorem corners_get {k i : Nat} (hi : i < t.nElements k) :
    (t.elements[k]?.getD [])[i]? = some (corners t k i) := by
  unfold Topo.nElements at hi
  rw [corners, List.getElem?_eq_getElem hi]
  rfl

theorem abs_entry (wf : WF n top t) (htop : Simplices (n + 1) top) {k : Nat} (hk : k < n) {i j : Nat}
    (hi : i < t.nElements k) (hj : j < t.nElements (k + 1)) :
    (abs8 (t.matrix k)).entry i j = if corners t k i ⊆ corners t (k + 1) j then 1 else 0 := by
  have h1 := wf.corners_simplex htop hk.le hi
  have h2 := wf.corners_simplex htop hk hj
  show wrap8 ((t.matrix k).entry i j).natAbs = _
  rw [wf.entry hk hi hj]
  have hls : (levelSign k).natAbs = 1 := by
    unfold levelSign
    split <;> rfl
  rw [Int.natAbs_mul, hls, one_mul]
  split
  · next hsub =>
    obtain ⟨c, hc, hp⟩ := (subset_iff_face h1 h2).mp hsub
    rw [cob_relSign_face h2.2 hc hp, Int.natAbs_mul, Int.natAbs_pow]
    have : (relSign (corners t k i) ((corners t (k + 1) j).eraseIdx c)).natAbs = 1 := by
      rcases relSign_eq_one_or h1.2 hp.symm with h | h <;> rw [h] <;> rfl
    rw [this, show (-1 : ℤ).natAbs = 1 from rfl, one_pow]
    rfl
  · next hsub =>
    rw [cob_relSign_not_face fun c hc hp => hsub ((subset_iff_face h1 h2).mpr ⟨c, hc, hp⟩)]
    rfl

theorem vertex_corners (wf : WF n top t) (hn : 0 < n) {v : Nat} (hv : v < t.nElements 0) :
    corners t 0 v = [v] := by
  have := wf.vertex hn (corners_get hv)
  exact this

/-- how many elements of a level without duplicates have given corners -/
theorem sum_perm {E : List (List Nat)} (hd : DistinctElements E) {s : List Nat}
    (hs : ∃ e ∈ E, e.Perm s) :
    ((List.range E.length).map fun i => if (E[i]?.getD []).Perm s then (1 : ℤ) else 0).sum = 1 := by
  obtain ⟨e, he, hp⟩ := hs
  obtain ⟨i, hi, rfl⟩ := List.getElem_of_mem he
  rw [sum_map_eq_single (List.range E.length) List.nodup_range i _ (List.mem_range.2 hi)]
  · rw [List.getElem?_eq_getElem hi, Option.getD_some, if_pos hp]
  · intro x hx hne
    rw [if_neg]
    intro hx'
    have hx := List.mem_range.1 hx
    rw [List.getElem?_eq_getElem hx, Option.getD_some] at hx'
    exact hne (distinct_index hd (List.getElem?_eq_getElem hx) (List.getElem?_eq_getElem hi)
      (hx'.trans hp.symm))

/-- exactly one slot of an element holds a given face -/
theorem face_slots {k : Nat} {e l : List Nat} (he : e.length = k + 1 ∧ e.Nodup)
    (hl : l.length = k + 2 ∧ l.Nodup) :
    (if e ⊆ l then (1 : ℤ) else 0) =
      ((List.range l.length).map fun c => if e.Perm (l.eraseIdx c) then (1 : ℤ) else 0).sum := by
  split
  · next h =>
    obtain ⟨c, hc, hp⟩ := (subset_iff_face he hl).mp h
    rw [sum_map_eq_single (List.range l.length) List.nodup_range c _ (List.mem_range.2 hc), if_pos hp]
    intro x hx hne
    rw [if_neg]
    intro hx'
    exact hne (eraseIdx_perm_inj hl.2 (List.mem_range.1 hx) (hx'.symm.trans hp))
  · next h =>
    symm
    apply List.sum_eq_zero
    intro z hz
    obtain ⟨c, hc, rfl⟩ := List.mem_map.mp hz
    rw [if_neg fun hp => h ((subset_iff_face he hl).mpr ⟨c, List.mem_range.1 hc, hp⟩)]

/-- the faces of an element that contain one of its corners -/
theorem faces_with (wf : WF n top t) (htop : Simplices (n + 1) top) {k : Nat} (hk : k < n) {v j : Nat}
    (hj : j < t.nElements (k + 1)) :
    ((List.range (t.nElements k)).map fun i => (if v ∈ corners t k i then (1 : ℤ) else 0) *
      if corners t k i ⊆ corners t (k + 1) j then 1 else 0).sum =
      if v ∈ corners t (k + 1) j then (k + 1 : ℤ) else 0 := by
  obtain ⟨h1, h2, h3, h4, h5⟩ := wf.get hk
  have hl := wf.corners_simplex htop hk hj
  set l := corners t (k + 1) j with hldef
  have hmem : l ∈ t.elements[k + 1]?.getD [] := List.mem_of_getElem? (corners_get hj)
  have e1 : ∀ i ∈ List.range (t.nElements k),
      (if v ∈ corners t k i then (1 : ℤ) else 0) * (if corners t k i ⊆ l then 1 else 0) =
      ((List.range l.length).map fun c => (if v ∈ l.eraseIdx c then (1 : ℤ) else 0) *
        if (corners t k i).Perm (l.eraseIdx c) then (1 : ℤ) else 0).sum := by
    intro i hi
    rw [face_slots (wf.corners_simplex htop hk.le (List.mem_range.1 hi)) hl, ← List.sum_map_mul_left]
    refine congrArg List.sum (List.map_congr_left fun c _ => ?_)
    by_cases hp : (corners t k i).Perm (l.eraseIdx c)
    · simp only [hp.mem_iff]
    · rw [if_neg hp, mul_zero, mul_zero]
  rw [List.map_congr_left e1, sum_sum_comm]
  have e2 : ∀ c ∈ List.range l.length,
      ((List.range (t.nElements k)).map fun i => (if v ∈ l.eraseIdx c then (1 : ℤ) else 0) *
        if (corners t k i).Perm (l.eraseIdx c) then (1 : ℤ) else 0).sum =
      if v ∈ l.eraseIdx c then (1 : ℤ) else 0 := by
    intro c hc
    rw [List.sum_map_mul_left]
    have := sum_perm h3 (h4.1 l hmem c (List.mem_range.1 hc))
    unfold Topo.nElements corners
    rw [this, mul_one]
  rw [List.map_congr_left e2]
  have hcount : ∀ c ∈ List.range l.length, (if v ∈ l.eraseIdx c then (1 : ℤ) else 0) =
      (if v ∈ l then 1 else 0) + if c = l.idxOf v then (if v ∈ l then -1 else 0) else 0 := by
    intro c hc
    have hc := List.mem_range.1 hc
    by_cases hv : v ∈ l
    · simp only [← hl.2.erase_getElem c hc, hl.2.mem_erase_iff]
      have : c = l.idxOf v ↔ v = l[c] := by
        constructor
        · rintro rfl; simp
        · rintro rfl; exact (hl.2.idxOf_getElem c hc).symm
      by_cases hcv : v = l[c]
      · simp [hv, this.mpr hcv]
      · simp [hv, hcv, this]
    · rw [if_neg fun h => hv (List.mem_of_mem_eraseIdx h), if_neg hv]
      simp [hv]
  rw [List.map_congr_left hcount, List.sum_map_add]
  by_cases hv : v ∈ l
  · rw [sum_map_ite_eq (List.range l.length) List.nodup_range (l.idxOf v) (fun _ => if v ∈ l then -1 else 0)
      (List.mem_range.2 (List.idxOf_lt_length_of_mem hv))]
    simp [hv, hl.1]
  · simp [hv]

/-- the elements between a face and a top element -/
theorem cofaces_in (wf : WF n top t) (htop : Simplices (n + 1) top) {k : Nat} (hk : k + 1 < n)
    {i j : Nat} (hi : i < t.nElements k) (hj : j < t.nElements n) :
    ((List.range (t.nElements (k + 1))).map fun f =>
      (if corners t (k + 1) f ⊆ corners t n j then (1 : ℤ) else 0) *
      if corners t k i ⊆ corners t (k + 1) f then 1 else 0).sum =
      if corners t k i ⊆ corners t n j then (n - k : ℤ) else 0 := by
  have h1' := (wf.get hk).2.2.1
  have hT := wf.corners_simplex htop (Nat.le_refl n) hj
  have he := wf.corners_simplex htop (by omega) hi
  set T := corners t n j with hTdef
  set e := corners t k i with hedef
  have hmem : T ∈ top := by
    have := List.mem_of_getElem? (corners_get hj)
    rwa [wf.top_eq] at this
  by_cases hsub : e ⊆ T
  · rw [if_pos hsub]
    have e1 : ∀ f ∈ List.range (t.nElements (k + 1)),
        (if corners t (k + 1) f ⊆ T then (1 : ℤ) else 0) * (if e ⊆ corners t (k + 1) f then 1 else 0) =
        (T.map fun w => (if w ∈ e then (0 : ℤ) else 1) *
          if (corners t (k + 1) f).Perm (w :: e) then (1 : ℤ) else 0).sum := by
      intro f hf
      have hf := wf.corners_simplex htop hk.le (List.mem_range.1 hf)
      set g := corners t (k + 1) f
      by_cases hg : g ⊆ T ∧ e ⊆ g
      · rw [if_pos hg.1, if_pos hg.2]
        obtain ⟨c, hc, hp⟩ := (subset_iff_face he hf).mp hg.2
        have hgp : g.Perm (g[c] :: e) :=
          (List.getElem_cons_eraseIdx_perm hc).symm.trans (hp.symm.cons _)
        have hw : g[c] ∉ e := by
          have := (hgp.nodup_iff.mp hf.2)
          exact (List.nodup_cons.mp this).1
        rw [sum_map_eq_single T hT.2 g[c] _ (hg.1 (List.getElem_mem _)), if_neg hw, if_pos hgp]
        intro x _ hne
        by_cases hx : x ∈ e
        · rw [if_pos hx, zero_mul]
        · rw [if_neg (c := g.Perm (x :: e)), mul_zero]
          intro hxp
          have : x ∈ g[c] :: e := (hxp.symm.trans hgp).mem_iff.mp (by simp)
          rcases List.mem_cons.mp this with h | h
          · exact hne h
          · exact hx h
      · have hl : (if g ⊆ T then (1 : ℤ) else 0) * (if e ⊆ g then 1 else 0) = 0 := by
          by_cases hg1 : g ⊆ T
          · rw [if_neg fun hg2 => hg ⟨hg1, hg2⟩, mul_zero]
          · rw [if_neg hg1, zero_mul]
        rw [hl]
        symm
        apply List.sum_eq_zero
        intro z hz
        obtain ⟨w, hw, rfl⟩ := List.mem_map.mp hz
        rw [if_neg (c := g.Perm (w :: e)), mul_zero]
        intro hp
        refine hg ⟨fun x hx => ?_, fun x hx => hp.mem_iff.mpr (by simp [hx])⟩
        rcases List.mem_cons.mp (hp.mem_iff.mp hx) with rfl | h
        · exact hw
        · exact hsub h
    rw [List.map_congr_left e1, sum_sum_comm]
    have e2 : ∀ w ∈ T, ((List.range (t.nElements (k + 1))).map fun f =>
        (if w ∈ e then (0 : ℤ) else 1) * if (corners t (k + 1) f).Perm (w :: e) then (1 : ℤ) else 0).sum =
        if w ∈ e then 0 else 1 := by
      intro w hw
      rw [List.sum_map_mul_left]
      by_cases hwe : w ∈ e
      · rw [if_pos hwe, zero_mul]
      · have hex := wf.hasFace htop (k := k + 1) (by omega) hmem (s := w :: e)
          (List.subperm_of_subset (List.nodup_cons.mpr ⟨hwe, he.2⟩) (by
            intro x hx
            rcases List.mem_cons.mp hx with rfl | h
            · exact hw
            · exact hsub h)) (by simp [he.1])
        have := sum_perm h1' hex
        rw [if_neg hwe, one_mul]
        exact this
    rw [List.map_congr_left e2]
    have hcard : (T.map fun w => if w ∈ e then (0 : ℤ) else 1).sum = T.length - e.length := by
      have hin : ((T.filter fun w => w ∈ e).length : ℤ) = e.length := by
        have : (T.filter fun w => w ∈ e).Perm e :=
          (List.perm_ext_iff_of_nodup (hT.2.filter _) he.2).mpr fun x => by
            simp only [List.mem_filter, decide_eq_true_eq]
            exact ⟨fun h => h.2, fun h => ⟨hsub h, h⟩⟩
        rw [this.length_eq]
      rw [← hin]
      clear hin e1 e2 hmem hT hsub hTdef
      clear_value T
      induction T with
      | nil => simp
      | cons a T ih =>
        rw [List.map_cons, List.sum_cons, ih, List.filter_cons, List.length_cons]
        by_cases ha : a ∈ e
        · simp [ha]
        · simp [ha]; ring
    rw [hcard, hT.1, he.1]
    push_cast
    ring
  · rw [if_neg hsub]
    apply List.sum_eq_zero
    intro z hz
    obtain ⟨f, hf, rfl⟩ := List.mem_map.mp hz
    by_cases hg : corners t (k + 1) f ⊆ T
    · rw [if_neg (c := e ⊆ corners t (k + 1) f) fun h => hsub (List.Subset.trans h hg), mul_zero]
    · rw [if_neg hg, zero_mul]

theorem abs_shape (wf : WF n top t) {k : Nat} (hk : k < n) :
    (abs8 (t.matrix k)).rows = t.nElements k ∧ (abs8 (t.matrix k)).cols = t.nElements (k + 1) :=
  wf.shape hk

theorem chained_range (wf : WF n top t) : ∀ (m a : Nat), a + m ≤ n →
    Chained (t.nElements a) ((List.range' a m).map fun k => abs8 (t.matrix k)) := by
  intro m
  induction m with
  | zero => intro a _; trivial
  | succ m ih =>
    intro a h
    rw [List.range'_succ, List.map_cons]
    refine ⟨((wf.abs_shape (k := a) (by omega)).1).symm, ?_⟩
    rw [(wf.abs_shape (k := a) (by omega)).2]
    exact ih (a + 1) (by omega)

/-- the matrices of the topology, the first one apart -/
theorem matrices_cons (wf : WF n top t) (hn : 0 < n) : t.matrices.map abs8 =
    abs8 (t.matrix 0) :: (List.range' 1 (n - 1)).map fun k => abs8 (t.matrix k) := by
  unfold Topo.matrices
  rw [wf.lenB, List.map_map, List.range_eq_range']
  obtain ⟨m, rfl⟩ : ∃ m, n = m + 1 := ⟨n - 1, by omega⟩
  rw [List.range'_succ, List.map_cons]
  rfl

/-- chains of faces from a vertex to an element -/
theorem partials0 (wf : WF n top t) (htop : Simplices (n + 1) top) (hn : 0 < n) : ∀ k < n,
    ∃ A, (partials (abs8 (t.matrix 0)) ((List.range' 1 (n - 1)).map fun k => abs8 (t.matrix k)))[k]? =
        some A ∧ A.rows = t.nElements 0 ∧ A.cols = t.nElements (k + 1) ∧
      ∀ v < t.nElements 0, ∀ j < t.nElements (k + 1),
        A.entry v j = wrap8 (if v ∈ corners t (k + 1) j then ((k + 1).factorial : ℤ) else 0) := by
  intro k
  induction k with
  | zero =>
    intro _
    refine ⟨_, partials_zero _ _, (wf.abs_shape hn).1, (wf.abs_shape hn).2, fun v hv j hj => ?_⟩
    rw [wf.abs_entry htop hn hv hj, wf.vertex_corners hn hv]
    simp only [List.cons_subset, List.nil_subset, and_true, zero_add, Nat.factorial_one, Nat.cast_one]
    split <;> rfl
  | succ k ih =>
    intro hk
    obtain ⟨A, h1, h2, h3, h4⟩ := ih (by omega)
    have hm : ((List.range' 1 (n - 1)).map fun k => abs8 (t.matrix k))[k]? =
        some (abs8 (t.matrix (k + 1))) := by
      rw [List.getElem?_map, List.getElem?_range' (by omega), Option.map_some, one_mul, add_comm 1 k]
    refine ⟨_, partials_succ _ _ _ _ _ h1 hm, h2, (wf.abs_shape hk).2, fun v hv j hj => ?_⟩
    show wrap8 ((List.range A.cols).map fun m => A.entry v m * (abs8 (t.matrix (k + 1))).entry m j).sum = _
    rw [h3]
    apply wrap8_eq
    have step : ((List.range (t.nElements (k + 1))).map fun m =>
        A.entry v m * (abs8 (t.matrix (k + 1))).entry m j).sum ≡
        ((List.range (t.nElements (k + 1))).map fun m => ((k + 1).factorial : ℤ) *
          ((if v ∈ corners t (k + 1) m then (1 : ℤ) else 0) *
          if corners t (k + 1) m ⊆ corners t (k + 2) j then 1 else 0)).sum [ZMOD 256] := by
      apply sum_modEq
      intro m hm
      have hm := List.mem_range.1 hm
      rw [h4 v hv m hm, wf.abs_entry htop hk hm hj, ← mul_assoc]
      refine Int.ModEq.mul_right _ ((wrap8_modEq _).trans ?_)
      split
      · rw [mul_one]
      · rw [mul_zero]
    refine step.trans ?_
    rw [List.sum_map_mul_left, wf.faces_with htop hk hj, Nat.factorial_succ (k + 1)]
    split
    · push_cast
      rw [mul_comm]
    · rw [mul_zero]

theorem chained_down (wf : WF n top t) : ∀ (a : Nat), a ≤ n →
    Chained (t.nElements a) ((List.range a).reverse.map fun k => abs8 (t.matrix k).transpose) := by
  intro a
  induction a with
  | zero => intro _; trivial
  | succ a ih =>
    intro h
    rw [List.range_succ, List.reverse_append, List.reverse_singleton, List.singleton_append,
      List.map_cons]
    refine ⟨((wf.shape (k := a) (by omega)).2).symm, ?_⟩
    show Chained (t.matrix a).rows _
    rw [(wf.shape (k := a) (by omega)).1]
    exact ih (by omega)

theorem matrices_reverse (wf : WF n top t) {m : Nat} (hn : n = m + 1) :
    (t.matrices.reverse.map fun M => abs8 M.transpose) = abs8 (t.matrix m).transpose ::
      (List.range m).reverse.map fun k => abs8 (t.matrix k).transpose := by
  unfold Topo.matrices
  rw [wf.lenB, hn, List.range_succ, List.map_append, List.reverse_append]
  simp [List.map_reverse]

/-- chains of faces from an element to a top element -/
theorem partialsN (wf : WF n top t) (htop : Simplices (n + 1) top) {m : Nat} (hn : n = m + 1) :
    ∀ p k, p + k = m →
    ∃ A, (partials (abs8 (t.matrix m).transpose)
        ((List.range m).reverse.map fun k => abs8 (t.matrix k).transpose))[p]? = some A ∧
      A.rows = t.nElements n ∧ A.cols = t.nElements k ∧
      ∀ j < t.nElements n, ∀ i < t.nElements k,
        A.entry j i = wrap8 (if corners t k i ⊆ corners t n j then ((p + 1).factorial : ℤ) else 0) := by
  intro p
  induction p with
  | zero =>
    intro k hk
    obtain rfl : k = m := by omega
    subst hn
    refine ⟨_, partials_zero _ _, (wf.shape (by omega)).2, (wf.shape (by omega)).1, fun j hj i hi => ?_⟩
    show (abs8 (t.matrix k)).entry i j = _
    rw [wf.abs_entry htop (by omega) hi hj]
    simp only [zero_add, Nat.factorial_one, Nat.cast_one]
    split <;> rfl
  | succ p ih =>
    intro k hk
    obtain ⟨A, h1, h2, h3, h4⟩ := ih (k + 1) (by omega)
    have hm : ((List.range m).reverse.map fun k => abs8 (t.matrix k).transpose)[p]? =
        some (abs8 (t.matrix k).transpose) := by
      rw [List.getElem?_map, List.getElem?_reverse (by simp; omega), List.length_range,
        List.getElem?_range (by omega), Option.map_some, show m - 1 - p = k by omega]
    refine ⟨_, partials_succ _ _ _ _ _ h1 hm, h2, (wf.shape (by omega)).1, fun j hj i hi => ?_⟩
    show wrap8 ((List.range A.cols).map fun f => A.entry j f * (abs8 (t.matrix k)).entry i f).sum = _
    rw [h3]
    apply wrap8_eq
    have step : ((List.range (t.nElements (k + 1))).map fun f =>
        A.entry j f * (abs8 (t.matrix k)).entry i f).sum ≡
        ((List.range (t.nElements (k + 1))).map fun f => ((p + 1).factorial : ℤ) *
          ((if corners t (k + 1) f ⊆ corners t n j then (1 : ℤ) else 0) *
          if corners t k i ⊆ corners t (k + 1) f then 1 else 0)).sum [ZMOD 256] := by
      apply sum_modEq
      intro f hf
      have hf := List.mem_range.1 hf
      rw [h4 j hj f hf, wf.abs_entry htop (by omega) hi hf, ← mul_assoc]
      refine Int.ModEq.mul_right _ ((wrap8_modEq _).trans ?_)
      split
      · rw [mul_one]
      · rw [mul_zero]
    refine step.trans ?_
    rw [List.sum_map_mul_left, wf.cofaces_in htop (by omega) hi hj, Nat.factorial_succ (p + 1)]
    split
    · have : (n : ℤ) - k = ((p + 1 + 1 : ℕ) : ℤ) := by omega
      rw [this, mul_comm]
      push_cast
      rfl
    · rw [mul_zero]

/-- `accumulated_operators_0` -/
theorem accumulated0 (wf : WF n top t) (htop : Simplices (n + 1) top) (hn : 0 < n) :
    ∃ L, accumulatedOperators0 t.matrices = .ok L ∧ L.length = n + 1 ∧ ∀ k ≤ n, ∃ A, L[k]? = some A ∧
      A.rows = t.nElements 0 ∧ A.cols = t.nElements k ∧
      ∀ v < t.nElements 0, ∀ j < t.nElements k,
        A.entry v j = wrap8 (if v ∈ corners t k j then (k.factorial : ℤ) else 0) := by
  have hp := accumulateMul_ok (abs8 (t.matrix 0)) ((List.range' 1 (n - 1)).map fun k => abs8 (t.matrix k))
    (by rw [(wf.abs_shape hn).2]; exact wf.chained_range _ _ (by omega))
  have hpart := wf.partials0 htop hn
  have h0 := partials_zero (abs8 (t.matrix 0)) ((List.range' 1 (n - 1)).map fun k => abs8 (t.matrix k))
  have hlen := partials_length ((List.range' 1 (n - 1)).map fun k => abs8 (t.matrix k)) (abs8 (t.matrix 0))
  unfold accumulatedOperators0
  rw [wf.matrices_cons hn, hp]
  simp only [bind, Except.bind]
  generalize partials (abs8 (t.matrix 0)) ((List.range' 1 (n - 1)).map fun k => abs8 (t.matrix k)) = L
    at hpart h0 hlen
  cases L with
  | nil => simp at h0
  | cons a L =>
    refine ⟨_, rfl, by simp at hlen ⊢; omega, fun k hk => ?_⟩
    cases k with
    | zero =>
      simp at h0
      subst h0
      refine ⟨_, rfl, (wf.abs_shape hn).1, (wf.abs_shape hn).1, fun v hv j hj => ?_⟩
      rw [wf.vertex_corners hn hj]
      simp only [identity8, List.mem_singleton, Nat.factorial_zero, Nat.cast_one]
      split <;> rfl
    | succ k =>
      obtain ⟨A, h⟩ := hpart k (by omega)
      exact ⟨A, by rw [List.getElem?_cons_succ]; exact h⟩

/-- `accumulated_operators_N`; the identity on the top level compares numbers, not corners -/
theorem accumulatedN (wf : WF n top t) (htop : Simplices (n + 1) top) (hn : 0 < n) :
    ∃ L, accumulatedOperatorsN t.matrices = .ok L ∧ L.length = n + 1 ∧
      (∃ A, L[n]? = some A ∧ A.rows = t.nElements n ∧ A.cols = t.nElements n ∧
        ∀ i j, A.entry i j = if i = j then 1 else 0) ∧
      ∀ k < n, ∃ A, L[k]? = some A ∧ A.rows = t.nElements n ∧ A.cols = t.nElements k ∧
      ∀ j < t.nElements n, ∀ i < t.nElements k,
        A.entry j i = wrap8 (if corners t k i ⊆ corners t n j then ((n - k).factorial : ℤ) else 0) := by
  obtain ⟨m, hm⟩ : ∃ m, n = m + 1 := ⟨n - 1, by omega⟩
  have hp := accumulateMul_ok (abs8 (t.matrix m).transpose)
    ((List.range m).reverse.map fun k => abs8 (t.matrix k).transpose) (by
      show Chained (t.matrix m).rows _
      rw [(wf.shape (by omega)).1]
      exact wf.chained_down _ (by omega))
  have hpart := wf.partialsN htop hm
  have h0 := partials_zero (abs8 (t.matrix m).transpose)
    ((List.range m).reverse.map fun k => abs8 (t.matrix k).transpose)
  have hlen := partials_length ((List.range m).reverse.map fun k => abs8 (t.matrix k).transpose)
    (abs8 (t.matrix m).transpose)
  unfold accumulatedOperatorsN
  rw [wf.matrices_reverse hm, hp]
  simp only [bind, Except.bind]
  generalize partials (abs8 (t.matrix m).transpose)
    ((List.range m).reverse.map fun k => abs8 (t.matrix k).transpose) = L at hpart h0 hlen
  cases L with
  | nil => simp at h0
  | cons a L =>
    have hl : (identity8 a.rows :: a :: L).length = n + 1 := by simp at hlen ⊢; omega
    have hget : ∀ k ≤ n, (identity8 a.rows :: a :: L).reverse[k]? = (identity8 a.rows :: a :: L)[n - k]? := by
      intro k hk
      rw [List.getElem?_reverse (by omega), hl, show n + 1 - 1 - k = n - k by omega]
    refine ⟨_, rfl, by rw [List.length_reverse, hl], ⟨identity8 a.rows, ?_, ?_⟩, fun k hk => ?_⟩
    · rw [hget n (Nat.le_refl n), Nat.sub_self]; rfl
    · simp at h0
      subst h0
      have : (t.matrix m).cols = t.nElements n := by rw [hm]; exact (wf.shape (by omega)).2
      exact ⟨this, this, fun i j => rfl⟩
    · obtain ⟨A, h⟩ := hpart (m - k) k (by omega)
      refine ⟨A, ?_⟩
      rw [hget k hk.le, show n - k = m - k + 1 by omega, List.getElem?_cons_succ]
      exact h

end WF

end Verif
