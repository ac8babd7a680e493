/-
Faces of the elements of a cubical topology, and their numbers.
-/
import Verif.Lemmas.CubeTransfer
import Verif.Lemmas.Averaging

set_option linter.unusedSectionVars false

namespace Verif

open Verif.Model Verif.Spec

variable {n : Nat} {top : List (List Nat)} {t : Topo}

/-- `g` lists the corners of a face of the `K`-cube `l` -/
def FaceOf (K : Nat) (g l : List Nat) : Prop := ∃ x : List Nat, IsPoint x ∧ x.length = K ∧ (gridFace l x).Perm g

theorem FaceOf.perm {K : Nat} {g g' l : List Nat} (h : FaceOf K g l) (hp : g.Perm g') : FaceOf K g' l := by
  obtain ⟨x, h1, h2, h3⟩ := h
  exact ⟨x, h1, h2, h3.trans hp⟩

theorem mem_of_gridFace {K : Nat} {l x : List Nat} {v : Nat} (hl : l.length = 2 ^ K) (hx : x.length = K)
    (h : v ∈ gridFace l x) : v ∈ l := by
  obtain ⟨c, h1, rfl⟩ := mem_gridFace.1 h
  have := ravel_lt c
  rw [agrees_length h1, hx, ← hl] at this
  unfold cubeAt
  rw [List.getElem?_eq_getElem this]
  exact List.getElem_mem _

theorem FaceOf.subset {K : Nat} {g l : List Nat} (hl : l.length = 2 ^ K) (h : FaceOf K g l) : ∀ v ∈ g, v ∈ l := by
  obtain ⟨x, -, h2, h3⟩ := h
  intro v hv
  exact mem_of_gridFace hl h2 (h3.mem_iff.2 hv)

/-- the face at `x` is a part of the face at `y` -/
def Below : List Nat → List Nat → Prop
  | [], [] => True
  | a :: x, b :: y => (b = 1 ∨ b = a) ∧ Below x y
  | _, _ => False

theorem below_of_agrees : ∀ {x y : List Nat}, IsPoint x → IsPoint y → x.length = y.length →
    (∀ c, agrees x c = true → agrees y c = true) → Below x y
  | [], [], _, _, _, _ => trivial
  | [], _ :: _, _, _, h, _ => by simp at h
  | _ :: _, [], _, _, h, _ => by simp at h
  | a :: x, b :: y, hx, hy, hl, h => by
    obtain ⟨ha, hx⟩ := IsPoint.cons.1 hx
    obtain ⟨hb, hy⟩ := IsPoint.cons.1 hy
    constructor
    · obtain ⟨c, hc⟩ := exists_agrees hx
      have h0 := h (false :: c)
      have h1 := h (true :: c)
      simp only [agrees, hc, Bool.and_eq_true, Bool.or_eq_true, beq_iff_eq, Bool.toNat_false, Bool.toNat_true] at h0 h1
      interval_cases a <;> interval_cases b <;> simp_all
    · refine below_of_agrees hx hy (by simpa using hl) fun c hc => ?_
      have h0 := h (decide (a = 2) :: c)
      have : a = 1 ∨ a = 2 * (decide (a = 2)).toNat := by interval_cases a <;> simp
      simp only [agrees, hc, Bool.and_eq_true, Bool.or_eq_true, beq_iff_eq, and_true] at h0
      exact (h0 this).2

theorem agrees_of_below : ∀ {x y : List Nat} {c : List Bool}, Below x y → agrees x c = true → agrees y c = true
  | [], [], _, _, h => h
  | [], _ :: _, _, h, _ => h.elim
  | _ :: _, [], _, h, _ => h.elim
  | _ :: _, _ :: _, [], _, h => by simp [agrees] at h
  | a :: x, b :: y, s :: c, h, hc => by
    simp only [agrees, Bool.and_eq_true, Bool.or_eq_true, beq_iff_eq] at hc ⊢
    refine ⟨?_, agrees_of_below h.2 hc.2⟩
    rcases h.1 with rfl | rfl
    · exact Or.inl rfl
    · exact hc.1

/-- parts of faces, in terms of corners -/
theorem below_iff {K : Nat} {l x y : List Nat} (hl : l.length = 2 ^ K) (hn : l.Nodup) (hx : IsPoint x) (hy : IsPoint y)
    (hxl : x.length = K) (hyl : y.length = K) : (∀ v ∈ gridFace l x, v ∈ gridFace l y) ↔ Below x y := by
  constructor
  · intro h
    refine below_of_agrees hx hy (by omega) fun c hc => ?_
    obtain ⟨c', h1, h2⟩ := mem_gridFace.1 (h _ (mem_gridFace.2 ⟨c, hc, rfl⟩))
    have := cubeAt_inj hl hn (by rw [agrees_length h1, hyl]) (by rw [agrees_length hc, hxl]) h2
    rwa [this] at h1
  · intro h v hv
    obtain ⟨c, h1, h2⟩ := mem_gridFace.1 hv
    exact mem_gridFace.2 ⟨c, agrees_of_below h h1, h2⟩

theorem below_insert : ∀ {i K s : Nat} {x : List Nat}, i ≤ K → s ≠ 1 → x.length = K + 1 →
    Below x ((List.replicate K 1).insertIdx i s) → ∃ x' : List Nat, x'.length = K ∧ x = x'.insertIdx i s
  | 0, K, s, x, _, hs, hx, h => by
    obtain _ | ⟨a, x⟩ := x
    · simp at hx
    · rw [List.insertIdx_zero] at h
      rcases h.1 with h1 | h1
      · exact absurd h1 hs
      · exact ⟨x, by simpa using hx, by rw [List.insertIdx_zero, h1]⟩
  | i + 1, K, s, x, hi, hs, hx, h => by
    obtain _ | ⟨a, x⟩ := x
    · simp at hx
    · obtain ⟨K, rfl⟩ : ∃ m, K = m + 1 := ⟨K - 1, by omega⟩
      rw [List.replicate_succ, List.insertIdx_succ_cons] at h
      obtain ⟨x', h1, h2⟩ := below_insert (by omega) hs (by simpa using hx) h.2
      exact ⟨a :: x', by simp [h1], by rw [List.insertIdx_succ_cons, ← h2]⟩

theorem faceOf_symmetric {K : Nat} {e l : List Nat} {σ : ℤ} (he : e.length = 2 ^ K) (hn : e.Nodup)
    (h : SymmetricCube K e l σ) (g : List Nat) : FaceOf K g l ↔ FaceOf K g e := by
  have key : ∀ {e l : List Nat} {σ : ℤ}, e.length = 2 ^ K → e.Nodup → SymmetricCube K e l σ → FaceOf K g l → FaceOf K g e := by
    rintro e l σ he hn h ⟨x, h1, h2, h3⟩
    obtain ⟨x', g1, g2, -, g4⟩ := gridFace_symmetric he hn h h1 h2
    exact ⟨x', g2, g1, g4.symm.trans h3⟩
  exact ⟨key he hn h, key h.length (h.nodup he hn) (h.symm he hn)⟩

/-- the faces of a face are the faces of the cube that are part of it -/
theorem faceOf_face (w : CWF n top t) (hn : 1 ≤ n) : ∀ {K i m i' : Nat} {e e' : List Nat}, K ≤ n → m < K → Stored t K i e →
    Stored t m i' e' → FaceOf K e' e → ∀ g, FaceOf m g e' ↔ FaceOf K g e ∧ ∀ v ∈ g, v ∈ e' := by
  intro K
  induction K with
  | zero => intro i m i' e e' _ h; omega
  | succ K ih =>
    intro i m i' e e' hK hm he he' ⟨y, hy, hyl, hp⟩ g
    have hc := w.cube hn hK he
    have hc' := w.cube hn (by omega) he'
    rcases hy.cases hyl with rfl | ⟨a, k, hk, ha, s, z, hz, hzp, rfl⟩
    · have := hp.length_eq
      rw [gridFace_middle hc.1, hc.1, hc'.1] at this
      have := Nat.pow_right_injective (le_refl 2) this
      omega
    · obtain rfl : K = k := by omega
      obtain ⟨i1, e1, h1, σ, h2⟩ := w.side hK he ha s
      have hc1 := w.cube hn (by omega) h1
      have hsl := (gridFace_slice s ha hc.1 hc.2 hz).trans hp
      have hface : FaceOf K e' e1 := (faceOf_symmetric hc1.1 hc1.2 h2 _).1 ⟨z, hzp, hz, hsl⟩
      have hs1 : 2 * s.toNat ≠ 1 := by cases s <;> simp
      have hmid : ∀ g, FaceOf K g e1 ∧ (∀ v ∈ g, v ∈ e') ↔ FaceOf (K + 1) g e ∧ ∀ v ∈ g, v ∈ e' := by
        intro g
        rw [← faceOf_symmetric hc1.1 hc1.2 h2]
        constructor
        · rintro ⟨⟨x, x1, x2, x3⟩, hg⟩
          refine ⟨⟨x.insertIdx a (2 * s.toNat), ?_, ?_, (gridFace_slice s ha hc.1 hc.2 x2).symm.trans x3⟩, hg⟩
          · intro b hb
            rcases (List.mem_insertIdx (by omega)).1 hb with rfl | hb
            · cases s <;> simp
            · exact x1 b hb
          · rw [List.length_insertIdx, if_pos (by omega), x2]
        · rintro ⟨⟨x, x1, x2, x3⟩, hg⟩
          have hb : Below x ((List.replicate K 1).insertIdx a (2 * s.toNat)) := by
            have hrl : ((List.replicate K 1).insertIdx a (2 * s.toNat)).length = K + 1 := by
              rw [List.length_insertIdx, if_pos (by simpa using ha), List.length_replicate]
            refine (below_iff hc.1 hc.2 x1 ?_ x2 hrl).1 ?_
            · intro b hb
              rcases (List.mem_insertIdx (by simpa using ha)).1 hb with rfl | hb
              · cases s <;> simp
              · rw [List.eq_of_mem_replicate hb]; omega
            · intro v hv
              have hv' := hg v (x3.mem_iff.1 hv)
              have hv2 := mem_of_gridFace hc1.1 (by exact hface.choose_spec.2.1) (hface.choose_spec.2.2.mem_iff.2 hv')
              refine (gridFace_slice s ha hc.1 hc.2 (List.length_replicate)).mem_iff.1 ?_
              rw [gridFace_middle h2.length]
              exact (h2.perm hc1.1).mem_iff.2 hv2
          obtain ⟨x', g1, rfl⟩ := below_insert ha hs1 x2 hb
          exact ⟨⟨x', IsPoint.insertIdx x1, g1, (gridFace_slice s ha hc.1 hc.2 g1).trans x3⟩, hg⟩
      rcases Nat.lt_or_ge m K with hlt | hge
      · rw [ih (by omega) hlt h1 he' hface, hmid]
      · obtain rfl : m = K := by omega
        have : e' = e1 := by
          obtain ⟨x, x1, x2, x3⟩ := hface
          have hlen := x3.length_eq
          rw [gridFace_length x1, hc'.1] at hlen
          have := Nat.pow_right_injective (le_refl 2) hlen
          rw [count_eq_length x2 this, gridFace_middle hc1.1] at x3
          have := distinct_index (w.get (by omega)).2.2.1 h1 he' x3
          subst this
          exact he'.unique h1
        subst this
        rw [← hmid]
        constructor
        · intro h
          exact ⟨h, h.subset hc1.1⟩
        · exact fun h => h.1

/-- the faces of dimension `m` higher that contain the face at `x` -/
def aboves : List Nat → Nat → List (List Nat)
  | [], 0 => [[]]
  | [], _ + 1 => []
  | a :: x, 0 => (aboves x 0).map (a :: ·)
  | a :: x, m + 1 => if a = 1 then (aboves x (m + 1)).map (a :: ·)
      else (aboves x (m + 1)).map (a :: ·) ++ (aboves x m).map (1 :: ·)

theorem below_count : ∀ {x y : List Nat}, Below x y → x.length = y.length ∧ x.count 1 ≤ y.count 1
  | [], [], _ => by simp
  | [], _ :: _, h => h.elim
  | _ :: _, [], h => h.elim
  | a :: x, b :: y, h => by
    obtain ⟨h1, h2⟩ := below_count h.2
    refine ⟨by simp [h1], ?_⟩
    rw [List.count_cons, List.count_cons]
    rcases h.1 with rfl | rfl <;> simp <;> (try split) <;> omega

theorem below_count_eq : ∀ {x y : List Nat}, Below x y → y.count 1 = x.count 1 → y = x
  | [], [], _, _ => rfl
  | [], _ :: _, h, _ => h.elim
  | _ :: _, [], h, _ => h.elim
  | a :: x, b :: y, h, hc => by
    obtain ⟨h1, h2⟩ := below_count h.2
    rw [List.count_cons, List.count_cons] at hc
    rcases h.1 with rfl | rfl
    · by_cases ha : a = 1
      · subst ha
        rw [below_count_eq h.2 (by simpa using hc)]
      · simp [ha] at hc
        omega
    · rw [below_count_eq h.2 (by omega)]

theorem mem_aboves : ∀ {x y : List Nat} {m : Nat}, y ∈ aboves x m ↔ Below x y ∧ y.count 1 = x.count 1 + m
  | [], y, 0 => by
    cases y <;> simp [aboves, Below]
  | [], y, m + 1 => by
    cases y <;> simp [aboves, Below]
  | a :: x, [], 0 => by simp [aboves, Below]
  | a :: x, b :: y, 0 => by
    simp only [aboves, List.mem_map, List.cons.injEq, mem_aboves (m := 0), Nat.add_zero]
    constructor
    · rintro ⟨z, ⟨h1, h2⟩, rfl, rfl⟩
      exact ⟨⟨Or.inr rfl, h1⟩, by simp [List.count_cons, h2]⟩
    · rintro ⟨h1, h2⟩
      have := below_count_eq h1 h2
      simp only [List.cons.injEq] at this
      obtain ⟨rfl, rfl⟩ := this
      exact ⟨y, ⟨h1.2, rfl⟩, rfl, rfl⟩
  | a :: x, [], m + 1 => by
    simp only [aboves, Below, false_and, iff_false]
    split <;> simp
  | a :: x, b :: y, m + 1 => by
    simp only [aboves, Below]
    split
    · next h =>
      subst h
      simp only [List.mem_map, List.cons.injEq, mem_aboves (m := m + 1)]
      constructor
      · rintro ⟨z, ⟨h1, h2⟩, rfl, rfl⟩
        exact ⟨⟨Or.inr rfl, h1⟩, by rw [List.count_cons, List.count_cons, h2]; omega⟩
      · rintro ⟨⟨h1, h2⟩, h3⟩
        have hb : b = 1 := by omega
        subst hb
        exact ⟨y, ⟨h2, by rw [List.count_cons, List.count_cons] at h3; omega⟩, rfl, rfl⟩
    · next h =>
      simp only [List.mem_append, List.mem_map, List.cons.injEq, mem_aboves (m := m + 1), mem_aboves (m := m)]
      constructor
      · rintro (⟨z, ⟨h1, h2⟩, rfl, rfl⟩ | ⟨z, ⟨h1, h2⟩, rfl, rfl⟩)
        · exact ⟨⟨Or.inr rfl, h1⟩, by rw [List.count_cons, List.count_cons, h2]; omega⟩
        · exact ⟨⟨Or.inl rfl, h1⟩, by rw [List.count_cons, List.count_cons, h2]; simp [h]; omega⟩
      · rintro ⟨⟨h1, h2⟩, h3⟩
        rw [List.count_cons, List.count_cons] at h3
        simp only [beq_iff_eq, h, if_false, Nat.add_zero] at h3
        rcases h1 with rfl | rfl
        · right
          exact ⟨y, ⟨h2, by simp at h3; omega⟩, rfl, rfl⟩
        · left
          exact ⟨y, ⟨h2, by simpa [h] using h3⟩, rfl, rfl⟩

theorem aboves_nodup : ∀ (x : List Nat) (m : Nat), (aboves x m).Nodup
  | [], 0 => by simp [aboves]
  | [], _ + 1 => by simp [aboves]
  | a :: x, 0 => (aboves_nodup x 0).map List.cons_injective
  | a :: x, m + 1 => by
    simp only [aboves]
    split
    · exact (aboves_nodup x (m + 1)).map List.cons_injective
    · next h =>
      refine List.nodup_append'.2 ⟨(aboves_nodup x _).map List.cons_injective, (aboves_nodup x _).map List.cons_injective, ?_⟩
      intro y h1 h2
      obtain ⟨z, -, rfl⟩ := List.mem_map.1 h1
      obtain ⟨z', -, h3⟩ := List.mem_map.1 h2
      simp only [List.cons.injEq] at h3
      exact h h3.1.symm

theorem aboves_length : ∀ (x : List Nat) (m : Nat), (aboves x m).length = (x.length - x.count 1).choose m
  | [], 0 => rfl
  | [], _ + 1 => rfl
  | a :: x, 0 => by simp [aboves, aboves_length x 0]
  | a :: x, m + 1 => by
    have := List.count_le_length (a := 1) (l := x)
    simp only [aboves]
    split
    · next h =>
      subst h
      rw [List.length_map, aboves_length x, List.length_cons, List.count_cons_self, Nat.add_sub_add_right]
    · next h =>
      rw [List.length_append, List.length_map, List.length_map, aboves_length x, aboves_length x, List.length_cons,
        List.count_cons_of_ne h, show x.length + 1 - x.count 1 = (x.length - x.count 1) + 1 by omega, Nat.choose_succ_succ']
      omega

theorem below_isPoint : ∀ {x y : List Nat}, IsPoint x → Below x y → IsPoint y
  | [], [], _, _ => by simp [IsPoint]
  | [], _ :: _, _, h => h.elim
  | _ :: _, [], _, h => h.elim
  | a :: x, b :: y, hx, h => by
    obtain ⟨h1, h2⟩ := IsPoint.cons.1 hx
    exact IsPoint.cons.2 ⟨by rcases h.1 with rfl | rfl <;> omega, below_isPoint h2 h.2⟩

open Classical in
/-- the number of faces of dimension `m` of an element that contain a given face -/
theorem count_faces (w : CWF n top t) (hn : 1 ≤ n) {K j m : Nat} {l x : List Nat} (hK : K ≤ n) (hm : m < n)
    (hl : Stored t K j l) (hx : IsPoint x) (hxl : x.length = K) (hle : x.count 1 ≤ m) :
    ((Finset.range (t.nElements m)).filter fun i => FaceOf K ((t.elements[m]?.getD [])[i]?.getD []) l ∧
      ∀ v ∈ gridFace l x, v ∈ (t.elements[m]?.getD [])[i]?.getD []).card = (K - x.count 1).choose (m - x.count 1) := by
  have hc := w.cube hn hK hl
  conv_rhs => rw [← hxl]
  rw [← aboves_length, ← List.toFinset_card_of_nodup (aboves_nodup _ _)]
  symm
  have hex : ∀ y ∈ (aboves x (m - x.count 1)).toFinset, ∃ i e, Stored t m i e ∧ (gridFace l y).Perm e := by
    intro y hy
    obtain ⟨h1, h2⟩ := mem_aboves.1 (List.mem_toFinset.1 hy)
    obtain ⟨i, e, g1, g2, -⟩ := gridFace_stored w hn hK hl (below_isPoint hx h1) (by rw [← (below_count h1).1, hxl])
    rw [show y.count 1 = m by omega] at g1
    exact ⟨i, e, g1, g2⟩
  choose f e hf using hex
  refine Finset.card_bij f ?_ ?_ ?_
  · intro y hy
    obtain ⟨h1, h2⟩ := mem_aboves.1 (List.mem_toFinset.1 hy)
    obtain ⟨g1, g2⟩ := hf y hy
    have hyl : y.length = K := by rw [← (below_count h1).1, hxl]
    have hg : (t.elements[m]?.getD [])[f y hy]? = some (e y hy) := g1
    rw [Finset.mem_filter, Finset.mem_range, hg]
    refine ⟨g1.lt, ⟨y, below_isPoint hx h1, hyl, g2⟩, fun v hv => ?_⟩
    exact g2.mem_iff.1 ((below_iff hc.1 hc.2 hx (below_isPoint hx h1) hxl hyl).2 h1 v hv)
  · intro y hy y' hy' heq
    obtain ⟨h1, h2⟩ := mem_aboves.1 (List.mem_toFinset.1 hy)
    obtain ⟨h1', h2'⟩ := mem_aboves.1 (List.mem_toFinset.1 hy')
    obtain ⟨g1, g2⟩ := hf y hy
    obtain ⟨g1', g2'⟩ := hf y' hy'
    rw [heq] at g1
    have := g1.unique g1'
    rw [this] at g2
    have hyl : y.length = K := by rw [← (below_count h1).1, hxl]
    have hyl' : y'.length = K := by rw [← (below_count h1').1, hxl]
    exact gridFace_perm_inj (by rw [hyl, hc.1]) hc.2 (below_isPoint hx h1) (below_isPoint hx h1') (by omega) (g2.trans g2'.symm)
  · intro i hi
    rw [Finset.mem_filter, Finset.mem_range] at hi
    obtain ⟨h1, ⟨y, y1, y2, y3⟩, h3⟩ := hi
    obtain ⟨e0, he0⟩ : ∃ e0, Stored t m i e0 := ⟨_, List.getElem?_eq_getElem h1⟩
    have hg : (t.elements[m]?.getD [])[i]? = some e0 := he0
    rw [hg, Option.getD_some] at y3 h3
    have hlen := y3.length_eq
    rw [gridFace_length y1, (w.cube hn (by omega) he0).1] at hlen
    have hcnt := Nat.pow_right_injective (le_refl 2) hlen
    have hb := (below_iff hc.1 hc.2 hx y1 hxl y2).1 fun v hv => y3.mem_iff.2 (h3 v hv)
    have hmem : y ∈ (aboves x (m - x.count 1)).toFinset := by
      rw [List.mem_toFinset, mem_aboves]
      exact ⟨hb, by omega⟩
    refine ⟨y, hmem, ?_⟩
    obtain ⟨g1, g2⟩ := hf y hmem
    exact distinct_index (w.get hm).2.2.1 g1 he0 (g2.symm.trans y3)

open Classical in
/-- the entries of the matrices of a cubical topology -/
theorem CWF.abs_entry (w : CWF n top t) (hn : 1 ≤ n) {k i j : Nat} {e f : List Nat} (hk : k < n) (he : Stored t k i e)
    (hf : Stored t (k + 1) j f) : (abs8 (t.matrix k)).entry i j = if FaceOf (k + 1) e f then 1 else 0 := by
  have hce := w.cube hn (by omega) he
  have hcf := w.cube hn (by omega) hf
  have hent := w.entry hk he.lt hf.lt
  have hg : (t.elements[k]?.getD [])[i]? = some e := he
  have hg' : (t.elements[k + 1]?.getD [])[j]? = some f := hf
  rw [hg, hg', Option.getD_some, Option.getD_some] at hent
  have hrl : ∀ (a : Nat) (s : Bool), a ≤ k → ((List.replicate k 1).insertIdx a (2 * s.toNat)).length = k + 1 := by
    intro a s ha
    rw [List.length_insertIdx, if_pos (by simpa using ha), List.length_replicate]
  have hrp : ∀ (a : Nat) (s : Bool), a ≤ k → IsPoint ((List.replicate k 1).insertIdx a (2 * s.toNat)) := by
    intro a s ha b hb
    rcases (List.mem_insertIdx (by simpa using ha)).1 hb with rfl | hb
    · cases s <;> simp
    · rw [List.eq_of_mem_replicate hb]; omega
  have hsl : ∀ (a : Nat) (s : Bool), a ≤ k →
      (sliceAxis k a s f).Perm (gridFace f ((List.replicate k 1).insertIdx a (2 * s.toNat))) := by
    intro a s ha
    have := gridFace_slice s ha hcf.1 hcf.2 (List.length_replicate (n := k) (a := 1))
    rwa [gridFace_middle (show (sliceAxis k a s f).length = 2 ^ k from cubeOf_length _ _)] at this
  have hz : ∀ (a : Nat) (s : Bool), a ≤ k → csign k e (sliceAxis k a s f) ≠ 0 →
      (gridFace f ((List.replicate k 1).insertIdx a (2 * s.toNat))).Perm e := by
    intro a s ha h
    by_cases h' : ∃ σ, SymmetricCube k e (sliceAxis k a s f) σ
    · obtain ⟨σ, h'⟩ := h'
      exact (hsl a s ha).symm.trans (h'.perm hce.1)
    · exact absurd (csign_none h') h
  show wrap8 ((t.matrix k).entry i j).natAbs = _
  rw [hent]
  split
  · next h =>
    obtain ⟨x, x1, x2, x3⟩ := h
    have hlen := x3.length_eq
    rw [gridFace_length x1, hce.1] at hlen
    have hcnt := Nat.pow_right_injective (le_refl 2) hlen
    rcases x1.cases x2 with rfl | ⟨a, k', hk', ha, s, z, hzl, hzp, rfl⟩
    · rw [List.count_replicate_self] at hcnt; omega
    · obtain rfl : k = k' := by omega
      rw [count_insertIdx (by cases s <;> simp)] at hcnt
      obtain rfl := count_eq_length hzl hcnt
      obtain ⟨i2, e2, g1, σ, g2⟩ := w.side (by omega) hf ha s
      have hc2 := w.cube hn (by omega) g1
      have hp : e2.Perm e := (g2.perm hc2.1).symm.trans ((hsl a s ha).trans x3)
      obtain rfl := distinct_index (w.get hk).2.2.1 g1 he hp
      obtain rfl := g1.unique he
      have hσ := csign_eq hc2.1 hc2.2 g2
      have hother : ∀ (a' : Nat) (s' : Bool), a' ≤ k → (a', s') ≠ (a, s) → csign k e2 (sliceAxis k a' s' f) = 0 := by
        intro a' s' ha' hne
        by_contra h
        have h1 := gridFace_perm_inj (by rw [hrl a' s' ha', hcf.1]) hcf.2 (hrp a' s' ha') (hrp a s ha)
          (by rw [hrl a' s' ha', hrl a s ha]) ((hz a' s' ha' h).trans x3.symm)
        have h2 : ((List.replicate k 1).insertIdx a' (2 * s'.toNat))[a']? = some (2 * s'.toNat) :=
          by rw [List.getElem?_insertIdx_self, if_pos (by simpa using ha')]
        rw [h1] at h2
        have haa : a' = a := by
          by_contra hne
          have h3 := List.mem_of_getElem? h2
          rcases Nat.lt_or_gt_of_ne hne with hlt | hgt
          · rw [List.getElem?_insertIdx_of_lt hlt, List.getElem?_replicate, if_pos (by omega)] at h2
            cases s' <;> simp at h2
          · rw [List.getElem?_insertIdx_of_gt hgt, List.getElem?_replicate, if_pos (by omega)] at h2
            cases s' <;> simp at h2
        subst haa
        rw [List.getElem?_insertIdx_self, if_pos (by simpa using ha)] at h2
        apply hne
        cases s <;> cases s' <;> simp_all
      have hsum : ccob k (csign k e2) f = (-1) ^ a * sideDiff k (csign k e2) a f := by
        unfold ccob
        refine Finset.sum_eq_single a ?_ ?_
        · intro a' ha' hne
          have ha' : a' ≤ k := by have := Finset.mem_range.1 ha'; omega
          unfold sideDiff
          rw [hother a' false ha' (by simp [hne]), hother a' true ha' (by simp [hne]), sub_zero, mul_zero]
        · intro h
          exact absurd (Finset.mem_range.2 (by omega)) h
      rw [hsum]
      have hd : (sideDiff k (csign k e2) a f).natAbs = 1 := by
        unfold sideDiff
        cases s
        · rw [hσ, hother a true ha (by simp), sub_zero]
          rcases g2.sign with rfl | rfl <;> rfl
        · rw [hσ, hother a false ha (by simp), zero_sub]
          rcases g2.sign with rfl | rfl <;> rfl
      rw [Int.natAbs_neg, Int.natAbs_mul, hd, Int.natAbs_pow]
      simp
      rfl
  · next h =>
    have : ccob k (csign k e) f = 0 := by
      unfold ccob
      refine Finset.sum_eq_zero fun a ha => ?_
      have ha : a ≤ k := by have := Finset.mem_range.1 ha; omega
      have h0 : ∀ s, csign k e (sliceAxis k a s f) = 0 := by
        intro s
        by_contra hne
        exact h ⟨_, hrp a s ha, hrl a s ha, hz a s ha hne⟩
      unfold sideDiff
      rw [h0, h0, sub_zero, mul_zero]
    rw [this]
    rfl

end Verif
