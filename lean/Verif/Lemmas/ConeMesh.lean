/-
The mesh of `subdivide_simplicial`: orientation, boundary, connectedness and numbers of elements.
-/
import Verif.Lemmas.Cone
import Verif.Spec.Boundary
import Verif.Spec.Components
import Mathlib.Algebra.BigOperators.Group.Finset.Basic
import Mathlib.Data.Finset.Powerset
import Mathlib.Data.Nat.Choose.Sum

set_option linter.unusedSectionVars false

namespace Verif

open Verif.Model Verif.Spec

section
variable {nV n : Nat} {top : List (List Nat)} (hs : Simplices (n + 3) top)
  (hV : ∀ l ∈ top, ∀ v ∈ l, v < nV)
include hs hV

/-- a face of an old simplex has old vertices only -/
theorem old_face_lt {e l : List Nat} (hl : l ∈ top) (hf : IsFace e l) : ∀ x ∈ e, x < nV := by
  obtain ⟨c, -, hp⟩ := hf
  intro x hx
  exact hV l hl x ((List.eraseIdx_sublist _ _).subset (hp.mem_iff.1 hx))

/-- faces shared by two old simplices -/
theorem shared_old {e : List Nat} (he : ∀ x ∈ e, x < nV) {I1 I2 : Nat} {r1 r2 : List Nat}
    (h1 : (newRows nV (n + 3) top)[I1]? = some r1) (h2 : (newRows nV (n + 3) top)[I2]? = some r2)
    (hf1 : IsFace e r1) (hf2 : IsFace e r2) :
    SharedFace (newRows nV (n + 3) top) e I1 I2 ↔ SharedFace top e (I1 / (n + 3)) (I2 / (n + 3)) := by
  obtain ⟨l1, hl1, hfl1, -, u1⟩ := old_down hs hV he h1 hf1
  obtain ⟨l2, hl2, hfl2, -, u2⟩ := old_down hs hV he h2 hf2
  constructor
  · rintro ⟨hne, -, -, hall⟩
    refine ⟨fun h => hne (u2 I1 r1 h1 hf1 h), (List.getElem?_eq_some_iff.1 hl1).1,
      (List.getElem?_eq_some_iff.1 hl2).1, ?_⟩
    intro j l hj
    constructor
    · intro hf
      obtain ⟨I, r, hIj, hI, hfr⟩ := old_up hs hV he hj hf
      rcases (hall I r hI).1 hfr with h | h
      · left; rw [← hIj, h]
      · right; rw [← hIj, h]
    · rintro (rfl | rfl)
      · rw [hl1] at hj; obtain rfl := Option.some.inj hj; exact hfl1
      · rw [hl2] at hj; obtain rfl := Option.some.inj hj; exact hfl2
  · rintro ⟨hne, -, -, hall⟩
    refine ⟨fun h => hne (by rw [h]), (List.getElem?_eq_some_iff.1 h1).1,
      (List.getElem?_eq_some_iff.1 h2).1, ?_⟩
    intro I r hI
    constructor
    · intro hf
      obtain ⟨l, hl, hfl, -⟩ := old_down hs hV he hI hf
      rcases (hall _ _ hl).1 hfl with h | h
      · left; exact u1 I r hI hf h
      · right; exact u2 I r hI hf h
    · rintro (rfl | rfl)
      · rw [h1] at hI; obtain rfl := Option.some.inj hI; exact hf1
      · rw [h2] at hI; obtain rfl := Option.some.inj hI; exact hf2

theorem cone_coherent_iff : Coherent (newRows nV (n + 3) top) ↔ Coherent top := by
  have hsign : ∀ a b : ℤ, (-1) ^ n * a + (-1) ^ n * b = 0 ↔ a + b = 0 := by
    intro a b
    rw [← mul_add]
    have : ((-1 : ℤ) ^ n) ≠ 0 := pow_ne_zero _ (by decide)
    constructor
    · intro h
      rcases mul_eq_zero.1 h with h | h
      · exact absurd h this
      · exact h
    · intro h; rw [h, mul_zero]
  constructor
  · intro h e j1 j2 l1 l2 h1 h2 hsh
    have hf1 : IsFace e l1 := (hsh.2.2.2 j1 l1 h1).2 (Or.inl rfl)
    have hf2 : IsFace e l2 := (hsh.2.2.2 j2 l2 h2).2 (Or.inr rfl)
    have he := old_face_lt hs hV (List.mem_of_getElem? h1) hf1
    obtain ⟨I1, r1, rfl, hI1, hr1⟩ := old_up hs hV he h1 hf1
    obtain ⟨I2, r2, rfl, hI2, hr2⟩ := old_up hs hV he h2 hf2
    have := h e I1 I2 r1 r2 hI1 hI2 ((shared_old hs hV he hI1 hI2 hr1 hr2).2 hsh)
    obtain ⟨l1', q1, -, s1, -⟩ := old_down hs hV he hI1 hr1
    obtain ⟨l2', q2, -, s2, -⟩ := old_down hs hV he hI2 hr2
    rw [h1] at q1; rw [h2] at q2
    obtain rfl := Option.some.inj q1
    obtain rfl := Option.some.inj q2
    rw [s1, s2, hsign] at this
    exact this
  · intro h e I1 I2 r1 r2 h1 h2 hsh
    have hf1 : IsFace e r1 := (hsh.2.2.2 I1 r1 h1).2 (Or.inl rfl)
    have hf2 : IsFace e r2 := (hsh.2.2.2 I2 r2 h2).2 (Or.inr rfl)
    by_cases he : ∀ x ∈ e, x < nV
    · obtain ⟨l1, q1, -, s1, -⟩ := old_down hs hV he h1 hf1
      obtain ⟨l2, q2, -, s2, -⟩ := old_down hs hV he h2 hf2
      rw [s1, s2, hsign]
      exact h e _ _ l1 l2 q1 q2 ((shared_old hs hV he h1 h2 hf1 hf2).1 hsh)
    · push Not at he
      obtain ⟨x, hx, hxV⟩ := he
      obtain ⟨-, I', r', hne, hI', hall, hsum⟩ := new_face hs hV hx hxV h1 hf1
      rcases (hall I2 r2 h2).1 hf2 with rfl | rfl
      · exact absurd rfl hsh.1
      · rw [hI'] at h2
        obtain rfl := Option.some.inj h2
        exact hsum

theorem cone_boundaryFace_iff (e : List Nat) :
    BoundaryFace (newRows nV (n + 3) top) e ↔ BoundaryFace top e := by
  constructor
  · rintro ⟨I, r, hI, hf, hu⟩
    by_cases he : ∀ x ∈ e, x < nV
    · obtain ⟨l, hl, hfl, -, -⟩ := old_down hs hV he hI hf
      refine ⟨_, l, hl, hfl, ?_⟩
      intro j' l' hj' hf'
      obtain ⟨I', r', rfl, hI', hr'⟩ := old_up hs hV he hj' hf'
      rw [hu I' r' hI' hr']
    · push Not at he
      obtain ⟨x, hx, hxV⟩ := he
      obtain ⟨-, I', r', hne, hI', hall, -⟩ := new_face hs hV hx hxV hI hf
      exact absurd (hu I' r' hI' ((hall I' r' hI').2 (Or.inr rfl))) hne
  · rintro ⟨j, l, hj, hf, hu⟩
    have he := old_face_lt hs hV (List.mem_of_getElem? hj) hf
    obtain ⟨I, r, rfl, hI, hr⟩ := old_up hs hV he hj hf
    refine ⟨I, r, hI, hr, ?_⟩
    intro I' r' hI' hr'
    obtain ⟨l', hl', hfl', -, -⟩ := old_down hs hV he hI' hr'
    obtain ⟨-, -, -, -, u⟩ := old_down hs hV he hI hr
    exact u I' r' hI' hr' (hu _ _ hl' hfl')

theorem cone_atMostTwo_iff : AtMostTwo (newRows nV (n + 3) top) ↔ AtMostTwo top := by
  constructor
  · intro h e j1 j2 j3 l1 l2 l3 h1 h2 h3 f1 f2 f3
    have he := old_face_lt hs hV (List.mem_of_getElem? h1) f1
    obtain ⟨I1, r1, rfl, hI1, hr1⟩ := old_up hs hV he h1 f1
    obtain ⟨I2, r2, rfl, hI2, hr2⟩ := old_up hs hV he h2 f2
    obtain ⟨I3, r3, rfl, hI3, hr3⟩ := old_up hs hV he h3 f3
    rcases h e I1 I2 I3 r1 r2 r3 hI1 hI2 hI3 hr1 hr2 hr3 with h | h | h
    · left; rw [h]
    · right; left; rw [h]
    · right; right; rw [h]
  · intro h e I1 I2 I3 r1 r2 r3 h1 h2 h3 f1 f2 f3
    by_cases he : ∀ x ∈ e, x < nV
    · obtain ⟨l1, q1, g1, -, u1⟩ := old_down hs hV he h1 f1
      obtain ⟨l2, q2, g2, -, u2⟩ := old_down hs hV he h2 f2
      obtain ⟨l3, q3, g3, -, u3⟩ := old_down hs hV he h3 f3
      rcases h e _ _ _ _ _ _ q1 q2 q3 g1 g2 g3 with h | h | h
      · left; exact u2 I1 r1 h1 f1 h
      · right; left; exact u3 I1 r1 h1 f1 h
      · right; right; exact u3 I2 r2 h2 f2 h
    · push Not at he
      obtain ⟨x, hx, hxV⟩ := he
      obtain ⟨-, I', r', hne, hI', hall, -⟩ := new_face hs hV hx hxV h1 f1
      have a2 := (hall I2 r2 h2).1 f2
      have a3 := (hall I3 r3 h3).1 f3
      omega

/-! ### connectedness -/

/-- two simplices in one old simplex share a face with no third -/
theorem block_adjacent {j c d : Nat} (hj : j < top.length) (hc : c < n + 3) (hd : d < n + 3) (hcd : c ≠ d) :
    Adjacent (newRows nV (n + 3) top) ((n + 3) * j + c) ((n + 3) * j + d) := by
  have hjl := List.getElem?_eq_getElem hj
  set l := top[j] with hl
  obtain ⟨h1, h2⟩ := hs l (List.getElem_mem _)
  have htip := tip_not_mem hs hV hjl
  have hc' : c < l.length := by rw [h1]; exact hc
  have hd' : d < l.length := by rw [h1]; exact hd
  have hrc := newRows_get' (nV := nV) hjl hc
  have hrd := newRows_get' (nV := nV) hjl hd
  set e := (simplexFace l c ++ [j + nV]).erase l[d] with hed
  have hcn := cone_nodup h2 hc' htip
  have hme : ∀ x, x ∈ e ↔ ((x ∈ l ∧ x ≠ l[c]) ∨ x = j + nV) ∧ x ≠ l[d] := by
    intro x
    rw [hed, hcn.mem_erase_iff, mem_cone h2 hc', and_comm]
  have hen : e.Nodup := hcn.erase _
  have hdm : l[d] ∈ simplexFace l c ++ [j + nV] := by
    rw [mem_cone h2 hc']
    exact Or.inl ⟨List.getElem_mem _, fun h => hcd ((List.Nodup.getElem_inj_iff h2).1 h).symm⟩
  have hel : e.length = n + 2 := by
    rw [hed, List.length_erase_of_mem hdm, cone_length hc', h1]; rfl
  have hfc : IsFace e (simplexFace l c ++ [j + nV]) := by
    rw [isFace_iff_subset (n := n + 1) (by rw [cone_length hc', h1]) hcn]
    exact ⟨hen, hel, List.erase_subset⟩
  have hfd : IsFace e (simplexFace l d ++ [j + nV]) := by
    rw [isFace_iff_subset (n := n + 1) (by rw [cone_length hd', h1]) (cone_nodup h2 hd' htip)]
    refine ⟨hen, hel, fun x hx => ?_⟩
    rw [mem_cone h2 hd']
    obtain ⟨h3, h4⟩ := (hme x).1 hx
    rcases h3 with h3 | h3
    · exact Or.inl ⟨h3.1, h4⟩
    · exact Or.inr h3
  have hxe : j + nV ∈ e := (hme _).2 ⟨Or.inr rfl, fun h => htip (h ▸ List.getElem_mem _)⟩
  obtain ⟨-, I', r', hne, hI', hall, -⟩ := new_face hs hV hxe (by omega) hrc hfc
  have hI'd : (n + 3) * j + d = I' := by
    rcases (hall _ _ hrd).1 hfd with h | h
    · omega
    · exact h
  refine ⟨e, by omega, (List.getElem?_eq_some_iff.1 hrc).1, (List.getElem?_eq_some_iff.1 hrd).1, ?_⟩
  intro K rk hK
  rw [hI'd]
  exact hall K rk hK

theorem block_path {I J : Nat} (hI : I < (newRows nV (n + 3) top).length) (h : I / (n + 3) = J / (n + 3)) :
    Relation.ReflTransGen (Adjacent (newRows nV (n + 3) top)) I J := by
  by_cases hm : I % (n + 3) = J % (n + 3)
  · have : I = J := by rw [← Nat.div_add_mod I (n + 3), ← Nat.div_add_mod J (n + 3), h, hm]
    rw [this]
  · rw [newRows_length] at hI
    have hj : I / (n + 3) < top.length := Nat.div_lt_of_lt_mul hI
    have := block_adjacent hs hV hj (Nat.mod_lt I (show 0 < n + 3 by omega))
      (Nat.mod_lt J (show 0 < n + 3 by omega)) hm
    rw [Nat.div_add_mod] at this
    rw [h, Nat.div_add_mod] at this
    exact Relation.ReflTransGen.single this

theorem cone_connected_iff : Connected (newRows nV (n + 3) top) ↔ Connected top := by
  have hdown : ∀ I J, Adjacent (newRows nV (n + 3) top) I J →
      I / (n + 3) = J / (n + 3) ∨ Adjacent top (I / (n + 3)) (J / (n + 3)) := by
    rintro I J ⟨e, hsh⟩
    have h1 := List.getElem?_eq_getElem hsh.2.1
    have h2 := List.getElem?_eq_getElem hsh.2.2.1
    have f1 := (hsh.2.2.2 _ _ h1).2 (Or.inl rfl)
    have f2 := (hsh.2.2.2 _ _ h2).2 (Or.inr rfl)
    by_cases he : ∀ x ∈ e, x < nV
    · exact Or.inr ⟨e, (shared_old hs hV he h1 h2 f1 f2).1 hsh⟩
    · left
      push Not at he
      obtain ⟨x, hx, hxV⟩ := he
      have t1 := (new_face hs hV hx hxV h1 f1).1
      have t2 := (new_face hs hV hx hxV h2 f2).1
      omega
  have hpath : ∀ I J, Relation.ReflTransGen (Adjacent (newRows nV (n + 3) top)) I J →
      Relation.ReflTransGen (Adjacent top) (I / (n + 3)) (J / (n + 3)) := by
    intro I J h
    induction h with
    | refl => exact Relation.ReflTransGen.refl
    | tail _ hadj ih =>
      rcases hdown _ _ hadj with h | h
      · rw [← h]; exact ih
      · exact ih.tail h
  constructor
  · intro h j1 hj1 j2 hj2
    have := hpath _ _ (h ((n + 3) * j1) (by rw [newRows_length]; exact Nat.mul_lt_mul_of_pos_left hj1 (by omega))
      ((n + 3) * j2) (by rw [newRows_length]; exact Nat.mul_lt_mul_of_pos_left hj2 (by omega)))
    rwa [Nat.mul_div_cancel_left _ (by omega), Nat.mul_div_cancel_left _ (by omega)] at this
  · intro h I hI J hJ
    have hI' : I / (n + 3) < top.length := Nat.div_lt_of_lt_mul (by rwa [newRows_length] at hI)
    have hJ' : J / (n + 3) < top.length := Nat.div_lt_of_lt_mul (by rwa [newRows_length] at hJ)
    have key : ∀ j, Relation.ReflTransGen (Adjacent top) (I / (n + 3)) j →
        ∀ K, K / (n + 3) = j → Relation.ReflTransGen (Adjacent (newRows nV (n + 3) top)) I K := by
      intro j hj
      induction hj with
      | refl => intro K hK; exact block_path hs hV hI hK.symm
      | @tail b c hb hadj ih =>
        intro K hK
        obtain ⟨e, hsh⟩ := hadj
        have h1 := List.getElem?_eq_getElem hsh.2.1
        have h2 := List.getElem?_eq_getElem hsh.2.2.1
        have f1 := (hsh.2.2.2 _ _ h1).2 (Or.inl rfl)
        have f2 := (hsh.2.2.2 _ _ h2).2 (Or.inr rfl)
        have he := old_face_lt hs hV (List.getElem_mem _) f1
        obtain ⟨I1, r1, hq1, hI1, hr1⟩ := old_up hs hV he h1 f1
        obtain ⟨I2, r2, hq2, hI2, hr2⟩ := old_up hs hV he h2 f2
        have hadj' : Adjacent (newRows nV (n + 3) top) I1 I2 :=
          ⟨e, (shared_old hs hV he hI1 hI2 hr1 hr2).2 (by rw [hq1, hq2]; exact hsh)⟩
        refine ((ih I1 hq1).tail hadj').trans (block_path hs hV (List.getElem?_eq_some_iff.1 hI2).1 ?_)
        rw [hq2, hK]
    exact key _ (h _ hI' _ hJ') J rfl

theorem cone_linked_iff :
    (∀ a < top.length, ∀ b < top.length, FaceLinked top (List.range top.length) a b) ↔
    (∀ a < (newRows nV (n + 3) top).length, ∀ b < (newRows nV (n + 3) top).length,
      FaceLinked (newRows nV (n + 3) top) (List.range (newRows nV (n + 3) top).length) a b) := by
  have hlen := newRows_length nV n top
  have hdiv : ∀ {I}, I < (newRows nV (n + 3) top).length → I / (n + 3) < top.length := by
    intro I hI
    exact Nat.div_lt_of_lt_mul (by rwa [hlen] at hI)
  have hblock : ∀ {I J}, I < (newRows nV (n + 3) top).length → I / (n + 3) = J / (n + 3) →
      FaceLinked (newRows nV (n + 3) top) (List.range (newRows nV (n + 3) top).length) I J := by
    intro I J hI h
    refine Relation.ReflTransGen.mono ?_ _ _ (block_path hs hV hI h)
    rintro a b ⟨e, hsh⟩
    have h1 := List.getElem?_eq_getElem hsh.2.1
    have h2 := List.getElem?_eq_getElem hsh.2.2.1
    exact ⟨List.mem_range.2 hsh.2.1, List.mem_range.2 hsh.2.2.1, _, _, h1, h2, e,
      (hsh.2.2.2 _ _ h1).2 (Or.inl rfl), (hsh.2.2.2 _ _ h2).2 (Or.inr rfl)⟩
  constructor
  · intro h I hI J hJ
    have key : ∀ j, FaceLinked top (List.range top.length) (I / (n + 3)) j →
        ∀ K, K / (n + 3) = j →
          FaceLinked (newRows nV (n + 3) top) (List.range (newRows nV (n + 3) top).length) I K := by
      intro j hj
      induction hj with
      | refl => intro K hK; exact hblock hI hK.symm
      | @tail b c hb hadj ih =>
        intro K hK
        obtain ⟨-, -, l1, l2, h1, h2, e, f1, f2⟩ := hadj
        have he := old_face_lt hs hV (List.mem_of_getElem? h1) f1
        obtain ⟨I1, r1, hq1, hI1, hr1⟩ := old_up hs hV he h1 f1
        obtain ⟨I2, r2, hq2, hI2, hr2⟩ := old_up hs hV he h2 f2
        have b1 := (List.getElem?_eq_some_iff.1 hI1).1
        have b2 := (List.getElem?_eq_some_iff.1 hI2).1
        refine Relation.ReflTransGen.trans (Relation.ReflTransGen.tail (ih I1 hq1)
          ⟨List.mem_range.2 b1, List.mem_range.2 b2, r1, r2, hI1, hI2, e, hr1, hr2⟩) (hblock b2 ?_)
        rw [hq2, hK]
    exact key _ (h _ (hdiv hI) _ (hdiv hJ)) J rfl
  · intro h a ha b hb
    have hpath : ∀ I J, FaceLinked (newRows nV (n + 3) top) (List.range (newRows nV (n + 3) top).length) I J →
        FaceLinked top (List.range top.length) (I / (n + 3)) (J / (n + 3)) := by
      intro I J hIJ
      induction hIJ with
      | refl => exact Relation.ReflTransGen.refl
      | @tail b c _ hadj ih =>
        obtain ⟨-, -, r1, r2, h1, h2, e, f1, f2⟩ := hadj
        by_cases he : ∀ x ∈ e, x < nV
        · obtain ⟨l1, q1, g1, -⟩ := old_down hs hV he h1 f1
          obtain ⟨l2, q2, g2, -⟩ := old_down hs hV he h2 f2
          exact Relation.ReflTransGen.tail ih ⟨List.mem_range.2 (List.getElem?_eq_some_iff.1 q1).1,
            List.mem_range.2 (List.getElem?_eq_some_iff.1 q2).1, l1, l2, q1, q2, e, g1, g2⟩
        · push Not at he
          obtain ⟨x, hx, hxV⟩ := he
          have t1 := (new_face hs hV hx hxV h1 f1).1
          have t2 := (new_face hs hV hx hxV h2 f2).1
          rw [show b / (n + 3) = c / (n + 3) by omega] at ih
          exact ih
    have := hpath _ _ (h ((n + 3) * a) (by rw [hlen]; exact Nat.mul_lt_mul_of_pos_left ha (by omega))
      ((n + 3) * b) (by rw [hlen]; exact Nat.mul_lt_mul_of_pos_left hb (by omega)))
    rwa [Nat.mul_div_cancel_left _ (by omega), Nat.mul_div_cancel_left _ (by omega)] at this

end

/-! ### numbers of elements -/

/-- the corner sets of one level -/
def levelSets (t : Topo) (k : Nat) : Finset (Finset Nat) :=
  ((t.elements[k]?.getD []).map List.toFinset).toFinset

theorem mem_levelSets {n : Nat} {top : List (List Nat)} {t : Topo} (wf : WF n top t)
    (hs : Simplices (n + 1) top) {k : Nat} (hk : k ≤ n) (X : Finset Nat) :
    X ∈ levelSets t k ↔ X.card = k + 1 ∧ ∃ l ∈ top, X ⊆ l.toFinset := by
  have hf := wf.faces hs (n - k) k (by omega) X.toList
  have h1 : X ∈ levelSets t k ↔ ∃ e ∈ t.elements[k]?.getD [], e.Perm X.toList := by
    unfold levelSets
    rw [List.mem_toFinset, List.mem_map]
    constructor
    · rintro ⟨e, he, rfl⟩
      have hen : e.Nodup := by
        rcases Nat.lt_or_ge k n with h | h
        · exact ((wf.get h).1 e he).2
        · obtain rfl : k = n := by omega
          rw [wf.top_eq] at he
          exact (hs e he).2
      exact ⟨e, he, (List.toFinset_toList hen).symm⟩
    · rintro ⟨e, he, hp⟩
      exact ⟨e, he, by rw [List.toFinset_eq_of_perm _ _ hp]; simp⟩
  rw [h1, hf]
  simp only [Finset.length_toList]
  apply and_congr_right
  intro _
  apply exists_congr
  intro l
  apply and_congr_right
  intro hl
  constructor
  · intro h x hx
    exact List.mem_toFinset.2 (h.subset (Finset.mem_toList.2 hx))
  · intro h
    exact List.subperm_of_subset X.nodup_toList fun x hx => List.mem_toFinset.1 (h (Finset.mem_toList.1 hx))

theorem levelSets_card {n : Nat} {top : List (List Nat)} {t : Topo} (wf : WF n top t)
    {k : Nat} (hk : k < n) : (levelSets t k).card = t.nElements k := by
  obtain ⟨h1, -, h3, -, -⟩ := wf.get hk
  unfold levelSets Topo.nElements
  rw [List.toFinset_card_of_nodup, List.length_map]
  unfold List.Nodup
  rw [List.pairwise_map]
  refine h3.imp_of_mem ?_
  intro a b ha hb hab he
  exact hab (List.perm_of_nodup_nodup_toFinset_eq (h1 a ha).2 (h1 b hb).2 he)

theorem cone_counts {n : Nat} {top : List (List Nat)} {t t' : Topo} (wf : WF (n + 2) top t)
    (hs : Simplices (n + 3) top) (hV : ∀ l ∈ top, ∀ v ∈ l, v < t.nElements 0)
    (wf' : WF (n + 2) (newRows (t.nElements 0) (n + 3) top) t') {k : Nat} (hk : k < n + 2) :
    t'.nElements k = t.nElements k + top.length * (n + 3).choose k := by
  set nV := t.nElements 0 with hnV
  have hs' := newRows_simplices hs hV
  let new : Nat → Finset (Finset Nat) := fun j =>
    (Finset.powersetCard k (top[j]?.getD []).toFinset).image (insert (j + nV))
  have hnew_old : ∀ (j : Nat) (X : Finset Nat), X ⊆ (top[j]?.getD []).toFinset → ∀ x ∈ X, x < nV := by
    intro j X hX x hx
    have := hX hx
    rw [List.mem_toFinset] at this
    cases hj : top[j]? with
    | none => rw [hj] at this; simp at this
    | some l =>
      rw [hj, Option.getD_some] at this
      exact hV l (List.mem_of_getElem? hj) x this
  have hset : levelSets t' k = levelSets t k ∪ (Finset.range top.length).biUnion new := by
    ext X
    rw [mem_levelSets wf' hs' (by omega), Finset.mem_union, mem_levelSets wf hs (by omega), Finset.mem_biUnion]
    constructor
    · rintro ⟨hc, r, hr, hX⟩
      obtain ⟨I, hI⟩ := List.mem_iff_getElem?.1 hr
      obtain ⟨l, hl, rfl⟩ := (newRows_get I r).1 hI
      obtain ⟨h1, h2⟩ := hs l (List.mem_of_getElem? hl)
      have hcl : I % (n + 3) < l.length := by rw [h1]; exact Nat.mod_lt _ (by omega)
      have hsub : ∀ x ∈ X, x ∈ l ∨ x = I / (n + 3) + nV := by
        intro x hx
        rcases (mem_cone h2 hcl _ x).1 (List.mem_toFinset.1 (hX hx)) with h | h
        · exact Or.inl h.1
        · exact Or.inr h
      by_cases htip : I / (n + 3) + nV ∈ X
      · right
        refine ⟨I / (n + 3), Finset.mem_range.2 (List.getElem?_eq_some_iff.1 hl).1, ?_⟩
        refine Finset.mem_image.2 ⟨X.erase (I / (n + 3) + nV), ?_, Finset.insert_erase htip⟩
        rw [Finset.mem_powersetCard, hl, Option.getD_some]
        refine ⟨fun x hx => ?_, by rw [Finset.card_erase_of_mem htip, hc]; rfl⟩
        rw [Finset.mem_erase] at hx
        rcases hsub x hx.2 with h | h
        · exact List.mem_toFinset.2 h
        · exact absurd h hx.1
      · left
        refine ⟨hc, l, List.mem_of_getElem? hl, fun x hx => ?_⟩
        rcases hsub x hx with h | h
        · exact List.mem_toFinset.2 h
        · exact absurd (h ▸ hx) htip
    · have build : ∀ (j : Nat) (l : List Nat), top[j]? = some l → ∀ s : Finset Nat, s ⊆ l.toFinset →
          s.card < n + 3 → ∃ r ∈ newRows nV (n + 3) top, s ⊆ r.toFinset ∧ insert (j + nV) s ⊆ r.toFinset := by
        intro j l hj s hsl hcard
        obtain ⟨h1, h2⟩ := hs l (List.mem_of_getElem? hj)
        obtain ⟨y, hy, hys⟩ : ∃ y ∈ l, y ∉ s := by
          by_contra hno
          push Not at hno
          have : l.toFinset ⊆ s := fun x hx => hno x (List.mem_toFinset.1 hx)
          have := Finset.card_le_card this
          rw [List.toFinset_card_of_nodup h2, h1] at this
          omega
        obtain ⟨c, hc, rfl⟩ := List.getElem_of_mem hy
        have hmem := List.mem_of_getElem? (newRows_get' (nV := nV) hj (by rw [← h1]; exact hc))
        have hin : insert (j + nV) s ⊆ (simplexFace l c ++ [j + nV]).toFinset := by
          intro x hx
          rw [List.mem_toFinset, mem_cone h2 hc]
          rcases Finset.mem_insert.1 hx with h | h
          · exact Or.inr h
          · exact Or.inl ⟨List.mem_toFinset.1 (hsl h), fun he => hys (he ▸ h)⟩
        exact ⟨_, hmem, (Finset.subset_insert _ _).trans hin, hin⟩
      rintro (⟨hc, l, hl, hX⟩ | ⟨j, hj, hX⟩)
      · obtain ⟨j, hj⟩ := List.mem_iff_getElem?.1 hl
        obtain ⟨r, hr, h1, -⟩ := build j l hj X hX (by omega)
        exact ⟨hc, r, hr, h1⟩
      · have hjl := List.getElem?_eq_getElem (Finset.mem_range.1 hj)
        obtain ⟨s, hsm, rfl⟩ := Finset.mem_image.1 hX
        rw [Finset.mem_powersetCard] at hsm
        have hnot : j + nV ∉ s := fun h => by have := hnew_old j s hsm.1 _ h; omega
        rw [hjl, Option.getD_some] at hsm
        obtain ⟨r, hr, -, h2⟩ := build j _ hjl s hsm.1 (by omega)
        exact ⟨by rw [Finset.card_insert_of_notMem hnot, hsm.2], r, hr, h2⟩
  have hdisj : Disjoint (levelSets t k) ((Finset.range top.length).biUnion new) := by
    rw [Finset.disjoint_left]
    intro X hX hX'
    obtain ⟨-, l, hl, hXl⟩ := (mem_levelSets wf hs (by omega) X).1 hX
    obtain ⟨j, -, hX'⟩ := Finset.mem_biUnion.1 hX'
    obtain ⟨s, -, rfl⟩ := Finset.mem_image.1 hX'
    have := hV l hl _ (List.mem_toFinset.1 (hXl (Finset.mem_insert_self _ _)))
    omega
  rw [← levelSets_card wf' hk, hset, Finset.card_union_of_disjoint hdisj, levelSets_card wf hk,
    Finset.card_biUnion]
  · congr 1
    rw [Finset.sum_congr rfl (g := fun _ => (n + 3).choose k), Finset.sum_const, Finset.card_range, smul_eq_mul]
    intro j hj
    have hjl := List.getElem?_eq_getElem (Finset.mem_range.1 hj)
    show ((Finset.powersetCard k (top[j]?.getD []).toFinset).image _).card = _
    rw [Finset.card_image_of_injOn, Finset.card_powersetCard, hjl, Option.getD_some,
      List.toFinset_card_of_nodup (hs _ (List.getElem_mem _)).2, (hs _ (List.getElem_mem _)).1]
    intro s hs1 s' hs2 he
    have n1 : j + nV ∉ s := fun h => by
      have := hnew_old j s (Finset.mem_powersetCard.1 hs1).1 _ h; omega
    have n2 : j + nV ∉ s' := fun h => by
      have := hnew_old j s' (Finset.mem_powersetCard.1 hs2).1 _ h; omega
    have he : insert (j + nV) s = insert (j + nV) s' := he
    rw [← Finset.erase_insert n1, he, Finset.erase_insert n2]
  · intro j1 hj1 j2 hj2 hne
    rw [Function.onFun, Finset.disjoint_left]
    intro X hX hX'
    obtain ⟨s, hs1, rfl⟩ := Finset.mem_image.1 hX
    obtain ⟨s', hs2, he⟩ := Finset.mem_image.1 hX'
    have : j1 + nV ∈ insert (j2 + nV) s' := by rw [he]; exact Finset.mem_insert_self _ _
    rcases Finset.mem_insert.1 this with h | h
    · omega
    · have := hnew_old j2 s' (Finset.mem_powersetCard.1 hs2).1 _ h
      omega

end Verif
