/-
C49: the Euler characteristic under Loop subdivision.
-/
import Verif.Props.Loop
import Mathlib.Algebra.BigOperators.Group.Finset.Basic
import Mathlib.Algebra.Order.BigOperators.Group.Finset

namespace Verif.Spec

/-- the number of different corner sets among a list of simplices -/
def distinctCount (rows : List (List Nat)) : Nat := (rows.map List.toFinset).toFinset.card

/-- `V - E + F` -/
def euler (t : Model.Topo) : Int := t.nElements 0 - t.nElements 1 + t.nElements 2

end Verif.Spec

namespace Verif.Props

open Verif.Model Verif.Spec

variable {uniq : List (List Nat) → List (List Nat)} {simplices : List (List Nat)} {t : Topo}

theorem perm_iff_toFinset {a b : List Nat} (ha : a.Nodup) (hb : b.Nodup) :
    a.Perm b ↔ a.toFinset = b.toFinset :=
  ⟨fun h => List.toFinset_eq_of_perm _ _ h, fun h => List.perm_of_nodup_nodup_toFinset_eq ha hb h⟩

theorem distinctCount_of_distinct {n : Nat} {E : List (List Nat)} (hs : Simplices n E) :
    distinctCount E = E.length ↔ DistinctElements E := by
  unfold distinctCount
  have h1 : (E.map List.toFinset).toFinset.card = E.length ↔ (E.map List.toFinset).Nodup := by
    rw [← Multiset.coe_nodup, ← Multiset.toFinset_card_eq_card_iff_nodup]
    simp
  rw [h1]
  unfold DistinctElements List.Nodup
  rw [List.pairwise_map]
  constructor
  · intro h
    exact h.imp_of_mem (fun {a b} ha hb hab hp => hab (List.toFinset_eq_of_perm _ _ hp))
  · intro h
    exact h.imp_of_mem (fun {a b} ha hb hab he => hab
      ((perm_iff_toFinset (hs a ha).2 (hs b hb).2).2 he))

/-- the edge between the two new vertices next to the corner `v` of a triangle with corners `s` -/
def innerEdge (t : Topo) (s : Finset Nat) (v : Nat) : Finset Nat := (s.erase v).image (mid t v)

section

variable {top : List (List Nat)} (wf : WF 2 top t) (hs : Simplices 3 top)
include wf hs

theorem innerEdge_mid {l l' : List Nat} (hl : l ∈ top) (hl' : l' ∈ top) {v v' : Nat}
    (hv : v ∈ l) (hv' : v' ∈ l') (h : innerEdge t l.toFinset v ⊆ innerEdge t l'.toFinset v') :
    v = v' ∧ ∀ w ∈ l, w ∈ l' := by
  have key : ∀ w ∈ l, w ≠ v → (v = v' ∧ w ∈ l') ∨ (w = v' ∧ v ∈ l') := by
    intro w hw hne
    have h1 : mid t v w ∈ innerEdge t l'.toFinset v' :=
      h (Finset.mem_image_of_mem _ (by simp [hw, hne]))
    obtain ⟨x, hx, hmx⟩ := Finset.mem_image.1 h1
    simp only [Finset.mem_erase, List.mem_toFinset] at hx
    rcases wf.mid_inj hs hl hl' hv hw (Ne.symm hne) hv' hx.2 (Ne.symm hx.1) hmx.symm with
      ⟨a, b⟩ | ⟨a, b⟩
    · exact Or.inl ⟨a, b ▸ hx.2⟩
    · exact Or.inr ⟨b, a ▸ hx.2⟩
  obtain ⟨a, b, c, rfl⟩ := length_three (hs l hl).1
  have hn := (hs _ hl).2
  simp only [List.nodup_cons, List.mem_cons, List.not_mem_nil, or_false, not_or] at hn
  have e : v = v' := by
    by_contra hne
    simp only [List.mem_cons, List.not_mem_nil, or_false] at hv key
    rcases hv with rfl | rfl | rfl
    · have k1 := key b (by simp) (by omega)
      have k2 := key c (by simp) (by omega)
      omega
    · have k1 := key a (by simp) (by omega)
      have k2 := key c (by simp) (by omega)
      omega
    · have k1 := key a (by simp) (by omega)
      have k2 := key b (by simp) (by omega)
      omega
  refine ⟨e, fun w hw => ?_⟩
  by_cases hwv : w = v
  · rw [hwv, e]; exact hv'
  · rcases key w hw hwv with h | h
    · exact h.2
    · rw [h.1]; exact hv'

omit wf in
theorem innerEdge_rot {l : List Nat} {k v w z : Nat} (hl : l ∈ top) (h : Rot l k v w z) :
    innerEdge t l.toFinset v = {mid t v w, mid t z v} := by
  obtain ⟨n1, n2, n3⟩ := h.ne (hs l hl).2
  have : l.toFinset.erase v = {w, z} := by
    ext x
    rcases h with ⟨rfl, rfl⟩ | ⟨rfl, rfl⟩ | ⟨rfl, rfl⟩ <;> simp <;> omega
  unfold innerEdge
  rw [this, Finset.image_insert, Finset.image_singleton, mid_comm t v z]

/-- the edges of the subdivided mesh -/
theorem fine_edges (X : Finset Nat) :
    (∃ r ∈ (top.map (kidsOf t)).flatten, ∃ e, IsFace e r ∧ e.toFinset = X) ↔
      (∃ (i : Nat) (e : List Nat) (v : Nat), (t.elements[1]?.getD [])[i]? = some e ∧ v ∈ e ∧ X = {v, t.nElements 0 + i}) ∨
      (∃ l ∈ top, ∃ v ∈ l, X = innerEdge t l.toFinset v) := by
  have hedge : ∀ {l : List Nat} {v w : Nat}, l ∈ top → v ∈ l → w ∈ l → v ≠ w →
      ∃ (i : Nat) (e : List Nat) (u : Nat), (t.elements[1]?.getD [])[i]? = some e ∧ u ∈ e ∧
        ({v, mid t v w} : Finset Nat) = {u, t.nElements 0 + i} := by
    intro l v w hl hv hw hne
    obtain ⟨e, h1, h2⟩ := wf.edge_get hs hl hv hw hne
    have := WF.mid_ge t v w
    exact ⟨_, e, v, h1, h2.mem_iff.2 (by simp), by congr; omega⟩
  constructor
  · rintro ⟨r, hr, e, he, rfl⟩
    obtain ⟨I, hI⟩ := List.mem_iff_getElem?.1 hr
    obtain ⟨l, hl, hk⟩ := (WF.loop_row I r).1 hI
    have hl := List.mem_of_getElem? hl
    rcases kid_cases (hs l hl).1 hk with ⟨h0, a, b, c, hrot⟩ | ⟨k, a, b, c, -, hrot, rfl⟩
    · right
      rw [h0] at hk
      have hlc : l = [a, b, c] := by
        rcases hrot with ⟨-, h⟩ | ⟨h, -⟩ | ⟨h, -⟩
        · exact h
        · omega
        · omega
      subst hlc
      obtain rfl := Option.some.inj hk
      have R0 : Rot [a, b, c] 0 a b c := Or.inl ⟨rfl, rfl⟩
      have R1 : Rot [a, b, c] 1 b c a := Or.inr (Or.inl ⟨rfl, rfl⟩)
      have R2 : Rot [a, b, c] 2 c a b := Or.inr (Or.inr ⟨rfl, rfl⟩)
      rw [isFace_three] at he
      refine ⟨_, hl, ?_⟩
      rcases he with he | he | he
      · refine ⟨a, by simp, ?_⟩
        rw [innerEdge_rot hs hl R0, List.toFinset_eq_of_perm _ _ he]
        ext x; simp; omega
      · refine ⟨b, by simp, ?_⟩
        rw [innerEdge_rot hs hl R1, List.toFinset_eq_of_perm _ _ he]
        ext x; simp
      · refine ⟨c, by simp, ?_⟩
        rw [innerEdge_rot hs hl R2, List.toFinset_eq_of_perm _ _ he]
        ext x; simp; omega
    · obtain ⟨m1, m2, m3⟩ := hrot.mem
      obtain ⟨n1, n2, n3⟩ := hrot.ne (hs l hl).2
      rw [isFace_three] at he
      rcases he with he | he | he
      · right
        refine ⟨l, hl, a, m1, ?_⟩
        rw [innerEdge_rot hs hl hrot, List.toFinset_eq_of_perm _ _ he]
        ext x; simp
      · left
        rw [List.toFinset_eq_of_perm _ _ he, mid_comm t c a]
        simpa using hedge hl m1 m3 n3
      · left
        rw [List.toFinset_eq_of_perm _ _ he]
        simpa using hedge hl m1 m2 n1
  · rintro (⟨i, e, v, he, hv, rfl⟩ | ⟨l, hl, v, hv, rfl⟩)
    · obtain ⟨he2, hen⟩ := (wf.get (k := 1) (by omega)).1 e (List.mem_of_getElem? he)
      obtain ⟨w, hwe, hp⟩ : ∃ w, w ≠ v ∧ e.Perm [v, w] := by
        obtain ⟨x, y, rfl⟩ := length_two he2
        simp at hv hen
        rcases hv with rfl | rfl
        · exact ⟨y, Ne.symm hen, List.Perm.refl _⟩
        · exact ⟨x, hen, List.Perm.swap _ _ _⟩
      obtain ⟨-, l, hl, hsub⟩ := (wf.faces hs 1 1 (by omega) [v, w]).1
        ⟨_, List.mem_of_getElem? he, hp⟩
      have hm : mid t v w = t.nElements 0 + i := by
        unfold mid
        rw [← elIdx_unique (wf.get (k := 1) (by omega)).2.2.1 he hp, Nat.add_comm]
      rw [← hm]
      have hvl : v ∈ l := hsub.subset (by simp)
      have hwl : w ∈ l := hsub.subset (by simp)
      obtain ⟨k, z, hrot | hrot⟩ := rot_of_mem (hs l hl).1 hvl hwl (Ne.symm hwe)
      · exact ⟨_, WF.loop_kid_mem hl hrot.kid, [v, mid t v w],
          isFace_three.2 (Or.inr (Or.inr (List.Perm.refl _))), by simp⟩
      · exact ⟨_, WF.loop_kid_mem hl hrot.kid, [v, mid t v w],
          isFace_three.2 (Or.inr (Or.inl (by rw [mid_comm t v w]))), by simp⟩
    · obtain ⟨a, b, c, rfl⟩ := length_three (hs l hl).1
      have R0 : Rot [a, b, c] 0 a b c := Or.inl ⟨rfl, rfl⟩
      have R1 : Rot [a, b, c] 1 b c a := Or.inr (Or.inl ⟨rfl, rfl⟩)
      have R2 : Rot [a, b, c] 2 c a b := Or.inr (Or.inr ⟨rfl, rfl⟩)
      have go : ∀ {k x y z : Nat}, Rot [a, b, c] k x y z →
          ∃ r ∈ (top.map (kidsOf t)).flatten, ∃ e, IsFace e r ∧
            e.toFinset = innerEdge t [a, b, c].toFinset x := by
        intro k x y z hrot
        refine ⟨_, WF.loop_kid_mem hl hrot.kid, [mid t x y, mid t z x],
          isFace_three.2 (Or.inl (List.Perm.refl _)), ?_⟩
        rw [innerEdge_rot hs hl hrot]
        simp
      simp only [List.mem_cons, List.not_mem_nil, or_false] at hv
      rcases hv with rfl | rfl | rfl
      · exact go R0
      · exact go R1
      · exact go R2

end

/-- number of edges after Loop subdivision: two per edge, three per distinct triangle -/
theorem loop_edge_count {top : List (List Nat)} (wf : WF 2 top t) (hs : Simplices 3 top)
    {t' : Topo} (wf' : WF 2 (top.map (kidsOf t)).flatten t') :
    t'.nElements 1 = 2 * t.nElements 1 + 3 * distinctCount top := by
  have hs' := wf.loop_simplices hs
  have hE := (wf.get (k := 1) (by omega))
  have hE' := (wf'.get (k := 1) (by omega))
  set E := t.elements[1]?.getD [] with hEd
  set V := t.nElements 0 with hV
  have hlt : ∀ (i : Nat) (e : List Nat), E[i]? = some e → ∀ v ∈ e, v < V := by
    intro i e he v hv
    obtain ⟨-, l, hl, hsub⟩ := (wf.faces hs 1 1 (by omega) e).1
      ⟨_, List.mem_of_getElem? he, List.Perm.refl _⟩
    exact wf.vertex_lt hs hl (hsub.subset hv)
  -- the two families of edges
  let half : Nat → Finset (Finset Nat) := fun i =>
    (E[i]?.getD []).toFinset.image fun v => ({v, V + i} : Finset Nat)
  let inner : Finset Nat → Finset (Finset Nat) := fun s => s.image (innerEdge t s)
  let A := (Finset.range E.length).biUnion half
  let D := (top.map List.toFinset).toFinset
  let B := D.biUnion inner
  have hS : ((t'.elements[1]?.getD []).map List.toFinset).toFinset = A ∪ B := by
    ext X
    rw [List.mem_toFinset, List.mem_map, Finset.mem_union]
    have h1 : (∃ a ∈ t'.elements[1]?.getD [], a.toFinset = X) ↔
        ∃ r ∈ (top.map (kidsOf t)).flatten, ∃ e, IsFace e r ∧ e.toFinset = X := by
      have hf := hE'.2.2.2.1
      rw [show t'.elements[1 + 1]?.getD [] = (top.map (kidsOf t)).flatten by
        rw [wf'.top_eq]; rfl] at hf
      constructor
      · rintro ⟨e, he, rfl⟩
        obtain ⟨l, hl, c, hc, hp⟩ := hf.2 e he
        exact ⟨l, hl, e, ⟨c, hc, hp⟩, rfl⟩
      · rintro ⟨l, hl, e, ⟨c, hc, hp⟩, rfl⟩
        obtain ⟨e', he', hp'⟩ := hf.1 l hl c hc
        exact ⟨e', he', List.toFinset_eq_of_perm _ _ (hp'.trans hp.symm)⟩
    rw [h1, fine_edges wf hs X]
    apply or_congr
    · constructor
      · rintro ⟨i, e, v, he, hv, rfl⟩
        refine Finset.mem_biUnion.2 ⟨i, Finset.mem_range.2 (List.getElem?_eq_some_iff.1 he).1, ?_⟩
        refine Finset.mem_image.2 ⟨v, ?_, rfl⟩
        rw [he]; simpa using hv
      · intro h
        obtain ⟨i, hi, hX⟩ := Finset.mem_biUnion.1 h
        obtain ⟨v, hv, rfl⟩ := Finset.mem_image.1 hX
        have hg := List.getElem?_eq_getElem (Finset.mem_range.1 hi)
        rw [hg] at hv
        exact ⟨i, _, v, hg, by simpa using hv, rfl⟩
    · constructor
      · rintro ⟨l, hl, v, hv, rfl⟩
        exact Finset.mem_biUnion.2 ⟨l.toFinset, by
          rw [List.mem_toFinset]; exact List.mem_map_of_mem hl,
          Finset.mem_image.2 ⟨v, by simpa using hv, rfl⟩⟩
      · intro h
        obtain ⟨s, hsD, hX⟩ := Finset.mem_biUnion.1 h
        obtain ⟨l, hl, rfl⟩ := List.mem_map.1 (List.mem_toFinset.1 hsD)
        obtain ⟨v, hv, rfl⟩ := Finset.mem_image.1 hX
        exact ⟨l, hl, v, by simpa using hv, rfl⟩
  have hcA : A.card = 2 * E.length := by
    rw [Finset.card_biUnion]
    · rw [Finset.sum_congr rfl (g := fun _ => 2), Finset.sum_const, Finset.card_range, smul_eq_mul,
        Nat.mul_comm]
      intro i hi
      have hg := List.getElem?_eq_getElem (Finset.mem_range.1 hi)
      show ((E[i]?.getD []).toFinset.image _).card = 2
      rw [Finset.card_image_of_injOn]
      · rw [hg]
        have := hE.1 _ (List.mem_of_getElem? hg)
        rw [Option.getD_some, List.toFinset_card_of_nodup this.2, this.1]
      · intro v hv w hw hvw
        have h1 := hlt i _ hg v (by rw [hg] at hv; simpa using hv)
        have h2 : v ∈ ({w, V + i} : Finset Nat) := by
          have : v ∈ ({v, V + i} : Finset Nat) := by simp
          rw [show ({v, V + i} : Finset Nat) = {w, V + i} from hvw] at this
          exact this
        simp at h2
        omega
    · intro i hi j hj hij
      rw [Function.onFun, Finset.disjoint_left]
      intro X hX hX'
      obtain ⟨v, hv, rfl⟩ := Finset.mem_image.1 hX
      obtain ⟨w, hw, hX'⟩ := Finset.mem_image.1 hX'
      have hg := List.getElem?_eq_getElem (Finset.mem_range.1 hj)
      have h1 := hlt j _ hg w (by rw [hg] at hw; simpa using hw)
      have h2 : V + i ∈ ({w, V + j} : Finset Nat) := by rw [hX']; simp
      simp at h2
      omega
  have hcB : B.card = 3 * D.card := by
    rw [Finset.card_biUnion]
    · rw [Finset.sum_congr rfl (g := fun _ => 3), Finset.sum_const, smul_eq_mul, Nat.mul_comm]
      intro s hsD
      obtain ⟨l, hl, rfl⟩ := List.mem_map.1 (List.mem_toFinset.1 hsD)
      show (l.toFinset.image _).card = 3
      rw [Finset.card_image_of_injOn, List.toFinset_card_of_nodup (hs l hl).2, (hs l hl).1]
      intro v hv w hw hvw
      exact (innerEdge_mid wf hs hl hl (by simpa using hv) (by simpa using hw) hvw.subset).1
    · intro s hsD s' hsD' hne
      rw [Function.onFun, Finset.disjoint_left]
      intro X hX hX'
      obtain ⟨l, hl, rfl⟩ := List.mem_map.1 (List.mem_toFinset.1 hsD)
      obtain ⟨l', hl', rfl⟩ := List.mem_map.1 (List.mem_toFinset.1 hsD')
      obtain ⟨v, hv, rfl⟩ := Finset.mem_image.1 hX
      obtain ⟨w, hw, hX'⟩ := Finset.mem_image.1 hX'
      rw [List.mem_toFinset] at hv hw
      apply hne
      ext x
      rw [List.mem_toFinset, List.mem_toFinset]
      exact ⟨(innerEdge_mid wf hs hl hl' hv hw hX'.symm.subset).2 x,
        (innerEdge_mid wf hs hl' hl hw hv hX'.subset).2 x⟩
  have hdis : Disjoint A B := by
    rw [Finset.disjoint_left]
    intro X hX hX'
    obtain ⟨i, hi, hX⟩ := Finset.mem_biUnion.1 hX
    obtain ⟨v, hv, rfl⟩ := Finset.mem_image.1 hX
    obtain ⟨s, hsD, hX'⟩ := Finset.mem_biUnion.1 hX'
    obtain ⟨w, hw, hX'⟩ := Finset.mem_image.1 hX'
    have hg := List.getElem?_eq_getElem (Finset.mem_range.1 hi)
    have h1 := hlt i _ hg v (by rw [hg] at hv; simpa using hv)
    have h2 : v ∈ innerEdge t s w := by rw [hX']; simp
    obtain ⟨y, -, hy⟩ := Finset.mem_image.1 h2
    have := WF.mid_ge t w y
    omega
  have hlen : ((t'.elements[1]?.getD []).map List.toFinset).toFinset.card =
      (t'.elements[1]?.getD []).length := (distinctCount_of_distinct hE'.1).2 hE'.2.2.1
  show (t'.elements[1]?.getD []).length = 2 * E.length + 3 * D.card
  rw [← hlen, hS, Finset.card_union_of_disjoint hdis, hcA, hcB]

/-- C49: how Loop subdivision changes the Euler characteristic `V - E + F` -/
theorem C49_euler (hu : UniqSpec uniq) (hs : Simplices 3 simplices)
    (h : fromSimplices uniq 3 simplices = .ok t) :
    ∃ t', subdivideLoop uniq t = .ok t' ∧
      euler t' = euler t + 3 * (simplices.length - distinctCount simplices) := by
  obtain ⟨n, hn, -, wf⟩ := wf_of_ok hu hs h
  obtain rfl : n = 2 := by omega
  obtain ⟨t', ht', wf'⟩ := wf.subdivideLoop_ok hu hs
  obtain ⟨t'', rows, h1, h2, -, h3, h4, -⟩ := C16_counts_and_orientation hu hs h
  rw [ht'] at h1
  obtain rfl := Except.ok.inj h1
  refine ⟨t', ht', ?_⟩
  have hc := loop_edge_count wf hs wf'
  have hF : t'.nElements 2 = 4 * simplices.length := by
    unfold Topo.nElements
    rw [h2]; exact h4
  have hF0 : t.nElements 2 = simplices.length := by
    unfold Topo.nElements
    rw [wf.top_eq]; rfl
  unfold euler
  rw [h3, hc, hF, hF0]
  push_cast
  ring

/-- C49: the Euler characteristic is preserved exactly if no two triangles have the same corners -/
theorem C49_euler_preserved_iff (hu : UniqSpec uniq) (hs : Simplices 3 simplices)
    (h : fromSimplices uniq 3 simplices = .ok t) :
    ∃ t', subdivideLoop uniq t = .ok t' ∧
      (euler t' = euler t ↔ DistinctElements simplices) := by
  obtain ⟨t', h1, h2⟩ := C49_euler hu hs h
  refine ⟨t', h1, ?_⟩
  rw [h2, ← distinctCount_of_distinct hs]
  omega

/-- C49: an accepted mesh whose Euler characteristic is changed: two triangles glued along all
three edges -/
theorem C49_pillow : ∃ t t', Simplices 3 [[0, 1, 2], [1, 0, 2]] ∧
    fromSimplices List.dedup 3 [[0, 1, 2], [1, 0, 2]] = .ok t ∧
    subdivideLoop List.dedup t = .ok t' ∧ euler t = 2 ∧ euler t' = 5 := by
  refine ⟨built 3 [[0, 1, 2], [1, 0, 2]],
    (match subdivideLoop List.dedup (built 3 [[0, 1, 2], [1, 0, 2]]) with
      | .ok t' => t' | .error _ => ⟨[], [], []⟩), simplices_of_all (by decide), ?_, ?_, ?_, ?_⟩ <;>
  decide +kernel

example : ∃ t, Simplices 3 [[0, 1, 2], [2, 1, 3]] ∧ DistinctElements [[0, 1, 2], [2, 1, 3]] ∧
    fromSimplices List.dedup 3 [[0, 1, 2], [2, 1, 3]] = .ok t ∧ euler t = 1 :=
  ⟨built 3 [[0, 1, 2], [2, 1, 3]], simplices_of_all (by decide), by
    unfold DistinctElements; decide +kernel, by decide +kernel, by decide +kernel⟩

end Verif.Props
