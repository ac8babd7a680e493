/-
C50: the transfer matrices of Loop subdivision form a chain map.
-/
import Verif.Props.Euler
import Verif.Lemmas.LoopTransfer

namespace Verif.Props

open Verif.Model Verif.Spec

variable {uniq : List (List Nat) → List (List Nat)} {simplices : List (List Nat)} {t t' : Topo}

theorem face_sign {l : List Nat} (hl : l.length = 3) (hn : l.Nodup) {c : Nat} (hc : c < l.length) :
    inducedSign (simplexFace l c) l = 1 ∧ ∃ p q, simplexFace l c = [p, q] ∧ p ∈ l ∧ q ∈ l ∧
      p ≠ q := by
  obtain ⟨x, y, z, rfl⟩ := length_three hl
  simp only [List.nodup_cons, List.mem_cons, List.not_mem_nil, or_false, not_or] at hn
  have h0 : c = 0 ∨ c = 1 ∨ c = 2 := by simp at hc; omega
  rcases h0 with rfl | rfl | rfl
  · refine ⟨?_, y, z, rfl, by simp, by simp, by omega⟩
    show inducedSign [y, z] [x, y, z] = 1
    rw [inducedSign_rot]
    exact inducedSign_fwd (by omega) (by omega) (by omega)
  · have e1 : simplexFace [x, y, z] 1 = [z, x] := by simp [simplexFace, rollLeft]
    rw [e1]
    refine ⟨?_, z, x, rfl, by simp, by simp, by omega⟩
    rw [← inducedSign_rot]
    exact inducedSign_fwd (by omega) (by omega) (by omega)
  · refine ⟨?_, x, y, rfl, by simp, by simp, by omega⟩
    exact inducedSign_fwd (by omega) (by omega) (by omega)

theorem sign_swap {x y : Nat} (hxy : x ≠ y) {l : List Nat} (hl : l.Nodup) :
    inducedSign [x, y] l = - inducedSign [y, x] l := by
  rw [inducedSign_face_perm (List.Perm.swap y x []) (by simpa using hxy) hl]
  rw [relSign_pair_swap, relSign_pair_self hxy]
  ring

section

variable {top : List (List Nat)} (wf : WF 2 top t) (hs : Simplices 3 top)
  (wf' : WF 2 (top.map (kidsOf t)).flatten t')
  (hf : FirstFace (t.elements[1]?.getD []) top)
  (hf' : FirstFace (t'.elements[1]?.getD []) (top.map (kidsOf t)).flatten)
include wf hs wf' hf hf'

/-- the first fine triangle with a half edge of `e` comes from the first triangle with `e`, and the
half edge is stored with the sign it has there -/
theorem first_half {v w : Nat} {e : List Nat} (he : e ∈ t.elements[1]?.getD [])
    (hp : e.Perm [v, w]) (hvw : v ≠ w) :
    ∃ e' ∈ t'.elements[1]?.getD [], e'.Perm [v, mid t v w] ∧
      e' = if e = [v, w] then [v, mid t v w] else [mid t v w, v] := by
  obtain ⟨j, l, c, hj, hc, rfl, hmin⟩ := hf e he
  have hl := List.mem_of_getElem? hj
  obtain ⟨hl3, hln⟩ := hs l hl
  obtain ⟨hsg, -⟩ := face_sign hl3 hln hc
  have hface : IsFace (simplexFace l c) l := ⟨c, hc, simplexFace_perm hc⟩
  have hsub : ∀ x, x = v ∨ x = w → x ∈ l := by
    intro x hx
    have h1 : x ∈ simplexFace l c := hp.mem_iff.2 (by simpa using hx)
    exact (List.eraseIdx_sublist l c).subset ((simplexFace_perm hc).mem_iff.1 h1)
  have hv := hsub v (Or.inl rfl)
  have hw := hsub w (Or.inr rfl)
  obtain ⟨k, r, hk, hr, hrf⟩ := has_half_edge (t := t) hs hl hv hw hvw
  have hrow : (top.map (kidsOf t)).flatten[4 * j + (k + 1)]? = some r := by
    refine (WF.loop_row _ _).2 ⟨l, ?_, ?_⟩
    · rw [show (4 * j + (k + 1)) / 4 = j by omega]; exact hj
    · rw [show (4 * j + (k + 1)) % 4 = k + 1 by omega]; exact hr
  have hE' := wf'.get (k := 1) (by omega)
  obtain ⟨e', he', hp'⟩ : ∃ e' ∈ t'.elements[1]?.getD [], e'.Perm [v, mid t v w] := by
    have h1 := hE'.2.2.2.1.1
    rw [show t'.elements[1 + 1]?.getD [] = (top.map (kidsOf t)).flatten by
        rw [wf'.top_eq]; rfl] at h1
    obtain ⟨d, hd, hpd⟩ := hrf
    obtain ⟨e', h2, h3⟩ := h1 r (List.mem_of_getElem? hrow) d hd
    exact ⟨e', h2, h3.trans hpd.symm⟩
  refine ⟨e', he', hp', ?_⟩
  obtain ⟨J, r', c', hJ, hc', hee, hmin'⟩ := hf' e' he'
  have hJle : J ≤ 4 * j + (k + 1) := by
    by_contra hlt
    exact hmin' _ _ (by omega) hrow (isFace_of_perm hp'.symm hrf)
  obtain ⟨l0, hl0, hr'⟩ := (WF.loop_row J r').1 hJ
  have hl0m := List.mem_of_getElem? hl0
  obtain ⟨hr3, hrn⟩ := wf.kids_simplices hs hl0m hr'
  obtain ⟨hsg', -⟩ := face_sign hr3 hrn hc'
  rw [← hee] at hsg'
  have hf0 : IsFace [v, mid t v w] r' := by
    refine isFace_of_perm hp' ⟨c', hc', ?_⟩
    rw [hee]; exact simplexFace_perm hc'
  obtain ⟨a1, a2, a3, a4, a5⟩ := half_edge wf hs hl0m hl hv hw hvw hr' hf0
  have hface0 : IsFace (simplexFace l c) l0 := by
    obtain ⟨x, y, z, rfl⟩ := length_three (hs l0 hl0m).1
    refine isFace_of_perm hp.symm (isFace_three.2 ?_)
    simp only [perm_pair]
    simp at a1 a2
    omega
  have hJj : J / 4 = j := by
    by_contra hne
    exact hmin (J / 4) l0 (by omega) hl0 hface0
  rw [hJj, hj] at hl0
  obtain rfl := Option.some.inj hl0
  have hvm : v ≠ mid t v w := by
    have := wf.vertex_lt hs hl hv
    have := WF.mid_ge t v w
    omega
  -- compare signs
  have cases2 : ∀ {x : List Nat} {a b : Nat}, x.Perm [a, b] → x = [a, b] ∨ x = [b, a] := by
    intro x a b h
    obtain ⟨p, q, rfl⟩ := length_two h.length_eq
    rcases perm_pair.1 h with ⟨rfl, rfl⟩ | ⟨rfl, rfl⟩ <;> simp
  rcases cases2 hp with h1 | h1
  · rw [if_pos h1]
    rw [h1] at hsg
    rcases cases2 hp' with h2 | h2
    · exact h2
    · rw [h2, sign_swap (Ne.symm hvm) hrn, a5, hsg] at hsg'
      omega
  · have hne : simplexFace l c ≠ [v, w] := by
      rw [h1]; intro h; exact hvw (by simpa using (List.cons.inj h).1.symm)
    rw [if_neg hne]
    rw [h1, sign_swap (Ne.symm hvw) hln] at hsg
    rcases cases2 hp' with h2 | h2
    · rw [h2, a5] at hsg'
      omega
    · exact h2

/-- both half edges are stored in the direction of the edge -/
theorem halves_stored {i p q : Nat} (he : (t.elements[1]?.getD [])[i]? = some [p, q]) :
    mid t p q = t.nElements 0 + i ∧ p ≠ q ∧
    [p, t.nElements 0 + i] ∈ t'.elements[1]?.getD [] ∧
    [t.nElements 0 + i, q] ∈ t'.elements[1]?.getD [] := by
  have hE := wf.get (k := 1) (by omega)
  have hmem := List.mem_of_getElem? he
  have hne : p ≠ q := by simpa using (hE.1 _ hmem).2
  have hm : mid t p q = t.nElements 0 + i := by
    unfold mid
    rw [← elIdx_unique hE.2.2.1 he (List.Perm.refl _), Nat.add_comm]
  obtain ⟨e1, h1, -, h3⟩ := first_half wf hs wf' hf hf' hmem (List.Perm.refl _) hne
  obtain ⟨e2, h4, -, h6⟩ := first_half wf hs wf' hf hf' hmem (List.Perm.swap q p []) hne.symm
  rw [if_pos rfl, hm] at h3
  rw [if_neg (by simpa using fun h => absurd h hne), mid_comm t q p, hm] at h6
  exact ⟨hm, hne, h3 ▸ h1, h6 ▸ h4⟩

omit hf hf' in
/-- which entries of the edge transfer are one: the halves of the edge -/
theorem edge_transfer_entry {i i' : Nat} {e e' : List Nat}
    (he : (t.elements[1]?.getD [])[i]? = some e)
    (he' : (t'.elements[1]?.getD [])[i']? = some e') :
    (transferMatrix (loopEdgeTransfer t t').1 (loopEdgeTransfer t t').2 (t'.nElements 1)
      (t.nElements 1)).entry i' i = if ∃ v ∈ e, e'.Perm [v, t.nElements 0 + i] then 1 else 0 := by
  set V := t.nElements 0 with hV
  set E' := t'.elements[1]?.getD [] with hE'd
  have hE := wf.get (k := 1) (by omega)
  have hE' := wf'.get (k := 1) (by omega)
  have hlt : ∀ (i : Nat) (e : List Nat), (t.elements[1]?.getD [])[i]? = some e →
      ∀ v ∈ e, v < V := by
    intro i e he v hv
    obtain ⟨-, l, hl, hsub⟩ := (wf.faces hs 1 1 (by omega) e).1
      ⟨_, List.mem_of_getElem? he, List.Perm.refl _⟩
    exact wf.vertex_lt hs hl (hsub.subset hv)
  -- a fine edge is a half edge or an inner edge
  have hcase : (∃ (i0 : Nat) (e0 : List Nat) (v : Nat), (t.elements[1]?.getD [])[i0]? = some e0 ∧
      v ∈ e0 ∧ e'.Perm [v, V + i0]) ∨ (∀ x ∈ e', V ≤ x) := by
    obtain ⟨l, hl, c, hc, hp⟩ : ∃ l ∈ (top.map (kidsOf t)).flatten, ∃ c < l.length,
        e'.Perm (l.eraseIdx c) := by
      have h1 := hE'.2.2.2.1.2
      rw [show t'.elements[1 + 1]?.getD [] = (top.map (kidsOf t)).flatten by
        rw [wf'.top_eq]; rfl] at h1
      exact h1 e' (List.mem_of_getElem? he')
    have hen := (hE'.1 _ (List.mem_of_getElem? he')).2
    rcases (fine_edges wf hs e'.toFinset).1 ⟨l, hl, e', ⟨c, hc, hp⟩, rfl⟩ with
      ⟨i0, e0, v, h1, h2, h3⟩ | ⟨l', hl', v, hv, h3⟩
    · left
      refine ⟨i0, e0, v, h1, h2, ?_⟩
      have := hlt i0 e0 h1 v h2
      refine (perm_iff_toFinset hen (by simp; omega)).2 ?_
      rw [h3]; simp
      rfl
    · right
      intro x hx
      have : x ∈ e'.toFinset := by simpa using hx
      rw [h3] at this
      obtain ⟨y, -, hy⟩ := Finset.mem_image.1 this
      rw [← hy]; exact WF.mid_ge t v y
  have hsort : (E'.map sortRow)[i']? = some (sortRow e') := by
    rw [List.getElem?_map, he']; rfl
  have hi'lt := (List.getElem?_eq_some_iff.1 hsort).1
  set idx := (loopEdgeTransfer t t').1 with hidx
  have hmem : i' ∈ idx ↔ (sortRow e')[0]?.getD 0 < V := by
    rw [hidx]
    unfold loopEdgeTransfer
    simp only
    rw [List.mem_filter, List.mem_range]
    simp only [decide_eq_true_eq]
    rw [hsort]
    simp only [Option.getD_some]
    exact ⟨fun h => h.2, fun h => ⟨hi'lt, h⟩⟩
  have hnd : idx.Nodup := by
    rw [hidx]; exact List.Nodup.filter _ List.nodup_range
  have hc2 : (loopEdgeTransfer t t').2 = idx.map fun i =>
      (((E'.map sortRow)[i]?.getD []).getLast?.getD 0) - V := rfl
  rcases hcase with ⟨i0, e0, v, h1, h2, h3⟩ | h
  · have hv := hlt i0 e0 h1 v h2
    have hse : sortRow e' = [v, V + i0] := by
      rw [(sortRow_eq_iff e' [v, V + i0]).2 h3]
      unfold sortRow
      have : v ≤ V + i0 := by omega
      simp [List.insertionSort, this]
    have hin : i' ∈ idx := by rw [hmem, hse]; simpa using hv
    obtain ⟨k, hk⟩ := List.mem_iff_getElem?.1 hin
    rw [transferMatrix_entry hnd (by rw [hc2]; simp) hk, hc2, List.getElem?_map, hk,
      Option.map_some, hsort, Option.getD_some, hse]
    simp only [List.getLast?_cons_cons, List.getLast?_singleton, Option.getD_some,
      Nat.add_sub_cancel_left, Option.some.injEq]
    refine if_congr ?_ rfl rfl
    constructor
    · rintro rfl
      rw [he] at h1
      obtain rfl := Option.some.inj h1
      exact ⟨v, h2, h3⟩
    · rintro ⟨w, hw, hpw⟩
      rcases perm_pair.1 (h3.symm.trans hpw) with ⟨a, b⟩ | ⟨a, b⟩ <;> omega
  · have hnot : i' ∉ idx := by
      rw [hmem]
      obtain ⟨he2, -⟩ := hE'.1 _ (List.mem_of_getElem? he')
      have hp := sortRow_perm e'
      have hl2 : (sortRow e').length = 2 := by rw [hp.length_eq]; exact he2
      obtain ⟨x, y, hxy⟩ := length_two hl2
      have := h x (hp.mem_iff.1 (by rw [hxy]; simp))
      rw [hxy]
      simp
      omega
    rw [transferMatrix_zero hnot, if_neg]
    rintro ⟨w, hw, hpw⟩
    have h1 := h w (hpw.mem_iff.2 (by simp))
    have h2 := hlt i e he w hw
    omega

/-- summing over the fine edges that an edge is transferred to -/
theorem edge_transfer_sum {i p q : Nat} (he : (t.elements[1]?.getD [])[i]? = some [p, q])
    (ψ : List Nat → Int) :
    ((List.range (t'.nElements 1)).map fun i' => ψ ((t'.elements[1]?.getD [])[i']?.getD []) *
      (transferMatrix (loopEdgeTransfer t t').1 (loopEdgeTransfer t t').2 (t'.nElements 1)
        (t.nElements 1)).entry i' i).sum =
      ψ [p, t.nElements 0 + i] + ψ [t.nElements 0 + i, q] := by
  obtain ⟨hm, hne, h1, h2⟩ := halves_stored wf hs wf' hf hf' he
  set m := t.nElements 0 + i with hmdef
  have hd' := (wf'.get (k := 1) (by omega)).2.2.1
  obtain ⟨i1, g1⟩ := List.mem_iff_getElem?.1 h1
  obtain ⟨i2, g2⟩ := List.mem_iff_getElem?.1 h2
  have hi1 : i1 < t'.nElements 1 := (List.getElem?_eq_some_iff.1 g1).1
  have hi2 : i2 < t'.nElements 1 := (List.getElem?_eq_some_iff.1 g2).1
  have h12 : i1 ≠ i2 := by
    rintro rfl
    rw [g1] at g2
    have := Option.some.inj g2
    simp at this
    omega
  have hfun : ∀ i' ∈ List.range (t'.nElements 1),
      ψ ((t'.elements[1]?.getD [])[i']?.getD []) *
      (transferMatrix (loopEdgeTransfer t t').1 (loopEdgeTransfer t t').2 (t'.nElements 1)
        (t.nElements 1)).entry i' i =
      (if i' = i1 then ψ [p, m] else 0) + (if i' = i2 then ψ [m, q] else 0) := by
    intro i' hi'
    have hg := List.getElem?_eq_getElem (l := t'.elements[1]?.getD []) (List.mem_range.1 hi')
    rw [edge_transfer_entry wf hs wf' he hg, hg, Option.getD_some]
    by_cases e1 : i' = i1
    · subst e1
      rw [hg] at g1
      have hg1 := Option.some.inj g1
      rw [hg1, if_pos ⟨p, by simp, List.Perm.refl _⟩, if_pos rfl, if_neg h12]
      ring
    · by_cases e2 : i' = i2
      · subst e2
        rw [hg] at g2
        have hg2 := Option.some.inj g2
        rw [hg2, if_pos ⟨q, by simp, List.Perm.swap _ _ _⟩, if_neg e1, if_pos rfl]
        ring
      · rw [if_neg e1, if_neg e2, if_neg]
        · simp
        · rintro ⟨v, hv, hp⟩
          simp at hv
          rcases hv with rfl | rfl
          · exact e1 (distinct_index hd' hg g1 hp)
          · exact e2 (distinct_index hd' hg g2 (hp.trans (List.Perm.swap _ _ _)))
  rw [List.map_congr_left hfun, List.sum_map_add,
    sum_map_ite_eq _ List.nodup_range i1 (fun _ => ψ [p, m]) (List.mem_range.2 hi1),
    sum_map_ite_eq _ List.nodup_range i2 (fun _ => ψ [m, q]) (List.mem_range.2 hi2)]

/-- pulling one coarse edge back to the halves -/
theorem edge_transfer_pull {l : List Nat} (hl : l ∈ top) {a b : Nat} (ha : a ∈ l) (hb : b ∈ l)
    (hab : a ≠ b) {i' : Nat} {e' : List Nat} (he' : (t'.elements[1]?.getD [])[i']? = some e') :
    ((List.range (t.nElements 1)).map fun i =>
      (transferMatrix (loopEdgeTransfer t t').1 (loopEdgeTransfer t t').2 (t'.nElements 1)
        (t.nElements 1)).entry i' i * relSign ((t.elements[1]?.getD [])[i]?.getD []) [a, b]).sum =
      relSign e' [a, mid t a b] + relSign e' [mid t a b, b] := by
  have hE := wf.get (k := 1) (by omega)
  have hd' := (wf'.get (k := 1) (by omega)).2.2.1
  obtain ⟨e, he, hp⟩ := wf.edge_get hs hl ha hb hab
  set i0 := mid t a b - t.nElements 0 with hi0
  have hm : t.nElements 0 + i0 = mid t a b := by
    have := WF.mid_ge t a b
    omega
  have hi0lt : i0 < t.nElements 1 := (List.getElem?_eq_some_iff.1 he).1
  rw [sum_map_eq_single _ List.nodup_range i0 _ (List.mem_range.2 hi0lt)]
  · rw [he, Option.getD_some, edge_transfer_entry wf hs wf' he he', hm]
    have hva := wf.vertex_lt hs hl ha
    have hvb := wf.vertex_lt hs hl hb
    have hge := WF.mid_ge t a b
    obtain ⟨p, q, rfl⟩ := length_two hp.length_eq
    obtain ⟨-, hpq, s1, s2⟩ := halves_stored wf hs wf' hf hf' he
    rw [hm] at s1 s2
    have hpv : p < t.nElements 0 ∧ q < t.nElements 0 := by
      rcases perm_pair.1 hp with ⟨rfl, rfl⟩ | ⟨rfl, rfl⟩ <;> exact ⟨by assumption, by assumption⟩
    have stored : ∀ s ∈ t'.elements[1]?.getD [], e'.Perm s → e' = s := by
      intro s hsm hps
      obtain ⟨k, hk⟩ := List.mem_iff_getElem?.1 hsm
      have := distinct_index hd' he' hk hps
      subst this
      rw [he'] at hk
      exact Option.some.inj hk
    by_cases c1 : e'.Perm [p, mid t a b]
    · have hee := stored _ s1 c1
      rw [if_pos ⟨p, by simp, c1⟩, one_mul, hee]
      rcases perm_pair.1 hp with ⟨rfl, rfl⟩ | ⟨rfl, rfl⟩
      · rw [relSign_pair_self hpq, relSign_pair_self (by omega), relSign_pair_ne (by omega)]; rfl
      · rw [relSign_pair_swap _ q p, relSign_pair_self hpq,
          relSign_pair_swap _ (mid t q p) p, relSign_pair_self (by omega),
          relSign_pair_ne (by omega)]; rfl
    · by_cases c2 : e'.Perm [mid t a b, q]
      · have hee := stored _ s2 c2
        rw [if_pos ⟨q, by simp, c2.trans (List.Perm.swap _ _ _)⟩, one_mul, hee]
        rcases perm_pair.1 hp with ⟨rfl, rfl⟩ | ⟨rfl, rfl⟩
        · rw [relSign_pair_self hpq, relSign_pair_self (by omega), relSign_pair_ne (by omega)]; rfl
        · rw [relSign_pair_swap _ q p, relSign_pair_self hpq,
            relSign_pair_swap _ q (mid t q p), relSign_pair_self (by omega),
            relSign_pair_ne (by omega)]; rfl
      · rw [if_neg, zero_mul, relSign_of_not_perm, relSign_of_not_perm]
        · rfl
        · intro h
          rcases perm_pair.1 hp with ⟨rfl, rfl⟩ | ⟨rfl, rfl⟩
          · exact c2 h.symm
          · exact c1 (h.symm.trans (List.Perm.swap _ _ _))
        · intro h
          rcases perm_pair.1 hp with ⟨rfl, rfl⟩ | ⟨rfl, rfl⟩
          · exact c1 h.symm
          · exact c2 (h.symm.trans (List.Perm.swap _ _ _))
        · rintro ⟨v, hv, h⟩
          simp at hv
          rcases hv with rfl | rfl
          · exact c1 h
          · exact c2 (h.trans (List.Perm.swap _ _ _))
  · intro i hi hne
    have hg := List.getElem?_eq_getElem (l := t.elements[1]?.getD []) (List.mem_range.1 hi)
    rw [hg, Option.getD_some, relSign_of_not_perm, mul_zero]
    intro h
    exact hne (distinct_index hE.2.2.1 hg he (h.symm.trans hp.symm))

end

/-- the boundary of the four children of a triangle -/
theorem kids_sum (e : List Nat) (a b c : Nat) :
    ((kidsOf t [a, b, c]).map (inducedSign e)).sum =
      relSign e [a, mid t a b] + relSign e [mid t a b, b] +
      (relSign e [b, mid t b c] + relSign e [mid t b c, c]) +
      (relSign e [c, mid t c a] + relSign e [mid t c a, a]) := by
  simp only [kidsOf, kids, List.map_cons, List.map_nil, List.sum_cons, List.sum_nil,
    inducedSign_three, List.getElem?_cons_zero, List.getElem?_cons_succ, Option.getD_some]
  rw [relSign_pair_swap _ (mid t c a) (mid t a b), relSign_pair_swap _ (mid t b c) (mid t a b),
    relSign_pair_swap _ (mid t c a) (mid t b c), relSign_pair_swap _ (mid t c a) a,
    relSign_pair_swap _ (mid t a b) b, relSign_pair_swap _ (mid t b c) c]
  ring

/-- summing over a block of four consecutive rows -/
theorem sum_block (F j : Nat) (hj : j < F) (f : Nat → Int) :
    ((List.range (4 * F)).map fun k => f k * (if k / 4 = j then 1 else 0)).sum =
      f (4 * j) + f (4 * j + 1) + f (4 * j + 2) + f (4 * j + 3) := by
  have hfun : ∀ k ∈ List.range (4 * F), f k * (if k / 4 = j then 1 else 0) =
      (if k = 4 * j then f k else 0) + (if k = 4 * j + 1 then f k else 0) +
      (if k = 4 * j + 2 then f k else 0) + (if k = 4 * j + 3 then f k else 0) := by
    intro k _
    by_cases h : k / 4 = j
    · rw [if_pos h]
      have : k = 4 * j ∨ k = 4 * j + 1 ∨ k = 4 * j + 2 ∨ k = 4 * j + 3 := by omega
      rcases this with rfl | rfl | rfl | rfl <;> simp
    · rw [if_neg h, if_neg (by omega), if_neg (by omega), if_neg (by omega), if_neg (by omega)]
      simp
  rw [List.map_congr_left hfun, List.sum_map_add, List.sum_map_add, List.sum_map_add,
    sum_map_ite_eq _ List.nodup_range _ f (List.mem_range.2 (by omega)),
    sum_map_ite_eq _ List.nodup_range _ f (List.mem_range.2 (by omega)),
    sum_map_ite_eq _ List.nodup_range _ f (List.mem_range.2 (by omega)),
    sum_map_ite_eq _ List.nodup_range _ f (List.mem_range.2 (by omega))]

/-- the matrix products `A * B` and `C * D` are both defined and equal -/
def SameProduct (A B C D : Mat Int) : Prop :=
  ∃ P Q, A.mul B = .ok P ∧ C.mul D = .ok Q ∧ P.rows = Q.rows ∧ P.cols = Q.cols ∧
    ∀ i < P.rows, ∀ j < P.cols, P.entry i j = Q.entry i j

/-- C50: the transfer matrices of Loop subdivision commute with the boundary: the boundary of a
transferred edge is the transferred boundary of the edge, and likewise for triangles. -/
theorem C50_transfer_chain_map (hu : UniqSpec uniq) (hs : Simplices 3 simplices)
    (h : fromSimplices uniq 3 simplices = .ok t) :
    ∃ t' T0 T1 T2, subdivideLoop uniq t = .ok t' ∧ loopTransfer t t' = [T0, T1, T2] ∧
      SameProduct (t'.matrix 0) T1 T0 (t.matrix 0) ∧
      SameProduct (t'.matrix 1) T2 T1 (t.matrix 1) := by
  obtain ⟨n, hn, -, wf⟩ := wf_of_ok hu hs h
  obtain rfl : n = 2 := by omega
  obtain ⟨t', ht', wf'⟩ := wf.subdivideLoop_ok hu hs
  have hs' := wf.loop_simplices hs
  have hf := fromSimplices_first hu hs h
  have hf' := fromSimplices_first hu hs' (t := t') (by
    have := ht'
    unfold subdivideLoop at this
    rwa [wf.loopRows_eq hs] at this)
  have hF : t.nElements 2 = simplices.length := by
    unfold Topo.nElements
    rw [wf.top_eq]; rfl
  have hF' : t'.nElements 2 = 4 * t.nElements 2 := by
    obtain ⟨t'', rows, h1, h2, -, h3, h4, -⟩ := C16_counts_and_orientation hu hs h
    rw [ht'] at h1
    obtain rfl := Except.ok.inj h1
    rw [hF]
    unfold Topo.nElements
    rw [h2]; exact h4
  refine ⟨t', _, _, _, ht', rfl, ?_, ?_⟩
  · -- edges
    obtain ⟨r0, c0⟩ := wf.shape (k := 0) (by omega)
    obtain ⟨r0', c0'⟩ := wf'.shape (k := 0) (by omega)
    refine ⟨_, _, if_pos c0', if_pos r0.symm,
      r0', c0.symm, ?_⟩
    intro u hu' i hi
    simp only at hu' hi
    rw [r0'] at hu'
    have hu'' : u < (t'.elements[0]?.getD []).length := hu'
    have hi' : i < t.nElements 1 := hi
    have hvtx := wf'.vertex (by omega) (List.getElem?_eq_getElem hu'')
    have hg := List.getElem?_eq_getElem (l := t.elements[1]?.getD []) hi'
    have hE := wf.get (k := 1) (by omega)
    obtain ⟨p, q, hpq⟩ := length_two (hE.1 _ (List.mem_of_getElem? hg)).1
    rw [hpq] at hg
    have hlt : p < t.nElements 0 ∧ q < t.nElements 0 := by
      obtain ⟨-, l, hl, hsub⟩ := (wf.faces hs 1 1 (by omega) [p, q]).1
        ⟨_, List.mem_of_getElem? hg, List.Perm.refl _⟩
      exact ⟨wf.vertex_lt hs hl (hsub.subset (by simp)), wf.vertex_lt hs hl (hsub.subset (by simp))⟩
    have cob2 : ∀ x y z : Nat, cob (relSign [x]) [y, z] = relSign [x] [z] - relSign [x] [y] := by
      intro x y z
      simp [cob, List.range_succ]
      ring
    show ((List.range (t'.matrix 0).cols).map _).sum = ((List.range (t.nElements 0)).map _).sum
    rw [c0']
    have hfun : ∀ i' ∈ List.range (t'.nElements 1), (t'.matrix 0).entry u i' *
        (transferMatrix (loopEdgeTransfer t t').1 (loopEdgeTransfer t t').2 (t'.nElements 1)
        (t.nElements 1)).entry i' i = cob (relSign [u]) ((t'.elements[1]?.getD [])[i']?.getD []) *
        (transferMatrix (loopEdgeTransfer t t').1 (loopEdgeTransfer t t').2 (t'.nElements 1)
        (t.nElements 1)).entry i' i := by
      intro i' hi'
      rw [wf'.entry (k := 0) (by omega) hu' (List.mem_range.1 hi'),
        List.getElem?_eq_getElem hu'', Option.getD_some, hvtx]
      simp [levelSign]
    rw [List.map_congr_left hfun, edge_transfer_sum wf hs wf' hf hf' hg, cob2, cob2]
    by_cases huV : u < t.nElements 0
    · rw [sum_map_eq_single _ List.nodup_range u _ (List.mem_range.2 huV)]
      · rw [transferMatrix_entry List.nodup_range rfl (k := u)
          (List.getElem?_range huV), List.getElem?_range huV, if_pos rfl, one_mul,
          wf.entry (k := 0) (by omega) huV hi', hg, Option.getD_some]
        have huV' : u < (t.elements[0]?.getD []).length := huV
        have hv0 := wf.vertex (by omega) (List.getElem?_eq_getElem huV')
        rw [List.getElem?_eq_getElem huV', Option.getD_some, hv0, cob2]
        simp [levelSign]
      · intro v hv hne
        rw [transferMatrix_entry List.nodup_range rfl (k := u) (List.getElem?_range huV),
          List.getElem?_range huV, if_neg (by simpa using Ne.symm hne), zero_mul]
    · rw [List.sum_eq_zero]
      · have h1 : relSign [u] [p] = 0 := relSign_of_not_perm (by
          intro h; have := List.perm_singleton.1 h; simp at this; omega)
        have h2 : relSign [u] [q] = 0 := relSign_of_not_perm (by
          intro h; have := List.perm_singleton.1 h; simp at this; omega)
        rw [h1, h2]
        ring
      · intro x hx
        obtain ⟨v, hv, rfl⟩ := List.mem_map.1 hx
        rw [transferMatrix_zero (by simpa using huV), zero_mul]
  · -- triangles
    obtain ⟨r1, c1⟩ := wf.shape (k := 1) (by omega)
    obtain ⟨r1', c1'⟩ := wf'.shape (k := 1) (by omega)
    refine ⟨_, _, if_pos c1', if_pos r1.symm,
      r1', c1.symm, ?_⟩
    intro i' hi' j hj
    simp only at hi' hj
    rw [r1'] at hi'
    have hj' : j < t.nElements 2 := hj
    have hg' := List.getElem?_eq_getElem (l := t'.elements[1]?.getD []) hi'
    set e' := (t'.elements[1]?.getD [])[i'] with he'
    have hjs : j < simplices.length := by omega
    have hgj := List.getElem?_eq_getElem hjs
    have hl := List.mem_of_getElem? hgj
    obtain ⟨a, b, c, habc⟩ := length_three (hs _ hl).1
    rw [habc] at hgj hl
    have hnd := (hs _ hl).2
    simp only [List.nodup_cons, List.mem_cons, List.not_mem_nil, or_false, not_or] at hnd
    show ((List.range (t'.matrix 1).cols).map _).sum = ((List.range (t.nElements 1)).map _).sum
    rw [c1', hF']
    -- left-hand side
    have hT2 : ∀ k ∈ List.range (4 * t.nElements 2), (t'.matrix 1).entry i' k *
        (transferMatrix (List.range (4 * t.nElements 2)) (repeatRange (t.nElements 2) 4)
          (4 * t.nElements 2) (t.nElements 2)).entry k j =
        (t'.matrix 1).entry i' k * (if k / 4 = j then 1 else 0) := by
      intro k hk
      rw [transferMatrix_entry List.nodup_range (by simp [repeatRange, Nat.mul_comm]) (k := k)
        (List.getElem?_range (List.mem_range.1 hk))]
      unfold repeatRange
      rw [List.getElem?_map, List.getElem?_range (by
        have := List.mem_range.1 hk; omega)]
      simp
    rw [List.map_congr_left hT2, sum_block _ _ hj']
    have hrow : ∀ x, x < 4 → (t'.matrix 1).entry i' (4 * j + x) =
        - inducedSign e' ((kidsOf t [a, b, c])[x]?.getD []) := by
      intro x hx
      rw [wf'.entry (k := 1) (by omega) hi' (by rw [hF']; omega), hg', Option.getD_some,
        ← inducedSign_eq_cob]
      have hg : ((t'.elements[1 + 1]?.getD [])[4 * j + x]?).getD [] =
          (kidsOf t [a, b, c])[x]?.getD [] := by
        rw [show t'.elements[1 + 1]?.getD [] = (simplices.map (kidsOf t)).flatten by
          rw [wf'.top_eq]; rfl]
        rw [flatten_uniform (m := 4) (by omega) _ (by
          intro L hL
          obtain ⟨l, -, rfl⟩ := List.mem_map.1 hL
          rfl), List.getElem?_map, show (4 * j + x) / 4 = j by omega,
          show (4 * j + x) % 4 = x by omega, hgj]
        rfl
      rw [hg]
      simp [levelSign]
    rw [show (t'.matrix 1).entry i' (4 * j) = (t'.matrix 1).entry i' (4 * j + 0) from rfl,
      hrow 0 (by omega), hrow 1 (by omega), hrow 2 (by omega), hrow 3 (by omega)]
    have hks : inducedSign e' ((kidsOf t [a, b, c])[0]?.getD []) +
        inducedSign e' ((kidsOf t [a, b, c])[1]?.getD []) +
        inducedSign e' ((kidsOf t [a, b, c])[2]?.getD []) +
        inducedSign e' ((kidsOf t [a, b, c])[3]?.getD []) =
        ((kidsOf t [a, b, c]).map (inducedSign e')).sum := by
      simp [kidsOf, kids]
      ring
    -- right-hand side
    have hR : ∀ i ∈ List.range (t.nElements 1),
        (transferMatrix (loopEdgeTransfer t t').1 (loopEdgeTransfer t t').2 (t'.nElements 1)
        (t.nElements 1)).entry i' i * (t.matrix 1).entry i j =
        -1 * ((transferMatrix (loopEdgeTransfer t t').1 (loopEdgeTransfer t t').2 (t'.nElements 1)
          (t.nElements 1)).entry i' i * relSign ((t.elements[1]?.getD [])[i]?.getD []) [a, b] +
        (transferMatrix (loopEdgeTransfer t t').1 (loopEdgeTransfer t t').2 (t'.nElements 1)
          (t.nElements 1)).entry i' i * relSign ((t.elements[1]?.getD [])[i]?.getD []) [b, c] +
        (transferMatrix (loopEdgeTransfer t t').1 (loopEdgeTransfer t t').2 (t'.nElements 1)
          (t.nElements 1)).entry i' i * relSign ((t.elements[1]?.getD [])[i]?.getD []) [c, a]) := by
      intro i hi
      rw [wf.entry (k := 1) (by omega) (List.mem_range.1 hi) hj', ← inducedSign_eq_cob]
      rw [show (t.elements[1 + 1]?.getD [])[j]?.getD [] = [a, b, c] by
        rw [show t.elements[1 + 1]?.getD [] = simplices by rw [wf.top_eq]; rfl, hgj]; rfl]
      rw [inducedSign_three, relSign_pair_swap _ a c]
      rw [show levelSign 1 = -1 from rfl]
      ring
    have hT1 : ((List.range (t.nElements 1)).map fun i =>
        (transferMatrix (loopEdgeTransfer t t').1 (loopEdgeTransfer t t').2 (t'.nElements 1)
        (t.nElements 1)).entry i' i * (t.matrix 1).entry i j).sum =
        - ((kidsOf t [a, b, c]).map (inducedSign e')).sum := by
      rw [List.map_congr_left hR, List.sum_map_mul_left, List.sum_map_add, List.sum_map_add,
        edge_transfer_pull wf hs wf' hf hf' hl (by simp) (by simp) (by omega) hg',
        edge_transfer_pull wf hs wf' hf hf' hl (by simp) (by simp) (by omega) hg',
        edge_transfer_pull wf hs wf' hf hf' hl (by simp) (by simp) (by omega) hg', kids_sum]
      ring
    rw [← hks] at hT1
    refine Eq.trans ?_ hT1.symm
    ring

/-- C50: every fine edge of the halves, and nothing else, is transferred -/
theorem C50_edge_halves (hu : UniqSpec uniq) (hs : Simplices 3 simplices)
    (h : fromSimplices uniq 3 simplices = .ok t) :
    ∃ t' T0 T1 T2, subdivideLoop uniq t = .ok t' ∧ loopTransfer t t' = [T0, T1, T2] ∧
      T1.rows = t'.nElements 1 ∧ T1.cols = t.nElements 1 ∧
      ∀ (i i' : Nat) (e e' : List Nat), (t.elements[1]?.getD [])[i]? = some e →
        (t'.elements[1]?.getD [])[i']? = some e' →
        T1.entry i' i = if ∃ v ∈ e, e'.Perm [v, t.nElements 0 + i] then 1 else 0 := by
  obtain ⟨n, hn, -, wf⟩ := wf_of_ok hu hs h
  obtain rfl : n = 2 := by omega
  obtain ⟨t', ht', wf'⟩ := wf.subdivideLoop_ok hu hs
  exact ⟨t', _, _, _, ht', rfl, rfl, rfl, fun i i' e e' he he' =>
    edge_transfer_entry wf hs wf' he he'⟩

/-- C16: if the triangles close up (every edge gets signs adding up to zero), so do the triangles
of the subdivision -/
theorem C16_closed (hu : UniqSpec uniq) (hs : Simplices 3 simplices)
    (h : fromSimplices uniq 3 simplices = .ok t)
    (hcl : ∀ x y, (simplices.map (inducedSign [x, y])).sum = 0) :
    ∃ t' rows, subdivideLoop uniq t = .ok t' ∧ t'.elements[2]? = some rows ∧
      ∀ x y, (rows.map (inducedSign [x, y])).sum = 0 := by
  obtain ⟨n, hn, -, wf⟩ := wf_of_ok hu hs h
  obtain rfl : n = 2 := by omega
  obtain ⟨t', ht', wf'⟩ := wf.subdivideLoop_ok hu hs
  refine ⟨t', _, ht', wf'.top_eq, fun x y => ?_⟩
  have hE := wf.get (k := 1) (by omega)
  let φ : List Nat → Int := fun e => match e with
    | [p, q] => relSign [x, y] [p, mid t p q] + relSign [x, y] [mid t p q, q]
    | _ => 0
  have hφ : ∀ p q, φ [p, q] = - φ [q, p] := by
    intro p q
    show relSign [x, y] [p, mid t p q] + relSign [x, y] [mid t p q, q] =
      - (relSign [x, y] [q, mid t q p] + relSign [x, y] [mid t q p, p])
    rw [mid_comm t q p, relSign_pair_swap _ p, relSign_pair_swap _ _ q]
    ring
  set E := t.elements[1]?.getD [] with hEd
  -- expand `φ` over the edges
  have hexp : ∀ l ∈ simplices, ∀ a b, a ∈ l → b ∈ l → a ≠ b →
      φ [a, b] = ((List.range E.length).map fun i =>
        φ (E[i]?.getD []) * relSign (E[i]?.getD []) [a, b]).sum := by
    intro l hl a b ha hb hab
    obtain ⟨e, he, hp⟩ := wf.edge_get hs hl ha hb hab
    have hlt := (List.getElem?_eq_some_iff.1 he).1
    rw [sum_map_eq_single _ List.nodup_range _ _ (List.mem_range.2 hlt)]
    · rw [he, Option.getD_some]
      obtain ⟨p, q, rfl⟩ := length_two hp.length_eq
      rcases perm_pair.1 hp with ⟨rfl, rfl⟩ | ⟨rfl, rfl⟩
      · rw [relSign_pair_self hab, mul_one]
      · rw [relSign_pair_swap _ q p, relSign_pair_self (Ne.symm hab), hφ]; ring
    · intro i hi hne
      have hg := List.getElem?_eq_getElem (l := E) (List.mem_range.1 hi)
      rw [hg, Option.getD_some, relSign_of_not_perm, mul_zero]
      intro h
      exact hne (distinct_index hE.2.2.1 hg he (h.symm.trans hp.symm))
  rw [List.map_flatten, List.sum_flatten, List.map_map, List.map_map]
  have hfun : ∀ l ∈ simplices, ((List.sum ∘ List.map (inducedSign [x, y])) ∘ kidsOf t) l =
      ((List.range E.length).map fun i =>
        φ (E[i]?.getD []) * inducedSign (E[i]?.getD []) l).sum := by
    intro l hl
    obtain ⟨a, b, c, rfl⟩ := length_three (hs l hl).1
    have hnd := (hs _ hl).2
    simp only [List.nodup_cons, List.mem_cons, List.not_mem_nil, or_false, not_or] at hnd
    have h1 := hexp _ hl a b (by simp) (by simp) (by omega)
    have h2 := hexp _ hl b c (by simp) (by simp) (by omega)
    have h3 := hexp _ hl c a (by simp) (by simp) (by omega)
    refine (kids_sum [x, y] a b c).trans ?_
    refine (show _ = φ [a, b] + φ [b, c] + φ [c, a] from rfl).trans ?_
    rw [h1, h2, h3, ← List.sum_map_add, ← List.sum_map_add]
    congr 1
    apply List.map_congr_left
    intro i _
    rw [inducedSign_three, relSign_pair_swap _ a c]
    ring
  rw [List.map_congr_left hfun, sum_sum_comm]
  apply List.sum_eq_zero
  intro s hsm
  obtain ⟨i, hi, rfl⟩ := List.mem_map.1 hsm
  have hg := List.getElem?_eq_getElem (l := E) (List.mem_range.1 hi)
  obtain ⟨p, q, hpq⟩ := length_two (hE.1 _ (List.mem_of_getElem? hg)).1
  rw [hg, Option.getD_some, hpq, List.sum_map_mul_left]
  have := hcl p q
  rw [show (simplices.map fun j => inducedSign [p, q] j).sum = 0 from this, mul_zero]

/-! ### concrete cases: a closed mesh -/

example : Simplices 3 [[0, 1, 2], [0, 2, 3], [0, 3, 1], [1, 3, 2]] :=
  simplices_of_all (by decide)

example : (fromSimplices List.dedup 3 [[0, 1, 2], [0, 2, 3], [0, 3, 1], [1, 3, 2]]).isOk = true := by
  decide +kernel

example : ∀ x < 4, ∀ y < 4, (([[0, 1, 2], [0, 2, 3], [0, 3, 1], [1, 3, 2]] : List (List Nat)).map
    (inducedSign [x, y])).sum = 0 := by decide +kernel

end Verif.Props
