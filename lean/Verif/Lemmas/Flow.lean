/-
The steps of `dual_flux_to_dual_velocity` on a complex without degenerate simplices.
-/
import Verif.Lemmas.BaseHeight
import Verif.Lemmas.Cone
import Verif.Lemmas.PickSystem
import Verif.Props.WellCentered
import Verif.Spec.Velocity

set_option linter.unusedSectionVars false

namespace Verif

open Verif.Model Verif.Spec Verif.Props Matrix

theorem Spec.IsHeight.unique {D : Nat} {V : List (Vec ℝ D)} {F : Finset Nat} {p g g' : Fin D → ℝ}
    (hg : IsHeight V F p g) (hg' : IsHeight V F p g') : g = g' := by
  obtain ⟨b, hb1, hb2⟩ := hg.foot
  obtain ⟨b', hb1', hb2'⟩ := hg'.foot
  have h0 : innerProd (g - g') (g - g') = 0 := by
    refine ip_face (F := F) (V := V) (z := fun u => b' u - b u) ?_ ?_ (fun j => ?_)
    · intro u hu v hv
      rw [ip_sub_left, hg.orthogonal u hu v hv, hg'.orthogonal u hu v hv, sub_zero]
    · rw [Finset.sum_sub_distrib, hb1, hb1', sub_self]
    · simp only [Pi.sub_apply, hb2, hb2', sub_mul, Finset.sum_sub_distrib]
      ring
  funext k
  have := ip_eq_zero h0 k
  simp only [Pi.sub_apply] at this
  linarith

theorem map_sum_range (L : List (List Nat)) (F : List Nat → ℝ) :
    (L.map F).sum = ∑ j ∈ Finset.range L.length, F (L[j]?.getD []) := by
  rw [← range_sum_real]
  congr 1
  apply List.ext_getElem
  · simp
  · intro i h1 h2
    simp only [List.getElem_map, List.getElem_range]
    rw [List.getElem?_eq_getElem (by simpa using h1), Option.getD_some]

section

variable {d : Nat} {uniq : List (List Nat) → List (List Nat)}
  {solve : List (List Int) → Option (List Int)}
  {eigh : (n : Nat) → Matrix (Fin n) (Fin n) ℝ → Eigh n ℝ} {ratio : ℝ} {m : Nat}
  {simplices : List (List Nat)} {t : Topo}
  {y : Finset Nat → Nat → ℝ} 

section

variable {D : Nat} {V : List (Vec ℝ D)} {ctr : Finset Nat → Fin D → ℝ}

/-- the lengths of the dual edges -/
theorem dual_edge_lengths (h : MetricInput uniq solve eigh ratio (m + 1) simplices t V y ctr) (hm : 1 ≤ m) :
    ∃ PM DM L, metric solve eigh ratio t V none = .ok (PM, DM) ∧ DM[1]? = some L ∧ L.length = t.nElements m ∧
      ∀ (x : Nat) (e : List Nat), (t.elements[m]?.getD [])[x]? = some e → ∀ f : List Nat → ℝ,
        (∀ l ∈ simplices, e ⊆ l → ∃ g, IsHeight V e.toFinset (position V (missing l e)) g ∧
          f l = y l.toFinset (missing l e) * Real.sqrt (innerProd g g)) →
        L[x]? = some ((incident simplices e).map f).sum := by
  obtain ⟨hn1, wf⟩ := fromSimplices_wf h.uniq_ok h.rows h.built
  obtain ⟨PM, DM, hmet, hd⟩ := C59_dual h
  obtain ⟨L, hL, hLlen, hLx⟩ := hd m (by omega)
  rw [show m + 1 - m = 1 by omega] at hL
  refine ⟨PM, DM, L, hmet, hL, hLlen, fun x e he f hf => ?_⟩
  obtain ⟨piece, hp, hval⟩ := (hLx x e he).2 (by omega)
  rw [hval]
  congr 1
  obtain ⟨he1, he2, -⟩ := wf.element_face h.rows (by omega : m ≤ m + 1) (List.mem_of_getElem? he)
  rw [← sum_filter_real]
  change ((incident simplices e).map _).sum = _
  congr 1
  apply List.map_congr_left
  intro l hl
  obtain ⟨hl, hs⟩ := List.mem_filter.1 hl
  have hs : e ⊆ l := by simpa using hs
  obtain ⟨a1, a2, am, a3, a4, -⟩ := h.center.over hn1 hl hs he1 he2
  obtain ⟨hdiff, -⟩ := missing_spec (h.rows l hl).1 he1 he2 hs
  obtain ⟨g, hg, hfl⟩ := hf l hl hs
  rw [hfl, hdiff]
  have hperm : [missing l e].permutations = [[missing l e]] := by
    obtain ⟨u, hu⟩ := List.length_eq_one_iff.1 (by
      rw [List.length_permutations]; rfl : [missing l e].permutations.length = 1)
    have : u ∈ [missing l e].permutations := by rw [hu]; simp
    rw [hu, List.perm_singleton.1 (List.mem_permutations.1 this)]
  rw [hperm, List.map_singleton, List.sum_singleton]
  have h1 := hp [missing l e]
  have hn2 : m + 1 - m = 1 := by omega
  rw [hn2, volume_eq_vol (by have := h.dims; omega), vol_two] at h1
  have h2 : chainOfCenters ctr e [missing l e] 1 1 - chainOfCenters ctr e [missing l e] 1 0 =
      fun j => y l.toFinset (missing l e) * g j := by
    rw [← hg.center a1 a3 a4, ← a2]
    simp only [chainOfCenters, Fin.val_one, Fin.val_zero, List.take_zero, List.append_nil,
      List.take_succ_cons]
    congr 2
    ext u
    simp
  rw [h2, ip_smul_left, ip_comm g fun j => _ * g j, ip_smul_left] at h1
  rw [← Except.ok.inj h1, ← mul_assoc, Real.sqrt_mul (mul_self_nonneg _), Real.sqrt_mul_self_eq_abs,
    ← mul_assoc]
  congr 1
  simp only [List.getLast?_singleton, Option.getD_some]
  rcases lt_trichotomy (y l.toFinset (missing l e)) 0 with h0 | h0 | h0
  · rw [Real.sign_of_neg h0, abs_of_neg h0]
    ring
  · rw [h0]
    simp
  · rw [Real.sign_of_pos h0, abs_of_pos h0, one_mul]

/-- the slot of a simplex that belongs to a corner -/
theorem WF.flow_slot (wf : WF (m + 1) simplices t) (hm : 1 ≤ m) (htop : Simplices (m + 2) simplices) {j c : Nat} {l : List Nat}
    (hl : simplices[j]? = some l) (hc : c < m + 2) : ∃ (x : Nat) (e : List Nat),
      ((t.boundary[m]?.getD [])[j]?.getD [])[c]? = some x ∧ (t.elements[m]?.getD [])[x]? = some e ∧
      e.Perm (l.eraseIdx c) ∧
      ((((t.orientation[m]?.getD [])[j]?.getD [])[c]?.getD 0 : Int) : ℝ) = ((t.matrix m).entry x j : ℝ) := by
  have hop : ∀ c, oppositeCorner m c = c := by
    intro c
    unfold oppositeCorner
    rw [if_neg (by omega)]
  obtain ⟨b, o, hb, ho, lb, lo, hcs⟩ := wf.slots.2.2 j l hl
  obtain ⟨x, e, h1, h2, h3⟩ := hcs c hc
  rw [hop] at h3
  refine ⟨x, e, by rw [hb]; exact h1, h2, h3, ?_⟩
  obtain ⟨hl1, hl2⟩ := htop l (List.mem_of_getElem? hl)
  rw [entry_slots wf hl h2, range_sum_real, Finset.sum_eq_single c]
  · rw [hop, if_pos h3.symm]
  · intro c' hc' hne
    have hc' := Finset.mem_range.1 hc'
    rw [hop, if_neg]
    intro hp
    have hel : e.length = m + 1 := by rw [h3.length_eq, List.length_eraseIdx_of_lt (by omega)]; omega
    have hen : e.Nodup := h3.nodup_iff.2 (hl2.eraseIdx c)
    have e1 := ((missing_unique hl1 hel hen (c := c') (by omega)).1 hp).2
    have e2 := ((missing_unique hl1 hel hen (c := c) (by omega)).1 h3.symm).2
    exact hne ((List.Nodup.getElem_inj_iff hl2).1 (e1.trans e2.symm))
  · intro hn
    exact absurd (Finset.mem_range.2 hc) hn

/-- two simplices on the two sides of a face: the entries of the face are opposite -/
theorem WF.entry_opposite (wf : WF (m + 1) simplices t) (h2 : AtMostTwo simplices) (hco : Coherent simplices)
    {x j1 j2 : Nat} {e l1 l2 : List Nat} (hx : (t.elements[m]?.getD [])[x]? = some e)
    (h1 : simplices[j1]? = some l1) (h3 : simplices[j2]? = some l2) (hne : j1 ≠ j2) (f1 : IsFace e l1)
    (f2 : IsFace e l2) : (t.matrix m).entry x j2 = - (t.matrix m).entry x j1 := by
  have hs : SharedFace simplices e j1 j2 := by
    refine ⟨hne, (List.getElem?_eq_some_iff.1 h1).1, (List.getElem?_eq_some_iff.1 h3).1, fun j l hj => ⟨fun hf => ?_, ?_⟩⟩
    · rcases h2 e j1 j2 j l1 l2 l h1 h3 hj f1 f2 hf with h | h | h
      · exact absurd h hne
      · exact Or.inl h.symm
      · exact Or.inr h.symm
    · rintro (rfl | rfl)
      · rw [h1] at hj
        exact Option.some.inj hj ▸ f1
      · rw [h3] at hj
        exact Option.some.inj hj ▸ f2
  have := hco e j1 j2 l1 l2 h1 h3 hs
  rw [wf.top_entry hx h1, wf.top_entry hx h3]
  linear_combination (levelSign m) * this

theorem incident_le_two (htop : Simplices (m + 2) simplices) (h2 : AtMostTwo simplices) {e : List Nat}
    (he1 : e.length = m + 1) (he2 : e.Nodup) : (incident simplices e).length ≤ 2 := by
  by_contra hlt
  have hlen : (incident simplices e).length =
      ((List.range simplices.length).filter fun j => decide (e ⊆ simplices[j]?.getD [])).length := by
    have h1 : simplices = (List.range simplices.length).map fun j => simplices[j]?.getD [] := by
      apply List.ext_getElem
      · simp
      · intro i h1 h2
        simp [List.getElem?_eq_getElem h1]
    conv_lhs => rw [incident, h1, List.filter_map, List.length_map]
    rfl
  rw [hlen] at hlt
  have hnd : ((List.range simplices.length).filter fun j => decide (e ⊆ simplices[j]?.getD [])).Nodup :=
    List.nodup_range.filter _
  have hmem : ∀ j ∈ (List.range simplices.length).filter fun j => decide (e ⊆ simplices[j]?.getD []),
      ∃ l, simplices[j]? = some l ∧ IsFace e l := by
    intro j hj
    obtain ⟨h1, h3⟩ := List.mem_filter.1 hj
    have h1 := List.mem_range.1 h1
    have h3 : e ⊆ simplices[j]?.getD [] := by simpa using h3
    rw [List.getElem?_eq_getElem h1, Option.getD_some] at h3
    obtain ⟨a, b⟩ := htop _ (List.getElem_mem h1)
    exact ⟨_, List.getElem?_eq_getElem h1, (isFace_iff_subset a b).2 ⟨he2, he1, h3⟩⟩
  generalize (List.range simplices.length).filter (fun j => decide (e ⊆ simplices[j]?.getD [])) = I at hlt hnd hmem
  match I, hlt, hnd, hmem with
  | [], hlt, _, _ => simp at hlt
  | [_], hlt, _, _ => simp at hlt
  | [_, _], hlt, _, _ => simp at hlt
  | a :: b :: c :: r, _, hnd, hmem =>
    obtain ⟨l1, a1, a2⟩ := hmem a (by simp)
    obtain ⟨l2, b1, b2⟩ := hmem b (by simp)
    obtain ⟨l3, c1, c2⟩ := hmem c (by simp)
    simp only [List.nodup_cons, List.mem_cons, not_or] at hnd
    rcases h2 e a b c l1 l2 l3 a1 b1 c1 a2 b2 c2 with h | h | h
    · exact hnd.1.1 h
    · exact hnd.1.2.1 h
    · exact hnd.2.1.1 h

/-- the sums over the simplices around a face, by the numbers of the simplices -/
theorem incident_sum (e : List Nat) (f : List Nat → ℝ) :
    ((incident simplices e).map f).sum = ∑ j ∈ Finset.range simplices.length,
      if e ⊆ simplices[j]?.getD [] then f (simplices[j]?.getD []) else 0 := by
  rw [incident, sum_filter_real, map_sum_range]

end

variable {V : List (Vec ℝ (d + 1))} {ctr : Finset Nat → Fin (d + 1) → ℝ}

/-- corners and weights of a simplex -/
theorem tangent_iff {l : List Nat} (hl : l.length = m + 2) (hln : l.Nodup) (u : Fin (d + 1) → ℝ) :
    Tangent V l u ↔ ∃ z : Fin (m + 2) → ℝ, ∑ a, z a = 0 ∧ ∀ k, u k = ∑ a, z a * cornersOf V (m + 2) l a k := by
  constructor
  · rintro ⟨z, h1, h2⟩
    refine ⟨fun a => z (l[a.val]?.getD 0), ?_, fun k => ?_⟩
    · rw [sum_fin_list l hln hl z, h1]
    · rw [h2 k, ← sum_fin_list l hln hl fun v => z v * position V v k]
      rfl
  · rintro ⟨z, h1, h2⟩
    have hz : ∀ a : Fin (m + 2), (fun v => if h : l.idxOf v < m + 2 then z ⟨l.idxOf v, h⟩ else 0)
        (l[a.val]?.getD 0) = z a := by
      intro a
      have ha : a.val < l.length := by omega
      have hi : l.idxOf (l[a.val]?.getD 0) = a.val := by
        rw [List.getElem?_eq_getElem ha, Option.getD_some]
        exact hln.idxOf_getElem _ ha
      simp only [hi, a.2, dif_pos]
    refine ⟨fun v => if h : l.idxOf v < m + 2 then z ⟨l.idxOf v, h⟩ else 0, ?_, fun k => ?_⟩
    · rw [← sum_fin_list l hln hl]
      exact (Finset.sum_congr rfl fun a _ => hz a).trans h1
    · rw [h2 k, ← sum_fin_list l hln hl
        (fun v => (if h : l.idxOf v < m + 2 then z ⟨l.idxOf v, h⟩ else 0) * position V v k)]
      refine Finset.sum_congr rfl fun a _ => ?_
      simp only [hz a]
      rfl

/-- the inverse of the gradients of one simplex -/
theorem simplex_inverse (h : MetricInput uniq solve eigh ratio (m + 1) simplices t V y ctr) (hm : 1 ≤ m) (hd : d ≤ m + 1)
    {svd : (a b : Nat) → Matrix (Fin a) (Fin b) ℝ → Svd a b ℝ} (hsvd : SvdSpec svd) {r : ℝ} (hr : 0 < r)
    {l : List Nat} (hl : l ∈ simplices)
    (htol : ∀ j, (svd (m + 2) (d + 1) (Matrix.of (centred (cornersOf V (m + 2) l)))).s j = 0 ∨
      r * (svd (m + 2) (d + 1) (Matrix.of (centred (cornersOf V (m + 2) l)))).s ⟨0, by omega⟩ ≤
        (svd (m + 2) (d + 1) (Matrix.of (centred (cornersOf V (m + 2) l)))).s j) :
    ∃ X : Matrix (Fin (d + 1)) (Fin (m + 2)) ℝ,
      elementInverse (m + 1) svd r V l = Except.ok X ∧
      ∀ (face : Fin (m + 2) → List Nat) (g : Fin (m + 2) → Fin (d + 1) → ℝ),
        (∀ c, (face c).Perm (l.eraseIdx c) ∧ IsHeight V (face c).toFinset (position V (missing l (face c))) (g c)) →
        (∀ u, Tangent V l u → ∀ k, ∑ c, X k c * (vol (cornersOf V (m + 1) (face c)) *
          (innerProd u (g c) / Real.sqrt (innerProd (g c) (g c)))) = u k) ∧
        ∀ b : Fin (m + 2) → ℝ, ∑ c, b c = 0 → Tangent V l (fun k => ∑ c, X k c * b c) ∧
          ∀ c, vol (cornersOf V (m + 1) (face c)) * (innerProd (fun k => ∑ c, X k c * b c) (g c) /
            Real.sqrt (innerProd (g c) (g c))) = b c := by
  obtain ⟨hl1, hl2⟩ := h.rows l hl
  have hp := h.nondegenerate l hl
  have hdims := h.dims
  unfold elementInverse
  rw [rowValues_ok hl1 (h.vertices l hl)]
  simp only [bind, Except.bind]
  have key : ∀ (face : Fin (m + 2) → List Nat) (g : Fin (m + 2) → Fin (d + 1) → ℝ),
      (∀ c, (face c).Perm (l.eraseIdx c) ∧ IsHeight V (face c).toFinset (position V (missing l (face c))) (g c)) →
      ∃ G W X, simplexGradients svd r (Matrix.of (cornersOf V (m + 2) l)) = .ok G ∧ wholeRows G = some W ∧
        planeInverse (m + 1) (svd (m + 2) (d + 1) W) = .ok X ∧
        (∀ u, Tangent V l u → ∀ k, ∑ c, X k c * (vol (cornersOf V (m + 1) (face c)) *
          (innerProd u (g c) / Real.sqrt (innerProd (g c) (g c)))) = u k) ∧
        ∀ b : Fin (m + 2) → ℝ, ∑ c, b c = 0 → Tangent V l (fun k => ∑ c, X k c * b c) ∧
          ∀ c, vol (cornersOf V (m + 1) (face c)) * (innerProd (fun k => ∑ c, X k c * b c) (g c) /
            Real.sqrt (innerProd (g c) (g c))) = b c := by
    intro face g hg
    have hmiss : ∀ c : Fin (m + 2), missing l (face c) = l[c.val]'(by omega) := by
      intro c
      have h3 := (hg c).1
      have hel : (face c).length = m + 1 := by rw [h3.length_eq, List.length_eraseIdx_of_lt (by omega)]; omega
      have hen : (face c).Nodup := h3.nodup_iff.2 (hl2.eraseIdx c)
      exact ((missing_unique hl1 hel hen (c := c) (by omega)).1 h3.symm).2.symm
    have hg' : ∀ c : Fin (m + 2), IsHeight V (face c).toFinset (position V (l[c.val]'(by omega))) (g c) := by
      intro c
      rw [← hmiss c]
      exact (hg c).2
    have hrolled : ∀ c, vol (rolledFace (Matrix.of (cornersOf V (m + 2) l)) c) = vol (cornersOf V (m + 1) (face c)) :=
      fun c => vol_rolled hl1 hl2 c.2 (hg c).1
    have hvp : ∀ c, 0 < vol (cornersOf V (m + 1) (face c)) := by
      intro c
      have h3 := (hg c).1
      refine vol_pos_of (h.nondegenerate.face h.rows hl ?_ (h3.nodup_iff.2 (hl2.eraseIdx c)) ?_)
      · exact fun u hu => List.mem_of_mem_eraseIdx (h3.mem_iff.1 hu)
      · rw [h3.length_eq, List.length_eraseIdx_of_lt (by omega)]; omega
    have h0 : ∀ c, 0 < innerProd (g c) (g c) := by
      intro c
      obtain ⟨g', hg1, hg2⟩ := (C61_depth h.center (by omega) hl (c := c.val) (by omega)).1
      rw [← toFinset_perm (hg c).1] at hg1
      rw [(hg' c).unique hg1]
      exact hg2
    obtain ⟨G, W, X, e1, e2, e3, e4, e5⟩ := gradients_inverse hsvd hr hp (by omega) hd htol
      (fun c => cornerHeight_of hl1 hl2 c.2 (hg c).1 (hg' c)) h0 (fun c => by rw [hrolled]; exact hvp c)
    refine ⟨G, W, X, e1, e2, e3, fun u hu k => ?_, fun b hb => ?_⟩
    · have := e4 u ((tangent_iff hl1 hl2 u).1 hu) k
      simp only [hrolled] at this
      exact this
    · obtain ⟨f1, f2⟩ := e5 (vol (cornersOf V (m + 2) l) * ((m + 1 : ℕ) : ℝ)) (fun c => by
        rw [hrolled, vol_height hl1 hl2 c.2 (hg c).1 (hg' c), mul_comm]) b hb
      refine ⟨(tangent_iff hl1 hl2 _).2 f1, fun c => ?_⟩
      have := f2 c
      rw [hrolled] at this
      exact this
  choose g hg0 using fun c : Fin (m + 2) => (C61_depth h.center (by omega) hl (c := c.val) (by omega)).1
  obtain ⟨G, W, X, e1, e2, e3, -⟩ := key (fun c => l.eraseIdx c) g (fun c => ⟨List.Perm.refl _, by
    have hel : (l.eraseIdx c.val).length = m + 1 := by rw [List.length_eraseIdx_of_lt (by omega)]; omega
    rw [← ((missing_unique hl1 hel (hl2.eraseIdx c) (c := c) (by omega)).1 (List.Perm.refl _)).2]
    exact (hg0 c).1⟩)
  refine ⟨X, ?_, fun face g hg => ?_⟩
  · rw [e1]
    simp only
    rw [e2]
    exact e3
  · obtain ⟨G', W', X', e1', e2', e3', e4⟩ := key face g hg
    rw [e1] at e1'
    obtain rfl := Except.ok.inj e1'
    rw [e2] at e2'
    obtain rfl := Option.some.inj e2'
    rw [e3] at e3'
    obtain rfl := Except.ok.inj e3'
    exact e4

end

end Verif
