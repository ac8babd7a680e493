/-
Gradients of the simplices of a complex, and the velocity of one simplex.
-/
import Verif.Lemmas.Gradients
import Verif.Props.Delaunay
import Verif.Props.Boundary

set_option linter.unusedSectionVars false

namespace Verif

open Verif.Model Verif.Spec Matrix

/-- singular value decompositions of matrices with at least as many rows as columns -/
def SvdSpec (svd : (a b : Nat) → Matrix (Fin a) (Fin b) ℝ → Svd a b ℝ) : Prop :=
  ∀ a b M, b ≤ a → IsSvd M (svd a b M).u (svd a b M).s (svd a b M).v

theorem mapM_ok_of {α β : Type} {f : α → Except PyErr β} {g : α → β} :
    ∀ {L : List α}, (∀ x ∈ L, f x = .ok (g x)) → L.mapM f = .ok (L.map g)
  | [], _ => rfl
  | x :: L, h => by
    rw [List.mapM_cons, h x (by simp), mapM_ok_of fun y hy => h y (List.mem_cons_of_mem _ hy)]
    rfl

section

variable {m d : Nat}

/-- the gradients of a simplex: the heights, with the areas of the faces as lengths -/
theorem simplexGradients_ok {svd : (a b : Nat) → Matrix (Fin a) (Fin b) ℝ → Svd a b ℝ} (hsvd : SvdSpec svd)
    {r : ℝ} (hr : 0 < r) {p : Fin (m + 2) → Fin (d + 1) → ℝ} (hp : AffineIndependent ℝ p) (hmd : m ≤ d + 1)
    (hdm : d ≤ m + 1)
    (htol : ∀ j, (svd (m + 2) (d + 1) (Matrix.of (centred p))).s j = 0 ∨
      r * (svd (m + 2) (d + 1) (Matrix.of (centred p))).s ⟨0, by omega⟩ ≤
        (svd (m + 2) (d + 1) (Matrix.of (centred p))).s j)
    {h : Fin (m + 2) → Fin (d + 1) → ℝ} (hh : ∀ i, CornerHeight p i (h i)) (h0 : ∀ i, 0 < innerProd (h i) (h i)) :
    simplexGradients svd r (Matrix.of p) = .ok fun i => some fun k =>
      h i k / Real.sqrt (innerProd (h i) (h i)) * vol (rolledFace (Matrix.of p) i) := by
  have hne : Matrix.of (centred p) ≠ 0 := by
    intro hz
    have := rank_centred hp
    rw [hz, rank_zero] at this
    omega
  obtain ⟨X, hX, hps⟩ := Props.C58_pinv hdm r hr (Matrix.of (centred p)) _ (hsvd _ _ _ (by omega)) hne htol
  have hnorm : ∀ i, normalizedNan (fun k => X k i) =
      some fun k => h i k / Real.sqrt (innerProd (h i) (h i)) := by
    intro i
    have hXi : ∀ k, X k i = h i k / innerProd (h i) (h i) := by
      intro k
      rw [eq_div_iff (h0 i).ne', mul_comm]
      exact pseudo_height hp hps (hh i) k
    have hn : Real.sqrt (dot (fun k => X k i) (fun k => X k i)) = 1 / Real.sqrt (innerProd (h i) (h i)) := by
      have : dot (fun k => X k i) (fun k => X k i) = 1 / innerProd (h i) (h i) := by
        have e1 : dot (fun k => X k i) (fun k => X k i) = ∑ k, (h i k * h i k) / (innerProd (h i) (h i)) ^ 2 := by
          unfold dot
          exact Finset.sum_congr rfl fun k _ => by simp only [hXi]; ring
        rw [e1, ← Finset.sum_div]
        change innerProd (h i) (h i) / _ = _
        have := (h0 i).ne'
        field_simp
      rw [this, Real.sqrt_div zero_le_one, Real.sqrt_one]
    have hs := Real.sqrt_pos.2 (h0 i)
    unfold normalizedNan
    simp only
    rw [hn, if_neg (by positivity)]
    congr 1
    funext k
    rw [hXi]
    have hss := Real.mul_self_sqrt (h0 i).le
    calc h i k / innerProd (h i) (h i) / (1 / Real.sqrt (innerProd (h i) (h i)))
        = h i k / (Real.sqrt (innerProd (h i) (h i)) * Real.sqrt (innerProd (h i) (h i))) /
          (1 / Real.sqrt (innerProd (h i) (h i))) := by rw [hss]
      _ = _ := by field_simp
  have harea : (List.finRange (m + 2)).mapM (fun i => unsignedVolume (rolledFace (Matrix.of p) i)) =
      .ok ((List.finRange (m + 2)).map fun i => vol (rolledFace (Matrix.of p) i)) :=
    mapM_ok_of fun i _ => volume_eq_vol hmd _
  unfold simplexGradients simplexNormals
  simp only [bind, Except.bind]
  have hX' : pinv r (svd (m + 1 + 1) (d + 1) (Matrix.of fun i j => (Matrix.of p) i j -
      (∑ k, (Matrix.of p) k j) / ((m + 1 + 1 : ℕ) : ℝ))) = .ok X := hX
  rw [hX']
  simp only
  rw [harea]
  simp only
  congr 1
  funext i
  rw [hnorm]
  simp [List.length_finRange]

/-- the gradients as a matrix, and its inverse -/
theorem gradients_inverse {svd : (a b : Nat) → Matrix (Fin a) (Fin b) ℝ → Svd a b ℝ} (hsvd : SvdSpec svd)
    {r : ℝ} (hr : 0 < r) {p : Fin (m + 2) → Fin (d + 1) → ℝ} (hp : AffineIndependent ℝ p) (hmd : m ≤ d + 1)
    (hdm : d ≤ m + 1)
    (htol : ∀ j, (svd (m + 2) (d + 1) (Matrix.of (centred p))).s j = 0 ∨
      r * (svd (m + 2) (d + 1) (Matrix.of (centred p))).s ⟨0, by omega⟩ ≤
        (svd (m + 2) (d + 1) (Matrix.of (centred p))).s j)
    {h : Fin (m + 2) → Fin (d + 1) → ℝ} (hh : ∀ i, CornerHeight p i (h i)) (h0 : ∀ i, 0 < innerProd (h i) (h i))
    (hv : ∀ i, 0 < vol (rolledFace (Matrix.of p) i)) :
    ∃ g G X, simplexGradients svd r (Matrix.of p) = .ok g ∧ wholeRows g = some G ∧
      planeInverse (m + 1) (svd (m + 2) (d + 1) G) = .ok X ∧
      (∀ u : Fin (d + 1) → ℝ, (∃ z : Fin (m + 2) → ℝ, ∑ a, z a = 0 ∧ ∀ k, u k = ∑ a, z a * p a k) →
        ∀ k, ∑ i, X k i * (vol (rolledFace (Matrix.of p) i) *
          (innerProd u (h i) / Real.sqrt (innerProd (h i) (h i)))) = u k) ∧
      ∀ κ, (∀ i, Real.sqrt (innerProd (h i) (h i)) * vol (rolledFace (Matrix.of p) i) = κ) →
        ∀ b : Fin (m + 2) → ℝ, ∑ i, b i = 0 →
          (∃ z : Fin (m + 2) → ℝ, ∑ a, z a = 0 ∧ ∀ k, ∑ i, X k i * b i = ∑ a, z a * p a k) ∧
          ∀ i, vol (rolledFace (Matrix.of p) i) * (innerProd (fun k => ∑ i, X k i * b i) (h i) /
            Real.sqrt (innerProd (h i) (h i))) = b i := by
  set G : Matrix (Fin (m + 2)) (Fin (d + 1)) ℝ := Matrix.of fun i k =>
    h i k / Real.sqrt (innerProd (h i) (h i)) * vol (rolledFace (Matrix.of p) i) with hG
  have hne : Matrix.of (centred p) ≠ 0 := by
    intro hz
    have := rank_centred hp
    rw [hz, rank_zero] at this
    omega
  obtain ⟨Y, hY, hps⟩ := Props.C58_pinv hdm r hr (Matrix.of (centred p)) _ (hsvd _ _ _ (by omega)) hne htol
  have hs : ∀ i, 0 < Real.sqrt (innerProd (h i) (h i)) := fun i => Real.sqrt_pos.2 (h0 i)
  set c : Fin (m + 2) → ℝ := fun i => Real.sqrt (innerProd (h i) (h i)) * vol (rolledFace (Matrix.of p) i) with hc
  have hcp : ∀ i, 0 < c i := fun i => mul_pos (hs i) (hv i)
  have hGY : G = diagonal c * Yᵀ := by
    ext i k
    rw [diagonal_mul, transpose_apply]
    simp only [hG, of_apply, hc]
    have := pseudo_height hp hps (hh i) k
    rw [← this]
    have hss := Real.mul_self_sqrt (h0 i).le
    have := (hs i).ne'
    rw [div_mul_eq_mul_div, div_eq_iff this]
    nth_rewrite 1 [← hss]
    ring
  have hYG : Yᵀ = diagonal (fun i => (c i)⁻¹) * G := by
    rw [hGY, ← Matrix.mul_assoc, diagonal_mul_diagonal]
    have : (fun i => (c i)⁻¹ * c i) = fun _ => (1 : ℝ) := by
      funext i
      exact inv_mul_cancel₀ (hcp i).ne'
    rw [this, diagonal_one, Matrix.one_mul]
  have hrank : G.rank = m + 1 := by
    have h1 : G.rank = Yᵀ.rank := by
      apply le_antisymm
      · conv_lhs => rw [hGY]
        exact rank_mul_le_right _ _
      · conv_lhs => rw [hYG]
        exact rank_mul_le_right _ _
    rw [h1, rank_transpose, rank_pseudo hps, rank_centred hp]
  obtain ⟨X, hX, hXp⟩ := planeInverse_ok hdm (hsvd _ _ G (by omega)) hrank
  have hGv : ∀ (u : Fin (d + 1) → ℝ) (i : Fin (m + 2)), vol (rolledFace (Matrix.of p) i) *
      (innerProd u (h i) / Real.sqrt (innerProd (h i) (h i))) = (G *ᵥ u) i := by
    intro u i
    simp only [mulVec, dotProduct, hG, of_apply, innerProd]
    rw [Finset.sum_div, Finset.mul_sum]
    exact Finset.sum_congr rfl fun k _ => by ring
  refine ⟨_, G, X, simplexGradients_ok hsvd hr hp hmd hdm htol hh h0, ?_, hX, ?_, ?_⟩
  · unfold wholeRows
    rw [if_pos (by simp)]
    rfl
  · rintro u ⟨z, hz1, hz2⟩ k
    -- the difference of both sides is orthogonal to all gradients, and in their span
    have hGu := hGv u
    have hL : ∑ i, X k i * (vol (rolledFace (Matrix.of p) i) *
        (innerProd u (h i) / Real.sqrt (innerProd (h i) (h i)))) = (X *ᵥ (G *ᵥ u)) k := by
      simp only [mulVec, dotProduct]
      refine Finset.sum_congr rfl fun i _ => ?_
      rw [hGu]
      rfl
    rw [hL]
    -- the projection onto the rows of `G` is the projection onto the edges
    set C : Matrix (Fin (m + 2)) (Fin (d + 1)) ℝ := Matrix.of (centred p) with hC
    have hu : u = Cᵀ *ᵥ z := by
      funext k
      simp only [mulVec, dotProduct, transpose_apply, hC, of_apply]
      rw [hz2 k, ← sum_mul_centred p hz1 k]
      exact Finset.sum_congr rfl fun a _ => mul_comm _ _
    have hYC : Cᵀ = Yᵀᵀ * (C * Cᵀ) := by
      calc Cᵀ = (C * Y * C)ᵀ := by rw [hps.axa]
        _ = (Y * C)ᵀ * Cᵀ := by rw [Matrix.mul_assoc, transpose_mul]
        _ = _ := by rw [hps.xa, transpose_transpose, Matrix.mul_assoc]
    have hGt : ∃ w, u = Gᵀ *ᵥ w := by
      refine ⟨(diagonal (fun i => (c i)⁻¹) * (C * Cᵀ)) *ᵥ z, ?_⟩
      rw [hu, mulVec_mulVec]
      congr 1
      conv_lhs => rw [hYC, hYG, transpose_mul, diagonal_transpose, Matrix.mul_assoc]
    obtain ⟨w, hw⟩ := hGt
    have hXG : X * G * Gᵀ = Gᵀ := by
      calc X * G * Gᵀ = (X * G)ᵀ * Gᵀ := by rw [hXp.xa]
        _ = (G * (X * G))ᵀ := by rw [transpose_mul G]
        _ = Gᵀ := by rw [← Matrix.mul_assoc, hXp.axa]
    rw [mulVec_mulVec, hw, mulVec_mulVec, hXG]
  · intro κ hκ b hb
    have hκc : c = fun _ => κ := funext hκ
    have hκ0 : κ ≠ 0 := by
      have := hcp 0
      rw [hκc] at this
      exact this.ne'
    have hGκ : G = κ • Yᵀ := by
      rw [hGY, hκc]
      ext i k
      rw [diagonal_mul, Matrix.smul_apply, smul_eq_mul]
    set v : Fin (d + 1) → ℝ := fun k => ∑ i, X k i * b i with hv'
    have hvX : v = X *ᵥ b := rfl
    set C : Matrix (Fin (m + 2)) (Fin (d + 1)) ℝ := Matrix.of (centred p) with hC
    constructor
    · have h1 : X = Gᵀ * (Xᵀ * X) := by
        calc X = X * G * X := hXp.xax.symm
          _ = (X * G)ᵀ * X := by rw [hXp.xa]
          _ = _ := by rw [transpose_mul, Matrix.mul_assoc]
      set q : Fin (m + 2) → ℝ := (Xᵀ * X) *ᵥ b with hq
      choose z hz1 hz2 using fun i => pseudo_span hps i
      refine ⟨fun a => ∑ i, κ * q i * z i a, ?_, fun k => ?_⟩
      · rw [Finset.sum_comm]
        refine Finset.sum_eq_zero fun i _ => ?_
        rw [← Finset.mul_sum, hz1, mul_zero]
      · have h2 : v = Gᵀ *ᵥ q := by rw [hvX, hq, mulVec_mulVec, ← h1]
        have h3 := congrFun h2 k
        change v k = _
        rw [h3]
        simp only [mulVec, dotProduct, hGκ, transpose_apply, Matrix.smul_apply, smul_eq_mul, Finset.sum_mul]
        rw [Finset.sum_comm]
        refine Finset.sum_congr rfl fun i _ => ?_
        rw [hz2 i k, Finset.mul_sum, Finset.sum_mul]
        exact Finset.sum_congr rfl fun a _ => by ring
    · intro i
      rw [hGv v i]
      set w : Fin (m + 2) → ℝ := b - G *ᵥ v with hw
      have hGw : Gᵀ *ᵥ w = 0 := by
        have h1 : Gᵀ * (G * X) = Gᵀ := by
          calc Gᵀ * (G * X) = Gᵀ * (G * X)ᵀ := by rw [hXp.ax]
            _ = (G * X * G)ᵀ := by rw [transpose_mul (G * X)]
            _ = Gᵀ := by rw [hXp.axa]
        rw [hw, mulVec_sub, hvX, mulVec_mulVec, mulVec_mulVec, Matrix.mul_assoc, h1, sub_self]
      have hYw : Y *ᵥ w = 0 := by
        rw [hGκ, transpose_smul, transpose_transpose, smul_mulVec] at hGw
        exact (smul_eq_zero.1 hGw).resolve_left hκ0
      have hconst : ∀ a, w a = w i := by
        intro a
        have h1 : ((C * Y) *ᵥ w) = 0 := by rw [← mulVec_mulVec, hYw, mulVec_zero]
        have h2 : ∑ j, ((C * Y) a j - (C * Y) i j) * w j = 0 := by
          simp only [sub_mul, Finset.sum_sub_distrib]
          have e1 := congrFun h1 a
          have e2 := congrFun h1 i
          simp only [mulVec, dotProduct, Pi.zero_apply] at e1 e2
          rw [e1, e2, sub_zero]
        rw [Finset.sum_congr rfl fun j _ => by rw [centred_product hp hps a i j]] at h2
        simp only [sub_mul, Finset.sum_sub_distrib, ite_mul, one_mul, zero_mul, Finset.sum_ite_eq, Finset.mem_univ,
          if_true] at h2
        linarith
      have hsum : ∑ a, w a = 0 := by
        have hY1 : ∀ k, ∑ j, Y k j = 0 := by
          intro k
          have h1 : Y = Y * Yᵀ * Cᵀ := by
            calc Y = Y * (C * Y) := by rw [← Matrix.mul_assoc, hps.xax]
              _ = Y * (C * Y)ᵀ := by rw [hps.ax]
              _ = _ := by rw [transpose_mul, Matrix.mul_assoc]
          have h2 : ∑ j, (Y * Yᵀ * Cᵀ) k j = 0 := by
            simp only [mul_apply (M := Y * Yᵀ), transpose_apply]
            rw [Finset.sum_comm]
            refine Finset.sum_eq_zero fun x _ => ?_
            rw [← Finset.mul_sum]
            have : ∑ j, C j x = 0 := centred_sum p x
            rw [this, mul_zero]
          rw [← h1] at h2
          exact h2
        simp only [hw, Pi.sub_apply, Finset.sum_sub_distrib, hb, zero_sub, neg_eq_zero]
        simp only [mulVec, dotProduct, hGκ, Matrix.smul_apply, smul_eq_mul, transpose_apply]
        rw [Finset.sum_comm]
        refine Finset.sum_eq_zero fun k _ => ?_
        rw [← Finset.sum_mul, ← Finset.mul_sum, hY1, mul_zero, zero_mul]
      rw [Finset.sum_congr rfl fun a _ => hconst a, Finset.sum_const, Finset.card_univ, Fintype.card_fin,
        nsmul_eq_mul] at hsum
      have hwi : w i = 0 := (mul_eq_zero.1 hsum).resolve_left (by positivity)
      simp only [hw, Pi.sub_apply] at hwi
      linarith

end

section

variable {D n : Nat} {V : List (Vec ℝ D)}

theorem mem_face_corner {l e : List Nat} (hl : l.length = n + 1) {c : Nat}
    (hp : e.Perm (l.eraseIdx c)) {a : Nat} (ha : a < n + 1) (hac : a ≠ c) : l[a] ∈ e := by
  rw [hp.mem_iff, List.mem_eraseIdx_iff_getElem]
  exact ⟨a, by omega, hac, rfl⟩

/-- the height of a vertex of a simplex over the opposite face -/
theorem cornerHeight_of {l e : List Nat} (hl : l.length = n + 1) (hln : l.Nodup) {c : Nat} (hc : c < n + 1)
    (hp : e.Perm (l.eraseIdx c)) {g : Fin D → ℝ} (hg : IsHeight V e.toFinset (position V l[c]) g) :
    CornerHeight (cornersOf V (n + 1) l) ⟨c, hc⟩ g := by
  have hpos : ∀ a : Fin (n + 1), cornersOf V (n + 1) l a = position V (l[a.val]'(by omega)) := by
    intro a
    unfold cornersOf
    rw [List.getElem?_eq_getElem (by omega), Option.getD_some]
  have hmem : ∀ a : Fin (n + 1), a ≠ ⟨c, hc⟩ → l[a.val]'(by omega) ∈ e.toFinset := by
    intro a ha
    rw [List.mem_toFinset]
    exact mem_face_corner hl hp a.2 fun h => ha (Fin.ext h)
  refine ⟨fun a b ha hb => ?_, fun a ha => ?_, ?_⟩
  · rw [hpos, hpos]
    exact hg.orthogonal _ (hmem a ha) _ (hmem b hb)
  · rw [hpos, hpos]
    exact hg.product (hmem a ha)
  · obtain ⟨b, hb1, hb2⟩ := hg.foot
    obtain ⟨e1, e2⟩ := Props.erase_insert hln (c := c) (by omega)
    rw [← toFinset_perm hp] at e1 e2
    have hne : ∀ u ∈ e.toFinset, u ≠ l[c] := fun u hu h => e1 (h ▸ hu)
    set z : Nat → ℝ := fun v => if v = l[c] then 1 else - b v with hz
    have hze : ∀ u ∈ e.toFinset, z u = - b u := fun u hu => if_neg (hne u hu)
    refine ⟨fun a => z (l[a.val]?.getD 0), ?_, fun k => ?_⟩
    · rw [sum_fin_list l hln hl z, ← e2, Finset.sum_insert e1, Finset.sum_congr rfl hze, Finset.sum_neg_distrib, hb1]
      simp [hz]
    · have h1 : ∑ a : Fin (n + 1), z (l[a.val]?.getD 0) * cornersOf V (n + 1) l a k =
          ∑ v ∈ l.toFinset, z v * position V v k := by
        rw [← sum_fin_list l hln hl fun v => z v * position V v k]
        rfl
      rw [h1, ← e2, Finset.sum_insert e1, Finset.sum_congr rfl fun u hu => by rw [hze u hu], hb2 k]
      simp only [neg_mul, Finset.sum_neg_distrib]
      simp [hz, sub_eq_add_neg]

/-- the area of the face that `np.roll` leaves -/
theorem vol_rolled {m : Nat} {l e : List Nat} (hl : l.length = m + 2) (hln : l.Nodup) {c : Nat} (hc : c < m + 2)
    (hp : e.Perm (l.eraseIdx c)) :
    vol (rolledFace (Matrix.of (cornersOf V (m + 2) l)) ⟨c, hc⟩) = vol (cornersOf V (m + 1) e) := by
  have he : e.length = m + 1 := by rw [hp.length_eq, List.length_eraseIdx_of_lt (by omega)]; omega
  have hen : e.Nodup := hp.nodup_iff.2 (hln.eraseIdx c)
  set w := l.drop (c + 1) ++ l.take c with hw
  have hwl : w.length = m + 1 := by
    rw [hw, List.length_append, List.length_drop, List.length_take]
    omega
  have hwp : w.Perm e := by
    refine List.Perm.trans ?_ hp.symm
    rw [List.eraseIdx_eq_take_drop_succ]
    exact List.perm_append_comm
  have key := vol_perm (position V) w e hwl he hwp hen
  have h1 : (fun k : Fin (m + 1) => position V (e[k]'(by omega))) = cornersOf V (m + 1) e := by
    funext k
    unfold cornersOf
    rw [List.getElem?_eq_getElem (by omega)]
    rfl
  have h2 : (fun k : Fin (m + 1) => position V (w[k]'(by omega))) =
      rolledFace (Matrix.of (cornersOf V (m + 2) l)) ⟨c, hc⟩ := by
    funext k
    unfold rolledFace cornersOf
    simp only
    congr 1
    have hk := k.2
    by_cases h : c + 1 + k.val < m + 2
    · have e1 : (c + 1 + k.val) % (m + 1 + 1) = c + 1 + k.val := Nat.mod_eq_of_lt (by omega)
      simp only [e1]
      rw [List.getElem?_eq_getElem (by omega), Option.getD_some]
      simp only [hw, Fin.getElem_fin]
      rw [List.getElem_append_left (by rw [List.length_drop]; omega), List.getElem_drop]
    · have e1 : (c + 1 + k.val) % (m + 1 + 1) = c + 1 + k.val - (m + 2) := by
        rw [Nat.mod_eq_sub_mod (by omega), Nat.mod_eq_of_lt (by omega)]
      simp only [e1]
      rw [List.getElem?_eq_getElem (by omega), Option.getD_some]
      simp only [hw, Fin.getElem_fin]
      rw [List.getElem_append_right (by rw [List.length_drop]; omega), List.getElem_take]
      congr 1
      rw [List.length_drop]
      omega
  rw [← h1, ← h2]
  exact key

end

end Verif
