/-
The volume of a simplex from a face and the height over it.
-/
import Verif.Lemmas.Velocity
import Verif.Lemmas.Diamond
import Mathlib.LinearAlgebra.Matrix.Block

set_option linter.unusedSectionVars false

namespace Verif

open Verif.Model Verif.Spec Matrix

variable {D m : Nat}

/-- base times height -/
theorem vol_base (q : Nat → Vec ℝ D) {h : Vec ℝ D} (b : Fin (m + 1) → ℝ) (hb : ∑ a, b a = 1)
    (hfoot : ∀ k, q (m + 1) k = h k + ∑ a : Fin (m + 1), b a * q a k)
    (horth : ∀ i ≤ m, innerProd h (q i - q m) = 0) :
    vol (fun r : Fin (m + 2) => q r) * ((m + 1 : ℕ) : ℝ) =
      vol (fun r : Fin (m + 1) => q r) * Real.sqrt (innerProd h h) := by
  set q' : Nat → Vec ℝ D := fun a => if a ≤ m then q a else fun k => q m k + h k with hq'
  have hlow : ∀ a, a ≤ m → q' a = q a := fun a ha => if_pos ha
  have htop : q' (m + 1) = fun k => q m k + h k := if_neg (by omega)
  have hv := vol_orthogonal q' m 1 (by
    intro i hi j hj1 hj2
    rcases (show j = m ∨ j = m + 1 by omega) with rfl | rfl
    · simp
    · rw [hlow i hi, hlow m (Nat.le_refl m), htop]
      have := horth i hi
      unfold innerProd at this
      rw [← this]
      refine Finset.sum_congr rfl fun c _ => ?_
      simp only [Pi.sub_apply]
      ring)
  have hface : (fun r : Fin (m + 1) => q' r) = fun r : Fin (m + 1) => q r := by
    funext r
    exact hlow r (by have := r.2; omega)
  have hseg : vol (fun r : Fin (1 + 1) => q' (m + r)) = Real.sqrt (innerProd h h) := by
    rw [Props.vol_two]
    simp only [Fin.val_zero, Fin.val_one, add_zero]
    rw [hlow m (Nat.le_refl m), htop]
    congr 1
    unfold innerProd
    refine Finset.sum_congr rfl fun c _ => ?_
    simp only [Pi.sub_apply]
    ring
  -- the apex moves parallel to the face
  set B : Matrix (Fin (m + 2)) (Fin (m + 2)) ℝ := Matrix.of fun r s =>
    if r.val ≤ m then (if r = s then 1 else 0)
    else if hs : s.val ≤ m then b ⟨s.val, by omega⟩ - (if s.val = m then 1 else 0) else 1 with hB
  have hlast : ∀ s : Fin (m + 1), B (Fin.last (m + 1)) s.castSucc = b s - (if s.val = m then 1 else 0) := by
    intro s
    have := s.2
    simp only [hB, of_apply, Fin.val_last, Fin.val_castSucc]
    rw [if_neg (by omega), dif_pos (by omega)]
  have hlast' : B (Fin.last (m + 1)) (Fin.last (m + 1)) = 1 := by
    simp only [hB, of_apply, Fin.val_last]
    rw [if_neg (by omega), dif_neg (by omega)]
  have hrow : ∀ (r : Fin (m + 1)) s, B r.castSucc s = if r.castSucc = s then 1 else 0 := by
    intro r s
    have := r.2
    simp only [hB, of_apply, Fin.val_castSucc]
    rw [if_pos (by omega)]
  have hpick : ∀ f : Fin (m + 1) → ℝ, ∑ s : Fin (m + 1), (if s.val = m then (1 : ℝ) else 0) * f s = f (Fin.last m) := by
    intro f
    rw [Finset.sum_eq_single (Fin.last m)]
    · simp
    · intro s _ hs
      rw [if_neg (fun h : s.val = m => hs (Fin.ext h)), zero_mul]
    · simp
  have hsum : ∀ r, ∑ s, B r s = 1 := by
    intro r
    refine Fin.lastCases ?_ (fun r => ?_) r
    · rw [Fin.sum_univ_castSucc, hlast', Finset.sum_congr rfl fun s _ => hlast s, Finset.sum_sub_distrib, hb]
      have := hpick fun _ => 1
      simp only [mul_one] at this
      rw [this]
      ring
    · rw [Finset.sum_congr rfl fun s _ => hrow r s]
      simp
  have hcomb := vol_combine B hsum (fun r : Fin (m + 2) => q' r) (fun r : Fin (m + 2) => q r) (by
    intro r c
    refine Fin.lastCases ?_ (fun r => ?_) r
    · rw [Fin.sum_univ_castSucc, hlast', Finset.sum_congr rfl fun s _ => by rw [hlast s]]
      simp only [Fin.val_last, Fin.val_castSucc, sub_mul, Finset.sum_sub_distrib]
      rw [hpick fun s => q' s c, htop, hfoot c]
      have : ∑ s : Fin (m + 1), b s * q' s c = ∑ s : Fin (m + 1), b s * q s c :=
        Finset.sum_congr rfl fun s _ => by rw [hlow s (by have := s.2; omega)]
      rw [this]
      simp only [Fin.val_last]
      rw [hlow m (Nat.le_refl m)]
      ring
    · rw [Finset.sum_congr rfl fun s _ => by rw [hrow r s]]
      simp only [ite_mul, one_mul, zero_mul, Finset.sum_ite_eq, Finset.mem_univ, if_true]
      rw [hlow _ (by have := r.2; simp; omega)])
  have hdet : B.det = 1 := by
    rw [det_of_isLowerTriangular B (by
      intro r s hrs
      have hrs : r < s := hrs
      obtain ⟨r, rfl⟩ : ∃ r' : Fin (m + 1), r = r'.castSucc := ⟨⟨r.val, by omega⟩, rfl⟩
      rw [hrow]
      exact if_neg (ne_of_lt hrs))]
    refine Finset.prod_eq_one fun r _ => ?_
    refine Fin.lastCases hlast' (fun r => ?_) r
    rw [hrow, if_pos rfl]
  rw [hdet, abs_one, one_mul] at hcomb
  rw [hface, hseg] at hv
  have hv' : vol (fun r : Fin (m + 2) => q' r) * ((m + 1).factorial : ℝ) =
      vol (fun r : Fin (m + 1) => q r) * (m.factorial : ℝ) * (Real.sqrt (innerProd h h) * (Nat.factorial 1 : ℝ)) := hv
  rw [hcomb]
  have hf : ((m.factorial : ℕ) : ℝ) ≠ 0 := by positivity
  rw [Nat.factorial_succ, Nat.cast_mul, Nat.factorial_one, Nat.cast_one, mul_one] at hv'
  apply mul_right_cancel₀ hf
  linear_combination hv'

/-- the volume of a simplex of a complex from the face `e` opposite to its corner `c` -/
theorem vol_height {V : List (Vec ℝ D)} {l e : List Nat} (hl : l.length = m + 2) (hln : l.Nodup) {c : Nat}
    (hc : c < m + 2) (hp : e.Perm (l.eraseIdx c)) {g : Fin D → ℝ} (hg : IsHeight V e.toFinset (position V l[c]) g) :
    vol (cornersOf V (m + 2) l) * ((m + 1 : ℕ) : ℝ) = vol (cornersOf V (m + 1) e) * Real.sqrt (innerProd g g) := by
  have he : e.length = m + 1 := by rw [hp.length_eq, List.length_eraseIdx_of_lt (by omega)]; omega
  have hen : e.Nodup := hp.nodup_iff.2 (hln.eraseIdx c)
  obtain ⟨b, hb1, hb2⟩ := hg.foot
  set w := e ++ [l[c]] with hw
  have hwl : w.length = m + 2 := by simp [hw, he]
  have hwp : w.Perm l := by
    have h1 : w.Perm (l.eraseIdx c ++ [l[c]]) := hp.append_right _
    exact h1.trans (eraseIdx_append_perm (by omega))
  have hperm := vol_perm (position V) w l hwl hl hwp hln
  have hbase := vol_base (m := m) (fun a => position V (w[a]?.getD 0)) (h := g) (fun a => b (e[a.val]?.getD 0))
    (by rw [sum_fin_list e hen he b]; exact hb1)
    (fun k => by
      have hlast : w[m + 1]? = some l[c] := by
        rw [hw, List.getElem?_append_right (by omega), he]
        simp
      simp only [hlast, Option.getD_some]
      have h1 : ∑ a : Fin (m + 1), b (e[a.val]?.getD 0) * position V (w[a.val]?.getD 0) k =
          ∑ a : Fin (m + 1), (fun v => b v * position V v k) (e[a.val]?.getD 0) := by
        refine Finset.sum_congr rfl fun a _ => ?_
        have := a.2
        rw [hw, List.getElem?_append_left (by omega)]
      rw [h1, sum_fin_list e hen he fun v => b v * position V v k, hb2 k]
      ring)
    (fun i hi => by
      have hget : ∀ i ≤ m, w[i]?.getD 0 ∈ e.toFinset := by
        intro i hi
        rw [hw, List.getElem?_append_left (by omega), List.getElem?_eq_getElem (by omega), Option.getD_some,
          List.mem_toFinset]
        exact List.getElem_mem _
      exact hg.orthogonal _ (hget i hi) _ (hget m (Nat.le_refl m)))
  have h1 : (fun r : Fin (m + 2) => position V (w[r.val]?.getD 0)) =
      fun k : Fin (m + 1 + 1) => position V (w[k]'(by omega)) := by
    funext k
    rw [List.getElem?_eq_getElem (by omega)]
    rfl
  have h2 : (fun k : Fin (m + 1 + 1) => position V (l[k]'(by omega))) = cornersOf V (m + 2) l := by
    funext k
    unfold cornersOf
    rw [List.getElem?_eq_getElem (by omega)]
    rfl
  have h3 : (fun r : Fin (m + 1) => position V (w[r.val]?.getD 0)) = cornersOf V (m + 1) e := by
    funext k
    have := k.2
    unfold cornersOf
    rw [hw, List.getElem?_append_left (by omega)]
  rw [h1, hperm, h2, h3] at hbase
  exact hbase

end Verif
