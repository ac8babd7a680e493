/-
The positions of a subdivided polygon, and the start of `circle`.
-/
import Verif.Lemmas.PolygonStep

namespace Verif

open Verif.Model Verif.Spec Verif.Props

variable {uniq : List (List Nat) → List (List Nat)} {N : Nat} {edges : List (List Nat)} {t : Topo} {c : Nat → Nat}
  {solve : List (List Int) → Option (List Int)}

theorem Spec.ClosedPolygon.subdivide {K : Type} [Field K] [LinearOrder K] [IsStrictOrderedRing K] {d : Nat} (h : ClosedPolygon N edges c)
    (hN : 3 ≤ N) (hu : UniqSpec uniq) (ht : fromCubes uniq true 1 edges = .ok t) {V : List (Vec K d)} (hV : V.length = N) :
    ∃ s W, subdivideComplex uniq t V [] true = .ok (s, W) ∧ fromCubes uniq true 1 (fineEdges N edges) = .ok s ∧
      W.length = 2 * N ∧
      (∀ k, ∃ w, W[fineRound N edges c (2 * k + 1)]? = some w ∧
        ∀ q, w q = ((V[c k]?.getD 0) q + (V[c (k + 1)]?.getD 0) q) / 2) ∧
      (∀ k, ∃ w, W[fineRound N edges c (2 * (k + 1))]? = some w ∧
        ∀ q, w q = ((V[c k]?.getD 0) q + 6 * (V[c (k + 1)]?.getD 0) q + (V[c (k + 2)]?.getD 0) q) / 8) := by
  have hc := h.cubes (by omega)
  have wf := fromCubes_wf hu hc ht
  have hn0 := h.nVertices (by omega) hu ht
  have hf := h.fine
  obtain ⟨s, T, hs⟩ := C67_accepts hu hc (le_refl 1) ht
  have hbuilt : fromCubes uniq true 1 (fineEdges N edges) = .ok s := by
    obtain ⟨S, hS, hflat⟩ := subdivideCubes_edges wf hc
    unfold subdivideCubical at hs
    rw [hS] at hs
    simp only [bind, Except.bind, wf.lenB, hflat, hn0] at hs
    cases hb : fromCubes uniq true 1 (fineEdges N edges) with
    | error e => rw [hb] at hs; simp at hs
    | ok s' =>
      rw [hb] at hs
      simp only [Except.ok.injEq, Prod.mk.injEq] at hs
      rw [hs.1]
  have hsn := hf.nVertices (by omega) hu hbuilt
  obtain ⟨V', hV', hlen, hpos⟩ := C67_positions hu hc (le_refl 1) ht hs V (by omega)
  rw [hsn] at hlen
  obtain ⟨PP, W, hPP, hW, hWl, hval⟩ := C69_smooth (creases := []) hu (hf.cubes (by omega)) (le_refl 1) hbuilt
    ⟨by simp, by simp⟩ V' (by rw [hlen, hsn])
  refine ⟨s, W, ?_, hbuilt, by omega, ?_⟩
  · unfold subdivideComplex fineCreases
    simp only [bind, Except.bind, hV', hs, List.mapM_nil, pure, Except.pure, if_true, hPP, hW]
  -- positions before smoothing
  have heven : ∀ k q, (V'[fineRound N edges c (2 * k)]?.getD 0) q = (V[c k]?.getD 0) q := by
    intro k q
    rw [fineRound_even]
    have hk : c k < (t.elements[0]?.getD []).length := by
      have := h.lt k
      unfold Topo.nElements at hn0
      omega
    have he := List.getElem?_eq_getElem hk
    obtain ⟨x, hx, hxq⟩ := hpos 0 (c k) _ (by omega) he
    rw [wf.point (by omega) he] at hxq
    have : subVertex t 0 (c k) = c k := by simp [subVertex]
    rw [this] at hx
    rw [hx]
    simpa using hxq q
  have hodd : ∀ k q, (V'[fineRound N edges c (2 * k + 1)]?.getD 0) q = ((V[c k]?.getD 0) q + (V[c (k + 1)]?.getD 0) q) / 2 := by
    intro k q
    rw [fineRound_odd]
    have hget : edges[edges.idxOf [c k, c (k + 1)]]? = some [c k, c (k + 1)] := by
      rw [List.getElem?_eq_getElem (List.idxOf_lt_length_of_mem (h.mem k)), List.getElem_idxOf]
    obtain ⟨x, hx, hxq⟩ := hpos 1 (edges.idxOf [c k, c (k + 1)]) [c k, c (k + 1)] (le_refl 1)
      (by rw [wf.top_eq, Option.getD_some]; exact hget)
    have : subVertex t 1 (edges.idxOf [c k, c (k + 1)]) = N + edges.idxOf [c k, c (k + 1)] := by
      simp [subVertex, hn0]
    rw [this] at hx
    rw [hx]
    have := hxq q
    simp only [pow_one, List.map_cons, List.map_nil, List.sum_cons, List.sum_nil, add_zero] at this
    rw [Option.getD_some, ← this]
    field_simp
  have hstep : ∀ k, ∃ w, W[fineRound N edges c (k + 1)]? = some w ∧ ∀ q, w q =
      ((V'[fineRound N edges c k]?.getD 0) q + 2 * (V'[fineRound N edges c (k + 1)]?.getD 0) q +
        (V'[fineRound N edges c (k + 2)]?.getD 0) q) / 4 := by
    intro k
    obtain ⟨w, hw, hq⟩ := hval (fineRound N edges c (k + 1)) (by rw [hlen]; exact hf.lt _)
    refine ⟨w, hw, fun q => ?_⟩
    rw [hq, hf.smoothed_eq (by omega) hu hbuilt (fun u => (V'[u]?.getD 0) q)]
  refine ⟨fun k => ?_, fun k => ?_⟩
  · obtain ⟨w, hw, hq⟩ := hstep (2 * k)
    refine ⟨w, hw, fun q => ?_⟩
    rw [hq, heven, hodd, show 2 * k + 2 = 2 * (k + 1) by omega, heven]
    ring
  · obtain ⟨w, hw, hq⟩ := hstep (2 * k + 1)
    refine ⟨w, by rw [show 2 * (k + 1) = 2 * k + 1 + 1 by omega]; exact hw, fun q => ?_⟩
    rw [hq, hodd, show 2 * k + 1 + 1 = 2 * (k + 1) by omega, heven, show 2 * k + 1 + 2 = 2 * (k + 1) + 1 by omega, hodd]
    ring

/-! ### circles -/

theorem onCircle_normalized {r θ : ℝ} (hr : 0 < r) : normalizedNan (onCircle r θ) = some (onCircle 1 θ) := by
  have hd : dot (onCircle r θ) (onCircle r θ) = r ^ 2 := by
    unfold dot onCircle
    simp [Fin.sum_univ_two]
    have := Real.sin_sq_add_cos_sq θ
    linear_combination r ^ 2 * this
  unfold normalizedNan
  simp only [hd, Real.sqrt_sq hr.le]
  rw [if_neg hr.ne']
  congr 1
  funext i
  fin_cases i
  · simp [onCircle]; field_simp
  · simp [onCircle]; field_simp

theorem onCircle_middle (r θ δ : ℝ) (q : Fin 2) :
    (onCircle r θ q + onCircle r (θ - δ) q) / 2 = onCircle (r * Real.cos (δ / 2)) (θ - δ / 2) q := by
  have h1 : θ = (θ - δ / 2) + δ / 2 := by ring
  have h2 : θ - δ = (θ - δ / 2) - δ / 2 := by ring
  fin_cases q
  · simp only [onCircle, Fin.zero_eta, Matrix.cons_val_zero]
    rw [h2, Real.cos_sub (θ - δ / 2) (δ / 2)]
    conv_lhs => rw [h1, Real.cos_add (θ - δ / 2) (δ / 2)]
    ring_nf
  · simp only [onCircle, Fin.mk_one, Matrix.cons_val_one, Matrix.cons_val_zero]
    rw [h2, Real.sin_sub (θ - δ / 2) (δ / 2)]
    conv_lhs => rw [h1, Real.sin_add (θ - δ / 2) (δ / 2)]
    ring_nf

theorem onCircle_corner (r θ δ : ℝ) (q : Fin 2) :
    (onCircle r (θ + δ) q + 6 * onCircle r θ q + onCircle r (θ - δ) q) / 8 =
      onCircle (r * ((3 + Real.cos δ) / 4)) θ q := by
  fin_cases q
  · simp only [onCircle, Fin.zero_eta, Matrix.cons_val_zero]
    rw [Real.cos_add, Real.cos_sub]
    ring
  · simp only [onCircle, Fin.mk_one, Matrix.cons_val_one, Matrix.cons_val_zero]
    rw [Real.sin_add, Real.sin_sub]
    ring

theorem mapM_some_of {α β : Type} (f : α → Option β) (g : α → β) (l : List α) (h : ∀ x ∈ l, f x = some (g x)) :
    l.mapM f = some (l.map g) := by
  induction l with
  | nil => rfl
  | cons a l ih =>
    rw [List.mapM_cons, h a (by simp), ih fun x hx => h x (by simp [hx])]
    rfl

/-- one pass of the loop of `circle` -/
theorem circleStep_ok (hu : UniqSpec uniq) (h : ClosedPolygon N edges c) (hN : 3 ≤ N)
    (ht : fromCubes uniq true 1 edges = .ok t) {V : List (Vec ℝ 2)} (hV : V.length = N) {r α : ℝ} (hr : 0 < r)
    (hpos : ∀ k : Nat, V[c k]? = some (onCircle r (α - 2 * Real.pi * k / N))) :
    ∃ s W, circleStep uniq (t, V) = .ok (s, W) ∧ fromCubes uniq true 1 (fineEdges N edges) = .ok s ∧
      ClosedPolygon (2 * N) (fineEdges N edges) (fineRound N edges c) ∧ W.length = 2 * N ∧
      (∀ k : Nat, W[fineRound N edges c k]? = some (onCircle 1 (α - 2 * Real.pi * k / (2 * N : ℕ)))) := by
  obtain ⟨s, W, hsub, hbuilt, hWl, hodd, heven⟩ := h.subdivide hN hu ht hV
  have hf := h.fine
  have hN0 : (N : ℝ) ≠ 0 := by
    have : 0 < N := h.pos
    positivity
  have hNr : (3 : ℝ) ≤ N := by exact_mod_cast hN
  -- the positions before they are normalized
  have hcorner : ∀ k : Nat, W[fineRound N edges c (2 * (k + 1))]? =
      some (onCircle (r * ((3 + Real.cos (2 * Real.pi / N)) / 4)) (α - 2 * Real.pi * (2 * (k + 1) : ℕ) / (2 * N : ℕ))) := by
    intro k
    obtain ⟨w, hw, hq⟩ := heven k
    rw [hw]
    congr 1
    funext q
    rw [hq, hpos, hpos, hpos, ← onCircle_corner]
    simp only [Option.getD_some]
    have e1 : α - 2 * Real.pi * (k : ℝ) / N = α - 2 * Real.pi * (2 * (k + 1) : ℕ) / (2 * N : ℕ) + 2 * Real.pi / N := by
      push_cast; field_simp; ring
    have e2 : α - 2 * Real.pi * ((k + 1 : ℕ) : ℝ) / N = α - 2 * Real.pi * (2 * (k + 1) : ℕ) / (2 * N : ℕ) := by
      push_cast; field_simp
    have e3 : α - 2 * Real.pi * ((k + 2 : ℕ) : ℝ) / N = α - 2 * Real.pi * (2 * (k + 1) : ℕ) / (2 * N : ℕ) - 2 * Real.pi / N := by
      push_cast; field_simp; ring
    rw [e1, e2, e3]
  have hmiddle : ∀ k : Nat, W[fineRound N edges c (2 * k + 1)]? =
      some (onCircle (r * Real.cos (2 * Real.pi / N / 2)) (α - 2 * Real.pi * (2 * k + 1 : ℕ) / (2 * N : ℕ))) := by
    intro k
    obtain ⟨w, hw, hq⟩ := hodd k
    rw [hw]
    congr 1
    funext q
    rw [hq, hpos, hpos]
    simp only [Option.getD_some]
    have e1 : α - 2 * Real.pi * ((k + 1 : ℕ) : ℝ) / N = α - 2 * Real.pi * (k : ℝ) / N - 2 * Real.pi / N := by
      push_cast; field_simp; ring
    have e2 : α - 2 * Real.pi * (2 * k + 1 : ℕ) / (2 * N : ℕ) = α - 2 * Real.pi * (k : ℝ) / N - 2 * Real.pi / N / 2 := by
      push_cast; field_simp; ring
    rw [e1, e2]
    exact onCircle_middle _ _ _ q
  have hr1 : 0 < r * ((3 + Real.cos (2 * Real.pi / N)) / 4) := by
    have := Real.neg_one_le_cos (2 * Real.pi / N)
    have : 0 < (3 + Real.cos (2 * Real.pi / N)) / 4 := by linarith
    positivity
  have hr2 : 0 < r * Real.cos (2 * Real.pi / N / 2) := by
    refine mul_pos hr (Real.cos_pos_of_mem_Ioo ⟨?_, ?_⟩)
    · have : 0 ≤ 2 * Real.pi / N / 2 := by have := Real.pi_pos; positivity
      have := Real.pi_pos
      linarith
    · have hp := Real.pi_pos
      rw [div_div, div_lt_div_iff₀ (by positivity) (by norm_num)]
      nlinarith
  -- every vertex has a direction
  have hdir : ∀ k : Nat, ∃ ρ > 0, W[fineRound N edges c k]? = some (onCircle ρ (α - 2 * Real.pi * k / (2 * N : ℕ))) := by
    intro k
    rcases Nat.even_or_odd' k with ⟨a, rfl | rfl⟩
    · cases a with
      | zero =>
        obtain ⟨M, rfl⟩ : ∃ M, N = M + 1 := ⟨N - 1, by omega⟩
        refine ⟨_, hr1, ?_⟩
        have hM := hcorner M
        have hz : fineRound (M + 1) edges c (2 * (M + 1)) = fineRound (M + 1) edges c (2 * 0) := by
          have := hf.next 0
          rw [Nat.zero_add] at this
          exact this
        rw [hz] at hM
        rw [hM]
        congr 1
        have e : α - 2 * Real.pi * (2 * (M + 1) : ℕ) / (2 * (M + 1) : ℕ) =
            α - 2 * Real.pi * (2 * 0 : ℕ) / (2 * (M + 1) : ℕ) - 2 * Real.pi := by
          have : ((M : ℝ) + 1) ≠ 0 := by positivity
          push_cast; field_simp; ring
        rw [e]
        unfold onCircle
        rw [Real.cos_sub_two_pi, Real.sin_sub_two_pi]
      | succ a => exact ⟨_, hr1, hcorner a⟩
    · exact ⟨_, hr2, hmiddle a⟩
  have hnorm : ∀ w ∈ W, normalizedNan w = some (normalizedVec w) := by
    intro w hw
    obtain ⟨v, hv⟩ := List.mem_iff_getElem?.1 hw
    obtain ⟨k, -, rfl⟩ := hf.surj (v := v) (by rw [← hWl]; exact (List.getElem?_eq_some_iff.1 hv).1)
    obtain ⟨ρ, hρ, hk⟩ := hdir k
    rw [hk] at hv
    rw [← Option.some.inj hv]
    have h1 := onCircle_normalized (θ := α - 2 * Real.pi * k / (2 * N : ℕ)) hρ
    rw [h1]
    unfold normalizedNan at h1
    unfold normalizedVec
    simp only at h1 ⊢
    split at h1
    · simp at h1
    · next hne => rw [if_neg hne]; exact h1.symm
  refine ⟨s, W.map normalizedVec, ?_, hbuilt, hf, by simpa using hWl, fun k => ?_⟩
  · unfold circleStep normalizedVertices
    simp only [bind, Except.bind, hsub]
    rw [mapM_some_of _ normalizedVec W hnorm]
  · obtain ⟨ρ, hρ, hk⟩ := hdir k
    rw [List.getElem?_map, hk, Option.map_some, ← hnorm _ (List.mem_of_getElem? hk), onCircle_normalized hρ]

end Verif
