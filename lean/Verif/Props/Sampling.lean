/-
C44, C45: multilinear sampling and the power diagram lookup.
-/
import Verif.Model.Sampling
import Mathlib.Algebra.Order.Ring.Rat
import Mathlib.Algebra.Order.Field.Basic
import Mathlib.Algebra.Order.BigOperators.Group.List
import Mathlib.Algebra.BigOperators.Group.List.Basic
import Mathlib.Algebra.BigOperators.Ring.List
import Mathlib.Tactic.Ring
import Mathlib.Tactic.Linarith

namespace Verif.Spec

/-- `f` is affine in each coordinate separately (on points with `n` coordinates) -/
def MultiAffine {K : Type} [Ring K] (n : Nat) (f : List K → K) : Prop :=
  ∀ (p q : List K) (t : K), p.length + 1 + q.length = n →
    f (p ++ t :: q) = (1 - t) * f (p ++ 0 :: q) + t * f (p ++ 1 :: q)

/-- the power distance of a point to a weighted site -/
def powerDist (point site : List ℝ) (w : ℝ) : ℝ := Verif.Model.sqDist site point - w

/-- `query` returns a nearest site -/
def NearestSpec (query : List (List ℝ) → List ℝ → Nat) : Prop :=
  ∀ sites point, sites ≠ [] → query sites point < sites.length ∧
    ∀ (s s' : List ℝ), sites[query sites point]? = some s → s' ∈ sites →
      Verif.Model.sqDist s point ≤ Verif.Model.sqDist s' point

end Verif.Spec

namespace Verif.Props

open Verif.Model Verif.Spec

/-! ### C44 -/

theorem cubeCorners_length (n : Nat) : ∀ c ∈ cubeCorners n, c.length = n := by
  induction n with
  | zero => intro c hc; simp [cubeCorners] at hc; simp [hc]
  | succ n ih =>
    intro c hc
    simp only [cubeCorners, List.mem_append, List.mem_map] at hc
    rcases hc with ⟨d, hd, rfl⟩ | ⟨d, hd, rfl⟩ <;> simp [ih d hd]

/-- C44: the corners are all the 0/1 vectors, each once -/
theorem C44_corners (n : Nat) (c : List Nat) :
    (c ∈ cubeCorners n ↔ c.length = n ∧ ∀ x ∈ c, x = 0 ∨ x = 1) ∧ (cubeCorners n).Nodup := by
  constructor
  · induction n generalizing c with
    | zero =>
      simp only [cubeCorners, List.mem_singleton]
      exact ⟨fun h => by simp [h], fun h => List.length_eq_zero_iff.1 h.1⟩
    | succ n ih =>
      simp only [cubeCorners, List.mem_append, List.mem_map]
      constructor
      · rintro (⟨d, hd, rfl⟩ | ⟨d, hd, rfl⟩) <;> obtain ⟨h1, h2⟩ := (ih d).1 hd <;>
          refine ⟨by simp [h1], ?_⟩ <;> intro x hx <;> rcases List.mem_cons.1 hx with rfl | hx <;>
          first | exact h2 _ hx | simp
      · rintro ⟨h1, h2⟩
        match c, h1 with
        | x :: d, h1 =>
          have hd := (ih d).2 ⟨by simpa using h1, fun y hy => h2 y (List.mem_cons_of_mem _ hy)⟩
          rcases h2 x (List.mem_cons_self) with rfl | rfl
          · exact Or.inl ⟨d, hd, rfl⟩
          · exact Or.inr ⟨d, hd, rfl⟩
  · clear c
    induction n with
    | zero => simp [cubeCorners]
    | succ n ih =>
      rw [cubeCorners, List.nodup_append]
      refine ⟨ih.map (fun a b h => by simpa using h), ih.map (fun a b h => by simpa using h), ?_⟩
      intro a ha b hb
      obtain ⟨x, -, rfl⟩ := List.mem_map.1 ha
      obtain ⟨y, -, rfl⟩ := List.mem_map.1 hb
      simp

section

variable {K : Type} [CommRing K]

theorem cornerWeight_cons (b : K) (bs : List K) (x : Nat) (c : List Nat) :
    cornerWeight (b :: bs) (x :: c) = (b * x + (1 - b) * (1 - x)) * cornerWeight bs c := by
  simp [cornerWeight]

/-- interpolation along the first coordinate -/
theorem corner_sum_cons (values : List Nat → K) (b : K) (bs : List K) :
    ((cubeCorners (b :: bs).length).map fun c => values c * cornerWeight (b :: bs) c).sum =
      (1 - b) * ((cubeCorners bs.length).map fun c => values (0 :: c) * cornerWeight bs c).sum +
      b * ((cubeCorners bs.length).map fun c => values (1 :: c) * cornerWeight bs c).sum := by
  rw [List.length_cons, cubeCorners, List.map_append, List.sum_append, List.map_map, List.map_map,
    ← List.sum_map_mul_left, ← List.sum_map_mul_left]
  congr 1
  · refine congrArg List.sum (List.map_congr_left fun c _ => ?_)
    simp only [Function.comp, cornerWeight_cons, Nat.cast_zero]; ring
  · refine congrArg List.sum (List.map_congr_left fun c _ => ?_)
    simp only [Function.comp, cornerWeight_cons, Nat.cast_one]; ring

/-- the sum over the corners reproduces every multi-affine function -/
theorem corner_sum_exact : ∀ (bs : List K) (n : Nat) (f : List K → K) (p : List K),
    p.length + bs.length = n → MultiAffine n f →
    ((cubeCorners bs.length).map fun c =>
      f (p ++ c.map (fun x : Nat => (x : K))) * cornerWeight bs c).sum = f (p ++ bs) := by
  intro bs
  induction bs with
  | nil =>
    intro n f p _ _
    simp [cubeCorners, cornerWeight]
  | cons b bs ih =>
    intro n f p hn hf
    rw [corner_sum_cons (fun c => f (p ++ c.map fun x : Nat => (x : K))) b bs,
      hf p bs b (by simp at hn; omega)]
    congr 1
    · refine congrArg ((1 - b) * ·) ?_
      refine Eq.trans ?_ ((ih n f (p ++ [0]) (by simp at hn ⊢; omega) hf).trans (by simp))
      exact congrArg List.sum (List.map_congr_left fun c _ => by simp)
    · refine congrArg (b * ·) ?_
      refine Eq.trans ?_ ((ih n f (p ++ [1]) (by simp at hn ⊢; omega) hf).trans (by simp))
      exact congrArg List.sum (List.map_congr_left fun c _ => by simp)

end

section

variable {K : Type} [Field K] [LinearOrder K] [IsStrictOrderedRing K]

theorem clip01_of_mem {x : K} (h0 : 0 ≤ x) (h1 : x ≤ 1) : clip01 x = x := by
  simp [clip01, h0, h1]

theorem clip01_mem (x : K) : 0 ≤ clip01 x ∧ clip01 x ≤ 1 := by
  simp [clip01]

/-- C44: inside the cube, sampling reproduces every function that is affine in each coordinate,
in every dimension -/
theorem C44_multilinear_exact (f : List K → K) (bary : List K) (hf : MultiAffine bary.length f)
    (hb : ∀ b ∈ bary, 0 ≤ b ∧ b ≤ 1) :
    samplePrimal0 (fun c => f (c.map fun x : Nat => (x : K))) bary = f bary := by
  have hc : bary.map clip01 = bary := by
    conv_rhs => rw [← List.map_id bary]
    exact List.map_congr_left fun b h => clip01_of_mem (hb b h).1 (hb b h).2
  unfold samplePrimal0
  simp only [hc]
  have := corner_sum_exact bary bary.length f [] (by simp) hf
  simpa using this

/-- C44: the weights sum to one and are non-negative for every point (clipping included) -/
theorem C44_partition_of_unity (bary : List K) :
    samplePrimal0 (fun _ => 1) bary = 1 ∧
    ∀ c ∈ cubeCorners bary.length, 0 ≤ cornerWeight (bary.map clip01) c := by
  constructor
  · have hlen : (bary.map clip01).length = bary.length := by simp
    have h : ∀ n, MultiAffine n (fun _ : List K => (1 : K)) := by
      intro n p q t _; ring
    exact corner_sum_exact (bary.map clip01) _ (fun _ => (1 : K)) [] (by simp; rfl) (h _)
  · intro c hc
    have hc' := ((C44_corners _ c).1.1 hc).2
    unfold cornerWeight
    apply List.prod_nonneg
    intro w hw
    obtain ⟨i, hi, rfl⟩ := List.mem_iff_getElem.1 hw
    rw [List.getElem_zipWith]
    have hb := clip01_mem (bary[i]'(by simp at hi; omega))
    rw [List.getElem_map]
    rcases hc' _ (List.getElem_mem (by simp at hi; omega : i < c.length)) with h | h
    · rw [h]; simp; exact hb.2
    · rw [h]; simp; exact hb.1

/-- C44: so the sampled value lies between the least and the largest corner value -/
theorem C44_bounds (values : List Nat → K) (bary : List K) (lo hi : K)
    (h : ∀ c ∈ cubeCorners bary.length, lo ≤ values c ∧ values c ≤ hi) :
    lo ≤ samplePrimal0 values bary ∧ samplePrimal0 values bary ≤ hi := by
  obtain ⟨h1, h2⟩ := C44_partition_of_unity bary
  have hlen : (bary.map clip01).length = bary.length := by simp
  unfold samplePrimal0 at h1 ⊢
  simp only [hlen] at h1 ⊢
  have e : ∀ a : K, ((cubeCorners bary.length).map fun c =>
      a * cornerWeight (bary.map clip01) c).sum = a := by
    intro a
    simp only [one_mul] at h1
    rw [List.sum_map_mul_left, h1, mul_one]
  constructor
  · rw [← e lo]
    exact List.sum_le_sum fun c hc => mul_le_mul_of_nonneg_right (h c hc).1 (h2 c hc)
  · conv_rhs => rw [← e hi]
    exact List.sum_le_sum fun c hc => mul_le_mul_of_nonneg_right (h c hc).2 (h2 c hc)

/-- C44: at a corner the sampled value is the value of that corner -/
theorem C44_corner_value (values : List Nat → K) (c : List Nat) (hc : ∀ x ∈ c, x = 0 ∨ x = 1) :
    samplePrimal0 values (c.map fun x : Nat => (x : K)) = values c := by
  have hclip : (c.map fun x : Nat => (x : K)).map clip01 = c.map fun x : Nat => (x : K) := by
    rw [List.map_map]
    refine List.map_congr_left fun x hx => ?_
    rcases hc x hx with rfl | rfl <;> simp [clip01]
  unfold samplePrimal0
  simp only [hclip]
  clear hclip
  induction c generalizing values with
  | nil => simp [cubeCorners, cornerWeight]
  | cons x t ih =>
    have := corner_sum_cons values (x : K) (t.map fun x : Nat => (x : K))
    rw [List.map_cons, this, ih _ fun y hy => hc y (List.mem_cons_of_mem _ hy),
      ih _ fun y hy => hc y (List.mem_cons_of_mem _ hy)]
    rcases hc x List.mem_cons_self with rfl | rfl <;> simp

end

/-- a bilinear function, affine in each coordinate, and an interior point -/
example : MultiAffine 2 (fun p : List ℚ => match p with | [x, y] => 1 + 2 * x - y + 5 * x * y | _ => 0)
    ∧ ∀ b ∈ [(1/3 : ℚ), 1/2], 0 ≤ b ∧ b ≤ 1 := by
  constructor
  · intro p q t h
    match p, q, h with
    | [], [y], _ => simp; ring
    | [x], [], _ => simp; ring
    | [], [], h => simp at h
    | [], _ :: _ :: _, h => simp at h; omega
    | [_], _ :: _, h => simp at h
    | _ :: _ :: _, _, h => simp at h; omega
  · simp; norm_num

/-! ### C45 -/

theorem foldl_max_spec : ∀ (t : List ℝ) (w : ℝ), w ≤ t.foldl max w ∧ (∀ x ∈ t, x ≤ t.foldl max w) ∧
    (t.foldl max w = w ∨ t.foldl max w ∈ t) := by
  intro t
  induction t with
  | nil => intro w; simp
  | cons a t ih =>
    intro w
    obtain ⟨h1, h2, h3⟩ := ih (max w a)
    rw [List.foldl_cons]
    refine ⟨(le_max_left w a).trans h1, ?_, ?_⟩
    · intro x hx
      rcases List.mem_cons.1 hx with rfl | hx
      · exact (le_max_right w x).trans h1
      · exact h2 x hx
    · rcases h3 with h | h
      · rcases max_choice w a with h' | h'
        · left; rw [h, h']
        · right; rw [h, h']; exact List.mem_cons_self
      · right; exact List.mem_cons_of_mem _ h

theorem sqDist_snoc (a b : List ℝ) (x y : ℝ) (h : a.length = b.length) :
    sqDist (a ++ [x]) (b ++ [y]) = sqDist a b + (x - y) * (x - y) := by
  unfold sqDist
  rw [List.zipWith_append h]
  simp

/-- C45: for all sites, weights and query points of one dimension, the squared distance between the
lifted site and the lifted query point is the power distance plus the largest weight -/
theorem C45_lifting (vertices : List (List ℝ)) (weights : List ℝ) (sites : List (List ℝ))
    (h : augmentWeights vertices weights = .ok sites) :
    ∃ m ∈ weights, (∀ w ∈ weights, w ≤ m) ∧ sites.length = vertices.length ∧
      weights.length = vertices.length ∧
      ∀ (i : Nat) (v : List ℝ) (w : ℝ) (s point : List ℝ), vertices[i]? = some v →
        weights[i]? = some w → sites[i]? = some s → v.length = point.length →
        sqDist s (point ++ [0]) = powerDist point v w + m := by
  unfold augmentWeights weightsToOffsets at h
  cases weights with
  | nil => simp [npMax, bind, Except.bind] at h
  | cons w0 ws =>
    simp only [npMax, bind, Except.bind] at h
    split at h
    · rename_i hlen
      obtain rfl := Except.ok.inj h
      obtain ⟨h1, h2, h3⟩ := foldl_max_spec ws w0
      set m := ws.foldl max w0
      have hmax : ∀ w ∈ w0 :: ws, w ≤ m := by
        intro w hw
        rcases List.mem_cons.1 hw with rfl | hw
        · exact h1
        · exact h2 w hw
      have hmem : m ∈ w0 :: ws := by
        rcases h3 with h | h
        · rw [h]; exact List.mem_cons_self
        · exact List.mem_cons_of_mem _ h
      refine ⟨m, hmem, hmax, by simp at hlen ⊢; omega, by simp at hlen ⊢; omega, ?_⟩
      intro i v w s point hv hw hs hp
      rw [List.getElem?_zipWith, hv, List.getElem?_map, hw] at hs
      obtain rfl := Option.some.inj hs
      rw [sqDist_snoc _ _ _ _ hp, sub_zero,
        Real.mul_self_sqrt (by have := hmax w (List.mem_of_getElem? hw); linarith), powerDist]
      ring
    · cases h

/-- C45: `pick_dual` with weights returns a site of least power distance, for every nearest
neighbour search meeting its specification -/
theorem C45_pick_dual {query : List (List ℝ) → List ℝ → Nat} (hq : NearestSpec query)
    (vertices : List (List ℝ)) (weights : List ℝ) (point : List ℝ) (hne : vertices ≠ [])
    (hlen : weights.length = vertices.length) (hd : ∀ v ∈ vertices, v.length = point.length) :
    ∃ i, pickDual query vertices (some weights) point = .ok i ∧ i < vertices.length ∧
      ∀ (j : Nat) (v v' : List ℝ) (w w' : ℝ), vertices[i]? = some v → weights[i]? = some w →
        vertices[j]? = some v' → weights[j]? = some w' →
        powerDist point v w ≤ powerDist point v' w' := by
  obtain ⟨sites, hs⟩ : ∃ sites, augmentWeights vertices weights = .ok sites := by
    unfold augmentWeights weightsToOffsets
    cases weights with
    | nil => exact absurd (List.length_eq_zero_iff.1 hlen.symm) hne
    | cons w ws =>
      simp only [npMax, bind, Except.bind]
      rw [if_pos (by simpa using hlen.symm)]
      exact ⟨_, rfl⟩
  obtain ⟨m, -, -, hl, -, key⟩ := C45_lifting vertices weights sites hs
  have hsne : sites ≠ [] := by
    intro h
    rw [h] at hl
    exact hne (List.length_eq_zero_iff.1 hl.symm)
  obtain ⟨hlt, hmin⟩ := hq sites (point ++ [0]) hsne
  refine ⟨query sites (point ++ [0]), by simp [pickDual, hs, bind, Except.bind], hl ▸ hlt, ?_⟩
  intro j v v' w w' hv hw hv' hw'
  have hsi := List.getElem?_eq_getElem hlt
  obtain ⟨s', hs'⟩ : ∃ s', sites[j]? = some s' :=
    ⟨_, List.getElem?_eq_getElem (by have := (List.getElem?_eq_some_iff.1 hv').1; omega)⟩
  have h1 := hmin _ _ hsi (List.mem_of_getElem? hs')
  rw [key _ v w _ point hv hw hsi (hd _ (List.mem_of_getElem? hv)),
    key _ v' w' _ point hv' hw' hs' (hd _ (List.mem_of_getElem? hv'))] at h1
  linarith

/-- C45: without weights the nearest vertex is returned -/
theorem C45_pick_dual_unweighted {query : List (List ℝ) → List ℝ → Nat} (hq : NearestSpec query)
    (vertices : List (List ℝ)) (point : List ℝ) (hne : vertices ≠ []) :
    ∃ i, pickDual query vertices none point = .ok i ∧ i < vertices.length ∧
      ∀ (v v' : List ℝ), vertices[i]? = some v → v' ∈ vertices →
        sqDist v point ≤ sqDist v' point :=
  ⟨_, rfl, (hq vertices point hne).1, (hq vertices point hne).2⟩

/-- a search meeting the specification exists: compare all sites -/
example : ∃ query, NearestSpec query := by
  have h : ∀ (sites : List (List ℝ)) (point : List ℝ), ∃ i, sites ≠ [] → i < sites.length ∧
      ∀ (s s' : List ℝ), sites[i]? = some s → s' ∈ sites → sqDist s point ≤ sqDist s' point := by
    intro sites point
    by_cases hne : sites = []
    · exact ⟨0, fun h => absurd hne h⟩
    · obtain ⟨s, hs, hmin⟩ := sites.toFinset.exists_min_image (fun s => sqDist s point)
        (by simpa [List.toFinset_nonempty_iff] using hne)
      obtain ⟨i, hi, rfl⟩ := List.mem_iff_getElem.1 (List.mem_toFinset.1 hs)
      refine ⟨i, fun _ => ⟨hi, ?_⟩⟩
      intro s s' h1 h2
      rw [List.getElem?_eq_getElem hi] at h1
      obtain rfl := Option.some.inj h1
      exact hmin s' (List.mem_toFinset.2 h2)
  choose q hq using h
  exact ⟨q, fun sites point hne => hq sites point hne⟩

end Verif.Props
