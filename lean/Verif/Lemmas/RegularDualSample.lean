/-
Sampling of dual 0-forms over the parts of cubes.
-/
import Verif.Model.RegularDualSample
import Verif.Lemmas.RegularAround
import Verif.Props.DualAveraging

set_option linter.unusedSectionVars false

namespace Verif

open Verif.Model Verif.Spec Verif.Props

variable {K : Type} [Field K] [LinearOrder K] [IsStrictOrderedRing K]
variable {n : Nat} {V : List (Vec K n)} {cubes F : List (List Nat)} {t : Topo}

theorem agrees_partPoint {p b : List Bool} (hp : p.length = n) (hb : b.length = n) : agrees (partPoint p b) p = true := by
  refine agrees_iff.2 ⟨by rw [partPoint_length hp hb, hp], fun a y s ha hs => ?_⟩
  have hal : a < n := by
    rw [← hp]
    exact (List.getElem?_eq_some_iff.1 hs).1
  rw [partPoint_get hp hb hal, hs, Option.getD_some] at ha
  obtain rfl := Option.some.inj ha
  split
  · exact Or.inl rfl
  · exact Or.inr rfl

/-- the vertex of a part is a corner of all its elements -/
theorem part_vertex (w : CWF n cubes t) (hn : 1 ≤ n) {r : (List Nat × Nat) × List Bool} (hr : r ∈ cubeParts n cubes) :
    domOf t n r (List.replicate n false) = cubeAt r.1.1 r.2 ∧
    ∀ (b : List Bool) (e : List Nat), b.length = n → (gridFace r.1.1 (partPoint r.2 b)).Perm e → cubeAt r.1.1 r.2 ∈ e := by
  obtain ⟨h1, h2⟩ := mem_cubeParts.1 hr
  have hmem : ∀ (b : List Bool) (e : List Nat), b.length = n → (gridFace r.1.1 (partPoint r.2 b)).Perm e → cubeAt r.1.1 r.2 ∈ e :=
    fun b e hb he => he.mem_iff.1 (mem_gridFace.2 ⟨r.2, agrees_partPoint h2 hb, rfl⟩)
  refine ⟨?_, hmem⟩
  obtain ⟨e, he1, he2, -⟩ := domOf_spec w hn hr (b := List.replicate n false) (by simp)
  have hc0 : (List.replicate n false).count true = 0 := by simp [List.count_replicate]
  rw [hc0] at he1
  have := w.vertex_corner (by omega) he1.lt
  have h3 : e = [domOf t n r (List.replicate n false)] := by
    refine he1.unique ?_
    rw [← this]
    exact CWF.stored_corners (t := t) he1.lt
  have h4 := hmem _ e (by simp) he2
  rw [h3, List.mem_singleton] at h4
  exact h4.symm

theorem corner_sum : ∀ {c : List Nat}, (∀ x ∈ c, x = 0 ∨ x = 1) → c.sum = (c.map fun x => x == 1).count true
  | [], _ => rfl
  | a :: c, h => by
    rw [List.sum_cons, List.map_cons, corner_sum fun x hx => h x (List.mem_cons_of_mem _ hx)]
    rcases h a List.mem_cons_self with rfl | rfl
    · simp
    · rw [List.count_cons]
      simp [Nat.add_comm]

/-- the value at the element at corner `c` of a part -/
def partValue (t : Topo) (n : Nat) (cell : Nat → List Nat → List K) (d0 : List K)
    (r : (List Nat × Nat) × List Bool) (c : List Nat) : K :=
  if c.sum = n then d0[r.1.2]?.getD 0
  else mean (cell c.sum (((t.elements[c.sum]?.getD [])[domOf t n r (c.map fun x => x == 1)]?).getD []))

/-- the averaged forms at the corners of a part -/
theorem dualFormAt_part (w : CWF n cubes t) (hn : 1 ≤ n) {r : (List Nat × Nat) × List Bool} (hr : r ∈ cubeParts n cubes)
    {d0 : List K} {out : List (List K)} {parents : List (List Nat)} {cell bcell : Nat → List Nat → List K}
    (hd : cubes.length ≤ d0.length) (hlen : out.length = n + 1) (h0 : out[0]? = some d0)
    (hlev : ∀ d k, d + 1 + k = n → ∃ o, out[d + 1]? = some o ∧ o = dualLevel t.elements parents cell bcell k)
    {c : List Nat} (hc : c ∈ cubeCorners n) :
    dualFormAt out.reverse ((cubeIndices n).map (domOf t n r)) c = .ok (partValue t n cell d0 r c) := by
  obtain ⟨hcl, h01⟩ := (C44_corners n c).1.1 hc
  have hsum := corner_sum h01
  have hbl : (c.map fun x => x == 1).length = n := by simpa using hcl
  have hle : c.sum ≤ n := by
    rw [hsum, ← hbl]
    exact List.count_le_length
  obtain ⟨e, he, hper, htop⟩ := domOf_spec w hn hr hbl
  have hrow : ((cubeIndices n).map (domOf t n r))[cornerNumber c]? = some (domOf t n r (c.map fun x => x == 1)) := by
    unfold cornerNumber
    rw [List.getElem?_map, cubeIndices_ravel hbl, Option.map_some]
  have hrev : out.reverse[c.sum]? = out[n - c.sum]? := by
    rw [List.getElem?_reverse (by omega), hlen]
    congr 1
  unfold dualFormAt partValue
  rw [hrow, hrev]
  by_cases hcn : c.sum = n
  · rw [hcn, Nat.sub_self, h0]
    have hj : domOf t n r (c.map fun x => x == 1) = r.1.2 := htop (by rw [← hsum, hcn])
    have hlt : r.1.2 < d0.length := by
      have := (List.getElem?_eq_some_iff.1 (mem_cubeParts.1 hr).1).1
      omega
    simp only [if_pos, hj, List.getElem?_eq_getElem hlt, Option.getD_some]
  · obtain ⟨o, ho, rfl⟩ := hlev (n - c.sum - 1) c.sum (by omega)
    rw [show n - c.sum - 1 + 1 = n - c.sum by omega] at ho
    rw [ho, if_neg hcn]
    rw [← hsum] at he
    have hst : (t.elements[c.sum]?.getD [])[domOf t n r (c.map fun x => x == 1)]? = some e := he
    have hget : (dualLevel t.elements parents cell bcell c.sum)[domOf t n r (c.map fun x => x == 1)]? = some (mean (cell c.sum e)) := by
      cases hk : c.sum with
      | zero =>
        rw [hk] at hst
        rw [dualLevel, List.getElem?_map, hst, Option.map_some]
      | succ k =>
        rw [hk] at hst
        rw [dualLevel, List.getElem?_append_left (by simpa using (List.getElem?_eq_some_iff.1 hst).1), List.getElem?_map, hst,
          Option.map_some]
    simp only [hget, hst, Option.getD_some]

/-- the sum over the corners -/
theorem sample_part (w : CWF n cubes t) (hn : 1 ≤ n) {r : (List Nat × Nat) × List Bool} (hr : r ∈ cubeParts n cubes)
    {d0 : List K} {out : List (List K)} {parents : List (List Nat)} {cell bcell : Nat → List Nat → List K}
    (hd : cubes.length ≤ d0.length) (hlen : out.length = n + 1) (h0 : out[0]? = some d0)
    (hlev : ∀ d k, d + 1 + k = n → ∃ o, out[d + 1]? = some o ∧ o = dualLevel t.elements parents cell bcell k) (b : Vec K n) :
    (do
      let bary := (List.ofFn b).map clip01
      let terms ← (cubeCorners t.boundary.length).mapM fun c => do
        let x ← dualFormAt out.reverse ((cubeIndices n).map (domOf t n r)) c
        .ok (x * cornerWeight bary c)
      (.ok terms.sum : Except PyErr K)) = .ok (samplePrimal0 (partValue t n cell d0 r) (List.ofFn b)) := by
  rw [w.lenB]
  simp only
  rw [mapM_ok _ (fun c => partValue t n cell d0 r c * cornerWeight ((List.ofFn b).map clip01) c), regular_bind]
  · unfold samplePrimal0
    simp
  · intro c hc
    rw [dualFormAt_part w hn hr hd hlen h0 hlev hc]
    rfl

/-- the mean of values between bounds -/
theorem mean_between {L : List K} {a b : K} (hL : L ≠ []) (h : ∀ y ∈ L, a ≤ y ∧ y ≤ b) : a ≤ mean L ∧ mean L ≤ b := by
  have hpos : (0 : K) < (L.length : K) := by
    have := List.length_pos_of_ne_nil hL
    exact_mod_cast this
  have h1 : ∀ L : List K, (∀ y ∈ L, a ≤ y ∧ y ≤ b) → (L.length : K) * a ≤ L.sum ∧ L.sum ≤ L.length * b := by
    intro L
    induction L with
    | nil => simp
    | cons x L ih =>
      intro h
      obtain ⟨i1, i2⟩ := ih fun y hy => h y (List.mem_cons_of_mem _ hy)
      obtain ⟨x1, x2⟩ := h x List.mem_cons_self
      rw [List.sum_cons, List.length_cons]
      push_cast
      constructor <;> linarith
  obtain ⟨h2, h3⟩ := h1 L h
  unfold mean
  constructor
  · rw [le_div_iff₀ hpos]; linarith
  · rw [div_le_iff₀ hpos]; linarith

/-- the cubes around a face are around its corners -/
theorem cubesAround_corner {k : Nat} (hk : k ≤ n) (hlen : ∀ l ∈ cubes, l.length = 2 ^ n) (hnd : ∀ l ∈ cubes, l.Nodup) {e : List Nat}
    (hel : e.length = 2 ^ k) {v j : Nat} (hv : v ∈ e) (hj : j ∈ cubesAround n k cubes e) : j ∈ cubesAround n 0 cubes [v] := by
  unfold cubesAround at hj ⊢
  rw [List.mem_filter, List.mem_range] at hj ⊢
  obtain ⟨h1, h2⟩ := hj
  refine ⟨h1, ?_⟩
  have hm := List.getElem_mem h1
  rw [List.getElem?_eq_getElem h1, Option.getD_some] at h2 ⊢
  rw [hasFace_iff hel (by rw [hlen _ hm]; congr 1; omega) (hnd _ hm), show k + (n - k) = n by omega] at h2
  rw [hasFace_iff (k := 0) (by simp) (by rw [hlen _ hm]; congr 1; omega) (hnd _ hm), show 0 + (n - 0) = n by omega,
    faceOf_vertex (hlen _ hm)]
  exact h2.subset (hlen _ hm) v hv

end Verif
