/-
C17, C18: decoding vertex numbers of a subdivision; splitting quads into triangles.
-/
import Verif.Model.CubicalSub
import Verif.Spec.Quads
import Verif.Props.LoopTransfer

namespace Verif.Props

open Verif.Model Verif.Spec

/-! ### C17 -/

theorem cumsum_getElem? : ∀ (l : List Nat) (acc i : Nat), i < l.length →
    (cumsum acc l)[i]? = some (acc + (l.take (i + 1)).sum) := by
  intro l
  induction l with
  | nil => intro acc i h; simp at h
  | cons a t ih =>
    intro acc i h
    cases i with
    | zero => simp [cumsum]
    | succ i =>
      simp only [cumsum, List.getElem?_cons_succ]
      rw [ih (acc + a) i (by simpa using h)]
      simp [Nat.add_assoc]

theorem cumsum_length (l : List Nat) : ∀ acc, (cumsum acc l).length = l.length := by
  induction l with
  | nil => intro _; rfl
  | cons a t ih => intro acc; simp [cumsum, ih]

theorem take_sum_mono (l : List Nat) {a b : Nat} (h : a ≤ b) : (l.take a).sum ≤ (l.take b).sum := by
  have h1 := List.take_append_drop a (l.take b)
  rw [List.take_take, Nat.min_eq_left h] at h1
  rw [← h1, List.sum_append]
  omega

/-- the decoded level is the number of complete levels below -/
theorem relation_level (N : List Nat) (v : Nat) :
    (cubicalRelation N v).1 = (List.range N.length).countP fun i => (N.take (i + 1)).sum ≤ v := by
  unfold cubicalRelation
  simp only [cumsum, Nat.add_zero, List.drop_succ_cons, List.drop_zero]
  have : cumsum 0 N = (List.range N.length).map fun i => (N.take (i + 1)).sum := by
    apply List.ext_getElem?
    intro i
    rcases Nat.lt_or_ge i N.length with h | h
    · rw [cumsum_getElem? N 0 i h, List.getElem?_map, List.getElem?_range h]; simp
    · rw [List.getElem?_eq_none (by rw [cumsum_length]; exact h),
        List.getElem?_eq_none (by simpa using h)]
  rw [this, List.countP_map]
  rfl

theorem relation_offset (N : List Nat) {k : Nat} (hk : k ≤ N.length) :
    (cumsum 0 (0 :: N))[k]?.getD 0 = (N.take k).sum := by
  simp only [cumsum]
  cases k with
  | zero => simp
  | succ k =>
    rw [List.getElem?_cons_succ, cumsum_getElem? N _ k (by omega)]
    simp

/-- C17: a vertex inserted on element number `x` of level `k` — numbered after all elements of the
lower levels — is decoded to exactly `(k, x)`, whatever the sizes of the levels are (empty levels
included). -/
theorem C17_decode_encode (N : List Nat) (k x : Nat) (n : Nat) (hk : N[k]? = some n) (hx : x < n) :
    cubicalRelation N ((N.take k).sum + x) = (k, (x : Int)) := by
  have hkl := (List.getElem?_eq_some_iff.1 hk).1
  have hlev : (cubicalRelation N ((N.take k).sum + x)).1 = k := by
    rw [relation_level]
    refine Eq.trans ?_ (countP_range_lt N.length k (by omega))
    apply List.countP_congr
    intro i hi
    simp only [decide_eq_true_eq]
    constructor
    · intro h
      by_contra hge
      have h1 := take_sum_mono N (show k + 1 ≤ i + 1 by omega)
      have h2 : (N.take (k + 1)).sum = (N.take k).sum + n := by
        rw [List.take_add_one, hk]; simp
      omega
    · intro h
      have h1 := take_sum_mono N (show i + 1 ≤ k by omega)
      omega
  refine Prod.ext hlev ?_
  have : (cubicalRelation N ((N.take k).sum + x)).2 = (((N.take k).sum + x : Nat) : Int) -
      ((cumsum 0 (0 :: N))[(cubicalRelation N ((N.take k).sum + x)).1]?.getD 0 : Nat) := rfl
  rw [this, hlev, relation_offset N (by omega)]
  push_cast
  ring

/-- C17: conversely every vertex number in range is decoded to a level and an element of that level
which it was encoded from -/
theorem C17_encode_decode (N : List Nat) (v : Nat) (hv : v < N.sum) :
    ∃ (k x n : Nat), N[k]? = some n ∧ x < n ∧ v = (N.take k).sum + x ∧
      cubicalRelation N v = (k, (x : Int)) := by
  obtain ⟨k, x, n, h1, h2, h3⟩ : ∃ (k x n : Nat), N[k]? = some n ∧ x < n ∧
      v = (N.take k).sum + x := by
    induction N generalizing v with
    | nil => simp at hv
    | cons a t ih =>
      rcases Nat.lt_or_ge v a with h | h
      · exact ⟨0, v, a, rfl, h, by simp⟩
      · obtain ⟨k, x, n, h1, h2, h3⟩ := ih (v - a) (by simp at hv; omega)
        exact ⟨k + 1, x, n, h1, h2, by simp; omega⟩
  exact ⟨k, x, n, h1, h2, h3, h3 ▸ C17_decode_encode N k x n h1 h2⟩

example : cubicalRelation [4, 0, 5, 1] 8 = (2, 4) ∧ cubicalRelation [4, 0, 5, 1] 9 = (3, 0) := by
  decide

/-! ### C18 -/

/-- a list of quads with four distinct corners each -/
def Quads (quads : List (List Nat)) : Prop := ∀ q ∈ quads, q.length = 4 ∧ q.Nodup

theorem length_four {l : List Nat} (h : l.length = 4) : ∃ a b c d, l = [a, b, c, d] := by
  match l, h with
  | [a, b, c, d], _ => exact ⟨a, b, c, d, rfl⟩

/-- C18: the four triangles of a quad have the boundary loop of the quad as their boundary; the
four edges to the centre cancel -/
theorem C18_boundary (a b c d m : Nat) (e : List Nat) :
    ((quadTriangles [a, b, c, d] m).map (inducedSign e)).sum = quadSign e [a, b, c, d] := by
  simp only [quadTriangles, quadSign, quadLoop, List.map_cons, List.map_nil, List.sum_cons,
    List.sum_nil, inducedSign_three]
  simp only [List.getElem?_cons_zero, List.getElem?_cons_succ, Option.getD_some, Nat.mul_zero,
    Nat.zero_add, Nat.add_zero, Nat.mul_one, Nat.reduceAdd]
  ring

theorem quadTriangles_eq (a b c d m : Nat) : quadTriangles [a, b, c, d] m =
    [[a, b, m], [d, c, m], [c, a, m], [b, d, m]] := rfl

section

variable {quads : List (List Nat)} {V : Nat}

theorem quad_row (I : Nat) (r : List Nat) :
    (quadRows V quads)[I]? = some r ↔
      ∃ q, quads[I / 4]? = some q ∧ (quadTriangles q (I / 4 + V))[I % 4]? = some r := by
  unfold quadRows
  rw [flatten_uniform (m := 4) (by omega) _ (by
    intro L hL
    obtain ⟨i, hi, rfl⟩ := List.mem_mapIdx.1 hL
    rfl), List.getElem?_mapIdx]
  cases quads[I / 4]? <;> simp

/-- a triangle of a quad: the loop edge number `i` (in the order of the code) and the centre -/
theorem quad_tri {q : List Nat} (hq : q.length = 4) {i m : Nat} {r : List Nat}
    (h : (quadTriangles q m)[i]? = some r) :
    i < 4 ∧ ∃ x y, r = [x, y, m] ∧ [x, y] ∈ quadLoop q ∧ x ∈ q ∧ y ∈ q := by
  obtain ⟨a, b, c, d, rfl⟩ := length_four hq
  rcases i with _ | _ | _ | _ | i
  · exact ⟨by omega, a, b, (Option.some.inj h).symm, by simp [quadLoop], by simp, by simp⟩
  · exact ⟨by omega, d, c, (Option.some.inj h).symm, by simp [quadLoop], by simp, by simp⟩
  · exact ⟨by omega, c, a, (Option.some.inj h).symm, by simp [quadLoop], by simp, by simp⟩
  · exact ⟨by omega, b, d, (Option.some.inj h).symm, by simp [quadLoop], by simp, by simp⟩
  · simp [quadTriangles] at h

theorem quad_simplices (hq : Quads quads) (hV : ∀ q ∈ quads, ∀ v ∈ q, v < V) :
    Simplices 3 (quadRows V quads) := by
  intro r hr
  obtain ⟨I, hI⟩ := List.mem_iff_getElem?.1 hr
  obtain ⟨q, hqI, hr'⟩ := (quad_row I r).1 hI
  have hqm := List.mem_of_getElem? hqI
  obtain ⟨a, b, c, d, rfl⟩ := length_four (hq q hqm).1
  have hn := (hq _ hqm).2
  have hv := hV _ hqm
  simp only [List.mem_cons, List.not_mem_nil, or_false, forall_eq_or_imp, forall_eq] at hv
  simp only [List.nodup_cons, List.mem_cons, List.not_mem_nil, or_false, not_or] at hn
  have h4 : I % 4 < 4 := by omega
  generalize I / 4 = j at hr'
  have : I % 4 = 0 ∨ I % 4 = 1 ∨ I % 4 = 2 ∨ I % 4 = 3 := by omega
  rcases this with h | h | h | h <;> rw [h] at hr' <;>
    obtain rfl := Option.some.inj hr' <;> refine ⟨rfl, ?_⟩ <;>
    simp <;> omega

/-- inner edges: the centre and a corner -/
theorem quad_used (hq : Quads quads) (hV : ∀ v, (∃ q ∈ quads, v ∈ q) ↔ v < V) (v : Nat) :
    (∃ r ∈ quadRows V quads, v ∈ r) ↔ v < V + quads.length := by
  have hmemrow : ∀ (j i : Nat) (q r : List Nat), quads[j]? = some q → i < 4 →
      (quadTriangles q (j + V))[i]? = some r → r ∈ quadRows V quads := by
    intro j i q r hj hi hr
    refine List.mem_of_getElem? (i := 4 * j + i) ((quad_row _ _).2 ⟨q, ?_, ?_⟩)
    · rw [show (4 * j + i) / 4 = j by omega]; exact hj
    · rw [show (4 * j + i) / 4 = j by omega, show (4 * j + i) % 4 = i by omega]; exact hr
  constructor
  · rintro ⟨r, hr, hv⟩
    obtain ⟨I, hI⟩ := List.mem_iff_getElem?.1 hr
    obtain ⟨q, hqI, hr'⟩ := (quad_row I r).1 hI
    have hqm := List.mem_of_getElem? hqI
    obtain ⟨-, x, y, rfl, -, hx, hy⟩ := quad_tri (hq q hqm).1 hr'
    have h1 := (hV x).1 ⟨q, hqm, hx⟩
    have h2 := (hV y).1 ⟨q, hqm, hy⟩
    have h3 := (List.getElem?_eq_some_iff.1 hqI).1
    simp at hv
    omega
  · intro hv
    rcases Nat.lt_or_ge v V with h | h
    · obtain ⟨q, hqm, hvq⟩ := (hV v).2 h
      obtain ⟨j, hj⟩ := List.mem_iff_getElem?.1 hqm
      obtain ⟨a, b, c, d, rfl⟩ := length_four (hq q hqm).1
      simp only [List.mem_cons, List.not_mem_nil, or_false] at hvq
      rcases hvq with rfl | rfl | rfl | rfl
      · exact ⟨_, hmemrow j 0 _ _ hj (by omega) rfl, by simp⟩
      · exact ⟨_, hmemrow j 0 _ _ hj (by omega) rfl, by simp⟩
      · exact ⟨_, hmemrow j 1 _ _ hj (by omega) rfl, by simp⟩
      · exact ⟨_, hmemrow j 1 _ _ hj (by omega) rfl, by simp⟩
    · obtain ⟨j, rfl⟩ : ∃ j, v = j + V := ⟨v - V, by omega⟩
      have hj := List.getElem?_eq_getElem (l := quads) (i := j) (by omega)
      exact ⟨_, hmemrow j 0 _ _ hj (by omega) rfl, by simp⟩

/-- in a quad with distinct corners every side belongs to one triangle only -/
theorem side_unique {q : List Nat} (hl : q.length = 4) (hn : q.Nodup) {m i i' : Nat}
    {r r' e : List Nat} (hm : m ∉ q) (h : (quadTriangles q m)[i]? = some r)
    (h' : (quadTriangles q m)[i']? = some r') (he : IsFace e r) (he' : IsFace e r') (hme : m ∉ e) :
    i = i' := by
  obtain ⟨a, b, c, d, rfl⟩ := length_four hl
  simp only [List.nodup_cons, List.mem_cons, List.not_mem_nil, or_false, not_or] at hn hm
  have key : ∀ {i : Nat} {r : List Nat}, (quadTriangles [a, b, c, d] m)[i]? = some r →
      IsFace e r → (i = 0 ∧ e.Perm [a, b]) ∨ (i = 1 ∧ e.Perm [d, c]) ∨ (i = 2 ∧ e.Perm [c, a]) ∨
        (i = 3 ∧ e.Perm [b, d]) := by
    intro i r h he
    have hx : ∀ x y, IsFace e [x, y, m] → e.Perm [x, y] := by
      intro x y h
      rcases isFace_three.1 h with h | h | h
      · exact absurd (h.mem_iff.2 (by simp)) hme
      · exact absurd (h.mem_iff.2 (by simp)) hme
      · exact h
    rcases i with _ | _ | _ | _ | i
    · obtain rfl := Option.some.inj h; exact Or.inl ⟨rfl, hx _ _ he⟩
    · obtain rfl := Option.some.inj h; exact Or.inr (Or.inl ⟨rfl, hx _ _ he⟩)
    · obtain rfl := Option.some.inj h; exact Or.inr (Or.inr (Or.inl ⟨rfl, hx _ _ he⟩))
    · obtain rfl := Option.some.inj h; exact Or.inr (Or.inr (Or.inr ⟨rfl, hx _ _ he⟩))
    · simp [quadTriangles] at h
  have no : ∀ {x y z w : Nat}, e.Perm [x, y] → e.Perm [z, w] →
      (x = z ∧ y = w) ∨ (x = w ∧ y = z) := fun h1 h2 => perm_pair.1 (h1.symm.trans h2)
  rcases key h he with ⟨rfl, h1⟩ | ⟨rfl, h1⟩ | ⟨rfl, h1⟩ | ⟨rfl, h1⟩ <;>
    rcases key h' he' with ⟨rfl, h2⟩ | ⟨rfl, h2⟩ | ⟨rfl, h2⟩ | ⟨rfl, h2⟩ <;>
    first
      | rfl
      | (exfalso; have := no h1 h2; omega)

/-- a triangle is a side of its quad with the sign of the quad -/
theorem side_sign {q : List Nat} (hl : q.length = 4) (hn : q.Nodup) {m i : Nat}
    {r e : List Nat} (hm : m ∉ q) (h : (quadTriangles q m)[i]? = some r) (he : IsFace e r)
    (hme : m ∉ e) : IsSide e q ∧ inducedSign e r = quadSign e q := by
  have hside : IsSide e q := by
    obtain ⟨-, x, y, rfl, h1, -, -⟩ := quad_tri hl h
    refine ⟨[x, y], h1, ?_⟩
    rcases isFace_three.1 he with h | h | h
    · exact absurd (h.mem_iff.2 (by simp)) hme
    · exact absurd (h.mem_iff.2 (by simp)) hme
    · exact h
  refine ⟨hside, ?_⟩
  have hq4 : q.length = 4 := hl
  obtain ⟨a, b, c, d, rfl⟩ := length_four hl
  rw [← C18_boundary a b c d m e]
  have hz : ∀ (k : Nat) (r' : List Nat), (quadTriangles [a, b, c, d] m)[k]? = some r' → k ≠ i →
      inducedSign e r' = 0 := by
    intro k r' hk hne
    by_contra h0
    have : IsFace e r' := by
      by_contra hf
      apply h0
      rw [inducedSign_eq_cob]
      exact cob_relSign_not_face (fun c hc hp => hf ⟨c, hc, hp⟩)
    exact hne (side_unique hq4 hn hm hk h this he hme)
  have e4 : ((quadTriangles [a, b, c, d] m).map (inducedSign e)).sum =
      inducedSign e [a, b, m] + inducedSign e [d, c, m] + inducedSign e [c, a, m] +
        inducedSign e [b, d, m] := by
    simp [quadTriangles]; ring
  rw [e4]
  have z0 := hz 0 [a, b, m] rfl
  have z1 := hz 1 [d, c, m] rfl
  have z2 := hz 2 [c, a, m] rfl
  have z3 := hz 3 [b, d, m] rfl
  rw [quadTriangles_eq] at h
  rcases i with _ | _ | _ | _ | i
  · obtain rfl := Option.some.inj h
    rw [z1 (by omega), z2 (by omega), z3 (by omega)]; ring
  · obtain rfl := Option.some.inj h
    rw [z0 (by omega), z2 (by omega), z3 (by omega)]; ring
  · obtain rfl := Option.some.inj h
    rw [z1 (by omega), z0 (by omega), z3 (by omega)]; ring
  · obtain rfl := Option.some.inj h
    rw [z1 (by omega), z2 (by omega), z0 (by omega)]; ring
  · simp [quadTriangles] at h

/-- a side of a quad is an edge of one of its triangles -/
theorem side_tri {q : List Nat} (hl : q.length = 4) (m : Nat) {e : List Nat} (h : IsSide e q) :
    ∃ i r, i < 4 ∧ (quadTriangles q m)[i]? = some r ∧ IsFace e r := by
  obtain ⟨a, b, c, d, rfl⟩ := length_four hl
  obtain ⟨s, hs, hp⟩ := h
  simp only [quadLoop, List.mem_cons, List.not_mem_nil, or_false] at hs
  have hf : ∀ x y, e.Perm [x, y] → IsFace e [x, y, m] :=
    fun x y h => isFace_three.2 (Or.inr (Or.inr h))
  rcases hs with rfl | rfl | rfl | rfl
  · exact ⟨0, _, by omega, rfl, hf _ _ hp⟩
  · exact ⟨3, _, by omega, rfl, hf _ _ hp⟩
  · exact ⟨1, _, by omega, rfl, hf _ _ hp⟩
  · exact ⟨2, _, by omega, rfl, hf _ _ hp⟩

/-- edges to the centre: two triangles of the same quad, opposite signs -/
theorem centre_edges {a b c d m i1 i2 : Nat} (hn : [a, b, c, d].Nodup) (hm : m ∉ [a, b, c, d])
    {r1 r2 e : List Nat} (h1 : (quadTriangles [a, b, c, d] m)[i1]? = some r1)
    (h2 : (quadTriangles [a, b, c, d] m)[i2]? = some r2) (hne : i1 ≠ i2)
    (f1 : IsFace e r1) (f2 : IsFace e r2) (hme : m ∈ e) :
    inducedSign e r1 + inducedSign e r2 = 0 := by
  simp only [List.nodup_cons, List.mem_cons, List.not_mem_nil, or_false, not_or] at hn hm
  -- `e` is `[x, m]` up to order
  obtain ⟨x, hx⟩ : ∃ x, e.Perm [x, m] ∧ x ≠ m := by
    obtain ⟨-, y, z, rfl, -, hy, hz⟩ := quad_tri (q := [a, b, c, d]) rfl h1
    simp only [List.mem_cons, List.not_mem_nil, or_false] at hy hz
    rcases isFace_three.1 f1 with h | h | h
    · exact ⟨z, h, by omega⟩
    · exact ⟨y, h, by omega⟩
    · have := h.mem_iff.1 hme
      simp at this
      omega
  have hen : e.Nodup := hx.1.nodup_iff.2 (by simpa using hx.2)
  have tri : ∀ {y z : Nat}, IsFace e [y, z, m] → y ≠ z → y ≠ m → z ≠ m →
      (x = y ∧ inducedSign [x, m] [y, z, m] = -1) ∨ (x = z ∧ inducedSign [x, m] [y, z, m] = 1) := by
    intro y z hf hyz hym hzm
    rcases isFace_three.1 hf with h | h | h
    · right
      have : x = z := by
        rcases perm_pair.1 (hx.1.symm.trans h) with ⟨p, q⟩ | ⟨p, q⟩ <;> omega
      subst this
      refine ⟨rfl, ?_⟩
      rw [inducedSign_rot]
      exact inducedSign_fwd (by omega) (by omega) (by omega)
    · left
      have : x = y := by
        rcases perm_pair.1 (hx.1.symm.trans h) with ⟨p, q⟩ | ⟨p, q⟩ <;> omega
      subst this
      exact ⟨rfl, inducedSign_bwd (by omega) (by omega) (by omega)⟩
    · exfalso
      have := h.mem_iff.1 hme
      simp at this
      omega
  have key : ∀ {i : Nat} {r : List Nat}, (quadTriangles [a, b, c, d] m)[i]? = some r →
      IsFace e r → r.Nodup ∧ ((i = 0 ∧ ((x = a ∧ inducedSign [x, m] r = -1) ∨
          (x = b ∧ inducedSign [x, m] r = 1))) ∨
        (i = 1 ∧ ((x = d ∧ inducedSign [x, m] r = -1) ∨ (x = c ∧ inducedSign [x, m] r = 1))) ∨
        (i = 2 ∧ ((x = c ∧ inducedSign [x, m] r = -1) ∨ (x = a ∧ inducedSign [x, m] r = 1))) ∨
        (i = 3 ∧ ((x = b ∧ inducedSign [x, m] r = -1) ∨ (x = d ∧ inducedSign [x, m] r = 1)))) := by
    intro i r h hf
    rw [quadTriangles_eq] at h
    rcases i with _ | _ | _ | _ | i
    · obtain rfl := Option.some.inj h
      exact ⟨by simp; omega, Or.inl ⟨rfl, tri hf (by omega) (by omega) (by omega)⟩⟩
    · obtain rfl := Option.some.inj h
      exact ⟨by simp; omega, Or.inr (Or.inl ⟨rfl, tri hf (by omega) (by omega) (by omega)⟩)⟩
    · obtain rfl := Option.some.inj h
      exact ⟨by simp; omega, Or.inr (Or.inr (Or.inl ⟨rfl, tri hf (by omega) (by omega) (by omega)⟩))⟩
    · obtain rfl := Option.some.inj h
      exact ⟨by simp; omega, Or.inr (Or.inr (Or.inr ⟨rfl, tri hf (by omega) (by omega) (by omega)⟩))⟩
    · simp [quadTriangles] at h
  obtain ⟨n1, k1⟩ := key h1 f1
  obtain ⟨n2, k2⟩ := key h2 f2
  refine perm_sum_zero hx.1 hen n1 n2 ?_
  omega

/-- C18: coherently oriented quads give coherently oriented triangles -/
theorem C18_coherent (hq : Quads quads) (hV : ∀ v, (∃ q ∈ quads, v ∈ q) ↔ v < V)
    (hco : CoherentQuads quads) : Coherent (quadRows V quads) := by
  intro e J1 J2 r1 r2 g1 g2 ⟨hne, hb1, hb2, hsh⟩
  have f1 : IsFace e r1 := (hsh J1 r1 g1).2 (Or.inl rfl)
  have f2 : IsFace e r2 := (hsh J2 r2 g2).2 (Or.inr rfl)
  obtain ⟨q1, hq1, k1⟩ := (quad_row J1 r1).1 g1
  obtain ⟨q2, hq2, k2⟩ := (quad_row J2 r2).1 g2
  have m1 := List.mem_of_getElem? hq1
  have m2 := List.mem_of_getElem? hq2
  have hlt : ∀ q ∈ quads, ∀ v ∈ q, v < V := fun q hqm v hv => (hV v).1 ⟨q, hqm, hv⟩
  have c1 : J1 / 4 + V ∉ q1 := fun h => by have := hlt _ m1 _ h; omega
  have c2 : J2 / 4 + V ∉ q2 := fun h => by have := hlt _ m2 _ h; omega
  -- corners of an edge of a triangle of quad `j`
  have corner : ∀ {J : Nat} {q r : List Nat}, quads[J / 4]? = some q →
      (quadTriangles q (J / 4 + V))[J % 4]? = some r → IsFace e r → ∀ x ∈ e,
      x < V ∨ x = J / 4 + V := by
    intro J q r hqJ hk hf x hx
    have hqm := List.mem_of_getElem? hqJ
    obtain ⟨-, y, z, rfl, -, hy, hz⟩ := quad_tri (hq q hqm).1 hk
    obtain ⟨c, -, hp⟩ := hf
    have := (List.eraseIdx_sublist _ _).subset (hp.mem_iff.1 hx)
    simp only [List.mem_cons, List.not_mem_nil, or_false] at this
    rcases this with rfl | rfl | rfl
    · exact Or.inl (hlt _ hqm _ hy)
    · exact Or.inl (hlt _ hqm _ hz)
    · exact Or.inr rfl
  by_cases hin : J1 / 4 + V ∈ e
  · -- an inner edge
    have hj : J1 / 4 = J2 / 4 := by
      rcases corner hq2 k2 f2 _ hin with h | h <;> omega
    rw [← hj] at hq2 k2
    rw [hq1] at hq2
    obtain rfl := Option.some.inj hq2
    obtain ⟨a, b, c, d, rfl⟩ := length_four (hq _ m1).1
    exact centre_edges (hq _ m1).2 c1 k1 k2 (by omega) f1 f2 hin
  · have hin2 : J2 / 4 + V ∉ e := by
      intro h
      rcases corner hq1 k1 f1 _ h with h' | h'
      · omega
      · have : J2 / 4 = J1 / 4 := by omega
        rw [this] at h; exact hin h
    obtain ⟨s1, e1⟩ := side_sign (hq _ m1).1 (hq _ m1).2 c1 k1 f1 hin
    obtain ⟨s2, e2⟩ := side_sign (hq _ m2).1 (hq _ m2).2 c2 k2 f2 hin2
    rw [e1, e2]
    have hjne : J1 / 4 ≠ J2 / 4 := by
      intro h
      rw [← h] at hq2 k2
      rw [hq1] at hq2
      obtain rfl := Option.some.inj hq2
      have := side_unique (hq _ m1).1 (hq _ m1).2 c1 k1 k2 f1 f2 hin
      omega
    refine hco e (J1 / 4) (J2 / 4) q1 q2 hq1 hq2 hjne ?_
    intro j q hjq
    have hqm := List.mem_of_getElem? hjq
    constructor
    · intro hside
      obtain ⟨i, r, hi, hr, hf⟩ := side_tri (hq _ hqm).1 (j + V) hside
      have hrow : (quadRows V quads)[4 * j + i]? = some r := by
        refine (quad_row _ _).2 ⟨q, ?_, ?_⟩
        · rw [show (4 * j + i) / 4 = j by omega]; exact hjq
        · rw [show (4 * j + i) / 4 = j by omega, show (4 * j + i) % 4 = i by omega]; exact hr
      rcases (hsh _ _ hrow).1 hf with h | h <;> omega
    · rintro (rfl | rfl)
      · rw [hq1] at hjq; obtain rfl := Option.some.inj hjq; exact s1
      · rw [hq2] at hjq; obtain rfl := Option.some.inj hjq; exact s2

/-- C18: for every list of quads with distinct corners whose vertices are `0..V-1`, splitting
succeeds; there are four triangles per quad, on the old vertices and one new vertex per quad;
triangle number `i` is made of two corners of quad `i / 4` and the vertex of that quad, which is the
column of the transfer matrix; and orientation is preserved -/
theorem C18_split {uniq : List (List Nat) → List (List Nat)} (hu : UniqSpec uniq)
    (hq : Quads quads) (hV : ∀ v, (∃ q ∈ quads, v ∈ q) ↔ v < V) :
    ∃ t rows, quadSubdivide uniq V quads = .ok t ∧ t.elements[2]? = some rows ∧
      Simplices 3 rows ∧ rows.length = 4 * quads.length ∧
      t.nElements 0 = V + quads.length ∧
      (∀ p ∈ quadTransfer rows.length, ∃ q x y, quads[p.2]? = some q ∧
        rows[p.1]? = some [x, y, V + p.2] ∧ x ∈ q ∧ y ∈ q) ∧
      (quadTransfer rows.length).map Prod.fst = List.range rows.length ∧
      (CoherentQuads quads → Coherent rows) := by
  have hlt : ∀ q ∈ quads, ∀ v ∈ q, v < V := fun q hqm v hv => (hV v).1 ⟨q, hqm, hv⟩
  have hs := quad_simplices hq hlt
  obtain ⟨t, ht⟩ := (C03_accepts_iff (nCorners := 1) hu hs).2 ⟨_, quad_used hq hV⟩
  obtain ⟨n, hn, -, wf⟩ := wf_of_ok hu hs ht
  obtain rfl : n = 2 := by omega
  have hlen : (quadRows V quads).length = 4 * quads.length := by
    unfold quadRows
    rw [List.length_flatten]
    have : (quads.mapIdx fun q quad => quadTriangles quad (q + V)).map List.length =
        List.replicate quads.length 4 := by
      apply List.ext_getElem?
      intro i
      rw [List.getElem?_map, List.getElem?_mapIdx]
      rcases Nat.lt_or_ge i quads.length with h | h
      · rw [List.getElem?_eq_getElem h, List.getElem?_replicate_of_lt h]; rfl
      · rw [List.getElem?_eq_none h, List.getElem?_eq_none (by simpa using h)]; rfl
    rw [this, List.sum_replicate, smul_eq_mul, Nat.mul_comm]
  refine ⟨t, _, ht, wf.top_eq, hs, hlen, wf.nVertices_eq (n := 1) hs (quad_used hq hV), ?_, ?_,
    C18_coherent hq hV⟩
  · intro p hp
    obtain ⟨i, hi, rfl⟩ := List.mem_map.1 hp
    have hi := List.mem_range.1 hi
    have hg := List.getElem?_eq_getElem hi
    obtain ⟨q, h1, h2⟩ := (quad_row i _).1 hg
    obtain ⟨-, x, y, h3, -, hx, hy⟩ := quad_tri (hq q (List.mem_of_getElem? h1)).1 h2
    exact ⟨q, x, y, h1, by rw [hg, h3, Nat.add_comm], hx, hy⟩
  · unfold quadTransfer
    rw [List.map_map]
    exact List.map_id _

end

example : Quads [[0, 1, 2, 3], [1, 4, 3, 5]] ∧
    (∀ v, (∃ q ∈ [[0, 1, 2, 3], [1, 4, 3, 5]], v ∈ q) ↔ v < 6) := by
  constructor
  · intro q hq
    simp only [List.mem_cons, List.not_mem_nil, or_false] at hq
    rcases hq with rfl | rfl <;> decide
  · intro v; simp; omega

/-- the two quads `[0, 1, 2, 3]`, `[1, 4, 3, 5]` side by side run through the common side `1 3` in
opposite directions -/
example : quadSign [1, 3] [0, 1, 2, 3] = 1 ∧ quadSign [1, 3] [1, 4, 3, 5] = -1 ∧
    quadRows 6 [[0, 1, 2, 3], [1, 4, 3, 5]] =
      [[0, 1, 6], [3, 2, 6], [2, 0, 6], [1, 3, 6], [1, 4, 7], [5, 3, 7], [3, 1, 7], [4, 5, 7]] := by
  decide +kernel

end Verif.Props
