/-
C47, C54: enclosed volume of triangle meshes, triangle normals and vertex normals.
-/
import Verif.Model.Triangles
import Verif.Spec.Triangles
import Verif.Props.Boundary
import Verif.Lemmas.Loop
import Mathlib.LinearAlgebra.Matrix.Determinant.Basic
import Mathlib.Tactic.LinearCombination
import Mathlib.Tactic.FieldSimp
import Mathlib.Algebra.Order.Ring.Rat

set_option linter.unusedSectionVars false

namespace Verif.Props

open Verif.Model Verif.Spec

section

variable {K : Type} [Field K] {d : Nat}

/-- the position of a vertex -/
def pos (V : List (Vec K d)) (i : Nat) : Vec K d := V[i]?.getD 0

/-- a triangle mesh: three different corners in every row, with positions for all of them -/
structure Mesh (V : List (Vec K d)) (T : List (List Nat)) : Prop where
  simplices : Simplices 3 T
  inRange : ∀ l ∈ T, ∀ i ∈ l, i < V.length

theorem vertexAt_ok {V : List (Vec K d)} {i : Nat} (h : i < V.length) :
    vertexAt V i = .ok (pos V i) := by
  simp [vertexAt, pos, h]

/-- a function of the corners of a triangle -/
def onTriangle {α : Type} [Zero α] (f : Nat → Nat → Nat → α) : List Nat → α
  | [a, b, c] => f a b c
  | _ => 0

theorem triple {l : List Nat} (h : l.length = 3) : ∃ a b c, l = [a, b, c] := by
  match l, h with
  | [a, b, c], _ => exact ⟨a, b, c, rfl⟩

theorem normals_ok {V : List (Vec K 3)} {T : List (List Nat)} (h : Mesh V T) :
    triangleNormals V T = .ok (T.map (onTriangle fun a b c =>
      cross (pos V b - pos V a) (pos V c - pos V b))) := by
  refine mapM_ok _ _ _ fun l hl => ?_
  obtain ⟨a, b, c, rfl⟩ := triple (h.simplices l hl).1
  have hr := h.inRange _ hl
  simp only [cornersAt, vertexAt_ok (hr a (by simp)), vertexAt_ok (hr b (by simp)),
    vertexAt_ok (hr c (by simp)), bind, Except.bind, onTriangle]

theorem centroids_ok {V : List (Vec K d)} {T : List (List Nat)} (h : Mesh V T) :
    triangleCentroids V T = .ok (T.map (onTriangle fun a b c => fun i =>
      (pos V a i + pos V b i + pos V c i) / 3)) := by
  refine mapM_ok _ _ _ fun l hl => ?_
  obtain ⟨a, b, c, rfl⟩ := triple (h.simplices l hl).1
  have hr := h.inRange _ hl
  simp only [cornersAt, vertexAt_ok (hr a (by simp)), vertexAt_ok (hr b (by simp)),
    vertexAt_ok (hr c (by simp)), bind, Except.bind, onTriangle]

theorem sum_onTriangle {α : Type} [AddCommMonoid α] (f : Nat → Nat → α) {T : List (List Nat)}
    (hT : Simplices 3 T) : (T.map (onTriangle fun a b c => f a b + f b c + f c a)).sum =
      ((directedEdges T).map fun e => f e.1 e.2).sum := by
  induction T with
  | nil => rfl
  | cons l T ih =>
    obtain ⟨a, b, c, rfl⟩ := triple (hT l (by simp)).1
    have := ih fun l hl => hT l (by simp [hl])
    simp only [directedEdges, List.flatMap_cons, List.map_append, List.sum_append, List.map_cons,
      List.sum_cons] at this ⊢
    rw [this]
    simp [onTriangle, triangleEdges, add_assoc]

/-- on a closed surface, what changes sign with the direction of an edge adds up to zero -/
theorem sum_closed {α : Type} [AddCommGroup α] (h2 : ∀ a : α, a + a = 0 → a = 0)
    (f : Nat → Nat → α) (hf : ∀ a b, f b a = - f a b) {T : List (List Nat)} (hT : Simplices 3 T)
    (hc : ClosedSurface T) :
    (T.map (onTriangle fun a b c => f a b + f b c + f c a)).sum = 0 := by
  rw [sum_onTriangle f hT]
  have hperm : (directedEdges T).Perm ((directedEdges T).map Prod.swap) := by
    rw [List.perm_iff_count]
    rintro ⟨a, b⟩
    rw [hc a b]
    exact (List.count_map_of_injective (directedEdges T) Prod.swap Prod.swap_injective (b, a)).symm
  apply h2
  have h1 := (hperm.map fun e => f e.1 e.2).sum_eq
  rw [List.map_map] at h1
  nth_rw 2 [h1]
  rw [← List.sum_map_add]
  have : ∀ e ∈ directedEdges T, f e.1 e.2 + ((fun e => f e.1 e.2) ∘ Prod.swap) e = (fun _ => 0) e :=
    fun e _ => by simp [hf e.1 e.2]
  rw [List.map_congr_left this]
  simp

theorem vec_two [CharZero K] (a : Vec K d) (h : a + a = 0) : a = 0 := by
  funext i
  have h1 : a i + a i = 0 := congrFun h i
  have h2 : (2 : K) * a i = 0 := by rw [two_mul]; exact h1
  exact (mul_eq_zero.mp h2).resolve_left two_ne_zero

theorem num_two [CharZero K] (a : K) (h : a + a = 0) : a = 0 := by
  have h2 : (2 : K) * a = 0 := by rw [two_mul]; exact h
  exact (mul_eq_zero.mp h2).resolve_left two_ne_zero

theorem cross_edges (a b c : Vec K 3) :
    cross (b - a) (c - b) = cross a b + cross b c + cross c a := by
  funext i
  fin_cases i <;> simp [cross] <;> ring

theorem cross_neg (a b : Vec K 3) : cross b a = - cross a b := by
  funext i
  fin_cases i <;> simp [cross] <;> ring

theorem dot_add (u v w : Vec K d) : dot u (v + w) = dot u v + dot u w := by
  simp [dot, mul_add, Finset.sum_add_distrib]

theorem add_dot (u v w : Vec K d) : dot (u + v) w = dot u w + dot v w := by
  simp [dot, add_mul, Finset.sum_add_distrib]

theorem dot_sum (L : List (Vec K d)) (w : Vec K d) :
    dot L.sum w = (L.map fun u => dot u w).sum := by
  induction L with
  | nil => simp [dot]
  | cons a L ih => rw [List.sum_cons, add_dot, ih]; rfl

theorem dot_eq_zero {u : Vec K d} (h : u = 0) (w : Vec K d) : dot u w = 0 := by
  subst h
  simp [dot]

/-- C47: the product of a triangle normal with a vector is the determinant of two edges of the
triangle and the vector -/
theorem C47_normal {V : List (Vec K 3)} {T : List (List Nat)} (h : Mesh V T) :
    ∃ ns, triangleNormals V T = .ok ns ∧ ns.length = T.length ∧
      ∀ (j : Nat) (n : Vec K 3) (a b c : Nat), ns[j]? = some n → T[j]? = some [a, b, c] →
        ∀ w, dot n w = Matrix.det (Matrix.of ![pos V b - pos V a, pos V c - pos V a, w]) := by
  refine ⟨_, normals_ok h, by simp, fun j n a b c hn ht w => ?_⟩
  rw [List.getElem?_map, ht] at hn
  simp only [Option.map_some, Option.some.injEq, onTriangle] at hn
  subst hn
  rw [Matrix.det_fin_three]
  simp [dot, Fin.sum_univ_three, cross]
  ring

/-- C47: the sum of the triangle normals of a closed surface is zero -/
theorem C47_normals_sum [CharZero K] {V : List (Vec K 3)} {T : List (List Nat)} (h : Mesh V T)
    (hc : ClosedSurface T) : ∃ ns, triangleNormals V T = .ok ns ∧ ns.sum = 0 := by
  refine ⟨_, normals_ok h, ?_⟩
  simp only [cross_edges]
  exact sum_closed vec_two (fun a b => cross (pos V a) (pos V b)) (fun a b => cross_neg _ _)
    h.simplices hc

theorem volume_ok [CharZero K] {V : List (Vec K 3)} {T : List (List Nat)} (h : Mesh V T) :
    volume V T = .ok ((T.map (onTriangle fun a b c =>
      dot (pos V a) (cross (pos V b) (pos V c)))).sum / 6) := by
  rw [volume, normals_ok h, centroids_ok h]
  simp only [bind, Except.bind]
  congr 1
  rw [List.zipWith_map, List.zipWith_self, div_div]
  congr 1
  · refine congrArg List.sum (List.map_congr_left fun l hl => ?_)
    obtain ⟨a, b, c, rfl⟩ := triple (h.simplices l hl).1
    have h3 : (3 : K) ≠ 0 := by norm_num
    simp only [onTriangle, dot, Fin.sum_univ_three, cross, Pi.sub_apply]
    simp
    field_simp
    ring
  · norm_num

/-- C47: `volume()` is the sum of the signed volumes of the tetrahedra over the triangles with their
tip at the origin -/
theorem C47_volume [CharZero K] {V : List (Vec K 3)} {T : List (List Nat)} (h : Mesh V T) :
    ∃ v, volume V T = .ok v ∧
      6 * v = (T.map (onTriangle fun a b c => Matrix.det (Matrix.of ![pos V a, pos V b, pos V c]))).sum := by
  refine ⟨_, volume_ok h, ?_⟩
  rw [mul_div_cancel₀ _ (by norm_num)]
  refine congrArg List.sum (List.map_congr_left fun l hl => ?_)
  obtain ⟨a, b, c, rfl⟩ := triple (h.simplices l hl).1
  simp only [onTriangle]
  rw [Matrix.det_fin_three]
  simp [dot, Fin.sum_univ_three, cross]
  ring

theorem mesh_map {V : List (Vec K d)} {T : List (List Nat)} (h : Mesh V T)
    (f : Vec K d → Vec K d) : Mesh (V.map f) T :=
  ⟨h.simplices, fun l hl i hi => by rw [List.length_map]; exact h.inRange l hl i hi⟩

theorem pos_map {V : List (Vec K d)} (f : Vec K d → Vec K d) {i : Nat} (h : i < V.length) :
    pos (V.map f) i = f (pos V i) := by
  simp [pos, h]

/-- C47: translating all vertices of a closed surface does not change its volume -/
theorem C47_translate [CharZero K] {V : List (Vec K 3)} {T : List (List Nat)} (h : Mesh V T)
    (hc : ClosedSurface T) (t : Vec K 3) :
    ∃ v, volume V T = .ok v ∧ volume (translate V t) T = .ok v := by
  refine ⟨_, volume_ok h, ?_⟩
  rw [translate, volume_ok (mesh_map h _)]
  congr 2
  have key := sum_closed num_two (fun a b => dot (cross (pos V a) (pos V b)) t)
    (fun a b => by rw [cross_neg]; simp [dot]) h.simplices hc
  have : ∀ l ∈ T, onTriangle (fun a b c => dot (pos (V.map (· + t)) a)
        (cross (pos (V.map (· + t)) b) (pos (V.map (· + t)) c))) l =
      onTriangle (fun a b c => dot (pos V a) (cross (pos V b) (pos V c))) l +
      onTriangle (fun a b c => dot (cross (pos V a) (pos V b)) t + dot (cross (pos V b) (pos V c)) t +
        dot (cross (pos V c) (pos V a)) t) l := by
    intro l hl
    obtain ⟨a, b, c, rfl⟩ := triple (h.simplices l hl).1
    have hr := h.inRange _ hl
    simp only [onTriangle]
    rw [pos_map _ (hr a (by simp)), pos_map _ (hr b (by simp)), pos_map _ (hr c (by simp))]
    simp [dot, Fin.sum_univ_three, cross]
    ring
  rw [List.map_congr_left this, List.sum_map_add, key, add_zero]

/-- C47: a linear map multiplies the volume of any mesh by its determinant -/
theorem C47_transform [CharZero K] {V : List (Vec K 3)} {T : List (List Nat)} (h : Mesh V T)
    (M : Fin 3 → Fin 3 → K) :
    ∃ v, volume V T = .ok v ∧ volume (transform V M) T = .ok (Matrix.det (Matrix.of M) * v) := by
  refine ⟨_, volume_ok h, ?_⟩
  rw [transform, volume_ok (mesh_map h _), ← mul_div_assoc, ← List.sum_map_mul_left]
  congr 3
  refine List.map_congr_left fun l hl => ?_
  obtain ⟨a, b, c, rfl⟩ := triple (h.simplices l hl).1
  have hr := h.inRange _ hl
  simp only [onTriangle]
  rw [pos_map _ (hr a (by simp)), pos_map _ (hr b (by simp)), pos_map _ (hr c (by simp)),
    Matrix.det_fin_three]
  simp [dot, Fin.sum_univ_three, cross]
  ring

/-- C47: after a linear map `x ↦ x M` the normals `n'` are those with `M n' = det M n`, and the
centroids are the images of the centroids -/
theorem C47_transform_normals {V : List (Vec K 3)} {T : List (List Nat)} (h : Mesh V T)
    (M : Fin 3 → Fin 3 → K) :
    ∃ ns ns' cs, triangleNormals V T = .ok ns ∧ triangleNormals (transform V M) T = .ok ns' ∧
      List.Forall₂ (fun n n' => ∀ i, ∑ j, M i j * n' j = Matrix.det (Matrix.of M) * n i) ns ns' ∧
      triangleCentroids V T = .ok cs ∧
      triangleCentroids (transform V M) T = .ok (cs.map fun c j => ∑ i, c i * M i j) := by
  refine ⟨_, _, _, normals_ok h, normals_ok (mesh_map h _), ?_, centroids_ok h, ?_⟩
  · rw [List.forall₂_map_left_iff, List.forall₂_map_right_iff, List.forall₂_same]
    intro l hl
    obtain ⟨a, b, c, rfl⟩ := triple (h.simplices l hl).1
    have hr := h.inRange _ hl
    simp only [onTriangle, transform]
    rw [pos_map _ (hr a (by simp)), pos_map _ (hr b (by simp)), pos_map _ (hr c (by simp)),
      Matrix.det_fin_three]
    intro i
    fin_cases i <;> simp [Fin.sum_univ_three, cross] <;> ring
  · rw [transform, centroids_ok (mesh_map h _), List.map_map]
    congr 1
    refine List.map_congr_left fun l hl => ?_
    obtain ⟨a, b, c, rfl⟩ := triple (h.simplices l hl).1
    have hr := h.inRange _ hl
    simp only [onTriangle, Function.comp]
    rw [pos_map _ (hr a (by simp)), pos_map _ (hr b (by simp)), pos_map _ (hr c (by simp))]
    funext j
    simp only [Fin.sum_univ_three]
    ring

/-- C47: scaling all vertices multiplies centroids, normals and volume by the first, second and third
power of the scale -/
theorem C47_scale [CharZero K] {V : List (Vec K 3)} {T : List (List Nat)} (h : Mesh V T) (s : K) :
    ∃ cs ns v, triangleCentroids V T = .ok cs ∧ triangleNormals V T = .ok ns ∧ volume V T = .ok v ∧
      triangleCentroids (scaleVertices V s) T = .ok (cs.map fun c => s • c) ∧
      triangleNormals (scaleVertices V s) T = .ok (ns.map fun n => s ^ 2 • n) ∧
      volume (scaleVertices V s) T = .ok (s ^ 3 * v) := by
  refine ⟨_, _, _, centroids_ok h, normals_ok h, volume_ok h, ?_, ?_, ?_⟩
  · rw [scaleVertices, centroids_ok (mesh_map h _), List.map_map]
    congr 1
    refine List.map_congr_left fun l hl => ?_
    obtain ⟨a, b, c, rfl⟩ := triple (h.simplices l hl).1
    have hr := h.inRange _ hl
    simp only [onTriangle, Function.comp]
    rw [pos_map _ (hr a (by simp)), pos_map _ (hr b (by simp)), pos_map _ (hr c (by simp))]
    funext j
    simp only [Pi.smul_apply, smul_eq_mul]
    ring
  · rw [scaleVertices, normals_ok (mesh_map h _), List.map_map]
    congr 1
    refine List.map_congr_left fun l hl => ?_
    obtain ⟨a, b, c, rfl⟩ := triple (h.simplices l hl).1
    have hr := h.inRange _ hl
    simp only [onTriangle, Function.comp]
    rw [pos_map _ (hr a (by simp)), pos_map _ (hr b (by simp)), pos_map _ (hr c (by simp))]
    funext j
    fin_cases j <;> simp [cross] <;> ring
  · rw [scaleVertices, volume_ok (mesh_map h _), ← mul_div_assoc, ← List.sum_map_mul_left]
    congr 3
    refine List.map_congr_left fun l hl => ?_
    obtain ⟨a, b, c, rfl⟩ := triple (h.simplices l hl).1
    have hr := h.inRange _ hl
    simp only [onTriangle]
    rw [pos_map _ (hr a (by simp)), pos_map _ (hr b (by simp)), pos_map _ (hr c (by simp))]
    simp [dot, Fin.sum_univ_three, cross]
    ring

end

/-! ### closed topologies -/

theorem relSign_pair {a b : Nat} (hab : a ≠ b) (p q : Nat) :
    relSign [a, b] [p, q] = (if (p, q) = (a, b) then 1 else 0) - if (p, q) = (b, a) then 1 else 0 := by
  by_cases h1 : (p, q) = (a, b)
  · simp only [Prod.mk.injEq] at h1
    obtain ⟨rfl, rfl⟩ := h1
    rw [relSign_pair_self hab]
    simp [hab]
  · by_cases h2 : (p, q) = (b, a)
    · simp only [Prod.mk.injEq] at h2
      obtain ⟨rfl, rfl⟩ := h2
      rw [relSign_pair_swap, relSign_pair_self hab]
      simp [Ne.symm hab]
    · rw [relSign_pair_ne, if_neg h1, if_neg h2, sub_zero]
      rintro (⟨e1, e2⟩ | ⟨e1, e2⟩)
      · exact h1 (Prod.ext e1 e2)
      · exact h2 (Prod.ext e1 e2)

theorem count_triangleEdges {a b : Nat} (hab : a ≠ b) {l : List Nat} (hl : l.length = 3) :
    ((triangleEdges l).count (a, b) : ℤ) - (triangleEdges l).count (b, a) = inducedSign [a, b] l := by
  obtain ⟨x, y, z, rfl⟩ := triple hl
  have h3 : List.range 3 = [0, 1, 2] := rfl
  simp only [inducedSign, List.length_cons, List.length_nil, zero_add, Nat.reduceAdd, h3,
    List.map_cons, List.map_nil, List.sum_cons, List.sum_nil, pow_zero, pow_one, one_mul,
    List.eraseIdx_cons_zero, List.eraseIdx_cons_succ, add_zero]
  rw [relSign_pair_swap [a, b] x z, relSign_pair hab, relSign_pair hab, relSign_pair hab]
  simp only [triangleEdges, List.count_cons, List.count_nil, beq_iff_eq, zero_add]
  push_cast
  ring

theorem inducedSign_scale {a b : Nat} {e : List Nat} (he : e.Nodup) (hp : e.Perm [a, b])
    (l : List Nat) : inducedSign [a, b] l = relSign [a, b] e * inducedSign e l := by
  rw [inducedSign, inducedSign, ← List.sum_map_mul_left]
  refine congrArg List.sum (List.map_congr_left fun c _ => ?_)
  have : relSign [a, b] (l.eraseIdx c) = relSign e (l.eraseIdx c) * relSign [a, b] e := by
    by_cases h : (l.eraseIdx c).Perm e
    · have := (alt_relSign [a, b]).eq_relSign he h
      simpa using this
    · rw [relSign_of_not_perm h, relSign_of_not_perm fun h' => h (h'.trans hp.symm), zero_mul]
  rw [this]
  ring

/-- C47: a triangle mesh that `is_oriented` accepts, the `boundary` of which is `None` and in which no
edge has three triangles, is a closed surface -/
theorem C47_closed_topology {uniq : List (List Nat) → List (List Nat)}
    {solve : List (List Int) → Option (List Int)} {t : Topo} {T : List (List Nat)} (hu : UniqSpec uniq)
    (hs : Simplices 3 T) (hsat : SatSpec solve) (h : fromSimplices uniq 3 T = .ok t)
    (h2 : AtMostTwo T) (hor : isOriented solve t = .ok true)
    (hb : boundary solve uniq t = .ok none) : ClosedSurface T := by
  have hno := (C09_closed_iff (nCorners := 0) hu hs hsat h h2 hor).2.mp hb
  have hco := C08_true_sound hu hs hsat h hor
  obtain ⟨n, hn, -, wf⟩ := wf_of_ok hu hs h
  have : n = 2 := by omega
  subst this
  intro a b
  by_cases hab : a = b
  · rw [hab]
  obtain ⟨w1, w2, w3, w4, w5⟩ := wf.get (k := 1) (by omega)
  have htop : t.elements[2]?.getD [] = T := by rw [wf.top_eq]; rfl
  rw [htop] at w2 w4 w5
  have hsum : (T.map fun l => inducedSign [a, b] l).sum = 0 := by
    by_cases hex : ∃ e ∈ t.elements[1]?.getD [], e.Perm [a, b]
    · obtain ⟨e, he, hp⟩ := hex
      obtain ⟨i, hi, rfl⟩ := List.getElem_of_mem he
      have hi' := List.getElem?_eq_getElem hi
      have hnd := (w1 _ he).2
      have hrow : rowSum t 1 i = 0 := by
        rcases wf.rowSum_coherent (by omega) hs h2 hco hi' with ⟨hb, -⟩ | ⟨-, hr⟩
        · exact absurd hb (hno _)
        · exact hr
      rw [List.map_congr_left fun l _ => inducedSign_scale hnd hp l, List.sum_map_mul_left]
      have hrs : rowSum t 1 i = - (T.map fun l => inducedSign (t.elements[1]?.getD [])[i] l).sum := by
        unfold rowSum
        rw [(wf.shape (k := 1) (by omega)).2, Topo.nElements, htop]
        have hmap : (List.range T.length).map (fun j => (t.matrix 1).entry i j) =
            T.map fun l => -1 * inducedSign (t.elements[1]?.getD [])[i] l := by
          apply List.ext_getElem
          · simp
          · intro j hj _
            have hj' : j < T.length := by simpa using hj
            simp only [List.getElem_map, List.getElem_range]
            rw [inducedSign_eq_cob]
            exact entry_eq_cob w2 w3 w5 hi' (List.getElem?_eq_getElem hj')
        rw [hmap, List.sum_map_mul_left]
        ring
      have : (T.map fun l => inducedSign (t.elements[1]?.getD [])[i] l).sum = 0 := by
        rw [hrow] at hrs
        omega
      rw [this, mul_zero]
    · apply List.sum_eq_zero
      intro z hz
      obtain ⟨l, hl, rfl⟩ := List.mem_map.mp hz
      rw [inducedSign_eq_cob]
      apply cob_relSign_not_face
      intro c hc hp
      obtain ⟨e, he, hpe⟩ := w4.1 l hl c hc
      exact hex ⟨e, he, hpe.trans hp.symm⟩
  have hcount : ∀ L : List (List Nat), Simplices 3 L →
      ((directedEdges L).count (a, b) : ℤ) - (directedEdges L).count (b, a) =
        (L.map fun l => inducedSign [a, b] l).sum := by
    intro L
    induction L with
    | nil => intro _; simp [directedEdges]
    | cons l L ih =>
      intro hL
      have := ih fun l hl => hL l (by simp [hl])
      have h1 := count_triangleEdges hab (hL l (by simp)).1
      simp only [directedEdges, List.flatMap_cons, List.count_append, List.map_cons,
        List.sum_cons] at this ⊢
      push_cast
      linarith
  have := hcount T hs
  omega

/-! ### vertex normals -/

section

variable {K : Type} [Field K]

/-- the sum of the normals of the triangles at a vertex -/
def starNormal (V : List (Vec K 3)) (T : List (List Nat)) (i : Nat) : Vec K 3 :=
  (T.map fun l => if i ∈ l then onTriangle (fun a b c =>
    cross (pos V b - pos V a) (pos V c - pos V b)) l else 0).sum

theorem group_sum (N : List Nat → Vec K 3) (i : Nat) {T : List (List Nat)} (hT : Simplices 3 T) :
    (((T.flatten.zip ((T.map N).flatMap fun n => List.replicate 3 n)).filter
      fun p => p.1 = i).map Prod.snd).sum = (T.map fun l => if i ∈ l then N l else 0).sum := by
  induction T with
  | nil => rfl
  | cons l T ih =>
    obtain ⟨hl, hnd⟩ := hT l (by simp)
    have := ih fun l hl => hT l (by simp [hl])
    obtain ⟨a, b, c, rfl⟩ := triple hl
    rw [List.map_cons, List.flatMap_cons, List.flatten_cons, List.zip_append (by simp),
      List.filter_append, List.map_append, List.sum_append, this, List.map_cons, List.sum_cons]
    congr 1
    simp only [List.nodup_cons, List.mem_cons, List.not_mem_nil, or_false, not_or] at hnd
    obtain ⟨⟨h1, h2⟩, h3, _⟩ := hnd
    simp only [List.replicate, List.zip_cons_cons, List.zip_nil_right, List.filter_cons,
      List.filter_nil, decide_eq_true_eq, List.mem_cons, List.not_mem_nil, or_false]
    by_cases ha : a = i
    · subst ha
      simp [Ne.symm h1, Ne.symm h2]
    · by_cases hb : b = i
      · subst hb
        simp [ha, Ne.symm h3]
      · by_cases hc : c = i
        · subst hc
          simp [ha, hb]
        · simp [ha, hb, hc, Ne.symm ha, Ne.symm hb, Ne.symm hc]

theorem vertexNormals_ok {V : List (Vec K 3)} {T : List (List Nat)} (h : Mesh V T) :
    vertexNormals V T = .ok ((npUnique T.flatten).map (starNormal V T)) := by
  rw [vertexNormals, normals_ok h]
  simp only [bind, Except.bind]
  congr 1
  exact List.map_congr_left fun i _ => group_sum _ i h.simplices

theorem npUnique_range {m : Nat} {L : List Nat} (h : ∀ v, v ∈ L ↔ v < m) : npUnique L = List.range m := by
  refine List.Perm.eq_of_pairwise' (sortRow_sorted _) ?_ ?_
  · exact List.pairwise_le_range
  · refine (sortRow_perm _).trans ?_
    rw [List.perm_ext_iff_of_nodup (List.nodup_dedup _) List.nodup_range]
    intro v
    rw [List.mem_dedup, h, List.mem_range]

theorem mesh_set {V : List (Vec K 3)} {T : List (List Nat)} (h : Mesh V T) (i : Nat) (v : Vec K 3) :
    Mesh (V.set i v) T :=
  ⟨h.simplices, fun l hl j hj => by rw [List.length_set]; exact h.inRange l hl j hj⟩

theorem pos_set {V : List (Vec K 3)} {i j : Nat} (hi : i < V.length) (v : Vec K 3) :
    pos (V.set i v) j = if j = i then v else pos V j := by
  by_cases h : j = i
  · subst h
    simp [pos, hi]
  · rw [if_neg h, pos, pos, List.getElem?_set_ne (Ne.symm h)]

theorem volume_move [CharZero K] {V : List (Vec K 3)} {T : List (List Nat)} (h : Mesh V T)
    (hc : ClosedSurface T) {i : Nat} (hi : i < V.length) (t : Vec K 3) :
    ∃ v, volume V T = .ok v ∧
      volume (V.set i (pos V i + t)) T = .ok (v + dot (starNormal V T i) t / 6) := by
  refine ⟨_, volume_ok h, ?_⟩
  rw [volume_ok (mesh_set h _ _), ← add_div, starNormal, dot_sum, List.map_map, ← List.sum_map_add]
  congr 2
  have key := sum_closed num_two (fun a b => ((if a = i then 1 else 0) + if b = i then 1 else 0) *
    dot (cross (pos V a) (pos V b)) t)
    (fun a b => by
      have : dot (cross (pos V b) (pos V a)) t = - dot (cross (pos V a) (pos V b)) t := by
        rw [cross_neg]; simp [dot]
      rw [this]; ring) h.simplices hc
  rw [← add_zero (List.sum (T.map (onTriangle fun a b c => dot (pos (V.set i (pos V i + t)) a)
    (cross (pos (V.set i (pos V i + t)) b) (pos (V.set i (pos V i + t)) c))))), ← key,
    ← List.sum_map_add]
  refine congrArg List.sum (List.map_congr_left fun l hl => ?_)
  obtain ⟨hlen, hnd⟩ := h.simplices l hl
  obtain ⟨a, b, c, rfl⟩ := triple hlen
  simp only [List.nodup_cons, List.mem_cons, List.not_mem_nil, or_false, not_or] at hnd
  obtain ⟨⟨h1, h2⟩, h3, _⟩ := hnd
  simp only [onTriangle, Function.comp_apply, pos_set hi, List.mem_cons, List.not_mem_nil, or_false]
  by_cases ha : a = i
  · subst ha
    simp only [if_true, if_neg (Ne.symm h1), if_neg (Ne.symm h2), true_or]
    simp [dot, Fin.sum_univ_three, cross]
    ring
  · by_cases hb : b = i
    · subst hb
      simp only [if_true, if_neg ha, if_neg (Ne.symm h3), true_or, or_true]
      simp [dot, Fin.sum_univ_three, cross]
      ring
    · by_cases hc' : c = i
      · subst hc'
        simp only [if_true, if_neg ha, if_neg hb, or_true]
        simp [dot, Fin.sum_univ_three, cross]
        ring
      · have : ¬ (i = a ∨ i = b ∨ i = c) := by
          rintro (e | e | e)
          · exact ha e.symm
          · exact hb e.symm
          · exact hc' e.symm
        simp only [if_neg ha, if_neg hb, if_neg hc', if_neg this]
        simp [dot]

/-- C54: on a closed surface the topology of which can be built, `vertex_normals()` has one row for
every vertex of the topology, and row `i` is six times the derivative of the volume with respect to the
position of vertex `i`: moving that vertex by `t` changes the volume by exactly one sixth of the
product of the row with `t` -/
theorem C54_volume_gradient [CharZero K] {uniq : List (List Nat) → List (List Nat)} {top : Topo}
    {V : List (Vec K 3)} {T : List (List Nat)} (hu : UniqSpec uniq) (h : Mesh V T)
    (htop : fromSimplices uniq 3 T = .ok top) (hc : ClosedSurface T) :
    ∃ ns v, vertexNormals V T = .ok ns ∧ ns.length = top.nElements 0 ∧ volume V T = .ok v ∧
      ∀ (i : Nat) (n x : Vec K 3), ns[i]? = some n → V[i]? = some x →
        ∀ t, volume (V.set i (x + t)) T = .ok (v + dot n t / 6) := by
  obtain ⟨m, hm⟩ := (C03_accepts_iff (nCorners := 1) hu h.simplices).mp ⟨top, htop⟩
  have hflat : ∀ v, v ∈ T.flatten ↔ v < m := fun v => by rw [List.mem_flatten, ← hm]
  refine ⟨_, _, vertexNormals_ok h, ?_, volume_ok h, fun i n x hn hx t => ?_⟩
  · rw [npUnique_range hflat, List.length_map, List.length_range]
    obtain ⟨n, hn, -, wf⟩ := wf_of_ok hu h.simplices htop
    have : n = 2 := by omega
    subst this
    exact (WF.nVertices_eq wf h.simplices hm).symm
  · have hi : i < V.length := (List.getElem?_eq_some_iff.mp hx).1
    have hx' : x = pos V i := by rw [pos, hx]; rfl
    rw [npUnique_range hflat, List.getElem?_map] at hn
    by_cases him : i < m
    · rw [List.getElem?_range him] at hn
      simp only [Option.map_some, Option.some.injEq] at hn
      obtain ⟨v, v1, v2⟩ := volume_move h hc hi t
      rw [volume_ok h] at v1
      cases v1
      rw [hx', v2, hn]
    · rw [List.getElem?_eq_none (by simpa using him)] at hn
      exact absurd hn (by simp)

end

/-! ### examples -/

/-- the corner of the unit cube -/
def tetraPositions : List (Vec ℚ 3) := [![0, 0, 0], ![1, 0, 0], ![0, 1, 0], ![0, 0, 1]]

/-- the surface of a tetrahedron, seen from outside -/
def tetraSurface : List (List Nat) := [[0, 2, 1], [0, 1, 3], [0, 3, 2], [1, 2, 3]]

theorem tetra_mesh : Mesh tetraPositions tetraSurface :=
  ⟨simplices_of_all (by decide), by decide⟩

theorem tetra_closed : ClosedSurface tetraSurface := by
  intro a b
  by_cases hab : (a, b) ∈ directedEdges tetraSurface ∨ (b, a) ∈ directedEdges tetraSurface
  · have : ∀ e ∈ directedEdges tetraSurface, (directedEdges tetraSurface).count (e.1, e.2) =
      (directedEdges tetraSurface).count (e.2, e.1) := by decide
    rcases hab with h | h
    · exact this _ h
    · exact (this _ h).symm
  · rw [List.count_eq_zero_of_not_mem fun h => hab (.inl h),
      List.count_eq_zero_of_not_mem fun h => hab (.inr h)]

/-- its volume is 1/6 -/
example : volume tetraPositions tetraSurface = .ok (1 / 6) := by decide +kernel

/-- and stays so wherever it is moved -/
example (t : Vec ℚ 3) : volume (translate tetraPositions t) tetraSurface = .ok (1 / 6) := by
  obtain ⟨v, h1, h2⟩ := C47_translate tetra_mesh tetra_closed t
  rw [show volume tetraPositions tetraSurface = .ok (1 / 6) by decide +kernel] at h1
  cases h1
  exact h2

/-- moving the last vertex changes it by a third of the area of the opposite side -/
example (t : Vec ℚ 3) : volume (tetraPositions.set 3 (![0, 0, 1] + t)) tetraSurface =
    .ok (1 / 6 + dot ![0, 0, 1] t / 6) := by
  have hf : fromSimplices List.dedup 3 tetraSurface = .ok (built 3 tetraSurface) := by decide +kernel
  obtain ⟨ns, v, h1, _, h3, h4⟩ := C54_volume_gradient uniqSpec_dedup tetra_mesh hf tetra_closed
  rw [show volume tetraPositions tetraSurface = .ok (1 / 6) by decide +kernel] at h3
  cases h3
  have hn : ns[3]? = some ![0, 0, 1] := by
    have : (match vertexNormals tetraPositions tetraSurface with
      | .ok ns => ns[3]?.map fun n => (n 0, n 1, n 2)
      | .error _ => none) = some (0, 0, 1) := by decide +kernel
    rw [h1] at this
    obtain ⟨n, n1, n2⟩ := Option.map_eq_some_iff.mp this
    rw [n1]
    simp only [Prod.mk.injEq] at n2
    congr 1
    funext i
    fin_cases i
    · exact n2.1
    · exact n2.2.1
    · exact n2.2.2
  exact h4 3 _ _ hn rfl t

/-- C47, scope: without a closed surface the volume depends on the position -/
theorem C47_open : ∃ v v', volume tetraPositions [[1, 2, 3]] = .ok v ∧
    volume (translate tetraPositions ![1, 1, 1]) [[1, 2, 3]] = .ok v' ∧ v ≠ v' :=
  ⟨1 / 6, 4 / 6, by decide +kernel, by decide +kernel, by norm_num⟩

end Verif.Props
