/-
C82: triangles and tetrahedra are subdivided into cubes, one for every corner.
-/
import Verif.Spec.SimplexCubes
import Verif.Lemmas.SimplexCubesModel
import Verif.Lemmas.SimplexCubesCount
import Verif.Props.CubicalBoundary
import Verif.Model.SimplexCubesComplex
import Verif.Lemmas.MetricCenters
import Verif.Props.CubicalComplex
import Verif.Props.Metric

set_option linter.unusedSectionVars false

namespace Verif.Props

open Verif.Model Verif.Spec

variable {n : Nat} {top : List (List Nat)} {t s : Topo} {uniq : List (List Nat) → List (List Nat)}
  {solve : List (List Int) → Option (List Int)}

theorem cornerAxes_two : cornerAxes 2 = order2 := by
  funext l i
  rfl

theorem cornerAxes_three : cornerAxes 3 = order3 := by
  funext l i
  rfl

theorem simplexCubes_eq (hn : n = 2 ∨ n = 3) (wf : WF n top t) (htop : Simplices (n + 1) top) :
    simplexCubes t = .ok (cornerCubes t n (cornerAxes n) top) ∧ Others n (cornerAxes n) := by
  rcases hn with rfl | rfl
  · exact ⟨cornerAxes_two ▸ simplexCubes_two wf htop, cornerAxes_two ▸ others2⟩
  · exact ⟨cornerAxes_three ▸ simplexCubes_three wf htop, cornerAxes_three ▸ others3⟩

theorem subdivideToCubes_eq (hn : n = 2 ∨ n = 3) (wf : WF n top t) (htop : Simplices (n + 1) top) :
    subdivideToCubes uniq t = fromCubes uniq true n (cornerCubes t n (cornerAxes n) top).flatten := by
  unfold subdivideToCubes
  rw [(simplexCubes_eq hn wf htop).1, wf.lenB]
  rfl

/-- C82: every topology of triangles or tetrahedra is subdivided. -/
theorem C82_accepts (hu : UniqSpec uniq) (hn : n = 2 ∨ n = 3) (hs : Simplices (n + 1) top)
    (h : fromSimplices uniq (n + 1) top = .ok t) : ∃ s, subdivideToCubes uniq t = .ok s := by
  obtain ⟨-, wf⟩ := fromSimplices_wf hu hs h
  obtain ⟨-, ho⟩ := simplexCubes_eq hn wf hs
  rw [subdivideToCubes_eq hn wf hs]
  obtain ⟨m, rfl⟩ : ∃ m, n = m + 1 := ⟨n - 1, by omega⟩
  refine (C19_accepts_iff hu (cornerCubes_cubes wf hs ho)).2 ⟨fun _ => ?_, cornerCubes_agree wf hs ho, _, cornerCubes_vertices wf hs ho⟩
  rcases hn with hn | hn
  · obtain rfl : m = 1 := by omega
    decide
  · obtain rfl : m = 2 := by omega
    decide

/-- C82: other dimensions are not implemented. -/
theorem C82_rejected (hu : UniqSpec uniq) (h2 : n ≠ 2) (h3 : n ≠ 3) (hs : Simplices (n + 1) top)
    (h : fromSimplices uniq (n + 1) top = .ok t) : subdivideToCubes uniq t = .error .notImplementedError := by
  obtain ⟨-, wf⟩ := fromSimplices_wf hu hs h
  unfold subdivideToCubes simplexCubes
  simp only [wf.lenB, if_neg h2, if_neg h3]
  rfl

/-- C82: there is a cube for every corner of every simplex.  Its corner with index `b` is the vertex put into the
element spanned by the corner of the simplex and the ends of the axes along which `b` is 1; the last corner is the vertex
put into the simplex itself. -/
theorem C82_cubes (hu : UniqSpec uniq) (hn : n = 2 ∨ n = 3) (hs : Simplices (n + 1) top)
    (h : fromSimplices uniq (n + 1) top = .ok t) (hsub : subdivideToCubes uniq t = .ok s) :
    s.nElements n = (n + 1) * top.length ∧
    ∀ (j : Nat) (l : List Nat) (i : Nat) (b : List Bool), top[j]? = some l → i ≤ n → b.length = n →
      ∃ (c e : List Nat) (x : Nat), (s.elements[n]?.getD [])[(n + 1) * j + i]? = some c ∧
        (t.elements[b.count true]?.getD [])[x]? = some e ∧ c[ravel b]? = some (subVertex t (b.count true) x) ∧
        (∀ v, v ∈ e ↔ TowardCorner n l i b v) ∧ (b.count true = n → x = j) := by
  obtain ⟨-, wf⟩ := fromSimplices_wf hu hs h
  obtain ⟨-, ho⟩ := simplexCubes_eq hn wf hs
  rw [subdivideToCubes_eq hn wf hs] at hsub
  have ws := fromCubes_wf hu (cornerCubes_cubes wf hs ho) hsub
  have htop : s.elements[n]?.getD [] = (cornerCubes t n (cornerAxes n) top).flatten := by rw [ws.top_eq]; rfl
  constructor
  · unfold Topo.nElements
    rw [htop, flatten_cornerCubes_length]
  · intro j l i b hj hi hb
    obtain ⟨hl, hln⟩ := hs l (List.mem_of_getElem? hj)
    have hD := ho.length hl hi
    have hvi : l[i]? = some (l[i]?.getD 0) := by rw [List.getElem?_eq_getElem (by omega)]; rfl
    have hsubp : ([l[i]?.getD 0] ++ marked (cornerAxes n l i) b).Subperm l :=
      marked_subperm (by simpa using (ho l i hl hi).subperm) b
    have hlen : ([l[i]?.getD 0] ++ marked (cornerAxes n l i) b).length - 1 = b.count true := by
      rw [List.length_append, marked_length (by omega), List.length_singleton, Nat.add_sub_cancel_left]
    obtain ⟨x, e, g1, g2, g3, g4⟩ := snum_spec wf hs hj hsubp (by simp)
    rw [hlen] at g1 g3
    refine ⟨_, e, x, by rw [htop]; exact get_cornerCubes hj hi, g1, ?_, ?_, ?_⟩
    · unfold cornerCube between cubeOf
      rw [List.getElem?_map, cubeIndices_ravel (by omega), Option.map_some, g3]
      rfl
    · intro v
      rw [g2.mem_iff, List.mem_append, mem_marked, List.mem_singleton]
      unfold TowardCorner
      rw [hvi, Option.some.injEq, Option.getD_some]
      exact or_congr_left eq_comm
    · intro hk
      exact g4 (by omega)

/-- C82: the number of `k`-dimensional elements is the number of ways to choose `k` of the corners of an element, but not
all of them. -/
theorem C82_counts (hu : UniqSpec uniq) (hn : n = 2 ∨ n = 3) (hs : Simplices (n + 1) top)
    (h : fromSimplices uniq (n + 1) top = .ok t) (hsub : subdivideToCubes uniq t = .ok s) {k : Nat} (hk : k ≤ n) :
    s.nElements k = ((List.range (n + 1)).map fun m => if k ≤ m then t.nElements m * (m + 1).choose k else 0).sum := by
  obtain ⟨h1, wf⟩ := fromSimplices_wf hu hs h
  obtain ⟨-, ho⟩ := simplexCubes_eq hn wf hs
  rw [subdivideToCubes_eq hn wf hs] at hsub
  exact corner_count hu wf hs ho h1 hsub hk

/-- C82: the subdivision has the Euler characteristic of the original. -/
theorem C82_euler (hu : UniqSpec uniq) (hn : n = 2 ∨ n = 3) (hs : Simplices (n + 1) top)
    (h : fromSimplices uniq (n + 1) top = .ok t) (hsub : subdivideToCubes uniq t = .ok s) :
    ∑ k ∈ Finset.range (n + 1), (-1 : ℤ) ^ k * s.nElements k = ∑ k ∈ Finset.range (n + 1), (-1 : ℤ) ^ k * t.nElements k :=
  corner_euler _ _ n fun _ hk => C82_counts hu hn hs h hsub hk

theorem relSign_order2 (l : List Nat) (i : Nat) (hl : l.length = 3) (hn : l.Nodup) (hi : i ≤ 2) :
    relSign l (l[i]?.getD 0 :: order2 l i) = 1 := by
  rcases l with _ | ⟨a, _ | ⟨b, _ | ⟨c, _ | ⟨d, l⟩⟩⟩⟩ <;> simp at hl
  have h0 := relSign_self hn
  have hA := alt_relSign [a, b, c]
  have s1 : relSign [a, b, c] [b, a, c] = - relSign [a, b, c] [a, b, c] := hA [] b a [c]
  have s2 : relSign [a, b, c] [b, c, a] = - relSign [a, b, c] [b, a, c] := hA [b] c a []
  have s3 : relSign [a, b, c] [a, c, b] = - relSign [a, b, c] [a, b, c] := hA [a] c b []
  have s4 : relSign [a, b, c] [c, a, b] = - relSign [a, b, c] [a, c, b] := hA [] c a [b]
  interval_cases i
  · exact h0
  · show relSign [a, b, c] [b, c, a] = 1
    rw [s2, s1, h0]; rfl
  · show relSign [a, b, c] [c, a, b] = 1
    rw [s4, s3, h0]; rfl

theorem relSign_order3 (l : List Nat) (hl : l.length = 4) (hn : l.Nodup) :
    relSign l (l[0]?.getD 0 :: order3 l 0) ≠ relSign l (l[1]?.getD 0 :: order3 l 1) := by
  rcases l with _ | ⟨a, _ | ⟨b, _ | ⟨c, _ | ⟨d, _ | ⟨e, l⟩⟩⟩⟩⟩ <;> simp at hl
  have h0 := relSign_self hn
  have hA := alt_relSign [a, b, c, d]
  -- a d c b
  have s1 : relSign [a, b, c, d] [a, b, d, c] = - relSign [a, b, c, d] [a, b, c, d] := hA [a, b] d c []
  have s2 : relSign [a, b, c, d] [a, d, b, c] = - relSign [a, b, c, d] [a, b, d, c] := hA [a] d b [c]
  have s3 : relSign [a, b, c, d] [a, d, c, b] = - relSign [a, b, c, d] [a, d, b, c] := hA [a, d] c b []
  -- b a d c
  have s4 : relSign [a, b, c, d] [b, a, d, c] = - relSign [a, b, c, d] [a, b, d, c] := hA [] b a [d, c]
  show relSign [a, b, c, d] [a, d, c, b] ≠ relSign [a, b, c, d] [b, a, d, c]
  rw [s3, s2, s4, s1, h0]
  decide

/-- C82: the squares are oriented coherently exactly if the triangles are. -/
theorem C82_coherent (hu : UniqSpec uniq) (hs : Simplices 3 top) (h : fromSimplices uniq 3 top = .ok t)
    (hsub : subdivideToCubes uniq t = .ok s) : CubesCoherent 1 (s.elements[2]?.getD []) ↔ Coherent top := by
  obtain ⟨-, wf⟩ := fromSimplices_wf (n := 2) hu hs h
  rw [subdivideToCubes_eq (n := 2) (.inl rfl) wf hs, cornerAxes_two] at hsub
  have ws := fromCubes_wf hu (cornerCubes_cubes wf hs others2) hsub
  rw [ws.top_eq]
  exact cornerCubes_coherent_iff (m := 1) wf hs others2 relSign_order2

/-- C82: for triangles connected through shared edges, `is_oriented` of the squares is `True` exactly if the triangles are
coherently oriented. -/
theorem C82_oriented (hu : UniqSpec uniq) (hsat : SatSpec solve) (hs : Simplices 3 top) (h : fromSimplices uniq 3 top = .ok t)
    (hsub : subdivideToCubes uniq t = .ok s) (hcon : Connected top) :
    isOriented solve s = .ok true ↔ Coherent top := by
  obtain ⟨-, wf⟩ := fromSimplices_wf (n := 2) hu hs h
  rw [subdivideToCubes_eq (n := 2) (.inl rfl) wf hs, cornerAxes_two] at hsub
  rw [C76_oriented_exact hu (cornerCubes_cubes wf hs others2) hsat hsub (cornerCubes_connected (m := 1) wf hs others2 hcon)]
  exact cornerCubes_coherent_iff (m := 1) wf hs others2 relSign_order2

/-- C82: the cubes of tetrahedra are never oriented coherently, however the tetrahedra are oriented: neighbouring corners
of a tetrahedron give cubes of opposite orientation. -/
theorem C82_solid_not_oriented (hu : UniqSpec uniq) (hsat : SatSpec solve) (hs : Simplices 4 top) (hne : top ≠ [])
    (h : fromSimplices uniq 4 top = .ok t) (hsub : subdivideToCubes uniq t = .ok s) :
    ¬ CubesCoherent 2 (s.elements[3]?.getD []) ∧ isOriented solve s ≠ .ok true := by
  obtain ⟨-, wf⟩ := fromSimplices_wf (n := 3) hu hs h
  rw [subdivideToCubes_eq (n := 3) (.inr rfl) wf hs, cornerAxes_three] at hsub
  have hcub := cornerCubes_cubes wf hs others3
  have ws := fromCubes_wf hu hcub hsub
  obtain ⟨l, top', rfl⟩ := List.exists_cons_of_ne_nil hne
  obtain ⟨hl, hln⟩ := hs l (by simp)
  have hinc := cornerCubes_incoherent (m := 2) (i1 := 0) (i2 := 1) wf hs others3 (j := 0) (l := l) (by simp) (by omega) (by omega)
    (relSign_order3 l hl hln)
  refine ⟨by rw [ws.top_eq]; exact hinc, fun ho => hinc (C76_oriented_sound hu hcub hsat hsub ho)⟩

/-- C82: the vertices of the subdivided complex are the circumcenters of the elements, as many as the subdivided topology
has, and each is at the number that `C82_cubes` gives it. -/
theorem C82_positions {D : Nat} {eigh : (n : Nat) → Matrix (Fin n) (Fin n) ℝ → Eigh n ℝ} {ratio : ℝ} {V : List (Vec ℝ D)}
    {y : Finset Nat → Nat → ℝ} {ctr : Finset Nat → Fin D → ℝ} (hu : UniqSpec uniq) (hn : n = 2 ∨ n = 3)
    (hs : Simplices (n + 1) top) (hne : top ≠ []) (h : fromSimplices uniq (n + 1) top = .ok t)
    (hsub : subdivideToCubes uniq t = .ok s) (hV : ∀ l ∈ top, ∀ v ∈ l, v < V.length)
    (hE : ∀ k M, M.transpose = M → IsEigh M (eigh k M).v (eigh k M).w)
    (hw : WithinTolerance ratio V t.elements n)
    (hc : Centers V top y ctr) :
    ∃ V', simplexCubeVertices eigh ratio t V = .ok V' ∧ V'.length = s.nElements 0 ∧
      ∀ (k i : Nat) (e : List Nat), k ≤ n → (t.elements[k]?.getD [])[i]? = some e →
        V'[subVertex t k i]? = some (ctr e.toFinset) := by
  obtain ⟨-, wf⟩ := fromSimplices_wf hu hs h
  refine ⟨_, by unfold simplexCubeVertices; rw [primalPositions_ok wf hs hne hV hE (hw.1) hc]; rfl, ?_, ?_⟩
  · rw [C82_counts hu hn hs h hsub (Nat.zero_le n), List.length_flatten, List.map_map]
    congr 1
    refine List.map_congr_left fun k _ => ?_
    simp [Topo.nElements]
  · intro k i e hk he
    have hlev : ∀ m ≤ n, (((List.range (n + 1)).map fun k => (t.elements[k]?.getD []).map fun e => ctr e.toFinset)[m]?.getD []).length
        = t.nElements m := by
      intro m hm
      rw [List.getElem?_map, List.getElem?_range (by omega)]
      simp [Topo.nElements]
    have := getElem?_flatten_levels (L := (List.range (n + 1)).map fun k => (t.elements[k]?.getD []).map fun e => ctr e.toFinset)
      (k := k) (i := i) (x := ctr e.toFinset) (by
        rw [List.getElem?_map, List.getElem?_range (by omega), Option.map_some, Option.getD_some, List.getElem?_map, he]
        rfl)
    rw [List.map_congr_left (fun m hm => hlev m (by have := List.mem_range.1 hm; omega))] at this
    exact this

/-- a case of `C82_accepts`, `C82_cubes`, `C82_counts`, `C82_euler`, `C82_coherent` and `C82_oriented`: two triangles that
share an edge -/
example : Simplices 3 [[0, 1, 2], [2, 1, 3]] ∧ Coherent [[0, 1, 2], [2, 1, 3]] ∧ Connected [[0, 1, 2], [2, 1, 3]] ∧
    ((fromSimplices lexRows 3 [[0, 1, 2], [2, 1, 3]]).toOption.bind fun t =>
      (subdivideToCubes lexRows t).toOption.map fun s => (s.elements.map List.length, s.elements[2]?)) =
    some ([11, 16, 6], some [[0, 5, 4, 9], [1, 4, 6, 9], [2, 6, 5, 9], [2, 8, 6, 10], [1, 6, 7, 10], [3, 7, 8, 10]]) := by
  have hs : Simplices 3 [[0, 1, 2], [2, 1, 3]] := simplices_of_all (by decide)
  have wf := wf_built hs (by decide +kernel)
  refine ⟨hs, ?_, ?_, by decide +kernel⟩
  · rw [← reorient_false [[0, 1, 2], [2, 1, 3]],
      ← wf.satisfies_iff_coherent hs (fun _ => false)]
    decide +kernel
  · obtain ⟨e, j', hsh⟩ := (wf.var_iff hs 0).1 (by decide +kernel)
    have hj' : j' = 1 := by
      have h1 := hsh.1
      have h2 := hsh.2.2.1
      simp at h2
      omega
    subst hj'
    have a01 : Adjacent [[0, 1, 2], [2, 1, 3]] 0 1 := ⟨e, hsh⟩
    have a10 : Adjacent [[0, 1, 2], [2, 1, 3]] 1 0 := ⟨e, sharedFace_symm hsh⟩
    intro j1 h1 j2 h2
    simp at h1 h2
    interval_cases j1 <;> interval_cases j2
    · exact .refl
    · exact .single a01
    · exact .single a10
    · exact .refl

/-- a case of `C82_solid_not_oriented` and of the theorems above for tetrahedra: two tetrahedra that share a triangle -/
example : Simplices 4 [[0, 1, 2, 3], [1, 2, 3, 4]] ∧
    ((fromSimplices lexRows 4 [[0, 1, 2, 3], [1, 2, 3, 4]]).toOption.bind fun t =>
      (subdivideToCubes lexRows t).toOption.map fun s => (s.elements.map List.length, (s.elements[3]?.getD [])[1]?)) =
    some ([23, 47, 33, 8], some [1, 8, 9, 17, 5, 14, 15, 21]) := by
  exact ⟨simplices_of_all (by decide), by decide +kernel⟩

/-- a case of `C82_rejected`: a segment -/
example : Simplices 2 [[0, 1]] ∧
    (fromSimplices lexRows 2 [[0, 1]] >>= fun t => subdivideToCubes lexRows t) = .error .notImplementedError := by
  exact ⟨simplices_of_all (by decide), by decide +kernel⟩

/-- a case of `C82_positions`: the two triangles of a square -/
example : ∃ (t s : Topo) (eigh : (n : Nat) → Matrix (Fin n) (Fin n) ℝ → Eigh n ℝ) (ratio : ℝ) (y : Finset Nat → Nat → ℝ)
    (ctr : Finset Nat → Fin 2 → ℝ), fromSimplices List.dedup 3 [[0, 1, 2], [0, 2, 3]] = .ok t ∧ subdivideToCubes List.dedup t = .ok s ∧
    (∀ k M, M.transpose = M → IsEigh M (eigh k M).v (eigh k M).w) ∧
    WithinTolerance ratio squareCorners t.elements 2 ∧
    Centers squareCorners [[0, 1, 2], [0, 2, 3]] y ctr := by
  have hs : Simplices 3 [[0, 1, 2], [0, 2, 3]] := simplices_of_all (by decide)
  have hf : fromSimplices List.dedup 3 [[0, 1, 2], [0, 2, 3]] = .ok (built 3 [[0, 1, 2], [0, 2, 3]]) := by decide +kernel
  obtain ⟨s, hsub⟩ := C82_accepts (n := 2) uniqSpec_dedup (.inl rfl) hs hf
  obtain ⟨y, ctr, hc⟩ := exists_centers squareCorners_nondegenerate hs
  obtain ⟨r, hr⟩ := exists_tolerance squareCorners (built 3 [[0, 1, 2], [0, 2, 3]]).elements 2
  choose eigh he using exists_eigh_function
  exact ⟨_, s, eigh, r, y, ctr, hf, hsub, he, hr r (le_refl r), hc⟩

end Verif.Props
