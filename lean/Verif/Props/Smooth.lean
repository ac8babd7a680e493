/-
C69: smoothing with creases and the operators of smoothing and subdivision.
-/
import Verif.Model.Smooth
import Verif.Spec.Smooth
import Verif.Lemmas.SmoothOperator
import Verif.Props.CubeAveraging
import Verif.Props.Loop
import Verif.Props.LoopTransfer
import Verif.Spec.Circumcenter

set_option linter.unusedSectionVars false

namespace Verif.Props

open Verif.Model Verif.Spec

variable {K : Type} [Field K] [LinearOrder K] [IsStrictOrderedRing K] {d : Nat}
variable {uniq : List (List Nat) → List (List Nat)} {cubes simplices : List (List Nat)} {t : Topo} {n : Nat}
variable {creases : List (Nat × List Int)}

/-! ### the hypotheses of the lemmas, for cubes and for simplices -/

theorem cube_rows (hu : UniqSpec uniq) (hc : Cubes n cubes) (hn : 1 ≤ n) (h : fromCubes uniq true n cubes = .ok t) :
    UniformRows t n (t.nElements 0) fun k => 2 ^ k := by
  have w := fromCubes_wf hu hc h
  refine ⟨w.lenE, w.lenB, fun k i e he => ?_⟩
  have hk : k ≤ n := by
    by_contra hk
    rw [List.getElem?_eq_none (l := t.elements) (by have := w.lenE; omega)] at he
    simp at he
  exact ⟨(w.cube hn hk he).1, (w.cube hn hk he).2, fun v hv => corners_lt w hn hk he hv⟩

theorem simplex_rows (hu : UniqSpec uniq) (hs : Simplices (n + 1) simplices) (h : fromSimplices uniq (n + 1) simplices = .ok t) :
    UniformRows t n (t.nElements 0) fun k => k + 1 := by
  obtain ⟨hn, wf⟩ := fromSimplices_wf hu hs h
  refine ⟨wf.lenE, wf.lenB, fun k i e he => ?_⟩
  have hk : k ≤ n := by
    by_contra hk
    rw [List.getElem?_eq_none (l := t.elements) (by have := wf.lenE; omega)] at he
    simp at he
  have hi : i < t.nElements k := (List.getElem?_eq_some_iff.1 he).1
  have hco : WF.corners t k i = e := by unfold WF.corners; rw [he, Option.getD_some]
  have := wf.corners_simplex hs hk hi
  rw [hco] at this
  exact ⟨this.1, this.2, vertices_lt wf (by omega) hs hk (List.mem_of_getElem? he)⟩

theorem entry_of_mean {A : Mat K} {j v : Nat} {l : List Nat} {w : K} (hv : v < A.cols) (hnd : l.Nodup)
    (h : ∀ x : Nat → K, ((List.range A.cols).map fun u => A.entry j u * x u).sum = w * mean (l.map x)) :
    A.entry j v = if v ∈ l then w / (l.length : K) else 0 := by
  have h' := h fun u => if u = v then 1 else 0
  clear h
  rw [sum_range_list, Finset.sum_eq_single v (by
    intro u _ hu
    rw [if_neg hu, mul_zero]) (fun h => absurd (Finset.mem_range.2 hv) h), if_pos rfl, mul_one] at h'
  rw [h']
  unfold mean
  rw [List.length_map]
  have : (l.map fun u => if u = v then (1 : K) else 0).sum = if v ∈ l then 1 else 0 := by
    clear h'
    induction l with
    | nil => simp
    | cons a l ih =>
      rw [List.nodup_cons] at hnd
      rw [List.map_cons, List.sum_cons, ih hnd.2]
      by_cases hav : a = v
      · subst hav
        rw [if_pos rfl, if_neg hnd.1, if_pos (by simp), add_zero]
      · rw [if_neg hav, zero_add]
        congr 1
        simp [Ne.symm hav]
  rw [this]
  by_cases hm : v ∈ l
  · rw [if_pos hm, if_pos hm, mul_one_div]
  · rw [if_neg hm, if_neg hm, zero_div, mul_zero]

theorem weights_square {k : Nat} (hk : k ≤ 9) :
    ((wrap8 (k.factorial : ℤ) : ℤ) : K) / ((wrap8 (wrap8 (k.factorial : ℤ)).natAbs : ℤ) : K) *
      (((wrap8 (k.factorial : ℤ) : ℤ) : K) / ((wrap8 (wrap8 (k.factorial : ℤ)).natAbs : ℤ) : K)) = 1 := by
  by_cases h : k = 6 ∨ k = 7
  · rw [weights_neg h]; ring
  · rw [weights_pos (by omega)]; ring

theorem averages_of {size : Nat → Nat} (hr : UniformRows t n (t.nElements 0) size) (hn : n ≤ 9) {L : List (Mat K)}
    (h2 : L.length = n + 1) (h3 : ∀ k ≤ n, ∃ A, L[k]? = some A ∧ A.rows = t.nElements k ∧ A.cols = t.nElements 0 ∧
        ∀ E, t.elements[k]? = some E → ∀ j l, E[j]? = some l → ∀ x : Nat → K,
          ((List.range A.cols).map fun v => A.entry j v * x v).sum =
            ((wrap8 (k.factorial : ℤ) : ℤ) : K) / ((wrap8 (wrap8 (k.factorial : ℤ)).natAbs : ℤ) : K) *
              mean (l.map x)) : Averages t n size L := by
  refine ⟨h2, fun k hk => ?_⟩
  obtain ⟨A, g1, g2, g3, g4⟩ := h3 k hk
  refine ⟨A, _, g1, weights_square (K := K) (k := k) (by omega), g2, g3, fun i hi v hv => ?_⟩
  have hlt : k < t.elements.length := by have := hr.levels; omega
  have hE := List.getElem?_eq_getElem hlt
  have hi' : i < t.elements[k].length := by
    unfold Topo.nElements at hi
    rw [hE] at hi
    exact hi
  have hl := List.getElem?_eq_getElem hi'
  have hst : (t.elements[k]?.getD [])[i]? = some t.elements[k][i] := by rw [hE]; exact hl
  obtain ⟨r1, r2, -⟩ := hr.rows k i _ hst
  rw [entry_of_mean (by omega) r2 (g4 _ hE i _ hl), hst, r1]
  rfl

/-! ### smoothing -/

theorem cubicalPositions_ok (hu : UniqSpec uniq) (hc : Cubes n cubes) (hn : 1 ≤ n) (h : fromCubes uniq true n cubes = .ok t)
    {V : List (Vec K d)} (hV : V.length = t.nElements 0) :
    cubicalPositions V t = .ok (t.elements.map fun rows => rows.map fun e q => mean (e.map fun v => (V[v]?.getD 0) q)) := by
  have hr := cube_rows hu hc hn h
  unfold cubicalPositions
  refine mapM_ok _ _ _ fun rows hrows => ?_
  refine mapM_ok _ _ _ fun e he => ?_
  obtain ⟨k, hk⟩ := List.mem_iff_getElem?.1 hrows
  obtain ⟨i, hi⟩ := List.mem_iff_getElem?.1 he
  rw [cubeMean_ok fun v hv => by rw [hV]; exact (hr.rows k i e (by rw [hk]; exact hi)).2.2 v hv]
  congr 1
  funext q
  unfold mean
  rw [List.length_map]

/-- C69: `smooth` of a cubical complex moves every vertex to the mean of the centers of the creases at the vertex, of the lowest
dimension that has creases there; the center of an element is the mean of its corners.  A vertex without creases stays.  Without
`creases`, all cubes are creases. -/
theorem C69_smooth (hu : UniqSpec uniq) (hc : Cubes n cubes) (hn : 1 ≤ n) (h : fromCubes uniq true n cubes = .ok t)
    (hv : ValidCreases t n creases) (V : List (Vec K d)) (hV : V.length = t.nElements 0) :
    ∃ PP W, cubicalPositions V t = .ok PP ∧ smooth t V PP creases = .ok W ∧ W.length = V.length ∧
      ∀ v < V.length, ∃ w, W[v]? = some w ∧ ∀ q, w q = smoothed t n creases (fun u => (V[u]?.getD 0) q)
        (fun k i => mean (((t.elements[k]?.getD [])[i]?.getD []).map fun u => (V[u]?.getD 0) q)) v := by
  have hr := cube_rows hu hc hn h
  have hP := cubicalPositions_ok hu hc hn h hV
  set PP := t.elements.map fun rows => rows.map fun e q => mean (e.map fun v => (V[v]?.getD 0) q) with hPP
  have hg : ∀ k i, i < t.nElements k → (PP[k]?.getD [])[i]?.getD 0 =
      fun q => mean (((t.elements[k]?.getD [])[i]?.getD []).map fun u => (V[u]?.getD 0) q) := by
    intro k i hi
    unfold Topo.nElements at hi
    rw [hPP, List.getElem?_map]
    cases hE : t.elements[k]? with
    | none => rw [hE] at hi; simp at hi
    | some E =>
      rw [hE] at hi
      simp only [Option.map_some, Option.getD_some] at hi ⊢
      rw [List.getElem?_map, List.getElem?_eq_getElem hi]
      rfl
  obtain ⟨W, h1, h2, h3⟩ := smooth_ok (K := K) (PP := PP) (V := V) (by rw [hV]; exact hr) hv (by rw [hPP, List.length_map, hr.levels])
    (fun k hk => by
      unfold Topo.nElements
      rw [hPP, List.getElem?_map]
      cases t.elements[k]? <;> simp)
  refine ⟨PP, W, hP, h1, h2, fun v hv => ⟨_, h3 v hv, fun q => ?_⟩⟩
  unfold smoothed
  cases creaseLevel t n creases v with
  | none => rfl
  | some k =>
    simp only
    congr 1
    refine List.map_congr_left fun i hi => ?_
    unfold creasesAt at hi
    rw [hg k i (List.mem_range.1 (List.mem_filter.1 hi).1)]

/-- what `smooth_operator` should be: row `v` takes the mean over the creases at `v`, of the lowest dimension that has creases
there, of the means over their corners -/
def SmoothsBy (t : Topo) (n : Nat) (creases : List (Nat × List Int)) (M : Mat K) : Prop :=
  M.rows = t.nElements 0 ∧ M.cols = t.nElements 0 ∧
    ∀ v < t.nElements 0, (∀ u < t.nElements 0, 0 ≤ M.entry v u) ∧
      (∀ k, creaseLevel t n creases v = some k → ((List.range M.cols).map fun u => M.entry v u).sum = 1 ∧ ∀ x : Nat → K,
        ((List.range M.cols).map fun u => M.entry v u * x u).sum =
          mean ((creasesAt t n creases k v).map fun i => mean (((t.elements[k]?.getD [])[i]?.getD []).map x))) ∧
      (creaseLevel t n creases v = none → ∀ u < t.nElements 0, M.entry v u = 0)

theorem smoothsBy {size : Nat → Nat} (hr : UniformRows t n (t.nElements 0) size) (hv : ValidCreases t n creases)
    (hsz : ∀ k ≤ n, 0 < size k) {A : List (Mat K)} (hA : averagingOperators0 t.matrices = .ok A) (ha : Averages t n size A) :
    ∃ M : Mat K, smoothOperator t creases = .ok M ∧ SmoothsBy t n creases M := by
  obtain ⟨M, h1, h2, h3, h4⟩ := smoothOperator_ok hr hv hsz hA ha
  refine ⟨M, h1, h2, h3, fun v hv => ⟨(h4 v hv).1, fun k hk => ⟨?_, (h4 v hv).2.1 k hk⟩, (h4 v hv).2.2⟩⟩
  have e := (h4 v hv).2.1 k hk fun _ => 1
  simp only [mul_one] at e
  rw [e]
  obtain ⟨hk, hne, -⟩ := creaseLevel_some hk
  refine mean_eq_const 1 (by simpa using hne) fun y hy => ?_
  obtain ⟨i, hi, rfl⟩ := List.mem_map.1 hy
  refine mean_eq_const 1 ?_ fun y hy => by obtain ⟨_, -, rfl⟩ := List.mem_map.1 hy; rfl
  unfold creasesAt at hi
  have hlt : i < (t.elements[k]?.getD []).length := List.mem_range.1 (List.mem_filter.1 hi).1
  have hg := List.getElem?_eq_getElem hlt
  rw [hg, Option.getD_some, ne_eq, List.map_eq_nil_iff]
  intro h
  have h5 := (hr.rows k i _ hg).1
  rw [h, List.length_nil] at h5
  have := hsz k hk
  omega

/-- C69: `smooth_operator` of a cubical complex is the matrix of smoothing, with entries that are not negative and rows that
add up to one.  The row of a vertex without creases is empty: a zero row divided by zero.  This holds in all dimensions, for the
wrong signs of the averaging operators cancel. -/
theorem C69_operator (hu : UniqSpec uniq) (hc : Cubes n cubes) (hn : 1 ≤ n) (h : fromCubes uniq true n cubes = .ok t)
    (hv : ValidCreases t n creases) : ∃ M : Mat K, smoothOperator t creases = .ok M ∧ SmoothsBy t n creases M := by
  obtain ⟨L, h1, h2, h3⟩ := cubeAveraging0 (K := K) hu hc hn h
  have hr := cube_rows hu hc hn h
  have h7 := cubes_dim hu hc hn h
  exact smoothsBy hr hv (fun k _ => Nat.two_pow_pos k) h1 (averages_of hr (by omega) h2 h3)

/-- C69: the same for simplices of up to nine dimensions -/
theorem C69_operator_simplices (hu : UniqSpec uniq) (hs : Simplices (n + 1) simplices)
    (h : fromSimplices uniq (n + 1) simplices = .ok t) (hn : n ≤ 9)
    (hv : ValidCreases t n creases) : ∃ M : Mat K, smoothOperator t creases = .ok M ∧ SmoothsBy t n creases M := by
  obtain ⟨L, h1, h2, h3⟩ := averaging0 (K := K) hu hs h
  have hr := simplex_rows hu hs h
  exact smoothsBy hr hv (fun k _ => Nat.succ_pos k) h1 (averages_of hr hn h2 h3)

/-- C69: on a cubical complex the operator applied to the vertices gives what `smooth` does, at every vertex with a crease. -/
theorem C69_agree (hu : UniqSpec uniq) (hc : Cubes n cubes) (hn : 1 ≤ n) (h : fromCubes uniq true n cubes = .ok t)
    (hv : ValidCreases t n creases) (V : List (Vec K d)) (hV : V.length = t.nElements 0) :
    ∃ PP W M, cubicalPositions V t = .ok PP ∧ smooth t V PP creases = .ok W ∧ smoothOperator t creases = .ok M ∧
      M.rows = W.length ∧ M.cols = V.length ∧
      ∀ v < W.length, creaseLevel t n creases v ≠ none → ∃ w, W[v]? = some w ∧
        ∀ q, w q = ((List.range M.cols).map fun u => M.entry v u * (V[u]?.getD 0) q).sum := by
  obtain ⟨PP, W, h1, h2, h3, h4⟩ := C69_smooth hu hc hn h hv V hV
  obtain ⟨M, g1, g2, g3, g4⟩ := C69_operator (K := K) hu hc hn h hv
  refine ⟨PP, W, M, h1, h2, g1, by omega, by omega, fun v hv hl => ?_⟩
  obtain ⟨w, e1, e2⟩ := h4 v (by omega)
  refine ⟨w, e1, fun q => ?_⟩
  obtain ⟨k, hk⟩ := Option.ne_none_iff_exists'.1 hl
  rw [e2, ((g4 v (by omega)).2.1 k hk).2 fun u => (V[u]?.getD 0) q]
  unfold smoothed
  rw [hk]

/-- C69: unless a chain of cubes is given, every vertex has a crease. -/
theorem C69_covered (hu : UniqSpec uniq) (hc : Cubes n cubes) (hn : 1 ≤ n) (h : fromCubes uniq true n cubes = .ok t)
    (hl : creases.lookup n = none) {v : Nat} (hv : v < t.nElements 0) : creaseLevel t n creases v ≠ none := by
  intro hnone
  have w := fromCubes_wf hu hc h
  have h0 := creaseLevel_none hnone n (le_refl n)
  have hst : Stored t 0 v (WF.corners t 0 v) := CWF.stored_corners hv
  have hcv := w.vertex_corner hn hv
  obtain ⟨j, l, h1, h2⟩ := faceOf_top w hn (d := n) (by omega) hst (faceOf_self (w.cube hn (Nat.zero_le n) hst).1)
  have hm : v ∈ l := by
    rw [hcv] at h2
    exact (faceOf_vertex (w.cube hn (le_refl n) h1).1).1 h2
  have h1 : (t.elements[n]?.getD [])[j]? = some l := h1
  have : j ∈ creasesAt t n creases n v := by
    unfold creasesAt isCrease
    rw [List.mem_filter, List.mem_range, hl]
    refine ⟨(List.getElem?_eq_some_iff.1 h1).1, ?_⟩
    rw [h1]
    simpa using hm
  rw [h0] at this
  simp at this

/-! ### subdivision -/

variable {s : Topo} {T : List (Mat Int)}

/-- the chain on the subdivision -/
theorem fineCreases_ok (hu : UniqSpec uniq) (hc : Cubes n cubes) (hn : 1 ≤ n) (ht : fromCubes uniq true n cubes = .ok t)
    (hs : subdivideCubical uniq t = .ok (s, T)) (hv : ValidCreases t n creases) :
    fineCreases T creases = .ok (creases.map fun kc => (kc.1, (List.range (s.nElements kc.1)).map fun x =>
      ((List.range (t.nElements kc.1)).map fun j =>
        (T[kc.1]?.getD ⟨0, 0, fun _ _ => 0⟩).entry x j * kc.2[j]?.getD 0).sum)) := by
  unfold fineCreases
  refine mapM_ok _ _ _ fun kc hkc => ?_
  obtain ⟨h1, h2⟩ := hv.2 kc hkc
  obtain ⟨M, g1, g2, g3, -⟩ := (C67_transfers hu hc hn ht hs).2 kc.1 h1
  rw [g1]
  simp only [Option.getD_some]
  unfold mulChain
  rw [if_pos (by omega), g2, g3]
  rfl

theorem lookup_map {β : Type} (f : Nat → β → β) (k : Nat) : ∀ l : List (Nat × β),
    (l.map fun kc => (kc.1, f kc.1 kc.2)).lookup k = (l.lookup k).map (f k)
  | [] => rfl
  | (a, b) :: l => by
    rw [List.map_cons, List.lookup_cons, List.lookup_cons, lookup_map f k l]
    by_cases h : k = a
    · subst h; simp
    · have : (k == a) = false := by simpa using h
      rw [this]

/-- C69: after subdivision of a cubical complex, an element is a crease iff it is a part of a crease of the same dimension. -/
theorem C69_creases (hu : UniqSpec uniq) (hc : Cubes n cubes) (hn : 1 ≤ n) (ht : fromCubes uniq true n cubes = .ok t)
    (hs : subdivideCubical uniq t = .ok (s, T)) (hv : ValidCreases t n creases) :
    ∃ fine, fineCreases T creases = .ok fine ∧ ValidCreases s n fine ∧ fine.map (·.1) = creases.map (·.1) ∧
      ∀ (k x : Nat) (e : List Nat), k ≤ n → (s.elements[k]?.getD [])[x]? = some e →
        (isCrease n fine k x = true ↔ ∃ i < t.nElements k, isCrease n creases k i = true ∧ ∀ v ∈ e, InElement t k i v) := by
  have w := fromCubes_wf hu hc ht
  have hs' := ((subdivideCubical_iff hu hc hn ht).1 hs).1
  have ws := fromCubes_wf hu (allFine_cubes w hn) hs'
  refine ⟨_, fineCreases_ok hu hc hn ht hs hv, ⟨?_, ?_⟩, ?_, fun k x e hk hx => ?_⟩
  · rw [List.map_map]; exact hv.1
  · intro kc hkc
    obtain ⟨kc', h1, rfl⟩ := List.mem_map.1 hkc
    exact ⟨(hv.2 kc' h1).1, by simp⟩
  · rw [List.map_map]; rfl
  · obtain ⟨k0, hK, i0, B, h1, h2⟩ := transfers_entry hu hc hn ht hs hk hx
    have hin : ∀ i < t.nElements k, (∀ v ∈ e, InElement t k i v) ↔ k0 = k ∧ i0 = i := fun i hi =>
      inElement_iff w hn hK (ws.cube hn hk hx).1 hi h1
    obtain ⟨e0, c1, c2, -, -, c5, -⟩ := h1
    have hi0 : i0 < t.nElements k0 := Stored.lt c1
    have hxl : x < s.nElements k := (List.getElem?_eq_some_iff.1 hx).1
    unfold isCrease
    rw [lookup_map (fun k c => (List.range (s.nElements k)).map fun x => ((List.range (t.nElements k)).map fun j =>
        (T[k]?.getD ⟨0, 0, fun _ _ => 0⟩).entry x j * c[j]?.getD 0).sum)]
    cases hl : creases.lookup k with
    | none =>
      simp only [Option.map_none, beq_iff_eq]
      constructor
      · rintro rfl
        have := free_le B
        obtain rfl : k0 = k := by omega
        exact ⟨i0, hi0, rfl, (hin i0 hi0).2 ⟨rfl, rfl⟩⟩
      · rintro ⟨i, -, h, -⟩
        exact h
    | some c =>
      simp only [Option.map_some, bne_iff_ne]
      rw [List.getElem?_map, List.getElem?_range hxl, Option.map_some, Option.getD_some]
      simp only [h2]
      rw [sum_range_list]
      constructor
      · intro h
        obtain ⟨i, hi, hne⟩ := Finset.exists_ne_zero_of_sum_ne_zero h
        have hi := Finset.mem_range.1 hi
        by_cases hki : k0 = k ∧ i0 = i
        · rw [if_pos hki, one_mul] at hne
          exact ⟨i, hi, hne, (hin i hi).2 hki⟩
        · rw [if_neg hki, zero_mul] at hne
          exact absurd rfl hne
      · rintro ⟨i, hi, hne, hel⟩
        obtain ⟨rfl, rfl⟩ := (hin i hi).1 hel
        rw [Finset.sum_eq_single i0]
        · rw [if_pos ⟨rfl, rfl⟩, one_mul]
          exact hne
        · intro j _ hj
          rw [if_neg fun h => hj h.2.symm, zero_mul]
        · intro h
          exact absurd (Finset.mem_range.2 hi) h

theorem vstack_fold {N : Nat} : ∀ (l : List (Mat K)) (A : Mat K), A.cols = N → (∀ B ∈ l, B.cols = N) →
    ∃ S, l.foldlM (fun A B => if A.cols = B.cols then
      .ok ⟨A.rows + B.rows, A.cols, fun i j => if i < A.rows then A.entry i j else B.entry (i - A.rows) j⟩
    else .error .valueError) A = (.ok S : Except PyErr (Mat K)) ∧ S.cols = N ∧ S.rows = A.rows + (l.map Mat.rows).sum ∧
      (∀ i < A.rows, ∀ j, S.entry i j = A.entry i j) ∧
      ∀ (k : Nat) (B : Mat K), l[k]? = some B → ∀ i < B.rows, ∀ j,
        S.entry (A.rows + ((l.take k).map Mat.rows).sum + i) j = B.entry i j := by
  intro l
  induction l with
  | nil =>
    intro A hA _
    exact ⟨A, rfl, hA, by simp, fun _ _ _ => rfl, fun k B h => by simp at h⟩
  | cons B l ih =>
    intro A hA hl
    have hB := hl B (by simp)
    obtain ⟨S, h1, h2, h3, h4, h5⟩ := ih ⟨A.rows + B.rows, A.cols, fun i j =>
      if i < A.rows then A.entry i j else B.entry (i - A.rows) j⟩ hA fun C hC => hl C (by simp [hC])
    refine ⟨S, ?_, h2, ?_, ?_, ?_⟩
    · rw [List.foldlM_cons, if_pos (hA.trans hB.symm)]
      exact h1
    · rw [h3, List.map_cons, List.sum_cons, Nat.add_assoc]
    · intro i hi j
      rw [h4 i (by simp only; omega) j]
      simp only
      rw [if_pos hi]
    · intro k C hC i hi j
      cases k with
      | zero =>
        simp only [List.getElem?_cons_zero, Option.some.injEq] at hC
        subst hC
        simp only [List.take_zero, List.map_nil, List.sum_nil, Nat.add_zero]
        rw [h4 _ (by simp only; omega) j]
        simp only
        rw [if_neg (by omega), Nat.add_sub_cancel_left]
      | succ k =>
        have := h5 k C (by simpa using hC) i hi j
        rw [List.take_succ_cons, List.map_cons, List.sum_cons]
        simp only at this
        rw [← this]
        congr 1
        omega

theorem vstack_ok {N : Nat} {l : List (Mat K)} (hne : l ≠ []) (hl : ∀ B ∈ l, B.cols = N) :
    ∃ S, vstack l = .ok S ∧ S.cols = N ∧ S.rows = (l.map Mat.rows).sum ∧
      ∀ (k : Nat) (B : Mat K), l[k]? = some B → ∀ i < B.rows, ∀ j,
        S.entry (((l.take k).map Mat.rows).sum + i) j = B.entry i j := by
  cases l with
  | nil => exact absurd rfl hne
  | cons A l =>
    obtain ⟨S, h1, h2, h3, h4, h5⟩ := vstack_fold l A (hl A (by simp)) fun B hB => hl B (by simp [hB])
    refine ⟨S, h1, h2, by rw [h3, List.map_cons, List.sum_cons], fun k B hB i hi j => ?_⟩
    cases k with
    | zero =>
      simp only [List.getElem?_cons_zero, Option.some.injEq] at hB
      subst hB
      simp only [List.take_zero, List.map_nil, List.sum_nil, Nat.zero_add]
      exact h4 i hi j
    | succ k =>
      rw [List.take_succ_cons, List.map_cons, List.sum_cons]
      exact h5 k B (by simpa using hB) i hi j

/-- `vstack` of the averaging operators -/
theorem vstack_averages {L : List (Mat K)} (hl : L.length = n + 1)
    (h : ∀ k ≤ n, ∃ A, L[k]? = some A ∧ A.rows = t.nElements k ∧ A.cols = t.nElements 0) :
    ∃ S, vstack L = .ok S ∧ S.cols = t.nElements 0 ∧ S.rows = ((List.range (n + 1)).map t.nElements).sum ∧
      ∀ k ≤ n, ∀ A, L[k]? = some A → ∀ i < t.nElements k, ∀ j, S.entry (subVertex t k i) j = A.entry i j := by
  have hrows : L.map Mat.rows = (List.range (n + 1)).map t.nElements := by
    apply List.ext_getElem?
    intro k
    rw [List.getElem?_map, List.getElem?_map]
    rcases Nat.lt_or_ge k (n + 1) with hk | hk
    · obtain ⟨A, h1, h2, -⟩ := h k (by omega)
      rw [h1, List.getElem?_range hk, Option.map_some, Option.map_some, h2]
    · rw [List.getElem?_eq_none (by omega), List.getElem?_eq_none (by simpa using hk)]
      rfl
  obtain ⟨S, h1, h2, h3, h4⟩ := vstack_ok (l := L) (N := t.nElements 0) (by intro h; rw [h] at hl; simp at hl) (by
    intro B hB
    obtain ⟨k, hk⟩ := List.mem_iff_getElem?.1 hB
    obtain ⟨A, g1, -, g2⟩ := h k (by have := (List.getElem?_eq_some_iff.1 hk).1; omega)
    rw [hk] at g1
    rw [Option.some.inj g1, g2])
  refine ⟨S, h1, h2, by rw [h3, hrows], fun k hk A hA i hi j => ?_⟩
  rw [← h4 k A hA i (by
    obtain ⟨A', g1, g2, -⟩ := h k hk
    rw [hA] at g1
    rw [Option.some.inj g1, g2]
    exact hi) j]
  congr 1
  unfold subVertex
  rw [List.map_take, hrows, ← List.map_take, List.take_range, Nat.min_eq_left (by omega)]

/-- C69: `subdivide_operator` applied to the vertices of a cubical complex of up to five dimensions gives the vertices of
`subdivide_cubical`, with and without smoothing.  With smoothing, no chain of cubes may be given. -/
theorem C69_subdivide (hu : UniqSpec uniq) (hc : Cubes n cubes) (hn : 1 ≤ n) (h5 : n ≤ 5) (ht : fromCubes uniq true n cubes = .ok t)
    (hv : ValidCreases t n creases) (V : List (Vec K d)) (hV : V.length = t.nElements 0) (smoothing : Bool)
    (hl : smoothing = true → creases.lookup n = none) :
    ∃ s V' M, subdivideComplex uniq t V creases smoothing = .ok (s, V') ∧ subdivideOperator uniq t creases smoothing = .ok M ∧
      M.rows = V'.length ∧ M.cols = V.length ∧
      ∀ v < V'.length, ∃ x, V'[v]? = some x ∧
        ∀ q, x q = ((List.range M.cols).map fun u => M.entry v u * (V[u]?.getD 0) q).sum := by
  have w := fromCubes_wf hu hc ht
  obtain ⟨s, T, hs⟩ := C67_accepts hu hc hn ht
  have hs' := ((subdivideCubical_iff hu hc hn ht).1 hs).1
  obtain ⟨V', v1, v2, v3⟩ := C67_positions hu hc hn ht hs V (by omega)
  obtain ⟨L, a1, a2, a3⟩ := C68_vertices (K := K) hu hc hn ht
  obtain ⟨A, b1, b2, b3, b4⟩ := vstack_averages (t := t) (n := n) a2 (fun k hk => by
    obtain ⟨A, g1, g2, g3, -⟩ := a3 k hk (by omega)
    exact ⟨A, g1, g2, g3⟩)
  have hrows : s.nElements 0 = ((List.range (n + 1)).map t.nElements).sum := by
    rw [C67_counts hu hc hn ht hs (Nat.zero_le n)]
    congr 1
    refine List.map_congr_left fun m _ => ?_
    simp
  have hAV : ∀ v < V'.length, ∃ x, V'[v]? = some x ∧
      ∀ q, x q = ((List.range A.cols).map fun u => A.entry v u * (V[u]?.getD 0) q).sum := by
    intro v hv'
    rw [v2, hrows] at hv'
    obtain ⟨k, hk, i, hi, rfl⟩ := offs_decode t.nElements (m := n + 1) hv'
    obtain ⟨B, g1, g2, g3, g4⟩ := a3 k (by omega) (by omega)
    obtain ⟨e, he⟩ := stored_of_lt hi
    have he : (t.elements[k]?.getD [])[i]? = some e := he
    obtain ⟨x, x1, x2⟩ := v3 k i e (by omega) he
    refine ⟨x, x1, fun q => ?_⟩
    have hlt : k < t.elements.length := by rw [w.lenE]; omega
    have hE := List.getElem?_eq_getElem hlt
    have e1 := g4 _ hE i e (by rw [hE] at he; exact he) fun u => (V[u]?.getD 0) q
    have e2 : ∀ u, A.entry (offs t.nElements k + i) u = B.entry i u := fun u => b4 k (by omega) B g1 i hi u
    simp only [e2]
    rw [b2, ← g3, e1]
    unfold mean
    rw [List.length_map, (w.cube hn (by omega) he).1, ← x2 q]
    have : (2 ^ k : K) ≠ 0 := by positivity
    push_cast
    field_simp
  obtain ⟨fine, f1, f2, f3, -⟩ := C69_creases hu hc hn ht hs hv
  cases smoothing with
  | false =>
    refine ⟨s, V', A, ?_, ?_, by omega, by omega, hAV⟩
    · unfold subdivideComplex
      rw [v1, ok_bind', hs, ok_bind', f1, ok_bind']
      rfl
    · unfold subdivideOperator
      rw [a1, ok_bind', b1, ok_bind']
      rfl
  | true =>
    have hfl : fine.lookup n = none := by
      rw [List.lookup_eq_none_iff]
      intro p hp
      simp only [bne_iff_ne, ne_eq]
      intro hnp
      have hm : n ∈ creases.map (·.1) := by
        rw [← f3]
        exact List.mem_map.2 ⟨p, hp, hnp.symm⟩
      obtain ⟨p', hp', hpn⟩ := List.mem_map.1 hm
      have := List.lookup_eq_none_iff.1 (hl rfl) p' hp'
      simp [hpn] at this
    obtain ⟨PP, W, S, s1, s2, s3, s4, s5, s6⟩ := C69_agree hu (allFine_cubes w hn) hn hs' f2 V' v2
    have hmul : S.mul A = .ok ⟨S.rows, A.cols, fun i j =>
        ((List.range S.cols).map fun m => S.entry i m * A.entry m j).sum⟩ := by
      unfold Mat.mul
      rw [if_pos (by omega)]
    refine ⟨s, W, ⟨S.rows, A.cols, fun i j => ((List.range S.cols).map fun m => S.entry i m * A.entry m j).sum⟩,
      ?_, ?_, s4, by show A.cols = _; omega, fun v hv' => ?_⟩
    · unfold subdivideComplex
      rw [v1, ok_bind', hs, ok_bind', f1, ok_bind', if_pos rfl, s1, ok_bind', s2, ok_bind']
    · unfold subdivideOperator
      rw [a1, ok_bind', b1, ok_bind', if_pos rfl, hs, ok_bind', f1, ok_bind', s3, ok_bind', hmul]
    · have hWl : W.length = s.nElements 0 := by
        obtain ⟨PP', W', t1, t2, t3, -⟩ := C69_smooth hu (allFine_cubes w hn) hn hs' f2 V' v2
        rw [t1] at s1
        obtain rfl := Except.ok.inj s1
        rw [t2] at s2
        obtain rfl := Except.ok.inj s2
        omega
      obtain ⟨x, x1, x2⟩ := s6 v hv' (C69_covered hu (allFine_cubes w hn) hn hs' hfl (by omega))
      refine ⟨x, x1, fun q => ?_⟩
      rw [x2 q]
      simp only [sum_range_list]
      have : ∀ m ∈ Finset.range S.cols, S.entry v m * (V'[m]?.getD 0) q =
          ∑ u ∈ Finset.range A.cols, S.entry v m * A.entry m u * (V[u]?.getD 0) q := by
        intro m hm
        obtain ⟨y, y1, y2⟩ := hAV m (by have := Finset.mem_range.1 hm; omega)
        rw [y1, Option.getD_some, y2 q, sum_range_list, Finset.mul_sum]
        refine Finset.sum_congr rfl fun u _ => ?_
        rw [mul_assoc]
      rw [Finset.sum_congr rfl this, Finset.sum_comm]
      refine Finset.sum_congr rfl fun u _ => ?_
      rw [Finset.sum_mul]

/-- C69 fails from six dimensions on: in the rows of the centers of elements of six and more dimensions `subdivide_operator` gives
minus their positions. -/
theorem C69_subdivide_negated (hu : UniqSpec uniq) (hc : Cubes n cubes) (hn : 1 ≤ n) (ht : fromCubes uniq true n cubes = .ok t)
    (hv : ValidCreases t n creases) (V : List (Vec K d)) (hV : V.length = t.nElements 0) :
    ∃ s V' M, subdivideComplex uniq t V creases false = .ok (s, V') ∧ subdivideOperator uniq t creases false = .ok M ∧
      ∀ k ≤ n, 6 ≤ k → ∀ i < t.nElements k, ∃ x, V'[subVertex t k i]? = some x ∧
        ∀ q, ((List.range M.cols).map fun u => M.entry (subVertex t k i) u * (V[u]?.getD 0) q).sum = - x q := by
  have w := fromCubes_wf hu hc ht
  obtain ⟨s, T, hs⟩ := C67_accepts hu hc hn ht
  obtain ⟨V', v1, v2, v3⟩ := C67_positions hu hc hn ht hs V (by omega)
  obtain ⟨L, a1, a2, a3⟩ := cubeAveraging0 (K := K) hu hc hn ht
  obtain ⟨A, b1, b2, b3, b4⟩ := vstack_averages (t := t) (n := n) a2 (fun k hk => by
    obtain ⟨A, g1, g2, g3, -⟩ := a3 k hk
    exact ⟨A, g1, g2, g3⟩)
  have h7 := cubes_dim hu hc hn ht
  refine ⟨s, V', A, ?_, ?_, fun k hk hk6 i hi => ?_⟩
  · obtain ⟨fine, f1, -⟩ := C69_creases hu hc hn ht hs hv
    unfold subdivideComplex
    rw [v1, ok_bind', hs, ok_bind', f1, ok_bind']
    rfl
  · unfold subdivideOperator
    rw [a1, ok_bind', b1, ok_bind']
    rfl
  · obtain ⟨B, g1, g2, g3, g4⟩ := a3 k hk
    obtain ⟨e, he⟩ := stored_of_lt hi
    have he : (t.elements[k]?.getD [])[i]? = some e := he
    obtain ⟨x, x1, x2⟩ := v3 k i e hk he
    refine ⟨x, x1, fun q => ?_⟩
    have hlt : k < t.elements.length := by rw [w.lenE]; omega
    have hE := List.getElem?_eq_getElem hlt
    have e1 := g4 _ hE i e (by rw [hE] at he; exact he) fun u => (V[u]?.getD 0) q
    have e2 : ∀ u, A.entry (subVertex t k i) u = B.entry i u := fun u => b4 k hk B g1 i hi u
    simp only [e2]
    rw [b2, ← g3, e1, weights_neg (by omega), neg_one_mul]
    congr 1
    unfold mean
    rw [List.length_map, (w.cube hn hk he).1, ← x2 q]
    have : (2 ^ k : K) ≠ 0 := by positivity
    push_cast
    field_simp

/-! ### Loop subdivision -/

/-- C69 fails for triangles: `subdivide_loop_operator` has one row for each vertex, edge and triangle, but `subdivide_loop` makes
no vertices for triangles; so the shape is wrong, and with smoothing the product raises a `ValueError`. -/
theorem C69_loop_fails (hu : UniqSpec uniq) (hs : Simplices 3 simplices) (h : fromSimplices uniq 3 simplices = .ok t)
    (hne : simplices ≠ []) (hv : ValidCreases t 2 creases) :
    ∃ t', subdivideLoop uniq t = .ok t' ∧
      (∃ M : Mat K, subdivideLoopOperator uniq t creases false = .ok M ∧ M.cols = t.nElements 0 ∧
        M.rows = t'.nElements 0 + simplices.length) ∧
      (subdivideLoopOperator uniq t creases true : Except PyErr (Mat K)) = .error .valueError := by
  obtain ⟨t', rows, l1, l2, l3, l4, l5, -⟩ := C16_counts_and_orientation hu hs h
  obtain ⟨L, a1, a2, a3⟩ := averaging0 (K := K) (n := 2) hu hs h
  obtain ⟨A, b1, b2, b3, b4⟩ := vstack_averages (t := t) (n := 2) a2 (fun k hk => by
    obtain ⟨A, g1, g2, g3, -⟩ := a3 k hk
    exact ⟨A, g1, g2, g3⟩)
  obtain ⟨hn, wf⟩ := fromSimplices_wf (n := 2) hu hs h
  have hF : t.nElements 2 = simplices.length := by unfold Topo.nElements; rw [wf.top_eq]; rfl
  have hrows : A.rows = t'.nElements 0 + simplices.length := by
    rw [b3, l4, ← hF]
    simp [List.range_succ]
    omega
  have hpos : 0 < simplices.length := List.length_pos_iff.2 hne
  refine ⟨t', l1, ⟨A, ?_, b2, hrows⟩, ?_⟩
  · unfold subdivideLoopOperator
    rw [a1, ok_bind', b1, ok_bind']
    rfl
  · have ht' : fromSimplices uniq 3 rows = .ok t' := by
      obtain ⟨t'', ht'', wf''⟩ := wf.subdivideLoop_ok hu hs
      rw [l1] at ht''
      obtain rfl := Except.ok.inj ht''
      have h6 := l1
      unfold subdivideLoop at h6
      rw [wf.loopRows_eq hs] at h6
      rw [wf''.top_eq] at l2
      rw [← Option.some.inj l2]
      exact h6
    have hfine : ∃ fine, fineCreases (loopTransfer t t') creases = .ok fine ∧ ValidCreases t' 2 fine := by
      have hT : ∀ k ≤ 2, ∃ M, (loopTransfer t t')[k]? = some M ∧ M.rows = t'.nElements k ∧ M.cols = t.nElements k := by
        intro k hk
        have : k = 0 ∨ k = 1 ∨ k = 2 := by omega
        rcases this with rfl | rfl | rfl <;> exact ⟨_, rfl, rfl, rfl⟩
      refine ⟨_, mapM_ok _ (fun kc => (kc.1, (List.range (t'.nElements kc.1)).map fun x =>
        ((List.range (t.nElements kc.1)).map fun j =>
          ((loopTransfer t t')[kc.1]?.getD ⟨0, 0, fun _ _ => 0⟩).entry x j * kc.2[j]?.getD 0).sum)) _ fun kc hkc => ?_, ?_, ?_⟩
      · obtain ⟨h1, h2⟩ := hv.2 kc hkc
        obtain ⟨M, g1, g2, g3⟩ := hT kc.1 h1
        rw [g1]
        simp only [Option.getD_some]
        unfold mulChain
        rw [if_pos (by omega), g2, g3]
        rfl
      · rw [List.map_map]; exact hv.1
      · intro kc hkc
        obtain ⟨kc', h1, rfl⟩ := List.mem_map.1 hkc
        exact ⟨(hv.2 kc' h1).1, by simp⟩
    obtain ⟨fine, f1, f2⟩ := hfine
    obtain ⟨S, s1, s2, s3, -⟩ := C69_operator_simplices (K := K) (n := 2) hu l3 ht' (by omega) f2
    unfold subdivideLoopOperator
    rw [a1, ok_bind', b1, ok_bind', if_pos rfl, l1, ok_bind', f1, ok_bind', s1, ok_bind']
    unfold Mat.mul
    rw [if_neg (by omega)]

/-! ### triangles

`primal_position` of triangles is their circumcenter (C57), not the mean of the corners that the operator uses. -/

/-- C69 fails for triangles: `smooth` of a right triangle moves all vertices to the middle of the longest side, while the operator
moves them to the center of mass. -/
theorem C69_right_triangle :
    ∃ t, fromSimplices List.dedup 3 [[0, 1, 2]] = .ok t ∧
      ∀ (P0 P1 : List (Vec ℚ 2)) (c : Vec ℚ 2), P0.length = 3 → P1.length = 3 →
        IsCenter ![![0, 0], ![2, 0], ![0, 2]] 0 c →
        (∃ W, smooth t [![0, 0], ![2, 0], ![0, 2]] [P0, P1, [c]] [] = .ok W ∧ W.length = 3 ∧
          ∀ v < 3, W[v]? = some ![1, 1]) ∧
        ∃ M : Mat ℚ, smoothOperator t [] = .ok M ∧ ∀ v < 3, ∀ q,
          ((List.range M.cols).map fun u => M.entry v u * (([![0, 0], ![2, 0], ![0, 2]] : List (Vec ℚ 2))[u]?.getD 0) q).sum = 2 / 3 := by
  obtain ⟨t, ht⟩ : ∃ t, fromSimplices List.dedup 3 [[0, 1, 2]] = .ok t := ⟨_, rfl⟩
  refine ⟨t, ht, fun P0 P1 c h0 h1 hc => ?_⟩
  have hs : Simplices 3 [[0, 1, 2]] := by
    intro l hl
    rw [List.mem_singleton] at hl
    subst hl
    decide
  have hval : ValidCreases t 2 [] := ⟨List.nodup_nil, fun _ h => by simp at h⟩
  have hr := simplex_rows (n := 2) uniqSpec_dedup hs ht
  have hnum : t.nElements 0 = 3 ∧ t.nElements 1 = 3 ∧ t.nElements 2 = 1 ∧ ∀ v < 3, creaseLevel t 2 [] v = some 2 ∧
      creasesAt t 2 [] 2 v = [0] ∧ (t.elements[2]?.getD [])[0]?.getD [] = [0, 1, 2] := by
    have : t = built 3 [[0, 1, 2]] := by
      unfold built
      rw [ht]
    rw [this]
    decide +kernel
  obtain ⟨n0, n1, n2, hv⟩ := hnum
  have hcc : c = ![1, 1] := by
    have e1 := hc.2 0 1
    have e2 := hc.2 0 2
    unfold power at e1 e2
    rw [Fin.sum_univ_two, Fin.sum_univ_two] at e1 e2
    change (c 0 - 0) ^ 2 + (c 1 - 0) ^ 2 - 0 = (c 0 - 2) ^ 2 + (c 1 - 0) ^ 2 - 0 at e1
    change (c 0 - 0) ^ 2 + (c 1 - 0) ^ 2 - 0 = (c 0 - 0) ^ 2 + (c 1 - 2) ^ 2 - 0 at e2
    have : ∀ q, c q = (![1, 1] : Vec ℚ 2) q := by
      refine Fin.forall_fin_two.2 ⟨?_, ?_⟩
      · show c 0 = 1
        nlinarith
      · show c 1 = 1
        nlinarith
    exact funext this
  subst hcc
  constructor
  · obtain ⟨W, w1, w2, w3⟩ := smooth_ok (K := ℚ) (V := [![0, 0], ![2, 0], ![0, 2]]) (PP := [P0, P1, [![1, 1]]]) (t := t) (n := 2)
      (creases := []) (size := fun k => k + 1) (by rw [n0] at hr; exact hr) hval rfl (by
        intro k hk
        have : k = 0 ∨ k = 1 ∨ k = 2 := by omega
        rcases this with rfl | rfl | rfl
        · rw [n0]; exact h0
        · rw [n1]; exact h1
        · rw [n2]; rfl)
    refine ⟨W, w1, w2, fun v hv' => ?_⟩
    rw [w3 v hv']
    congr 1
    funext q
    obtain ⟨g1, g2, g3⟩ := hv v hv'
    unfold smoothed
    rw [g1]
    simp only [g2]
    have single : ∀ y : ℚ, mean [y] = y := fun y => by unfold mean; simp
    exact single _
  · obtain ⟨M, m1, m2, m3, m4⟩ := C69_operator_simplices (K := ℚ) (n := 2) uniqSpec_dedup hs ht (by omega) hval
    refine ⟨M, m1, fun v hv' => ?_⟩
    obtain ⟨g1, g2, g3⟩ := hv v hv'
    have key : ∀ q, ((List.range M.cols).map fun u =>
        M.entry v u * (([![0, 0], ![2, 0], ![0, 2]] : List (Vec ℚ 2))[u]?.getD 0) q).sum =
        mean [mean ([0, 1, 2].map fun u => (([![0, 0], ![2, 0], ![0, 2]] : List (Vec ℚ 2))[u]?.getD 0) q)] := by
      intro q
      rw [((m4 v (by omega)).2.1 2 g1).2 fun u => (([![0, 0], ![2, 0], ![0, 2]] : List (Vec ℚ 2))[u]?.getD 0) q, g2,
        List.map_cons, g3]
      rfl
    refine Fin.forall_fin_two.2 ⟨?_, ?_⟩
    · rw [key]
      show mean [mean [(0 : ℚ), 2, 0]] = 2 / 3
      norm_num [mean]
    · rw [key]
      show mean [mean [(0 : ℚ), 0, 2]] = 2 / 3
      norm_num [mean]

/-! ### examples -/

/-- the right triangle has a circumcenter -/
example : IsCenter ![![0, 0], ![2, 0], ![0, 2]] 0 (![1, 1] : Vec ℚ 2) := by
  refine ⟨⟨![0, 1 / 2, 1 / 2], ?_⟩, by decide +kernel⟩
  unfold Combines
  decide +kernel


/-- two squares with a common edge that is a crease: its ends follow the edge, the other vertices their square -/
example : ∃ t, fromCubes List.dedup true 2 [[0, 1, 2, 3], [2, 3, 4, 5]] = .ok t ∧
    ValidCreases t 2 [(1, t.elements[1]!.map fun e => if e.isPerm [2, 3] then 1 else 0)] ∧
    ((List.range 6).map fun v => creaseLevel t 2 [(1, t.elements[1]!.map fun e => if e.isPerm [2, 3] then 1 else 0)] v) =
      [some 2, some 2, some 1, some 1, some 2, some 2] ∧
    ((smoothOperator t [(1, t.elements[1]!.map fun e => if e.isPerm [2, 3] then 1 else 0)] : Except PyErr (Mat ℚ)).toOption.map
      fun A => (List.range A.rows).map fun i => (List.range A.cols).map fun j => A.entry i j) =
      some [[1/4, 1/4, 1/4, 1/4, 0, 0], [1/4, 1/4, 1/4, 1/4, 0, 0], [0, 0, 1/2, 1/2, 0, 0], [0, 0, 1/2, 1/2, 0, 0],
        [0, 0, 1/4, 1/4, 1/4, 1/4], [0, 0, 1/4, 1/4, 1/4, 1/4]] := by
  refine ⟨_, rfl, ?_⟩
  unfold ValidCreases
  decide +kernel

/-- one square of two is chosen: the vertices of the other one have no crease, so `smooth` leaves them where they are (C69_smooth)
while their rows of the operator are empty (C69_operator) -/
example : ∃ t, fromCubes List.dedup true 2 [[0, 1, 2, 3], [2, 3, 4, 5]] = .ok t ∧ ValidCreases t 2 [(2, [1, 0])] ∧
    ((List.range 6).map fun v => creaseLevel t 2 [(2, [1, 0])] v) = [some 2, some 2, some 2, some 2, none, none] := by
  refine ⟨_, rfl, ?_⟩
  unfold ValidCreases
  decide +kernel

end Verif.Props
