/-
C93: the transfer matrices of the dual.
-/
import Verif.Model.DualTransfer
import Verif.Props.DualSelectors
import Verif.Props.CubicalDomains
import Verif.Props.LoopTransfer

set_option linter.unusedSectionVars false

namespace Verif.Props

open Verif Verif.Model Verif.Spec

variable {n : Nat} {uniq : List (List Nat) → List (List Nat)} {solve : List (List Int) → Option (List Int)}

/-- a selector picks one of the values -/
theorem picks_sum {S : Mat Int} {L : List Nat} (h : Picks S L) {r p N : Nat} (hN : S.cols = N) (hr : L[r]? = some p) (x : Nat → Int) :
    ((List.range N).map fun c => S.entry r c * x c).sum = x p := by
  have hp : p < N := by rw [← hN]; exact h.2.1 p (List.mem_of_getElem? hr)
  have e : ((List.range N).map fun c => S.entry r c * x c) = (List.range N).map fun c => (if p = c then 1 else 0 : ℤ) * x c :=
    List.map_congr_left fun c _ => by simp only [h.2.2.2, hr, Option.some.injEq]
  have ps := pick_sum (R := ℤ) N p x
  simp only [Int.cast_id] at ps
  rw [e, ps, if_pos hp]

/-- C93: what the transfer matrices of the dual hold, for transfer matrices of the primal with entries 0 and 1.  `Pf` and `Pc` list
the boundary elements of the fine and of the coarse topology. -/
theorem C93_blocks {T Sf Sc : List (Mat Int)} {Nf Nc : Nat → Nat} {Pf Pc : Nat → List Nat} (hT : T.length = n + 1)
    (hsh : ∀ k ≤ n, ∃ M, T[k]? = some M ∧ M.rows = Nf k ∧ M.cols = Nc k ∧
      ∀ i < Nf k, ∀ j < Nc k, M.entry i j = 0 ∨ M.entry i j = 1)
    (hSf : Sf.length = n + 1) (hSc : Sc.length = n + 1)
    (hf : ∀ k < n, ∃ S, Sf[k]? = some S ∧ S.cols = Nf k ∧ Picks S (Pf k))
    (hc : ∀ k < n, ∃ S, Sc[k]? = some S ∧ S.cols = Nc k ∧ Picks S (Pc k)) :
    ∃ D, dualTransfer T Sf Sc = .ok D ∧ D.length = n + 1 ∧ D[n]? = T[0]? ∧ ∀ k < n, ∃ B M M', D[n - (k + 1)]? = some B ∧
      T[k + 1]? = some M ∧ T[k]? = some M' ∧ B.rows = Nf (k + 1) + (Pf k).length ∧ B.cols = Nc (k + 1) + (Pc k).length ∧
      (∀ i < Nf (k + 1), ∀ j < Nc (k + 1), B.entry i j = M.entry i j) ∧
      (∀ i < Nf (k + 1), ∀ q < (Pc k).length, B.entry i (Nc (k + 1) + q) = 0) ∧
      (∀ i < (Pf k).length, ∀ j < Nc (k + 1), B.entry (Nf (k + 1) + i) j = 0) ∧
      ∀ (i q a b : Nat), (Pf k)[i]? = some a → (Pc k)[q]? = some b →
        B.entry (Nf (k + 1) + i) (Nc (k + 1) + q) = M'.entry a b := by
  obtain ⟨bl, h1, h2, h3⟩ := mapM_levels (fun x : (Mat Int × Mat Int) × Mat Int × Mat Int => (do
      let p ← mul8 x.2.1 x.1.2
      let q ← mul8 p x.2.2.transpose
      .ok (blockDiag x.1.1 q) : Except PyErr (Mat Int))) (l := (T.tail.zip T).zip (Sf.zip Sc)) (m := n)
    (by simp only [List.length_zip, List.length_tail]; omega)
    (P := fun k B => ∃ M M', T[k + 1]? = some M ∧ T[k]? = some M' ∧ B.rows = Nf (k + 1) + (Pf k).length ∧
      B.cols = Nc (k + 1) + (Pc k).length ∧
      (∀ i < Nf (k + 1), ∀ j < Nc (k + 1), B.entry i j = M.entry i j) ∧
      (∀ i < Nf (k + 1), ∀ q < (Pc k).length, B.entry i (Nc (k + 1) + q) = 0) ∧
      (∀ i < (Pf k).length, ∀ j < Nc (k + 1), B.entry (Nf (k + 1) + i) j = 0) ∧
      ∀ (i q a b : Nat), (Pf k)[i]? = some a → (Pc k)[q]? = some b →
        B.entry (Nf (k + 1) + i) (Nc (k + 1) + q) = M'.entry a b) (by
    intro k hk
    obtain ⟨M, m1, m2, m3, -⟩ := hsh (k + 1) (by omega)
    obtain ⟨M', a1, a2, a3, a4⟩ := hsh k (by omega)
    obtain ⟨S, s1, s2, s3⟩ := hf k hk
    obtain ⟨R, r1, r2, r3⟩ := hc k hk
    refine ⟨((M, M'), S, R), blockDiag M (prod8 (prod8 S M') R.transpose), ?_, ?_, M, M', m1, a1, ?_, ?_, ?_, ?_, ?_, ?_⟩
    · rw [List.getElem?_zip_eq_some, List.getElem?_zip_eq_some, List.getElem?_zip_eq_some, List.getElem?_tail]
      exact ⟨⟨m1, a1⟩, s1, r1⟩
    · simp only [bind, Except.bind]
      rw [mul8_ok (by rw [s2, a2])]
      simp only
      rw [mul8_ok (by show M'.cols = R.cols; rw [a3, r2])]
    · show M.rows + S.rows = _
      rw [m2, s3.2.2.1]
    · show M.cols + R.rows = _
      rw [m3, r3.2.2.1]
    · intro i hi j hj
      simp only [blockDiag, m2, m3, if_pos hi, if_pos hj]
    · intro i hi q hq
      simp only [blockDiag, m2, m3, if_pos hi, if_neg (show ¬ Nc (k + 1) + q < Nc (k + 1) by omega)]
    · intro i hi j hj
      simp only [blockDiag, m2, m3, if_pos hj, if_neg (show ¬ Nf (k + 1) + i < Nf (k + 1) by omega)]
    · intro i q a b ha hb
      have hal : a < Nf k := by rw [← s2]; exact s3.2.1 a (List.mem_of_getElem? ha)
      have hbl : b < Nc k := by rw [← r2]; exact r3.2.1 b (List.mem_of_getElem? hb)
      have hw : ∀ c < Nc k, wrap8 (M'.entry a c) = M'.entry a c := by
        intro c hcc
        rcases a4 a hal c hcc with h | h <;> rw [h] <;> rfl
      simp only [blockDiag, m2, m3, if_neg (show ¬ Nf (k + 1) + i < Nf (k + 1) by omega),
        if_neg (show ¬ Nc (k + 1) + q < Nc (k + 1) by omega), Nat.add_sub_cancel_left]
      show wrap8 ((List.range M'.cols).map fun c =>
        wrap8 ((List.range S.cols).map fun u => S.entry i u * M'.entry u c).sum * R.entry q c).sum = _
      have e : ((List.range M'.cols).map fun c =>
          wrap8 ((List.range S.cols).map fun u => S.entry i u * M'.entry u c).sum * R.entry q c) =
          (List.range (Nc k)).map fun c => R.entry q c * M'.entry a c := by
        rw [a3]
        refine List.map_congr_left fun c hcc => ?_
        rw [picks_sum s3 rfl ha fun u => M'.entry u c, hw c (List.mem_range.1 hcc), mul_comm]
      rw [e, picks_sum r3 r2 hb fun c => M'.entry a c, hw b hbl])
  obtain ⟨t0, T', rfl⟩ := List.exists_cons_of_length_pos (l := T) (by omega)
  refine ⟨(t0 :: bl).reverse, ?_, by simp [h2], ?_, fun k hk => ?_⟩
  · unfold dualTransfer
    simp only [bind, Except.bind] at h1 ⊢
    rw [h1]
  · rw [List.getElem?_reverse (by simp; omega)]
    simp [h2]
  · obtain ⟨B, b1, M, M', b2⟩ := h3 k hk
    refine ⟨B, M, M', ?_, b2⟩
    rw [List.getElem?_reverse (by simp; omega), List.length_cons, h2, show n + 1 - 1 - (n - (k + 1)) = k + 1 by omega,
      List.getElem?_cons_succ]
    exact b1

/-- C93: `dual.transfer_matrices` of the subdivision of a cubical complex with boundary has a row for every element of the fine dual
and a column for every element of the coarse dual.  The entry of two primal elements is one if the fine one lies in the coarse
one, and so is the entry of two boundary elements; all others are zero. -/
theorem C93_cubes {cubes : List (List Nat)} {t f : Topo} {T : List (Mat Int)} {sf sc : Sub} (hu : UniqSpec uniq)
    (hc : Cubes (n + 2) cubes) (ht : fromCubes uniq true (n + 2) cubes = .ok t) (hs : subdivideCubical uniq t = .ok (f, T))
    (hbf : cubicalBoundary solve uniq f = .ok (some sf)) (hbc : cubicalBoundary solve uniq t = .ok (some sc))
    (hof : InOrder sf.parentIdx) (hoc : InOrder sc.parentIdx) :
    ∃ D, dualTransfer T (boundarySelectors f sf) (boundarySelectors t sc) = .ok D ∧ D.length = n + 3 ∧ ∀ k ≤ n + 2, ∃ B,
      D[n + 2 - k]? = some B ∧ (dualNElements f (some sf))[n + 2 - k]? = some B.rows ∧
      (dualNElements t (some sc))[n + 2 - k]? = some B.cols ∧
      (∀ (x i : Nat) (e : List Nat), (f.elements[k]?.getD [])[x]? = some e → i < t.nElements k →
        ((∀ v ∈ e, InElement t k i v) → B.entry x i = 1) ∧ ((¬ ∀ v ∈ e, InElement t k i v) → B.entry x i = 0)) ∧
      ∀ j, k = j + 1 →
        (∀ x < f.nElements k, ∀ i < sc.topo.nElements j, B.entry x (t.nElements k + i) = 0) ∧
        (∀ x < sf.topo.nElements j, ∀ i < t.nElements k, B.entry (f.nElements k + x) i = 0) ∧
        ∀ (x i a b : Nat) (e : List Nat), (sf.parentIdx[j]?.getD [])[x]? = some a → (f.elements[j]?.getD [])[a]? = some e →
          (sc.parentIdx[j]?.getD [])[i]? = some b →
          ((∀ v ∈ e, InElement t j b v) → B.entry (f.nElements k + x) (t.nElements k + i) = 1) ∧
          ((¬ ∀ v ∈ e, InElement t j b v) → B.entry (f.nElements k + x) (t.nElements k + i) = 0) := by
  have hn : 1 ≤ n + 2 := by omega
  have wc := fromCubes_wf hu hc ht
  have hs' := ((subdivideCubical_iff hu hc hn ht).1 hs).1
  have hcf := allFine_cubes wc hn
  have wf := fromCubes_wf hu hcf hs'
  have okf := cubes_boundary_sub hu hcf hs' hbf
  have okc := cubes_boundary_sub hu hc ht hbc
  have gf := glued_cubical wf hcf okf hof
  have gc := glued_cubical wc hc okc hoc
  obtain ⟨hTl, hT⟩ := C67_transfers hu hc hn ht hs
  have hsel : ∀ (u : Topo) (w : Sub), u.elements.length = n + 3 → ∀ k < n + 2,
      (boundarySelectors u w)[k]? = some (boundarySelector u w k) := by
    intro u w hl k hk
    unfold boundarySelectors
    rw [hl, List.getElem?_map, List.getElem?_range (by omega)]
    rfl
  obtain ⟨D, d1, d2, d3, d4⟩ := C93_blocks (n := n + 2) (T := T) (Sf := boundarySelectors f sf) (Sc := boundarySelectors t sc)
    (Nf := f.nElements) (Nc := t.nElements) (Pf := fun k => sf.parentIdx[k]?.getD []) (Pc := fun k => sc.parentIdx[k]?.getD [])
    hTl (fun k hk => by
      obtain ⟨M, m1, m2, m3, m4⟩ := hT k hk
      refine ⟨M, m1, m2, m3, fun i hi j hj => ?_⟩
      obtain ⟨q1, q2⟩ := m4 i j _ (List.getElem?_eq_getElem (show i < (f.elements[k]?.getD []).length from hi)) hj
      by_cases h : ∀ v ∈ (f.elements[k]?.getD [])[i]'hi, InElement t k j v
      · exact .inr (q1 h)
      · exact .inl (q2 h))
    (by unfold boundarySelectors; rw [List.length_map, List.length_range, wf.lenE])
    (by unfold boundarySelectors; rw [List.length_map, List.length_range, wc.lenE])
    (fun k hk => ⟨_, hsel f sf wf.lenE k hk, Glued.cols_selector f sf k, gf.picks k (by omega)⟩)
    (fun k hk => ⟨_, hsel t sc wc.lenE k hk, Glued.cols_selector t sc k, gc.picks k (by omega)⟩)
  have hcount : ∀ (u : Topo) (w : Sub), u.elements.length = n + 3 → w.topo.elements.length = n + 2 → ∀ k ≤ n + 2,
      (dualNElements u (some w))[n + 2 - k]? = some (u.nElements k + if k = 0 then 0 else w.topo.nElements (k - 1)) := by
    intro u w h1 h2 k hk
    obtain ⟨hl, hN⟩ := dual_counts (t := u) (s := w) (by omega) (k := k) (by omega)
    rw [List.getElem?_reverse (by omega), hl, h1, show n + 3 - 1 - k = n + 2 - k by omega] at hN
    exact hN
  refine ⟨D, d1, d2, fun k hk => ?_⟩
  have c1 := hcount f sf wf.lenE okf.wf.lenE k hk
  have c2 := hcount t sc wc.lenE okc.wf.lenE k hk
  cases k with
  | zero =>
    obtain ⟨M, m1, m2, m3, m4⟩ := hT 0 (by omega)
    exact ⟨M, d3.trans m1, by rw [c1, m2]; rfl, by rw [c2, m3]; rfl, m4, fun j hj => by omega⟩
  | succ k =>
    obtain ⟨B, M, M', b1, b2, b3, b4, b5, b6, b7, b8, b9⟩ := d4 k (by omega)
    obtain ⟨M0, m1, m2, m3, m4⟩ := hT (k + 1) hk
    obtain ⟨M1, a1, a2, a3, a4⟩ := hT k (by omega)
    rw [b2] at m1
    rw [b3] at a1
    obtain rfl := Option.some.inj m1
    obtain rfl := Option.some.inj a1
    have nf : (sf.parentIdx[k]?.getD []).length = sf.topo.nElements k := gf.count k (by omega)
    have nc : (sc.parentIdx[k]?.getD []).length = sc.topo.nElements k := gc.count k (by omega)
    refine ⟨B, b1, by rw [c1, b4, nf]; rfl, by rw [c2, b5, nc]; rfl, fun x i e hx hi => ?_, ?_⟩
    · rw [b6 x (List.getElem?_eq_some_iff.1 hx).1 i hi]
      exact m4 x i e hx hi
    · rintro j hj
      obtain rfl : k = j := by omega
      refine ⟨fun x hx i hi => b7 x hx i (by rw [nc]; exact hi), fun x hx i hi => b8 x (by rw [nf]; exact hx) i hi, ?_⟩
      intro x i a b e hx hae hi
      rw [b9 x i a b hx hi]
      refine a4 a b e hae ?_
      rw [← Glued.cols_selector t sc k]
      exact (gc.picks k (by omega)).2.1 b (List.mem_of_getElem? hi)

/-- C93: `dual.transfer_matrices` after `subdivide_loop` of triangles with boundary.  Fine triangles go to the triangles they are part
of, fine boundary edges to the boundary edges they are halves of, fine edges likewise, and vertices, on the boundary or not, to
themselves. -/
theorem C93_loop {simplices : List (List Nat)} {t f : Topo} {sf sc : Sub} (hu : UniqSpec uniq)
    (hs : Simplices 3 simplices) (ht : fromSimplices uniq 3 simplices = .ok t) (hl : subdivideLoop uniq t = .ok f)
    (hbf : boundary solve uniq f = .ok (some sf)) (hbc : boundary solve uniq t = .ok (some sc)) :
    ∃ B0 B1 B2, dualTransfer (loopTransfer t f) (boundarySelectors f sf) (boundarySelectors t sc) = .ok [B2, B1, B0] ∧
      B2.rows = 4 * simplices.length + sf.topo.nElements 1 ∧ B2.cols = simplices.length + sc.topo.nElements 1 ∧
      (∀ x < 4 * simplices.length, ∀ i < simplices.length, B2.entry x i = if x / 4 = i then 1 else 0) ∧
      (∀ x < 4 * simplices.length, ∀ i < sc.topo.nElements 1, B2.entry x (simplices.length + i) = 0) ∧
      (∀ x < sf.topo.nElements 1, ∀ i < simplices.length, B2.entry (4 * simplices.length + x) i = 0) ∧
      (∀ (x i a b : Nat) (e' e : List Nat), (sf.parentIdx[1]?.getD [])[x]? = some a → (sc.parentIdx[1]?.getD [])[i]? = some b →
        (f.elements[1]?.getD [])[a]? = some e' → (t.elements[1]?.getD [])[b]? = some e →
        B2.entry (4 * simplices.length + x) (simplices.length + i) = if ∃ v ∈ e, e'.Perm [v, t.nElements 0 + b] then 1 else 0) ∧
      B1.rows = f.nElements 1 + sf.topo.nElements 0 ∧ B1.cols = t.nElements 1 + sc.topo.nElements 0 ∧
      (∀ (x i : Nat) (e' e : List Nat), (f.elements[1]?.getD [])[x]? = some e' → (t.elements[1]?.getD [])[i]? = some e →
        B1.entry x i = if ∃ v ∈ e, e'.Perm [v, t.nElements 0 + i] then 1 else 0) ∧
      (∀ (x i a b : Nat), (sf.parentIdx[0]?.getD [])[x]? = some a → (sc.parentIdx[0]?.getD [])[i]? = some b →
        B1.entry (f.nElements 1 + x) (t.nElements 1 + i) = if a = b then 1 else 0) ∧
      B0.rows = f.nElements 0 ∧ B0.cols = t.nElements 0 ∧
      ∀ x < f.nElements 0, ∀ i < t.nElements 0, B0.entry x i = if x = i then 1 else 0 := by
  obtain ⟨n, hn, -, wc⟩ := wf_of_ok hu hs ht
  obtain rfl : n = 2 := by omega
  obtain ⟨f', hl', wf⟩ := wc.subdivideLoop_ok hu hs
  rw [hl] at hl'
  obtain rfl := Except.ok.inj hl'
  have hsf := wc.loop_simplices hs
  have hff : fromSimplices uniq 3 (simplices.map (kidsOf t)).flatten = .ok f := by
    have := hl
    unfold subdivideLoop at this
    rwa [wc.loopRows_eq hs] at this
  have hN : t.nElements 2 = simplices.length := by
    unfold Topo.nElements
    rw [wc.top_eq]; rfl
  have hN' : f.nElements 2 = 4 * simplices.length := by
    obtain ⟨f', rows, h1, h2, -, -, h4, -⟩ := C16_counts_and_orientation hu hs ht
    rw [hl] at h1
    obtain rfl := Except.ok.inj h1
    unfold Topo.nElements
    rw [h2]; exact h4
  obtain ⟨-, okf⟩ := boundary_sub (nCorners := 0) hu hsf hff (oriented_of_boundary hbf) hbf
  obtain ⟨-, okc⟩ := boundary_sub (nCorners := 0) hu hs ht (oriented_of_boundary hbc) hbc
  have gf := glued_simplicial wf hsf okf (C83_in_order_triangles hu hsf hff hbf)
  have gc := glued_simplicial wc hs okc (C83_in_order_triangles hu hs ht hbc)
  have e0 : ∀ x i, (transferMatrix (List.range (t.nElements 0)) (List.range (t.nElements 0)) (f.nElements 0) (t.nElements 0)).entry x i =
      if x < t.nElements 0 ∧ x = i then 1 else 0 := by
    intro x i
    by_cases hx : x < t.nElements 0
    · rw [transferMatrix_entry List.nodup_range rfl (k := x) (List.getElem?_range hx), List.getElem?_range hx]
      simp [hx]
    · rw [transferMatrix_zero (by simpa using hx), if_neg (by tauto)]
  have e2 : ∀ x < f.nElements 2, ∀ i, (transferMatrix (List.range (f.nElements 2)) (repeatRange (t.nElements 2) 4) (f.nElements 2)
      (t.nElements 2)).entry x i = if x / 4 = i then 1 else 0 := by
    intro x hx i
    have hlen : (List.range (f.nElements 2)).length = (repeatRange (t.nElements 2) 4).length := by
      unfold repeatRange
      rw [List.length_range, List.length_map, List.length_range, hN, hN']; omega
    rw [transferMatrix_entry List.nodup_range hlen (k := x) (List.getElem?_range hx)]
    unfold repeatRange
    rw [List.getElem?_map, List.getElem?_range (by rw [hN]; omega)]
    simp
  obtain ⟨f', T0, T1, T2, h1, hT, hr, hcl, hE⟩ := C50_edge_halves hu hs ht
  rw [hl] at h1
  obtain rfl := Except.ok.inj h1
  have hT' := hT
  unfold loopTransfer at hT'
  simp only [List.cons.injEq, and_true] at hT'
  obtain ⟨q0, -, q2⟩ := hT'
  subst q0
  subst q2
  rw [hT]
  have hsel : ∀ (u : Topo) (w : Sub), u.elements.length = 3 → ∀ k < 2, (boundarySelectors u w)[k]? = some (boundarySelector u w k) := by
    intro u w hl k hk
    unfold boundarySelectors
    rw [hl, List.getElem?_map, List.getElem?_range (by omega)]
    rfl
  obtain ⟨D, d1, d2, d3, d4⟩ := C93_blocks (n := 2)
    (T := [transferMatrix (List.range (t.nElements 0)) (List.range (t.nElements 0)) (f.nElements 0) (t.nElements 0), T1,
      transferMatrix (List.range (f.nElements 2)) (repeatRange (t.nElements 2) 4) (f.nElements 2) (t.nElements 2)])
    (Sf := boundarySelectors f sf) (Sc := boundarySelectors t sc)
    (Nf := f.nElements) (Nc := t.nElements) (Pf := fun k => sf.parentIdx[k]?.getD []) (Pc := fun k => sc.parentIdx[k]?.getD [])
    rfl (fun k hk => by
      have c : k = 0 ∨ k = 1 ∨ k = 2 := by omega
      rcases c with rfl | rfl | rfl
      · refine ⟨_, rfl, rfl, rfl, fun i hi j hj => ?_⟩
        rw [e0]; split <;> simp
      · refine ⟨_, rfl, hr, hcl, fun i hi j hj => ?_⟩
        rw [hE j i _ _ (List.getElem?_eq_getElem (show j < (t.elements[1]?.getD []).length from hj))
          (List.getElem?_eq_getElem (show i < (f.elements[1]?.getD []).length from hi))]
        split <;> simp
      · refine ⟨_, rfl, rfl, rfl, fun i hi j hj => ?_⟩
        rw [e2 i hi]; split <;> simp)
    (by unfold boundarySelectors; rw [List.length_map, List.length_range, wf.lenE])
    (by unfold boundarySelectors; rw [List.length_map, List.length_range, wc.lenE])
    (fun k hk => ⟨_, hsel f sf wf.lenE k hk, Glued.cols_selector f sf k, gf.picks k (by omega)⟩)
    (fun k hk => ⟨_, hsel t sc wc.lenE k hk, Glued.cols_selector t sc k, gc.picks k (by omega)⟩)
  obtain ⟨B1, M, M', b1, b2, b3, b4, b5, b6, -, -, b9⟩ := d4 0 (by omega)
  obtain ⟨B2, L, L', c1, c2, c3, c4, c5, c6, c7, c8, c9⟩ := d4 1 (by omega)
  obtain rfl := Option.some.inj b2
  obtain rfl := Option.some.inj b3
  obtain rfl := Option.some.inj c2
  obtain rfl := Option.some.inj c3
  have nf : ∀ k ≤ 1, (sf.parentIdx[k]?.getD []).length = sf.topo.nElements k := fun k hk => gf.count k hk
  have nc : ∀ k ≤ 1, (sc.parentIdx[k]?.getD []).length = sc.topo.nElements k := fun k hk => gc.count k hk
  simp only [Nat.zero_add, Nat.reduceAdd, Nat.reduceSub, hN, hN', nf 0 (by omega), nf 1 le_rfl, nc 0 (by omega), nc 1 le_rfl] at *
  refine ⟨transferMatrix (List.range (t.nElements 0)) (List.range (t.nElements 0)) (f.nElements 0) (t.nElements 0), B1, B2, ?_, c4, c5,
    fun x hx i hi => ?_, c7, c8, fun x i a b e' e hx hi ha hb => ?_, b4, b5,
    fun x i e' e hx hi => ?_, fun x i a b hx hi => ?_, rfl, rfl, fun x hx i hi => ?_⟩
  · rw [d1]
    congr 1
    match D, d2, d3, b1, c1 with
    | [x, y, z], _, d3, b1, c1 =>
      simp at d3 b1 c1
      rw [d3, b1, c1]
  · rw [c6 x hx i hi]
    exact e2 x hx i
  · rw [c9 x i a b hx hi]
    exact hE b a e e' hb ha
  · rw [b6 x (List.getElem?_eq_some_iff.1 hx).1 i (List.getElem?_eq_some_iff.1 hi).1]
    exact hE i x e e' hi hx
  · rw [b9 x i a b hx hi, e0]
    have hb : b < t.nElements 0 := by
      rw [← Glued.cols_selector t sc 0]
      exact (gc.picks 0 (by omega)).2.1 b (List.mem_of_getElem? hi)
    by_cases h : a = b
    · rw [if_pos ⟨by omega, h⟩, if_pos h]
    · rw [if_neg (by tauto), if_neg h]
  · rw [e0]
    by_cases h : x = i
    · rw [if_pos ⟨by omega, h⟩, if_pos h]
    · rw [if_neg (by tauto), if_neg h]

theorem oneSquare_fine : allFine (builtCubes 2 [[0, 1, 2, 3]]) 2 [[0, 1, 2, 3]] = [[0, 4, 6, 8], [4, 1, 8, 7], [6, 8, 2, 5], [8, 7, 5, 3]] := by
  decide +kernel

theorem fourSquares_oriented (hsat : SatSpec solve) :
    isOriented solve (builtCubes 2 [[0, 4, 6, 8], [4, 1, 8, 7], [6, 8, 2, 5], [8, 7, 5, 3]]) = .ok true := by
  have hc : Cubes 2 [[0, 4, 6, 8], [4, 1, 8, 7], [6, 8, 2, 5], [8, 7, 5, 3]] := by
    intro l hl; revert l; decide
  have hf : fromCubes List.dedup true 2 [[0, 4, 6, 8], [4, 1, 8, 7], [6, 8, 2, 5], [8, 7, 5, 3]] =
    .ok (builtCubes 2 [[0, 4, 6, 8], [4, 1, 8, 7], [6, 8, 2, 5], [8, 7, 5, 3]]) := by decide +kernel
  refine (C76_oriented_exact uniqSpec_dedup hc hsat hf ?_).2 ?_
  · have a01 : SharedSide 1 [[0, 4, 6, 8], [4, 1, 8, 7], [6, 8, 2, 5], [8, 7, 5, 3]] [4, 8] 0 1 :=
      sharedSide_of_check (by decide) (by decide +kernel)
    have a10 : SharedSide 1 [[0, 4, 6, 8], [4, 1, 8, 7], [6, 8, 2, 5], [8, 7, 5, 3]] [4, 8] 1 0 :=
      sharedSide_of_check (by decide) (by decide +kernel)
    have a02 : SharedSide 1 [[0, 4, 6, 8], [4, 1, 8, 7], [6, 8, 2, 5], [8, 7, 5, 3]] [6, 8] 0 2 :=
      sharedSide_of_check (by decide) (by decide +kernel)
    have a20 : SharedSide 1 [[0, 4, 6, 8], [4, 1, 8, 7], [6, 8, 2, 5], [8, 7, 5, 3]] [6, 8] 2 0 :=
      sharedSide_of_check (by decide) (by decide +kernel)
    have a13 : SharedSide 1 [[0, 4, 6, 8], [4, 1, 8, 7], [6, 8, 2, 5], [8, 7, 5, 3]] [8, 7] 1 3 :=
      sharedSide_of_check (by decide) (by decide +kernel)
    have a31 : SharedSide 1 [[0, 4, 6, 8], [4, 1, 8, 7], [6, 8, 2, 5], [8, 7, 5, 3]] [8, 7] 3 1 :=
      sharedSide_of_check (by decide) (by decide +kernel)
    intro j1 h1 j2 h2
    simp only [List.length_cons, List.length_nil] at h1 h2
    refine Relation.ReflTransGen.trans (b := 0) ?_ ?_
    · have c1 : j1 = 0 ∨ j1 = 1 ∨ j1 = 2 ∨ j1 = 3 := by omega
      rcases c1 with rfl | rfl | rfl | rfl
      · exact .refl
      · exact .single ⟨_, a10⟩
      · exact .single ⟨_, a20⟩
      · exact .trans (.single ⟨_, a31⟩) (.single ⟨_, a10⟩)
    · have c2 : j2 = 0 ∨ j2 = 1 ∨ j2 = 2 ∨ j2 = 3 := by omega
      rcases c2 with rfl | rfl | rfl | rfl
      · exact .refl
      · exact .single ⟨_, a01⟩
      · exact .single ⟨_, a02⟩
      · exact .trans (.single ⟨_, a01⟩) (.single ⟨_, a13⟩)
  · rw [coherent_iff_rows uniqSpec_dedup hc hf]
    intro i hi j1 j2 hz
    have key : ∀ i < ((builtCubes 2 [[0, 4, 6, 8], [4, 1, 8, 7], [6, 8, 2, 5], [8, 7, 5, 3]]).matrix 1).rows,
        (nonzeroCols ((builtCubes 2 [[0, 4, 6, 8], [4, 1, 8, 7], [6, 8, 2, 5], [8, 7, 5, 3]]).matrix 1) i).length = 2 →
        ((nonzeroCols ((builtCubes 2 [[0, 4, 6, 8], [4, 1, 8, 7], [6, 8, 2, 5], [8, 7, 5, 3]]).matrix 1) i).map
          fun j => ((builtCubes 2 [[0, 4, 6, 8], [4, 1, 8, 7], [6, 8, 2, 5], [8, 7, 5, 3]]).matrix 1).entry i j).sum = 0 := by
      decide +kernel
    have := key i hi (by rw [hz]; rfl)
    rw [hz] at this
    simpa using this

/-- C93, a case: one square and its four parts meet the hypotheses; the matrix of dual vertices has four and eight rows, one and
four columns. -/
theorem C93_case (hsat : SatSpec solve) : ∃ t f T sf sc D B, fromCubes List.dedup true 2 [[0, 1, 2, 3]] = .ok t ∧
    subdivideCubical List.dedup t = .ok (f, T) ∧ cubicalBoundary solve List.dedup f = .ok (some sf) ∧
    cubicalBoundary solve List.dedup t = .ok (some sc) ∧ InOrder sf.parentIdx ∧ InOrder sc.parentIdx ∧
    dualTransfer T (boundarySelectors f sf) (boundarySelectors t sc) = .ok D ∧ D[0]? = some B ∧ B.rows = 12 ∧ B.cols = 5 := by
  have hc : Cubes 2 [[0, 1, 2, 3]] := by
    intro l hl; revert l; decide
  have ht : fromCubes List.dedup true 2 [[0, 1, 2, 3]] = .ok (builtCubes 2 [[0, 1, 2, 3]]) := by decide +kernel
  have hco : isOriented solve (builtCubes 2 [[0, 1, 2, 3]]) = .ok true := by
    refine (C76_oriented_exact uniqSpec_dedup hc hsat ht ?_).2 ?_
    · intro j1 h1 j2 h2
      simp only [List.length_cons, List.length_nil] at h1 h2
      obtain rfl : j1 = j2 := by omega
      exact .refl
    · rw [coherent_iff_rows uniqSpec_dedup hc ht]
      intro i hi j1 j2 hz
      have key : ∀ i < ((builtCubes 2 [[0, 1, 2, 3]]).matrix 1).rows,
          (nonzeroCols ((builtCubes 2 [[0, 1, 2, 3]]).matrix 1) i).length = 1 := by decide +kernel
      have := key i hi
      rw [hz] at this
      simp at this
  have hff : fromCubes List.dedup true 2 (allFine (builtCubes 2 [[0, 1, 2, 3]]) 2 [[0, 1, 2, 3]]) =
      .ok (builtCubes 2 [[0, 4, 6, 8], [4, 1, 8, 7], [6, 8, 2, 5], [8, 7, 5, 3]]) := by
    rw [oneSquare_fine]
    decide +kernel
  have hs := (subdivideCubical_iff uniqSpec_dedup hc (by norm_num) ht).2 ⟨hff, rfl⟩
  have hbf : cubicalBoundary solve List.dedup (builtCubes 2 [[0, 4, 6, 8], [4, 1, 8, 7], [6, 8, 2, 5], [8, 7, 5, 3]]) = .ok (some
      (match subCubes List.dedup 1 (builtCubes 2 [[0, 4, 6, 8], [4, 1, 8, 7], [6, 8, 2, 5], [8, 7, 5, 3]])
        (bRows (builtCubes 2 [[0, 4, 6, 8], [4, 1, 8, 7], [6, 8, 2, 5], [8, 7, 5, 3]])) with
        | .ok s => s | .error _ => ⟨⟨[], [], []⟩, []⟩)) := by
    rw [cubicalBoundary_eq (fourSquares_oriented hsat)]
    decide +kernel
  have hbc : cubicalBoundary solve List.dedup (builtCubes 2 [[0, 1, 2, 3]]) = .ok (some
      (match subCubes List.dedup 1 (builtCubes 2 [[0, 1, 2, 3]]) (bRows (builtCubes 2 [[0, 1, 2, 3]])) with
        | .ok s => s | .error _ => ⟨⟨[], [], []⟩, []⟩)) := by
    rw [cubicalBoundary_eq hco]
    decide +kernel
  have hcf : Cubes 2 (allFine (builtCubes 2 [[0, 1, 2, 3]]) 2 [[0, 1, 2, 3]]) := by
    rw [oneSquare_fine]
    intro l hl; revert l; decide
  have hof := C83_in_order_squares uniqSpec_dedup hcf hff hbf
  have hoc := C83_in_order_squares uniqSpec_dedup hc ht hbc
  obtain ⟨D, d1, -, d3⟩ := C93_cubes (n := 0) uniqSpec_dedup hc ht hs hbf hbc hof hoc
  obtain ⟨B, b1, b2, b3, -⟩ := d3 2 le_rfl
  refine ⟨_, _, _, _, _, D, B, ht, hs, hbf, hbc, hof, hoc, d1, b1, ?_, ?_⟩
  · have : (some B.rows : Option Nat) = some 12 := b2.symm.trans (by decide +kernel)
    exact Option.some.inj this
  · have : (some B.cols : Option Nat) = some 5 := b3.symm.trans (by decide +kernel)
    exact Option.some.inj this

/-- C93, a case: one triangle and its four parts meet the hypotheses of the theorem on `subdivide_loop`; the matrix of dual vertices
has four and six rows, one and three columns. -/
theorem C93_case_loop (hsat : SatSpec solve) : ∃ t f sf sc D B, Simplices 3 [[0, 1, 2]] ∧
    fromSimplices List.dedup 3 [[0, 1, 2]] = .ok t ∧ subdivideLoop List.dedup t = .ok f ∧
    boundary solve List.dedup f = .ok (some sf) ∧ boundary solve List.dedup t = .ok (some sc) ∧
    dualTransfer (loopTransfer t f) (boundarySelectors f sf) (boundarySelectors t sc) = .ok D ∧ D[0]? = some B ∧
    B.rows = 10 ∧ B.cols = 4 := by
  have hs : Simplices 3 [[0, 1, 2]] := simplices_of_all (by decide)
  have ht : fromSimplices List.dedup 3 [[0, 1, 2]] = .ok (built 3 [[0, 1, 2]]) := by decide +kernel
  have hl : subdivideLoop List.dedup (built 3 [[0, 1, 2]]) =
      .ok (built 3 [[3, 4, 5], [0, 5, 4], [1, 3, 5], [2, 4, 3]]) := by decide +kernel
  have hsf : Simplices 3 [[3, 4, 5], [0, 5, 4], [1, 3, 5], [2, 4, 3]] := simplices_of_all (by decide)
  have hf : fromSimplices List.dedup 3 [[3, 4, 5], [0, 5, 4], [1, 3, 5], [2, 4, 3]] =
      .ok (built 3 [[3, 4, 5], [0, 5, 4], [1, 3, 5], [2, 4, 3]]) := by decide +kernel
  have hoc : isOriented solve (built 3 [[0, 1, 2]]) = .ok true := by
    refine (C08_connected_exact uniqSpec_dedup hs hsat ht (by decide) ?_).2 ?_
    · intro j1 h1 j2 h2
      simp only [List.length_cons, List.length_nil] at h1 h2
      obtain rfl : j1 = j2 := by omega
      exact .refl
    · rw [← reorient_false [[0, 1, 2]], ← (wf_built hs ht).satisfies_iff_coherent hs (fun _ => false)]
      decide +kernel
  have hof : isOriented solve (built 3 [[3, 4, 5], [0, 5, 4], [1, 3, 5], [2, 4, 3]]) = .ok true := by
    refine (C08_connected_exact uniqSpec_dedup hsf hsat hf (by decide) ?_).2 ?_
    · have hadj : ∀ {b : Nat} (e : List Nat), SharedFace [[3, 4, 5], [0, 5, 4], [1, 3, 5], [2, 4, 3]] e 0 b →
          Relation.ReflTransGen (Adjacent [[3, 4, 5], [0, 5, 4], [1, 3, 5], [2, 4, 3]]) 0 b ∧
          Relation.ReflTransGen (Adjacent [[3, 4, 5], [0, 5, 4], [1, 3, 5], [2, 4, 3]]) b 0 :=
        fun e h => ⟨.single ⟨e, h⟩, .single ⟨e, sharedFace_symm h⟩⟩
      have all : ∀ j < 4, Relation.ReflTransGen (Adjacent [[3, 4, 5], [0, 5, 4], [1, 3, 5], [2, 4, 3]]) 0 j ∧
          Relation.ReflTransGen (Adjacent [[3, 4, 5], [0, 5, 4], [1, 3, 5], [2, 4, 3]]) j 0 := by
        intro j hj
        interval_cases j
        · exact ⟨.refl, .refl⟩
        · exact hadj [4, 5] (sharedFace_of_check (by decide +kernel))
        · exact hadj [3, 5] (sharedFace_of_check (by decide +kernel))
        · exact hadj [3, 4] (sharedFace_of_check (by decide +kernel))
      intro j1 h1 j2 h2
      exact (all j1 (by simpa using h1)).2.trans (all j2 (by simpa using h2)).1
    · rw [← reorient_false [[3, 4, 5], [0, 5, 4], [1, 3, 5], [2, 4, 3]],
        ← (wf_built hsf hf).satisfies_iff_coherent hsf (fun _ => false)]
      decide +kernel
  have hbf : boundary solve List.dedup (built 3 [[3, 4, 5], [0, 5, 4], [1, 3, 5], [2, 4, 3]]) = .ok (some
      (match subTopology List.dedup 2 (built 3 [[3, 4, 5], [0, 5, 4], [1, 3, 5], [2, 4, 3]])
        (bRows (built 3 [[3, 4, 5], [0, 5, 4], [1, 3, 5], [2, 4, 3]])) with
        | .ok s => s | .error _ => ⟨⟨[], [], []⟩, []⟩)) := by
    rw [boundary_eq hof]
    decide +kernel
  have hbc : boundary solve List.dedup (built 3 [[0, 1, 2]]) = .ok (some
      (match subTopology List.dedup 2 (built 3 [[0, 1, 2]]) (bRows (built 3 [[0, 1, 2]])) with
        | .ok s => s | .error _ => ⟨⟨[], [], []⟩, []⟩)) := by
    rw [boundary_eq hoc]
    decide +kernel
  obtain ⟨B0, B1, B2, b, r, c, -⟩ := C93_loop uniqSpec_dedup hs ht hl hbf hbc
  refine ⟨_, _, _, _, _, B2, hs, ht, hl, hbf, hbc, b, rfl, ?_, ?_⟩
  · rw [r]; decide +kernel
  · rw [c]; decide +kernel

end Verif.Props
