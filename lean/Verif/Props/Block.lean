/-
C35, C36: flattening block arrays; block matrix algebra.
-/
import Verif.Model.Block
import Mathlib.Algebra.BigOperators.Ring.List
import Mathlib.Tactic.Ring
import Mathlib.Tactic.Linarith

namespace Verif.Props

open Verif.Model

/-! ### C35 -/

theorem splitPoints_get : ∀ (l : List Nat) (acc c : Nat), c ≤ l.length →
    (splitPoints acc l)[c]? = some (acc + (l.take c).sum) := by
  intro l
  induction l with
  | nil => intro acc c h; have : c = 0 := by simpa using h
           subst this; simp [splitPoints]
  | cons a t ih =>
    intro acc c h
    cases c with
    | zero => simp [splitPoints]
    | succ c =>
      rw [splitPoints, List.getElem?_cons_succ, ih _ c (by simpa using h)]
      simp [Nat.add_assoc]

/-- cutting a list at the running sums of `ns` and joining the pieces -/
theorem slices_flatten {R : Type} : ∀ (ns : List Nat) (x : List R), x.length = ns.sum →
    ((List.range ns.length).map fun c =>
      npSlice x ((ns.take c).sum) ((ns.take (c + 1)).sum)).flatten = x := by
  intro ns
  induction ns with
  | nil => intro x h; have := List.length_eq_zero_iff.1 h; simp [this]
  | cons a t ih =>
    intro x h
    rw [List.length_cons, List.range_succ_eq_map, List.map_cons, List.flatten_cons, List.map_map]
    have h1 : npSlice x ((List.take 0 (a :: t)).sum) ((List.take (0 + 1) (a :: t)).sum) =
        x.take a := by simp [npSlice]
    have h2 : (List.range t.length).map ((fun c =>
        npSlice x ((List.take c (a :: t)).sum) ((List.take (c + 1) (a :: t)).sum)) ∘ Nat.succ) =
        (List.range t.length).map fun c =>
          npSlice (x.drop a) ((t.take c).sum) ((t.take (c + 1)).sum) := by
      refine List.map_congr_left fun c _ => ?_
      simp only [Function.comp, npSlice, List.take_succ_cons, List.sum_cons, List.drop_drop]
      congr 1
      omega
    rw [h1, h2, ih (x.drop a) (by simp at h ⊢; omega), List.take_append_drop]

theorem slices_of_flatten {R : Type} : ∀ (bs : List (List R)),
    ((List.range bs.length).map fun c => npSlice bs.flatten (((bs.map List.length).take c).sum)
      (((bs.map List.length).take (c + 1)).sum)) = bs := by
  intro bs
  induction bs with
  | nil => rfl
  | cons b t ih =>
    rw [List.length_cons, List.range_succ_eq_map, List.map_cons, List.map_map]
    have h1 : npSlice (b :: t).flatten ((List.take 0 ((b :: t).map List.length)).sum)
        ((List.take (0 + 1) ((b :: t).map List.length)).sum) = b := by simp [npSlice]
    rw [h1]
    refine congrArg (b :: ·) (Eq.trans (List.map_congr_left fun c _ => ?_) ih)
    simp only [Function.comp, npSlice, List.map_cons, List.take_succ_cons, List.sum_cons,
      List.flatten_cons]
    rw [List.drop_append, List.drop_eq_nil_of_le (by omega), List.nil_append]
    congr 1
    · omega
    · congr 1; omega

theorem split_vec {R : Type} (bs : List (List R)) (x : List R) :
    DenseBlock.split (.vec bs) x = .ok (.vec ((List.range bs.length).map fun c =>
      npSlice x (((bs.map List.length).take c).sum) (((bs.map List.length).take (c + 1)).sum))) := by
  unfold DenseBlock.split
  simp only []
  refine congrArg (fun l => Except.ok (DenseBlock.vec l)) (List.map_congr_left fun c hc => ?_)
  have hc := List.mem_range.1 hc
  rw [splitPoints_get _ _ c (by simp; omega), splitPoints_get _ _ (c + 1) (by simp; omega)]
  simp

/-- C35: for every list of blocks that are not all of one length, splitting the merged vector gives
the blocks back, and merging the split of any vector of the total length gives that vector back -/
theorem C35_roundtrip {R : Type} (blocks : List (List R))
    (h : ∃ b ∈ blocks, ∃ c ∈ blocks, b.length ≠ c.length) :
    (∃ v, (mkDense blocks).merge = .vector v ∧ v = blocks.flatten ∧
      (mkDense blocks).split v = .ok (mkDense blocks)) ∧
    (∀ x : List R, x.length = (blocks.map List.length).sum →
      ∃ parts, (mkDense blocks).split x = .ok parts ∧ parts.merge = .vector x) := by
  have hmk : mkDense blocks = .vec blocks := by
    obtain ⟨b, hb, c, hc, hne⟩ := h
    cases blocks with
    | nil => simp at hb
    | cons a t =>
      rw [mkDense, if_neg]
      intro hall
      rw [List.all_eq_true] at hall
      have ha : ∀ y ∈ a :: t, y.length = a.length := by
        intro y hy
        rcases List.mem_cons.1 hy with rfl | hy
        · rfl
        · simpa using hall y hy
      exact hne ((ha b hb).trans (ha c hc).symm)
  rw [hmk]
  refine ⟨⟨_, rfl, rfl, ?_⟩, ?_⟩
  · rw [split_vec, slices_of_flatten]
  · intro x hx
    refine ⟨_, split_vec blocks x, ?_⟩
    unfold DenseBlock.merge
    simp only []
    have := slices_flatten (blocks.map List.length) x hx
    rw [List.length_map] at this
    rw [this]

/-- C35: blocks of equal length (a single block in particular) are collapsed by the constructor:
merging yields a matrix instead of a vector and splitting raises, for every argument -/
theorem C35_equal_lengths {R : Type} (blocks : List (List R)) (n : Nat) (hne : blocks ≠ [])
    (h : ∀ b ∈ blocks, b.length = n) :
    (mkDense blocks).merge = .matrix blocks ∧
    ∀ x, (mkDense blocks).split x = .error .indexError := by
  have hmk : mkDense blocks = .collapsed blocks := by
    cases blocks with
    | nil => exact absurd rfl hne
    | cons a t =>
      rw [mkDense, if_pos]
      rw [List.all_eq_true]
      intro c hc
      simp [h c (List.mem_cons_of_mem _ hc), h a List.mem_cons_self]
  rw [hmk]
  exact ⟨rfl, fun _ => rfl⟩

example : (mkDense [[1, 2, 3], [4, 5]]).split [1, 2, 3, 4, 5] = .ok (mkDense [[1, 2, 3], [4, 5]])
    ∧ (mkDense [[1, 2], [4, 5]]).split [1, 2, 4, 5] = .error .indexError := by
  decide

/-- C35: the stencil block array round-trips with one or two blocks -/
theorem C35_stencil_roundtrip {R : Type} (blocks : List (NdArray R))
    (hv : ∀ b ∈ blocks, b.Valid) (h : blocks.length = 1 ∨ blocks.length = 2) :
    stencilFromDense blocks (stencilToDense blocks) = .ok blocks := by
  match blocks, h with
  | [a], _ =>
    have ha := hv a (by simp)
    simp [stencilFromDense, stencilToDense, npSplit, npReshape, bind, Except.bind, pure,
      Except.pure]
    simp only [NdArray.Valid] at ha
    rw [if_pos ha]
  | [a, b], _ =>
    have ha := hv a (by simp)
    have hb := hv b (by simp)
    simp only [NdArray.Valid] at ha hb
    simp [stencilFromDense, stencilToDense, npSplit, npSlice, npReshape, bind, Except.bind, pure,
      Except.pure, ha, hb]
  | [], h => simp at h
  | _ :: _ :: _ :: _, h => simp at h

/-- C35: with three or more blocks of which the first two are not empty it always raises, because
`np.split` is given sizes instead of positions -/
theorem C35_stencil_three_blocks {R : Type} (a b c : NdArray R) (rest : List (NdArray R))
    (hv : ∀ x ∈ a :: b :: c :: rest, x.Valid) (ha : a.data ≠ []) (hb : b.data ≠ []) :
    stencilFromDense (a :: b :: c :: rest) (stencilToDense (a :: b :: c :: rest)) =
      .error .valueError := by
  have la : 0 < a.data.length := List.length_pos_iff.2 ha
  have lb : 0 < b.data.length := List.length_pos_iff.2 hb
  have va := hv a (by simp)
  have vb := hv b (by simp)
  simp only [NdArray.Valid] at va vb
  have hsum : ((a :: b :: c :: rest).map fun b => b.data.length).sum =
      (stencilToDense (a :: b :: c :: rest)).length := by
    unfold stencilToDense
    rw [List.length_flatten, List.map_map]
    rfl
  unfold stencilFromDense
  simp only []
  rw [if_neg (by rw [hsum]; simp)]
  have hsplit : (List.map (fun b => b.data.length) (a :: b :: c :: rest)).dropLast =
      a.data.length :: b.data.length ::
        (List.map (fun b => b.data.length) (c :: rest)).dropLast := rfl
  rw [hsplit, npSplit, npSplit, List.zip_cons_cons, List.zip_cons_cons, List.mapM_cons,
    List.mapM_cons]
  have h1 : npReshape a.shape (npSlice (stencilToDense (a :: b :: c :: rest)) 0 a.data.length) =
      .ok ⟨a.shape, a.data⟩ := by
    have : npSlice (stencilToDense (a :: b :: c :: rest)) 0 a.data.length = a.data := by
      simp [npSlice, stencilToDense]
    rw [this, npReshape, if_pos va]
  have h2 : npReshape b.shape (npSlice (stencilToDense (a :: b :: c :: rest)) a.data.length
      b.data.length) = .error .valueError := by
    rw [npReshape, if_neg]
    simp only [npSlice, List.length_take, List.length_drop]
    omega
  rw [h1, h2]
  rfl

/-- three blocks of shapes (1,), (2,), (1,) -/
example : (∀ x ∈ [(⟨[1], [5]⟩ : NdArray Nat), ⟨[2], [6, 7]⟩, ⟨[1], [8]⟩], x.Valid) ∧
    stencilFromDense [(⟨[1], [5]⟩ : NdArray Nat), ⟨[2], [6, 7]⟩, ⟨[1], [8]⟩] [5, 6, 7, 8] =
      .error .valueError ∧
    stencilFromDense [(⟨[1], [5]⟩ : NdArray Nat), ⟨[2], [6, 7]⟩] [5, 6, 7] =
      .ok [⟨[1], [5]⟩, ⟨[2], [6, 7]⟩] := by
  refine ⟨?_, by decide, by decide⟩
  simp [NdArray.Valid]

/-! ### C36 -/

end Verif.Props

namespace Verif.Spec

open Verif.Model

/-- a full block matrix with block row heights `hs` and block column widths `ws` -/
def Conforms {R : Type} (hs ws : List Nat) (A : List (List (Blk R))) : Prop :=
  A.length = hs.length ∧ ∀ (i : Nat) (row : List (Blk R)), A[i]? = some row →
    row.length = ws.length ∧ ∀ (j h w : Nat), hs[i]? = some h → ws[j]? = some w →
      ∃ M, row[j]? = some (some M) ∧ M.rows = h ∧ M.cols = w

/-- equal shapes and equal entries inside the shape -/
def SameMat {R : Type} (A B : Mat R) : Prop :=
  A.rows = B.rows ∧ A.cols = B.cols ∧ ∀ i < A.rows, ∀ j < A.cols, A.entry i j = B.entry i j

end Verif.Spec

namespace Verif.Props

open Verif.Model Verif.Spec

theorem locate_spec : ∀ (hs : List Nat) (n : Nat), n < hs.sum →
    ∃ h, hs[(locate hs n).1]? = some h ∧ (locate hs n).2 < h := by
  intro hs
  induction hs with
  | nil => intro n h; simp at h
  | cons a t ih =>
    intro n h
    rw [locate]
    split
    · rename_i hlt; exact ⟨a, rfl, hlt⟩
    · rename_i hge
      obtain ⟨w, h1, h2⟩ := ih (n - a) (by simp at h; omega)
      exact ⟨w, by simpa using h1, h2⟩

/-- a sum over merged indices is a double sum over blocks -/
theorem locate_sum {R : Type} [CommRing R] (g : Nat → Nat → R) : ∀ (ws : List Nat),
    ((List.range ws.sum).map fun n => g (locate ws n).1 (locate ws n).2).sum =
      ((List.range ws.length).map fun j =>
        ((List.range (ws[j]?.getD 0)).map fun b => g j b).sum).sum := by
  intro ws
  induction ws generalizing g with
  | nil => simp
  | cons a t ih =>
    rw [List.sum_cons, List.range_add, List.map_append, List.sum_append, List.length_cons,
      List.range_succ_eq_map, List.map_cons, List.sum_cons, List.map_map, List.map_map]
    congr 1
    · refine congrArg List.sum (List.map_congr_left fun n hn => ?_)
      have hn : n < a := by simpa using List.mem_range.1 hn
      simp [locate, hn]
    · rw [show (List.range t.length).map ((fun j =>
          ((List.range ((a :: t)[j]?.getD 0)).map fun b => g j b).sum) ∘ Nat.succ) =
          (List.range t.length).map fun j =>
            ((List.range (t[j]?.getD 0)).map fun b => g (j + 1) b).sum from
        List.map_congr_left fun j _ => by simp [Function.comp],
        ← ih fun j b => g (j + 1) b]
      refine congrArg List.sum (List.map_congr_left fun n hn => ?_)
      simp [locate, Function.comp]

section

variable {R : Type} [CommRing R]

/-- block `(i, j)` of a block matrix, a zero matrix outside -/
def blk (A : List (List (Blk R))) (i j : Nat) : Mat R :=
  (((A[i]?.getD [])[j]?).getD none).getD ⟨0, 0, fun _ _ => 0⟩

theorem conforms_blk {hs ws : List Nat} {A : List (List (Blk R))} (h : Conforms hs ws A)
    {i j a b : Nat} (hi : hs[i]? = some a) (hj : ws[j]? = some b) :
    ((A[i]?.getD [])[j]?).getD none = some (blk A i j) ∧ (blk A i j).rows = a ∧
      (blk A i j).cols = b := by
  have hil := (List.getElem?_eq_some_iff.1 hi).1
  have hrow := List.getElem?_eq_getElem (l := A) (i := i) (by rw [h.1]; exact hil)
  obtain ⟨M, h1, h2, h3⟩ := (h.2 i _ hrow).2 j a b hi hj
  have : ((A[i]?.getD [])[j]?).getD none = some M := by rw [hrow]; simp [h1]
  have hb : Verif.Props.blk A i j = M := by unfold Verif.Props.blk; rw [this]; rfl
  rw [hb]
  exact ⟨this, h2, h3⟩

theorem bmat_ok {hs ws : List Nat} {A : List (List (Blk R))} (h : Conforms hs ws A) :
    ∃ M, bmat hs ws A = .ok M ∧ M.rows = hs.sum ∧ M.cols = ws.sum ∧
      ∀ I < hs.sum, ∀ J < ws.sum, M.entry I J =
        (blk A (locate hs I).1 (locate ws J).1).entry (locate hs I).2 (locate ws J).2 := by
  unfold bmat
  rw [if_pos]
  · refine ⟨_, rfl, rfl, rfl, ?_⟩
    intro I hI J hJ
    obtain ⟨a, h1, -⟩ := locate_spec hs I hI
    obtain ⟨b, h2, -⟩ := locate_spec ws J hJ
    simp only [(conforms_blk h h1 h2).1]
  · refine ⟨h.1, ?_⟩
    intro i hi j hj M hM
    have h1 := List.getElem?_eq_getElem hi
    have h2 := List.getElem?_eq_getElem hj
    obtain ⟨e, r, c⟩ := conforms_blk h h1 h2
    rw [e] at hM
    obtain rfl := Option.some.inj (Option.mem_def.1 hM)
    rw [h1, h2]
    exact ⟨r, c⟩

/-- the accumulation loop over a list of conforming products -/
theorem blkAccumulate_some : ∀ (l : List (Mat R × Mat R)) (a : Mat R),
    (∀ p ∈ l, p.1.rows = a.rows ∧ p.2.cols = a.cols ∧ p.1.cols = p.2.rows) →
    ∃ M, blkAccumulate (some a) (l.map fun p => ((some p.1 : Blk R), (some p.2 : Blk R))) =
        .ok (some M) ∧ M.rows = a.rows ∧ M.cols = a.cols ∧
      ∀ i k, M.entry i k = a.entry i k + (l.map fun p =>
        ((List.range p.1.cols).map fun m => p.1.entry i m * p.2.entry m k).sum).sum := by
  intro l
  induction l with
  | nil => intro a _; exact ⟨a, rfl, rfl, rfl, by simp⟩
  | cons p t ih =>
    intro a h
    obtain ⟨h1, h2, h3⟩ := h p List.mem_cons_self
    let m : Mat R := ⟨p.1.rows, p.2.cols, fun i j =>
      ((List.range p.1.cols).map fun m => p.1.entry i m * p.2.entry m j).sum⟩
    have hm : blkMul (some p.1) (some p.2) = .ok m := by
      simp only [blkMul, Mat.mul]; rw [if_pos h3]
    let s : Mat R := ⟨a.rows, a.cols, fun i j => a.entry i j + m.entry i j⟩
    have hs : a.add m = .ok s := by
      unfold Mat.add; rw [if_pos ⟨h1.symm, h2.symm⟩]
    obtain ⟨M, e1, e2, e3, e4⟩ := ih s fun q hq => h q (List.mem_cons_of_mem _ hq)
    refine ⟨M, ?_, e2, e3, ?_⟩
    · rw [List.map_cons, blkAccumulate]
      simp only [hm, bind, Except.bind, hs]
      exact e1
    · intro i k
      rw [e4, List.map_cons, List.sum_cons]
      simp only [s, m]
      ring

theorem blkAccumulate_ok (p : Mat R × Mat R) (t : List (Mat R × Mat R)) (r c : Nat)
    (h : ∀ q ∈ p :: t, q.1.rows = r ∧ q.2.cols = c ∧ q.1.cols = q.2.rows) :
    ∃ M, blkAccumulate none ((p :: t).map fun p => ((some p.1 : Blk R), (some p.2 : Blk R))) =
        .ok (some M) ∧ M.rows = r ∧ M.cols = c ∧
      ∀ i k, M.entry i k = ((p :: t).map fun p =>
        ((List.range p.1.cols).map fun m => p.1.entry i m * p.2.entry m k).sum).sum := by
  obtain ⟨h1, h2, h3⟩ := h p List.mem_cons_self
  let m : Mat R := ⟨p.1.rows, p.2.cols, fun i j =>
    ((List.range p.1.cols).map fun m => p.1.entry i m * p.2.entry m j).sum⟩
  have hm : blkMul (some p.1) (some p.2) = .ok m := by
    simp only [blkMul, Mat.mul]; rw [if_pos h3]
  obtain ⟨M, e1, e2, e3, e4⟩ := blkAccumulate_some t m (by
    intro q hq
    obtain ⟨g1, g2, g3⟩ := h q (List.mem_cons_of_mem _ hq)
    exact ⟨g1.trans h1.symm, g2.trans h2.symm, g3⟩)
  refine ⟨M, ?_, e2.trans h1, e3.trans h2, ?_⟩
  · rw [List.map_cons, blkAccumulate]
    simp only [hm, bind, Except.bind]
    exact e1
  · intro i k
    rw [e4, List.map_cons, List.sum_cons]

/-- a `mapM` whose function always succeeds -/
theorem mapM_exists {α β : Type} {f : α → Except PyErr β} : ∀ (l : List α),
    (∀ a ∈ l, ∃ b, f a = .ok b) → ∃ bs, l.mapM f = .ok bs ∧ bs.length = l.length ∧
      ∀ (i : Nat) (a : α), l[i]? = some a → ∃ b, bs[i]? = some b ∧ f a = .ok b := by
  intro l
  induction l with
  | nil => intro _; exact ⟨[], rfl, rfl, by simp⟩
  | cons a t ih =>
    intro h
    obtain ⟨b, hb⟩ := h a List.mem_cons_self
    obtain ⟨bs, h1, h2, h3⟩ := ih fun x hx => h x (List.mem_cons_of_mem _ hx)
    refine ⟨b :: bs, ?_, by simp [h2], ?_⟩
    · rw [List.mapM_cons, hb, h1]; rfl
    · intro i x hx
      cases i with
      | zero =>
        obtain rfl : a = x := by simpa using hx
        exact ⟨b, rfl, hb⟩
      | succ i => exact h3 i x (by simpa using hx)

/-- the block product of conforming block matrices -/
theorem blkMatMul_ok {hs ms ws : List Nat} {A B : List (List (Blk R))} (hA : Conforms hs ms A)
    (hB : Conforms ms ws B) (hms : ms ≠ []) :
    ∃ C, blkMatMul ms.length ws.length A B = .ok C ∧ Conforms hs ws C ∧
      ∀ i < hs.length, ∀ k < ws.length, ∀ a c, (blk C i k).entry a c =
        ((List.range ms.length).map fun j => ((List.range (ms[j]?.getD 0)).map fun b =>
          (blk A i j).entry a b * (blk B j k).entry b c).sum).sum := by
  -- one entry of the product
  have hentry : ∀ (i h k w : Nat) (row : List (Blk R)), A[i]? = some row → hs[i]? = some h →
      ws[k]? = some w →
      ∃ M, blkAccumulate none (row.zip (blkColumn B k)) = .ok (some M) ∧ M.rows = h ∧ M.cols = w ∧
        ∀ a c, M.entry a c = ((List.range ms.length).map fun j =>
          ((List.range (ms[j]?.getD 0)).map fun b =>
            (blk A i j).entry a b * (blk B j k).entry b c).sum).sum := by
    intro i h k w row hrow hh hw
    let l : List (Mat R × Mat R) := (List.range ms.length).map fun j => (blk A i j, blk B j k)
    have hl : row.zip (blkColumn B k) = l.map fun p => ((some p.1 : Blk R), (some p.2 : Blk R)) := by
      apply List.ext_getElem?
      intro j
      rcases Nat.lt_or_ge j ms.length with hj | hj
      · have hm := List.getElem?_eq_getElem hj
        obtain ⟨e1, -, -⟩ := conforms_blk hA hh hm
        obtain ⟨e2, -, -⟩ := conforms_blk hB hm hw
        rw [hrow, Option.getD_some] at e1
        have hrl := (hA.2 i row hrow).1
        have g1 : row[j]? = some (some (blk A i j)) := by
          have := List.getElem?_eq_getElem (l := row) (i := j) (by omega)
          rw [this] at e1 ⊢
          simpa using e1
        have g2 : (blkColumn B k)[j]? = some (some (blk B j k)) := by
          unfold blkColumn
          have := List.getElem?_eq_getElem (l := B) (i := j) (by rw [hB.1]; omega)
          rw [List.getElem?_map, this]
          rw [this] at e2
          simpa using e2
        rw [List.getElem?_map, List.getElem?_map, List.getElem?_range hj,
          (List.getElem?_zip_eq_some (z := (_, _))).2 ⟨g1, g2⟩]
        rfl
      · rw [List.getElem?_eq_none, List.getElem?_eq_none]
        · simpa [l] using hj
        · have hrl := (hA.2 i row hrow).1
          simp [blkColumn]; omega
    have hprop : ∀ q ∈ l, q.1.rows = h ∧ q.2.cols = w ∧ q.1.cols = q.2.rows := by
      intro q hq
      obtain ⟨j, hj, rfl⟩ := List.mem_map.1 hq
      have hm := List.getElem?_eq_getElem (List.mem_range.1 hj)
      obtain ⟨-, e2, e3⟩ := conforms_blk hA hh hm
      obtain ⟨-, e5, e6⟩ := conforms_blk hB hm hw
      exact ⟨e2, e6, e3.trans e5.symm⟩
    rw [hl]
    have hlne : l ≠ [] := by
      intro h0
      have := congrArg List.length h0
      simp [l] at this
      exact hms this
    obtain ⟨p, t, hpt⟩ := List.exists_cons_of_ne_nil hlne
    rw [hpt] at hprop ⊢
    obtain ⟨M, e1, e2, e3, e4⟩ := blkAccumulate_ok p t h w hprop
    refine ⟨M, e1, e2, e3, ?_⟩
    intro a c
    rw [e4, ← hpt]
    simp only [l, List.map_map]
    refine congrArg List.sum (List.map_congr_left fun j hj => ?_)
    have hm := List.getElem?_eq_getElem (List.mem_range.1 hj)
    simp only [Function.comp]
    rw [(conforms_blk hA hh hm).2.2, hm]
    rfl
  unfold blkMatMul
  rw [if_neg (by rw [hB.1]; simp)]
  -- one row of the product
  have hrowok : ∀ (i h : Nat) (row : List (Blk R)), A[i]? = some row → hs[i]? = some h →
      ∃ out, (List.range ws.length).mapM (fun k =>
          blkAccumulate none (row.zip (blkColumn B k))) = .ok out ∧ out.length = ws.length ∧
        ∀ (k w : Nat), ws[k]? = some w → ∃ M, out[k]? = some (some M) ∧ M.rows = h ∧ M.cols = w ∧
          ∀ a c, M.entry a c = ((List.range ms.length).map fun j =>
            ((List.range (ms[j]?.getD 0)).map fun b =>
              (blk A i j).entry a b * (blk B j k).entry b c).sum).sum := by
    intro i h row hrow hh
    obtain ⟨out, h1, h2, h3⟩ := mapM_exists (f := fun k =>
        blkAccumulate none (row.zip (blkColumn B k))) (List.range ws.length) (by
      intro k hk
      obtain ⟨M, e, -⟩ := hentry i h k _ row hrow hh
        (List.getElem?_eq_getElem (List.mem_range.1 hk))
      exact ⟨_, e⟩)
    refine ⟨out, h1, by simpa using h2, ?_⟩
    intro k w hw
    have hk := (List.getElem?_eq_some_iff.1 hw).1
    obtain ⟨o, ho1, ho2⟩ := h3 k k (List.getElem?_range hk)
    obtain ⟨M, e1, e2⟩ := hentry i h k w row hrow hh hw
    rw [e1] at ho2
    obtain rfl := Except.ok.inj ho2
    exact ⟨M, ho1, e2⟩
  obtain ⟨C, c1, c2, c3⟩ := mapM_exists (f := fun row => (List.range ws.length).mapM (fun k =>
      blkAccumulate none (row.zip (blkColumn B k)))) A (by
    intro row hr
    obtain ⟨i, hi⟩ := List.mem_iff_getElem?.1 hr
    have hil := (List.getElem?_eq_some_iff.1 hi).1
    obtain ⟨out, e, -⟩ := hrowok i _ row hi (List.getElem?_eq_getElem (by rw [← hA.1]; exact hil))
    exact ⟨out, e⟩)
  have hC : ∀ (i : Nat) (row : List (Blk R)), C[i]? = some row → ∀ h, hs[i]? = some h →
      row.length = ws.length ∧ ∀ (k w : Nat), ws[k]? = some w →
        ∃ M, row[k]? = some (some M) ∧ M.rows = h ∧ M.cols = w ∧
          ∀ a c, M.entry a c = ((List.range ms.length).map fun j =>
            ((List.range (ms[j]?.getD 0)).map fun b =>
              (blk A i j).entry a b * (blk B j k).entry b c).sum).sum := by
    intro i row hrow h hh
    have hil := (List.getElem?_eq_some_iff.1 hh).1
    have hA' := List.getElem?_eq_getElem (l := A) (i := i) (by rw [hA.1]; exact hil)
    obtain ⟨b, hb1, hb2⟩ := c3 i _ hA'
    rw [hrow] at hb1
    obtain rfl := Option.some.inj hb1
    obtain ⟨out, e1, e2⟩ := hrowok i h _ hA' hh
    rw [e1] at hb2
    obtain rfl := Except.ok.inj hb2
    exact e2
  refine ⟨C, c1, ⟨c2.trans hA.1, ?_⟩, ?_⟩
  · intro i row hrow
    have hil := (List.getElem?_eq_some_iff.1 hrow).1
    have hh := List.getElem?_eq_getElem (l := hs) (i := i) (by rw [← hA.1, ← c2]; exact hil)
    obtain ⟨e1, e2⟩ := hC i row hrow _ hh
    refine ⟨e1, ?_⟩
    intro k h w h' hw
    rw [hh] at h'
    obtain rfl := Option.some.inj h'
    obtain ⟨M, m1, m2, m3, -⟩ := e2 k w hw
    exact ⟨M, m1, m2, m3⟩
  · intro i hi k hk a c
    have hh := List.getElem?_eq_getElem hi
    have hw := List.getElem?_eq_getElem hk
    have hrow := List.getElem?_eq_getElem (l := C) (i := i) (by rw [c2, hA.1]; exact hi)
    obtain ⟨M, m1, -, -, m4⟩ := (hC i _ hrow _ hh).2 k _ hw
    have : blk C i k = M := by unfold blk; rw [hrow]; simp [m1]
    rw [this, m4]

/-- C36: for all conforming block matrices without missing blocks the block product exists, and
merging it gives the product of the merged matrices -/
theorem C36_product {hs ms ws : List Nat} {A B : List (List (Blk R))} (hA : Conforms hs ms A)
    (hB : Conforms ms ws B) (hms : ms ≠ []) :
    ∃ C MA MB MC P, blkMatMul ms.length ws.length A B = .ok C ∧ bmat hs ms A = .ok MA ∧
      bmat ms ws B = .ok MB ∧ bmat hs ws C = .ok MC ∧ MA.mul MB = .ok P ∧ SameMat MC P := by
  obtain ⟨C, hC, cC, eC⟩ := blkMatMul_ok hA hB hms
  obtain ⟨MA, a1, a2, a3, a4⟩ := bmat_ok hA
  obtain ⟨MB, b1, b2, b3, b4⟩ := bmat_ok hB
  obtain ⟨MC, c1, c2, c3, c4⟩ := bmat_ok cC
  refine ⟨C, MA, MB, MC, _, hC, a1, b1, c1, if_pos (a3.trans b2.symm), ?_⟩
  refine ⟨c2.trans a2.symm, c3.trans b3.symm, ?_⟩
  intro I hI J hJ
  rw [c2] at hI
  rw [c3] at hJ
  obtain ⟨h, i1, i2⟩ := locate_spec hs I hI
  obtain ⟨w, j1, j2⟩ := locate_spec ws J hJ
  rw [c4 I hI J hJ, eC _ (List.getElem?_eq_some_iff.1 i1).1 _ (List.getElem?_eq_some_iff.1 j1).1,
    ← locate_sum (fun j b => (blk A (locate hs I).1 j).entry (locate hs I).2 b *
      (blk B j (locate ws J).1).entry b (locate ws J).2) ms]
  simp only [a3]
  refine congrArg List.sum (List.map_congr_left fun m hm => ?_)
  have hm := List.mem_range.1 hm
  rw [a4 I hI m hm, b4 m hm J hJ]

/-- C36: merging the transpose gives the transpose of the merged matrix -/
theorem C36_transpose {hs ws : List Nat} {A : List (List (Blk R))} (hA : Conforms hs ws A) :
    ∃ M MT, bmat hs ws A = .ok M ∧ bmat ws hs (blkTranspose ws.length A) = .ok MT ∧
      SameMat MT M.transpose := by
  have hget : ∀ (i j h w : Nat), hs[i]? = some h → ws[j]? = some w →
      (((blkTranspose ws.length A)[j]?.getD [])[i]?) = some (some (blk A i j).transpose) := by
    intro i j h w hh hw
    have hj := (List.getElem?_eq_some_iff.1 hw).1
    have hi := (List.getElem?_eq_some_iff.1 hh).1
    have e := (conforms_blk hA hh hw).1
    have hrow := List.getElem?_eq_getElem (l := A) (i := i) (by rw [hA.1]; exact hi)
    unfold blkTranspose
    rw [List.getElem?_map, List.getElem?_range hj]
    simp only [Option.map_some, Option.getD_some]
    rw [List.getElem?_map, blkColumn, List.getElem?_map, hrow]
    rw [hrow] at e
    simp only [Option.getD_some] at e
    simp [e]
  have cT : Conforms ws hs (blkTranspose ws.length A) := by
    refine ⟨by simp [blkTranspose], ?_⟩
    intro j row hrow
    refine ⟨?_, ?_⟩
    · unfold blkTranspose at hrow
      rw [List.getElem?_map] at hrow
      have hj := List.getElem?_eq_some_iff.1 (Option.map_eq_some_iff.1 hrow).choose_spec.1
      obtain ⟨x, hx, rfl⟩ := Option.map_eq_some_iff.1 hrow
      simp [blkColumn, hA.1]
    · intro i w h hw hh
      have := hget i j h w hh hw
      rw [hrow] at this
      obtain ⟨-, e2, e3⟩ := conforms_blk hA hh hw
      exact ⟨_, this, e3, e2⟩
  obtain ⟨M, a1, a2, a3, a4⟩ := bmat_ok hA
  obtain ⟨MT, t1, t2, t3, t4⟩ := bmat_ok cT
  refine ⟨M, MT, a1, t1, t2.trans a3.symm, t3.trans a2.symm, ?_⟩
  intro J hJ I hI
  rw [t2] at hJ
  rw [t3] at hI
  obtain ⟨h, i1, i2⟩ := locate_spec hs I hI
  obtain ⟨w, j1, j2⟩ := locate_spec ws J hJ
  rw [t4 J hJ I hI]
  have : blk (blkTranspose ws.length A) (locate ws J).1 (locate hs I).1 =
      (blk A (locate hs I).1 (locate ws J).1).transpose := by
    conv_lhs => unfold blk
    rw [hget _ _ h w i1 j1]
    rfl
  rw [this]
  show _ = M.entry I J
  rw [a4 I hI J hJ]
  rfl

/-- C36: a missing block cannot be multiplied, although `merge` treats it as zero -/
theorem C36_missing_block (M : Mat R) :
    blkMatMul 1 1 [[(none : Blk R)]] [[some M]] = .error .typeError ∧
    ∃ Z, bmat [1] [1] [[(none : Blk R)]] = .ok Z ∧ Z.entry 0 0 = 0 := by
  refine ⟨rfl, ?_⟩
  unfold bmat
  rw [if_pos]
  · exact ⟨_, rfl, rfl⟩
  · refine ⟨rfl, ?_⟩
    intro i hi j hj M hM
    have : i = 0 := by simpa using hi
    subst this
    have : j = 0 := by simpa using hj
    subst this
    simp at hM

end

/-- two by one times one by two blocks of different sizes -/
example : ∃ A B : List (List (Blk Int)), Conforms [1, 2] [2] A ∧ Conforms [2] [1, 1] B ∧
    [2] ≠ ([] : List Nat) := by
  refine ⟨[[some ⟨1, 2, fun _ j => j⟩], [some ⟨2, 2, fun i j => i + j⟩]],
    [[some ⟨2, 1, fun i _ => i⟩, some ⟨2, 1, fun _ _ => 3⟩]], ⟨rfl, ?_⟩, ⟨rfl, ?_⟩, by simp⟩
  · intro i row hrow
    match i, hrow with
    | 0, h =>
      obtain rfl := Option.some.inj h
      refine ⟨rfl, fun j h w hh hw => ?_⟩
      match j, hw with
      | 0, hw =>
        obtain rfl := Option.some.inj hw
        obtain rfl := Option.some.inj hh
        exact ⟨_, rfl, rfl, rfl⟩
    | 1, h =>
      obtain rfl := Option.some.inj h
      refine ⟨rfl, fun j h w hh hw => ?_⟩
      match j, hw with
      | 0, hw =>
        obtain rfl := Option.some.inj hw
        obtain rfl := Option.some.inj hh
        exact ⟨_, rfl, rfl, rfl⟩
  · intro i row hrow
    match i, hrow with
    | 0, h =>
      obtain rfl := Option.some.inj h
      refine ⟨rfl, fun j h w hh hw => ?_⟩
      match j, hw with
      | 0, hw =>
        obtain rfl := Option.some.inj hw
        obtain rfl := Option.some.inj hh
        exact ⟨_, rfl, rfl, rfl⟩
      | 1, hw =>
        obtain rfl := Option.some.inj hw
        obtain rfl := Option.some.inj hh
        exact ⟨_, rfl, rfl, rfl⟩

end Verif.Props
