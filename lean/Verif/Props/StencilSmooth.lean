/-
C40: the smoothers of stencil equations.
-/
import Verif.Model.StencilSmooth
import Verif.Props.StencilSystem
import Mathlib.Tactic.Linarith
import Mathlib.Tactic.Ring
import Mathlib.Tactic.LinearCombination

set_option linter.unusedSectionVars false

namespace Verif.Spec

open Verif.Model

/-- `∑ d v²`, over all entries of all blocks -/
def weightedSquare {S I R : Type} [CommRing R] (dom : S → Finset I) (n : Nat) (cs : Nat → S)
    (d v : BlockArr S I R) : R :=
  ∑ j ∈ Finset.range n, ∑ p ∈ dom (cs j), (d.block j).val p * ((v.block j).val p * (v.block j).val p)

end Verif.Spec

namespace Verif.Props

open Verif.Model Verif.Spec

section

variable {S I R : Type} [DecidableEq S] [Field R] [LinearOrder R] [IsStrictOrderedRing R]
  {dom : S → Finset I} {T : Op S I R → Prop} {good : Nat → R → Prop} {K : Nat}

theorem arr_eta {a : Arr S I R} {s : S} (h : a.shape = s) : a = ⟨s, a.val⟩ := by
  subst h
  rfl

/-! ### pointwise operations -/

theorem zipWith_ok {f : R → R → R} (hf : f 0 0 = 0) {n : Nat} {cs : Nat → S} {a b : BlockArr S I R}
    (ha : BlockVector dom n cs a) (hb : BlockVector dom n cs b) :
    ∃ c, a.zipWith f b = .ok c ∧ BlockVector dom n cs c ∧
      ∀ j < n, c.block j = ⟨cs j, fun p => f ((a.block j).val p) ((b.block j).val p)⟩ := by
  have hent : ∀ i < a.size, (a.block i).zipWith f (b.block i) =
      .ok ⟨cs i, fun p => f ((a.block i).val p) ((b.block i).val p)⟩ := by
    intro i hi
    rw [ha.size] at hi
    rw [Arr.zipWith, if_pos (by rw [ha.shape i hi, hb.shape i hi]), ha.shape i hi]
  obtain ⟨r, h1, h2⟩ := collect_ok (dflt := a.block 0) hent
  have h2' : ∀ j < n, r j = _ := fun j hj => h2 j (by rw [ha.size]; exact hj)
  refine ⟨⟨a.size, r⟩, ?_, ⟨ha.size, ?_, ?_⟩, h2'⟩
  · rw [BlockArr.zipWith, if_pos (by rw [ha.size, hb.size])]
    rw [h1]
    rfl
  · intro j hj
    simp only
    rw [h2' j hj]
  · intro j hj p hp
    simp only at hp ⊢
    rw [h2' j hj] at hp ⊢
    simp only at hp ⊢
    have h3 := ha.valid j hj p (by rw [ha.shape j hj]; exact hp)
    have h4 := hb.valid j hj p (by rw [hb.shape j hj]; exact hp)
    rw [h3, h4, hf]

theorem scale_blockVector {n : Nat} {cs : Nat → S} {a : BlockArr S I R} (c : R)
    (ha : BlockVector dom n cs a) : BlockVector dom n cs (a.scale c) := by
  refine ⟨ha.size, fun j hj => ha.shape j hj, fun j hj p hp => ?_⟩
  have := ha.valid j hj p hp
  simp only [BlockArr.scale, Arr.scale] at this ⊢
  rw [this, zero_mul]

/-- a block vector with given entries -/
theorem blockVector_mk {n : Nat} {cs : Nat → S} {v : Nat → I → R}
    (hv : ∀ j < n, ∀ p, p ∉ dom (cs j) → v j p = 0) :
    BlockVector dom n cs ⟨n, fun j => ⟨cs j, v j⟩⟩ :=
  ⟨rfl, fun _ _ => rfl, fun j hj p hp => hv j hj p hp⟩

theorem blockVector_zero {n : Nat} {cs : Nat → S} {x : BlockArr S I R}
    (hx : BlockVector dom n cs x) {j : Nat} (hj : j < n) {p : I} (hp : p ∉ dom (cs j)) :
    (x.block j).val p = 0 := hx.valid j hj p (by rw [hx.shape j hj]; exact hp)

/-- products of block operators and vectors are additive -/
theorem vecMul_add (hT : LinearLeaves dom T) {k m n : Nat} {rs cs : Nat → S} {A : BlockOp S I R}
    (hA : Conforming T good k m n rs cs A) (hn : 0 < n) {x y z ax ay az : BlockArr S I R}
    (hx : BlockVector dom n cs x) (hy : BlockVector dom n cs y) (hz : BlockVector dom n cs z)
    (h : ∀ j < n, ∀ p, (z.block j).val p = (x.block j).val p + (y.block j).val p)
    (hax : A.vecMul x = .ok ax) (hay : A.vecMul y = .ok ay) (haz : A.vecMul z = .ok az) :
    ∀ i < m, ∀ p, (az.block i).val p = (ax.block i).val p + (ay.block i).val p := by
  obtain ⟨_, x1, _, x3⟩ := vecMul_ok hT.toFnLeaves hA hn hx
  obtain ⟨_, y1, _, y3⟩ := vecMul_ok hT.toFnLeaves hA hn hy
  obtain ⟨_, z1, _, z3⟩ := vecMul_ok hT.toFnLeaves hA hn hz
  rw [hax] at x1
  rw [hay] at y1
  rw [haz] at z1
  cases x1
  cases y1
  cases z1
  intro i hi p
  rw [x3 i hi, y3 i hi, z3 i hi]
  simp only
  rw [← Finset.sum_add_distrib]
  refine Finset.sum_congr rfl fun j hj => ?_
  have hj := Finset.mem_range.mp hj
  obtain ⟨s1, s2⟩ := hA.shape i hi j hj
  have e1 := arr_eta (hx.shape j hj)
  have e2 := arr_eta (hy.shape j hj)
  have e3 : z.block j = ⟨cs j, fun p => (x.block j).val p + (y.block j).val p⟩ := by
    rw [arr_eta (hz.shape j hj)]
    congr 1
    funext p
    exact h j hj p
  have v1 := hx.valid j hj
  have v2 := hy.valid j hj
  rw [e1] at v1 ⊢
  rw [e2] at v2 ⊢
  rw [e3]
  have := ev_add hT (hA.constructed i hi j hj) (graded_leaves (hA.graded i hi j hj))
    (u := (x.block j).val) (v := (y.block j).val) (by rw [s2]; exact v1) (by rw [s2]; exact v2)
  rw [s2] at this
  rw [this]

theorem vecMul_zero (hT : LinearLeaves dom T) {k m n : Nat} {rs cs : Nat → S} {A : BlockOp S I R}
    (hA : Conforming T good k m n rs cs A) (hn : 0 < n) {x ax : BlockArr S I R}
    (hx : BlockVector dom n cs x) (h : ∀ j < n, ∀ p, (x.block j).val p = 0)
    (hax : A.vecMul x = .ok ax) : ∀ i < m, ∀ p, (ax.block i).val p = 0 := by
  intro i hi p
  have := vecMul_add hT hA hn hx hx hx (fun j hj p => by rw [h j hj p, add_zero]) hax hax hax i hi p
  linarith

/-! ### residuals -/

theorem residual_ok (hT : LinearLeaves dom T) {ka kb m n l : Nat} (hn : 0 < n) (hl : 0 < l)
    {rs cs ds : Nat → S} {sys : StencilSystem S I R}
    (hA : Conforming T good ka m n rs cs sys.A) (hB : Conforming T good kb m l rs ds sys.B)
    {x y : BlockArr S I R} (hx : BlockVector dom n cs x) (hy : BlockVector dom l ds y) :
    ∃ r ax by', sys.residual x y = .ok r ∧ sys.A.vecMul x = .ok ax ∧ sys.B.vecMul y = .ok by' ∧
      BlockVector dom m rs r ∧ BlockVector dom m rs ax ∧ BlockVector dom m rs by' ∧
      ∀ i < m, ∀ p, (r.block i).val p = (ax.block i).val p - (by'.block i).val p := by
  obtain ⟨ax, a1, a2, _⟩ := vecMul_ok hT.toFnLeaves hA hn hx
  obtain ⟨b, b1, b2, _⟩ := vecMul_ok hT.toFnLeaves hB hl hy
  obtain ⟨r, r1, r2, r3⟩ := zipWith_ok (f := (· - ·)) (sub_zero 0) a2 b2
  refine ⟨r, ax, b, ?_, a1, b1, r2, a2, b2, fun i hi p => by rw [r3 i hi]⟩
  rw [StencilSystem.residual]
  simp only [a1, b1, bind, Except.bind]
  exact r1

/-! ### Jacobi iteration -/

theorem jacobi_ok (hT : LinearLeaves dom T) {ka kb m n l : Nat} (hm : 0 < m) (hn : 0 < n)
    (hl : 0 < l) {rs cs ds : Nat → S} {sys : StencilSystem S I R}
    (hA : Conforming T good ka m n rs cs sys.A) (hB : Conforming T good kb m l rs ds sys.B)
    {dinv x y : BlockArr S I R} (hd : BlockVector dom n cs dinv) (hx : BlockVector dom n cs x)
    (hy : BlockVector dom l ds y) (relaxation : R) :
    ∃ x' r g, sys.jacobi dinv x y relaxation = .ok x' ∧ sys.residual x y = .ok r ∧
      sys.A.transpose.vecMul r = .ok g ∧ BlockVector dom m rs r ∧ BlockVector dom n cs g ∧
      BlockVector dom n cs x' ∧ ∀ j < n, ∀ p, (x'.block j).val p =
        (x.block j).val p - (dinv.block j).val p * (g.block j).val p * (relaxation / 2) := by
  obtain ⟨r, ax, b, r1, a1, b1, r2, a2, b2, r3⟩ := residual_ok hT hn hl hA hB hx hy
  obtain ⟨g, g1, g2, _⟩ := vecMul_ok hT.toFnLeaves (conforming_transpose hT hA) hm r2
  obtain ⟨e, e1, e2, e3⟩ := zipWith_ok (f := (· * ·)) (mul_zero 0) hd g2
  obtain ⟨x', x1, x2, x3⟩ := zipWith_ok (f := (· - ·)) (sub_zero 0) hx
    (scale_blockVector (relaxation / 2) e2)
  refine ⟨x', r, g, ?_, r1, g1, r2, g2, x2, fun j hj p => ?_⟩
  · rw [StencilSystem.jacobi]
    simp only [r1, g1, e1, bind, Except.bind]
    exact x1
  · rw [x3 j hj]
    simp only [BlockArr.scale, Arr.scale]
    rw [e3 j hj]

/-- C40: a Jacobi step leaves every exact solution unchanged, whatever the diagonal and the
relaxation -/
theorem C40_jacobi_fixed (hT : LinearLeaves dom T) {ka kb m n l : Nat} (hm : 0 < m) (hn : 0 < n)
    (hl : 0 < l) {rs cs ds : Nat → S} {sys : StencilSystem S I R}
    (hA : Conforming T good ka m n rs cs sys.A) (hB : Conforming T good kb m l rs ds sys.B)
    {dinv x y : BlockArr S I R} (hd : BlockVector dom n cs dinv) (hx : BlockVector dom n cs x)
    (hy : BlockVector dom l ds y) (relaxation : R)
    {b : BlockArr S I R} (hb : sys.B.vecMul y = .ok b)
    (hsol : ∃ ax, sys.A.vecMul x = .ok ax ∧ ∀ i < m, ax.block i = b.block i) :
    ∃ x', sys.jacobi dinv x y relaxation = .ok x' ∧ BlockVector dom n cs x' ∧
      ∀ j < n, x'.block j = x.block j := by
  obtain ⟨x', r, g, h1, h2, h3, h4, h5, h6, h7⟩ := jacobi_ok hT hm hn hl hA hB hd hx hy relaxation
  refine ⟨x', h1, h6, fun j hj => ?_⟩
  obtain ⟨r', ax, b', r1, a1, b1, r2, a2, b2, r3⟩ := residual_ok hT hn hl hA hB hx hy
  obtain ⟨ax', e1, e2⟩ := hsol
  rw [h2] at r1
  rw [a1] at e1
  rw [hb] at b1
  cases r1
  cases e1
  cases b1
  have hz := vecMul_zero hT (conforming_transpose hT hA) hm h4
    (fun i hi p => by rw [r3 i hi p, e2 i hi, sub_self]) h3
  rw [arr_eta (h6.shape j hj), arr_eta (hx.shape j hj)]
  congr 1
  funext p
  rw [h7 j hj p, hz j hj p]
  simp

/-- the exact solutions of a system -/
def Solves (sys : StencilSystem S I R) (m : Nat) (x y : BlockArr S I R) : Prop :=
  ∃ ax b, sys.A.vecMul x = .ok ax ∧ sys.B.vecMul y = .ok b ∧ ∀ i < m, ax.block i = b.block i

/-- C40: `overrelax` leaves every exact solution unchanged, for every list of knots -/
theorem C40_overrelax_fixed (hT : LinearLeaves dom T) {ka kb m n l : Nat} (hm : 0 < m) (hn : 0 < n)
    (hl : 0 < l) {rs cs ds : Nat → S} {sys : StencilSystem S I R}
    (hA : Conforming T good ka m n rs cs sys.A) (hB : Conforming T good kb m l rs ds sys.B)
    {dinv y : BlockArr S I R} (hd : BlockVector dom n cs dinv) (hy : BlockVector dom l ds y)
    (knots : List R) : ∀ {x : BlockArr S I R}, BlockVector dom n cs x → Solves sys m x y →
    ∃ x', sys.overrelax dinv y knots x = .ok x' ∧ BlockVector dom n cs x' ∧
      ∀ j < n, x'.block j = x.block j := by
  induction knots with
  | nil => exact fun {x} hx _ => ⟨x, rfl, hx, fun _ _ => rfl⟩
  | cons k knots ih =>
    intro x hx hsol
    obtain ⟨ax, b, s1, s2, s3⟩ := hsol
    obtain ⟨x', h1, h2, h3⟩ := C40_jacobi_fixed hT hm hn hl hA hB hd hx hy k s2 ⟨ax, s1, s3⟩
    obtain ⟨ax', a1, _, _⟩ := vecMul_ok hT.toFnLeaves hA hn h2
    obtain ⟨x'', g1, g2, g3⟩ := ih h2 ⟨ax', b, a1, s2, fun i hi => by
      rw [vecMul_congr hT.toFnLeaves hA hn h2 hx h3 a1 s1 i hi, s3 i hi]⟩
    refine ⟨x'', ?_, g2, fun j hj => (g3 j hj).trans (h3 j hj)⟩
    rw [StencilSystem.overrelax] at g1 ⊢
    rw [List.foldlM_cons, h1]
    exact g1

/-- C40: `smooth` leaves every exact solution unchanged -/
theorem C40_smooth_fixed (hT : LinearLeaves dom T) {ka kb m n l : Nat} (hm : 0 < m) (hn : 0 < n)
    (hl : 0 < l) {rs cs ds : Nat → S} {sys : StencilSystem S I R}
    (hA : Conforming T good ka m n rs cs sys.A) (hB : Conforming T good kb m l rs ds sys.B)
    {dinv x y : BlockArr S I R} (hd : BlockVector dom n cs dinv) (hy : BlockVector dom l ds y)
    (base : R) (hx : BlockVector dom n cs x) (hsol : Solves sys m x y) :
    ∃ x', sys.smooth dinv y base x = .ok x' ∧ BlockVector dom n cs x' ∧
      ∀ j < n, x'.block j = x.block j :=
  C40_overrelax_fixed hT hm hn hl hA hB hd hy _ hx hsol

/-! ### descent -/

theorem blockInner_add {n : Nat} {cs : Nat → S} {u v w : BlockArr S I R}
    (h : ∀ j < n, ∀ p, (w.block j).val p = (u.block j).val p + (v.block j).val p) :
    blockInner dom n cs w w =
      blockInner dom n cs u u + 2 * blockInner dom n cs u v + blockInner dom n cs v v := by
  simp only [blockInner, inner, Finset.mul_sum, ← Finset.sum_add_distrib]
  refine Finset.sum_congr rfl fun j hj => Finset.sum_congr rfl fun p _ => ?_
  rw [h j (Finset.mem_range.mp hj) p]
  ring

/-- the residual after adding `δ` to `x` -/
theorem residual_step (hT : LinearLeaves dom T) {ka kb m n l : Nat} (hm : 0 < m) (hn : 0 < n)
    (hl : 0 < l) {rs cs ds : Nat → S} {sys : StencilSystem S I R}
    (hA : Conforming T good ka m n rs cs sys.A) (hB : Conforming T good kb m l rs ds sys.B)
    {x x' δ y r r' g aδ : BlockArr S I R} (hx : BlockVector dom n cs x)
    (hx' : BlockVector dom n cs x') (hδ : BlockVector dom n cs δ) (hy : BlockVector dom l ds y)
    (hstep : ∀ j < n, ∀ p, (x'.block j).val p = (x.block j).val p + (δ.block j).val p)
    (hr : sys.residual x y = .ok r) (hr' : sys.residual x' y = .ok r')
    (hg : sys.A.transpose.vecMul r = .ok g) (haδ : sys.A.vecMul δ = .ok aδ) :
    blockInner dom m rs r' r' = blockInner dom m rs r r + 2 * blockInner dom n cs δ g +
      blockInner dom m rs aδ aδ := by
  obtain ⟨q, ax, b, r1, a1, b1, r2, a2, b2, r3⟩ := residual_ok hT hn hl hA hB hx hy
  rw [hr] at r1
  cases r1
  obtain ⟨q, ax', b', r1', a1', b1', r2', a2', b2', r3'⟩ := residual_ok hT hn hl hA hB hx' hy
  rw [hr'] at r1'
  cases r1'
  rw [b1] at b1'
  cases b1'
  have hadd := vecMul_add hT hA hn hx hδ hx' hstep a1 haδ a1'
  rw [blockInner_add (u := r) (v := aδ) (fun i hi p => by
    rw [r3 i hi p, r3' i hi p, hadd i hi p]; ring)]
  obtain ⟨u, v, k1, k2, _, _, k5⟩ := C37_adjoint hT hm hn hA hδ r2
  rw [haδ] at k1
  rw [hg] at k2
  cases k1
  cases k2
  rw [blockInner_comm (x := r) (y := aδ), k5]

/-- C40: Let `d` be positive with inverse `dinv`, and `w |A v|² ≤ c ∑ d v²` for all `v`.  A Jacobi
step with relaxation `w` lowers the square of the residual by at least `w (1 - c/4) ∑ dinv g²`, where
`g` is the residual of the normal equations.  So it never grows if `c ≤ 4`, and if `c < 4` it becomes
smaller unless the normal equations are solved. -/
theorem C40_jacobi_descent (hT : LinearLeaves dom T) {ka kb m n l : Nat} (hm : 0 < m) (hn : 0 < n)
    (hl : 0 < l) {rs cs ds : Nat → S} {sys : StencilSystem S I R}
    (hA : Conforming T good ka m n rs cs sys.A) (hB : Conforming T good kb m l rs ds sys.B)
    {d dinv x y : BlockArr S I R} (hd : BlockVector dom n cs dinv) (hx : BlockVector dom n cs x)
    (hy : BlockVector dom l ds y) {w c : R} (hw : 0 < w)
    (hdd : ∀ j < n, ∀ p ∈ dom (cs j), (d.block j).val p * (dinv.block j).val p = 1)
    (hbound : ∀ v av, BlockVector dom n cs v → sys.A.vecMul v = .ok av →
      w * blockInner dom m rs av av ≤ c * weightedSquare dom n cs d v) :
    ∃ x' r r' g, sys.jacobi dinv x y w = .ok x' ∧ sys.residual x y = .ok r ∧
      sys.residual x' y = .ok r' ∧ sys.A.transpose.vecMul r = .ok g ∧
      blockInner dom m rs r' r' + w * (1 - c / 4) * weightedSquare dom n cs dinv g ≤
        blockInner dom m rs r r := by
  obtain ⟨x', r, g, h1, h2, h3, h4, h5, h6, h7⟩ := jacobi_ok hT hm hn hl hA hB hd hx hy w
  obtain ⟨r', _, _, r1', _⟩ := residual_ok hT hn hl hA hB h6 hy
  refine ⟨x', r, r', g, h1, h2, r1', h3, ?_⟩
  let δ : BlockArr S I R := ⟨n, fun j => ⟨cs j, fun p =>
    - ((dinv.block j).val p * (g.block j).val p * (w / 2))⟩⟩
  have hδ : BlockVector dom n cs δ := blockVector_mk fun j hj p hp => by
    rw [blockVector_zero hd hj hp, zero_mul, zero_mul, neg_zero]
  obtain ⟨aδ, a1, a2, _⟩ := vecMul_ok hT.toFnLeaves hA hn hδ
  have key := residual_step hT hm hn hl hA hB hx h6 hδ hy (fun j hj p => by
    rw [h7 j hj p]; simp only [δ]; ring) h2 r1' h3 a1
  have e1 : blockInner dom n cs δ g = - (w / 2) * weightedSquare dom n cs dinv g := by
    simp only [blockInner, inner, weightedSquare, Finset.mul_sum]
    exact Finset.sum_congr rfl fun j _ => Finset.sum_congr rfl fun p _ => by
      simp only [δ]; ring
  have e2 : weightedSquare dom n cs d δ = (w * w / 4) * weightedSquare dom n cs dinv g := by
    simp only [weightedSquare, Finset.mul_sum]
    refine Finset.sum_congr rfl fun j hj => Finset.sum_congr rfl fun p hp => ?_
    have := hdd j (Finset.mem_range.mp hj) p hp
    simp only [δ]
    linear_combination ((dinv.block j).val p * (g.block j).val p * (g.block j).val p * (w * w / 4)) * this
  have hb := hbound δ aδ hδ a1
  rw [e2] at hb
  rw [key, e1]
  have hb' : blockInner dom m rs aδ aδ ≤ c * (w / 4) * weightedSquare dom n cs dinv g := by
    refine le_of_mul_le_mul_left ?_ hw
    calc w * blockInner dom m rs aδ aδ ≤ _ := hb
      _ = _ := by ring
  linarith

/-! ### rows -/

theorem rowResidual_ok (hT : FnLeaves dom T) {k m n : Nat} {rs cs : Nat → S} {A : BlockOp S I R}
    (hA : Conforming T good k m n rs cs A) (hn : 0 < n) {x : BlockArr S I R}
    (hx : BlockVector dom n cs x) {i : Nat} (hi : i < m) {b : Arr S I R} (hb : b.shape = rs i)
    {ax : BlockArr S I R} (hax : A.vecMul x = .ok ax) :
    rowResidual A i x b = .ok ⟨rs i, fun p => (ax.block i).val p - b.val p⟩ := by
  have key : ∀ n' ≤ n, (List.range n').foldlM (fun (acc : Option (Arr S I R)) j => do
      let y ← (A.block i j).call (x.block j)
      sumStep acc y) none = (.ok (if n' = 0 then none else
          some ⟨rs i, fun p => ∑ j ∈ Finset.range n', ev (A.block i j) (x.block j) p⟩) :
            Except PyErr (Option (Arr S I R))) := by
    intro n' hn'
    induction n' with
    | zero => rfl
    | succ n' ih =>
      have hj : n' < n := hn'
      obtain ⟨s1, s2⟩ := hA.shape i hi n' hj
      obtain ⟨c1, _⟩ := ev_spec hT (hA.constructed i hi n' hj) (graded_leaves (hA.graded i hi n' hj))
        (by rw [s2]; exact hx.shape n' hj) (hx.valid n' hj)
      rw [List.range_succ, List.foldlM_append, ih (by omega)]
      by_cases h0 : n' = 0
      · subst h0
        simp [bind, Except.bind, c1, s1, pure, Except.pure, sumStep]
      · simp only [h0, if_false, List.foldlM_cons, List.foldlM_nil, bind, Except.bind, c1, s1,
          Arr.add, sumStep, if_true, pure, Except.pure, Nat.add_eq_zero_iff, Nat.one_ne_zero, and_false,
          Finset.sum_range_succ]
  obtain ⟨ax', a1, _, a3⟩ := vecMul_ok hT hA hn hx
  rw [hax] at a1
  cases a1
  rw [rowResidual, hA.cols, hx.size, Nat.min_self, key n le_rfl, if_neg (by omega)]
  show (Arr.zipWith (· - ·) _ b) = _
  rw [Arr.zipWith, if_pos hb.symm, a3 i hi]

/-! ### block Gauss-Seidel on the normal equations -/

theorem nrStep_ok (hT : LinearLeaves dom T) {k n : Nat} (hn : 0 < n) {cs : Nat → S}
    {nrm : StencilSystem S I R} (hA : Conforming T good k n n cs cs nrm.A)
    {dinv b x nx : BlockArr S I R} (hd : BlockVector dom n cs dinv) (hb : BlockVector dom n cs b)
    (hx : BlockVector dom n cs x) (hnx : nrm.A.vecMul x = .ok nx) {ri : Nat} (hri : ri < n) :
    ∃ x', nrm.nrStep dinv b x ri = .ok x' ∧ BlockVector dom n cs x' ∧
      ∀ j < n, ∀ p, (x'.block j).val p = (x.block j).val p + if j = ri then
        - ((dinv.block ri).val p * ((nx.block ri).val p - (b.block ri).val p) * (1 / 2)) else 0 := by
  obtain ⟨nx', n1, n2, _⟩ := vecMul_ok hT.toFnLeaves hA hn hx
  rw [hnx] at n1
  cases n1
  have hrow := rowResidual_ok hT.toFnLeaves hA hn hx hri (hb.shape ri hri) hnx
  refine ⟨⟨n, fun j => if j = ri then ⟨cs ri, fun p => (x.block ri).val p -
    (dinv.block ri).val p * ((nx.block ri).val p - (b.block ri).val p) * (1 / 2)⟩ else x.block j⟩,
    ?_, ⟨rfl, fun j hj => ?_, fun j hj p hp => ?_⟩, fun j hj p => ?_⟩
  · rw [StencilSystem.nrStep]
    simp only [BlockArr.get, hb.size, hd.size, hx.size, hri, if_true, bind, Except.bind, hrow,
      Arr.zipWith, hd.shape ri hri, hx.shape ri hri, Arr.scale, BlockArr.set, and_self]
  · by_cases h : j = ri
    · subst h; simp
    · simp only [h, if_false]; exact hx.shape j hj
  · by_cases h : j = ri
    · subst h
      simp only [if_true] at hp ⊢
      rw [blockVector_zero hx hj hp, blockVector_zero hd hj hp]
      simp
    · simp only [h, if_false] at hp ⊢; exact hx.valid j hj p hp
  · by_cases h : j = ri
    · subst h; simp only [if_true]; ring
    · simp only [h, if_false, add_zero]

/-- an invariant of the steps is an invariant of the sweep -/
theorem nrSweep {n : Nat} {nrm : StencilSystem S I R} {dinv b : BlockArr S I R}
    {P : BlockArr S I R → Prop}
    (hstep : ∀ x ri, P x → ri < n → ∃ x', nrm.nrStep dinv b x ri = .ok x' ∧ P x') (n' : Nat)
    (hn' : n' ≤ n) {x : BlockArr S I R} (hx : P x) :
    ∃ x', (List.range n').foldlM (fun x ri => nrm.nrStep dinv b x ri) x = .ok x' ∧ P x' := by
  induction n' with
  | zero => exact ⟨x, rfl, hx⟩
  | succ n' ih =>
    obtain ⟨x', h1, h2⟩ := ih (by omega)
    obtain ⟨x'', h3, h4⟩ := hstep x' n' h2 hn'
    refine ⟨x'', ?_, h4⟩
    rw [List.range_succ, List.foldlM_append, h1]
    simp only [List.foldlM_cons, List.foldlM_nil, bind, Except.bind, h3, pure, Except.pure]

/-- C40: `NR_BLOCK_GS` leaves every exact solution unchanged -/
theorem C40_nr_fixed (hT : LinearLeaves dom T) (hG : GradedEntries good K) {ka kb m n l : Nat}
    (hka : ka + ka ≤ K) (hkb : ka + kb ≤ K) (hm : 0 < m) (hn : 0 < n) (hl : 0 < l)
    {rs cs ds : Nat → S} {sys : StencilSystem S I R}
    (hA : Conforming T good ka m n rs cs sys.A) (hB : Conforming T good kb m l rs ds sys.B)
    {dinv x y : BlockArr S I R} (hd : BlockVector dom n cs dinv) (hx : BlockVector dom n cs x)
    (hy : BlockVector dom l ds y) (hsol : Solves sys m x y) :
    ∃ x', sys.nrBlockGS dom dinv x y = .ok x' ∧ BlockVector dom n cs x' ∧
      ∀ j < n, x'.block j = x.block j := by
  obtain ⟨nrm, n1, n2, n3, n4, n5⟩ := C38_normal hT hG hka hkb hm hn hl hA hB
  obtain ⟨b, b1, b2, _⟩ := vecMul_ok hT.toFnLeaves n3 hl hy
  obtain ⟨ax, bv, s1, s2, s3⟩ := hsol
  obtain ⟨ax', bv', abv, nx, ny, e1, e2, e3, e4, e5, e6, e7⟩ := n5 x y hx hy
  rw [s1] at e1
  rw [s2] at e2
  rw [b1] at e5
  cases e1
  cases e2
  cases e5
  have hnx := e7 s3
  obtain ⟨x', h1, h2, h3⟩ := nrSweep (P := fun x' => BlockVector dom n cs x' ∧
      ∀ j < n, x'.block j = x.block j) (nrm := nrm) (dinv := dinv) (b := b) (n := n) (by
    rintro x' ri ⟨hx', hxx⟩ hri
    obtain ⟨nx', k1, _, _⟩ := vecMul_ok hT.toFnLeaves n2 hn hx'
    obtain ⟨x'', g1, g2, g3⟩ := nrStep_ok hT hn n2 hd b2 hx' k1 hri
    refine ⟨x'', g1, g2, fun j hj => ?_⟩
    rw [← hxx j hj, arr_eta (g2.shape j hj), arr_eta (hx'.shape j hj)]
    congr 1
    funext p
    rw [g3 j hj p]
    have h0 : (nx'.block ri).val p - (b.block ri).val p = 0 := by
      rw [vecMul_congr hT.toFnLeaves n2 hn hx' hx hxx k1 e4 ri hri, hnx ri hri, sub_self]
    rw [h0]
    simp) n le_rfl (x := x) ⟨hx, fun _ _ => rfl⟩
  refine ⟨x', ?_, h2, h3⟩
  rw [StencilSystem.nrBlockGS]
  simp only [n1, b1, bind, Except.bind, hA.cols]
  exact h1

/-- C40: let `d` be a diagonal with inverse `dinv` and `|A v|² ≤ 4 ∑ d v²` for all `v` that vanish
outside of a single block; then `NR_BLOCK_GS` never increases the square of the residual -/
theorem C40_nr_descent (hT : LinearLeaves dom T) (hG : GradedEntries good K) {ka kb m n l : Nat}
    (hka : ka + ka ≤ K) (hkb : ka + kb ≤ K) (hm : 0 < m) (hn : 0 < n) (hl : 0 < l)
    {rs cs ds : Nat → S} {sys : StencilSystem S I R}
    (hA : Conforming T good ka m n rs cs sys.A) (hB : Conforming T good kb m l rs ds sys.B)
    {d dinv x y : BlockArr S I R} (hd : BlockVector dom n cs dinv) (hx : BlockVector dom n cs x)
    (hy : BlockVector dom l ds y)
    (hdd : ∀ j < n, ∀ p ∈ dom (cs j), (d.block j).val p * (dinv.block j).val p = 1)
    (hbound : ∀ ri < n, ∀ v av, BlockVector dom n cs v → (∀ j < n, j ≠ ri → ∀ p,
      (v.block j).val p = 0) → sys.A.vecMul v = .ok av →
      blockInner dom m rs av av ≤ 4 * weightedSquare dom n cs d v) :
    ∃ x' r r', sys.nrBlockGS dom dinv x y = .ok x' ∧ sys.residual x y = .ok r ∧
      sys.residual x' y = .ok r' ∧ blockInner dom m rs r' r' ≤ blockInner dom m rs r r := by
  obtain ⟨nrm, n1, n2, n3, n4, n5⟩ := C38_normal hT hG hka hkb hm hn hl hA hB
  obtain ⟨b, b1, b2, _⟩ := vecMul_ok hT.toFnLeaves n3 hl hy
  obtain ⟨r, ax, bv, r1, a1, bv1, r2, a2, bv2, r3⟩ := residual_ok hT hn hl hA hB hx hy
  obtain ⟨x', h1, h2, r', h3, h4⟩ := nrSweep (P := fun x' => BlockVector dom n cs x' ∧
      ∃ r', sys.residual x' y = .ok r' ∧ blockInner dom m rs r' r' ≤ blockInner dom m rs r r)
    (nrm := nrm) (dinv := dinv) (b := b) (n := n) (by
    rintro x ri ⟨hx, r₀, hr₀, hle⟩ hri
    obtain ⟨r, ax, bv, r1, a1, bv1, r2, a2, bv2, r3⟩ := residual_ok hT hn hl hA hB hx hy
    rw [hr₀] at r1
    cases r1
    obtain ⟨ax', bv', abv, nx, ny, e1, e2, e3, e4, e5, e6, e7⟩ := n5 x y hx hy
    rw [a1] at e1
    rw [bv1] at e2
    rw [b1] at e5
    cases e1
    cases e2
    cases e5
    obtain ⟨ax', aax, nx', f1, f2, f3, f4, _⟩ := n4 x hx
    rw [a1] at f1
    rw [e4] at f3
    cases f1
    cases f3
    obtain ⟨g, g1, g2, _⟩ := vecMul_ok hT.toFnLeaves (conforming_transpose hT hA) hm r2
    have hg : ∀ p, (nx.block ri).val p - (b.block ri).val p = (g.block ri).val p := by
      intro p
      have := vecMul_add hT (conforming_transpose hT hA) hm bv2 r2 a2 (fun i hi p => by
        rw [r3 i hi p]; ring) e3 g1 f2 ri hri p
      rw [f4 ri hri, e6 ri hri, this]
      ring
    obtain ⟨x'', k1, k2, k3⟩ := nrStep_ok hT hn n2 hd b2 hx e4 hri
    obtain ⟨r'', _, _, r1'', _⟩ := residual_ok hT hn hl hA hB k2 hy
    refine ⟨x'', k1, k2, r'', r1'', le_trans ?_ hle⟩
    let δ : BlockArr S I R := ⟨n, fun j => ⟨cs j, fun p => if j = ri then
      - ((dinv.block ri).val p * (g.block ri).val p * (1 / 2)) else 0⟩⟩
    have hδ : BlockVector dom n cs δ := blockVector_mk fun j hj p hp => by
      by_cases h : j = ri
      · subst h
        rw [if_pos rfl, blockVector_zero hd hj hp]
        simp
      · rw [if_neg h]
    obtain ⟨aδ, c1, c2, _⟩ := vecMul_ok hT.toFnLeaves hA hn hδ
    have key := residual_step hT hm hn hl hA hB hx k2 hδ hy (fun j hj p => by
      rw [k3 j hj p, hg p]) hr₀ r1'' g1 c1
    have hb := hbound ri hri δ aδ hδ (fun j hj hne p => if_neg hne) c1
    have e1 : blockInner dom n cs δ g = - (1 / 2) * ∑ p ∈ dom (cs ri),
        (dinv.block ri).val p * ((g.block ri).val p * (g.block ri).val p) := by
      rw [blockInner, Finset.sum_eq_single ri]
      · simp only [inner, Finset.mul_sum]
        exact Finset.sum_congr rfl fun p _ => by simp only [δ, if_true]; ring
      · intro j _ hne
        simp only [inner]
        exact Finset.sum_eq_zero fun p _ => by simp only [δ, if_neg hne, zero_mul]
      · intro h
        exact absurd (Finset.mem_range.mpr hri) h
    have e2 : weightedSquare dom n cs d δ = (1 / 4) * ∑ p ∈ dom (cs ri),
        (dinv.block ri).val p * ((g.block ri).val p * (g.block ri).val p) := by
      rw [weightedSquare, Finset.sum_eq_single ri]
      · simp only [Finset.mul_sum]
        refine Finset.sum_congr rfl fun p hp => ?_
        have := hdd ri hri p hp
        simp only [δ, if_true]
        linear_combination ((dinv.block ri).val p * (g.block ri).val p * (g.block ri).val p * (1 / 4)) * this
      · intro j _ hne
        exact Finset.sum_eq_zero fun p _ => by simp only [δ, if_neg hne, mul_zero]
      · intro h
        exact absurd (Finset.mem_range.mpr hri) h
    rw [e2] at hb
    rw [key, e1]
    linarith) n le_rfl (x := x) ⟨hx, r, r1, le_rfl⟩
  refine ⟨x', r, r', ?_, r1, h3, h4⟩
  rw [StencilSystem.nrBlockGS]
  simp only [n1, b1, bind, Except.bind, hA.cols]
  exact h1

/-! ### block Gauss-Seidel on the rows of the system -/

theorem neStep_ok (hT : LinearLeaves dom T) {k m n : Nat} (hn : 0 < n) {rs cs : Nat → S}
    {sys : StencilSystem S I R} (hA : Conforming T good k m n rs cs sys.A)
    {di b x ax : BlockArr S I R} (hd : BlockVector dom m rs di) (hb : BlockVector dom m rs b)
    (hx : BlockVector dom n cs x) (hax : sys.A.vecMul x = .ok ax) {ri : Nat} (hri : ri < m) :
    ∃ x', sys.neStep di b x ri = .ok x' ∧ BlockVector dom n cs x' ∧
      ∀ j < n, ∀ p, (x'.block j).val p = (x.block j).val p +
        ev (sys.A.block ri j).transpose ⟨rs ri, fun q => (di.block ri).val q *
          ((ax.block ri).val q - (b.block ri).val q) * (1 / 2)⟩ p := by
  obtain ⟨ax', a1, a2, _⟩ := vecMul_ok hT.toFnLeaves hA hn hx
  rw [hax] at a1
  cases a1
  have hrow := rowResidual_ok hT.toFnLeaves hA hn hx hri (hb.shape ri hri) hax
  have hAT := conforming_transpose hT hA
  have hv : ValidArr dom (⟨rs ri, fun q => (di.block ri).val q *
      ((ax.block ri).val q - (b.block ri).val q) * (1 / 2)⟩ : Arr S I R) := by
    intro p hp
    simp only at hp ⊢
    rw [blockVector_zero hd hri hp]
    simp
  have hc : ∀ j < n, (sys.A.block ri j).transpose.call ⟨rs ri, fun q => (di.block ri).val q *
          ((ax.block ri).val q - (b.block ri).val q) * (1 / 2)⟩ =
        .ok ⟨cs j, ev (sys.A.block ri j).transpose ⟨rs ri, fun q => (di.block ri).val q *
          ((ax.block ri).val q - (b.block ri).val q) * (1 / 2)⟩⟩ ∧
      ValidArr dom ⟨cs j, ev (sys.A.block ri j).transpose ⟨rs ri, fun q => (di.block ri).val q *
          ((ax.block ri).val q - (b.block ri).val q) * (1 / 2)⟩⟩ := by
    intro j hj
    obtain ⟨s1, s2⟩ := hAT.shape j hj ri hri
    have := ev_spec hT.toFnLeaves (hAT.constructed j hj ri hri)
      (graded_leaves (hAT.graded j hj ri hri)) (x := ⟨rs ri, fun q => (di.block ri).val q *
          ((ax.block ri).val q - (b.block ri).val q) * (1 / 2)⟩) (by rw [s2]) hv
    rw [s1] at this
    exact this
  have hent : ∀ ci < x.size, (do
      if ci < sys.A.cols then do
        let w ← di.get ri
        let w ← w.zipWith (· * ·) ⟨rs ri, fun p => (ax.block ri).val p - (b.block ri).val p⟩
        let u ← (sys.A.block ri ci).transpose.call (w.scale (1 / 2))
        (x.block ci).add u
      else .error .indexError : Except PyErr (Arr S I R)) =
      .ok ⟨cs ci, fun p => (x.block ci).val p + ev (sys.A.block ri ci).transpose ⟨rs ri, fun q =>
        (di.block ri).val q * ((ax.block ri).val q - (b.block ri).val q) * (1 / 2)⟩ p⟩ := by
    intro ci hci
    rw [hx.size] at hci
    simp only [hA.cols, hci, if_true, BlockArr.get, hd.size, hri, bind, Except.bind, Arr.zipWith,
      hd.shape ri hri, Arr.scale, (hc ci hci).1, Arr.add, hx.shape ci hci]
  obtain ⟨out, o1, o2⟩ := collect_ok (dflt := x.block 0) hent
  have o2' : ∀ j < n, out j = _ := fun j hj => o2 j (by rw [hx.size]; exact hj)
  refine ⟨⟨x.size, out⟩, ?_, ⟨hx.size, fun j hj => ?_, fun j hj p hp => ?_⟩, fun j hj p => ?_⟩
  · rw [StencilSystem.neStep]
    simp only [BlockArr.get, hb.size, hri, if_true, bind, Except.bind, hrow]
    simp only [BlockArr.get, bind, Except.bind] at o1
    rw [o1]
  · simp only
    rw [o2' j hj]
  · simp only at hp ⊢
    rw [o2' j hj] at hp ⊢
    simp only at hp ⊢
    have h0 := (hc j hj).2 p hp
    simp only at h0
    rw [blockVector_zero hx hj hp, h0, add_zero]
  · simp only
    rw [o2' j hj]

/-- C40: `NE_BLOCK_GS` leaves every exact solution unchanged -/
theorem C40_ne_fixed (hT : LinearLeaves dom T) {ka kb m n l : Nat} (hn : 0 < n) (hl : 0 < l)
    {rs cs ds : Nat → S} {sys : StencilSystem S I R}
    (hA : Conforming T good ka m n rs cs sys.A) (hB : Conforming T good kb m l rs ds sys.B)
    {di x y : BlockArr S I R} (hd : BlockVector dom m rs di) (hx : BlockVector dom n cs x)
    (hy : BlockVector dom l ds y) (hsol : Solves sys m x y) :
    ∃ x', sys.neBlockGS di x y = .ok x' ∧ BlockVector dom n cs x' ∧
      ∀ j < n, x'.block j = x.block j := by
  obtain ⟨b, b1, b2, _⟩ := vecMul_ok hT.toFnLeaves hB hl hy
  obtain ⟨ax, bv, s1, s2, s3⟩ := hsol
  rw [b1] at s2
  cases s2
  have key : ∀ m' ≤ m, ∃ x', (List.range m').foldlM (fun x ri => sys.neStep di b x ri) x = .ok x' ∧
      BlockVector dom n cs x' ∧ ∀ j < n, x'.block j = x.block j := by
    intro m' hm'
    induction m' with
    | zero => exact ⟨x, rfl, hx, fun _ _ => rfl⟩
    | succ m' ih =>
      obtain ⟨x', h1, h2, h3⟩ := ih (by omega)
      obtain ⟨ax', a1, _, _⟩ := vecMul_ok hT.toFnLeaves hA hn h2
      obtain ⟨x'', g1, g2, g3⟩ := neStep_ok hT hn hA hd b2 h2 a1 (ri := m') hm'
      refine ⟨x'', ?_, g2, fun j hj => ?_⟩
      · rw [List.range_succ, List.foldlM_append, h1]
        simp only [List.foldlM_cons, List.foldlM_nil, bind, Except.bind, g1, pure, Except.pure]
      · rw [← h3 j hj, arr_eta (g2.shape j hj), arr_eta (h2.shape j hj)]
        congr 1
        funext p
        have hAT := conforming_transpose hT hA
        have hz : (⟨rs m', fun q => (di.block m').val q * ((ax'.block m').val q -
            (b.block m').val q) * (1 / 2)⟩ : Arr S I R) = Arr.zeros (rs m') := by
          rw [Arr.zeros]
          congr 1
          funext q
          rw [vecMul_congr hT.toFnLeaves hA hn h2 hx h3 a1 s1 m' hm', s3 m' hm']
          simp
        have h0 := ev_zeros hT.toFnLeaves (hAT.constructed j hj m' hm')
          (graded_leaves (hAT.graded j hj m' hm'))
        rw [(hAT.shape j hj m' hm').2] at h0
        rw [g3 j hj p, hz]
        simp only [BlockOp.transpose] at h0
        rw [h0, add_zero]
  obtain ⟨x', h1, h2, h3⟩ := key m le_rfl
  refine ⟨x', ?_, h2, h3⟩
  rw [StencilSystem.neBlockGS]
  simp only [b1, bind, Except.bind, hA.rows]
  exact h1

/-- C40, failure: on a system with one block row, `NE_BLOCK_GS` increases the square of the residual,
weighted with the inverse diagonal it uses, by at least four times the square of the change of `x`;
so the residual grows unless `x` is left unchanged -/
theorem C40_ne_grows (hT : LinearLeaves dom T) {ka kb n l : Nat} (hn : 0 < n) (hl : 0 < l)
    {rs cs ds : Nat → S} {sys : StencilSystem S I R}
    (hA : Conforming T good ka 1 n rs cs sys.A) (hB : Conforming T good kb 1 l rs ds sys.B)
    {di x y : BlockArr S I R} (hd : BlockVector dom 1 rs di) (hx : BlockVector dom n cs x)
    (hy : BlockVector dom l ds y) (hpos : ∀ p, 0 ≤ (di.block 0).val p) :
    ∃ x' r r' δ, sys.neBlockGS di x y = .ok x' ∧ sys.residual x y = .ok r ∧
      sys.residual x' y = .ok r' ∧
      (∀ j < n, ∀ p, (x'.block j).val p = (x.block j).val p + (δ.block j).val p) ∧
      weightedSquare dom 1 rs di r + 4 * blockInner dom n cs δ δ ≤ weightedSquare dom 1 rs di r' := by
  obtain ⟨r, ax, b, r1, a1, b1, r2, a2, b2, r3⟩ := residual_ok hT hn hl hA hB hx hy
  obtain ⟨x', x1, x2, x3⟩ := neStep_ok hT hn hA hd b2 hx a1 (ri := 0) Nat.one_pos
  obtain ⟨r', ax', b', r1', a1', b1', r2', a2', b2', r3'⟩ := residual_ok hT hn hl hA hB x2 hy
  rw [b1] at b1'
  cases b1'
  let w : BlockArr S I R := ⟨1, fun i => ⟨rs i, fun q => (di.block i).val q *
          ((ax.block i).val q - (b.block i).val q) * (1 / 2)⟩⟩
  have hw : BlockVector dom 1 rs w := blockVector_mk fun j hj p hp => by
    rw [blockVector_zero hd hj hp, zero_mul, zero_mul]
  obtain ⟨δ, d1, d2, d3⟩ := vecMul_ok hT.toFnLeaves (conforming_transpose hT hA) Nat.one_pos hw
  have hstep : ∀ j < n, ∀ p, (x'.block j).val p = (x.block j).val p + (δ.block j).val p := by
    intro j hj p
    rw [x3 j hj p, d3 j hj]
    simp only [Finset.sum_range_one]
    rfl
  refine ⟨x', r, r', δ, ?_, r1, r1', hstep, ?_⟩
  · rw [StencilSystem.neBlockGS]
    simp only [b1, bind, Except.bind, hA.rows, List.range_one, List.foldlM_cons, List.foldlM_nil,
      x1, pure, Except.pure]
  · obtain ⟨aδ, e1, e2, _⟩ := vecMul_ok hT.toFnLeaves hA hn d2
    have hadd := vecMul_add hT hA hn hx d2 x2 hstep a1 e1 a1'
    obtain ⟨u, v, k1, k2, _, _, k5⟩ := C37_adjoint hT Nat.one_pos hn hA d2 hw
    rw [e1] at k1
    rw [d1] at k2
    cases k1
    cases k2
    rw [← k5]
    have hr' : ∀ p, (r'.block 0).val p = (r.block 0).val p + (aδ.block 0).val p := fun p => by
      rw [r3' 0 Nat.one_pos p, hadd 0 Nat.one_pos p, r3 0 Nat.one_pos p]
      ring
    simp only [weightedSquare, blockInner, inner, Finset.sum_range_one, Finset.mul_sum]
    rw [← Finset.sum_add_distrib]
    refine Finset.sum_le_sum fun p _ => ?_
    have h0 : 0 ≤ (di.block 0).val p * ((aδ.block 0).val p * (aδ.block 0).val p) :=
      mul_nonneg (hpos p) (mul_self_nonneg _)
    rw [hr' p]
    simp only [w, r3 0 Nat.one_pos p]
    nlinarith [h0]

end

/-! ### the canonical system -/

section

variable {R : Type} [Field R] [LinearOrder R] [IsStrictOrderedRing R]

/-- C40: on the canonical system of every periodic grid with an admissible scale, all smoothers leave
every exact solution unchanged -/
theorem C40_canonical_fixed {uniq : List (List Nat) → List (List Nat)} (hu : UniqSpec uniq) {N : Nat}
    {shape : Fin N → Nat} {t : StencilTopology N} (ht : mkStencilTopology uniq shape = .ok t)
    (garbage : Nat → (Fin N → Nat) → R) {scale : R} (hs : ScaleOk scale (2 * N)) :
    ∃ sys, canonicalSystem t garbage scale = .ok sys ∧
      ∀ dinv x y, BlockVector t.dom (N + 1) (fun n => (n, shape)) dinv →
        BlockVector t.dom (N + 1) (fun n => (n, shape)) x →
        BlockVector t.dom (N + 1) (fun n => (n, shape)) y → Solves sys (N + 1) x y →
        (∀ knots, ∃ x', sys.overrelax dinv y knots x = .ok x' ∧
          ∀ j < N + 1, x'.block j = x.block j) ∧
        (∃ x', sys.nrBlockGS t.dom dinv x y = .ok x' ∧ ∀ j < N + 1, x'.block j = x.block j) ∧
        ∃ x', sys.neBlockGS dinv x y = .ok x' ∧ ∀ j < N + 1, x'.block j = x.block j := by
  obtain ⟨rfl, h⟩ := topologySpec_of_ok hu ht
  have hT := topology_leaves (R := R) h
  have hG := hodge_entries hs
  obtain ⟨sys, h1, _, _, h2⟩ := C38_symmetric t garbage scale
  obtain ⟨hA, hB⟩ := canonical_conforming h1
  refine ⟨sys, h1, fun dinv x y hd hx hy hsol => ⟨fun knots => ?_, ?_, ?_⟩⟩
  · obtain ⟨x', e1, _, e3⟩ := C40_overrelax_fixed hT (Nat.succ_pos N) (Nat.succ_pos N)
      (Nat.succ_pos N) hA hB hd hy knots hx hsol
    exact ⟨x', e1, e3⟩
  · obtain ⟨x', e1, _, e3⟩ := C40_nr_fixed hT hG (ka := 1) (kb := 0) (by omega) (by omega)
      (Nat.succ_pos N) (Nat.succ_pos N) (Nat.succ_pos N) hA hB hd hx hy hsol
    exact ⟨x', e1, e3⟩
  · obtain ⟨x', e1, _, e3⟩ := C40_ne_fixed hT (Nat.succ_pos N) (Nat.succ_pos N) hA hB hd hx hy hsol
    exact ⟨x', e1, e3⟩

end

/-! ### examples -/

section

/-- no elementary functions -/
theorem noLeaves {S I R : Type} [Field R] {dom : S → Finset I} :
    LinearLeaves dom (fun _ : Op S I R => False) :=
  ⟨⟨fun h => h.elim, fun h => h.elim, fun h => h.elim, fun h => h.elim⟩, fun h => h.elim,
    fun h => h.elim⟩

/-- the system `2 x = y` for vectors of three entries -/
def twice : StencilSystem Unit (Fin 3) ℚ :=
  ⟨⟨1, 1, fun _ _ => .diagonal false (fun _ => 2) ()⟩, ⟨1, 1, fun _ _ => .identity ()⟩⟩

/-- products of at most two factors 2 -/
def PowerOfTwo (k : Nat) (a : ℚ) : Prop := ∃ i ≤ k, a = 2 ^ i

theorem powerOfTwo_graded : GradedEntries PowerOfTwo 2 := by
  refine ⟨?_, ?_, ?_, ?_⟩
  · rintro j k a ⟨i, h1, h2⟩ h
    exact ⟨i, h1.trans h, h2⟩
  · rintro j k a b ⟨i, h1, rfl⟩ ⟨i', h3, rfl⟩
    exact ⟨i + i', Nat.add_le_add h1 h3, (pow_add _ _ _).symm⟩
  · rintro a ⟨i, h1, rfl⟩ h
    interval_cases i <;> norm_num at h
  · rintro a ⟨i, h1, rfl⟩ h
    interval_cases i <;> first | exact pow_zero _ | norm_num at h

theorem twice_conforming : Conforming (fun _ => False) PowerOfTwo 1 1 1 (fun _ => ()) (fun _ => ())
      twice.A ∧
    Conforming (fun _ => False) PowerOfTwo 0 1 1 (fun _ => ()) (fun _ => ()) twice.B := by
  refine ⟨⟨rfl, rfl, fun _ _ _ _ => ⟨rfl, rfl⟩, fun _ _ _ _ => .diagonal _ _ _,
    fun _ _ _ _ => .diagonal fun _ => ⟨1, le_rfl, by norm_num⟩⟩,
    ⟨rfl, rfl, fun _ _ _ _ => ⟨rfl, rfl⟩, fun _ _ _ _ => .identity _, fun _ _ _ _ => .identity⟩⟩

/-- a vector with equal entries -/
def constant (a : ℚ) : BlockArr Unit (Fin 3) ℚ := ⟨1, fun _ => ⟨(), fun _ => a⟩⟩

theorem constant_vector (a : ℚ) :
    BlockVector (fun _ => (Finset.univ : Finset (Fin 3))) 1 (fun _ => ()) (constant a) :=
  ⟨rfl, fun _ _ => rfl, fun _ _ p hp => absurd (Finset.mem_univ p) hp⟩

/-- `|A v|²` is `∑ 4 v²` -/
theorem twice_bound (v av : BlockArr Unit (Fin 3) ℚ)
    (hv : BlockVector (fun _ => (Finset.univ : Finset (Fin 3))) 1 (fun _ => ()) v)
    (hav : twice.A.vecMul v = .ok av) :
    blockInner (fun _ => (Finset.univ : Finset (Fin 3))) 1 (fun _ => ()) av av =
      weightedSquare (fun _ => (Finset.univ : Finset (Fin 3))) 1 (fun _ => ()) (constant 4) v := by
  obtain ⟨w, h1, _, h3⟩ := vecMul_ok noLeaves.toFnLeaves twice_conforming.1 Nat.one_pos hv
  rw [hav] at h1
  cases h1
  simp only [blockInner, weightedSquare, inner, Finset.sum_range_one]
  refine Finset.sum_congr rfl fun p _ => ?_
  rw [h3 0 Nat.one_pos]
  simp only [Finset.sum_range_one, constant]
  rw [ev_of_call (y := ⟨(), fun p => (v.block 0).val p * 2⟩) (by
    show (Op.diagonal false (fun _ => (2 : ℚ)) ()).call _ = _
    rw [Op.call]
    rfl)]
  ring

/-- the hypotheses of the theorems on descent are met -/
example (x y : BlockArr Unit (Fin 3) ℚ)
    (hx : BlockVector (fun _ => (Finset.univ : Finset (Fin 3))) 1 (fun _ => ()) x)
    (hy : BlockVector (fun _ => (Finset.univ : Finset (Fin 3))) 1 (fun _ => ()) y) :
    (∃ x' r r' g, twice.jacobi (constant (1 / 4)) x y 1 = .ok x' ∧ twice.residual x y = .ok r ∧
      twice.residual x' y = .ok r' ∧ twice.A.transpose.vecMul r = .ok g ∧
      blockInner (fun _ => (Finset.univ : Finset (Fin 3))) 1 (fun _ => ()) r' r' + 1 * (1 - 1 / 4) *
          weightedSquare (fun _ => (Finset.univ : Finset (Fin 3))) 1 (fun _ => ()) (constant (1 / 4)) g ≤
        blockInner (fun _ => (Finset.univ : Finset (Fin 3))) 1 (fun _ => ()) r r) ∧
    ∃ x' r r', twice.nrBlockGS (fun _ => Finset.univ) (constant (1 / 4)) x y = .ok x' ∧
      twice.residual x y = .ok r ∧ twice.residual x' y = .ok r' ∧
      blockInner (fun _ => (Finset.univ : Finset (Fin 3))) 1 (fun _ => ()) r' r' ≤
        blockInner (fun _ => (Finset.univ : Finset (Fin 3))) 1 (fun _ => ()) r r := by
  constructor
  · exact C40_jacobi_descent noLeaves Nat.one_pos Nat.one_pos Nat.one_pos twice_conforming.1
      twice_conforming.2 (d := constant 4) (constant_vector _) hx hy one_pos
      (fun _ _ _ _ => by simp [constant]) (fun v av hv hav => by rw [twice_bound v av hv hav])
  · refine C40_nr_descent noLeaves powerOfTwo_graded (ka := 1) (kb := 0) (by omega) (by omega)
      Nat.one_pos Nat.one_pos Nat.one_pos twice_conforming.1 twice_conforming.2 (d := constant 4)
      (constant_vector _) hx hy (fun _ _ _ _ => by simp [constant]) (fun _ _ v av hv _ hav => ?_)
    rw [twice_bound v av hv hav]
    have : 0 ≤ weightedSquare (fun _ => (Finset.univ : Finset (Fin 3))) 1 (fun _ => ())
        (constant 4) v := by
      rw [← twice_bound v av hv hav]
      exact blockInner_nonneg av
    linarith

/-- the first entry of the result of a smoother -/
def firstEntry (x : Except PyErr (BlockArr Unit (Fin 3) ℚ)) : Option ℚ :=
  match x with
  | .ok x => some ((x.block 0).val 0)
  | .error _ => none

/-- `2 x = 0` from `x = 1`: Jacobi iteration and `NR_BLOCK_GS` halve the error, `NE_BLOCK_GS` makes it
grow by one half -/
example : firstEntry (twice.jacobi (constant (1 / 4)) (constant 1) (constant 0) 1) = some (1 / 2) ∧
    firstEntry (twice.nrBlockGS (fun _ => Finset.univ) (constant (1 / 4)) (constant 1) (constant 0)) =
      some (1 / 2) ∧
    firstEntry (twice.neBlockGS (constant (1 / 4)) (constant 1) (constant 0)) = some (3 / 2) := by
  decide +kernel

/-- C40, failure: with the diagonal that is used, of which `1e-16` is added to, `NE_BLOCK_GS` turns an
error of 1 into more than 1.4 -/
theorem C40_ne_wrong_sign : ∃ e, firstEntry (twice.neBlockGS (constant (1 / (4 + 1 / 10 ^ 16)))
    (constant 1) (constant 0)) = some e ∧ 14 / 10 < e :=
  ⟨1 + 2 * (1 / (4 + 1 / 10 ^ 16)), by decide +kernel, by norm_num⟩

end

end Verif.Props
