/-
C53: the diagonal of a stencil block operator, evaluated with checkerboard patterns.
-/
import Verif.Props.StencilSmooth

set_option linter.unusedSectionVars false

namespace Verif.Spec

open Verif.Model

/-- the array with a single one -/
def unit {S I R : Type} [DecidableEq I] [Zero R] [One R] (s : S) (q : I) : Arr S I R :=
  ⟨s, fun p => if p = q then 1 else 0⟩

end Verif.Spec

namespace Verif.Props

open Verif.Model Verif.Spec

section

variable {S I R : Type} [DecidableEq S] [DecidableEq I] [Field R] [LinearOrder R]
  [IsStrictOrderedRing R] {dom : S → Finset I} {T : Op S I R → Prop} {good : Nat → R → Prop}

theorem unit_valid {s : S} {q : I} (hq : q ∈ dom s) : ValidArr dom (unit s q : Arr S I R) := by
  intro p hp
  have hpq : p ≠ q := fun h => hp (by rw [h]; exact hq)
  exact if_neg hpq

/-- an operator is given by its matrix -/
theorem ev_matrix (hT : LinearLeaves dom T) {o : Op S I R} (h : Constructed o)
    (hl : Leaves (FnIn T) o) {x : Arr S I R} (hx : x.shape = o.cols) (hv : ValidArr dom x) {p : I}
    (hp : p ∈ dom o.rows) :
    ev o x p = ∑ q ∈ dom o.cols, x.val q * ev o (unit o.cols q) p := by
  obtain ⟨_, aty, _, k2, _, _, _⟩ := C33_adjoint o h (leaves_adjoint hT hl) x (unit o.rows p) hx rfl
  have key : ∀ x : Arr S I R, x.shape = o.cols → ValidArr dom x →
      ev o x p = inner dom o.cols x aty := by
    intro x hx hv
    obtain ⟨ax, aty', k1, k2', _, _, k5⟩ := C33_adjoint o h (leaves_adjoint hT hl) x
      (unit o.rows p) hx rfl
    rw [k2] at k2'
    cases k2'
    rw [ev_of_call k1, ← k5]
    simp [inner, unit, hp]
  rw [key x hx hv, inner]
  refine Finset.sum_congr rfl fun q hq => ?_
  rw [key _ rfl (unit_valid hq)]
  simp [inner, unit, hq]

end

section

variable {N : Nat} {R : Type} [Field R] [LinearOrder R] [IsStrictOrderedRing R]
  {t : StencilTopology N} {T : Op (FormShape N) (FormIndex N) R → Prop} {good : Nat → R → Prop}

theorem pattern_valid (s : FormShape N) (c : Nat) (sign : Bool) :
    ValidArr t.dom (diagonalPattern t s c sign : Form N R) := fun p hp => by
  simp only [diagonalPattern] at hp ⊢
  exact if_neg fun h => hp h.1

theorem pattern_val {s : FormShape N} {c : Nat} {sign : Bool} {p : FormIndex N}
    (hp : p ∈ t.dom s) : (diagonalPattern t s c sign : Form N R).val p =
      if p.1 = c ∧ (checkerboard p.2 = 1 ↔ sign = true) then 1 else 0 := by
  have h2 : checkerboard p.2 = 0 ∨ checkerboard p.2 = 1 := by
    unfold checkerboard
    omega
  simp only [diagonalPattern, hp, true_and]
  by_cases hc : p.1 = c
  · rcases h2 with h2 | h2 <;> cases sign <;> simp [hc, h2]
  · simp [hc]

theorem diagonalBlock_ok (hT : LinearLeaves t.dom T) {db : Op (FormShape N) (FormIndex N) R}
    (h : Constructed db) (hl : Leaves (FnIn T) db) {s : FormShape N} (hr : db.rows = s)
    (hc : db.cols = s) :
    ∃ D, diagonalBlock t db = .ok D ∧ D.shape = s ∧ ∀ p ∈ t.dom s, D.val p =
      ∑ q ∈ (t.dom s).filter fun q => q.1 = p.1 ∧ checkerboard q.2 = checkerboard p.2,
        ev db (unit s q) p := by
  have hcall : ∀ c sign, db.call (diagonalPattern t s c sign) =
      .ok ⟨s, ev db (diagonalPattern t s c sign)⟩ := by
    intro c sign
    have := (ev_spec hT.toFnLeaves h hl (x := diagonalPattern t s c sign) (by rw [hc]; rfl)
      (pattern_valid _ _ _)).1
    rw [hr] at this
    exact this
  have hpart : ∀ c, diagonalPart t db c = .ok ⟨s, fun p =>
      ev db (diagonalPattern t s c false) p * (diagonalPattern t s c false : Form N R).val p +
      ev db (diagonalPattern t s c true) p * (diagonalPattern t s c true : Form N R).val p⟩ := by
    intro c
    have hs : ∀ sign, (diagonalPattern t s c sign : Form N R).shape = s := fun _ => rfl
    simp only [diagonalPart, hc, hcall, bind, Except.bind, Arr.zipWith, hs, if_true, Arr.add]
  have hsum : ∀ k, (List.range k).foldlM (fun acc c => do
      let d ← diagonalPart t db c
      acc.add d) (Arr.zeros s) = (.ok ⟨s, fun p => ∑ c ∈ Finset.range k,
      (ev db (diagonalPattern t s c false) p * (diagonalPattern t s c false : Form N R).val p +
      ev db (diagonalPattern t s c true) p * (diagonalPattern t s c true : Form N R).val p)⟩ :
        Except PyErr (Form N R)) := by
    intro k
    induction k with
    | zero => simp [Arr.zeros, pure, Except.pure]
    | succ k ih =>
      rw [List.range_succ, List.foldlM_append, ih]
      simp only [List.foldlM_cons, List.foldlM_nil, bind, Except.bind, hpart, Arr.add, if_true, pure,
        Except.pure, Finset.sum_range_succ]
  refine ⟨_, by rw [diagonalBlock, hc]; exact hsum _, rfl, fun p hp => ?_⟩
  simp only
  have hpc : p.1 < t.components s.1 := (mem_dom.mp (show (p.1, p.2) ∈ t.dom s from hp)).1
  have hev : ∀ c sign, ev db (diagonalPattern t s c sign) p =
      ∑ q ∈ (t.dom s).filter fun q => q.1 = c ∧ (checkerboard q.2 = 1 ↔ sign = true),
        ev db (unit s q) p := by
    intro c sign
    have := ev_matrix hT h hl (x := diagonalPattern t s c sign) (by rw [hc]; rfl)
      (pattern_valid _ _ _) (p := p) (by rw [hr]; exact hp)
    rw [this, hc, Finset.sum_filter]
    refine Finset.sum_congr rfl fun q hq => ?_
    rw [pattern_val hq]
    split_ifs <;> simp
  rw [Finset.sum_eq_single p.1]
  · rw [pattern_val hp, pattern_val hp, hev, hev]
    have hpar : ∀ i : Fin N → Nat, checkerboard i = 0 ∨ checkerboard i = 1 := fun i => by
      unfold checkerboard
      omega
    rcases hpar p.2 with h2 | h2
    · simp only [h2, true_and, Bool.false_eq_true, iff_false]
      have he : (t.dom s).filter (fun q => q.1 = p.1 ∧ ¬checkerboard q.2 = 1) =
          (t.dom s).filter (fun q => q.1 = p.1 ∧ checkerboard q.2 = 0) := by
        refine Finset.filter_congr fun q _ => ?_
        have := hpar q.2
        constructor
        · rintro ⟨a, b⟩; exact ⟨a, by omega⟩
        · rintro ⟨a, b⟩; exact ⟨a, by omega⟩
      rw [he]
      simp
    · simp only [h2, true_and, Bool.false_eq_true, iff_false, iff_true]
      simp only [not_true_eq_false, if_true, if_false, mul_zero, zero_add, mul_one]
  · intro c _ hne
    rw [pattern_val hp, pattern_val hp, if_neg (fun h => hne h.1.symm),
      if_neg (fun h => hne h.1.symm)]
    simp
  · intro hni
    exact absurd (Finset.mem_range.mpr hpc) hni

/-- C53: `diagonal()` returns, for every entry, the sum of the row of the diagonal block over the
entries of the same component with the same parity of the grid index -/
theorem C53_diagonal (hT : LinearLeaves t.dom T) {k m n : Nat} (hmn : m ≤ n) {rs cs : Nat → FormShape N}
    {A : BlockOp (FormShape N) (FormIndex N) R} (hA : Conforming T good k m n rs cs A)
    (hsq : ∀ i < m, rs i = cs i) :
    ∃ D, A.diagonal t = .ok D ∧ D.size = m ∧ ∀ i < m, (D.block i).shape = rs i ∧
      ∀ p ∈ t.dom (rs i), (D.block i).val p =
        ∑ q ∈ (t.dom (rs i)).filter fun q => q.1 = p.1 ∧ checkerboard q.2 = checkerboard p.2,
          ev (A.block i i) (unit (rs i) q) p := by
  obtain ⟨r, h1, h2⟩ := collect_exists (n := A.rows) (dflt := Arr.zeros (0, t.shape))
    (f := fun i => if i < A.cols then diagonalBlock t (A.block i i) else .error .indexError)
    (P := fun i D => i < m → D.shape = rs i ∧
      ∀ p ∈ t.dom (rs i), D.val p =
        ∑ q ∈ (t.dom (rs i)).filter fun q => q.1 = p.1 ∧ checkerboard q.2 = checkerboard p.2,
          ev (A.block i i) (unit (rs i) q) p) (by
    intro i hi
    rw [hA.rows] at hi
    have hi' : i < n := by omega
    obtain ⟨s1, s2⟩ := hA.shape i hi i hi'
    obtain ⟨D, d1, d2, d3⟩ := diagonalBlock_ok hT (hA.constructed i hi i hi')
      (graded_leaves (hA.graded i hi i hi')) s1 (s2.trans (hsq i hi).symm)
    exact ⟨D, by rw [hA.cols, if_pos hi']; exact d1, fun _ => ⟨d2, d3⟩⟩)
  refine ⟨⟨A.rows, r⟩, ?_, hA.rows, fun i hi => h2 i (by rw [hA.rows]; exact hi) hi⟩
  rw [BlockOp.diagonal, h1]
  rfl

/-- C53: if the diagonal blocks do not couple different entries of the same component and the same
parity, `diagonal()` is the diagonal -/
theorem C53_diagonal_exact (hT : LinearLeaves t.dom T) {k m n : Nat} (hmn : m ≤ n)
    {rs cs : Nat → FormShape N}
    {A : BlockOp (FormShape N) (FormIndex N) R} (hA : Conforming T good k m n rs cs A)
    (hsq : ∀ i < m, rs i = cs i)
    (hcol : ∀ i < m, ∀ p ∈ t.dom (rs i), ∀ q ∈ t.dom (rs i), q ≠ p → q.1 = p.1 →
      checkerboard q.2 = checkerboard p.2 → ev (A.block i i) (unit (rs i) q) p = 0) :
    ∃ D, A.diagonal t = .ok D ∧ D.size = m ∧ ∀ i < m, (D.block i).shape = rs i ∧
      ∀ p ∈ t.dom (rs i), (D.block i).val p = ev (A.block i i) (unit (rs i) p) p := by
  obtain ⟨D, h1, h2, h3⟩ := C53_diagonal hT hmn hA hsq
  refine ⟨D, h1, h2, fun i hi => ⟨(h3 i hi).1, fun p hp => ?_⟩⟩
  rw [(h3 i hi).2 p hp]
  refine Finset.sum_eq_single_of_mem p (Finset.mem_filter.mpr ⟨hp, rfl, rfl⟩) fun q hq hne => ?_
  obtain ⟨q1, q2, q3⟩ := Finset.mem_filter.mp hq
  exact hcol i hi p hp q q1 hne q2 q3

/-! ### parity on grids with even axes -/

theorem next_parity {sh : Fin N → Nat} (heven : ∀ b, sh b % 2 = 0) {i : Fin N → Nat}
    (hi : i ∈ gridDom sh) {a : Nat} (ha : a < N) : checkerboard (next sh a i) ≠ checkerboard i := by
  have hs : ∀ f : Fin N → Nat, ∑ b, f b = f ⟨a, ha⟩ + ∑ b ∈ Finset.univ.erase ⟨a, ha⟩, f b :=
    fun f => (Finset.add_sum_erase _ f (Finset.mem_univ _)).symm
  have hrest : ∑ b ∈ Finset.univ.erase (⟨a, ha⟩ : Fin N), next sh a i b =
      ∑ b ∈ Finset.univ.erase (⟨a, ha⟩ : Fin N), i b :=
    Finset.sum_congr rfl fun b hb => if_neg fun h =>
      (Finset.mem_erase.mp hb).1 (Fin.ext h)
  unfold checkerboard
  rw [hs, hs i, hrest]
  have hlt := mem_gridDom.mp hi ⟨a, ha⟩
  have hev := heven ⟨a, ha⟩
  simp only [next, if_true]
  split_ifs <;> omega

theorem next_injective {sh : Fin N → Nat} {i j : Fin N → Nat} (hi : i ∈ gridDom sh)
    (hj : j ∈ gridDom sh) {a : Nat} (h : next sh a i = next sh a j) : i = j := by
  funext b
  have hb := congrFun h b
  have h1 := mem_gridDom.mp hi b
  have h2 := mem_gridDom.mp hj b
  unfold next at hb
  by_cases hba : (b : Nat) = a
  · simp only [hba, if_true] at hb
    split_ifs at hb <;> omega
  · simpa [hba] using hb

/-! ### the couplings of the derivatives -/

theorem symbol_inj (h : TopologySpec t) {n : Nat} {U V : Finset Nat} (hU : U ⊆ Finset.range N)
    (hUc : U.card = n) (hV : V ⊆ Finset.range N) (hVc : V.card = n)
    (he : (t.symbols[n]?.getD []).idxOf (U.sort (· ≤ ·)) =
      (t.symbols[n]?.getD []).idxOf (V.sort (· ≤ ·))) : U = V := by
  have h1 := ((h.symbols n).2 _).mpr (sort_axisSet hU hUc)
  have h2 := ((h.symbols n).2 _).mpr (sort_axisSet hV hVc)
  have h3 : U.sort (· ≤ ·) = V.sort (· ≤ ·) := (List.idxOf_inj h1).mp he
  rw [← Finset.sort_toFinset (s := U) (r := (· ≤ ·)), h3, Finset.sort_toFinset]

/-- an entry of the matrix of a derivative that is not zero -/
theorem primal_support (h : TopologySpec t) (garbage : Nat → (Fin N → Nat) → R) {n : Nat}
    {p p' : FormIndex N} (hp' : p' ∈ t.dom (n + 1, t.shape))
    (hne : ev (t.primal garbage n) (unit (n, t.shape) p) p' ≠ 0) :
    ∃ U : Finset Nat, ∃ a ∈ U, U ⊆ Finset.range N ∧ U.card = n + 1 ∧
      (t.symbols[n + 1]?.getD []).idxOf (U.sort (· ≤ ·)) = p'.1 ∧
      (t.symbols[n]?.getD []).idxOf ((U.erase a).sort (· ≤ ·)) = p.1 ∧
      (p.2 = p'.2 ∨ p.2 = next t.shape a p'.2) := by
  obtain ⟨c, k⟩ := p'
  obtain ⟨hc, hk⟩ := mem_dom.mp hp'
  obtain ⟨U, hU, hcard, hidx⟩ := h.symbol hc
  rw [ev_of_call (primal_call garbage n _ rfl), mkForm_val hc hk] at hne
  have hcob := primalInner_coboundary h garbage (unit (n, t.shape) p) hU hcard hk
  rw [hidx] at hcob
  rw [hcob] at hne
  obtain ⟨a, ha, hterm⟩ := Finset.exists_ne_zero_of_sum_ne_zero hne
  refine ⟨U, a, ha, hU, hcard, hidx, ?_⟩
  simp only [cochainOf, unit] at hterm
  obtain ⟨c', l⟩ := p
  by_cases e1 : ((t.symbols[n]?.getD []).idxOf ((U.erase a).sort (· ≤ ·)), next t.shape a k) = (c', l)
  · simp only [Prod.mk.injEq] at e1
    exact ⟨e1.1, .inr e1.2.symm⟩
  · by_cases e2 : ((t.symbols[n]?.getD []).idxOf ((U.erase a).sort (· ≤ ·)), k) = (c', l)
    · simp only [Prod.mk.injEq] at e2
      exact ⟨e2.1, .inl e2.2.symm⟩
    · rw [if_neg e1, if_neg e2, sub_zero, mul_zero] at hterm
      exact absurd rfl hterm

theorem support_pair (h : TopologySpec t) (garbage : Nat → (Fin N → Nat) → R) {n : Nat}
    {p p' q q' : FormIndex N} (hp' : p' ∈ t.dom (n + 1, t.shape))
    (hq' : q' ∈ t.dom (n + 1, t.shape))
    (h1 : ev (t.primal garbage n) (unit (n, t.shape) p) p' ≠ 0)
    (h2 : ev (t.primal garbage n) (unit (n, t.shape) q) q' ≠ 0) (hc : p.1 = q.1)
    (hc' : p'.1 = q'.1) :
    ∃ a < N, (p.2 = p'.2 ∨ p.2 = next t.shape a p'.2) ∧ (q.2 = q'.2 ∨ q.2 = next t.shape a q'.2) := by
  obtain ⟨U, a, ha, hU, hcard, u1, u2, u3⟩ := primal_support h garbage hp' h1
  obtain ⟨V, b, hb, hV, hVc, v1, v2, v3⟩ := primal_support h garbage hq' h2
  obtain rfl := symbol_inj h hU hcard hV hVc (by rw [u1, v1, hc'])
  have he : U.erase a = U.erase b := symbol_inj (n := n) h ((Finset.erase_subset _ _).trans hU)
    (by rw [Finset.card_erase_of_mem ha, hcard]; rfl) ((Finset.erase_subset _ _).trans hU)
    (by rw [Finset.card_erase_of_mem hb, hcard]; rfl) (by rw [u2, v2, hc])
  have hab : a = b := by
    by_contra hne
    have : b ∈ U.erase a := Finset.mem_erase.mpr ⟨Ne.symm hne, hb⟩
    rw [he] at this
    exact Finset.notMem_erase b U this
  subst hab
  exact ⟨a, Finset.mem_range.mp (hU ha), u3, v3⟩

end

/-! ### the entries of the normal equations -/

section

variable {S I R : Type} [DecidableEq S] [DecidableEq I] [Field R] [LinearOrder R]
  [IsStrictOrderedRing R] {dom : S → Finset I} {T : Op S I R → Prop} {good : Nat → R → Prop}
  {K : Nat}

/-- the block vector with a single one -/
def unitBlock (n : Nat) (cs : Nat → S) (i : Nat) (q : I) : BlockArr S I R :=
  ⟨n, fun j => if j = i then unit (cs i) q else Arr.zeros (cs j)⟩

theorem unitBlock_vector {n : Nat} {cs : Nat → S} {i : Nat} {q : I} (hq : q ∈ dom (cs i)) :
    BlockVector dom n cs (unitBlock n cs i q : BlockArr S I R) := by
  refine ⟨rfl, fun j _ => ?_, fun j _ => ?_⟩
  · show (if j = i then unit (cs i) q else Arr.zeros (cs j) : Arr S I R).shape = _
    split_ifs with h
    · rw [h]; rfl
    · rfl
  · show ValidArr dom (if j = i then unit (cs i) q else Arr.zeros (cs j) : Arr S I R)
    split_ifs with h
    · exact unit_valid hq
    · exact fun _ _ => rfl

/-- a column of the matrix of a block operator -/
theorem vecMul_unit (hT : FnLeaves dom T) {k m n : Nat} {rs cs : Nat → S} {A : BlockOp S I R}
    (hA : Conforming T good k m n rs cs A) {i : Nat} (hi : i < n) {q : I} (hq : q ∈ dom (cs i)) :
    ∃ y, A.vecMul (unitBlock n cs i q) = .ok y ∧ BlockVector dom m rs y ∧
      ∀ j < m, y.block j = ⟨rs j, ev (A.block j i) (unit (cs i) q)⟩ := by
  obtain ⟨y, h1, h2, h3⟩ := vecMul_ok hT hA (by omega) (unitBlock_vector (R := R) (n := n) hq)
  refine ⟨y, h1, h2, fun j hj => ?_⟩
  rw [h3 j hj]
  congr 1
  funext p
  rw [Finset.sum_eq_single i]
  · simp [unitBlock]
  · intro l hl hne
    have hl' := Finset.mem_range.mp hl
    have hz := ev_zeros hT (hA.constructed j hj l hl') (graded_leaves (hA.graded j hj l hl'))
    rw [(hA.shape j hj l hl').2] at hz
    simp only [unitBlock, if_neg hne]
    rw [hz]
  · intro hni
    exact absurd (Finset.mem_range.mpr hi) hni

theorem blockInner_unit {n : Nat} {cs : Nat → S} {i : Nat} (hi : i < n) {p : I}
    (hp : p ∈ dom (cs i)) (x : BlockArr S I R) :
    blockInner dom n cs (unitBlock n cs i p) x = (x.block i).val p := by
  rw [blockInner, Finset.sum_eq_single i]
  · simp [inner, unitBlock, unit, hp]
  · intro l _ hne
    simp [inner, unitBlock, hne, Arr.zeros]
  · intro hni
    exact absurd (Finset.mem_range.mpr hi) hni

/-- the entries of the matrix of the normal equations are inner products of columns -/
theorem normal_entry (hT : LinearLeaves dom T) (hG : GradedEntries good K) {ka kb m n l : Nat}
    (hka : ka + ka ≤ K) (hkb : ka + kb ≤ K) (hm : 0 < m) (hn : 0 < n) (hl : 0 < l)
    {rs cs ds : Nat → S} {sys : StencilSystem S I R}
    (hA : Conforming T good ka m n rs cs sys.A) (hB : Conforming T good kb m l rs ds sys.B) :
    ∃ nrm, sys.normal dom = .ok nrm ∧ Conforming T good (ka + ka) n n cs cs nrm.A ∧
      ∀ i < n, ∀ p ∈ dom (cs i), ∀ q ∈ dom (cs i),
        ev (nrm.A.block i i) (unit (cs i) q) p = ∑ j ∈ Finset.range m, ∑ r ∈ dom (rs j),
          ev (sys.A.block j i) (unit (cs i) p) r * ev (sys.A.block j i) (unit (cs i) q) r := by
  obtain ⟨nrm, n1, n2, _, n4, _⟩ := C38_normal hT hG hka hkb hm hn hl hA hB
  refine ⟨nrm, n1, n2, fun i hi p hp q hq => ?_⟩
  obtain ⟨ax, aax, nx, g1, g2, g3, g4, _⟩ := n4 _ (unitBlock_vector (n := n) hq)
  obtain ⟨y, y1, y2, y3⟩ := vecMul_unit hT.toFnLeaves n2 hi hq
  rw [g3] at y1
  cases y1
  obtain ⟨aq, q1, q2, q3⟩ := vecMul_unit hT.toFnLeaves hA hi hq
  rw [g1] at q1
  cases q1
  obtain ⟨ap, p1, p2, p3⟩ := vecMul_unit hT.toFnLeaves hA hi hp
  obtain ⟨u, v, k1, k2, _, _, k5⟩ := C37_adjoint hT hm hn hA (unitBlock_vector (n := n) hp) q2
  rw [p1] at k1
  cases k1
  rw [g2] at k2
  cases k2
  have e1 : (nx.block i).val p = ev (nrm.A.block i i) (unit (cs i) q) p := by rw [y3 i hi]
  rw [← e1, g4 i hi, ← blockInner_unit hi hp, ← k5, blockInner]
  refine Finset.sum_congr rfl fun j hj => ?_
  have hj' := Finset.mem_range.mp hj
  rw [p3 j hj', q3 j hj', inner]

end

/-! ### the canonical system -/

section

variable {N : Nat} {R : Type} [Field R] [LinearOrder R] [IsStrictOrderedRing R]
  {t : StencilTopology N}

theorem ev_hodge (scale : R) (n : Nat) (q : FormIndex N) (r : FormIndex N) :
    ev (stencilHodge t scale n) (unit (n, t.shape) q) r =
      if r = q then scale ^ ((N : Int) - (n : Int) * 2) else 0 := by
  rw [stencilHodge, ev_of_call (call_diagonal (show (unit (n, t.shape) q : Form N R).shape = (n, t.shape) from rfl))]
  simp only [unit]
  split_ifs <;> simp

theorem ev_hodge_primal (garbage : Nat → (Fin N → Nat) → R) (scale : R) (n : Nat)
    (q r : FormIndex N) :
    ev (.composed [stencilHodge t scale (n + 1), t.primal garbage n] (n + 1, t.shape) (n, t.shape))
      (unit (n, t.shape) q) r =
      ev (t.primal garbage n) (unit (n, t.shape) q) r * scale ^ ((N : Int) - ((n + 1 : Nat) : Int) * 2)
      := by
  have h1 := primal_call (t := t) garbage n (unit (n, t.shape) q) rfl
  rw [ev_of_call h1, ev_of_call (y := ⟨(n + 1, t.shape), fun p => (t.mkForm (n + 1, t.shape)
      (primalInner t.shape (t.table[n]?.getD []) (t.components (n + 1)) garbage
        fun c i => (unit (n, t.shape) q : Form N R).val (c, i))).val p *
          scale ^ ((N : Int) - ((n + 1 : Nat) : Int) * 2)⟩)]
  rw [Op.call, if_pos (show (unit (n, t.shape) q : Form N R).shape = (n, t.shape) from rfl)]
  simp only [callChain, bind, Except.bind, h1]
  rw [stencilHodge, call_diagonal (show (t.mkForm (n + 1, t.shape) _).shape = (n + 1, t.shape) from rfl)]
  exact if_pos rfl

/-- two different entries of a component with the same parity are not both coupled to any one entry
of any block -/
theorem canonical_columns (h : TopologySpec t) (heven : ∀ b, t.shape b % 2 = 0)
    (garbage : Nat → (Fin N → Nat) → R) (scale : R)
    {sys : StencilSystem (FormShape N) (FormIndex N) R}
    (hsys : canonicalSystem t garbage scale = .ok sys) {i j : Nat} (hi : i ≤ N) (hj : j ≤ N)
    {p q r : FormIndex N} (hp : p ∈ t.dom (i, t.shape)) (hq : q ∈ t.dom (i, t.shape))
    (hr : r ∈ t.dom (j, t.shape)) (hne : q ≠ p) (hc : q.1 = p.1)
    (hpar : checkerboard q.2 = checkerboard p.2) :
    ev (sys.A.block j i) (unit (i, t.shape) p) r * ev (sys.A.block j i) (unit (i, t.shape) q) r = 0 := by
  obtain ⟨sys', h1, _, _, _, _, h2, _⟩ := canonical_ok t garbage scale
  rw [hsys] at h1
  cases h1
  have hne2 : q.2 ≠ p.2 := fun he => hne (Prod.ext hc he)
  by_contra hprod
  obtain ⟨hP, hQ⟩ := mul_ne_zero_iff.mp hprod
  by_cases hij : j = i
  · subst hij
    rw [h2 j hj j hj, canonicalBlock, if_pos rfl, ev_hodge] at hP hQ
    have e1 : r = p := by
      by_contra he
      rw [if_neg he] at hP
      exact hP rfl
    have e2 : r = q := by
      by_contra he
      rw [if_neg he] at hQ
      exact hQ rfl
    exact hne (e2.symm.trans e1)
  · by_cases hup : j = i + 1
    · subst hup
      rw [h2 _ hj i hi, canonicalBlock, if_neg hij, if_pos rfl, ev_hodge_primal] at hP hQ
      have hr2 := (mem_dom.mp (show (r.1, r.2) ∈ t.dom (i + 1, t.shape) from hr)).2
      obtain ⟨a, ha, ka, kb⟩ := support_pair h garbage hr hr (left_ne_zero_of_mul hP)
        (left_ne_zero_of_mul hQ) hc.symm rfl
      have hflip := next_parity heven hr2 ha
      rcases ka with ka | ka <;> rcases kb with kb | kb
      · exact hne2 (kb.trans ka.symm)
      · rw [ka, kb] at hpar; exact hflip hpar
      · rw [ka, kb] at hpar; exact hflip hpar.symm
      · exact hne2 (kb.trans ka.symm)
    · by_cases hdn : i = j + 1
      · subst hdn
        have hT := topology_leaves (R := R) h
        obtain ⟨hA, _⟩ := canonical_conforming hsys
        have hadj : ∀ p ∈ t.dom (j + 1, t.shape), ev (sys.A.block j (j + 1))
            (unit (j + 1, t.shape) p) r = ev (sys.A.block (j + 1) j) (unit (j, t.shape) r) p := by
          intro p hp
          obtain ⟨s1, s2⟩ := hA.shape j (by omega) (j + 1) (by omega)
          have hcon := hA.constructed j (by omega) (j + 1) (by omega)
          have hgr := graded_leaves (hA.graded j (by omega) (j + 1) (by omega))
          obtain ⟨ax, aty, k1, k2, _, _, k5⟩ := C33_adjoint _ hcon (leaves_adjoint hT hgr)
            (unit (j + 1, t.shape) p) (unit (j, t.shape) r) s2.symm s1.symm
          have htr : (sys.A.block j (j + 1)).transpose = sys.A.block (j + 1) j := by
            obtain ⟨sys', m1, _, _, m2⟩ := C38_symmetric t garbage scale
            rw [hsys] at m1
            cases m1
            exact m2 (j + 1) hi j hj
          rw [htr] at k2
          rw [ev_of_call k1, ev_of_call k2]
          rw [s1, s2] at k5
          simpa [inner, unit, hp, hr] using k5
        rw [hadj p hp, h2 _ hi j hj, canonicalBlock, if_neg (Ne.symm hij), if_pos rfl,
          ev_hodge_primal] at hP
        rw [hadj q hq, h2 _ hi j hj, canonicalBlock, if_neg (Ne.symm hij), if_pos rfl,
          ev_hodge_primal] at hQ
        have hp2 := (mem_dom.mp (show (p.1, p.2) ∈ t.dom (j + 1, t.shape) from hp)).2
        have hq2 := (mem_dom.mp (show (q.1, q.2) ∈ t.dom (j + 1, t.shape) from hq)).2
        obtain ⟨a, ha, ka, kb⟩ := support_pair h garbage hp hq (left_ne_zero_of_mul hP)
          (left_ne_zero_of_mul hQ) rfl hc.symm
        rcases ka with ka | ka <;> rcases kb with kb | kb
        · exact hne2 (kb.symm.trans ka)
        · have := next_parity heven hq2 ha
          rw [← kb, ka] at this
          exact this hpar.symm
        · have := next_parity heven hp2 ha
          rw [← ka, kb] at this
          exact this hpar
        · exact hne2 (next_injective hq2 hp2 (kb.symm.trans ka))
      · rw [h2 j hj i hi, canonicalBlock, if_neg hij, if_neg hup, if_neg hdn, ev_zeroOp rfl] at hP
        exact hP rfl

/-- C53: on a grid all axes of which have an even length, `diagonal()` of the normal equations of the
canonical system holds the squared lengths of the columns of the canonical system, which are positive,
and `inverse_normal_diagonal` holds their inverses -/
theorem C53_canonical {uniq : List (List Nat) → List (List Nat)} (hu : UniqSpec uniq)
    {shape : Fin N → Nat} (ht : mkStencilTopology uniq shape = .ok t)
    (heven : ∀ b, shape b % 2 = 0)
    (garbage : Nat → (Fin N → Nat) → R) {scale : R} (hs : ScaleOk scale (2 * N)) :
    ∃ sys nrm D E, canonicalSystem t garbage scale = .ok sys ∧ sys.normal t.dom = .ok nrm ∧
      nrm.A.diagonal t = .ok D ∧ inverseNormalDiagonal t sys = .ok E ∧ D.size = N + 1 ∧
      E.size = N + 1 ∧
      ∀ i ≤ N, (D.block i).shape = (i, shape) ∧ (E.block i).shape = (i, shape) ∧
        ∀ p ∈ t.dom (i, shape), ∃ ax,
          sys.A.vecMul (unitBlock (N + 1) (fun n => (n, shape)) i p) = .ok ax ∧
          (D.block i).val p = blockInner t.dom (N + 1) (fun n => (n, shape)) ax ax ∧
          0 < (D.block i).val p ∧ (E.block i).val p * (D.block i).val p = 1 := by
  obtain ⟨rfl, h⟩ := topologySpec_of_ok hu ht
  have hT := topology_leaves (R := R) h
  have hG := hodge_entries hs
  obtain ⟨sys, h1, _, _, _, _, h2, _⟩ := canonical_ok t garbage scale
  obtain ⟨hA, hB⟩ := canonical_conforming h1
  obtain ⟨nrm, n1, n2, n3⟩ := normal_entry hT hG (sys := sys) (ka := 1) (kb := 0) (by omega)
    (by omega) (Nat.succ_pos N) (Nat.succ_pos N) (Nat.succ_pos N) hA hB
  obtain ⟨D, d1, d2, d3⟩ := C53_diagonal_exact hT le_rfl n2 (fun _ _ => rfl) (by
    intro i hi p hp q hq hne hc hpar
    rw [n3 i hi p hp q hq]
    refine Finset.sum_eq_zero fun j hj => Finset.sum_eq_zero fun r hr => ?_
    exact canonical_columns h heven garbage scale h1 (by omega)
      (by have := Finset.mem_range.mp hj; omega) hp hq hr hne hc hpar)
  refine ⟨sys, nrm, D, D.invert, h1, n1, d1, ?_, d2, d2, fun i hi => ⟨(d3 i (by omega)).1,
    (d3 i (by omega)).1, fun p hp => ?_⟩⟩
  · rw [inverseNormalDiagonal, n1]
    show (do let d ← nrm.A.diagonal t; Except.ok d.invert) = _
    rw [d1]
    rfl
  · have hi' : i < N + 1 := by omega
    obtain ⟨ax, a1, a2, a3⟩ := vecMul_unit hT.toFnLeaves hA hi' (q := p) hp
    have hval : (D.block i).val p = blockInner t.dom (N + 1) (fun n => (n, t.shape)) ax ax := by
      rw [(d3 i hi').2 p hp, n3 i hi' p hp p hp, blockInner]
      refine Finset.sum_congr rfl fun j hj => ?_
      rw [a3 j (Finset.mem_range.mp hj)]
      rfl
    have hpos : 0 < (D.block i).val p := by
      rw [(d3 i hi').2 p hp, n3 i hi' p hp p hp]
      refine Finset.sum_pos' (fun j _ => Finset.sum_nonneg fun r _ => mul_self_nonneg _)
        ⟨i, Finset.mem_range.mpr hi', ?_⟩
      refine Finset.sum_pos' (fun r _ => mul_self_nonneg _) ⟨p, hp, ?_⟩
      rw [h2 i hi i hi, canonicalBlock, if_pos rfl, ev_hodge, if_pos rfl]
      exact mul_pos (zpow_pos hs.1 _) (zpow_pos hs.1 _)
    refine ⟨ax, a1, hval, hpos, ?_⟩
    show 1 / (D.block i).val p * (D.block i).val p = 1
    rw [one_div, inv_mul_cancel₀ hpos.ne']

end

/-! ### examples -/

/-- a grid of two by four cells with a scale of 1/2 -/
example {uniq : List (List Nat) → List (List Nat)} (hu : UniqSpec uniq) {t : StencilTopology 2}
    (ht : mkStencilTopology uniq ![2, 4] = .ok t) :
    ∃ sys E, canonicalSystem t (fun _ _ => 0) (1 / 2 : ℚ) = .ok sys ∧
      inverseNormalDiagonal t sys = .ok E ∧ E.size = 3 := by
  have hs : ScaleOk (1 / 2 : ℚ) (2 * 2) :=
    ⟨scaleOk_half.1, fun e he => scaleOk_half.2 e (he.trans (by norm_num))⟩
  obtain ⟨sys, nrm, D, E, h1, _, _, h4, _, h6, _⟩ := C53_canonical hu ht (by decide)
    (fun _ _ => (0 : ℚ)) hs
  exact ⟨sys, E, h1, h4, h6⟩

/-- the entries at the first vertex of `diagonal()` of the normal equations on the grid of `n` cells,
and of the squared length of the column of the canonical system -/
def firstDiagonal (n : Nat) : Except PyErr (ℚ × ℚ) := do
  let t ← mkStencilTopology (N := 1) List.dedup ![n]
  let sys ← canonicalSystem t (fun _ _ => 0) 1
  let nrm ← sys.normal t.dom
  let d ← nrm.A.diagonal t
  let ax ← sys.A.vecMul (unitBlock 2 (fun n => (n, t.shape)) 0 (0, fun _ => 0))
  .ok ((d.block 0).val (0, fun _ => 0),
    blockInner t.dom 2 (fun n => (n, t.shape)) ax ax)

example : firstDiagonal 4 = .ok (3, 3) := by decide +kernel

/-- C53, failure: on a grid with an odd number of cells the first and the last cell are neighbours of
the same parity, and `diagonal()` is not the diagonal -/
theorem C53_odd : firstDiagonal 3 = .ok (2, 3) := by decide +kernel

end Verif.Props
