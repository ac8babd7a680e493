/-
C32, C33, C34: stencil operator expressions.
-/
import Verif.Lemmas.StencilOp
import Mathlib.Algebra.BigOperators.Fin
import Mathlib.Tactic.NormNum

set_option linter.unusedSectionVars false

namespace Verif.Props

open Verif.Model Verif.Spec

section

variable {S I R : Type} [DecidableEq S] [Field R] [LinearOrder R] [IsStrictOrderedRing R]
  {dom : S → Finset I} {T : Op S I R → Prop} {good : Nat → R → Prop} {K : Nat}

theorem simplifyStep_composed (dom : S → Finset I) {ops : List (Op S I R)} {r c : S}
    (h1 : ¬ ∃ a, ops = [a]) :
    simplifyStep dom (.composed ops r c) =
        if composedIsZero ops then .ok (.done (.zero r c))
        else match flattenComposed ops with
          | some ops' => do
            let op ← mkComposed ops'
            .ok (.again op)
          | none =>
            if ops.any Op.isIdentity then
              let ops' := ops.filter fun o => !o.isIdentity
              if ops'.isEmpty then .ok (.done (.identity r))
              else do
                let op ← mkComposed ops'
                .ok (.again op)
            else match combineDiagonals dom ops with
              | some ops' => do
                let op ← mkComposed ops'
                .ok (.again op)
              | none => .ok (.done (.composed ops r c)) := by
  rw [simplifyStep]
  all_goals first | rfl | (rintro a rfl; exact h1 ⟨a, rfl⟩)

theorem simplifyStep_combined (dom : S → Finset I) {ops : List (Op S I R)} {r c : S}
    (h1 : ¬ ∃ a, ops = [a]) :
    simplifyStep dom (.combined ops r c) =
        if ops.any Op.isZeroOp then
          let ops' := ops.filter fun o => !o.isZeroOp
          if ops'.isEmpty then .ok (.done (.zero r c))
          else do
            let op ← mkCombined ops'
            .ok (.again op)
        else match flattenCombined ops with
          | some ops' => do
            let op ← mkCombined ops'
            .ok (.again op)
          | none => .ok (.done (.combined ops r c)) := by
  rw [simplifyStep]
  all_goals first | rfl | (rintro a rfl; exact h1 ⟨a, rfl⟩)

/-! ### one step preserves the meaning -/

/-- what a step may turn an operator into -/
def Refines (dom : S → Finset I) (T : Op S I R → Prop) (good : Nat → R → Prop) (k : Nat)
    (op op' : Op S I R) : Prop :=
  Constructed op' ∧ Graded T good k op' ∧ Same dom op' op

theorem refines_composed (hT : FnLeaves dom T) {k : Nat} {ops ops' : List (Op S I R)} {r c : S}
    (hp : Path r c ops) (hc : ∀ o ∈ ops, Constructed o) (hl : ∀ o ∈ ops, Leaves (FnIn T) o)
    (hp' : Path r c ops') (hne' : ops' ≠ []) (hc' : ∀ o ∈ ops', Constructed o)
    (hl' : GradedChain T good k ops')
    (heq : ∀ x : Arr S I R, x.shape = c → ValidArr dom x → callChain ops' x = callChain ops x) :
    mkComposed ops' = .ok (.composed ops' r c) ∧
      Refines dom T good k (.composed ops r c) (.composed ops' r c) := by
  refine ⟨mkComposed_iff.mpr ⟨r, c, hne', hp', rfl⟩,
    constructed_composed.mpr ⟨hne', hp', hc'⟩, .composed hl', rfl, rfl, fun x hv => ?_⟩
  rw [call_composed hp' (fun o ho => works_of_constructed hT (hc' o ho)
      ((graded_leaves (gradedChain_mem hl' ho).choose_spec.2))) x hv,
    call_composed hp (fun o ho => works_of_constructed hT (hc o ho) (hl o ho)) x hv]
  by_cases hx : x.shape = c
  · rw [if_pos hx, if_pos hx, heq x hx hv]
  · rw [if_neg hx, if_neg hx]

theorem refines_combined (hT : FnLeaves dom T) {k : Nat} {ops ops' : List (Op S I R)} {r c : S}
    (hne : ops ≠ []) (hp : ∀ o ∈ ops, o.rows = r ∧ o.cols = c)
    (hc : ∀ o ∈ ops, Constructed o) (hl : ∀ o ∈ ops, Leaves (FnIn T) o)
    (hp' : ∀ o ∈ ops', o.rows = r ∧ o.cols = c) (hne' : ops' ≠ [])
    (hc' : ∀ o ∈ ops', Constructed o) (hl' : ∀ o ∈ ops', Graded T good k o)
    (heq : ∀ x : Arr S I R, x.shape = c → ValidArr dom x →
      callSum none ops' x = callSum none ops x) :
    mkCombined ops' = .ok (.combined ops' r c) ∧
      Refines dom T good k (.combined ops r c) (.combined ops' r c) := by
  refine ⟨mkCombined_iff.mpr ⟨r, c, hne', hp', rfl⟩,
    constructed_combined.mpr ⟨hne', hp', hc'⟩, .combined hl', rfl, rfl, fun x hv => ?_⟩
  rw [call_combined hne' hp' (fun o ho => works_of_constructed hT (hc' o ho)
      (graded_leaves (hl' o ho))) x hv,
    call_combined hne hp (fun o ho => works_of_constructed hT (hc o ho) (hl o ho)) x hv]
  by_cases hx : x.shape = c
  · rw [if_pos hx, if_pos hx, heq x hx hv]
  · rw [if_neg hx, if_neg hx]

/-- a step of `simplify` never fails on a constructed operator and preserves its meaning -/
theorem step_refines (hT : FnLeaves dom T) (hG : GradedEntries good K) {k : Nat} (hk : k ≤ K)
    {op : Op S I R} (h : Constructed op) (hl : Graded T good k op) :
    ∃ op', (simplifyStep dom op = .ok (.done op') ∨ simplifyStep dom op = .ok (.again op')) ∧
      Refines dom T good k op op' := by
  have hs : ∀ {o : Op S I R}, Same dom o o := fun {o} => ⟨rfl, rfl, fun _ _ => rfl⟩
  cases op with
  | fn tag l f r c => exact ⟨_, .inl rfl, h, hl, hs⟩
  | identity s => exact ⟨_, .inl rfl, h, hl, hs⟩
  | zero r c => exact ⟨_, .inl rfl, h, hl, hs⟩
  | diagonal b d s =>
    have gd : ∀ i, good k (d i) := by cases hl with | diagonal h => exact h
    obtain ⟨q1, q2, q3, q4, q5⟩ := simplifyDiagonal_same (T := T) (dom := dom) hG hk b b d s gd
    exact ⟨_, .inl rfl, q4, q3, q1, q2, q5⟩
  | composed ops r c =>
    obtain ⟨hne, hp, hc⟩ := constructed_composed.mp h
    have hg := graded_composed.mp hl
    have hl' := leaves_composed.mp (graded_leaves hl)
    have hw : ∀ o ∈ ops, Works dom o := fun o ho => works_of_constructed hT (hc o ho) (hl' o ho)
    by_cases h1 : ∃ a, ops = [a]
    · obtain ⟨a, rfl⟩ := h1
      refine ⟨a, .inr rfl, hc a (by simp), ?_, ?_⟩
      · obtain ⟨j, hj, hja⟩ := gradedChain_mem hg (List.mem_singleton.mpr rfl)
        exact graded_mono hG hja hj
      obtain ⟨e1, e2⟩ := path_cons.mp hp
      have e2 := path_nil.mp e2
      refine ⟨e1, e2, fun x hv => ?_⟩
      rw [call_composed hp hw x hv, ← e2]
      by_cases hx : x.shape = a.cols
      · rw [if_pos hx, callChain, callChain]; rfl
      · rw [if_neg hx, call_bad hx]
    · rw [simplifyStep_composed dom h1]
      by_cases hz : composedIsZero ops = true
      · rw [if_pos hz]
        refine ⟨_, .inl rfl, .zero r c, .zero, rfl, rfl, fun x hv => ?_⟩
        rw [call_composed hp hw x hv]
        by_cases hx : x.shape = c
        · rw [call_zero hx, if_pos hx, isZero_sound hT hp hw hl' hz x hx hv]
        · rw [call_bad (op := .zero r c) hx, if_neg hx]
      · rw [if_neg hz]
        cases hf : flattenComposed ops with
        | some ops' =>
          obtain ⟨a, inner, r', c', t, e1, e2⟩ := flattenComposed_split hf
          subst e1 e2
          have hci := constructed_composed.mp (hc (.composed inner r' c') (by simp))
          have hli := leaves_composed.mp (hl' (.composed inner r' c') (by simp))
          obtain ⟨m, p1, p2⟩ := path_append_iff.mp hp
          obtain ⟨e, p3⟩ := path_cons.mp p2
          have e : r' = m := e
          subst e
          obtain ⟨k1, k2⟩ := refines_composed hT hp hc hl'
            (ops' := a ++ (inner ++ t)) (path_append p1 (path_append hci.2.1 p3))
            (by simp [hci.1])
            (fun o ho => by
              rcases List.mem_append.mp ho with ho | ho
              · exact hc o (by simp [ho])
              · rcases List.mem_append.mp ho with ho | ho
                · exact hci.2.2 o ho
                · exact hc o (by simp [ho]))
            (show GradedChain T good k _ from by
              obtain ⟨k1, k2, rfl, g1, g2⟩ := gradedChain_split hg
              obtain ⟨k3, k4, rfl, g3, g4⟩ := gradedChain_cons.mp g2
              exact gradedChain_append g1 (gradedChain_append (graded_composed.mp g3) g4))
            (fun x hx hv => by
              rw [callChain_append, callChain_append, callChain_append]
              obtain ⟨y, h3, h4, h5⟩ := (chain_works (fun o ho => hw o (by simp [ho])) p3).1 x hx hv
              rw [h3, callChain, h3]
              show (do let z ← callChain inner y; callChain a z) =
                (do let z ← (Op.composed inner r' c').call y; callChain a z)
              rw [call_composed hci.2.1
                (fun o ho => works_of_constructed hT (hci.2.2 o ho) (hli o ho)) y h5,
                if_pos (show y.shape = c' from h4)])
          exact ⟨_, .inr (by simp only []; rw [k1]; rfl), k2⟩
        | none =>
          simp only []
          by_cases hi : ops.any Op.isIdentity = true
          · rw [if_pos hi]
            obtain ⟨p1, p2⟩ := filterIdentity_same hp hw
            by_cases he : (ops.filter fun o => !o.isIdentity) = []
            · rw [he] at p1 p2
              have hrc := path_nil.mp p1
              subst hrc
              rw [he]
              refine ⟨.identity r, .inl rfl, .identity r, .identity, rfl, rfl, fun x hv => ?_⟩
              rw [call_composed hp hw x hv]
              by_cases hx : x.shape = r
              · rw [if_pos hx, ← p2 x hx hv, call_identity hx, callChain]
              · rw [if_neg hx, call_bad (op := .identity r) hx]
            · rw [if_neg (by simpa using he)]
              obtain ⟨k1, k2⟩ := refines_composed hT hp hc hl' p1 he
                (fun o ho => hc o (List.mem_filter.mp ho).1)
                (gradedChain_filter _ hg) p2
              exact ⟨_, .inr (by rw [k1]; rfl), k2⟩
          · rw [if_neg hi]
            cases hd : combineDiagonals dom ops with
            | some ops' =>
              obtain ⟨p1, p2, p3, p4, p5⟩ := combineDiagonals_same hG hk hp hw hg hc hd
              obtain ⟨k1, k2⟩ := refines_composed hT hp hc hl' p1 p2 p4 p3 p5
              exact ⟨_, .inr (by simp only []; rw [k1]; rfl), k2⟩
            | none => exact ⟨_, .inl rfl, h, hl, hs⟩
  | combined ops r c =>
    obtain ⟨hne, hp, hc⟩ := constructed_combined.mp h
    have hg := graded_combined.mp hl
    have hl' := leaves_combined.mp (graded_leaves hl)
    have hw : ∀ o ∈ ops, Works dom o := fun o ho => works_of_constructed hT (hc o ho) (hl' o ho)
    by_cases h1 : ∃ a, ops = [a]
    · obtain ⟨a, rfl⟩ := h1
      refine ⟨a, .inr rfl, hc a (by simp), hg a (by simp), ?_⟩
      obtain ⟨e1, e2⟩ := hp a (by simp)
      refine ⟨e1, e2, fun x hv => ?_⟩
      rw [call_combined hne hp hw x hv, ← e2]
      by_cases hx : x.shape = a.cols
      · obtain ⟨y, h3, h4, h5⟩ := (hw a (by simp)).2.1 x hx hv
        rw [if_pos hx, callSum, h3]
        show _ = callSum (some y) [] x
        rw [callSum]
      · rw [if_neg hx, call_bad hx]
    · rw [simplifyStep_combined dom h1]
      by_cases hz : ops.any Op.isZeroOp = true
      · rw [if_pos hz]
        by_cases he : (ops.filter fun o => !o.isZeroOp) = []
        · rw [he]
          refine ⟨.zero r c, .inl rfl, .zero r c, .zero, rfl, rfl, fun x hv => ?_⟩
          rw [call_combined hne hp hw x hv]
          by_cases hx : x.shape = c
          · rw [call_zero hx, if_pos hx, (filterZero_same hp hw x hx hv).2 hne, if_pos he]
          · rw [call_bad (op := .zero r c) hx, if_neg hx]
        · obtain ⟨k1, k2⟩ := refines_combined hT hne hp hc hl'
            (ops' := ops.filter fun o => !o.isZeroOp)
            (fun o ho => hp o (List.mem_filter.mp ho).1) he
            (fun o ho => hc o (List.mem_filter.mp ho).1)
            (fun o ho => hg o (List.mem_filter.mp ho).1)
            (fun x hx hv => by rw [(filterZero_same hp hw x hx hv).2 hne, if_neg he])
          simp only []
          rw [if_neg (by simpa using he), k1]
          exact ⟨_, .inr rfl, k2⟩
      · rw [if_neg hz]
        cases hf : flattenCombined ops with
        | none => exact ⟨_, .inl rfl, h, hl, hs⟩
        | some ops' =>
          obtain ⟨a, inner, r', c', t, e1, e2⟩ := flattenCombined_split hf
          subst e1 e2
          have hci := constructed_combined.mp (hc (.combined inner r' c') (by simp))
          have hli := leaves_combined.mp (hl' (.combined inner r' c') (by simp))
          obtain ⟨er, ec⟩ := hp (.combined inner r' c') (by simp)
          have er : r' = r := er
          have ec : c' = c := ec
          subst er ec
          have hwi : ∀ o ∈ inner, Works dom o :=
            fun o ho => works_of_constructed hT (hci.2.2 o ho) (hli o ho)
          obtain ⟨k1, k2⟩ := refines_combined hT hne hp hc hl'
            (ops' := a ++ (inner ++ t))
            (fun o ho => by
              rcases List.mem_append.mp ho with ho | ho
              · exact hp o (by simp [ho])
              · rcases List.mem_append.mp ho with ho | ho
                · exact hci.2.1 o ho
                · exact hp o (by simp [ho]))
            (by simp [hci.1])
            (fun o ho => by
              rcases List.mem_append.mp ho with ho | ho
              · exact hc o (by simp [ho])
              · rcases List.mem_append.mp ho with ho | ho
                · exact hci.2.2 o ho
                · exact hc o (by simp [ho]))
            (fun o ho => by
              rcases List.mem_append.mp ho with ho | ho
              · exact hg o (by simp [ho])
              · rcases List.mem_append.mp ho with ho | ho
                · exact graded_combined.mp (hg (.combined inner r' c') (by simp)) o ho
                · exact hg o (by simp [ho]))
            (fun x hx hv => by
              have hcall : (Op.combined inner r' c').call x = callSum none inner x := by
                rw [call_combined hci.1 hci.2.1 hwi x hv, if_pos hx]
              by_cases ha : a = []
              · subst ha
                rw [List.nil_append, List.nil_append, callSum_append _ _ _ hci.1, callSum, hcall]
                rfl
              · rw [callSum_append _ _ _ ha, callSum_append _ _ _ ha]
                obtain ⟨y, h3, h4, h5⟩ := (sum_works (fun o ho => hw o (by simp [ho]))
                  (fun o ho => hp o (by simp [ho])) none (fun _ => ha) (by simp)).1 x hx hv (by simp)
                rw [h3]
                show callSum (some y) (inner ++ t) x =
                  callSum (some y) (.combined inner r' c' :: t) x
                rw [callSum_append _ _ _ hci.1, callSum_some hci.1 hci.2.1 hwi x hx hv y h4,
                  callSum, hcall]
                cases callSum none inner x with
                | error e => rfl
                | ok z => rfl)
          exact ⟨_, .inr (by simp only []; rw [k1]; rfl), k2⟩

/-- C32: for every operator that can be constructed from exact elementary operators, and in which the
products of diagonals met along any product are not within the tolerances of zero and one, `simplify`
terminates without an exception and returns an operator with the same shapes that computes the same
on every array (and rejects the same arrays). -/
theorem C32_simplify_graded (hT : FnLeaves dom T) (hG : GradedEntries good K) {k : Nat} (hk : k ≤ K)
    (op : Op S I R) (h : Constructed op) (hl : Graded T good k op) :
    ∃ op', op.simplify dom = .ok op' ∧ op'.rows = op.rows ∧ op'.cols = op.cols ∧
      Constructed op' ∧ Graded T good k op' ∧
      ∀ x : Arr S I R, ValidArr dom x → op'.call x = op.call x := by
  have main : ∀ (n : Nat) (op : Op S I R), op.nodes ≤ n → Constructed op →
      Graded T good k op → ∃ op', op.simplify dom = .ok op' ∧ op'.rows = op.rows ∧
        op'.cols = op.cols ∧ Constructed op' ∧ Graded T good k op' ∧
        ∀ x : Arr S I R, ValidArr dom x → op'.call x = op.call x := by
    intro n
    induction n with
    | zero => intro op hn; exact absurd hn (by have := nodes_pos op; omega)
    | succ n ih =>
      intro op hn h hl
      obtain ⟨op1, hs, hc, hl1, e1, e2, e3⟩ := step_refines hT hG hk h hl
      rcases hs with hs | hs
      · refine ⟨op1, ?_, e1, e2, hc, hl1, e3⟩
        rw [Op.simplify]
        split
        · rename_i hh; rw [hs] at hh; cases hh
        · rename_i hh; rw [hs] at hh; cases hh; rfl
        · rename_i hh; rw [hs] at hh; cases hh
      · have hlt := simplifyStep_nodes dom hs
        obtain ⟨op', g1, g2, g3, g4, g6, g5⟩ := ih op1 (by omega) hc hl1
        refine ⟨op', ?_, g2.trans e1, g3.trans e2, g4, g6, fun x hv => by rw [g5 x hv, e3 x hv]⟩
        rw [Op.simplify]
        split
        · rename_i hh; rw [hs] at hh; cases hh
        · rename_i hh; rw [hs] at hh; cases hh
        · rename_i hh; rw [hs] at hh; cases hh; exact g1
  exact main op.nodes op le_rfl h hl

/-- C32: if the entries of all diagonals lie in a set that is closed under multiplication and keeps
away from zero and one, `simplify` is exact for every expression of any size -/
theorem C32_simplify_exact {good : R → Prop} (hT : ExactLeaves dom T good) (op : Op S I R)
    (h : Constructed op) (hl : Leaves T op) :
    ∃ op', op.simplify dom = .ok op' ∧ op'.rows = op.rows ∧ op'.cols = op.cols ∧
      Constructed op' ∧ ∀ x : Arr S I R, ValidArr dom x → op'.call x = op.call x := by
  have hG : GradedEntries (fun _ => good) 0 :=
    ⟨fun h _ => h, fun h1 h2 => hT.mul _ _ h1 h2, hT.zero, hT.one⟩
  obtain ⟨op', h1, h2, h3, h4, _, h5⟩ := C32_simplify_graded hT.toFnLeaves hG le_rfl op h
    (graded_of_leaves hT hl)
  exact ⟨op', h1, h2, h3, h4, h5⟩


/-! ### normal forms -/

theorem simplify_done {op op' : Op S I R} (h : simplifyStep dom op = .ok (.done op')) :
    op.simplify dom = .ok op' := by
  rw [Op.simplify]
  split
  · rename_i hh; rw [h] at hh; cases hh
  · rename_i hh; rw [h] at hh; cases hh; rfl
  · rename_i hh; rw [h] at hh; cases hh

theorem simplify_again {op op' : Op S I R} (h : simplifyStep dom op = .ok (.again op')) :
    op.simplify dom = op'.simplify dom := by
  rw [Op.simplify]
  split
  · rename_i hh; rw [h] at hh; cases hh
  · rename_i hh; rw [h] at hh; cases hh
  · rename_i hh; rw [h] at hh; cases hh; rfl

theorem filterIdentity_path {ops : List (Op S I R)} {r c : S} (hp : Path r c ops) :
    Path r c (ops.filter fun o => !o.isIdentity) := by
  induction hp with
  | nil => exact .nil _
  | @cons r c o t e ht ih =>
    by_cases hi : o.isIdentity = true
    · cases o with
      | identity s =>
        have e' : s = r := e
        subst e'
        rw [List.filter_cons_of_neg (by simp [hi])]
        exact ih
      | _ => cases hi
    · rw [List.filter_cons_of_pos (by simp [hi])]
      exact .cons e ih

/-- the operators that are their own transpose are square (the constructor sets
`self.shape = shape, shape`, operator.py 132-136) -/
def SquareLeaf : Op S I R → Prop
  | .fn .symmetric _ _ r c => r = c
  | _ => True

theorem simplifyDiagonal_leaf (b : Bool) (d : I → R) (s : S) :
    (simplifyDiagonal dom b d s).rows = s ∧ (simplifyDiagonal dom b d s).cols = s ∧
    ¬ (simplifyDiagonal dom b d s).isComposed ∧ ¬ (simplifyDiagonal dom b d s).isCombined ∧
    SquareLeaf (simplifyDiagonal dom b d s) := by
  unfold simplifyDiagonal
  split
  · exact ⟨rfl, rfl, by simp [Op.isComposed], by simp [Op.isCombined], trivial⟩
  · split <;> exact ⟨rfl, rfl, by simp [Op.isComposed], by simp [Op.isCombined], trivial⟩

theorem constructed_leaf {op : Op S I R} (h1 : ¬ op.isComposed) (h2 : ¬ op.isCombined) :
    Constructed op := by
  cases op with
  | fn => exact .fn _ _ _ _ _
  | diagonal => exact .diagonal _ _ _
  | identity => exact .identity _
  | zero => exact .zero _ _
  | composed => exact absurd rfl h1
  | combined => exact absurd rfl h2

theorem combineDiagonals_path {ops ops' : List (Op S I R)} {r c : S} (hp : Path r c ops)
    (h : combineDiagonals dom ops = some ops') : Path r c ops' ∧ ops' ≠ [] ∧
      ∀ o ∈ ops', o ∈ ops ∨ (¬ o.isComposed ∧ ¬ o.isCombined ∧ SquareLeaf o) := by
  induction ops generalizing ops' r with
  | nil => cases h
  | cons a t ih =>
    unfold combineDiagonals at h
    split at h
    · rename_i h1 d s h2 e s' t' heq
      cases heq
      cases h
      obtain ⟨e1, hp1⟩ := path_cons.mp hp
      obtain ⟨e2, hp2⟩ := path_cons.mp hp1
      have e1' : s = r := e1
      have e2' : s' = s := e2
      subst e1' e2'
      obtain ⟨q1, q2, q3⟩ := simplifyDiagonal_leaf (dom := dom) false (fun i => d i * e i) s'
      refine ⟨.cons q1 (by rw [q2]; exact hp2), List.cons_ne_nil _ _, ?_⟩
      intro o ho
      rcases List.mem_cons.mp ho with rfl | ho
      · exact .inr q3
      · exact .inl (by simp [ho])
    · rename_i a' t' _ heq
      cases heq
      cases hf : combineDiagonals dom t with
      | none => rw [hf] at h; cases h
      | some u =>
        rw [hf] at h
        cases h
        obtain ⟨e1, hp1⟩ := path_cons.mp hp
        obtain ⟨p1, p2, p3⟩ := ih hp1 hf
        refine ⟨.cons e1 p1, List.cons_ne_nil _ _, ?_⟩
        intro o ho
        rcases List.mem_cons.mp ho with rfl | ho
        · exact .inl List.mem_cons_self
        · rcases p3 o ho with h | h
          · exact .inl (List.mem_cons_of_mem _ h)
          · exact .inr h
    · rename_i heq; cases heq

theorem flattenComposed_none {ops : List (Op S I R)} (h : flattenComposed ops = none) :
    ∀ o ∈ ops, ¬ o.isComposed := by
  induction ops with
  | nil => intro o ho; cases ho
  | cons a t ih =>
    intro o ho
    cases a with
    | composed => simp [flattenComposed] at h
    | _ =>
      simp only [flattenComposed, Option.map_eq_none_iff] at h
      rcases List.mem_cons.mp ho with rfl | ho
      · simp [Op.isComposed]
      · exact ih h o ho

theorem flattenCombined_none {ops : List (Op S I R)} (h : flattenCombined ops = none) :
    ∀ o ∈ ops, ¬ o.isCombined := by
  induction ops with
  | nil => intro o ho; cases ho
  | cons a t ih =>
    intro o ho
    cases a with
    | combined => simp [flattenCombined] at h
    | _ =>
      simp only [flattenCombined, Option.map_eq_none_iff] at h
      rcases List.mem_cons.mp ho with rfl | ho
      · simp [Op.isCombined]
      · exact ih h o ho

theorem combineDiagonals_none {ops : List (Op S I R)} (h : combineDiagonals dom ops = none)
    (l : List (Op S I R)) (a b : Op S I R) (t : List (Op S I R)) (heq : ops = l ++ a :: b :: t) :
    ¬ ((∃ h d s, a = .diagonal h d s) ∧ (∃ h d s, b = .diagonal h d s)) := by
  rintro ⟨⟨h1, d, s, rfl⟩, ⟨h2, e, s', rfl⟩⟩
  subst heq
  induction l with
  | nil => simp [combineDiagonals] at h
  | cons x l ih =>
    apply ih
    rw [List.cons_append] at h
    unfold combineDiagonals at h
    split at h
    · cases h
    · rename_i heq
      cases heq
      simpa using h
    · rename_i heq; cases heq

/-- the parts of an operator -/
def parts : Op S I R → List (Op S I R)
  | .composed ops _ _ => ops
  | .combined ops _ _ => ops
  | _ => []

/-- one step: no exception, the shapes stay, parts come from parts or parts of parts, and a final
result is normal -/
theorem step_normal {op : Op S I R} (h : Constructed op) :
    ∃ op', (simplifyStep dom op = .ok (.done op') ∧ Normal op' ∨
        simplifyStep dom op = .ok (.again op')) ∧
      Constructed op' ∧ op'.rows = op.rows ∧ op'.cols = op.cols ∧
      ((op' ∈ parts op) ∨ (SquareLeaf op → SquareLeaf op') ∧
        ∀ o ∈ parts op', o ∈ parts op ∨ (∃ u ∈ parts op, o ∈ parts u) ∨
        (¬ o.isComposed ∧ ¬ o.isCombined ∧ SquareLeaf o)) := by
  cases op with
  | fn tag l f r c => exact ⟨_, .inl ⟨rfl, trivial⟩, h, rfl, rfl, .inr ⟨id, fun o ho => .inl ho⟩⟩
  | identity s => exact ⟨_, .inl ⟨rfl, trivial⟩, h, rfl, rfl, .inr ⟨id, fun o ho => .inl ho⟩⟩
  | zero r c => exact ⟨_, .inl ⟨rfl, trivial⟩, h, rfl, rfl, .inr ⟨id, fun o ho => .inl ho⟩⟩
  | diagonal b d s =>
    obtain ⟨q1, q2, q3, q4, q5⟩ := simplifyDiagonal_leaf (dom := dom) b d s
    refine ⟨simplifyDiagonal dom b d s, .inl ⟨rfl, ?_⟩, constructed_leaf q3 q4, q1, q2,
      .inr ⟨fun _ => q5, ?_⟩⟩
    · generalize simplifyDiagonal dom b d s = u at q3 q4
      cases u with
      | composed => exact absurd rfl q3
      | combined => exact absurd rfl q4
      | _ => trivial
    · generalize simplifyDiagonal dom b d s = u at q3 q4
      intro o ho
      cases u <;> first | exact absurd rfl q3 | exact absurd rfl q4 | cases ho
  | composed ops r c =>
    obtain ⟨hne, hp, hc⟩ := constructed_composed.mp h
    by_cases h1 : ∃ a, ops = [a]
    · obtain ⟨a, rfl⟩ := h1
      obtain ⟨e1, e2⟩ := path_cons.mp hp
      exact ⟨a, .inr rfl, hc a (by simp), e1, path_nil.mp e2, .inl (by simp [parts])⟩
    · rw [simplifyStep_composed dom h1]
      by_cases hz : composedIsZero ops = true
      · rw [if_pos hz]
        exact ⟨.zero r c, .inl ⟨rfl, trivial⟩, .zero r c, rfl, rfl,
          .inr ⟨fun _ => trivial, fun o ho => absurd ho (by simp [parts])⟩⟩
      · rw [if_neg hz]
        cases hf : flattenComposed ops with
        | some ops' =>
          obtain ⟨a, inner, r', c', t, e1, e2⟩ := flattenComposed_split hf
          subst e1 e2
          have hci := constructed_composed.mp (hc (.composed inner r' c') (by simp))
          obtain ⟨m, p1, p2⟩ := path_append_iff.mp hp
          obtain ⟨e, p3⟩ := path_cons.mp p2
          have e : r' = m := e
          subst e
          have hpath := path_append p1 (path_append hci.2.1 p3)
          have hne' : a ++ (inner ++ t) ≠ [] := by simp [hci.1]
          have hk := mkComposed_iff.mpr ⟨r, c, hne', hpath, rfl⟩
          refine ⟨.composed (a ++ (inner ++ t)) r c, .inr (by simp only []; rw [hk]; rfl),
            constructed_composed.mpr ⟨hne', hpath, ?_⟩, rfl, rfl, .inr ⟨fun _ => trivial, ?_⟩⟩
          · intro o ho
            rcases List.mem_append.mp ho with ho | ho
            · exact hc o (by simp [ho])
            · rcases List.mem_append.mp ho with ho | ho
              · exact hci.2.2 o ho
              · exact hc o (by simp [ho])
          · intro o ho
            rcases List.mem_append.mp (show o ∈ a ++ (inner ++ t) from ho) with ho | ho
            · exact .inl (by simp [parts, ho])
            · rcases List.mem_append.mp ho with ho | ho
              · exact .inr (.inl ⟨.composed inner r' c', by simp [parts], ho⟩)
              · exact .inl (by simp [parts, ho])
        | none =>
          simp only []
          by_cases hi : ops.any Op.isIdentity = true
          · rw [if_pos hi]
            have p1 := filterIdentity_path hp
            by_cases he : (ops.filter fun o => !o.isIdentity) = []
            · rw [he] at p1
              have hrc := path_nil.mp p1
              subst hrc
              rw [he]
              exact ⟨.identity r, .inl ⟨rfl, trivial⟩, .identity r, rfl, rfl,
                .inr ⟨fun _ => trivial, fun o ho => absurd ho (by simp [parts])⟩⟩
            · rw [if_neg (by simpa using he)]
              have hk := mkComposed_iff.mpr ⟨r, c, he, p1, rfl⟩
              refine ⟨_, .inr (by rw [hk]; rfl),
                constructed_composed.mpr ⟨he, p1, fun o ho => hc o (List.mem_filter.mp ho).1⟩,
                rfl, rfl, .inr ⟨fun _ => trivial, fun o ho => .inl (List.mem_filter.mp ho).1⟩⟩
          · rw [if_neg hi]
            cases hd : combineDiagonals dom ops with
            | some ops' =>
              obtain ⟨p1, p2, p3⟩ := combineDiagonals_path hp hd
              have hk := mkComposed_iff.mpr ⟨r, c, p2, p1, rfl⟩
              refine ⟨.composed ops' r c, .inr (by simp only []; rw [hk]; rfl),
                constructed_composed.mpr ⟨p2, p1, fun o ho => ?_⟩, rfl, rfl,
                .inr ⟨fun _ => trivial, fun o ho => ?_⟩⟩
              · rcases p3 o ho with h | ⟨h, h', _⟩
                · exact hc o h
                · exact constructed_leaf h h'
              · rcases p3 o ho with h | h
                · exact .inl h
                · exact .inr (.inr h)
            | none =>
              refine ⟨.composed ops r c, .inl ⟨rfl, ?_, ?_, ?_, ?_, ?_⟩, h, rfl, rfl,
                .inr ⟨id, fun o ho => .inl ho⟩⟩
              · match ops, hne, h1 with
                | [a], _, h1 => exact absurd ⟨a, rfl⟩ h1
                | a :: b :: t, _, _ => simp
              · intro o ho hzo
                apply hz
                rw [composedIsZero, List.any_eq_true.mpr ⟨o, ho, hzo⟩]
                rfl
              · intro o ho hio
                exact hi (List.any_eq_true.mpr ⟨o, ho, hio⟩)
              · exact flattenComposed_none hf
              · intro l a b t heq
                refine ⟨?_, ?_, combineDiagonals_none hd l a b t heq⟩
                · rintro ⟨ha, hb⟩
                  apply hz
                  rw [composedIsZero, heq, anyAdjacent_of (p := Op.isDerivative) l a b t ha hb]
                  simp
                · rintro ⟨ha, hb⟩
                  apply hz
                  rw [composedIsZero, heq, anyAdjacent_of (p := Op.isDualDerivative) l a b t ha hb]
                  simp
  | combined ops r c =>
    obtain ⟨hne, hp, hc⟩ := constructed_combined.mp h
    by_cases h1 : ∃ a, ops = [a]
    · obtain ⟨a, rfl⟩ := h1
      obtain ⟨e1, e2⟩ := hp a (by simp)
      exact ⟨a, .inr rfl, hc a (by simp), e1, e2, .inl (by simp [parts])⟩
    · rw [simplifyStep_combined dom h1]
      by_cases hz : ops.any Op.isZeroOp = true
      · rw [if_pos hz]
        by_cases he : (ops.filter fun o => !o.isZeroOp) = []
        · rw [he]
          exact ⟨.zero r c, .inl ⟨rfl, trivial⟩, .zero r c, rfl, rfl,
            .inr ⟨fun _ => trivial, fun o ho => absurd ho (by simp [parts])⟩⟩
        · simp only []
          have hk := mkCombined_iff.mpr ⟨r, c, he,
            fun o ho => hp o (List.mem_filter.mp ho).1, rfl⟩
          rw [if_neg (by simpa using he), hk]
          exact ⟨_, .inr rfl, constructed_combined.mpr ⟨he,
            fun o ho => hp o (List.mem_filter.mp ho).1,
            fun o ho => hc o (List.mem_filter.mp ho).1⟩, rfl, rfl,
            .inr ⟨fun _ => trivial, fun o ho => .inl (List.mem_filter.mp ho).1⟩⟩
      · rw [if_neg hz]
        cases hf : flattenCombined ops with
        | none =>
          refine ⟨.combined ops r c, .inl ⟨rfl, ?_, ?_, flattenCombined_none hf⟩, h, rfl, rfl,
            .inr ⟨id, fun o ho => .inl ho⟩⟩
          · match ops, hne, h1 with
            | [a], _, h1 => exact absurd ⟨a, rfl⟩ h1
            | a :: b :: t, _, _ => simp
          · intro o ho hzo
            exact hz (List.any_eq_true.mpr ⟨o, ho, hzo⟩)
        | some ops' =>
          obtain ⟨a, inner, r', c', t, e1, e2⟩ := flattenCombined_split hf
          subst e1 e2
          have hci := constructed_combined.mp (hc (.combined inner r' c') (by simp))
          obtain ⟨er, ec⟩ := hp (.combined inner r' c') (by simp)
          have er : r' = r := er
          have ec : c' = c := ec
          subst er ec
          have hne' : a ++ (inner ++ t) ≠ [] := by simp [hci.1]
          have hp' : ∀ o ∈ a ++ (inner ++ t), o.rows = r' ∧ o.cols = c' := by
            intro o ho
            rcases List.mem_append.mp ho with ho | ho
            · exact hp o (by simp [ho])
            · rcases List.mem_append.mp ho with ho | ho
              · exact hci.2.1 o ho
              · exact hp o (by simp [ho])
          have hk := mkCombined_iff.mpr ⟨r', c', hne', hp', rfl⟩
          refine ⟨.combined (a ++ (inner ++ t)) r' c', .inr (by simp only []; rw [hk]; rfl),
            constructed_combined.mpr ⟨hne', hp', ?_⟩, rfl, rfl, .inr ⟨fun _ => trivial, ?_⟩⟩
          · intro o ho
            rcases List.mem_append.mp ho with ho | ho
            · exact hc o (by simp [ho])
            · rcases List.mem_append.mp ho with ho | ho
              · exact hci.2.2 o ho
              · exact hc o (by simp [ho])
          · intro o ho
            rcases List.mem_append.mp (show o ∈ a ++ (inner ++ t) from ho) with ho | ho
            · exact .inl (by simp [parts, ho])
            · rcases List.mem_append.mp ho with ho | ho
              · exact .inr (.inl ⟨.combined inner r' c', by simp [parts], ho⟩)
              · exact .inl (by simp [parts, ho])

theorem deep_parts {op : Op S I R} (h : DeepNormal op) : ∀ o ∈ parts op, DeepNormal o := by
  cases h with
  | leaf h1 h2 =>
    intro o ho
    cases op <;> first | exact absurd rfl h1 | exact absurd rfl h2 | cases ho
  | composed _ hd => exact hd
  | combined _ hd => exact hd

theorem deep_of_normal {op : Op S I R} (h : Normal op) (hd : ∀ o ∈ parts op, DeepNormal o) :
    DeepNormal op := by
  cases op with
  | composed => exact .composed h hd
  | combined => exact .combined h hd
  | _ => exact .leaf (by simp [Op.isComposed]) (by simp [Op.isCombined])

theorem leaves_square {op : Op S I R} (h : Leaves SquareLeaf op) : SquareLeaf op := by
  cases h with
  | fn h => exact h
  | _ => trivial

theorem step_square {op : Op S I R} (hs : Leaves SquareLeaf op) {op' : Op S I R}
    (h : (op' ∈ parts op) ∨ (SquareLeaf op → SquareLeaf op') ∧
      ∀ o ∈ parts op', o ∈ parts op ∨ (∃ u ∈ parts op, o ∈ parts u) ∨
        (¬ o.isComposed ∧ ¬ o.isCombined ∧ SquareLeaf o)) :
    Leaves SquareLeaf op' := by
  have hp : ∀ {op : Op S I R}, Leaves SquareLeaf op → ∀ o ∈ parts op, Leaves SquareLeaf o := by
    intro op h o ho
    cases h with
    | composed h => exact h o ho
    | combined h => exact h o ho
    | _ => cases ho
  have hq : ∀ {op : Op S I R}, SquareLeaf op → (∀ o ∈ parts op, Leaves SquareLeaf o) →
      Leaves SquareLeaf op := by
    intro op h1 h2
    cases op with
    | fn => exact .fn h1
    | diagonal => exact .diagonal h1
    | identity => exact .identity
    | zero => exact .zero
    | composed => exact .composed h2
    | combined => exact .combined h2
  rcases h with h | ⟨hl, h⟩
  · exact hp hs _ h
  · refine hq (hl (leaves_square hs)) fun o ho => ?_
    rcases h o ho with h | ⟨u, hu, h⟩ | ⟨h1, h2, h3⟩
    · exact hp hs o h
    · exact hp (hp hs u hu) o h
    · refine hq h3 fun v hv => ?_
      cases o <;> first | exact absurd rfl h1 | exact absurd rfl h2 | cases hv

/-- `simplify` terminates without an exception on every constructed operator, keeps the shapes
and returns an operator to which no rule applies: a product has at least two factors, none of them
zero, the identity or a product, and no two adjacent diagonals, derivatives or dual derivatives; a
sum has at least two terms, none of them zero or a sum.  If the parts of the operator are
simplified all the way down, so is the result. -/
theorem normal_form (dom : S → Finset I) (op : Op S I R) (h : Constructed op) :
    ∃ op', op.simplify dom = .ok op' ∧ Constructed op' ∧ op'.rows = op.rows ∧
      op'.cols = op.cols ∧ Normal op' ∧
      ((∀ o ∈ parts op, DeepNormal o) → DeepNormal op') ∧
      (Leaves SquareLeaf op → Leaves SquareLeaf op') := by
  have main : ∀ (n : Nat) (op : Op S I R), op.nodes ≤ n → Constructed op →
      ∃ op', op.simplify dom = .ok op' ∧ Constructed op' ∧ op'.rows = op.rows ∧
      op'.cols = op.cols ∧ Normal op' ∧ ((∀ o ∈ parts op, DeepNormal o) → DeepNormal op') ∧
      (Leaves SquareLeaf op → Leaves SquareLeaf op') := by
    intro n
    induction n with
    | zero => intro op hn; exact absurd hn (by have := nodes_pos op; omega)
    | succ n ih =>
      intro op hn h
      obtain ⟨op1, hs, hc, e1, e2, hparts⟩ := step_normal (dom := dom) h
      have hdeep : (∀ o ∈ parts op, DeepNormal o) → ∀ o ∈ parts op1, DeepNormal o := by
        intro hd
        rcases hparts with hm | hm
        · exact deep_parts (hd _ hm)
        · intro o ho
          rcases hm.2 o ho with h | ⟨u, hu, h⟩ | ⟨h, h', _⟩
          · exact hd o h
          · exact deep_parts (hd u hu) o h
          · exact .leaf h h'
      rcases hs with ⟨hs, hn1⟩ | hs
      · exact ⟨op1, simplify_done hs, hc, e1, e2, hn1, fun hd => deep_of_normal hn1 (hdeep hd),
          fun hs => step_square hs hparts⟩
      · have hlt := simplifyStep_nodes dom hs
        obtain ⟨op', g1, g2, g3, g4, g5, g6, g7⟩ := ih op1 (by omega) hc
        exact ⟨op', by rw [simplify_again hs, g1], g2, g3.trans e1, g4.trans e2, g5,
          fun hd => g6 (hdeep hd), fun hs => g7 (step_square hs hparts)⟩
  exact main op.nodes op le_rfl h

/-! ### transposition -/

theorem transposeAll_eq (ops : List (Op S I R)) : transposeAll ops = ops.map Op.transpose := by
  induction ops with
  | nil => rw [transposeAll]; rfl
  | cons a t ih => rw [transposeAll, ih]; rfl

theorem transpose_composed (ops : List (Op S I R)) (r c : S) :
    (Op.composed ops r c).transpose = .composed (ops.map Op.transpose).reverse c r := by
  rw [Op.transpose, transposeAll_eq]

theorem transpose_combined (ops : List (Op S I R)) (r c : S) :
    (Op.combined ops r c).transpose = .combined (ops.map Op.transpose) c r := by
  rw [Op.transpose, transposeAll_eq]

/-- C33: transposing twice gives back the operator -/
theorem C33_involution (op : Op S I R) : op.transpose.transpose = op := by
  refine op_induction (P := fun op => op.transpose.transpose = op) ?_ ?_ ?_ op
  · intro op h1 h2
    cases op with
    | fn tag l f r c => cases tag <;> simp [Op.transpose]
    | composed => exact absurd rfl h1
    | combined => exact absurd rfl h2
    | _ => simp [Op.transpose]
  · intro ops r c ih
    rw [transpose_composed, transpose_composed]
    congr 1
    rw [List.map_reverse, List.reverse_reverse, List.map_map]
    conv_rhs => rw [← List.map_id ops]
    exact List.map_congr_left fun o ho => ih o ho
  · intro ops r c ih
    rw [transpose_combined, transpose_combined]
    congr 1
    rw [List.map_map]
    conv_rhs => rw [← List.map_id ops]
    exact List.map_congr_left fun o ho => ih o ho

theorem transpose_shape (op : Op S I R) (h : Leaves (fun o => ∀ t l f r c, o = .fn t l f r c →
    t = .symmetric → r = c) op) :
    op.transpose.rows = op.cols ∧ op.transpose.cols = op.rows := by
  cases op with
  | fn tag l f r c =>
    cases tag with
    | symmetric =>
      have : r = c := by cases h with | fn h => exact h _ _ _ _ _ rfl rfl
      simp [Op.transpose, Op.rows, Op.cols, this]
    | _ => simp [Op.transpose, Op.rows, Op.cols]
  | _ => simp [Op.transpose, Op.rows, Op.cols]

/-- the pair of operators is adjoint, and accepts the arrays of its shapes -/
def Adjoint (dom : S → Finset I) (a b : Op S I R) : Prop :=
  b.rows = a.cols ∧ b.cols = a.rows ∧
  ∀ x y : Arr S I R, x.shape = a.cols → y.shape = a.rows →
    ∃ ax by', a.call x = .ok ax ∧ b.call y = .ok by' ∧ ax.shape = a.rows ∧ by'.shape = a.cols ∧
      inner dom a.rows ax y = inner dom a.cols x by'

theorem chain_adjoint {ops : List (Op S I R)} (h : ∀ o ∈ ops, Adjoint dom o o.transpose) {r c : S}
    (hp : Path r c ops) (x y : Arr S I R) (hx : x.shape = c) (hy : y.shape = r) :
    ∃ ax by', callChain ops x = .ok ax ∧ callChain (ops.map Op.transpose).reverse y = .ok by' ∧
      ax.shape = r ∧ by'.shape = c ∧ inner dom r ax y = inner dom c x by' := by
  induction hp generalizing y with
  | nil => exact ⟨x, y, by rw [callChain], by simp [callChain], hx, hy, rfl⟩
  | @cons r c o t e ht ih =>
    subst e
    obtain ⟨_, _, h3⟩ := h o List.mem_cons_self
    have hc : ∀ z : Arr S I R, z.shape = o.cols → ∃ az, o.call z = .ok az ∧ az.shape = o.rows := by
      intro z hz
      obtain ⟨az, _, q1, _, q3, _⟩ := h3 z y hz hy
      exact ⟨az, q1, q3⟩
    -- the image of `y` under the transpose of `o`
    obtain ⟨_, w, _, q2, _, q4, _⟩ := h3 (Arr.zeros o.cols) y rfl hy
    obtain ⟨az, bz, p1, p2, p3, p4, p5⟩ := ih (fun o ho => h o (List.mem_cons_of_mem _ ho)) w hx q4
    obtain ⟨ax, w', s1, s2, s3, s4, s5⟩ := h3 az y p3 hy
    rw [q2] at s2
    cases s2
    refine ⟨ax, bz, by rw [callChain, p1]; exact s1, ?_, s3, p4, s5.trans p5⟩
    rw [List.map_cons, List.reverse_cons, callChain_append, callChain, callChain]
    show (do let z ← o.transpose.call y; callChain (t.map Op.transpose).reverse z) = _
    rw [q2]
    exact p2

theorem inner_add (s : S) (a b y : Arr S I R) (r : S) :
    inner dom s ⟨r, fun i => a.val i + b.val i⟩ y = inner dom s a y + inner dom s b y := by
  simp only [inner, add_mul, Finset.sum_add_distrib]

theorem inner_add_right (s : S) (a b y : Arr S I R) (r : S) :
    inner dom s y ⟨r, fun i => a.val i + b.val i⟩ = inner dom s y a + inner dom s y b := by
  simp only [inner, mul_add, Finset.sum_add_distrib]

theorem sum_adjoint {ops : List (Op S I R)} (h : ∀ o ∈ ops, Adjoint dom o o.transpose) {r c : S}
    (hp : ∀ o ∈ ops, o.rows = r ∧ o.cols = c) (x y : Arr S I R) (hx : x.shape = c)
    (hy : y.shape = r) (acc acc' : Option (Arr S I R))
    (hacc : (acc = none ∧ acc' = none ∧ ops ≠ []) ∨ ∃ a b, acc = some a ∧ acc' = some b ∧
      a.shape = r ∧ b.shape = c ∧ inner dom r a y = inner dom c x b) :
    ∃ ax by', callSum acc ops x = .ok ax ∧ callSum acc' (ops.map Op.transpose) y = .ok by' ∧
      ax.shape = r ∧ by'.shape = c ∧ inner dom r ax y = inner dom c x by' := by
  induction ops generalizing acc acc' with
  | nil =>
    rcases hacc with ⟨_, _, h⟩ | ⟨a, b, rfl, rfl, h1, h2, h3⟩
    · exact absurd rfl h
    · exact ⟨a, b, by rw [callSum], by rw [List.map_nil, callSum], h1, h2, h3⟩
  | cons o t ih =>
    obtain ⟨er, ec⟩ := hp o List.mem_cons_self
    obtain ⟨_, _, h3⟩ := h o List.mem_cons_self
    obtain ⟨ax, bw, s1, s2, s3, s4, s5⟩ := h3 x y (hx.trans ec.symm) (hy.trans er.symm)
    rw [er] at s3 s5
    rw [ec] at s4 s5
    have ih' := fun acc acc' => ih (fun o ho => h o (List.mem_cons_of_mem _ ho))
      (fun o ho => hp o (List.mem_cons_of_mem _ ho)) acc acc'
    rw [List.map_cons, callSum, callSum, s1, s2]
    rcases hacc with ⟨rfl, rfl, _⟩ | ⟨a, b, rfl, rfl, h1, h2, h3⟩
    · exact ih' (some ax) (some bw) (.inr ⟨ax, bw, rfl, rfl, s3, s4, s5⟩)
    · simp only [bind, Except.bind]
      rw [Arr.add, if_pos (h1.trans s3.symm), Arr.add, if_pos (h2.trans s4.symm)]
      refine ih' _ _ (.inr ⟨_, _, rfl, rfl, h1, h2, ?_⟩)
      rw [inner_add, inner_add_right, h3, s5]

/-- C33: for every operator built from elementary operators whose two functions are adjoint, the
transpose has the exchanged shapes and is the adjoint: `<A x, y> = <x, A.T y>` -/
theorem C33_adjoint (op : Op S I R) (h : Constructed op) (hl : Leaves (AdjointLeaf dom) op)
    (x y : Arr S I R) (hx : x.shape = op.cols) (hy : y.shape = op.rows) :
    ∃ ax aty, op.call x = .ok ax ∧ op.transpose.call y = .ok aty ∧
      ax.shape = op.rows ∧ aty.shape = op.cols ∧
      inner dom op.rows ax y = inner dom op.cols x aty := by
  have main : Leaves (AdjointLeaf dom) op → Adjoint dom op op.transpose := by
    refine constructed_induction (P := fun op => Leaves (AdjointLeaf dom) op →
      Adjoint dom op op.transpose) ?_ ?_ ?_ ?_ ?_ ?_ h
    · intro tag l f r c hl
      obtain ⟨h1, h2, h3, h4⟩ : AdjointLeaf dom (.fn tag l f r c) := by
        cases hl with | fn h => exact h
      cases tag with
      | symmetric =>
        obtain ⟨rfl, rfl⟩ := h1 rfl
        refine ⟨rfl, rfl, fun x y hx hy => ⟨l x, l y, call_fn hx (h2 x hx), ?_, h2 x hx, h3 y hy,
          h4 x y hx hy⟩⟩
        rw [Op.transpose]; exact call_fn hy (h2 y hy)
      | _ =>
        refine ⟨by simp [Op.transpose, Op.rows, Op.cols], by simp [Op.transpose, Op.rows, Op.cols],
          fun x y hx hy => ⟨f x, l y, call_fn hx (h2 x hx), ?_, h2 x hx, h3 y hy, h4 x y hx hy⟩⟩
        rw [Op.transpose]; exact call_fn hy (h3 y hy)
    · intro b d s _
      refine ⟨by rw [Op.transpose]; rfl, by rw [Op.transpose]; rfl, fun x y hx hy =>
        ⟨_, ⟨y.shape, fun i => y.val i * d i⟩, call_diagonal hx,
          by rw [Op.transpose]; exact call_diagonal hy, hx, hy, ?_⟩⟩
      simp only [inner]
      refine Finset.sum_congr rfl fun i _ => ?_
      ring
    · intro s _
      exact ⟨by rw [Op.transpose]; rfl, by rw [Op.transpose]; rfl, fun x y hx hy =>
        ⟨x, y, call_identity hx, by rw [Op.transpose]; exact call_identity hy, hx, hy, rfl⟩⟩
    · intro r c _
      refine ⟨by rw [Op.transpose]; rfl, by rw [Op.transpose]; rfl, fun x y hx hy =>
        ⟨_, _, call_zero hx, by rw [Op.transpose]; exact call_zero hy, rfl, rfl, ?_⟩⟩
      simp [inner, Arr.zeros]
    · intro ops r c hne hp _ ih hl
      have hl' := leaves_composed.mp hl
      refine ⟨by rw [transpose_composed]; rfl, by rw [transpose_composed]; rfl,
        fun x y hx hy => ?_⟩
      obtain ⟨ax, bw, s1, s2, s3, s4, s5⟩ :=
        chain_adjoint (fun o ho => ih o ho (hl' o ho)) hp x y hx hy
      refine ⟨ax, bw, ?_, ?_, s3, s4, s5⟩
      · rw [Op.call, if_pos (show x.shape = c from hx), s1]
        simp [bind, Except.bind, s3]
      · rw [transpose_composed, Op.call, if_pos (show y.shape = r from hy), s2]
        simp [bind, Except.bind, s4]
    · intro ops r c hne hp _ ih hl
      have hl' := leaves_combined.mp hl
      refine ⟨by rw [transpose_combined]; rfl, by rw [transpose_combined]; rfl,
        fun x y hx hy => ?_⟩
      obtain ⟨ax, bw, s1, s2, s3, s4, s5⟩ :=
        sum_adjoint (fun o ho => ih o ho (hl' o ho)) hp x y hx hy none none (.inl ⟨rfl, rfl, hne⟩)
      refine ⟨ax, bw, ?_, ?_, s3, s4, s5⟩
      · rw [Op.call, if_pos (show x.shape = c from hx), s1]
        simp [bind, Except.bind, s3]
      · rw [transpose_combined, Op.call, if_pos (show y.shape = r from hy), s2]
        simp [bind, Except.bind, s4]
  obtain ⟨_, _, h3⟩ := main hl
  exact h3 x y hx hy


/-! ### expressions -/

theorem transpose_kind (op : Op S I R) :
    op.transpose.isComposed = op.isComposed ∧ op.transpose.isCombined = op.isCombined ∧
    op.transpose.isZeroOp = op.isZeroOp ∧ op.transpose.isIdentity = op.isIdentity ∧
    op.transpose.isDerivative = op.isDualDerivative ∧
    op.transpose.isDualDerivative = op.isDerivative ∧
    ((∃ h d s, op.transpose = .diagonal h d s) ↔ ∃ h d s, op = .diagonal h d s) := by
  cases op with
  | fn tag l f r c => cases tag <;> simp [Op.transpose, Op.isComposed, Op.isCombined, Op.isZeroOp,
      Op.isIdentity, Op.isDerivative, Op.isDualDerivative]
  | _ => simp [Op.transpose, Op.isComposed, Op.isCombined, Op.isZeroOp,
      Op.isIdentity, Op.isDerivative, Op.isDualDerivative]

theorem deep_transpose {op : Op S I R} (h : DeepNormal op) : DeepNormal op.transpose := by
  induction h with
  | @leaf op h1 h2 =>
    obtain ⟨e1, e2, _⟩ := transpose_kind op
    exact .leaf (by rw [e1]; exact h1) (by rw [e2]; exact h2)
  | @composed ops r c h hd ih =>
    rw [transpose_composed]
    refine .composed ?_ ?_
    · obtain ⟨h1, h2, h3, h4, h5⟩ := h
      refine ⟨by simpa using h1, ?_, ?_, ?_, ?_⟩
      · intro o ho
        obtain ⟨u, hu, rfl⟩ := List.mem_map.mp (List.mem_reverse.mp ho)
        rw [(transpose_kind u).2.2.1]; exact h2 u hu
      · intro o ho
        obtain ⟨u, hu, rfl⟩ := List.mem_map.mp (List.mem_reverse.mp ho)
        rw [(transpose_kind u).2.2.2.1]; exact h3 u hu
      · intro o ho
        obtain ⟨u, hu, rfl⟩ := List.mem_map.mp (List.mem_reverse.mp ho)
        rw [(transpose_kind u).1]; exact h4 u hu
      · intro l a b t heq
        have heq' : ops = (t.map Op.transpose).reverse ++ b.transpose :: a.transpose ::
            (l.map Op.transpose).reverse := by
          have := congrArg (fun x => (x.map Op.transpose).reverse) heq
          simp only [List.map_reverse, List.reverse_reverse, List.map_map] at this
          have e : List.map (Op.transpose ∘ Op.transpose) ops = ops := by
            conv_rhs => rw [← List.map_id ops]
            exact List.map_congr_left fun o _ => C33_involution o
          rw [e] at this
          rw [this]
          simp
        obtain ⟨q1, q2, q3⟩ := h5 _ _ _ _ heq'
        obtain ⟨_, _, _, _, a5, a6, a7⟩ := transpose_kind a
        obtain ⟨_, _, _, _, b5, b6, b7⟩ := transpose_kind b
        rw [a5, b5] at q1
        rw [a6, b6] at q2
        rw [a7, b7] at q3
        exact ⟨fun ⟨x, y⟩ => q2 ⟨y, x⟩, fun ⟨x, y⟩ => q1 ⟨y, x⟩, fun ⟨x, y⟩ => q3 ⟨y, x⟩⟩
    · intro o ho
      obtain ⟨u, hu, rfl⟩ := List.mem_map.mp (List.mem_reverse.mp ho)
      exact ih u hu
  | @combined ops r c h hd ih =>
    rw [transpose_combined]
    refine .combined ?_ ?_
    · obtain ⟨h1, h2, h3⟩ := h
      refine ⟨by simpa using h1, ?_, ?_⟩
      · intro o ho
        obtain ⟨u, hu, rfl⟩ := List.mem_map.mp ho
        rw [(transpose_kind u).2.2.1]; exact h2 u hu
      · intro o ho
        obtain ⟨u, hu, rfl⟩ := List.mem_map.mp ho
        rw [(transpose_kind u).2.1]; exact h3 u hu
    · intro o ho
      obtain ⟨u, hu, rfl⟩ := List.mem_map.mp ho
      exact ih u hu

theorem transpose_rows {op : Op S I R} (h : SquareLeaf op) :
    op.transpose.rows = op.cols ∧ op.transpose.cols = op.rows := by
  cases op with
  | fn tag l f r c =>
    cases tag with
    | symmetric =>
      have : r = c := h
      simp [Op.transpose, Op.rows, Op.cols, this]
    | _ => simp [Op.transpose, Op.rows, Op.cols]
  | _ => simp [Op.transpose, Op.rows, Op.cols]

theorem path_transpose {ops : List (Op S I R)} {r c : S} (hp : Path r c ops)
    (h : ∀ o ∈ ops, o.transpose.rows = o.cols ∧ o.transpose.cols = o.rows) :
    Path c r (ops.map Op.transpose).reverse := by
  induction hp with
  | nil => exact .nil _
  | @cons r c o t e ht ih =>
    subst e
    rw [List.map_cons, List.reverse_cons]
    refine path_append (ih fun o ho => h o (List.mem_cons_of_mem _ ho)) ?_
    obtain ⟨h1, h2⟩ := h o List.mem_cons_self
    exact .cons h1 (by rw [h2]; exact .nil _)

theorem constructed_transpose {op : Op S I R} (h : Constructed op) (hs : Leaves SquareLeaf op) :
    Constructed op.transpose ∧ Leaves SquareLeaf op.transpose := by
  refine constructed_induction (P := fun op => Leaves SquareLeaf op →
    Constructed op.transpose ∧ Leaves SquareLeaf op.transpose) ?_ ?_ ?_ ?_ ?_ ?_ h hs
  · intro tag l f r c hs
    cases tag with
    | symmetric => exact ⟨by rw [Op.transpose]; exact .fn _ _ _ _ _, by rw [Op.transpose]; exact hs⟩
    | _ => exact ⟨by rw [Op.transpose]; exact .fn _ _ _ _ _,
        by rw [Op.transpose]; exact .fn trivial⟩
  · intro b d s hs
    exact ⟨by rw [Op.transpose]; exact .diagonal _ _ _, by rw [Op.transpose]; exact hs⟩
  · intro s hs
    exact ⟨by rw [Op.transpose]; exact .identity _, by rw [Op.transpose]; exact hs⟩
  · intro r c hs
    exact ⟨by rw [Op.transpose]; exact .zero _ _, by rw [Op.transpose]; exact .zero⟩
  · intro ops r c hne hp _ ih hs
    have hs' := leaves_composed.mp hs
    rw [transpose_composed]
    refine ⟨constructed_composed.mpr ⟨by simpa using hne,
      path_transpose hp fun o ho => transpose_rows (leaves_square (hs' o ho)), ?_⟩,
      leaves_composed.mpr ?_⟩
    · intro o ho
      obtain ⟨u, hu, rfl⟩ := List.mem_map.mp (List.mem_reverse.mp ho)
      exact (ih u hu (hs' u hu)).1
    · intro o ho
      obtain ⟨u, hu, rfl⟩ := List.mem_map.mp (List.mem_reverse.mp ho)
      exact (ih u hu (hs' u hu)).2
  · intro ops r c hne hp _ ih hs
    have hs' := leaves_combined.mp hs
    rw [transpose_combined]
    refine ⟨constructed_combined.mpr ⟨by simpa using hne, ?_, ?_⟩, leaves_combined.mpr ?_⟩
    · intro o ho
      obtain ⟨u, hu, rfl⟩ := List.mem_map.mp ho
      obtain ⟨e1, e2⟩ := transpose_rows (leaves_square (hs' u hu))
      obtain ⟨e3, e4⟩ := hp u hu
      exact ⟨e1.trans e4, e2.trans e3⟩
    · intro o ho
      obtain ⟨u, hu, rfl⟩ := List.mem_map.mp ho
      exact (ih u hu (hs' u hu)).1
    · intro o ho
      obtain ⟨u, hu, rfl⟩ := List.mem_map.mp ho
      exact (ih u hu (hs' u hu)).2

/-- C34: `simplify` terminates without an exception on every constructed operator, keeps the shapes
and returns an operator to which no rule applies: a product has at least two factors, none of them
zero, the identity or a product, and no two adjacent diagonals, derivatives or dual derivatives; a
sum has at least two terms, none of them zero or a sum. -/
theorem C34_normal_form (dom : S → Finset I) (op : Op S I R) (h : Constructed op) :
    ∃ op', op.simplify dom = .ok op' ∧ op'.rows = op.rows ∧ op'.cols = op.cols ∧ Normal op' := by
  obtain ⟨op', h1, _, h3, h4, h5, _⟩ := normal_form dom op h
  exact ⟨op', h1, h3, h4, h5⟩

/-- C34: whatever is computed from elementary operators with `*`, `+`, `transpose` and `simplify` is
simplified all the way down: no rule applies to any part of it -/
theorem C34_expressions (dom : S → Finset I) (op : Op S I R) (h : Expression dom op) :
    DeepNormal op := by
  have main : Constructed op ∧ DeepNormal op ∧ Leaves SquareLeaf op := by
    induction h with
    | @leaf op h1 h2 h3 =>
      refine ⟨constructed_leaf h1 h2, .leaf h1 h2, ?_⟩
      cases op with
      | fn tag l f r c =>
        refine .fn ?_
        cases tag with
        | symmetric => exact h3 _ _ _ _ rfl
        | _ => trivial
      | diagonal => exact .diagonal trivial
      | identity => exact .identity
      | zero => exact .zero
      | composed => exact absurd rfl h1
      | combined => exact absurd rfl h2
    | @mul a b op ha hb hm iha ihb =>
      rw [Op.mul] at hm
      cases hk : mkComposed [a, b] with
      | error e => rw [hk] at hm; cases hm
      | ok o =>
        rw [hk] at hm
        have hm : o.simplify dom = .ok op := hm
        have hab : ∀ u ∈ [a, b], u = a ∨ u = b := by simp
        have hc : Constructed o := .composed (ops := [a, b])
          (fun u hu => by rcases hab u hu with rfl | rfl; exacts [iha.1, ihb.1]) hk
        obtain ⟨op', g1, g2, _, _, _, g6, g7⟩ := normal_form dom o hc
        rw [hm] at g1
        cases g1
        obtain ⟨r, c, rfl⟩ := mkComposed_ok hk
        refine ⟨g2, g6 fun u hu => ?_, g7 (.composed fun u hu => ?_)⟩
        · rcases hab u hu with rfl | rfl; exacts [iha.2.1, ihb.2.1]
        · rcases hab u hu with rfl | rfl; exacts [iha.2.2, ihb.2.2]
    | @add a b op ha hb hm iha ihb =>
      rw [Op.add] at hm
      cases hk : mkCombined [a, b] with
      | error e => rw [hk] at hm; cases hm
      | ok o =>
        rw [hk] at hm
        have hm : o.simplify dom = .ok op := hm
        have hab : ∀ u ∈ [a, b], u = a ∨ u = b := by simp
        have hc : Constructed o := .combined (ops := [a, b])
          (fun u hu => by rcases hab u hu with rfl | rfl; exacts [iha.1, ihb.1]) hk
        obtain ⟨op', g1, g2, _, _, _, g6, g7⟩ := normal_form dom o hc
        rw [hm] at g1
        cases g1
        obtain ⟨r, c, rfl⟩ := mkCombined_ok hk
        refine ⟨g2, g6 fun u hu => ?_, g7 (.combined fun u hu => ?_)⟩
        · rcases hab u hu with rfl | rfl; exacts [iha.2.1, ihb.2.1]
        · rcases hab u hu with rfl | rfl; exacts [iha.2.2, ihb.2.2]
    | @transpose a ha iha =>
      obtain ⟨h1, h2, h3⟩ := iha
      obtain ⟨h4, h5⟩ := constructed_transpose h1 h3
      exact ⟨h4, deep_transpose h2, h5⟩
    | @simplify a op ha hm iha =>
      obtain ⟨op', g1, g2, _, _, _, g6, g7⟩ := normal_form dom a iha.1
      rw [hm] at g1
      cases g1
      exact ⟨g2, g6 (deep_parts iha.2.1), g7 iha.2.2⟩
  exact main.2.1

theorem allclose_iff {J : Finset I} {d : I → R} {b : R} :
    allclose J d b = true ↔ ∀ i ∈ J, |d i - b| ≤ 1 / 10 ^ 8 + 1 / 10 ^ 5 * |b| := by
  rw [allclose, decide_eq_true_iff]

theorem step_done {op op' : Op S I R} (h : simplifyStep dom op = .ok (.done op')) :
    simplifyStep dom op' = .ok (.done op') := by
  cases op with
  | composed ops r c =>
    by_cases h1 : ∃ a, ops = [a]
    · obtain ⟨a, rfl⟩ := h1; cases h
    · have h' := h
      rw [simplifyStep_composed dom h1] at h'
      split at h'
      · cases h'; rfl
      · split at h'
        · rename_i ops' _
          cases hk : mkComposed ops' <;> rw [hk] at h' <;> cases h'
        · split at h'
          · simp only [] at h'
            split at h'
            · cases h'; rfl
            · cases hk : mkComposed (ops.filter fun o => !o.isIdentity) <;> rw [hk] at h' <;> cases h'
          · split at h'
            · rename_i ops' _
              cases hk : mkComposed ops' <;> rw [hk] at h' <;> cases h'
            · cases h'; exact h
  | combined ops r c =>
    by_cases h1 : ∃ a, ops = [a]
    · obtain ⟨a, rfl⟩ := h1; cases h
    · have h' := h
      rw [simplifyStep_combined dom h1] at h'
      split at h'
      · simp only [] at h'
        split at h'
        · cases h'; rfl
        · cases hk : mkCombined (ops.filter fun o => !o.isZeroOp) <;> rw [hk] at h' <;> cases h'
      · split at h'
        · rename_i ops' _
          cases hk : mkCombined ops' <;> rw [hk] at h' <;> cases h'
        · cases h'; exact h
  | diagonal b d s =>
    have h' : simplifyDiagonal dom b d s = op' := by cases h; rfl
    subst h'
    unfold simplifyDiagonal
    split
    · rfl
    · split
      · rfl
      · rename_i h1 h2
        show Except.ok (SimplifyStep.done (simplifyDiagonal dom b d s)) = _
        rw [simplifyDiagonal, if_neg h1, if_neg h2]
  | fn => cases h; rfl
  | identity => cases h; rfl
  | zero => cases h; rfl

/-- C34: simplifying a second time changes nothing -/
theorem C34_idempotent (dom : S → Finset I) (op op' : Op S I R) (h : op.simplify dom = .ok op') :
    op'.simplify dom = .ok op' := by
  have main : ∀ (n : Nat) (op : Op S I R), op.nodes ≤ n → op.simplify dom = .ok op' →
      op'.simplify dom = .ok op' := by
    intro n
    induction n with
    | zero => intro op hn; exact absurd hn (by have := nodes_pos op; omega)
    | succ n ih =>
      intro op hn h
      cases hs : simplifyStep dom op with
      | error e =>
        rw [Op.simplify] at h
        split at h
        · cases h
        · rename_i hh; rw [hs] at hh; cases hh
        · rename_i hh; rw [hs] at hh; cases hh
      | ok st =>
        cases st with
        | done o =>
          rw [simplify_done hs] at h
          cases h
          exact simplify_done (step_done hs)
        | again o =>
          have := simplifyStep_nodes dom hs
          exact ih o (by omega) (by rw [← simplify_again hs]; exact h)
  exact main op.nodes op le_rfl h

end

/-! ### concrete operators -/

section

/-- arrays of one entry -/
abbrev oneDom : Unit → Finset Unit := fun _ => Finset.univ

/-- the `hodge[0]` of a two-dimensional stencil complex with scale `1/100` -/
def tinyHodge : Op Unit Unit ℚ := .diagonal true (fun _ => 1 / 10 ^ 4) ()

/-- C32 fails for small diagonals: the product of two Hodge operators with entries `10⁻⁴` is
simplified to the zero operator, since `np.allclose` accepts `10⁻⁸` as zero; but the product maps
the array of ones to `10⁻⁸`. -/
theorem C32_tolerance :
    tinyHodge.mul oneDom tinyHodge = .ok (.zero () ()) ∧
    (∃ y, (Op.composed [tinyHodge, tinyHodge] () ()).call ⟨(), fun _ => 1⟩ = .ok y ∧
      y.val () = 1 / 10 ^ 8) ∧
    ∃ y, (Op.zero () () : Op Unit Unit ℚ).call ⟨(), fun _ => 1⟩ = .ok y ∧ y.val () = 0 := by
  refine ⟨?_, ⟨_, rfl, ?_⟩, _, rfl, rfl⟩
  · rw [Op.mul]
    show Op.simplify oneDom (.composed [tinyHodge, tinyHodge] () ()) = _
    have e : simplifyDiagonal oneDom false (fun _ => (1 / 10 ^ 4 * (1 / 10 ^ 4) : ℚ)) () =
        .zero () () := by
      rw [simplifyDiagonal, if_pos]
      refine allclose_iff.mpr fun i _ => ?_
      rw [sub_zero, abs_of_nonneg (by norm_num), abs_zero]
      norm_num
    have h1 : simplifyStep oneDom (.composed [tinyHodge, tinyHodge] () ()) =
        .ok (.again (.composed [.zero () ()] () ())) := by
      show (do let op ← mkComposed [simplifyDiagonal oneDom false
          (fun _ => (1 / 10 ^ 4 * (1 / 10 ^ 4) : ℚ)) ()]
               (.ok (.again op) : Except PyErr (SimplifyStep Unit Unit ℚ))) = _
      rw [e]
      rfl
    rw [simplify_again h1, simplify_again (op' := .zero () ()) rfl, simplify_done (op' := .zero () ())
      rfl]
  · show (1 * (1 / 10 ^ 4) * (1 / 10 ^ 4) : ℚ) = _
    norm_num

/-- arrays over a periodic line of three points; the shapes of functions and of edge quantities are
the same -/
abbrev lineDom : Unit → Finset (Fin 3) := fun _ => Finset.univ

/-- the derivative of a one-dimensional stencil topology -/
def lineDerivative : Op Unit (Fin 3) ℚ :=
  .fn .derivative (fun x => ⟨(), fun i => x.val (i - 1) - x.val i⟩)
    (fun x => ⟨(), fun i => x.val (i + 1) - x.val i⟩) () ()

/-- C32 fails for derivatives that can be composed only because their shapes happen to agree: in one
dimension the shapes of 0-forms and 1-forms are equal, the derivative can be multiplied with itself
and is simplified to zero, but its square is the second difference. -/
theorem C32_shape_coincidence :
    lineDerivative.mul lineDom lineDerivative = .ok (.zero () ()) ∧
    (∃ y, (Op.composed [lineDerivative, lineDerivative] () ()).call
      ⟨(), fun i => if i = 0 then 1 else 0⟩ = .ok y ∧ y.val 0 = 1 ∧ y.val 2 = -2) ∧
    ∀ x, ∃ y, (Op.zero () () : Op Unit (Fin 3) ℚ).call x = .ok y ∧ ∀ i, y.val i = 0 := by
  refine ⟨?_, ⟨_, rfl, ?_, ?_⟩, fun x => ⟨_, rfl, fun _ => rfl⟩⟩
  · rw [Op.mul]
    show Op.simplify lineDom (.composed [lineDerivative, lineDerivative] () ()) = _
    exact simplify_done rfl
  · show (((if (0 : Fin 3) + 1 + 1 = 0 then 1 else 0) - (if (0 : Fin 3) + 1 = 0 then 1 else 0)) -
      ((if (0 : Fin 3) + 1 = 0 then 1 else 0) - (if (0 : Fin 3) = 0 then 1 else 0)) : ℚ) = 1
    decide +kernel
  · show (((if (2 : Fin 3) + 1 + 1 = 0 then 1 else 0) - (if (2 : Fin 3) + 1 = 0 then 1 else 0)) -
      ((if (2 : Fin 3) + 1 = 0 then 1 else 0) - (if (2 : Fin 3) = 0 then 1 else 0)) : ℚ) = -2
    decide +kernel

/-- the leaves of the examples: a shift on the line and diagonals with integer entries -/
def ExampleLeaf : Op Unit (Fin 3) ℚ → Prop
  | .fn .plain l f _ _ => f = (fun x => ⟨(), fun i => x.val (i + 1)⟩) ∧
      l = (fun x => ⟨(), fun i => x.val (i - 1)⟩)
  | .fn _ _ _ _ _ => False
  | .diagonal _ d _ => ∀ i, ∃ k : ℤ, d i = k
  | _ => True

/-- a shift along the periodic line -/
def lineShift : Op Unit (Fin 3) ℚ :=
  .fn .plain (fun x => ⟨(), fun i => x.val (i - 1)⟩) (fun x => ⟨(), fun i => x.val (i + 1)⟩) () ()

/-- a diagonal operator with entries 1, 2, 3 -/
def lineDiagonal : Op Unit (Fin 3) ℚ := .diagonal false (fun i => (i.val : ℚ) + 1) ()

/-- `shift * (diagonal * identity * diagonal)` as one nested product -/
def lineExpression : Op Unit (Fin 3) ℚ :=
  .composed [lineShift, .composed [lineDiagonal, .identity (), lineDiagonal] () ()] () ()

theorem lineExpression_constructed : Constructed lineExpression := by
  refine .composed (ops := [lineShift, .composed [lineDiagonal, .identity (), lineDiagonal] () ()])
    ?_ rfl
  intro o ho
  have : o = lineShift ∨ o = .composed [lineDiagonal, .identity (), lineDiagonal] () () := by
    simpa using ho
  rcases this with rfl | rfl
  · exact .fn _ _ _ _ _
  · refine .composed (ops := [lineDiagonal, .identity (), lineDiagonal]) ?_ rfl
    intro o ho
    have : o = lineDiagonal ∨ o = .identity () ∨ o = lineDiagonal := by simpa using ho
    rcases this with rfl | rfl | rfl
    · exact .diagonal _ _ _
    · exact .identity _
    · exact .diagonal _ _ _

theorem exampleLeaf_exact : ExactLeaves lineDom ExampleLeaf fun q => ∃ k : ℤ, q = k := by
  refine ⟨⟨?_, ?_, ?_, ?_⟩, ?_, ?_, ?_, ?_⟩
  · intro tag l f r c h x _ _
    cases tag with
    | plain => obtain ⟨rfl, rfl⟩ := h; exact ⟨rfl, fun i hi => absurd (Finset.mem_univ i) hi⟩
    | _ => exact h.elim
  · intro tag l f r c h
    cases tag with
    | plain => obtain ⟨rfl, rfl⟩ := h; rfl
    | _ => exact h.elim
  · intro l l' f g a b c h; exact h.elim
  · intro l l' f g a b c h; exact h.elim
  · intro h d s hd; exact hd
  · rintro _ _ ⟨a, rfl⟩ ⟨b, rfl⟩; exact ⟨a * b, by push_cast; rfl⟩
  · rintro _ ⟨k, rfl⟩ h
    by_contra hk
    have hk' : k ≠ 0 := fun h => hk (by rw [h]; rfl)
    have : (1 : ℚ) ≤ |(k : ℚ)| := by exact_mod_cast Int.one_le_abs hk'
    have h8 : (1 / 10 ^ 8 : ℚ) < 1 := by norm_num
    linarith
  · rintro _ ⟨k, rfl⟩ h
    by_contra hk
    have hk' : k - 1 ≠ 0 := fun h => hk (by rw [show k = 1 by omega]; rfl)
    have : (1 : ℚ) ≤ |((k - 1 : ℤ) : ℚ)| := by exact_mod_cast Int.one_le_abs hk'
    push_cast at this
    have h8 : (1 / 10 ^ 8 + 1 / 10 ^ 5 : ℚ) < 1 := by norm_num
    linarith

theorem lineExpression_leaves : Leaves ExampleLeaf lineExpression := by
  refine .composed fun o ho => ?_
  have : o = lineShift ∨ o = .composed [lineDiagonal, .identity (), lineDiagonal] () () := by
    simpa using ho
  rcases this with rfl | rfl
  · exact .fn ⟨rfl, rfl⟩
  · refine .composed fun o ho => ?_
    have : o = lineDiagonal ∨ o = .identity () ∨ o = lineDiagonal := by simpa using ho
    rcases this with rfl | rfl | rfl
    · exact .diagonal fun i => ⟨(i.val : ℤ) + 1, by push_cast; rfl⟩
    · exact .identity
    · exact .diagonal fun i => ⟨(i.val : ℤ) + 1, by push_cast; rfl⟩

/-- a product that is flattened, loses an identity and has two diagonals merged; it maps `(1, 1, 1)`
to `(4, 9, 1)` -/
example : (∃ op', lineExpression.simplify lineDom = .ok op' ∧ op' ≠ lineExpression ∧
      op'.call ⟨(), fun _ => 1⟩ = lineExpression.call ⟨(), fun _ => 1⟩) ∧
    (∃ y, lineExpression.call ⟨(), fun _ => 1⟩ = .ok y ∧ y.val 0 = 4 ∧ y.val 1 = 9 ∧ y.val 2 = 1) := by
  refine ⟨?_, _, rfl, ?_⟩
  · obtain ⟨op', h1, h2⟩ := C32_simplify_exact exampleLeaf_exact lineExpression
      lineExpression_constructed lineExpression_leaves
    obtain ⟨op'', g1, _, _, g4⟩ := C34_normal_form lineDom lineExpression lineExpression_constructed
    rw [h1] at g1
    cases g1
    refine ⟨op', h1, ?_, h2.2.2.2 _ fun i hi => absurd (Finset.mem_univ i) hi⟩
    rintro rfl
    exact g4.2.2.2.1 (.composed [lineDiagonal, .identity (), lineDiagonal] () ()) (by simp) rfl
  · refine ⟨?_, ?_, ?_⟩
    · show ((1 : ℚ) * (((0 + 1 : Fin 3).val : ℚ) + 1)) * (((0 + 1 : Fin 3).val : ℚ) + 1) = 4
      decide +kernel
    · show ((1 : ℚ) * (((1 + 1 : Fin 3).val : ℚ) + 1)) * (((1 + 1 : Fin 3).val : ℚ) + 1) = 9
      decide +kernel
    · show ((1 : ℚ) * (((2 + 1 : Fin 3).val : ℚ) + 1)) * (((2 + 1 : Fin 3).val : ℚ) + 1) = 1
      decide +kernel

/-- the leaves of the expression are adjoint pairs -/
theorem lineExpression_adjoint : Leaves (AdjointLeaf lineDom) lineExpression := by
  refine .composed fun o ho => ?_
  have : o = lineShift ∨ o = .composed [lineDiagonal, .identity (), lineDiagonal] () () := by
    simpa using ho
  rcases this with rfl | rfl
  · refine .fn ⟨nofun, fun _ _ => rfl, fun _ _ => rfl, fun x y _ _ => ?_⟩
    simp only [inner, Fin.sum_univ_three]
    show x.val (0 + 1) * y.val 0 + x.val (1 + 1) * y.val 1 + x.val (2 + 1) * y.val 2 =
      x.val 0 * y.val (0 - 1) + x.val 1 * y.val (1 - 1) + x.val 2 * y.val (2 - 1)
    show x.val 1 * y.val 0 + x.val 2 * y.val 1 + x.val 0 * y.val 2 =
      x.val 0 * y.val 2 + x.val 1 * y.val 0 + x.val 2 * y.val 1
    ring
  · refine .composed fun o ho => ?_
    have : o = lineDiagonal ∨ o = .identity () ∨ o = lineDiagonal := by simpa using ho
    rcases this with rfl | rfl | rfl
    · exact .diagonal trivial
    · exact .identity
    · exact .diagonal trivial

/-- the transpose applied to `(1, 0, 0)`: the row of the matrix -/
example : (∃ y, lineExpression.transpose.call ⟨(), fun i => if i = 0 then 1 else 0⟩ = .ok y ∧
      y.val 0 = 0 ∧ y.val 1 = 4 ∧ y.val 2 = 0) ∧
    (∃ y, lineExpression.call ⟨(), fun i => if i = 0 then 1 else 0⟩ = .ok y ∧
      y.val 0 = 0 ∧ y.val 1 = 0 ∧ y.val 2 = 1) := by
  refine ⟨⟨_, rfl, ?_, ?_, ?_⟩, ⟨_, rfl, ?_, ?_, ?_⟩⟩ <;> decide +kernel

end

end Verif.Props
