/-
The triangles and vertices made by `clip`.
-/
import Verif.Model.Clip
import Verif.Lemmas.Loop
import Verif.Props.Triangles

set_option linter.unusedSectionVars false

namespace Verif

open Verif.Model Verif.Spec Verif.Props

/-! ### masks -/

theorem maskOf_map {α β : Type} (f : α → β) (p : α → Bool) (L : List α) :
    maskOf (L.map f) (L.map p) = (L.filter p).map f := by
  induction L with
  | nil => rfl
  | cons a L ih =>
    simp only [maskOf, List.map_cons, List.zip_cons_cons, List.filter_cons] at ih ⊢
    cases p a <;> simp [ih]

theorem maskOf_self {α : Type} (p : α → Bool) (L : List α) :
    maskOf L (L.map p) = L.filter p := by
  have := maskOf_map id p L
  simpa using this

theorem maskOf_nil {α : Type} (m : List Bool) : maskOf ([] : List α) m = [] := by simp [maskOf]

/-- the place of a chosen entry among the chosen ones -/
theorem maskOf_get {α : Type} : ∀ (L : List α) (m : List Bool) (e : Nat), L.length = m.length →
    m[e]? = some true →
    0 < (m.take (e + 1)).count true ∧
      (maskOf L m)[(m.take (e + 1)).count true - 1]? = L[e]?
  | [], m, e, h, hm => by
    obtain rfl := List.eq_nil_of_length_eq_zero h.symm
    simp at hm
  | a :: L, [], e, h, hm => by simp at hm
  | a :: L, b :: m, 0, h, hm => by
    simp at hm
    subst hm
    simp [maskOf]
  | a :: L, b :: m, e + 1, h, hm => by
    have ⟨h1, h2⟩ := maskOf_get L m e (by simpa using h) (by simpa using hm)
    have hc : maskOf (a :: L) (b :: m) = (if b then [a] else []) ++ maskOf L m := by
      cases b <;> simp [maskOf]
    rw [hc, List.take_succ_cons, List.count_cons, List.getElem?_cons_succ, ← h2]
    refine ⟨by omega, ?_⟩
    cases b
    · simp
    · simp only [beq_self_eq_true, if_true, List.singleton_append]
      rw [show List.count true (List.take (e + 1) m) + 1 - 1 =
        List.count true (List.take (e + 1) m) - 1 + 1 by omega, List.getElem?_cons_succ]

theorem take_count_le (m : List Bool) {e e' : Nat} (h : e ≤ e') :
    (m.take e).count true ≤ (m.take e').count true := by
  have : m.take e = (m.take e').take e := by rw [List.take_take, Nat.min_eq_left h]
  rw [this]
  exact (List.take_sublist _ _).count_le _

theorem take_count_succ (m : List Bool) {e : Nat} (h : m[e]? = some true) :
    (m.take (e + 1)).count true = (m.take e).count true + 1 := by
  rw [List.take_add_one, h]
  simp [List.count_append]

/-- chosen entries have different places -/
theorem take_count_inj (m : List Bool) {e e' : Nat} (h : m[e]? = some true) (h' : m[e']? = some true)
    (heq : (m.take (e + 1)).count true = (m.take (e' + 1)).count true) : e = e' := by
  have h1 := take_count_succ m h
  have h2 := take_count_succ m h'
  rcases Nat.lt_trichotomy e e' with hlt | rfl | hlt
  · have := take_count_le m (show e + 1 ≤ e' by omega)
    omega
  · rfl
  · have := take_count_le m (show e' + 1 ≤ e by omega)
    omega

/-- every place is taken by a chosen entry -/
theorem take_count_surj (m : List Bool) : ∀ r, r < m.count true →
    ∃ e, m[e]? = some true ∧ (m.take (e + 1)).count true = r + 1 := by
  induction m with
  | nil => intro r hr; simp at hr
  | cons b m ih =>
    intro r hr
    cases b
    · obtain ⟨e, h1, h2⟩ := ih r (by simpa using hr)
      exact ⟨e + 1, by simpa using h1, by simpa using h2⟩
    · rcases r with _ | r
      · exact ⟨0, rfl, by simp⟩
      · obtain ⟨e, h1, h2⟩ := ih r (by simpa using hr)
        exact ⟨e + 1, by simpa using h1, by simpa using h2⟩

theorem maskOf_length {α : Type} : ∀ (L : List α) (m : List Bool), L.length = m.length →
    (maskOf L m).length = m.count true
  | [], [], _ => rfl
  | a :: L, b :: m, h => by
    have := maskOf_length L m (by simpa using h)
    cases b <;> simp [maskOf] at this ⊢ <;> exact this
  | [], _ :: _, h => by simp at h
  | _ :: _, [], h => by simp at h

/-! ### boundary rows -/

/-- the numbers of the edges opposite to the corners of a triangle -/
def oppositeEdges (t : Topo) (l : List Nat) : List Nat :=
  let E := t.elements[1]?.getD []
  [elIdx E [l[1]?.getD 0, l[2]?.getD 0], elIdx E [l[0]?.getD 0, l[2]?.getD 0],
    elIdx E [l[0]?.getD 0, l[1]?.getD 0]]

theorem WF.boundary_rows {top : List (List Nat)} {t : Topo} (wf : WF 2 top t) (hs : Simplices 3 top) :
    t.boundary[1]?.getD [] = top.map (oppositeEdges t) := by
  obtain ⟨h1, h2, h3, h4, h5⟩ := wf.get (k := 1) (by omega)
  rw [wf.top_eq, Option.getD_some] at h5
  apply List.ext_getElem?
  intro j
  rw [List.getElem?_map]
  cases hj : top[j]? with
  | none =>
    have := h5.1
    simp only [Option.map_none, List.getElem?_eq_none_iff] at hj ⊢
    omega
  | some l =>
    obtain ⟨b, o, hb, ho, hbl, hol, hslot⟩ := h5.2.2 j l hj
    rw [hb]
    simp only [Option.map_some]
    congr 1
    obtain ⟨x, y, z, rfl⟩ := length_three (hs l (List.mem_of_getElem? hj)).1
    obtain ⟨e0, e1, e2, rfl⟩ := length_three hbl
    obtain ⟨i0, s0, r0, q0, -, g0, p0, -⟩ := hslot 0 (by omega)
    obtain ⟨i1, s1, r1, q1, -, g1, p1, -⟩ := hslot 1 (by omega)
    obtain ⟨i2, s2, r2, q2, -, g2, p2, -⟩ := hslot 2 (by omega)
    simp [oppositeCorner] at q0 q1 q2 p0 p1 p2
    subst q0 q1 q2
    simp [oppositeEdges, ← elIdx_unique h3 g0 p0, ← elIdx_unique h3 g1 p1, ← elIdx_unique h3 g2 p2]

/-! ### the split mesh -/

section

variable {P : Nat → Bool} {t : Topo}

/-- the edges with ends on different sides -/
def cutEdges (t : Topo) (P : Nat → Bool) : List Bool :=
  (t.elements[1]?.getD []).map fun e => edgeCut (e.map P)

/-- number of the vertex inserted on an edge -/
def cutMid (t : Topo) (P : Nat → Bool) (x y : Nat) : Nat :=
  edgeLookup (cutEdges t P) (t.nElements 0) (elIdx (t.elements[1]?.getD []) [x, y])

theorem cutMid_comm (t : Topo) (P : Nat → Bool) (x y : Nat) : cutMid t P x y = cutMid t P y x := by
  unfold cutMid; rw [elIdx_perm _ (List.Perm.swap y x [])]

/-- the triangles that replace a triangle with tip `x` -/
def tipKids (t : Topo) (P : Nat → Bool) (x y z : Nat) : List (List Nat) :=
  [[x, cutMid t P x y, cutMid t P z x], [y, cutMid t P z x, cutMid t P x y], [z, cutMid t P z x, y]]

/-- the triangles that replace a triangle -/
def cutKids (t : Topo) (P : Nat → Bool) (l : List Nat) : List (List Nat) :=
  if triCut (l.map P) then
    cutTriangle (cutEdges t P) (t.nElements 0) l (oppositeEdges t l) (l.map P)
  else [l]

/-- a cut triangle has exactly one corner, the tip, on one of the sides -/
theorem cutKids_cases (t : Topo) (P : Nat → Bool) {l : List Nat} (hl : l.length = 3) :
    (triCut (l.map P) = false ∧ cutKids t P l = [l] ∧ ∀ v ∈ l, ∀ w ∈ l, P v = P w) ∨
    (triCut (l.map P) = true ∧ ∃ x y z, (l = [x, y, z] ∨ l = [z, x, y] ∨ l = [y, z, x]) ∧
      P x ≠ P y ∧ P z = P y ∧ cutKids t P l = tipKids t P x y z) := by
  obtain ⟨a, b, c, rfl⟩ := length_three hl
  have key : ∀ p q, cutMid t P p q =
      edgeLookup (cutEdges t P) (t.nElements 0) (elIdx (t.elements[1]?.getD []) [p, q]) := fun _ _ => rfl
  cases ha : P a <;> cases hb : P b <;> cases hc : P c
  · left; simp [cutKids, triCut, ha, hb, hc]
  · right
    refine ⟨by simp [triCut, ha, hb, hc], c, a, b, by simp, by simp [*], by simp [*], ?_⟩
    simp [cutKids, triCut, ha, hb, hc, cutTriangle, tipOf, oppositeEdges, tipKids, ← key,
      cutMid_comm t P c a]
  · right
    refine ⟨by simp [triCut, ha, hb, hc], b, c, a, by simp, by simp [*], by simp [*], ?_⟩
    simp [cutKids, triCut, ha, hb, hc, cutTriangle, tipOf, oppositeEdges, tipKids, ← key]
  · right
    refine ⟨by simp [triCut, ha, hb, hc], a, b, c, by simp, by simp [*], by simp [*], ?_⟩
    simp [cutKids, triCut, ha, hb, hc, cutTriangle, tipOf, oppositeEdges, tipKids, ← key,
      cutMid_comm t P c a]
  · right
    refine ⟨by simp [triCut, ha, hb, hc], a, b, c, by simp, by simp [*], by simp [*], ?_⟩
    simp [cutKids, triCut, ha, hb, hc, cutTriangle, tipOf, oppositeEdges, tipKids, ← key,
      cutMid_comm t P c a]
  · right
    refine ⟨by simp [triCut, ha, hb, hc], b, c, a, by simp, by simp [*], by simp [*], ?_⟩
    simp [cutKids, triCut, ha, hb, hc, cutTriangle, tipOf, oppositeEdges, tipKids, ← key]
  · right
    refine ⟨by simp [triCut, ha, hb, hc], c, a, b, by simp, by simp [*], by simp [*], ?_⟩
    simp [cutKids, triCut, ha, hb, hc, cutTriangle, tipOf, oppositeEdges, tipKids, ← key,
      cutMid_comm t P c a]
  · left; simp [cutKids, triCut, ha, hb, hc]

/-- the triangles of the split mesh, those that are not cut first -/
def cutRows (t : Topo) (P : Nat → Bool) (top : List (List Nat)) : List (List Nat) :=
  top.filter (fun l => !triCut (l.map P)) ++
    ((top.filter fun l => triCut (l.map P)).map (cutKids t P)).flatten

theorem cutRows_perm (t : Topo) (P : Nat → Bool) (top : List (List Nat)) :
    (cutRows t P top).Perm (top.flatMap (cutKids t P)) := by
  induction top with
  | nil => exact List.Perm.nil
  | cons l top ih =>
    unfold cutRows at ih ⊢
    rw [List.flatMap_cons]
    by_cases hc : triCut (l.map P) = true
    · rw [List.filter_cons_of_neg (by simp [hc]), List.filter_cons_of_pos (by simpa using hc),
        List.map_cons, List.flatten_cons]
      refine List.Perm.trans ?_ (List.Perm.append_left _ ih)
      rw [← List.append_assoc, ← List.append_assoc]
      exact List.Perm.append_right _ List.perm_append_comm
    · rw [List.filter_cons_of_pos (by simpa using hc), List.filter_cons_of_neg (by simpa using hc)]
      have : cutKids t P l = [l] := by simp [cutKids, hc]
      rw [this]
      exact List.Perm.cons _ ih

/-- two corners of a triangle on different sides -/
structure CutPair (top : List (List Nat)) (P : Nat → Bool) (x y : Nat) : Prop where
  tri : ∃ l ∈ top, x ∈ l ∧ y ∈ l
  side : P x ≠ P y

namespace CutPair

theorem symm {top : List (List Nat)} {x y : Nat} (h : CutPair top P x y) : CutPair top P y x := by
  obtain ⟨⟨l, hl, hx, hy⟩, hs⟩ := h
  exact ⟨⟨l, hl, hy, hx⟩, hs.symm⟩

theorem ne {top : List (List Nat)} {x y : Nat} (h : CutPair top P x y) : x ≠ y := by
  rintro rfl; exact h.side rfl

variable {top : List (List Nat)}

/-- the edge between them, which is cut -/
theorem edge (wf : WF 2 top t) (hs : Simplices 3 top) {x y : Nat} (h : CutPair top P x y) :
    ∃ e, (t.elements[1]?.getD [])[elIdx (t.elements[1]?.getD []) [x, y]]? = some e ∧ e.Perm [x, y] ∧
      (cutEdges t P)[elIdx (t.elements[1]?.getD []) [x, y]]? = some true := by
  obtain ⟨l, hl, hx, hy⟩ := h.tri
  obtain ⟨-, e, h2, h3⟩ := elIdx_get (wf.hasFace hs (k := 1) (by omega) hl (s := [x, y])
    (List.subperm_of_subset (by simpa using h.ne) (by intro z; simp; rintro (rfl | rfl) <;> assumption))
    rfl)
  refine ⟨e, h2, h3, ?_⟩
  rw [cutEdges, List.getElem?_map, h2, Option.map_some]
  have : (e.map P).count true = ([x, y].map P).count true := (h3.map P).count_eq _
  rw [edgeCut, this]
  have := h.side
  cases hx : P x <;> cases hy : P y <;> simp_all

theorem mid_ge (wf : WF 2 top t) (hs : Simplices 3 top) {x y : Nat} (h : CutPair top P x y) :
    t.nElements 0 ≤ cutMid t P x y := by
  obtain ⟨e, -, -, h1⟩ := h.edge wf hs
  have := take_count_succ _ h1
  unfold cutMid edgeLookup
  omega

theorem mid_lt (wf : WF 2 top t) (hs : Simplices 3 top) {x y : Nat} (h : CutPair top P x y) :
    cutMid t P x y < t.nElements 0 + (cutEdges t P).count true := by
  obtain ⟨e, -, -, h1⟩ := h.edge wf hs
  have := take_count_succ _ h1
  have := (List.take_sublist (elIdx (t.elements[1]?.getD []) [x, y] + 1) (cutEdges t P)).count_le true
  unfold cutMid edgeLookup
  omega

theorem mid_inj (wf : WF 2 top t) (hs : Simplices 3 top) {x y x' y' : Nat} (h : CutPair top P x y)
    (h' : CutPair top P x' y') (heq : cutMid t P x y = cutMid t P x' y') :
    (x = x' ∧ y = y') ∨ (x = y' ∧ y = x') := by
  obtain ⟨e, g1, p1, h1⟩ := h.edge wf hs
  obtain ⟨e', g2, p2, h2⟩ := h'.edge wf hs
  have c1 := take_count_succ _ h1
  have c2 := take_count_succ _ h2
  have := take_count_inj _ h1 h2 (by unfold cutMid edgeLookup at heq; omega)
  rw [this, g2] at g1
  obtain rfl := Option.some.inj g1
  exact perm_pair.1 (p1.symm.trans p2)

/-- the inserted vertex -/
theorem inserted (wf : WF 2 top t) (hs : Simplices 3 top) {x y : Nat} (h : CutPair top P x y)
    {α : Type} (f : List Nat → α) :
    ∃ e, e.Perm [x, y] ∧
      (maskOf ((t.elements[1]?.getD []).map f) (cutEdges t P))[cutMid t P x y - t.nElements 0]? =
        some (f e) := by
  obtain ⟨e, g1, p1, h1⟩ := h.edge wf hs
  obtain ⟨h2, h3⟩ := maskOf_get ((t.elements[1]?.getD []).map f) (cutEdges t P) _ (by simp [cutEdges]) h1
  refine ⟨e, p1, ?_⟩
  rw [show cutMid t P x y - t.nElements 0 = ((cutEdges t P).take
    (elIdx (t.elements[1]?.getD []) [x, y] + 1)).count true - 1 by unfold cutMid edgeLookup; omega, h3,
    List.getElem?_map, g1]
  rfl

end CutPair

variable {top : List (List Nat)}

/-- every inserted vertex belongs to a pair -/
theorem WF.cut_surj (wf : WF 2 top t) {r : Nat}
    (hr : r < (cutEdges t P).count true) :
    ∃ x y, CutPair top P x y ∧ cutMid t P x y = t.nElements 0 + r := by
  obtain ⟨i, h1, h2⟩ := take_count_surj _ r hr
  obtain ⟨w1, w2, w3, w4, w5⟩ := wf.get (k := 1) (by omega)
  rw [cutEdges, List.getElem?_map] at h1
  obtain ⟨e, he, hce⟩ := Option.map_eq_some_iff.mp h1
  obtain ⟨l, hl, c, hc, hp⟩ := w4.2 e (List.mem_of_getElem? he)
  rw [wf.top_eq, Option.getD_some] at hl
  have hlen : e.length = 2 := (w1 e (List.mem_of_getElem? he)).1
  obtain ⟨x, y, rfl⟩ : ∃ x y, e = [x, y] := by
    match e, hlen with
    | [x, y], _ => exact ⟨x, y, rfl⟩
  have hm : ∀ v ∈ [x, y], v ∈ l := fun v hv => List.mem_of_mem_eraseIdx (hp.mem_iff.mp hv)
  refine ⟨x, y, ⟨⟨l, hl, hm x (by simp), hm y (by simp)⟩, ?_⟩, ?_⟩
  · intro he
    cases hx : P x <;> simp [edgeCut, ← he, hx] at hce
  · rw [cutMid, ← elIdx_unique w3 he (List.Perm.refl _), edgeLookup, h2]
    omega

/-- the pairs of a cut triangle -/
theorem tip_pairs {l : List Nat} (hl : l ∈ top) {x y z : Nat}
    (hr : l = [x, y, z] ∨ l = [z, x, y] ∨ l = [y, z, x]) (h1 : P x ≠ P y) (h2 : P z = P y) :
    CutPair top P x y ∧ CutPair top P z x := by
  have hx : x ∈ l := by rcases hr with rfl | rfl | rfl <;> simp
  have hy : y ∈ l := by rcases hr with rfl | rfl | rfl <;> simp
  have hz : z ∈ l := by rcases hr with rfl | rfl | rfl <;> simp
  exact ⟨⟨⟨l, hl, hx, hy⟩, h1⟩, ⟨⟨l, hl, hz, hx⟩, by rw [h2]; exact h1.symm⟩⟩

theorem WF.cut_simplices (wf : WF 2 top t) (hs : Simplices 3 top) :
    Simplices 3 (top.flatMap (cutKids t P)) := by
  intro r hr
  obtain ⟨l, hl, hr⟩ := List.mem_flatMap.mp hr
  rcases cutKids_cases t P (hs l hl).1 with ⟨-, h, -⟩ | ⟨-, x, y, z, hrot, h1, h2, h⟩
  · rw [h] at hr
    obtain rfl := List.mem_singleton.mp hr
    exact hs _ hl
  · obtain ⟨p1, p2⟩ := tip_pairs hl hrot h1 h2
    have hx : x ∈ l := by rcases hrot with rfl | rfl | rfl <;> simp
    have hy : y ∈ l := by rcases hrot with rfl | rfl | rfl <;> simp
    have hz : z ∈ l := by rcases hrot with rfl | rfl | rfl <;> simp
    have hyz : y ≠ z := by
      have := (hs l hl).2
      rcases hrot with rfl | rfl | rfl <;> simp at this <;> omega
    have lx := wf.vertex_lt hs hl hx
    have ly := wf.vertex_lt hs hl hy
    have lz := wf.vertex_lt hs hl hz
    have g1 := p1.mid_ge wf hs
    have g2 := p2.mid_ge wf hs
    have hne : cutMid t P x y ≠ cutMid t P z x := by
      intro he
      have := p1.ne
      rcases p1.mid_inj wf hs p2 he with ⟨a, b⟩ | ⟨a, b⟩ <;> omega
    rw [h] at hr
    simp only [tipKids, List.mem_cons, List.not_mem_nil, or_false] at hr
    rcases hr with rfl | rfl | rfl <;> refine ⟨rfl, ?_⟩ <;> simp <;> omega

theorem WF.cut_used (wf : WF 2 top t) (hs : Simplices 3 top) (v : Nat) :
    (∃ r ∈ top.flatMap (cutKids t P), v ∈ r) ↔ v < t.nElements 0 + (cutEdges t P).count true := by
  have corner : ∀ l ∈ top, ∀ v ∈ l, ∃ r ∈ top.flatMap (cutKids t P), v ∈ r := by
    intro l hl v hv
    rcases cutKids_cases t P (hs l hl).1 with ⟨-, h, -⟩ | ⟨-, x, y, z, hrot, h1, h2, h⟩
    · exact ⟨l, List.mem_flatMap.mpr ⟨l, hl, by simp [h]⟩, hv⟩
    · have hv' : v = x ∨ v = y ∨ v = z := by
        rcases hrot with rfl | rfl | rfl <;> simp at hv <;> omega
      have hm : ∀ r ∈ tipKids t P x y z, r ∈ top.flatMap (cutKids t P) := fun r hr =>
        List.mem_flatMap.mpr ⟨l, hl, by rw [h]; exact hr⟩
      rcases hv' with rfl | rfl | rfl
      · exact ⟨_, hm _ (by simp [tipKids]; left; rfl), by simp⟩
      · exact ⟨_, hm _ (by simp [tipKids]; right; left; rfl), by simp⟩
      · exact ⟨_, hm _ (by simp [tipKids]; right; right; rfl), by simp⟩
  constructor
  · rintro ⟨r, hr, hv⟩
    obtain ⟨l, hl, hr⟩ := List.mem_flatMap.mp hr
    have lt : ∀ v ∈ l, v < t.nElements 0 + (cutEdges t P).count true := fun v hv =>
      lt_of_lt_of_le (wf.vertex_lt hs hl hv) (Nat.le_add_right _ _)
    rcases cutKids_cases t P (hs l hl).1 with ⟨-, h, -⟩ | ⟨-, x, y, z, hrot, h1, h2, h⟩
    · rw [h] at hr
      obtain rfl := List.mem_singleton.mp hr
      exact lt v hv
    · obtain ⟨p1, p2⟩ := tip_pairs hl hrot h1 h2
      have hx := lt x (by rcases hrot with rfl | rfl | rfl <;> simp)
      have hy := lt y (by rcases hrot with rfl | rfl | rfl <;> simp)
      have hz := lt z (by rcases hrot with rfl | rfl | rfl <;> simp)
      have g1 := p1.mid_lt wf hs
      have g2 := p2.mid_lt wf hs
      rw [h] at hr
      simp only [tipKids, List.mem_cons, List.not_mem_nil, or_false] at hr
      rcases hr with rfl | rfl | rfl <;> simp at hv <;> rcases hv with rfl | rfl | rfl <;> assumption
  · intro hv
    by_cases hlt : v < t.nElements 0
    · have hg := List.getElem?_eq_getElem hlt
      have he := wf.vertex (by omega) hg
      obtain ⟨-, l, hl, hsub⟩ := (wf.faces hs 2 0 (by omega) [v]).1
        ⟨_, List.mem_of_getElem? hg, by rw [he]⟩
      exact corner l hl v (hsub.subset (by simp))
    · obtain ⟨x, y, hp, hm⟩ := wf.cut_surj (P := P) (r := v - t.nElements 0) (by omega)
      have hm : cutMid t P x y = v := by omega
      obtain ⟨⟨l, hl, hxl, hyl⟩, hside⟩ := hp
      rcases cutKids_cases t P (hs l hl).1 with ⟨-, -, hall⟩ | ⟨-, x', y', z', hrot, h1, h2, h⟩
      · exact absurd (hall x hxl y hyl) hside
      · have key : v = cutMid t P x' y' ∨ v = cutMid t P z' x' := by
          have hx' : x = x' ∨ x = y' ∨ x = z' := by
            rcases hrot with rfl | rfl | rfl <;> simp at hxl <;> omega
          have hy' : y = x' ∨ y = y' ∨ y = z' := by
            rcases hrot with rfl | rfl | rfl <;> simp at hyl <;> omega
          rw [← hm]
          rcases hx' with rfl | rfl | rfl <;> rcases hy' with rfl | rfl | rfl <;>
            first
            | exact absurd rfl hside
            | exact absurd h2 hside
            | exact absurd h2.symm hside
            | exact Or.inl rfl
            | exact Or.inr rfl
            | exact Or.inl (cutMid_comm _ _ _ _)
            | exact Or.inr (cutMid_comm _ _ _ _)
        refine ⟨[x', cutMid t P x' y', cutMid t P z' x'], List.mem_flatMap.mpr
          ⟨l, hl, by rw [h]; simp [tipKids]⟩, ?_⟩
        simp
        tauto

end

/-! ### positions -/

section

variable {K : Type} [Field K] [LinearOrder K] {d : Nat} {t : Topo} {top : List (List Nat)}

/-- the side of a vertex -/
def sideOf (V : List (Vec K d)) (s n : Vec K d) (i : Nat) : Bool := side s n (pos V i)

/-- the vertex inserted on an edge row -/
def insertPair (V : List (Vec K d)) (s n : Vec K d) (e : List Nat) : Vec K d :=
  insertAt s n (pos V (e[0]?.getD 0)) (pos V (e[1]?.getD 0))

theorem sidesAt_ok {V : List (Vec K d)} {s n : Vec K d} {row : List Nat} (h : ∀ i ∈ row, i < V.length) :
    sidesAt s n V row = .ok (row.map (sideOf V s n)) := by
  refine mapM_ok _ _ _ fun i hi => ?_
  rw [vertexAt_ok (h i hi)]
  rfl

theorem insertOn_ok {V : List (Vec K d)} {s n : Vec K d} {e : List Nat} (h : ∀ i ∈ e, i < V.length)
    (hl : e.length = 2) : insertOn s n V e = .ok (insertPair V s n e) := by
  obtain ⟨x, y, rfl⟩ := length_two hl
  simp only [insertOn, vertexAt_ok (h x (by simp)), vertexAt_ok (h y (by simp))]
  rfl

/-- the vertices inserted on the cut edges -/
def inserted (V : List (Vec K d)) (t : Topo) (s n : Vec K d) : List (Vec K d) :=
  maskOf ((t.elements[1]?.getD []).map (insertPair V s n)) (cutEdges t (sideOf V s n))

/-- the triangles to keep, in the order of `cutRows` -/
def cutKeep (t : Topo) (P : Nat → Bool) (top : List (List Nat)) : List Bool :=
  (top.filter fun l => !triCut (l.map P)).map (fun l => triKeep (l.map P)) ++
    (((top.filter fun l => triCut (l.map P)).map (cutKids t P)).flatten.map fun r =>
      !((r.take 1).map P == [true]))

theorem WF.cutMesh_ok (wf : WF 2 top t) (hs : Simplices 3 top) {V : List (Vec K d)}
    (hV : V.length = t.nElements 0) (s n : Vec K d) :
    cutMesh V t s n = .ok
      { vertices := V ++ inserted V t s n
        triangles := cutRows t (sideOf V s n) top
        keep := cutKeep t (sideOf V s n) top } := by
  obtain ⟨w1, w2, w3, w4, w5⟩ := wf.get (k := 1) (by omega)
  have htri : ∀ l ∈ top, ∀ i ∈ l, i < V.length := fun l hl i hi => by
    rw [hV]; exact wf.vertex_lt hs hl hi
  have hedge : ∀ e ∈ t.elements[1]?.getD [], ∀ i ∈ e, i < V.length := by
    intro e he i hi
    obtain ⟨l, hl, c, hc, hp⟩ := w4.2 e he
    rw [wf.top_eq, Option.getD_some] at hl
    exact htri l hl i (List.mem_of_mem_eraseIdx (hp.mem_iff.mp hi))
  unfold cutMesh
  have m1 : (t.elements[1]?.getD []).mapM (sidesAt s n V) = .ok _ :=
    mapM_ok _ _ _ fun e he => sidesAt_ok (s := s) (n := n) (hedge e he)
  have m2 : top.mapM (sidesAt s n V) = .ok _ :=
    mapM_ok _ _ _ fun l hl => sidesAt_ok (s := s) (n := n) (htri l hl)
  have m3 : (t.elements[1]?.getD []).mapM (insertOn s n V) = .ok _ :=
    mapM_ok _ _ _ fun e he => insertOn_ok (s := s) (n := n) (hedge e he) (w1 e he).1
  simp only [wf.boundary_rows hs, wf.top_eq, Option.getD_some, m1, m2, m3, bind, Except.bind]
  set P := sideOf V s n with hP
  have hcut : ((t.elements[1]?.getD []).map fun e => e.map P).map edgeCut = cutEdges t P := by
    rw [List.map_map]; rfl
  have hzip : top.zip (top.map (oppositeEdges t)) = top.map fun l => (l, oppositeEdges t l) := by
    have := List.zip_map' (f := id) (g := oppositeEdges t) (l := top)
    simpa using this
  have hmask : (top.map fun l => l.map P).map triCut = top.map fun l => triCut (l.map P) := by
    rw [List.map_map]; rfl
  have hmask' : (top.map fun l => triCut (l.map P)).map (!·) = top.map fun l => !triCut (l.map P) := by
    rw [List.map_map]; rfl
  have hNT : List.zipWith (fun p sides => cutTriangle (cutEdges t P) (t.nElements 0) p.1 p.2 sides)
      ((top.filter fun l => triCut (l.map P)).map fun l => (l, oppositeEdges t l))
      ((top.filter fun l => triCut (l.map P)).map fun l => l.map P) =
      (top.filter fun l => triCut (l.map P)).map (cutKids t P) := by
    rw [List.zipWith_map, List.zipWith_self]
    refine List.map_congr_left fun l hl => ?_
    rw [cutKids, if_pos (List.mem_filter.mp hl).2]
  rw [hcut, hzip, hmask, hmask', maskOf_map, maskOf_map, hNT, maskOf_self, List.map_map, maskOf_map,
    mapM_ok _ (fun r => (r.take 1).map P)]
  · simp only [inserted, cutRows, cutKeep, Function.comp_def, List.map_map]
    rfl
  · intro r hr
    refine sidesAt_ok fun i hi => ?_
    obtain ⟨k, hk, hrk⟩ := List.mem_flatten.mp hr
    obtain ⟨l, hl, rfl⟩ := List.mem_map.mp hk
    obtain ⟨hl, hc⟩ := List.mem_filter.mp hl
    rcases cutKids_cases t P (hs l hl).1 with ⟨h, -, -⟩ | ⟨-, x, y, z, hrot, h1, h2, h⟩
    · rw [h] at hc
      exact absurd hc (by simp)
    · rw [h] at hrk
      simp only [tipKids, List.mem_cons, List.not_mem_nil, or_false] at hrk
      have hm : ∀ v, v = x ∨ v = y ∨ v = z → v < V.length := by
        intro v hv
        apply htri l hl
        rcases hrot with rfl | rfl | rfl <;> simp <;> omega
      rcases hrk with rfl | rfl | rfl <;> simp at hi <;> subst hi <;> apply hm <;> simp

end

end Verif
