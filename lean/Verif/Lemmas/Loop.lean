/-
The triangles made by Loop subdivision.
-/
import Verif.Model.Loop
import Verif.Lemmas.Fundamental

namespace Verif

open Verif.Model Verif.Spec

/-- number of the vertex placed on the edge between two corners -/
def mid (t : Topo) (x y : Nat) : Nat := elIdx (t.elements[1]?.getD []) [x, y] + t.nElements 0

/-- the four children of a triangle -/
def kids (t : Topo) (a b c : Nat) : List (List Nat) :=
  [[mid t b c, mid t c a, mid t a b], [a, mid t a b, mid t c a], [b, mid t b c, mid t a b],
    [c, mid t c a, mid t b c]]

theorem length_three {l : List Nat} (h : l.length = 3) : ∃ a b c, l = [a, b, c] := by
  rcases l with _ | ⟨a, _ | ⟨b, _ | ⟨c, _ | ⟨d, r⟩⟩⟩⟩ <;> simp at h
  exact ⟨a, b, c, rfl⟩

theorem elIdx_perm (E : List (List Nat)) {s s' : List Nat} (h : s.Perm s') :
    elIdx E s = elIdx E s' := by
  unfold elIdx; rw [(sortRow_eq_iff _ _).2 h]

theorem mid_comm (t : Topo) (x y : Nat) : mid t x y = mid t y x := by
  unfold mid; rw [elIdx_perm _ (List.Perm.swap y x [])]

/-- children of a row -/
def kidsOf (t : Topo) (l : List Nat) : List (List Nat) :=
  kids t (l[0]?.getD 0) (l[1]?.getD 0) (l[2]?.getD 0)

namespace WF

variable {top : List (List Nat)} {t : Topo}

theorem loopRows_eq (wf : WF 2 top t) (hs : Simplices 3 top) :
    loopRows t = (top.map (kidsOf t)).flatten := by
  obtain ⟨h1, h2, h3, h4, h5⟩ := wf.get (k := 1) (by omega)
  rw [wf.top_eq, Option.getD_some] at h5
  unfold loopRows
  rw [wf.top_eq, Option.getD_some]
  congr 1
  apply List.ext_getElem?
  intro j
  rw [List.getElem?_zipWith, List.getElem?_map]
  cases hj : top[j]? with
  | none => rfl
  | some l =>
    obtain ⟨b, o, hb, ho, hbl, hol, hslot⟩ := h5.2.2 j l hj
    rw [hb]
    simp only [Option.map_some]
    congr 1
    obtain ⟨x, y, z, rfl⟩ := length_three (hs l (List.mem_of_getElem? hj)).1
    obtain ⟨e0, e1, e2, rfl⟩ := length_three hbl
    obtain ⟨i0, s0, r0, q0, -, g0, p0, -⟩ := hslot 0 (by omega)
    obtain ⟨i1, s1, r1, q1, -, g1, p1, -⟩ := hslot 1 (by omega)
    obtain ⟨i2, s2, r2, q2, -, g2, p2, -⟩ := hslot 2 (by omega)
    simp [oppositeCorner] at q0 q1 q2 p0 p1 p2
    subst q0 q1 q2
    have k0 := elIdx_unique h3 g0 p0
    have k1 := elIdx_unique h3 g1 p1
    have k2 := elIdx_unique h3 g2 p2
    have k1' : e1 = elIdx (t.elements[1]?.getD []) [z, x] := by
      rw [k1]; exact elIdx_perm _ (List.Perm.swap z x [])
    have m0 : e0 + t.nElements 0 = mid t y z := by rw [k0]; rfl
    have m1 : e1 + t.nElements 0 = mid t z x := by rw [k1']; rfl
    have m2 : e2 + t.nElements 0 = mid t x y := by rw [k2]; rfl
    simp [loopChildren, kidsOf, kids, rollRight1, rollLeft, List.range_succ, m0, m1, m2]

end WF

/-! ### signs on triangles -/

theorem inducedSign_three (e : List Nat) (p q s : Nat) :
    inducedSign e [p, q, s] = relSign e [q, s] - relSign e [p, s] + relSign e [p, q] := by
  simp [inducedSign, List.range_succ]; ring

theorem relSign_pair_swap (e : List Nat) (x y : Nat) : relSign e [x, y] = - relSign e [y, x] := by
  have := alt_relSign e [] x y []
  simpa using this

theorem inducedSign_rot (e : List Nat) (p q s : Nat) :
    inducedSign e [p, q, s] = inducedSign e [q, s, p] := by
  rw [inducedSign_three, inducedSign_three, relSign_pair_swap e s p, relSign_pair_swap e q p]; ring

theorem relSign_pair_self {x y : Nat} (h : x ≠ y) : relSign [x, y] [x, y] = 1 :=
  relSign_self (by simpa using h)

theorem perm_pair {x y p q : Nat} : [x, y].Perm [p, q] ↔ (x = p ∧ y = q) ∨ (x = q ∧ y = p) := by
  constructor
  · intro h
    have hx : x ∈ [p, q] := h.mem_iff.1 (by simp)
    simp at hx
    rcases hx with rfl | rfl
    · have := List.perm_singleton.1 ((List.perm_cons _).1 h)
      left; simpa using this
    · have := List.perm_singleton.1 ((List.perm_cons _).1 (h.trans (List.Perm.swap _ _ _)))
      right; simpa using this
  · rintro (⟨rfl, rfl⟩ | ⟨rfl, rfl⟩)
    · exact List.Perm.refl _
    · exact List.Perm.swap _ _ _

theorem relSign_pair_ne {x y p q : Nat} (h : ¬ ((p = x ∧ q = y) ∨ (p = y ∧ q = x))) :
    relSign [x, y] [p, q] = 0 :=
  relSign_of_not_perm (fun hp => h (perm_pair.1 hp))

/-- an edge is traversed forwards by a triangle listing its corners in order -/
theorem inducedSign_fwd {x y z : Nat} (hxy : x ≠ y) (hxz : x ≠ z) (hyz : y ≠ z) :
    inducedSign [x, y] [x, y, z] = 1 := by
  rw [inducedSign_three, relSign_pair_self hxy, relSign_pair_ne (by omega),
    relSign_pair_ne (by omega)]; rfl

theorem inducedSign_bwd {x y z : Nat} (hxy : x ≠ y) (hxz : x ≠ z) (hyz : y ≠ z) :
    inducedSign [x, y] [x, z, y] = -1 := by
  rw [inducedSign_three, relSign_pair_self hxy, relSign_pair_ne (by omega),
    relSign_pair_ne (by omega)]; rfl

theorem isFace_three {e : List Nat} {p q s : Nat} :
    IsFace e [p, q, s] ↔ e.Perm [q, s] ∨ e.Perm [p, s] ∨ e.Perm [p, q] := by
  constructor
  · rintro ⟨c, hc, hp⟩
    rcases c with _ | _ | _ | c
    · exact Or.inl hp
    · exact Or.inr (Or.inl hp)
    · exact Or.inr (Or.inr hp)
    · simp at hc; omega
  · rintro (h | h | h)
    · exact ⟨0, by simp, h⟩
    · exact ⟨1, by simp, h⟩
    · exact ⟨2, by simp, h⟩

/-! ### corners and children -/

/-- `[v, w, z]` are the corners of `l` in cyclic order starting from number `k` -/
def Rot (l : List Nat) (k v w z : Nat) : Prop :=
  (k = 0 ∧ l = [v, w, z]) ∨ (k = 1 ∧ l = [z, v, w]) ∨ (k = 2 ∧ l = [w, z, v])

theorem Rot.kid {t : Topo} {l : List Nat} {k v w z : Nat} (h : Rot l k v w z) :
    (kidsOf t l)[k + 1]? = some [v, mid t v w, mid t z v] := by
  rcases h with ⟨rfl, rfl⟩ | ⟨rfl, rfl⟩ | ⟨rfl, rfl⟩ <;> rfl

theorem Rot.ne {l : List Nat} {k v w z : Nat} (h : Rot l k v w z) (hn : l.Nodup) :
    v ≠ w ∧ w ≠ z ∧ v ≠ z := by
  rcases h with ⟨rfl, rfl⟩ | ⟨rfl, rfl⟩ | ⟨rfl, rfl⟩ <;> simp at hn <;> omega

theorem Rot.mem {l : List Nat} {k v w z : Nat} (h : Rot l k v w z) : v ∈ l ∧ w ∈ l ∧ z ∈ l := by
  rcases h with ⟨rfl, rfl⟩ | ⟨rfl, rfl⟩ | ⟨rfl, rfl⟩ <;> simp

theorem Rot.sign {l : List Nat} {k v w z : Nat} (h : Rot l k v w z) (e : List Nat) :
    inducedSign e l = inducedSign e [v, w, z] := by
  rcases h with ⟨rfl, rfl⟩ | ⟨rfl, rfl⟩ | ⟨rfl, rfl⟩
  · rfl
  · rw [inducedSign_rot]
  · rw [← inducedSign_rot]

/-- the middle child, starting from any corner -/
theorem Rot.middle {t : Topo} {l : List Nat} {k v w z : Nat} (h : Rot l k v w z) (e : List Nat) :
    ∃ r, (kidsOf t l)[0]? = some r ∧ r.Perm [mid t v w, mid t w z, mid t z v] ∧
      inducedSign e r = inducedSign e [mid t v w, mid t w z, mid t z v] := by
  have p1 : ∀ a b c : Nat, [a, b, c].Perm [c, a, b] := fun a b c =>
    (List.perm_append_comm (l₁ := [a, b]) (l₂ := [c]))
  rcases h with ⟨rfl, rfl⟩ | ⟨rfl, rfl⟩ | ⟨rfl, rfl⟩
  · exact ⟨_, rfl, p1 _ _ _, by simp; rw [← inducedSign_rot]⟩
  · exact ⟨_, rfl, List.Perm.refl _, by simp⟩
  · exact ⟨_, rfl, (p1 _ _ _).trans (p1 _ _ _), by simp; rw [inducedSign_rot]⟩

/-- every child is the middle one or belongs to a corner -/
theorem kid_cases {t : Topo} {l : List Nat} (hl : l.length = 3) {i : Nat} {r : List Nat}
    (h : (kidsOf t l)[i]? = some r) :
    (i = 0 ∧ ∃ v w z, Rot l 0 v w z) ∨
      ∃ k v w z, i = k + 1 ∧ Rot l k v w z ∧ r = [v, mid t v w, mid t z v] := by
  obtain ⟨a, b, c, rfl⟩ := length_three hl
  rcases i with _ | _ | _ | _ | i
  · exact Or.inl ⟨rfl, a, b, c, Or.inl ⟨rfl, rfl⟩⟩
  · right; exact ⟨0, a, b, c, rfl, Or.inl ⟨rfl, rfl⟩, (Option.some.inj h).symm⟩
  · right; exact ⟨1, b, c, a, rfl, Or.inr (Or.inl ⟨rfl, rfl⟩), (Option.some.inj h).symm⟩
  · right; exact ⟨2, c, a, b, rfl, Or.inr (Or.inr ⟨rfl, rfl⟩), (Option.some.inj h).symm⟩
  · simp [kidsOf, kids] at h

/-- two corners of a triangle determine a rotation -/
theorem rot_of_mem {l : List Nat} (hl : l.length = 3) {v w : Nat} (hv : v ∈ l) (hw : w ∈ l)
    (hne : v ≠ w) : ∃ k z, Rot l k v w z ∨ Rot l k v z w := by
  obtain ⟨a, b, c, rfl⟩ := length_three hl
  simp at hv hw
  rcases hv with rfl | rfl | rfl <;> rcases hw with rfl | rfl | rfl <;> try exact absurd rfl hne
  · exact ⟨0, c, Or.inl (Or.inl ⟨rfl, rfl⟩)⟩
  · exact ⟨0, b, Or.inr (Or.inl ⟨rfl, rfl⟩)⟩
  · exact ⟨1, c, Or.inr (Or.inr (Or.inl ⟨rfl, rfl⟩))⟩
  · exact ⟨1, a, Or.inl (Or.inr (Or.inl ⟨rfl, rfl⟩))⟩
  · exact ⟨2, b, Or.inl (Or.inr (Or.inr ⟨rfl, rfl⟩))⟩
  · exact ⟨2, a, Or.inr (Or.inr (Or.inr ⟨rfl, rfl⟩))⟩

namespace WF

variable {top : List (List Nat)} {t : Topo}

theorem vertex_lt (wf : WF 2 top t) (hs : Simplices 3 top) {l : List Nat} (hl : l ∈ top) {v : Nat}
    (hv : v ∈ l) : v < t.nElements 0 := by
  have h1 := wf.elIdx_vertex (by omega) hs hl hv
  obtain ⟨-, e, h2, -⟩ := elIdx_get (wf.hasFace hs (k := 0) (by omega) hl
    (List.singleton_subperm_iff.2 hv) rfl)
  rw [h1] at h2
  exact (List.getElem?_eq_some_iff.1 h2).1

theorem edge_get (wf : WF 2 top t) (hs : Simplices 3 top) {l : List Nat} (hl : l ∈ top) {v w : Nat}
    (hv : v ∈ l) (hw : w ∈ l) (hne : v ≠ w) :
    ∃ e, (t.elements[1]?.getD [])[mid t v w - t.nElements 0]? = some e ∧ e.Perm [v, w] := by
  obtain ⟨-, e, h2, h3⟩ := elIdx_get (wf.hasFace hs (k := 1) (by omega) hl (s := [v, w])
    (List.subperm_of_subset (by simpa using hne) (by intro x; simp; rintro (rfl | rfl) <;> assumption))
    rfl)
  refine ⟨e, ?_, h3⟩
  unfold mid
  rwa [Nat.add_sub_cancel]

theorem mid_ge (t : Topo) (x y : Nat) : t.nElements 0 ≤ mid t x y := by unfold mid; omega

theorem mid_lt (wf : WF 2 top t) (hs : Simplices 3 top) {l : List Nat} (hl : l ∈ top) {v w : Nat}
    (hv : v ∈ l) (hw : w ∈ l) (hne : v ≠ w) : mid t v w < t.nElements 0 + t.nElements 1 := by
  obtain ⟨e, h1, -⟩ := wf.edge_get hs hl hv hw hne
  have := (List.getElem?_eq_some_iff.1 h1).1
  have h2 := mid_ge t v w
  show _ < _ + (t.elements[1]?.getD []).length
  omega

theorem mid_inj (wf : WF 2 top t) (hs : Simplices 3 top) {l l' : List Nat} (hl : l ∈ top)
    (hl' : l' ∈ top) {v w v' w' : Nat} (hv : v ∈ l) (hw : w ∈ l) (hne : v ≠ w)
    (hv' : v' ∈ l') (hw' : w' ∈ l') (hne' : v' ≠ w') (h : mid t v w = mid t v' w') :
    (v = v' ∧ w = w') ∨ (v = w' ∧ w = v') := by
  obtain ⟨e, h1, p1⟩ := wf.edge_get hs hl hv hw hne
  obtain ⟨e', h2, p2⟩ := wf.edge_get hs hl' hv' hw' hne'
  rw [← h, h1] at h2
  obtain rfl := Option.some.inj h2
  exact perm_pair.1 (p1.symm.trans p2)

/-- the numbers in the corner child of a triangle are distinct -/
theorem rot_ne (wf : WF 2 top t) (hs : Simplices 3 top) {l : List Nat} (hl : l ∈ top)
    {k v w z : Nat} (h : Rot l k v w z) :
    v ≠ mid t v w ∧ v ≠ mid t z v ∧ v ≠ mid t w z ∧ mid t v w ≠ mid t z v ∧
      mid t v w ≠ mid t w z ∧ mid t z v ≠ mid t w z := by
  obtain ⟨h1, h2, h3⟩ := h.mem
  obtain ⟨n1, n2, n3⟩ := h.ne (hs l hl).2
  have hv := wf.vertex_lt hs hl h1
  have g1 := mid_ge t v w
  have g2 := mid_ge t z v
  have g3 := mid_ge t w z
  refine ⟨by omega, by omega, by omega, ?_, ?_, ?_⟩
  · intro he
    rcases wf.mid_inj hs hl hl h1 h2 n1 h3 h1 n3.symm he with ⟨a, b⟩ | ⟨a, b⟩ <;> omega
  · intro he
    rcases wf.mid_inj hs hl hl h1 h2 n1 h2 h3 n2 he with ⟨a, b⟩ | ⟨a, b⟩ <;> omega
  · intro he
    rcases wf.mid_inj hs hl hl h3 h1 n3.symm h2 h3 n2 he with ⟨a, b⟩ | ⟨a, b⟩ <;> omega

theorem rot_zero (l : List Nat) (h : l.length = 3) : ∃ v w z, Rot l 0 v w z := by
  obtain ⟨a, b, c, rfl⟩ := length_three h
  exact ⟨a, b, c, Or.inl ⟨rfl, rfl⟩⟩

theorem kids_simplices (wf : WF 2 top t) (hs : Simplices 3 top) {l : List Nat} (hl : l ∈ top)
    {i : Nat} {r : List Nat} (h : (kidsOf t l)[i]? = some r) : r.length = 3 ∧ r.Nodup := by
  rcases kid_cases (hs l hl).1 h with ⟨rfl, v, w, z, hr⟩ | ⟨k, v, w, z, rfl, hr, rfl⟩
  · obtain ⟨r', h1, h2, -⟩ := hr.middle (t := t) []
    rw [h] at h1
    obtain rfl := Option.some.inj h1
    have := wf.rot_ne hs hl hr
    refine ⟨h2.length_eq, h2.nodup_iff.2 ?_⟩
    simp; omega
  · have := wf.rot_ne hs hl hr
    refine ⟨rfl, ?_⟩
    simp; omega

/-- row `I` of the subdivision -/
theorem loop_row (I : Nat) (r : List Nat) :
    (top.map (kidsOf t)).flatten[I]? = some r ↔
      ∃ l, top[I / 4]? = some l ∧ (kidsOf t l)[I % 4]? = some r := by
  rw [flatten_uniform (m := 4) (by omega) _ (by
    intro L hL
    obtain ⟨l, -, rfl⟩ := List.mem_map.1 hL
    rfl), List.getElem?_map]
  cases top[I / 4]? <;> simp

theorem loop_simplices (wf : WF 2 top t) (hs : Simplices 3 top) :
    Simplices 3 (top.map (kidsOf t)).flatten := by
  intro r hr
  obtain ⟨I, hI⟩ := List.mem_iff_getElem?.1 hr
  obtain ⟨l, hl, hk⟩ := (loop_row I r).1 hI
  exact wf.kids_simplices hs (List.mem_of_getElem? hl) hk

theorem loop_kid_mem {l r : List Nat} (hl : l ∈ top) {i : Nat} (h : (kidsOf t l)[i]? = some r) :
    r ∈ (top.map (kidsOf t)).flatten :=
  List.mem_flatten.2 ⟨_, List.mem_map_of_mem hl, List.mem_of_getElem? h⟩

theorem loop_used (wf : WF 2 top t) (hs : Simplices 3 top) (v : Nat) :
    (∃ r ∈ (top.map (kidsOf t)).flatten, v ∈ r) ↔ v < t.nElements 0 + t.nElements 1 := by
  constructor
  · rintro ⟨r, hr, hv⟩
    obtain ⟨I, hI⟩ := List.mem_iff_getElem?.1 hr
    obtain ⟨l, hl, hk⟩ := (loop_row I r).1 hI
    have hl := List.mem_of_getElem? hl
    have key : ∀ {k a b c : Nat}, Rot l k a b c → a < t.nElements 0 + t.nElements 1 ∧
        mid t a b < t.nElements 0 + t.nElements 1 ∧ mid t b c < t.nElements 0 + t.nElements 1 ∧
        mid t c a < t.nElements 0 + t.nElements 1 := by
      intro k a b c h
      obtain ⟨h1, h2, h3⟩ := h.mem
      obtain ⟨n1, n2, n3⟩ := h.ne (hs l hl).2
      have := wf.vertex_lt hs hl h1
      exact ⟨by omega, wf.mid_lt hs hl h1 h2 n1, wf.mid_lt hs hl h2 h3 n2,
        wf.mid_lt hs hl h3 h1 n3.symm⟩
    rcases kid_cases (hs l hl).1 hk with ⟨h0, a, b, c, hrot⟩ | ⟨k, a, b, c, -, hrot, rfl⟩
    · obtain ⟨r', h1, h2, -⟩ := hrot.middle (t := t) []
      rw [h0, h1] at hk
      obtain rfl := Option.some.inj hk
      have := key hrot
      rw [h2.mem_iff] at hv
      simp at hv
      rcases hv with rfl | rfl | rfl <;> omega
    · have := key hrot
      simp at hv
      rcases hv with rfl | rfl | rfl <;> omega
  · intro hv
    rcases Nat.lt_or_ge v (t.nElements 0) with h | h
    · have hg := List.getElem?_eq_getElem h
      have he := wf.vertex (by omega) hg
      obtain ⟨-, l, hl, hsub⟩ := (wf.faces hs 2 0 (by omega) [v]).1
        ⟨_, List.mem_of_getElem? hg, by rw [he]⟩
      have hvl : v ∈ l := hsub.subset (by simp)
      obtain ⟨a, b, c, rfl⟩ := length_three (hs l hl).1
      simp at hvl
      rcases hvl with rfl | rfl | rfl
      · exact ⟨_, loop_kid_mem hl (i := 1) rfl, by simp⟩
      · exact ⟨_, loop_kid_mem hl (i := 2) rfl, by simp⟩
      · exact ⟨_, loop_kid_mem hl (i := 3) rfl, by simp⟩
    · obtain ⟨i, rfl⟩ : ∃ i, v = t.nElements 0 + i := ⟨v - t.nElements 0, by omega⟩
      have hi : i < (t.elements[1]?.getD []).length := by
        have : i < t.nElements 1 := by omega
        exact this
      have hg := List.getElem?_eq_getElem hi
      set e := (t.elements[1]?.getD [])[i] with he
      obtain ⟨he2, hen⟩ := (wf.get (k := 1) (by omega)).1 e (List.getElem_mem _)
      obtain ⟨x, y, hxy⟩ := length_two he2
      obtain ⟨-, l, hl, hsub⟩ := (wf.faces hs 1 1 (by omega) e).1
        ⟨_, List.getElem_mem _, List.Perm.refl _⟩
      have hm : mid t x y = t.nElements 0 + i := by
        unfold mid
        rw [← hxy, ← elIdx_unique (wf.get (k := 1) (by omega)).2.2.1 hg (List.Perm.refl _),
          Nat.add_comm]
      rw [hxy] at hsub hen
      have hx : x ∈ l := hsub.subset (by simp)
      have hy : y ∈ l := hsub.subset (by simp)
      obtain ⟨k, z, hrot | hrot⟩ := rot_of_mem (hs l hl).1 hx hy (by simpa using hen)
      · exact ⟨_, loop_kid_mem hl hrot.kid, by rw [← hm]; simp⟩
      · exact ⟨_, loop_kid_mem hl hrot.kid, by rw [← hm, mid_comm t x y]; simp⟩

theorem subdivideLoop_ok {uniq : List (List Nat) → List (List Nat)} (hu : UniqSpec uniq)
    (wf : WF 2 top t) (hs : Simplices 3 top) :
    ∃ t', subdivideLoop uniq t = .ok t' ∧ WF 2 (top.map (kidsOf t)).flatten t' := by
  have hsim := wf.loop_simplices hs
  obtain ⟨t', ht'⟩ := (Props.C03_accepts_iff hu hsim).2 ⟨_, wf.loop_used hs⟩
  refine ⟨t', ?_, (fromSimplices_wf hu (n := 2) hsim ht').2⟩
  unfold subdivideLoop
  rw [wf.loopRows_eq hs]
  exact ht'

/-- number of vertices of a topology in terms of the corners used -/
theorem nVertices_eq {n : Nat} (wf : WF (n + 1) top t) (hs : Simplices (n + 2) top) {m : Nat}
    (h : ∀ v, (∃ r ∈ top, v ∈ r) ↔ v < m) : t.nElements 0 = m := by
  have hE0 : ∀ v, v < t.nElements 0 ↔ v < m := by
    intro v
    rw [← h v]
    constructor
    · intro hv
      have hg := List.getElem?_eq_getElem hv
      have hv' := wf.vertex (by omega) hg
      obtain ⟨-, l, hl, hsub⟩ := (wf.faces hs (n + 1) 0 (by omega) [v]).1
        ⟨_, List.mem_of_getElem? hg, by rw [hv']⟩
      exact ⟨l, hl, hsub.subset (by simp)⟩
    · rintro ⟨l, hl, hvl⟩
      obtain ⟨e, he, hp⟩ := (wf.faces hs (n + 1) 0 (by omega) [v]).2
        ⟨rfl, l, hl, List.singleton_subperm_iff.2 hvl⟩
      obtain ⟨p, hp'⟩ := List.mem_iff_getElem?.1 he
      have := wf.vertex (by omega) hp'
      rw [this] at hp
      have hpv : p = v := by simpa using List.perm_singleton.1 hp
      rw [← hpv]
      exact (List.getElem?_eq_some_iff.1 hp').1
  have h1 := hE0 (t.nElements 0)
  have h2 := hE0 m
  omega

end WF

end Verif
