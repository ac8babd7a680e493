/-
Closed polygons are oriented, connected and closed.
-/
import Verif.Lemmas.Polygon
import Verif.Props.Product

namespace Verif

open Verif.Model Verif.Spec Verif.Props

variable {uniq : List (List Nat) → List (List Nat)} {N n : Nat} {edges cubes : List (List Nat)} {t : Topo} {c : Nat → Nat}
  {solve : List (List Int) → Option (List Int)}

/-- the row of a side shared by two cubes -/
theorem twoColumns_of_shared (hu : UniqSpec uniq) (hc : Cubes (n + 1) cubes) (h : fromCubes uniq true (n + 1) cubes = .ok t)
    {x : Nat} {e e' : List Nat} (he : (t.elements[n]?.getD [])[x]? = some e') (hp : e.Perm e') {a b : Nat}
    (hsh : SharedSide n cubes e a b) : TwoColumns (t.matrix n) x a b ∧
      (nonzeroCols (t.matrix n) x = [a, b] ∨ nonzeroCols (t.matrix n) x = [b, a]) := by
  have wf := fromCubes_wf hu hc h
  have hcols : (t.matrix n).cols = cubes.length := by
    rw [(wf.shape (k := n) (by omega)).2, Topo.nElements, wf.top_eq]; rfl
  have hmem := mem_nonzeroCols_cubes hu hc h he
  have hnd := WF.nonzeroCols_nodup (t.matrix n) x
  have ha := List.getElem?_eq_getElem hsh.2.1
  have hb := List.getElem?_eq_getElem hsh.2.2.1
  have hiff : ∀ j, j ∈ nonzeroCols (t.matrix n) x ↔ j = a ∨ j = b := by
    intro j
    rw [hmem]
    constructor
    · rintro ⟨l, hl, hs⟩
      exact (hsh.2.2.2 j l hl).1 ((isSide_perm hp).2 hs)
    · rintro (rfl | rfl)
      · exact ⟨_, ha, (isSide_perm hp).1 ((hsh.2.2.2 _ _ ha).2 (Or.inl rfl))⟩
      · exact ⟨_, hb, (isSide_perm hp).1 ((hsh.2.2.2 _ _ hb).2 (Or.inr rfl))⟩
  refine ⟨⟨?_, hsh.1, by rw [hcols]; exact hsh.2.1, by rw [hcols]; exact hsh.2.2.1, ?_⟩, ?_⟩
  · rw [rows_cubes hu hc h]; exact (List.getElem?_eq_some_iff.1 he).1
  · intro j hj
    rw [← hiff]
    unfold nonzeroCols
    simp [hj]
  · have hperm : (nonzeroCols (t.matrix n) x).Perm [a, b] := by
      rw [List.perm_ext_iff_of_nodup hnd (by simpa using hsh.1)]
      intro j
      rw [hiff]; simp
    exact List.perm_pair.1 hperm

theorem linked_of_connected (hu : UniqSpec uniq) (hc : Cubes (n + 1) cubes) (h : fromCubes uniq true (n + 1) cubes = .ok t)
    (hcon : CubesConnected n cubes) : Linked (t.matrix n) := by
  have wf := fromCubes_wf hu hc h
  have hcols : (t.matrix n).cols = cubes.length := by
    rw [(wf.shape (k := n) (by omega)).2, Topo.nElements, wf.top_eq]; rfl
  intro j1 h1 j2 h2
  rw [hcols] at h1 h2
  refine (hcon j1 h1 j2 h2).lift id ?_
  rintro a b ⟨e, hsh⟩
  have ha := List.getElem?_eq_getElem hsh.2.1
  obtain ⟨x, e', he', hp⟩ := stored_of_isSide hu hc h (List.mem_of_getElem? ha) ((hsh.2.2.2 _ _ ha).2 (Or.inl rfl))
  exact ⟨x, (twoColumns_of_shared hu hc h he' hp hsh).1⟩

theorem side_edge (a b : Nat) : side 0 0 false [a, b] = [a] ∧ side 0 0 true [a, b] = [b] := ⟨rfl, rfl⟩

theorem isCubeSide_edge {v a b : Nat} : IsCubeSide 0 [v] [a, b] ↔ v = a ∨ v = b := by
  constructor
  · rintro ⟨i, hi, s, hp⟩
    obtain rfl : i = 0 := by omega
    cases s
    · rw [(side_edge a b).1] at hp; left; simpa using hp
    · rw [(side_edge a b).2] at hp; right; simpa using hp
  · rintro (rfl | rfl)
    · exact ⟨0, le_refl _, false, by rw [(side_edge _ b).1]⟩
    · exact ⟨0, le_refl _, true, by rw [(side_edge a _).2]⟩

theorem isCubeSide_zero {e l : List Nat} (hl : l.length = 2) (h : IsCubeSide 0 e l) : ∃ v, e = [v] := by
  obtain ⟨i, hi, s, hp⟩ := h
  have := hp.length_eq
  rw [side_length (by omega) s l] at this
  exact List.length_eq_one_iff.1 this

theorem sideSign_edge {v a b : Nat} {τ : ℤ} (h : SideSign 0 [v] [a, b] τ) : (v = a ∧ τ = 1) ∨ (v = b ∧ τ = -1) := by
  obtain ⟨i, hi, s, σ, ⟨axes, flips, ⟨h1, h2⟩, h3, h4⟩, h5⟩ := h
  obtain rfl : i = 0 := by omega
  obtain rfl : axes = [] := by simpa using h1
  obtain rfl : flips = [] := by simpa using h2
  have hσ : σ = 1 := by rw [h4]; decide
  subst hσ
  have ht : turn 0 [] [] [v] = [v] := rfl
  rw [ht] at h3
  cases s
  · rw [(side_edge a b).1] at h3
    left
    exact ⟨by simpa using h3.symm, by rw [h5]; rfl⟩
  · rw [(side_edge a b).2] at h3
    right
    exact ⟨by simpa using h3.symm, by rw [h5]; rfl⟩

namespace Spec.ClosedPolygon

/-- the number of an edge -/
theorem edge_number (h : ClosedPolygon N edges c) (k : Nat) : ∃ j : Nat, edges[j]? = some [c k, c (k + 1)] :=
  List.mem_iff_getElem?.1 (h.mem k)

theorem ne_two (h : ClosedPolygon N edges c) (hN : 3 ≤ N) (k : Nat) : c k ≠ c (k + 2) := by
  intro e
  have := (h.period _ _).1 e
  have h2 : (0 : Nat) ≡ 2 [MOD N] := Nat.ModEq.add_left_cancel' k this
  have := Nat.ModEq.eq_of_lt_of_lt h2 (by omega) (by omega)
  omega

theorem shared (h : ClosedPolygon N edges c) (hN : 3 ≤ N) (k : Nat) {j j' : Nat} (hj : edges[j]? = some [c k, c (k + 1)])
    (hj' : edges[j']? = some [c (k + 1), c (k + 2)]) : SharedSide 0 edges [c (k + 1)] j j' := by
  have hne : j ≠ j' := by
    rintro rfl
    have : [c k, c (k + 1)] = [c (k + 1), c (k + 2)] := Option.some.inj (hj.symm.trans hj')
    exact h.ne (by omega) k (List.cons.inj this).1
  refine ⟨hne, (List.getElem?_eq_some_iff.1 hj).1, (List.getElem?_eq_some_iff.1 hj').1, fun i l hl => ?_⟩
  have hmem := List.mem_of_getElem? hl
  have huniq : ∀ i', edges[i']? = some l → i = i' := by
    intro i' hi'
    exact (List.getElem?_inj (List.getElem?_eq_some_iff.1 hl).1 h.nodup).1 (hl.trans hi'.symm)
  constructor
  · intro hs
    have hm : l ∈ edges.filter fun l => l.contains (c (k + 1)) := by
      refine List.mem_filter.2 ⟨hmem, ?_⟩
      obtain ⟨m, -, rfl⟩ := h.exists_of_mem hmem
      rcases isCubeSide_edge.1 hs with e | e <;> rw [e] <;> simp
    rw [(h.at_vertex hN k).mem_iff] at hm
    rcases (by simpa using hm : l = [c k, c (k + 1)] ∨ l = [c (k + 1), c (k + 2)]) with rfl | rfl
    · left; exact huniq _ hj
    · right; exact huniq _ hj'
  · rintro (rfl | rfl)
    · rw [hj] at hl
      rw [← Option.some.inj hl]
      exact isCubeSide_edge.2 (Or.inr rfl)
    · rw [hj'] at hl
      rw [← Option.some.inj hl]
      exact isCubeSide_edge.2 (Or.inl rfl)

theorem connected (h : ClosedPolygon N edges c) (hN : 3 ≤ N) : CubesConnected 0 edges := by
  have hpath : ∀ m k j j' : Nat, edges[j]? = some [c k, c (k + 1)] → edges[j']? = some [c (k + m), c (k + m + 1)] →
      Relation.ReflTransGen (fun a b => ∃ e, SharedSide 0 edges e a b) j j' := by
    intro m
    induction m with
    | zero =>
      intro k j j' hj hj'
      have : j = j' := (List.getElem?_inj (List.getElem?_eq_some_iff.1 hj).1 h.nodup).1 (hj.trans hj'.symm)
      subst this
      exact .refl
    | succ m ih =>
      intro k j j' hj hj'
      obtain ⟨i, hi⟩ := h.edge_number (k + m)
      exact (ih k j i hj hi).tail ⟨_, h.shared hN (k + m) hi hj'⟩
  intro j1 h1 j2 h2
  obtain ⟨k, hk, e1⟩ := h.exists_of_mem (List.getElem_mem h1)
  obtain ⟨l, hl, e2⟩ := h.exists_of_mem (List.getElem_mem h2)
  refine hpath (l + N - k) k j1 j2 (by rw [List.getElem?_eq_getElem h1, e1]) ?_
  rw [List.getElem?_eq_getElem h2, e2, show k + (l + N - k) = l + N by omega, h.next,
    show l + N + 1 = (l + 1) + N by omega, h.next]

theorem coherent (h : ClosedPolygon N edges c) (hN : 3 ≤ N) : CubesCoherent 0 edges := by
  intro e j1 j2 l1 l2 h1 h2 hsh τ1 τ2 hτ1 hτ2
  have hs1 := (hsh.2.2.2 _ _ h1).2 (Or.inl rfl)
  have hs2 := (hsh.2.2.2 _ _ h2).2 (Or.inr rfl)
  have m1 := List.mem_of_getElem? h1
  have m2 := List.mem_of_getElem? h2
  obtain ⟨v, rfl⟩ := isCubeSide_zero ((h.cubes (by omega)) l1 m1).1 hs1
  obtain ⟨k1, -, rfl⟩ := h.exists_of_mem m1
  obtain ⟨k2, -, rfl⟩ := h.exists_of_mem m2
  have hsame : c k1 ≠ c k2 := by
    intro e
    have e' : c (k1 + 1) = c (k2 + 1) := (h.period _ _).2 (((h.period _ _).1 e).add_right 1)
    rw [e, e'] at h1
    exact hsh.1 ((List.getElem?_inj hsh.2.1 h.nodup).1 (h1.trans h2.symm))
  have hsame' : c (k1 + 1) ≠ c (k2 + 1) := by
    intro e
    exact hsame ((h.period _ _).2 (Nat.ModEq.add_right_cancel' 1 ((h.period _ _).1 e)))
  rcases sideSign_edge hτ1 with ⟨a1, rfl⟩ | ⟨a1, rfl⟩ <;> rcases sideSign_edge hτ2 with ⟨a2, rfl⟩ | ⟨a2, rfl⟩
  · exact absurd (a1.symm.trans a2) hsame
  · rfl
  · rfl
  · exact absurd (a1.symm.trans a2) hsame'

theorem isOriented (h : ClosedPolygon N edges c) (hN : 3 ≤ N) (hu : UniqSpec uniq) (hsat : SatSpec solve)
    (ht : fromCubes uniq true 1 edges = .ok t) : Model.isOriented solve t = .ok true :=
  (C76_oriented_exact hu (h.cubes (by omega)) hsat ht (h.connected hN)).2 (h.coherent hN)

theorem closed (h : ClosedPolygon N edges c) (hN : 3 ≤ N) (hu : UniqSpec uniq) (hsat : SatSpec solve)
    (ht : fromCubes uniq true 1 edges = .ok t) : cubicalBoundary solve uniq t = .ok none := by
  have hc := h.cubes (by omega)
  have wf := fromCubes_wf hu hc ht
  rw [cubicalBoundary_eq (h.isOriented hN hu hsat ht), if_pos]
  rw [cubes_bIdx_eq wf, List.length_eq_zero_iff, List.filter_eq_nil_iff]
  intro x hx
  have hx : x < (t.elements[0]?.getD []).length := List.mem_range.1 hx
  have he := List.getElem?_eq_getElem hx
  have hpt := wf.point (by omega) he
  rw [hpt] at he
  have hxN : x < N := by
    have := h.nVertices (by omega) hu ht
    unfold Topo.nElements at this
    omega
  obtain ⟨k, -, hk⟩ := h.surj hxN
  obtain ⟨k', hk'⟩ : ∃ k', c (k' + 1) = x := ⟨k + N - 1, by
    have := h.pos
    rw [show k + N - 1 + 1 = k + N by omega, h.next, hk]⟩
  obtain ⟨j, hj⟩ := h.edge_number k'
  obtain ⟨j', hj'⟩ := h.edge_number (k' + 1)
  have hsh := h.shared hN k' hj hj'
  rw [hk'] at hsh
  have hrows : x < (t.matrix 0).rows := by rw [rows_cubes hu hc ht]; exact hx
  have hco := (coherent_iff_rows hu hc ht).1 (h.coherent hN) x hrows
  have hsum : rowSum t 0 x = 0 := by
    rw [rowSum_eq]
    rcases (twoColumns_of_shared hu hc ht he (List.Perm.refl _) hsh).2 with hz | hz
    · have := hco _ _ hz
      rw [hz]; simpa using this
    · have := hco _ _ hz
      rw [hz]; simpa using this
  rw [hsum]
  decide

end Spec.ClosedPolygon

end Verif
