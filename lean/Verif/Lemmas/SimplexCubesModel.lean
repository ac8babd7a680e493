/-
The array of cubes that `subdivide_cubical` of a simplicial topology computes.
-/
import Verif.Lemmas.SimplexCubes
import Verif.Model.SimplexCubes

set_option linter.unusedSectionVars false

namespace Verif

open Verif.Model Verif.Spec

/-! ### the entries two rows share -/

theorem repeated_cons (a b : Nat) (t : List Nat) :
    repeated (a :: b :: t) = if a = b then a :: repeated (b :: t) else repeated (b :: t) := by
  unfold repeated
  simp only [List.tail_cons, List.zip_cons_cons, List.filter_cons, beq_iff_eq]
  split <;> rfl

theorem mem_repeated {x : Nat} : ∀ {q : List Nat}, q.Pairwise (· ≤ ·) → (x ∈ repeated q ↔ 2 ≤ q.count x)
  | [], _ => by simp [repeated]
  | [a], _ => by
    have := List.count_le_length (a := x) (l := [a])
    simp only [List.length_singleton] at this
    simp [repeated]
    omega
  | a :: b :: t, h => by
    have ih := mem_repeated (x := x) (q := b :: t) h.of_cons
    rw [repeated_cons, List.count_cons]
    by_cases hab : a = b
    · subst hab
      rw [if_pos rfl, List.mem_cons, ih]
      by_cases hx : a = x
      · subst hx
        simp
      · simp [hx, Ne.symm hx]
    · rw [if_neg hab, ih]
      by_cases hx : a = x
      · subst hx
        have hnot : a ∉ b :: t := by
          intro hm
          have h1 : a ≤ b := List.rel_of_pairwise_cons h (List.mem_cons_self ..)
          rcases List.mem_cons.1 hm with hm | hm
          · exact hab hm
          · have h2 : b ≤ a := List.rel_of_pairwise_cons h.of_cons hm
            omega
        rw [List.count_eq_zero.2 hnot]
        simp
      · simp [hx]

theorem repeated_nodup : ∀ {q : List Nat}, q.Pairwise (· ≤ ·) → (∀ x, q.count x ≤ 2) → (repeated q).Nodup
  | [], _, _ => by simp [repeated]
  | [a], _, _ => by simp [repeated]
  | a :: b :: t, h, hc => by
    have ih := repeated_nodup (q := b :: t) h.of_cons fun x => by
      have := hc x
      rw [List.count_cons] at this
      omega
    rw [repeated_cons]
    split
    · rename_i hab
      refine List.nodup_cons.2 ⟨?_, ih⟩
      rw [mem_repeated h.of_cons]
      have := hc a
      rw [List.count_cons] at this
      simp at this ⊢
      omega
    · exact ih

/-- two rows without repeated entries: the entries they share -/
theorem repeated_perm {p q S : List Nat} (hp : p.Nodup) (hq : q.Nodup) (hS : S.Nodup) (h : ∀ x, x ∈ S ↔ x ∈ p ∧ x ∈ q) :
    (repeated (sortRow (p ++ q))).Perm S := by
  have hcount : ∀ x, (sortRow (p ++ q)).count x = p.count x + q.count x := fun x => by
    rw [(sortRow_perm _).count_eq, List.count_append]
  have hp1 := List.nodup_iff_count_le_one.1 hp
  have hq1 := List.nodup_iff_count_le_one.1 hq
  rw [List.perm_ext_iff_of_nodup (repeated_nodup (sortRow_sorted _) fun x => by
    have := hp1 x; have := hq1 x; rw [hcount]; omega) hS]
  intro x
  rw [mem_repeated (sortRow_sorted _), hcount, h, ← List.count_pos_iff, ← List.count_pos_iff]
  have := hp1 x
  have := hq1 x
  omega

theorem reshapePairs_flatten : ∀ {rows : List (List Nat)}, (∀ r ∈ rows, r.length = 2) → reshapePairs rows.flatten = .ok rows
  | [], _ => rfl
  | r :: rows, h => by
    have hr := h r (List.mem_cons_self ..)
    rcases r with _ | ⟨a, _ | ⟨b, _ | ⟨c, r⟩⟩⟩ <;> simp at hr
    have ih := reshapePairs_flatten (rows := rows) fun r hr => h r (List.mem_cons_of_mem _ hr)
    simp only [List.flatten_cons, List.cons_append, List.nil_append, reshapePairs, ih, bind, Except.bind]

theorem elementIndex_ok {E : List (List Nat)} {row S : List Nat} (h : ∃ e ∈ E, e.Perm S) (hp : row.Perm S) :
    elementIndex E row = .ok (elIdx E S) := by
  have hm := (elIdx_get h).1
  unfold elementIndex elIdx
  rw [(sortRow_eq_iff row S).2 hp, if_pos hm]

theorem map_eq_map {α β γ : Type} {I : List α} {T : List β} {f : α → γ} {g : β → γ} (hlen : I.length = T.length)
    (h : ∀ (j : Nat) (a : α) (b : β), I[j]? = some a → T[j]? = some b → f a = g b) : I.map f = T.map g := by
  refine List.ext_getElem (by simpa using hlen) fun j h1 h2 => ?_
  rw [List.getElem_map, List.getElem_map]
  exact h j _ _ (List.getElem?_eq_getElem (by simpa using h1)) (List.getElem?_eq_getElem (by simpa using h2))

/-- the edges shared by two columns of triangles -/
theorem edgeContainingFaces_eq {t : Topo} {l r : List Nat} {S : List (List Nat)} (hl : l.length = S.length) (hr : r.length = S.length)
    (h : ∀ (j x y : Nat) (s : List Nat), l[j]? = some x → r[j]? = some y → S[j]? = some s →
      ∃ p q, Stored t 2 x p ∧ Stored t 2 y q ∧ p.Nodup ∧ q.Nodup ∧ s.Nodup ∧ s.length = 2 ∧ (∀ v, v ∈ s ↔ v ∈ p ∧ v ∈ q) ∧
        ∃ e ∈ t.elements[1]?.getD [], e.Perm s) :
    edgeContainingFaces t l r = .ok (S.map (elIdx (t.elements[1]?.getD []))) := by
  unfold edgeContainingFaces
  set rows := (List.zipWith (fun a b => sortRow ((t.elements[2]?.getD [])[a]?.getD [] ++ (t.elements[2]?.getD [])[b]?.getD [])) l r).map
    repeated with hrows
  have hlen : rows.length = S.length := by rw [hrows]; simp [hl, hr]
  have hrow : ∀ (j : Nat) (a s : List Nat), rows[j]? = some a → S[j]? = some s → a.Perm s ∧ s.length = 2 ∧
      ∃ e ∈ t.elements[1]?.getD [], e.Perm s := by
    intro j a s ha hs
    have hj := (List.getElem?_eq_some_iff.1 hs).1
    obtain ⟨p, q, h1, h2, h3, h4, h5, h6, h7, h8⟩ := h j _ _ s (List.getElem?_eq_getElem (show j < l.length by omega))
      (List.getElem?_eq_getElem (show j < r.length by omega)) hs
    refine ⟨?_, h6, h8⟩
    rw [hrows, List.getElem?_map, List.getElem?_zipWith, List.getElem?_eq_getElem (show j < l.length by omega),
      List.getElem?_eq_getElem (show j < r.length by omega)] at ha
    simp only [Option.map_some, Option.some.injEq] at ha
    rw [show (t.elements[2]?.getD [])[l[j]]? = some p from h1, show (t.elements[2]?.getD [])[r[j]]? = some q from h2] at ha
    rw [← ha]
    exact repeated_perm h3 h4 h5 h7
  have hmem : ∀ a ∈ rows, ∃ s, a.Perm s ∧ s.length = 2 ∧ ∃ e ∈ t.elements[1]?.getD [], e.Perm s := by
    intro a ha
    obtain ⟨j, hj, rfl⟩ := List.getElem_of_mem ha
    exact ⟨_, hrow j _ _ (List.getElem?_eq_getElem hj) (List.getElem?_eq_getElem (show j < S.length by omega))⟩
  simp only [bind, Except.bind]
  rw [reshapePairs_flatten (rows := rows) fun a ha => by
    obtain ⟨s, h1, h2, -⟩ := hmem a ha
    rw [h1.length_eq, h2]]
  simp only
  rw [mapM_ok _ (elIdx (t.elements[1]?.getD [])) _ fun a ha => by
    obtain ⟨s, h1, -, e, h3, h4⟩ := hmem a ha
    exact elementIndex_ok ⟨e, h3, h4.trans h1.symm⟩ (List.Perm.refl _)]
  congr 1
  refine map_eq_map hlen fun j a s ha hs => ?_
  unfold elIdx
  rw [(sortRow_eq_iff a s).2 (hrow j a s ha hs).1]

/-! ### triangles -/

/-- the corners of a triangle along the axes of the square at corner `i` -/
def order2 (l : List Nat) (i : Nat) : List Nat := [l[(i + 1) % 3]?.getD 0, l[(i + 2) % 3]?.getD 0]

/-- the corners of a tetrahedron along the axes of the cube at corner `i` -/
def order3 (l : List Nat) (i : Nat) : List Nat :=
  [l[(i + 3) % 4]?.getD 0, l[(i + 2) % 4]?.getD 0, l[(i + 1) % 4]?.getD 0]

theorem others2 : Others 2 order2 := by
  intro l i hl hi
  rcases l with _ | ⟨a, _ | ⟨b, _ | ⟨c, _ | ⟨d, l⟩⟩⟩⟩ <;> simp at hl
  interval_cases i
  · exact List.Perm.refl _
  · exact (List.perm_append_comm (l₁ := [b, c]) (l₂ := [a]))
  · exact (List.perm_append_comm (l₁ := [c]) (l₂ := [a, b]))

theorem others3 : Others 3 order3 := by
  intro l i hl hi
  rcases l with _ | ⟨a, _ | ⟨b, _ | ⟨c, _ | ⟨d, _ | ⟨e, l⟩⟩⟩⟩⟩ <;> simp at hl
  have key : ∀ p q : List Nat, p.Perm q.reverse → p.Perm q := fun p q h => h.trans q.reverse_perm
  interval_cases i
  · refine key _ _ (List.perm_append_comm (l₁ := [a]) (l₂ := [d, c, b]))
  · refine key _ _ (List.perm_append_comm (l₁ := [b, a]) (l₂ := [d, c]))
  · refine key _ _ (List.perm_append_comm (l₁ := [c, b, a]) (l₂ := [d]))
  · exact key _ _ (List.Perm.refl _)

variable {n : Nat} {top : List (List Nat)} {t : Topo}

theorem snum_vertex (wf : WF n top t) (htop : Simplices (n + 1) top) (hn : 0 < n) {j v : Nat} {l : List Nat} (hl : l ∈ top)
    (hv : v ∈ l) : snum t n j [v] = v := by
  unfold snum
  rw [if_neg (by simp; omega)]
  show offs t.nElements 0 + _ = v
  simp only [List.length_singleton, Nat.sub_self]
  rw [wf.elIdx_vertex hn htop hl hv]
  simp [offs]

theorem snum_top {j : Nat} {S : List Nat} (h : S.length = n + 1) : snum t n j S = j + levelOffset t n := by
  unfold snum
  rw [if_pos h, Nat.add_comm]

theorem snum_face (wf : WF n top t) {k j x : Nat} {e S : List Nat} (hk : k < n) (hx : Stored t k x e) (hp : e.Perm S)
    (hS : S.length = k + 1) : snum t n j S = x + levelOffset t k := by
  unfold snum
  rw [if_neg (by omega), hS, Nat.add_sub_cancel, ← elIdx_unique (wf.get hk).2.2.1 hx hp, Nat.add_comm]

theorem simplexCubes_two (wf : WF 2 top t) (htop : Simplices 3 top) : simplexCubes t = .ok (cornerCubes t 2 order2 top) := by
  unfold simplexCubes
  simp only [wf.lenB, wf.top_eq, Option.getD_some, if_true, bind, Except.bind]
  congr 1
  unfold cornerCubes
  refine List.ext_getElem (by simp) fun j h1 h2 => ?_
  simp only [List.getElem_map, List.getElem_mapIdx]
  have hj : j < top.length := by simpa using h1
  have hjl := List.getElem?_eq_getElem hj
  obtain ⟨hl3, hln⟩ := htop top[j] (List.getElem_mem hj)
  obtain ⟨-, -, hd, -, -, -, hb⟩ := wf.get (k := 1) (by omega)
  obtain ⟨b, o, g1, -, g3, -, g5⟩ := hb j top[j] (by rw [wf.top_eq]; exact hjl)
  rw [g1, Option.getD_some]
  unfold triangleSquares
  rw [List.map_map]
  refine List.map_congr_left fun i hi => ?_
  have hi : i < 3 := List.mem_range.1 hi
  simp only [Function.comp_apply]
  obtain ⟨x0, -, e0, a0, -, b0, c0, -⟩ := g5 0 (by omega)
  obtain ⟨x1, -, e1, a1, -, b1, c1, -⟩ := g5 1 (by omega)
  obtain ⟨x2, -, e2, a2, -, b2, c2, -⟩ := g5 2 (by omega)
  have hmem : top[j] ∈ top := List.getElem_mem hj
  generalize hl : top[j] = l at *
  rcases l with _ | ⟨u, _ | ⟨v, _ | ⟨w, _ | ⟨_, l⟩⟩⟩⟩ <;> simp at hl3
  rcases b with _ | ⟨y0, _ | ⟨y1, _ | ⟨y2, _ | ⟨_, b⟩⟩⟩⟩ <;> simp at g3
  simp only [List.getElem?_cons_zero, List.getElem?_cons_succ, Option.some.injEq] at a0 a1 a2
  subst a0 a1 a2
  simp only [oppositeCorner, one_ne_zero, if_false, List.eraseIdx_zero, List.tail_cons, List.eraseIdx_cons_succ] at c0 c1 c2
  have V := fun v hv => snum_vertex (j := j) wf htop (by omega) hmem (v := v) hv
  have F0 := fun S hS h => snum_face (j := j) (S := S) wf (by omega) b0 (c0.trans h) hS
  have F1 := fun S hS h => snum_face (j := j) (S := S) wf (by omega) b1 (c1.trans h) hS
  have F2 := fun S hS h => snum_face (j := j) (S := S) wf (by omega) b2 (c2.trans h) hS
  have T := fun S hS => snum_top (t := t) (n := 2) (j := j) (S := S) hS
  have L0 : levelOffset t 0 = 0 := rfl
  interval_cases i
  · simp [between, order2, addCornerOffsets, cubeOf, cubeIndices, rolled, L0]
    exact ⟨(V u (by simp)).symm, (F1 _ rfl (.refl _)).symm, (F2 _ rfl (.refl _)).symm, (T _ rfl).symm⟩
  · simp [between, order2, addCornerOffsets, cubeOf, cubeIndices, rolled, L0]
    exact ⟨(V v (by simp)).symm, (F2 _ rfl (.swap _ _ _)).symm, (F0 _ rfl (.refl _)).symm, (T _ rfl).symm⟩
  · simp [between, order2, addCornerOffsets, cubeOf, cubeIndices, rolled, L0]
    exact ⟨(V w (by simp)).symm, (F0 _ rfl (.swap _ _ _)).symm, (F1 _ rfl (.swap _ _ _)).symm, (T _ rfl).symm⟩

/-! ### tetrahedra -/

/-- two faces of a tetrahedron share the edge between the other corners -/
theorem mem_shared {l : List Nat} (hl : l.length = 4) (hn : l.Nodup) {c d i m : Nat} (hc : c < 4) (hd : d < 4) (hi : i < 4)
    (hm : m < 4) (hcd : c ≠ d) (hci : c ≠ i) (hcm : c ≠ m) (hdi : d ≠ i) (hdm : d ≠ m) (him : i ≠ m) (v : Nat) :
    v ∈ [l[i]?.getD 0, l[m]?.getD 0] ↔ v ∈ l.eraseIdx c ∧ v ∈ l.eraseIdx d := by
  rw [List.mem_eraseIdx_iff_getElem?, List.mem_eraseIdx_iff_getElem?, List.getElem?_eq_getElem (by omega),
    List.getElem?_eq_getElem (by omega)]
  simp only [Option.getD_some, List.mem_cons, List.not_mem_nil, or_false]
  constructor
  · rintro (rfl | rfl)
    · exact ⟨⟨i, Ne.symm hci, List.getElem?_eq_getElem (by omega)⟩, i, Ne.symm hdi, List.getElem?_eq_getElem (by omega)⟩
    · exact ⟨⟨m, Ne.symm hcm, List.getElem?_eq_getElem (by omega)⟩, m, Ne.symm hdm, List.getElem?_eq_getElem (by omega)⟩
  · rintro ⟨⟨a, h1, h2⟩, a', h3, h4⟩
    obtain ⟨ha, h2⟩ := List.getElem?_eq_some_iff.1 h2
    obtain ⟨ha', h4⟩ := List.getElem?_eq_some_iff.1 h4
    obtain rfl := hn.getElem_inj_iff.1 (h2.trans h4.symm)
    have : a = i ∨ a = m := by omega
    rcases this with rfl | rfl
    · exact Or.inl h2.symm
    · exact Or.inr h2.symm

theorem edge_column (wf : WF 3 top t) (htop : Simplices 4 top) {i k k' m : Nat} (hi : i < 4) (hm : m < 4)
    (h1 : (i + 4 - k) % 4 ≠ (i + 4 - k') % 4) (h2 : (i + 4 - k) % 4 ≠ i) (h3 : (i + 4 - k) % 4 ≠ m)
    (h4 : (i + 4 - k') % 4 ≠ i) (h5 : (i + 4 - k') % 4 ≠ m) (h6 : i ≠ m) :
    edgeContainingFaces t ((t.boundary[2]?.getD []).map fun row => rolled row k i)
      ((t.boundary[2]?.getD []).map fun row => rolled row k' i) =
      .ok (top.map fun l => elIdx (t.elements[1]?.getD []) [l[i]?.getD 0, l[m]?.getD 0]) := by
  obtain ⟨hE2, -, -, -, hb0, -, hb⟩ := wf.get (k := 2) (by omega)
  rw [wf.top_eq, Option.getD_some] at hb0
  rw [show (top.map fun l => elIdx (t.elements[1]?.getD []) [l[i]?.getD 0, l[m]?.getD 0]) =
    (top.map fun l => [l[i]?.getD 0, l[m]?.getD 0]).map (elIdx (t.elements[1]?.getD [])) by rw [List.map_map]; rfl]
  refine edgeContainingFaces_eq (by simp [hb0]) (by simp [hb0]) ?_
  intro j x y s hx hy hs
  rw [List.getElem?_map] at hx hy hs
  obtain ⟨row, g1, rfl⟩ := Option.map_eq_some_iff.1 hx
  obtain ⟨row', g1', rfl⟩ := Option.map_eq_some_iff.1 hy
  obtain rfl := Option.some.inj (g1.symm.trans g1')
  obtain ⟨l, hl, rfl⟩ := Option.map_eq_some_iff.1 hs
  obtain ⟨hl4, hln⟩ := htop l (List.mem_of_getElem? hl)
  obtain ⟨b, o, g2, -, g3, -, g5⟩ := hb j l (by rw [wf.top_eq]; exact hl)
  obtain rfl := Option.some.inj (g1.symm.trans g2)
  have hrol : ∀ k : Nat, (i + 4 - k) % 4 < 4 := fun k => Nat.mod_lt _ (by omega)
  obtain ⟨x, -, p, a1, -, a3, a4, -⟩ := g5 ((i + 4 - k) % 4) (hrol k)
  obtain ⟨y, -, q, c1, -, c3, c4, -⟩ := g5 ((i + 4 - k') % 4) (hrol k')
  simp only [oppositeCorner, OfNat.ofNat_ne_zero, if_false] at a4 c4
  have e1 : rolled row k i = x := by unfold rolled; rw [g3, a1]; rfl
  have e2 : rolled row k' i = y := by unfold rolled; rw [g3, c1]; rfl
  rw [e1, e2]
  have hii := List.getElem?_eq_getElem (show i < l.length by omega)
  have hmm := List.getElem?_eq_getElem (show m < l.length by omega)
  have hne : l[i]?.getD 0 ≠ l[m]?.getD 0 := by
    rw [hii, hmm]
    exact fun h => h6 (hln.getElem_inj_iff.1 h)
  refine ⟨p, q, a3, c3, (hE2 p (List.mem_of_getElem? a3)).2, (hE2 q (List.mem_of_getElem? c3)).2, by simpa using hne, rfl, ?_, ?_⟩
  · intro v
    rw [a4.mem_iff, c4.mem_iff]
    exact mem_shared hl4 hln (hrol k) (hrol k') hi hm h1 h2 h3 h4 h5 h6 v
  · refine wf.hasFace htop (k := 1) (by omega) (List.mem_of_getElem? hl) ?_ rfl
    refine List.subperm_of_subset (by simpa using hne) ?_
    intro v hv
    rw [hii, hmm] at hv
    simp only [Option.getD_some, List.mem_cons, List.not_mem_nil, or_false] at hv
    rcases hv with rfl | rfl <;> exact List.getElem_mem _

theorem assignColumn_ok {N : Nat} {col : List Nat} (h : col.length = N) : assignColumn N col = .ok col := by
  unfold assignColumn
  rw [if_pos h]

theorem tetrahedronCubes_eq (wf : WF 3 top t) (htop : Simplices 4 top) {i : Nat} (hi : i < 4) :
    ∃ cubes, tetrahedronCubes t i = .ok cubes ∧ cubes.length = top.length ∧
      ∀ (j : Nat) (l : List Nat), top[j]? = some l →
        addCornerOffsets t 3 (cubes[j]?.getD []) = between (snum t 3 j) [l[i]?.getD 0] (order3 l i) := by
  unfold tetrahedronCubes
  simp only [wf.top_eq, Option.getD_some, bind, Except.bind]
  rw [edge_column wf htop (k := 2) (k' := 3) (m := (i + 3) % 4) hi (by omega) (by omega) (by omega) (by omega) (by omega)
    (by omega) (by omega)]
  simp only [assignColumn_ok, List.length_map]
  rw [edge_column wf htop (k := 1) (k' := 3) (m := (i + 2) % 4) hi (by omega) (by omega) (by omega) (by omega) (by omega)
    (by omega) (by omega)]
  simp only [assignColumn_ok, List.length_map]
  rw [edge_column wf htop (k := 2) (k' := 1) (m := (i + 1) % 4) hi (by omega) (by omega) (by omega) (by omega) (by omega)
    (by omega) (by omega)]
  simp only [assignColumn_ok, List.length_map]
  refine ⟨_, rfl, by simp, ?_⟩
  intro j l hl
  obtain ⟨hl4, hln⟩ := htop l (List.mem_of_getElem? hl)
  obtain ⟨-, -, -, -, -, -, hb⟩ := wf.get (k := 2) (by omega)
  obtain ⟨b, o, g1, -, g3, -, g5⟩ := hb j l (by rw [wf.top_eq]; exact hl)
  simp only [List.getElem?_mapIdx, List.getElem?_map, hl, g1, Option.map_some, Option.getD_some]
  obtain ⟨x0, -, e0, a0, -, b0, c0, -⟩ := g5 0 (by omega)
  obtain ⟨x1, -, e1, a1, -, b1, c1, -⟩ := g5 1 (by omega)
  obtain ⟨x2, -, e2, a2, -, b2, c2, -⟩ := g5 2 (by omega)
  obtain ⟨x3, -, e3, a3, -, b3, c3, -⟩ := g5 3 (by omega)
  have hmem : l ∈ top := List.mem_of_getElem? hl
  rcases l with _ | ⟨u, _ | ⟨v, _ | ⟨w, _ | ⟨z, _ | ⟨_, l⟩⟩⟩⟩⟩ <;> simp at hl4
  rcases b with _ | ⟨y0, _ | ⟨y1, _ | ⟨y2, _ | ⟨y3, _ | ⟨_, b⟩⟩⟩⟩⟩ <;> simp at g3
  simp only [List.getElem?_cons_zero, List.getElem?_cons_succ, Option.some.injEq] at a0 a1 a2 a3
  subst a0 a1 a2 a3
  simp only [oppositeCorner, OfNat.ofNat_ne_zero, if_false, List.eraseIdx_zero, List.tail_cons, List.eraseIdx_cons_succ] at c0 c1 c2 c3
  have V := fun v hv => snum_vertex (j := j) wf htop (by omega) hmem (v := v) hv
  have F0 := fun S hS h => snum_face (j := j) (S := S) wf (by omega) b0 (c0.trans h) hS
  have F1 := fun S hS h => snum_face (j := j) (S := S) wf (by omega) b1 (c1.trans h) hS
  have F2 := fun S hS h => snum_face (j := j) (S := S) wf (by omega) b2 (c2.trans h) hS
  have F3 := fun S hS h => snum_face (j := j) (S := S) wf (by omega) b3 (c3.trans h) hS
  have T := fun S hS => snum_top (t := t) (n := 3) (j := j) (S := S) hS
  have E : ∀ a b : Nat, snum t 3 j [a, b] = elIdx (t.elements[1]?.getD []) [a, b] + levelOffset t 1 := fun a b => by
    unfold snum
    rw [if_neg (by simp), Nat.add_comm]
    rfl
  have L0 : levelOffset t 0 = 0 := rfl
  have R : ∀ a b c : Nat, [a, b, c].Perm [c, b, a] := fun a b c => ([c, b, a].reverse_perm)
  have R1 : ∀ a b c : Nat, [a, b, c].Perm [b, a, c] := fun a b c => .swap _ _ _
  have R2 : ∀ a b c : Nat, [a, b, c].Perm [a, c, b] := fun a b c => .cons _ (.swap _ _ _)
  interval_cases i
  · simp [between, order3, addCornerOffsets, cubeOf, cubeIndices, rolled, L0]
    exact ⟨(V u (by simp)).symm, (E _ _).symm, (E _ _).symm, (F3 _ rfl (R2 _ _ _)).symm, (E _ _).symm,
      (F2 _ rfl (R2 _ _ _)).symm, (F1 _ rfl (R2 _ _ _)).symm, (T _ rfl).symm⟩
  · simp [between, order3, addCornerOffsets, cubeOf, cubeIndices, rolled, L0]
    exact ⟨(V v (by simp)).symm, (E _ _).symm, (E _ _).symm, (F0 _ rfl (R2 _ _ _)).symm, (E _ _).symm,
      (F3 _ rfl ((R1 _ _ _).trans (.refl _))).symm, (F2 _ rfl ((R1 _ _ _).trans (.refl _))).symm, (T _ rfl).symm⟩
  · simp [between, order3, addCornerOffsets, cubeOf, cubeIndices, rolled, L0]
    exact ⟨(V w (by simp)).symm, (E _ _).symm, (E _ _).symm, (F1 _ rfl ((R1 _ _ _).trans (.refl _))).symm, (E _ _).symm,
      (F0 _ rfl ((R1 _ _ _).trans (.refl _))).symm, (F3 _ rfl (R _ _ _)).symm, (T _ rfl).symm⟩
  · simp [between, order3, addCornerOffsets, cubeOf, cubeIndices, rolled, L0]
    exact ⟨(V z (by simp)).symm, (E _ _).symm, (E _ _).symm, (F2 _ rfl (R _ _ _)).symm, (E _ _).symm,
      (F1 _ rfl (R _ _ _)).symm, (F0 _ rfl (R _ _ _)).symm, (T _ rfl).symm⟩

theorem simplexCubes_three (wf : WF 3 top t) (htop : Simplices 4 top) : simplexCubes t = .ok (cornerCubes t 3 order3 top) := by
  classical
  unfold simplexCubes
  let col : Nat → List (List Nat) := fun i => if h : i < 4 then (tetrahedronCubes_eq wf htop h).choose else []
  have hcol : ∀ i (h : i < 4), tetrahedronCubes t i = .ok (col i) ∧ (col i).length = top.length ∧
      ∀ (j : Nat) (l : List Nat), top[j]? = some l →
        addCornerOffsets t 3 ((col i)[j]?.getD []) = between (snum t 3 j) [l[i]?.getD 0] (order3 l i) := by
    intro i h
    simp only [col, dif_pos h]
    exact (tetrahedronCubes_eq wf htop h).choose_spec
  simp only [wf.lenB, wf.top_eq, Option.getD_some, if_true, bind, Except.bind, Nat.reduceEqDiff, if_false]
  rw [mapM_ok _ col _ fun i hi => (hcol i (List.mem_range.1 hi)).1]
  simp only
  congr 1
  unfold cornerCubes
  refine List.ext_getElem (by simp) fun j h1 h2 => ?_
  have hj : j < top.length := by simpa using h1
  simp only [List.getElem_map, List.getElem_mapIdx, List.getElem_range]
  rw [List.map_map, List.map_map]
  refine List.map_congr_left fun i hi => ?_
  exact (hcol i (List.mem_range.1 hi)).2.2 j _ (List.getElem?_eq_getElem hj)

end Verif
