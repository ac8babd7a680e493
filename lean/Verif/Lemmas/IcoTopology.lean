/-
The icosahedron as a closed oriented surface, and the number of edges of such surfaces.
-/
import Verif.Lemmas.Icosahedron
import Verif.Props.Euler

set_option linter.unusedSectionVars false

namespace Verif

open Model Spec Props

variable {T : List (List Nat)} {t : Topo} {uniq : List (List Nat) → List (List Nat)}
  {solve : List (List Int) → Option (List Int)}

/-- triangles to be reversed to have all face outwards -/
def icoFlip (j : Nat) : Bool :=
  ([true, false, true, false, true, false, true, false, true, false,
    false, true, false, true, false, true, true, false, false, true] : List Bool)[j]?.getD false

/-- a tree of neighbours -/
def icoParent (j : Nat) : Nat :=
  ([0, 0, 0, 1, 2, 7, 8, 16, 18, 4, 0, 1, 10, 17, 19, 12, 2, 10, 3, 11] : List Nat)[j]?.getD 0

theorem ico_simplices : Simplices 3 icoFaces := simplices_of_all (by decide)

theorem ico_surface : OrientedSurface (reorient icoFlip icoFaces) := by
  have hs : Simplices 3 (reorient icoFlip icoFaces) := reorient_simplices ico_simplices _
  have ho : (directedEdges (reorient icoFlip icoFaces)).Nodup := by decide +kernel
  refine ⟨hs, ?_, ho, balanced_iff.mp ?_, ?_⟩
  · have : (reorient icoFlip icoFaces).Pairwise fun a b => ¬ a.isPerm b = true := by decide +kernel
    exact this.imp fun h hp => h (List.isPerm_iff.mpr hp)
  · have : (directedEdges (reorient icoFlip icoFaces)).isPerm
        ((directedEdges (reorient icoFlip icoFaces)).map Prod.swap) = true := by decide +kernel
    exact List.isPerm_iff.mp this
  · have hadj : ∀ j < 20, j ≠ 0 → icoParent j < 20 ∧
        ∃ p ∈ triangleEdges ((reorient icoFlip icoFaces)[j]?.getD []),
          p.swap ∈ triangleEdges ((reorient icoFlip icoFaces)[icoParent j]?.getD []) := by decide +kernel
    have hlen : (reorient icoFlip icoFaces).length = 20 := by decide
    have hrow : ∀ j < 20, (reorient icoFlip icoFaces)[j]? = some ((reorient icoFlip icoFaces)[j]?.getD []) := by
      intro j hj
      rw [List.getElem?_eq_getElem (by rw [hlen]; exact hj)]
      rfl
    have key : ∀ j < 20, j ≠ 0 → Adjacent (reorient icoFlip icoFaces) j (icoParent j) ∧
        Adjacent (reorient icoFlip icoFaces) (icoParent j) j := by
      intro j hj h0
      obtain ⟨h1, ⟨a, b⟩, h2, h3⟩ := hadj j hj h0
      exact ⟨adjacent_of_edges hs ho (hrow j hj) (hrow _ h1) h2 h3,
        adjacent_of_edges hs ho (hrow _ h1) (hrow j hj) h3 h2⟩
    have up : ∀ n, ∀ j < 20, icoParent^[n] j < 20 ∧
        Relation.ReflTransGen (Adjacent (reorient icoFlip icoFaces)) j (icoParent^[n] j) ∧
        Relation.ReflTransGen (Adjacent (reorient icoFlip icoFaces)) (icoParent^[n] j) j := by
      intro n
      induction n with
      | zero => exact fun j hj => ⟨hj, .refl, .refl⟩
      | succ n ih =>
        intro j hj
        obtain ⟨h1, h2, h3⟩ := ih j hj
        rw [Function.iterate_succ_apply']
        by_cases h0 : icoParent^[n] j = 0
        · rw [h0] at h2 h3 ⊢
          exact ⟨by decide, h2, h3⟩
        · obtain ⟨k1, k2⟩ := key _ h1 h0
          exact ⟨(hadj _ h1 h0).1, h2.tail k1, Relation.ReflTransGen.head k2 h3⟩
    have root : ∀ j < 20, icoParent^[8] j = 0 := by decide +kernel
    intro j1 h1 j2 h2
    rw [hlen] at h1 h2
    have u1 := (up 8 j1 h1).2.1
    have u2 := (up 8 j2 h2).2.2
    rw [root j1 h1] at u1
    rw [root j2 h2] at u2
    exact u1.trans u2

theorem ico_used (v : Nat) : (∃ l ∈ icoFaces, v ∈ l) ↔ v < 12 := by
  constructor
  · rintro ⟨l, hl, hv⟩
    exact (show ∀ l ∈ icoFaces, ∀ v ∈ l, v < 12 by decide) l hl v hv
  · intro hv
    exact (show ∀ v < 12, ∃ l ∈ icoFaces, v ∈ l by decide) v hv

theorem ico_used' (flip : Nat → Bool) (v : Nat) : (∃ l ∈ reorient flip icoFaces, v ∈ l) ↔ v < 12 := by
  rw [← ico_used]
  constructor
  · rintro ⟨l, hl, hv⟩
    obtain ⟨j, hj⟩ := List.mem_iff_getElem?.mp hl
    obtain ⟨l', h1, h2⟩ := reorient_row' hj
    exact ⟨l', List.mem_of_getElem? h1, h2.mem_iff.mp hv⟩
  · rintro ⟨l, hl, hv⟩
    obtain ⟨j, hj⟩ := List.mem_iff_getElem?.mp hl
    obtain ⟨l', h1, h2⟩ := reorient_row (flip := flip) hj
    exact ⟨l', List.mem_of_getElem? h1, h2.mem_iff.mpr hv⟩

/-- a result of `fix_orientation` is built from its triangles -/
theorem fix_built (hq : UniqSpec uniq) {n : Nat} {t' : Topo} (ht : WF n T t) (hs : Simplices (n + 1) T)
    (h : fixOrientation solve uniq t = .ok t') {T' : List (List Nat)} (hs' : Simplices (n + 1) T')
    (htop : t'.elements[n]? = some T') : fromSimplices uniq (n + 1) T' = .ok t' := by
  unfold fixOrientation at h
  simp only [bind, Except.bind, ht.lenB, ht.top_eq, Option.getD_some] at h
  split at h
  · simp at h
  next p _ =>
  split at h
  · simp at h
  next rows hw =>
  have hrows : Simplices (n + 1) rows := by
    have hsw : ∀ b : Bool, ∀ l ∈ T, (if b then l else swap01 l).length = n + 1 ∧ (if b then l else swap01 l).Nodup := by
      intro b l hl
      have := hs l hl
      split
      · exact this
      · exact ⟨(swap01_perm l).length_eq.trans this.1, (swap01_perm l).nodup_iff.mpr this.2⟩
    unfold whereRows at hw
    simp only at hw
    split at hw
    · obtain rfl := Except.ok.inj hw
      intro l hl
      obtain ⟨i, hi, rfl⟩ := List.getElem_of_mem hl
      rw [List.getElem_zipWith]
      exact hsw _ _ (List.getElem_mem _)
    · split at hw
      · obtain rfl := Except.ok.inj hw
        intro l hl
        obtain ⟨l0, h0, rfl⟩ := List.mem_map.mp hl
        exact hsw _ _ h0
      · split at hw
        · next h1 =>
          obtain rfl := Except.ok.inj hw
          obtain ⟨l0, rfl⟩ := List.length_eq_one_iff.mp h1
          intro l hl
          obtain ⟨b, h0, rfl⟩ := List.mem_map.mp hl
          exact hsw _ _ (by simp)
        · simp at hw
  have := (fromSimplices_wf hq hrows h).2.top_eq
  rw [htop] at this
  rwa [Option.some.inj this]

/-- a closed oriented surface has three edges for every two triangles -/
theorem surface_edges (wf : WF 2 T t) (h : OrientedSurface T) : 2 * t.nElements 1 = 3 * T.length := by
  obtain ⟨s1, -, d1, -, -⟩ := wf.get (k := 1) (by omega)
  set E := t.elements[1]?.getD [] with hE
  have hedge : ∀ e ∈ E, ∃ a b, e = [a, b] ∧ a ≠ b := by
    intro e he
    obtain ⟨a, b, rfl⟩ : ∃ a b, e = [a, b] := List.length_eq_two.mp (s1 e he).1
    exact ⟨a, b, rfl, by simpa using (s1 _ he).2⟩
  let f : List Nat → List (Nat × Nat) := fun e => [(e[0]?.getD 0, e[1]?.getD 0), (e[1]?.getD 0, e[0]?.getD 0)]
  have hnd : (E.flatMap f).Nodup := by
    rw [List.nodup_flatMap]
    refine ⟨fun e he => ?_, ?_⟩
    · obtain ⟨a, b, rfl, hne⟩ := hedge e he
      simp [f, hne]
    · refine List.Pairwise.imp_of_mem ?_ d1
      intro e e' he he' hp
      obtain ⟨a, b, rfl, hne⟩ := hedge e he
      obtain ⟨a', b', rfl, hne'⟩ := hedge e' he'
      rw [perm_pair] at hp
      simp only [Function.onFun, f, List.getElem?_cons_zero, List.getElem?_cons_succ, Option.getD_some,
        List.disjoint_cons_left, List.disjoint_nil_left, List.mem_cons, List.not_mem_nil, or_false, Prod.mk.injEq, and_true]
      omega
  have hmem : ∀ p, p ∈ E.flatMap f ↔ p ∈ directedEdges T := by
    rintro ⟨x, y⟩
    have hrev : (x, y) ∈ directedEdges T ↔ (y, x) ∈ directedEdges T := by
      rw [← List.count_pos_iff, h.closed x y, List.count_pos_iff]
    have hface : ∀ a b : Nat, (∃ e ∈ E, e.Perm [a, b]) ↔ [a, b].length = 2 ∧ ∃ l ∈ T, [a, b].Subperm l :=
      fun a b => wf.faces h.simplices 1 1 (by omega) [a, b]
    have hdir : ∀ {a b : Nat}, a ≠ b → ((∃ l ∈ T, [a, b].Subperm l) ↔ (a, b) ∈ directedEdges T) := by
      intro a b hab
      constructor
      · rintro ⟨l, hl, hsub⟩
        obtain ⟨p, q, r, rfl⟩ := length_three (h.simplices l hl).1
        have ha : a ∈ [p, q, r] := hsub.subset (by simp)
        have hb : b ∈ [p, q, r] := hsub.subset (by simp)
        have hdd : (a, b) ∈ triangleEdges [p, q, r] ∨ (b, a) ∈ triangleEdges [p, q, r] := by
          simp only [triangleEdges, List.mem_cons, List.not_mem_nil, or_false, Prod.mk.injEq] at ha hb ⊢
          rcases ha with rfl | rfl | rfl <;> rcases hb with rfl | rfl | rfl <;> simp_all
        rcases hdd with hd | hd
        · exact List.mem_flatMap.mpr ⟨_, hl, hd⟩
        · have : (b, a) ∈ directedEdges T := List.mem_flatMap.mpr ⟨_, hl, hd⟩
          rwa [← List.count_pos_iff, ← h.closed a b, List.count_pos_iff] at this
      · intro hp
        obtain ⟨l, hl, hd⟩ := List.mem_flatMap.mp hp
        obtain ⟨p, q, r, rfl⟩ := length_three (h.simplices l hl).1
        refine ⟨_, hl, List.subperm_of_subset (by simpa using hab) fun z hz => ?_⟩
        simp only [triangleEdges, List.mem_cons, List.not_mem_nil, or_false, Prod.mk.injEq] at hd hz ⊢
        rcases hz with rfl | rfl <;> rcases hd with ⟨rfl, rfl⟩ | ⟨rfl, rfl⟩ | ⟨rfl, rfl⟩ <;> simp
    constructor
    · intro hp
      obtain ⟨e, he, hp⟩ := List.mem_flatMap.mp hp
      obtain ⟨a, b, rfl, hne⟩ := hedge e he
      have hin : (a, b) ∈ directedEdges T :=
        (hdir hne).mp ((hface a b).mp ⟨_, he, List.Perm.refl _⟩).2
      simp only [f, List.getElem?_cons_zero, List.getElem?_cons_succ, Option.getD_some, List.mem_cons,
        List.not_mem_nil, or_false, Prod.mk.injEq] at hp
      rcases hp with ⟨rfl, rfl⟩ | ⟨rfl, rfl⟩
      · exact hin
      · exact hrev.mpr hin
    · intro hp
      have hne : x ≠ y := by
        obtain ⟨l, hl, hd⟩ := List.mem_flatMap.mp hp
        exact triangleEdges_ne (h.simplices l hl).2 hd
      obtain ⟨e, he, hpe⟩ := (hface x y).mpr ⟨rfl, (hdir hne).mpr hp⟩
      refine List.mem_flatMap.mpr ⟨e, he, ?_⟩
      obtain ⟨a, b, rfl, -⟩ := hedge e he
      rcases perm_pair.mp hpe with ⟨rfl, rfl⟩ | ⟨rfl, rfl⟩ <;> simp [f]
  have hperm := (List.perm_ext_iff_of_nodup hnd h.once).mpr hmem
  have hl := hperm.length_eq
  have h1 : (E.flatMap f).length = 2 * E.length := by
    rw [List.length_flatMap]
    simp [f, Function.comp_def, mul_comm]
  have h2 : (directedEdges T).length = 3 * T.length := by
    unfold directedEdges
    rw [List.length_flatMap]
    have : T.map (fun l => (triangleEdges l).length) = T.map fun _ => 3 := List.map_congr_left fun l hl => by
      obtain ⟨p, q, r, rfl⟩ := length_three (h.simplices l hl).1
      rfl
    rw [this]
    simp [mul_comm]
  rw [h1, h2] at hl
  exact hl

/-- the topology of the icosahedron -/
theorem ico_topology (hq : UniqSpec uniq) (hsat : SatSpec solve) :
    ∃ t t' flip, fromSimplices uniq 3 icoFaces = .ok t ∧ fixOrientation solve uniq t = .ok t' ∧
      fromSimplices uniq 3 (reorient flip icoFaces) = .ok t' ∧ OrientedSurface (reorient flip icoFaces) := by
  obtain ⟨t, ht⟩ := (C03_accepts_iff hq ico_simplices).mpr ⟨12, ico_used⟩
  have hco : Coherent (reorient icoFlip icoFaces) := closedSurface_coherent ico_surface.simplices ico_surface.closed
  have hlast : ∃ e j', SharedFace icoFaces e (icoFaces.length - 1) j' := by
    have hc := ico_surface.connected 19 (by decide) 0 (by decide)
    rcases Relation.ReflTransGen.cases_head hc with h | ⟨j, ⟨e, he⟩, -⟩
    · simp at h
    · exact ⟨e, j, (sharedFace_reorient ico_simplices _ _ _ _).mp he⟩
  obtain ⟨t', ht'⟩ := (C07_fix_orientation_succeeds_iff hq ico_simplices hsat ht).mpr ⟨⟨_, hco⟩, Or.inr hlast⟩
  obtain ⟨flip, htop, hcof⟩ := C07_fix_orientation_coherent hq ico_simplices hsat ht ht'
  have wf := (fromSimplices_wf hq (n := 2) ico_simplices ht).2
  exact ⟨t, t', flip, ht, ht', fix_built hq wf ico_simplices ht' (reorient_simplices ico_simplices _) htop,
    reorient_surface ico_simplices _ _ ico_surface hcof⟩

end Verif
