/-
C19, C20: cubical topologies built by `TopologyCubical.from_cubes`, and the table of cube symmetries.
-/
import Verif.Lemmas.CubeChain

set_option linter.unusedSectionVars false

namespace Verif.Props

open Verif.Model Verif.Spec

variable {n : Nat}

/-! ## C20 -/

/-- C20: the table has an entry for every choice of axes and flips, `2 ^ n * n!` together. -/
theorem C20_count (hn : 1 ≤ n) : (cubePermutationMap n true).length = 2 ^ n * n.factorial := by
  have hne : List.range n ≠ [] := by
    rw [Ne, List.range_eq_nil]; omega
  unfold cubePermutationMap
  simp only [if_true, List.length_flatMap, List.length_map, cubeIndices_length, List.map_const',
    List.sum_replicate, smul_eq_mul]
  rw [C01_permutations_count _ hne, List.length_range, Nat.mul_comm]

/-- C20: the rows of the table are the numbers of the corners seen along other axes, for every permutation of the
axes and every set of reversed axes, and the parity is that of the permutation plus the number of reversed
axes. -/
theorem C20_exact (hn : 1 ≤ n) (p : Nat) (row : List Nat) :
    (p, row) ∈ cubePermutationMap n true ↔ ∃ axes flips, IsSymmetry n axes flips ∧
      row = turn n axes flips (List.range (2 ^ n)) ∧ p = (inversions axes + flips.count true) % 2 :=
  mem_cubePermutationMap hn

/-- C20: no row of the table is listed twice. -/
theorem C20_nodup (hn : 1 ≤ n) : ((cubePermutationMap n true).map Prod.snd).Nodup := by
  have hne : List.range n ≠ [] := by
    rw [Ne, List.range_eq_nil]; omega
  have hperm := C01_permutations_nodup (List.range n) hne List.nodup_range
  have hmem : ∀ ps ∈ permutations (List.range n), ps.2.Perm (List.range n) := fun ps h =>
    ((C01_permutations_exact (List.range n) hne List.nodup_range ps.1 ps.2).1 h).1
  unfold cubePermutationMap
  simp only [if_true, List.map_flatMap, List.map_map]
  rw [List.nodup_flatMap]
  have hlen : (List.range (2 ^ n)).length = 2 ^ n := List.length_range
  constructor
  · intro ps hps
    refine List.Nodup.map_on ?_ (cubeIndices_nodup n)
    intro c hc c' hc' h
    rw [mem_cubeIndices] at hc hc'
    simp only [Function.comp_apply, flipAxes_eq_turn (hmem ps hps) hc, flipAxes_eq_turn (hmem ps hps) hc'] at h
    exact (turn_inj hlen List.nodup_range ⟨hmem ps hps, hc⟩ ⟨hmem ps hps, hc'⟩ h).2
  · rw [List.nodup_map_iff_inj_on (List.Nodup.of_map _ hperm)] at hperm
    refine List.Pairwise.imp_of_mem ?_ (List.Nodup.of_map _ (C01_permutations_nodup (List.range n) hne List.nodup_range))
    intro ps ps' hps hps' hne row h1 h2
    obtain ⟨c, hc, h1⟩ := List.mem_map.1 h1
    obtain ⟨c', hc', h2⟩ := List.mem_map.1 h2
    rw [mem_cubeIndices] at hc hc'
    simp only [Function.comp_apply, flipAxes_eq_turn (hmem ps hps) hc] at h1
    simp only [Function.comp_apply, flipAxes_eq_turn (hmem ps' hps') hc'] at h2
    exact hne (hperm ps hps ps' hps'
      (turn_inj hlen List.nodup_range ⟨hmem ps hps, hc⟩ ⟨hmem ps' hps', hc'⟩ (h1.trans h2.symm)).1)

/-- C20: for two cubes with the same corners the lookup gives the sign of the symmetry between them, and a
`ValueError` if there is none. -/
theorem C20_lookup (hn : 1 ≤ n) {b c : List Nat} (hb : Cubes n [b]) (hp : b.Perm c) :
    (∀ p, relativeCubeParity n (relativePermutation (argsort b) (argsort c)) = .ok p ↔
      p < 2 ∧ SymmetricCube n b c ((-1) ^ p)) ∧
    (relativeCubeParity n (relativePermutation (argsort b) (argsort c)) = .error .valueError ↔
      ¬ ∃ σ, SymmetricCube n b c σ) := by
  obtain ⟨h1, h2⟩ := hb b (List.mem_singleton_self _)
  have hiff : ∀ p, relativeCubeParity n (relativePermutation (argsort b) (argsort c)) = .ok p ↔
      p < 2 ∧ SymmetricCube n b c ((-1) ^ p) := fun p => relativeCubeParity_iff hn h1 h2 hp
  refine ⟨hiff, ?_⟩
  cases hr : relativeCubeParity n (relativePermutation (argsort b) (argsort c)) with
  | ok p =>
    simp only [reduceCtorEq, false_iff, not_not]
    exact ⟨_, ((hiff p).1 hr).2⟩
  | error e =>
    have he : e = .valueError := by
      unfold relativeCubeParity at hr
      split at hr
      · simp at hr
      · simpa using hr.symm
    subst he
    simp only [true_iff]
    rintro ⟨σ, hσ⟩
    rcases hσ.sign with rfl | rfl
    · have := (hiff 0).2 ⟨by omega, by simpa using hσ⟩
      rw [hr] at this
      simp at this
    · have := (hiff 1).2 ⟨by omega, by simpa using hσ⟩
      rw [hr] at this
      simp at this

/-- C20: the sign is well defined and multiplicative, so it does not matter which of the cubes with the same
corners is taken as the reference. -/
theorem C20_multiplicative {e l m : List Nat} (he : Cubes n [e]) {s s' : ℤ} (h : SymmetricCube n e l s)
    (h' : SymmetricCube n l m s') :
    SymmetricCube n e m (s * s') ∧ SymmetricCube n l e s ∧ ∀ r, SymmetricCube n e m r → r = s * s' := by
  obtain ⟨h1, h2⟩ := he e (List.mem_singleton_self _)
  have ht := h.trans h1 h2 h'
  exact ⟨ht, h.symm h1 h2, fun r hr => SymmetricCube.unique h1 h2 hr ht⟩

/-- C20: without rotations the table keeps the `2 ^ n` mirror images only. -/
theorem C20_mirrors (p : Nat) (row : List Nat) :
    (p, row) ∈ cubePermutationMap n false ↔ ∃ flips : List Bool, flips.length = n ∧
      row = turn n (List.range n) flips (List.range (2 ^ n)) ∧ p = flips.count true % 2 := by
  unfold cubePermutationMap
  simp only [Bool.false_eq_true, if_false, List.flatMap_cons, List.flatMap_nil, List.append_nil, List.mem_map,
    Prod.mk.injEq, zero_add]
  constructor
  · rintro ⟨c, hc, h1, h2⟩
    rw [mem_cubeIndices] at hc
    exact ⟨c, hc, by rw [← h2, flipAxes_eq_turn (List.Perm.refl _) hc], h1.symm⟩
  · rintro ⟨c, hc, rfl, rfl⟩
    exact ⟨c, mem_cubeIndices.2 hc, rfl, flipAxes_eq_turn (List.Perm.refl _) hc _⟩

/-- C20: there is no table for points. -/
theorem C20_points : cubePermutationMap 0 true = [] := rfl

-- a quad and its transpose, of opposite sign; a permutation of the corners that is no symmetry
example : relativeCubeParity 2 (relativePermutation (argsort [5, 7, 6, 9]) (argsort [5, 6, 7, 9])) = .ok 1 ∧
    relativeCubeParity 2 (relativePermutation (argsort [5, 7, 6, 9]) (argsort [5, 7, 9, 6])) =
      .error .valueError ∧
    relativeCubeParity 2 (relativePermutation (argsort [5, 7, 6, 9]) (argsort [6, 5, 9, 7])) = .ok 0 := by
  decide +kernel

example : Cubes 2 [[5, 7, 6, 9]] ∧ [5, 7, 6, 9].Perm [5, 7, 9, 6] := by
  refine ⟨?_, by decide⟩
  intro l hl
  rw [List.mem_singleton] at hl
  subst hl
  decide

/-! ## C19 -/

variable {uniq : List (List Nat) → List (List Nat)} {cubes : List (List Nat)} {t : Topo}

/-- C19: for every list of `n`-cubes that `from_cubes` accepts, the product of any two consecutive incidence matrices
exists and is zero. -/
theorem C19_boundary_of_boundary (hu : UniqSpec uniq) (hc : Cubes n cubes)
    (h : fromCubes uniq true n cubes = .ok t) (k : Nat) (hk : k + 1 < t.boundary.length) :
    ∃ M, (t.matrix k).mul (t.matrix (k + 1)) = .ok M ∧
      M.rows = t.nElements k ∧ M.cols = t.nElements (k + 2) ∧
      ∀ i < M.rows, ∀ j < M.cols, M.entry i j = 0 := by
  have wf := fromCubes_wf hu hc h
  rw [wf.lenB] at hk
  have s1 := wf.shape (k := k) (by omega)
  have s2 := wf.shape (k := k + 1) hk
  refine ⟨⟨_, _, _⟩, if_pos (by rw [s1.2, s2.1]), s1.1, s2.2, ?_⟩
  intro i hi j hj
  simp only
  rw [s1.2]
  exact wf.chain hk (by rw [← s1.1]; exact hi) (by rw [← s2.2]; exact hj)

/-- C19: the levels. -/
theorem C19_levels (hu : UniqSpec uniq) (hc : Cubes n cubes) (h : fromCubes uniq true n cubes = .ok t) :
    t.elements.length = n + 1 ∧ t.boundary.length = n ∧ t.orientation.length = n ∧
      t.elements[n]? = some cubes := by
  have wf := fromCubes_wf hu hc h
  exact ⟨wf.lenE, wf.lenB, wf.lenO, wf.top_eq⟩

/-- C19: the stored `k`-cubes are `k`-cubes with pairwise different corner sets, they are the sides of the stored
`(k+1)`-cubes, and the slots of the boundary arrays hold the sides with their signs. -/
theorem C19_boundary (hu : UniqSpec uniq) (hc : Cubes n cubes) (h : fromCubes uniq true n cubes = .ok t)
    (k : Nat) (hk : k < n) : ∃ E F B O, t.elements[k]? = some E ∧ t.elements[k + 1]? = some F ∧
      t.boundary[k]? = some B ∧ t.orientation[k]? = some O ∧
      Cubes k E ∧ DistinctElements E ∧ SidesOf k E F ∧ CubeBoundary k E F B O := by
  obtain ⟨E, F, B, O, g1, g2, g3, g4, g5, -, g7, g8, g9⟩ := (fromCubes_wf hu hc h).level k hk
  exact ⟨E, F, B, O, g1, g2, g3, g4, g5, g7, g8, g9⟩

/-- different sides of a cube have different corners -/
theorem side_perm_inj {k : Nat} {l : List Nat} (hl : l.length = 2 ^ (k + 1)) (hn : l.Nodup) {i i' : Nat}
    (hi : i ≤ k) (hi' : i' ≤ k) {s s' : Bool} (hp : (side k i s l).Perm (side k i' s' l)) : i = i' ∧ s = s' := by
  by_contra hne
  obtain ⟨b, hb, h1, h2⟩ : ∃ b : List Bool, b.length = k + 1 ∧ b[i]? = some s ∧ b[i']? ≠ some s' := by
    by_cases hii : i = i'
    · subst hii
      refine ⟨List.replicate (k + 1) s, by simp, ?_, ?_⟩
      · rw [List.getElem?_replicate, if_pos (by omega)]
      · rw [List.getElem?_replicate, if_pos (by omega)]
        simpa using fun h => hne ⟨rfl, h⟩
    · refine ⟨(List.range (k + 1)).map fun j => if j = i then s else !s', by simp, ?_, ?_⟩
      · rw [List.getElem?_map, List.getElem?_range (by omega)]
        simp
      · rw [List.getElem?_map, List.getElem?_range (by omega)]
        simp [Ne.symm hii]
  have hm : cubeAt l b ∈ side k i s l :=
    List.mem_map.2 ⟨b, List.mem_filter.2 ⟨mem_cubeIndices.2 hb, by simpa using h1⟩, rfl⟩
  obtain ⟨b', hb', he⟩ := List.mem_map.1 (hp.mem_iff.1 hm)
  obtain ⟨hb1, hb2⟩ := List.mem_filter.1 hb'
  have := cubeAt_inj hl hn (mem_cubeIndices.1 hb1) hb he
  subst this
  exact h2 (by simpa using hb2)

/-- C19: the entries of the incidence matrices.  Where the stored cube `e` is a side of the stored cube `l`, the entry
is the sign of the side relative to `e`, with alternating signs for sides and axes; everywhere else it
is zero. -/
theorem C19_entries (hu : UniqSpec uniq) (hc : Cubes n cubes) (h : fromCubes uniq true n cubes = .ok t)
    (k : Nat) (hk : k < n) (x j : Nat) (e l : List Nat) (he : (t.elements[k]?.getD [])[x]? = some e)
    (hl : (t.elements[k + 1]?.getD [])[j]? = some l) :
    (∀ i ≤ k, ∀ s σ, SymmetricCube k e (side k i s l) σ →
      (t.matrix k).entry x j = - ((-1) ^ (i + s.toNat) * σ)) ∧
    ((∀ i ≤ k, ∀ s, ¬ e.Perm (side k i s l)) → (t.matrix k).entry x j = 0) := by
  have wf := fromCubes_wf hu hc h
  obtain ⟨h1, h2, h3, h4, h5⟩ := wf.get hk
  have hee := h1 e (List.mem_of_getElem? he)
  have hll := h2 l (List.mem_of_getElem? hl)
  have hent : (t.matrix k).entry x j = - ccob k (csign k e) l := entry_eq_ccob h1 h3 h5 he hl
  have hzero : ∀ i ≤ k, ∀ s, ¬ e.Perm (side k i s l) → csign k e (sliceAxis k i s l) = 0 := by
    intro i hi s hne
    apply csign_none
    rintro ⟨σ, hσ⟩
    rw [← side_eq hi] at hσ
    exact hne (hσ.perm hee.1).symm
  constructor
  · intro i hi s σ hσ
    rw [hent]
    have hother : ∀ i' ≤ k, ∀ s', ¬ (i' = i ∧ s' = s) → csign k e (sliceAxis k i' s' l) = 0 := by
      intro i' hi' s' hne
      apply hzero i' hi' s'
      intro hp
      obtain ⟨h6, h7⟩ := side_perm_inj hll.1 hll.2 hi hi' ((hσ.perm hee.1).trans hp)
      exact hne ⟨h6.symm, h7.symm⟩
    have hself : csign k e (sliceAxis k i s l) = σ := by
      rw [side_eq hi] at hσ
      exact csign_eq hee.1 hee.2 hσ
    unfold ccob
    rw [Finset.sum_eq_single i]
    · unfold sideDiff
      cases s
      · rw [hself, hother i hi true (by simp)]
        simp
      · rw [hself, hother i hi false (by simp)]
        simp [pow_succ]
    · intro a ha hai
      have ha : a ≤ k := by have := Finset.mem_range.1 ha; omega
      unfold sideDiff
      rw [hother a ha false (by simp [hai]), hother a ha true (by simp [hai])]
      simp
    · intro hni
      exact absurd (Finset.mem_range.2 (by omega)) hni
  · intro hne
    rw [hent]
    unfold ccob
    rw [Finset.sum_eq_zero]
    · simp
    · intro a ha
      have ha : a ≤ k := by have := Finset.mem_range.1 ha; omega
      unfold sideDiff
      rw [hzero a ha false (hne a ha false), hzero a ha true (hne a ha true)]
      simp

/-- one level down from a face of codimension `d` -/
theorem isCubeFace_succ : ∀ (d k : Nat) (l f : List Nat), IsCubeFace (d + 1) k l f ↔
    ∃ g, IsCubeFace d (k + 1) l g ∧ ∃ i ≤ k, ∃ s, f = side k i s g := by
  intro d
  induction d with
  | zero =>
    intro k l f
    constructor
    · rintro ⟨i, hi, s, rfl⟩
      exact ⟨l, rfl, i, hi, s, rfl⟩
    · rintro ⟨g, rfl, i, hi, s, rfl⟩
      exact ⟨i, hi, s, rfl⟩
  | succ d ih =>
    intro k l f
    constructor
    · rintro ⟨i, hi, s, hf⟩
      obtain ⟨g, hg, hs⟩ := (ih _ _ _).1 hf
      refine ⟨g, ⟨i, by omega, s, ?_⟩, hs⟩
      rwa [show k + 1 + d = k + (d + 1) by omega]
    · rintro ⟨g, ⟨i, hi, s, hg⟩, hs⟩
      refine ⟨i, by omega, s, (ih _ _ _).2 ⟨g, ?_, hs⟩⟩
      rwa [show k + (d + 1) = k + 1 + d by omega]

/-- C19: the stored `k`-cubes are the faces of dimension `k` of the given cubes. -/
theorem C19_elements_are_faces (hu : UniqSpec uniq) (hc : Cubes n cubes)
    (h : fromCubes uniq true n cubes = .ok t) (d : Nat) : ∀ k, k + d = n →
    (∀ e ∈ t.elements[k]?.getD [], ∃ l ∈ cubes, ∃ f σ, IsCubeFace d k l f ∧ SymmetricCube k e f σ) ∧
    (∀ l ∈ cubes, ∀ f, IsCubeFace d k l f → ∃ e ∈ t.elements[k]?.getD [], ∃ σ, SymmetricCube k e f σ) := by
  have wf := fromCubes_wf hu hc h
  have hcubes : ∀ k ≤ n, Cubes k (t.elements[k]?.getD []) := by
    intro k hk
    rcases Nat.lt_or_ge k n with hlt | hge
    · exact (wf.get hlt).1
    · have : k = n := by omega
      subst this
      rw [wf.top_eq]
      exact hc
  induction d with
  | zero =>
    intro k hk
    have : k = n := by omega
    subst this
    rw [wf.top_eq, Option.getD_some]
    exact ⟨fun e he => ⟨e, he, e, 1, rfl, SymmetricCube.refl (hc e he).1⟩,
      fun l hl f hf => ⟨l, hl, 1, by rw [show f = l from hf]; exact SymmetricCube.refl (hc l hl).1⟩⟩
  | succ d ih =>
    intro k hk
    obtain ⟨ih1, ih2⟩ := ih (k + 1) (by omega)
    obtain ⟨h1, h2, h3, h4, h5⟩ := wf.get (k := k) (by omega)
    constructor
    · intro e he
      obtain ⟨g, hg, i, hi, s, σ, hσ⟩ := h4.2 e he
      obtain ⟨l, hl, f, τ, hf, hgf⟩ := ih1 g hg
      have hfc := hf.cube (by rw [show k + 1 + d = n by omega]; exact (hc l hl).1) (hc l hl).2
      obtain ⟨i', hi', t', ρ, hρ⟩ := SymmetricCube.slice hfc.1 hfc.2 (hgf.symm (h2 g hg).1 (h2 g hg).2) i hi s
      rw [← side_eq hi, ← side_eq hi'] at hρ
      exact ⟨l, hl, _, _, (isCubeFace_succ d k l _).2 ⟨f, hf, i', hi', t', rfl⟩,
        hσ.trans (h1 e he).1 (h1 e he).2
          (hρ.symm (side_length hi' _ _) (side_nodup hi' _ hfc.1 hfc.2))⟩
    · intro l hl f hf
      obtain ⟨g, hg, i, hi, s, rfl⟩ := (isCubeFace_succ d k l f).1 hf
      obtain ⟨e', he', σ, hσ⟩ := ih2 l hl g hg
      obtain ⟨i', hi', t', ρ, hρ⟩ := SymmetricCube.slice (h2 e' he').1 (h2 e' he').2 hσ i hi s
      rw [← side_eq hi, ← side_eq hi'] at hρ
      obtain ⟨e, he, τ, hτ⟩ := h4.1 e' he' i' hi' t'
      exact ⟨e, he, _, hτ.trans (h1 e he).1 (h1 e he).2 hρ⟩

/-- C19, domain of the theorems: cubes of dimension `n ≥ 1` with distinct corners are accepted exactly when faces
with the same corners agree, the corners are `0, ..., m-1` for some `m`, and the faces have less than 128
corners. -/
theorem C19_accepts_iff (hu : UniqSpec uniq) (hc : Cubes (n + 1) cubes) :
    (∃ t, fromCubes uniq true (n + 1) cubes = .ok t) ↔
      (1 ≤ n → 2 ^ n < 128) ∧ FacesAgree (n + 1) cubes ∧ ∃ m, ∀ v, (∃ l ∈ cubes, v ∈ l) ↔ v < m := by
  have hall : cubes.all (fun l => l.length = 2 ^ (n + 1)) = true := by
    rw [List.all_eq_true]
    intro l hl
    simpa using (hc l hl).1
  have hpow : (1 ≤ n → 2 ^ n < 128) ↔ ∀ k, 1 ≤ k → k < n + 1 → 2 ^ k < 128 := by
    constructor
    · intro h k h1 h2
      exact lt_of_le_of_lt (Nat.pow_le_pow_right (by omega) (by omega : k ≤ n)) (h (by omega))
    · intro h h1
      exact h n h1 (by omega)
  obtain ⟨hok, hex⟩ := cubeLevels_built hu (n + 1) hc
  -- what checking the vertices amounts to
  have hcheck : ∀ t', cubeLevels uniq true (n + 1) cubes = .ok t' →
      ((∃ t, fromCubes uniq true (n + 1) cubes = .ok t) ↔ ∃ m, ∀ v, (∃ l ∈ cubes, v ∈ l) ↔ v < m) := by
    intro t' ht'
    obtain ⟨-, -, hb⟩ := hok t' ht'
    obtain ⟨L, hL⟩ := hb.points (by omega)
    -- vertices of all levels
    have hmem : ∀ d k, k + d = n + 1 → ∀ v : Nat, (∃ e ∈ t'.elements[k]?.getD [], v ∈ e) ↔ ∃ l ∈ cubes, v ∈ l := by
      intro d
      induction d with
      | zero =>
        intro k hk v
        have : k = n + 1 := by omega
        subst this
        rw [hb.top_eq, Option.getD_some]
      | succ d ih =>
        intro k hk v
        rw [← ih (k + 1) (by omega) v]
        obtain ⟨E, F, B, O, g1, g2, g3, g4, g5, g6, g7, g8, g9⟩ := hb.level k (by omega)
        rw [g1, g2, Option.getD_some, Option.getD_some]
        constructor
        · rintro ⟨e, he, hv⟩
          obtain ⟨l, hl, i, hi, s, σ, hσ⟩ := g8.2 e he
          refine ⟨l, hl, ?_⟩
          have hv := (hσ.perm (g5 e he).1).symm.mem_iff.1 hv
          obtain ⟨b, hb1, hb2⟩ := List.mem_map.1 hv
          rw [← hb2]
          exact cubeAt_mem (g6 l hl).1 (mem_cubeIndices.1 (List.mem_filter.1 hb1).1)
        · rintro ⟨l, hl, hv⟩
          obtain ⟨b, hb1, rfl⟩ := exists_cubeAt (g6 l hl).1 hv
          cases hbi : b[0]? with
          | none =>
            rw [List.getElem?_eq_none_iff] at hbi
            omega
          | some s =>
            obtain ⟨e, he, σ, hσ⟩ := g8.1 l hl 0 (by omega) s
            refine ⟨e, he, (hσ.perm (g5 e he).1).mem_iff.1 ?_⟩
            exact List.mem_map.2 ⟨b, List.mem_filter.2 ⟨mem_cubeIndices.2 hb1, by simpa using hbi⟩, rfl⟩
    have h0 : ∀ v, v ∈ npUnique L ↔ ∃ l ∈ cubes, v ∈ l := by
      intro v
      rw [← hmem (n + 1) 0 (by omega) v, hL, Option.getD_some]
      simp
    cases he : t'.elements with
    | nil => have := hb.lenE; rw [he] at this; simp at this
    | cons e0 rest =>
      rw [he] at hL
      have hL : e0 = (npUnique L).map (fun v => [v]) := by simpa using hL
      have hfl : e0.flatten = npUnique L := by
        rw [hL]
        generalize npUnique L = l
        induction l with
        | nil => rfl
        | cons a t ih => simp [ih]
      have hlen : e0.length = (npUnique L).length := by rw [hL, List.length_map]
      have hfr : fromCubes uniq true (n + 1) cubes =
          if e0.flatten = List.range e0.length then .ok t' else .error .valueError := by
        simp only [fromCubes, hall, if_true, ht', bind, Except.bind, checkTopo, he]
      rw [hfr]
      constructor
      · rintro ⟨t, ht⟩
        split at ht
        · next hc =>
          refine ⟨e0.length, fun v => ?_⟩
          rw [← h0, ← hfl, hc, List.mem_range]
        · simp at ht
      · rintro ⟨m, hm⟩
        have hperm : (npUnique L).Perm (List.range m) := by
          rw [List.perm_ext_iff_of_nodup (npUnique_nodup L) List.nodup_range]
          intro a; rw [h0, hm, List.mem_range]
        have heq : npUnique L = List.range m :=
          List.Perm.eq_of_pairwise' (r := (· ≤ ·)) (sortRow_sorted _) List.pairwise_le_range hperm
        refine ⟨t', ?_⟩
        rw [if_pos]
        rw [hfl, hlen, heq, List.length_range]
  constructor
  · rintro ⟨t, ht⟩
    cases hlev : cubeLevels uniq true (n + 1) cubes with
    | error e => simp [fromCubes, hall, hlev, bind, Except.bind] at ht
    | ok t' =>
      obtain ⟨g1, g2, -⟩ := hok t' hlev
      exact ⟨hpow.2 g1, g2, (hcheck t' hlev).1 ⟨t, ht⟩⟩
  · rintro ⟨h1, h2, h3⟩
    obtain ⟨t', ht'⟩ := hex (hpow.1 h1) h2
    exact (hcheck t' ht').2 h3

/-- C19: rows of the wrong size are rejected. -/
theorem C19_shape (mirror : Bool) (h : ∃ l ∈ cubes, l.length ≠ 2 ^ n) :
    fromCubes uniq mirror n cubes = .error .valueError := by
  obtain ⟨l, hl, hne⟩ := h
  have : cubes.all (fun l => l.length = 2 ^ n) = false := by
    rw [List.all_eq_false]
    exact ⟨l, hl, by simpa using hne⟩
  unfold fromCubes
  rw [this]
  rfl

/-- C19: `mirror=True` is needed: for a single square built without mirroring, the boundary of the boundary is not
zero. -/
theorem C19_unmirrored : ∃ t M, fromCubes List.dedup false 2 [[0, 1, 2, 3]] = .ok t ∧
    (t.matrix 0).mul (t.matrix 1) = .ok M ∧ M.rows = 4 ∧ M.cols = 1 ∧ M.entry 0 0 = 2 := by
  refine ⟨⟨[[[0], [1], [2], [3]], [[0, 1], [2, 3], [0, 2], [1, 3]], [[0, 1, 2, 3]]],
    [[[0, 1], [2, 3], [0, 2], [1, 3]], [[0, 1, 2, 3]]],
    [[[-1, 1], [-1, 1], [-1, 1], [-1, 1]], [[-1, -1, -1, -1]]]⟩, ⟨_, _, _⟩, by decide +kernel, rfl, ?_, ?_, ?_⟩ <;>
  decide +kernel

-- two squares joined along an edge
example : Cubes 2 [[0, 1, 2, 3], [2, 3, 4, 5]] ∧
    ∃ t, fromCubes List.dedup true 2 [[0, 1, 2, 3], [2, 3, 4, 5]] = .ok t := by
  refine ⟨?_, _, rfl⟩
  intro l hl
  simp only [List.mem_cons, List.not_mem_nil, or_false] at hl
  rcases hl with rfl | rfl <;> decide

-- two cubes joined along a square
example : ∃ t, fromCubes List.dedup true 3 [[0, 1, 2, 3, 4, 5, 6, 7], [2, 3, 8, 9, 6, 7, 10, 11]] = .ok t ∧
    t.elements.map List.length = [12, 20, 11, 2] := by
  have h : ((fromCubes List.dedup true 3 [[0, 1, 2, 3, 4, 5, 6, 7], [2, 3, 8, 9, 6, 7, 10, 11]]).toOption.map
    fun t => t.elements.map List.length) = some [12, 20, 11, 2] := by decide +kernel
  cases hr : fromCubes List.dedup true 3 [[0, 1, 2, 3, 4, 5, 6, 7], [2, 3, 8, 9, 6, 7, 10, 11]] with
  | error e => rw [hr] at h; simp [Except.toOption] at h
  | ok t =>
    rw [hr] at h
    exact ⟨t, rfl, by simpa [Except.toOption] using h⟩

-- two cubes with a face of the same corners in another arrangement are rejected
example : fromCubes List.dedup true 3 [[0, 1, 2, 3, 4, 5, 6, 7], [0, 3, 2, 1, 8, 9, 10, 11]] =
    .error .valueError := by decide +kernel

end Verif.Props
