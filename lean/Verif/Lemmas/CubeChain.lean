/-
Cubical topologies level by level: incidence matrices, chain property, acceptance.
-/
import Verif.Lemmas.CubeConstruct

set_option linter.unusedSectionVars false

namespace Verif

open Verif.Model Verif.Spec Verif.Props

variable {n : Nat}

/-! ### faces -/

theorem side_length {k i : Nat} (hi : i ≤ k) (s : Bool) (l : List Nat) : (side k i s l).length = 2 ^ k := by
  rw [side_eq hi, sliceAxis_length]

theorem side_nodup {k i : Nat} (hi : i ≤ k) (s : Bool) {l : List Nat} (hl : l.length = 2 ^ (k + 1))
    (hn : l.Nodup) : (side k i s l).Nodup := by
  rw [side_eq hi]
  exact sliceAxis_nodup hi s hl hn

theorem Spec.IsCubeFace.cube : ∀ {d k : Nat} {l f : List Nat}, l.length = 2 ^ (k + d) → l.Nodup → IsCubeFace d k l f →
    f.length = 2 ^ k ∧ f.Nodup := by
  intro d
  induction d with
  | zero => rintro k l f hl hn rfl; exact ⟨hl, hn⟩
  | succ d ih =>
    rintro k l f hl hn ⟨i, hi, s, h⟩
    exact ih (side_length hi s l) (side_nodup hi s hl hn) h

/-- symmetric cubes have symmetric faces -/
theorem Spec.IsCubeFace.symmetric : ∀ {d k : Nat} {e l f : List Nat} {σ : ℤ}, e.length = 2 ^ (k + d) → e.Nodup →
    SymmetricCube (k + d) e l σ → IsCubeFace d k l f → ∃ f', IsCubeFace d k e f' ∧ ∃ τ, SymmetricCube k f' f τ := by
  intro d
  induction d with
  | zero =>
    rintro k e l f σ he hn h rfl
    exact ⟨e, rfl, σ, h⟩
  | succ d ih =>
    rintro k e l f σ he hn h ⟨i, hi, s, hf⟩
    obtain ⟨i', hi', t', τ, h1⟩ := SymmetricCube.slice (n := k + d) he hn h i hi s
    rw [← side_eq hi, ← side_eq hi'] at h1
    obtain ⟨f', h2, h3⟩ := ih (side_length hi' _ _) (side_nodup hi' _ he hn) h1 hf
    exact ⟨f', ⟨i', hi', t', h2⟩, h3⟩

/-! ### the edges -/

theorem slice_edge (a b : Nat) (s : Bool) : sliceAxis 0 0 s [a, b] = [if s then b else a] := by
  cases s <;> rfl

theorem lowerCubes_edges {uniq : List (List Nat) → List (List Nat)} {F : List (List Nat)} (hF : Cubes 1 F) :
    ∃ r, lowerCubes uniq true 0 F = .ok r ∧ r.1 = (npUnique F.flatten).map (fun v => [v]) ∧ Cubes 0 r.1 ∧
      DistinctElements r.1 ∧ SidesOf 0 r.1 F ∧
      (r.1.flatten = List.range r.1.length → CubeBoundary 0 r.1 F r.2.1 r.2.2) := by
  refine ⟨((npUnique F.flatten).map (fun v => [v]), F,
    F.map fun _ => [parityToOrientation 0, parityToOrientation 1]), ?_, rfl, ?_, ?_, ⟨?_, ?_⟩, ?_⟩
  · simp [lowerCubes]
  · intro e he
    obtain ⟨v, -, rfl⟩ := List.mem_map.1 he
    simp
  · unfold DistinctElements
    rw [List.pairwise_map]
    refine List.Pairwise.imp ?_ (npUnique_nodup F.flatten)
    intro a b hab hp
    exact hab (by simpa using hp)
  · intro l hl i hi s
    obtain rfl : i = 0 := by omega
    obtain ⟨a, b, rfl⟩ := length_two (hF l hl).1
    rw [side_eq (le_refl 0), slice_edge]
    refine ⟨_, List.mem_map.2 ⟨if s then b else a, (npUnique_mem _ _).2 (List.mem_flatten.2 ⟨_, hl, ?_⟩), rfl⟩, 1,
      SymmetricCube.refl (by simp)⟩
    cases s <;> simp
  · intro e he
    obtain ⟨v, hv, rfl⟩ := List.mem_map.1 he
    obtain ⟨l, hl, hvl⟩ := List.mem_flatten.1 ((npUnique_mem _ _).1 hv)
    refine ⟨l, hl, 0, le_refl 0, ?_⟩
    obtain ⟨a, b, rfl⟩ := length_two (hF l hl).1
    simp only [List.mem_cons, List.not_mem_nil, or_false] at hvl
    rcases hvl with rfl | rfl
    · exact ⟨false, 1, by rw [side_eq (le_refl 0), slice_edge]; exact SymmetricCube.refl (by simp)⟩
    · exact ⟨true, 1, by rw [side_eq (le_refl 0), slice_edge]; exact SymmetricCube.refl (by simp)⟩
  · intro hcont
    simp only at hcont ⊢
    have hfl : ((npUnique F.flatten).map (fun v => [v])).flatten = npUnique F.flatten := by
      generalize npUnique F.flatten = l
      induction l with
      | nil => rfl
      | cons a t ih => simp [ih]
    rw [hfl, List.length_map] at hcont
    refine ⟨rfl, by simp, ?_⟩
    intro j l hj
    have hl : l ∈ F := List.mem_of_getElem? hj
    obtain ⟨a, b, rfl⟩ := length_two (hF l hl).1
    refine ⟨[a, b], _, hj, by rw [List.getElem?_map, hj]; rfl, rfl, rfl, ?_⟩
    have hv : ∀ v ∈ [a, b],
        ((npUnique F.flatten).map (fun v => [v]))[v]? = some [v] := by
      intro v hv
      have h1 : v ∈ npUnique F.flatten :=
        (npUnique_mem _ _).2 (List.mem_flatten.2 ⟨_, hl, hv⟩)
      rw [hcont, List.mem_range] at h1
      rw [List.getElem?_map, hcont, List.getElem?_range h1]; rfl
    intro i hi s
    obtain rfl : i = 0 := by omega
    rw [side_eq (le_refl 0), slice_edge]
    cases s
    · exact ⟨a, 1, [a], rfl, rfl, hv a (by simp), SymmetricCube.refl (by simp)⟩
    · exact ⟨b, 1, [b], rfl, rfl, hv b (by simp), SymmetricCube.refl (by simp)⟩

/-! ### all levels -/

/-- what holds for the topology built by the loop -/
structure CBuilt (n : Nat) (top : List (List Nat)) (t : Topo) : Prop where
  lenE : t.elements.length = n + 1
  lenB : t.boundary.length = n
  lenO : t.orientation.length = n
  top_eq : t.elements[n]? = some top
  points : 1 ≤ n → ∃ L : List Nat, t.elements[0]? = some ((npUnique L).map (fun v => [v]))
  level : ∀ k < n, ∃ E F B O, t.elements[k]? = some E ∧ t.elements[k + 1]? = some F ∧
    t.boundary[k]? = some B ∧ t.orientation[k]? = some O ∧
    Cubes k E ∧ Cubes (k + 1) F ∧ DistinctElements E ∧ SidesOf k E F ∧
    ((k = 0 → E.flatten = List.range E.length) → CubeBoundary k E F B O)

theorem CBuilt.extend {F E : List (List Nat)} {B : List (List Nat)} {O : List (List Int)} {t : Topo}
    (hb : CBuilt n E t) (hF : Cubes (n + 1) F) (hE : Cubes n E) (hd : DistinctElements E) (hs : SidesOf n E F)
    (hc : (n = 0 → E.flatten = List.range E.length) → CubeBoundary n E F B O)
    (h0 : n = 0 → ∃ L : List Nat, E = (npUnique L).map (fun v => [v])) :
    CBuilt (n + 1) F ⟨t.elements ++ [F], t.boundary ++ [B], t.orientation ++ [O]⟩ := by
  refine ⟨by simp [hb.lenE], by simp [hb.lenB], by simp [hb.lenO], ?_, ?_, ?_⟩
  · rw [List.getElem?_append_right (by rw [hb.lenE]), hb.lenE]; simp
  · intro _
    rw [List.getElem?_append_left (by rw [hb.lenE]; omega)]
    rcases Nat.eq_zero_or_pos n with rfl | hn
    · obtain ⟨L, rfl⟩ := h0 rfl
      exact ⟨L, hb.top_eq⟩
    · exact hb.points hn
  · intro k hk
    rcases Nat.lt_or_ge k n with hlt | hge
    · obtain ⟨E', F', B', O', g1, g2, g3, g4, g5⟩ := hb.level k hlt
      refine ⟨E', F', B', O', ?_, ?_, ?_, ?_, g5⟩
      · rw [List.getElem?_append_left (by rw [hb.lenE]; omega)]; exact g1
      · rw [List.getElem?_append_left (by rw [hb.lenE]; omega)]; exact g2
      · rw [List.getElem?_append_left (by rw [hb.lenB]; omega)]; exact g3
      · rw [List.getElem?_append_left (by rw [hb.lenO]; omega)]; exact g4
    · have hkn : k = n := by omega
      subst hkn
      refine ⟨E, F, B, O, ?_, ?_, ?_, ?_, hE, hF, hd, hs, hc⟩
      · rw [List.getElem?_append_left (by rw [hb.lenE]; omega)]; exact hb.top_eq
      · rw [List.getElem?_append_right (by rw [hb.lenE]), hb.lenE]; simp
      · rw [List.getElem?_append_right (by rw [hb.lenB]), hb.lenB]; simp
      · rw [List.getElem?_append_right (by rw [hb.lenO]), hb.lenO]; simp

/-- agreement of faces passes to the sides -/
theorem facesAgree_iff {E F : List (List Nat)} (hF : Cubes (n + 1) F) (hE : Cubes n E) (hs : SidesOf n E F) :
    FacesAgree (n + 1) F ↔ (1 ≤ n → ∀ l ∈ F, ∀ l' ∈ F, ∀ i ≤ n, ∀ i' ≤ n, ∀ s s',
      (sliceAxis n i s l).Perm (sliceAxis n i' s' l') →
        ∃ σ, SymmetricCube n (sliceAxis n i s l) (sliceAxis n i' s' l') σ) ∧ FacesAgree n E := by
  constructor
  · intro h
    constructor
    · intro hn l hl l' hl' i hi i' hi' s s' hp
      exact h n 0 hn rfl l hl l' hl' _ _ ⟨i, hi, s, (side_eq hi s l).symm⟩ ⟨i', hi', s', (side_eq hi' s' l').symm⟩ hp
    · intro k d hk hkd e he e' he' f f' hf hf' hp
      obtain ⟨l, hl, i, hi, s, σ, h1⟩ := hs.2 e he
      obtain ⟨l', hl', i', hi', s', σ', h1'⟩ := hs.2 e' he'
      subst hkd
      have g1 := side_length hi s l
      have g2 := side_nodup hi s (hF l hl).1 (hF l hl).2
      have g1' := side_length hi' s' l'
      have g2' := side_nodup hi' s' (hF l' hl').1 (hF l' hl').2
      obtain ⟨a, ha, τ, ha2⟩ := IsCubeFace.symmetric g1 g2 (h1.symm (hE e he).1 (hE e he).2) hf
      obtain ⟨a', ha', τ', ha2'⟩ := IsCubeFace.symmetric g1' g2' (h1'.symm (hE e' he').1 (hE e' he').2) hf'
      have c := ha.cube g1 g2
      have c' := ha'.cube g1' g2'
      obtain ⟨ρ, hρ⟩ := h k (d + 1) hk rfl l hl l' hl' a a' ⟨i, hi, s, ha⟩ ⟨i', hi', s', ha'⟩
        ((ha2.perm c.1).symm.trans (hp.trans (ha2'.perm c'.1)))
      have hfc := hf.cube (hE e he).1 (hE e he).2
      exact ⟨_, ((ha2.symm c.1 c.2).trans hfc.1 hfc.2 hρ).trans hfc.1 hfc.2 ha2'⟩
  · rintro ⟨h0, h1⟩ k d hk hkd l hl l' hl' f f' hf hf' hp
    cases d with
    | zero =>
      have : k = n := by omega
      subst this
      obtain ⟨i, hi, s, rfl⟩ := hf
      obtain ⟨i', hi', s', rfl⟩ := hf'
      simp only [Nat.add_zero] at hi hi' hp ⊢
      rw [side_eq hi, side_eq hi'] at hp ⊢
      exact h0 hk l hl l' hl' i hi i' hi' s s' hp
    | succ d =>
      have : n = k + (d + 1) := by omega
      subst this
      obtain ⟨i, hi, s, hf⟩ := hf
      obtain ⟨i', hi', s', hf'⟩ := hf'
      obtain ⟨e, he, σ, hσ⟩ := hs.1 l hl i hi s
      obtain ⟨e', he', σ', hσ'⟩ := hs.1 l' hl' i' hi' s'
      obtain ⟨a, ha, τ, ha2⟩ := IsCubeFace.symmetric (hE e he).1 (hE e he).2 hσ hf
      obtain ⟨a', ha', τ', ha2'⟩ := IsCubeFace.symmetric (hE e' he').1 (hE e' he').2 hσ' hf'
      have c := ha.cube (hE e he).1 (hE e he).2
      have c' := ha'.cube (hE e' he').1 (hE e' he').2
      obtain ⟨ρ, hρ⟩ := h1 k d hk rfl e he e' he' a a' ha ha'
        ((ha2.perm c.1).symm.trans (hp.trans (ha2'.perm c'.1)))
      have hfc := hf.cube (side_length hi s l) (side_nodup hi s (hF l hl).1 (hF l hl).2)
      exact ⟨_, ((ha2.symm c.1 c.2).trans hfc.1 hfc.2 hρ).trans hfc.1 hfc.2 ha2'⟩

/-- the loop succeeds exactly when faces agree and is then correct -/
theorem cubeLevels_built {uniq : List (List Nat) → List (List Nat)} (hu : UniqSpec uniq) (n : Nat) :
    ∀ {F : List (List Nat)}, Cubes n F →
      (∀ t, cubeLevels uniq true n F = .ok t → (∀ k, 1 ≤ k → k < n → 2 ^ k < 128) ∧ FacesAgree n F ∧ CBuilt n F t) ∧
      ((∀ k, 1 ≤ k → k < n → 2 ^ k < 128) → FacesAgree n F → ∃ t, cubeLevels uniq true n F = .ok t) := by
  induction n with
  | zero =>
    intro F hF
    constructor
    · intro t ht
      simp only [cubeLevels, Except.ok.injEq] at ht
      subst ht
      exact ⟨fun k h1 h2 => absurd h2 (by omega), fun k d h1 h2 => absurd h2 (by omega),
        ⟨rfl, rfl, rfl, rfl, fun h => absurd h (by omega), fun k hk => absurd hk (by omega)⟩⟩
    · intro _ _
      exact ⟨_, rfl⟩
  | succ n ih =>
    intro F hF
    rcases Nat.eq_zero_or_pos n with rfl | hn
    · obtain ⟨r, hr, h1, h2, h3, h4, h5⟩ := lowerCubes_edges (uniq := uniq) hF
      obtain ⟨E, B, O⟩ := r
      have hl : cubeLevels uniq true 1 F = .ok ⟨[E, F], [B], [O]⟩ := by
        simp only [cubeLevels, hr, bind, Except.bind, List.cons_append, List.nil_append]
      rw [hl]
      have hb0 : CBuilt 0 E ⟨[E], [], []⟩ :=
        ⟨rfl, rfl, rfl, rfl, fun h => absurd h (by omega), fun k hk => absurd hk (by omega)⟩
      constructor
      · intro t ht
        rw [Except.ok.injEq] at ht
        subst ht
        exact ⟨fun k g1 g2 => absurd g2 (by omega), fun k d g1 g2 => absurd g2 (by omega),
          hb0.extend hF h2 h3 h4 (fun h => h5 (h rfl)) fun _ => ⟨_, h1⟩⟩
      · intro _ _
        exact ⟨_, rfl⟩
    · obtain ⟨hok, hex⟩ := lowerCubes_general hu hn hF
      constructor
      · intro t ht
        cases hr : lowerCubes uniq true n F with
        | error e => simp [cubeLevels, hr, bind, Except.bind] at ht
        | ok r =>
          obtain ⟨h128, hsym, h2, h3, h4, h5⟩ := hok r hr
          obtain ⟨E, B, O⟩ := r
          cases ht' : cubeLevels uniq true n E with
          | error e => simp [cubeLevels, hr, ht', bind, Except.bind] at ht
          | ok t' =>
            simp only [cubeLevels, hr, ht', bind, Except.bind, Except.ok.injEq] at ht
            subst ht
            obtain ⟨g1, g2, g3⟩ := (ih h2).1 t' ht'
            refine ⟨fun k k1 k2 => ?_, (facesAgree_iff hF h2 h4).2 ⟨fun _ => hsym, g2⟩,
              g3.extend hF h2 h3 h4 (fun _ => h5) fun h => absurd h (by omega)⟩
            rcases Nat.lt_or_ge k n with hlt | hge
            · exact g1 k k1 hlt
            · have : k = n := by omega
              subst this
              exact h128
      · intro h128 hagree
        have hsl : ∀ l ∈ F, ∀ l' ∈ F, ∀ i ≤ n, ∀ i' ≤ n, ∀ s s',
            (sliceAxis n i s l).Perm (sliceAxis n i' s' l') →
              ∃ σ, SymmetricCube n (sliceAxis n i s l) (sliceAxis n i' s' l') σ := by
          intro l hl l' hl' i hi i' hi' s s' hp
          exact hagree n 0 hn rfl l hl l' hl' _ _ ⟨i, hi, s, (side_eq hi s l).symm⟩
            ⟨i', hi', s', (side_eq hi' s' l').symm⟩ hp
        obtain ⟨r, hr⟩ := hex (h128 n hn (by omega)) hsl
        obtain ⟨-, -, h2, h3, h4, h5⟩ := hok r hr
        obtain ⟨E, B, O⟩ := r
        obtain ⟨t', ht'⟩ := (ih h2).2 (fun k k1 k2 => h128 k k1 (by omega)) ((facesAgree_iff hF h2 h4).1 hagree).2
        exact ⟨⟨t'.elements ++ [F], t'.boundary ++ [B], t'.orientation ++ [O]⟩, by
          simp only [cubeLevels, hr, ht', bind, Except.bind]⟩

/-- a cubical topology that satisfies the boundary specification on all levels -/
structure CWF (n : Nat) (top : List (List Nat)) (t : Topo) : Prop where
  lenE : t.elements.length = n + 1
  lenB : t.boundary.length = n
  lenO : t.orientation.length = n
  top_eq : t.elements[n]? = some top
  vertices : ∃ E, t.elements[0]? = some E ∧ E.flatten = List.range E.length
  level : ∀ k < n, ∃ E F B O, t.elements[k]? = some E ∧ t.elements[k + 1]? = some F ∧
    t.boundary[k]? = some B ∧ t.orientation[k]? = some O ∧
    Cubes k E ∧ Cubes (k + 1) F ∧ DistinctElements E ∧ SidesOf k E F ∧ CubeBoundary k E F B O

theorem fromCubes_wf {uniq : List (List Nat) → List (List Nat)} (hu : UniqSpec uniq) {F : List (List Nat)}
    (hF : Cubes n F) {t : Topo} (h : fromCubes uniq true n F = .ok t) : CWF n F t := by
  have hall : F.all (fun l => l.length = 2 ^ n) = true := by
    rw [List.all_eq_true]
    intro l hl
    simpa using (hF l hl).1
  simp only [fromCubes, hall, if_true] at h
  cases ht : cubeLevels uniq true n F with
  | error e => simp [ht, bind, Except.bind] at h
  | ok t' =>
    obtain ⟨-, -, hb⟩ := (cubeLevels_built hu n hF).1 t' ht
    simp only [ht, bind, Except.bind, checkTopo] at h
    cases he : t'.elements with
    | nil => have := hb.lenE; rw [he] at this; simp at this
    | cons e0 rest =>
      rw [he] at h
      simp only at h
      split at h
      · next hc =>
        have : t' = t := by simpa using h
        subst this
        have he0 : t'.elements[0]? = some e0 := by rw [he]; rfl
        refine ⟨hb.lenE, hb.lenB, hb.lenO, hb.top_eq, ⟨e0, he0, hc⟩, ?_⟩
        intro k hk
        obtain ⟨E, F, B, O, g1, g2, g3, g4, g5, g6, g7, g8, g9⟩ := hb.level k hk
        refine ⟨E, F, B, O, g1, g2, g3, g4, g5, g6, g7, g8, g9 ?_⟩
        rintro rfl
        have : E = e0 := by rw [he0] at g1; exact (Option.some.inj g1).symm
        rw [this]; exact hc
      · simp at h

/-! ### incidence matrices -/

theorem list_range_sum (f : Nat → ℤ) (m : Nat) : ((List.range m).map f).sum = ∑ i ∈ Finset.range m, f i := by
  induction m with
  | zero => simp
  | succ m ih => rw [List.range_succ, List.map_append, List.sum_append, ih, Finset.sum_range_succ]; simp

theorem list_range_two_sum (f : Nat → ℤ) (m : Nat) :
    ((List.range (2 * m)).map f).sum = ∑ i ∈ Finset.range m, (f (2 * i) + f (2 * i + 1)) := by
  rw [list_range_sum]
  induction m with
  | zero => simp
  | succ m ih =>
    rw [show 2 * (m + 1) = 2 * m + 1 + 1 by ring, Finset.sum_range_succ, Finset.sum_range_succ, ih,
      Finset.sum_range_succ]
    ring

theorem csign_other {k : Nat} {E : List (List Nat)} (hE : Cubes k E) (hd : DistinctElements E) {i x : Nat}
    {e e' l : List Nat} {σ : ℤ} (hi : E[i]? = some e) (hx : E[x]? = some e') (h : SymmetricCube k e' l σ) :
    csign k e l = if x = i then σ else 0 := by
  have hme := hE e (List.mem_of_getElem? hi)
  split
  · next hxi =>
    subst hxi
    have : e = e' := Option.some.inj (hi.symm.trans hx)
    subst this
    exact csign_eq hme.1 hme.2 h
  · next hxi =>
    apply csign_none
    rintro ⟨s, hs⟩
    have h1 := hs.perm hme.1
    have h2 := h.perm (hE e' (List.mem_of_getElem? hx)).1
    exact hxi (distinct_index hd hx hi (h2.symm.trans h1))

theorem entry_eq_ccob {k : Nat} {E F : List (List Nat)} {B : List (List Nat)} {O : List (List Int)}
    (hE : Cubes k E) (hd : DistinctElements E) (hI : CubeBoundary k E F B O) {i j : Nat} {e l : List Nat}
    (hi : E[i]? = some e) (hj : F[j]? = some l) :
    (topologyMatrix B O).entry i j = - ccob k (csign k e) l := by
  obtain ⟨b, o, hb, ho, hbl, hol, hc⟩ := hI.2.2 j l hj
  simp only [topologyMatrix, hb, ho, Option.getD_some]
  rw [zip_map_sum hbl hol (fun x s => if x = i then s else 0), list_range_two_sum]
  unfold ccob
  rw [← Finset.sum_neg_distrib]
  refine Finset.sum_congr rfl fun a ha => ?_
  have ha : a ≤ k := by have := Finset.mem_range.1 ha; omega
  obtain ⟨x0, σ0, e0, h1, h2, h3, h4⟩ := hc a ha false
  obtain ⟨x1, σ1, e1, g1, g2, g3, g4⟩ := hc a ha true
  simp only [Bool.toNat_false, Nat.add_zero] at h1 h2
  simp only [Bool.toNat_true] at g1 g2
  rw [h1, h2, g1, g2]
  simp only [Option.getD_some]
  rw [side_eq ha] at h4 g4
  unfold sideDiff
  rw [csign_other hE hd hi h3 h4, csign_other hE hd hi g3 g4, pow_succ]
  split <;> split <;> ring

theorem sum_csign {k : Nat} {E : List (List Nat)} (hE : Cubes k E) (hd : DistinctElements E)
    {φ : List Nat → ℤ} (hφ : CAlt k φ) {l : List Nat} (hl : ∃ e ∈ E, ∃ σ, SymmetricCube k e l σ) :
    ((List.range E.length).map fun j => φ ((E[j]?).getD []) * csign k ((E[j]?).getD []) l).sum = φ l := by
  obtain ⟨e, he, σ, hσ⟩ := hl
  obtain ⟨x, hx, rfl⟩ := List.getElem_of_mem he
  rw [sum_map_eq_single (List.range E.length) List.nodup_range x _ (List.mem_range.2 hx)]
  · rw [List.getElem?_eq_getElem hx, Option.getD_some, csign_eq (hE _ he).1 (hE _ he).2 hσ,
      hφ.symmetric (hE _ he).1 hσ, mul_comm]
  · intro m hm hne
    rw [List.mem_range] at hm
    rw [List.getElem?_eq_getElem hm, Option.getD_some,
      csign_other hE hd (List.getElem?_eq_getElem hm) (List.getElem?_eq_getElem hx) hσ,
      if_neg (Ne.symm hne), mul_zero]

theorem cubeMatrix_shape {k : Nat} {E F : List (List Nat)} {B : List (List Nat)} {O : List (List Int)}
    (hE : Cubes k E) (hd : DistinctElements E) (hs : SidesOf k E F) (hI : CubeBoundary k E F B O) :
    (topologyMatrix B O).rows = E.length ∧ (topologyMatrix B O).cols = F.length := by
  refine ⟨?_, hI.1⟩
  apply Nat.le_antisymm
  · apply foldl_max_le (Nat.zero_le _)
    intro x hx
    obtain ⟨y, hy, rfl⟩ := List.mem_map.1 hx
    obtain ⟨b, hb, hyb⟩ := List.mem_flatten.1 hy
    obtain ⟨j, hj, rfl⟩ := List.getElem_of_mem hb
    have hjF : j < F.length := by rw [← hI.1]; exact hj
    obtain ⟨b', o', h1, -, h3, -, h5⟩ := hI.2.2 j _ (List.getElem?_eq_getElem hjF)
    rw [List.getElem?_eq_getElem hj] at h1
    have h1 := Option.some.inj h1
    subst h1
    obtain ⟨c, hc, rfl⟩ := List.getElem_of_mem hyb
    have hsplit : ∃ i ≤ k, ∃ s : Bool, c = 2 * i + s.toNat := by
      rcases Nat.even_or_odd' c with ⟨i, h | h⟩
      · exact ⟨i, by omega, false, by simpa using h⟩
      · exact ⟨i, by omega, true, by simpa using h⟩
    obtain ⟨i, hi, s, hcs⟩ := hsplit
    obtain ⟨x, σ, e, g1, -, g3, -⟩ := h5 i hi s
    rw [← hcs, List.getElem?_eq_getElem hc] at g1
    rw [Option.some.inj g1]
    exact (List.getElem?_eq_some_iff.1 g3).1
  · by_contra hlt
    have hlt := Nat.lt_of_not_le hlt
    set m := (topologyMatrix B O).rows with hm
    obtain ⟨l, hl, i, hi, s, σ, hσ⟩ := hs.2 (E[m]) (List.getElem_mem _)
    obtain ⟨j, hj, rfl⟩ := List.getElem_of_mem hl
    obtain ⟨b, o, h1, h2, h3, h4, h5⟩ := hI.2.2 j _ (List.getElem?_eq_getElem hj)
    obtain ⟨x, τ, e, g1, g2, g3, g4⟩ := h5 i hi s
    have hxm : x = m := by
      have p1 := hσ.perm (hE _ (List.getElem_mem hlt)).1
      have p2 := g4.perm (hE _ (List.mem_of_getElem? g3)).1
      exact distinct_index hd g3 (List.getElem?_eq_getElem hlt) (p2.symm.trans p1)
    have : x + 1 ≤ m := by
      rw [hm]
      apply le_foldl_max
      apply List.mem_map.2
      exact ⟨x, List.mem_flatten.2 ⟨b, List.mem_of_getElem? h1, List.mem_of_getElem? g1⟩, rfl⟩
    omega

namespace CWF

variable {top : List (List Nat)} {t : Topo}

theorem get (h : CWF n top t) {k : Nat} (hk : k < n) :
    Cubes k (t.elements[k]?.getD []) ∧ Cubes (k + 1) (t.elements[k + 1]?.getD []) ∧
    DistinctElements (t.elements[k]?.getD []) ∧
    SidesOf k (t.elements[k]?.getD []) (t.elements[k + 1]?.getD []) ∧
    CubeBoundary k (t.elements[k]?.getD []) (t.elements[k + 1]?.getD [])
      (t.boundary[k]?.getD []) (t.orientation[k]?.getD []) := by
  obtain ⟨E, F, B, O, g1, g2, g3, g4, g5, g6, g7, g8, g9⟩ := h.level k hk
  rw [g1, g2, g3, g4]
  exact ⟨g5, g6, g7, g8, g9⟩

theorem shape (h : CWF n top t) {k : Nat} (hk : k < n) :
    (t.matrix k).rows = t.nElements k ∧ (t.matrix k).cols = t.nElements (k + 1) := by
  obtain ⟨h1, h2, h3, h4, h5⟩ := h.get hk
  exact cubeMatrix_shape h1 h3 h4 h5

theorem entry (h : CWF n top t) {k : Nat} (hk : k < n) {i j : Nat}
    (hi : i < t.nElements k) (hj : j < t.nElements (k + 1)) :
    (t.matrix k).entry i j = - ccob k (csign k ((t.elements[k]?.getD [])[i]?.getD []))
        ((t.elements[k + 1]?.getD [])[j]?.getD []) := by
  obtain ⟨h1, h2, h3, h4, h5⟩ := h.get hk
  unfold Topo.nElements at hi hj
  rw [List.getElem?_eq_getElem hi, List.getElem?_eq_getElem hj]
  exact entry_eq_ccob h1 h3 h5 (List.getElem?_eq_getElem hi) (List.getElem?_eq_getElem hj)

theorem sum_entry (h : CWF n top t) {k : Nat} (hk : k < n) {φ : List Nat → ℤ} (hφ : CAlt k φ)
    {j : Nat} (hj : j < t.nElements (k + 1)) :
    ((List.range (t.nElements k)).map fun i =>
      φ ((t.elements[k]?.getD [])[i]?.getD []) * (t.matrix k).entry i j).sum =
      - ccob k φ ((t.elements[k + 1]?.getD [])[j]?.getD []) := by
  obtain ⟨h1, h2, h3, h4, h5⟩ := h.get hk
  have hl : (t.elements[k + 1]?.getD [])[j]?.getD [] ∈ t.elements[k + 1]?.getD [] := by
    unfold Topo.nElements at hj
    rw [List.getElem?_eq_getElem hj]; exact List.getElem_mem _
  set l := (t.elements[k + 1]?.getD [])[j]?.getD [] with hldef
  have e1 : ∀ i ∈ List.range (t.nElements k),
      φ ((t.elements[k]?.getD [])[i]?.getD []) * (t.matrix k).entry i j =
      ((List.range (k + 1)).map fun a => (- (-1) ^ a) *
        (φ ((t.elements[k]?.getD [])[i]?.getD []) *
          sideDiff k (csign k ((t.elements[k]?.getD [])[i]?.getD [])) a l)).sum := by
    intro i hi
    rw [h.entry hk (List.mem_range.1 hi) hj, ccob, ← list_range_sum, ← neg_one_mul, list_mul_sum, list_mul_sum]
    congr 1
    apply List.map_congr_left
    intro a _
    ring
  rw [List.map_congr_left e1, sum_sum_comm, ccob, ← list_range_sum,
    ← neg_one_mul (List.sum _), list_mul_sum]
  congr 1
  apply List.map_congr_left
  intro a ha
  have ha : a ≤ k := by have := List.mem_range.1 ha; omega
  rw [List.sum_map_mul_left]
  have hsum : ∀ s : Bool, ((List.range (t.nElements k)).map fun i =>
      φ ((t.elements[k]?.getD [])[i]?.getD []) *
        csign k ((t.elements[k]?.getD [])[i]?.getD []) (sliceAxis k a s l)).sum = φ (sliceAxis k a s l) := by
    intro s
    have := h4.1 l hl a ha s
    rw [side_eq ha] at this
    exact sum_csign h1 h3 hφ this
  have hsub : ((List.range (t.nElements k)).map fun i => φ ((t.elements[k]?.getD [])[i]?.getD []) *
      sideDiff k (csign k ((t.elements[k]?.getD [])[i]?.getD [])) a l).sum = sideDiff k φ a l := by
    unfold sideDiff
    rw [← hsum false, ← hsum true, list_range_sum, list_range_sum, list_range_sum, ← Finset.sum_sub_distrib]
    exact Finset.sum_congr rfl fun i _ => by ring
  rw [hsub]
  ring

theorem chain (h : CWF n top t) {k : Nat} (hk : k + 1 < n) {i m : Nat}
    (hi : i < t.nElements k) (hm : m < t.nElements (k + 2)) :
    ((List.range (t.nElements (k + 1))).map fun j =>
      (t.matrix k).entry i j * (t.matrix (k + 1)).entry j m).sum = 0 := by
  obtain ⟨h1, -⟩ := h.get (show k < n by omega)
  have hc : Cubes k [(t.elements[k]?.getD [])[i]?.getD []] := by
    intro l hl
    rw [List.mem_singleton] at hl
    subst hl
    apply h1
    unfold Topo.nElements at hi
    rw [List.getElem?_eq_getElem hi]
    exact List.getElem_mem _
  obtain ⟨he, hn⟩ := hc _ (List.mem_singleton_self _)
  have e1 : ∀ j ∈ List.range (t.nElements (k + 1)),
      (t.matrix k).entry i j * (t.matrix (k + 1)).entry j m =
      (-1) * (ccob k (csign k ((t.elements[k]?.getD [])[i]?.getD []))
        ((t.elements[k + 1]?.getD [])[j]?.getD []) * (t.matrix (k + 1)).entry j m) := by
    intro j hj
    rw [h.entry (by omega) hi (List.mem_range.1 hj)]
    ring
  rw [List.map_congr_left e1, List.sum_map_mul_left, h.sum_entry hk ((calt_csign he hn).ccob) hm, ccob_ccob]
  simp

end CWF

end Verif
