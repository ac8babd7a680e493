/-
The construction of a cubical topology and its boundary specification.
-/
import Verif.Lemmas.CubeTable
import Verif.Lemmas.Chain

set_option linter.unusedSectionVars false

namespace Verif

open Verif.Model Verif.Spec Verif.Props

variable {n : Nat}

/-! ### symmetric cubes -/

theorem Spec.SymmetricCube.nodup {e l : List Nat} {s : ℤ} (he : e.length = 2 ^ n) (hn : e.Nodup)
    (h : SymmetricCube n e l s) : l.Nodup := (h.perm he).nodup_iff.2 hn

/-- what survives flips and exchanges of neighbouring axes holds for all symmetric cubes -/
theorem symmetric_induction {P : List Nat → Prop}
    (hflip : ∀ i < n, ∀ l : List Nat, l.length = 2 ^ n → P l → P (flipAxis n i l))
    (hswap : ∀ i, i + 1 < n → ∀ l : List Nat, l.length = 2 ^ n → P l → P (swapAxes n i l))
    {e l : List Nat} {s : ℤ} (he : e.length = 2 ^ n) (hn : e.Nodup) (h : SymmetricCube n e l s) (hP : P e) :
    P l := by
  classical
  have hflip' : ∀ i < n, ∀ l : List Nat, l.length = 2 ^ n → (P (flipAxis n i l) ↔ P l) := by
    intro i hi l hl
    refine ⟨fun hp => ?_, hflip i hi l hl⟩
    have := hflip i hi _ (flipAxis_length _ _ _) hp
    rwa [flipAxis_flipAxis hl] at this
  have hswap' : ∀ i, i + 1 < n → ∀ l : List Nat, l.length = 2 ^ n → (P (swapAxes n i l) ↔ P l) := by
    intro i hi l hl
    refine ⟨fun hp => ?_, hswap i hi l hl⟩
    have := hswap i hi _ (swapAxes_length _ _ _) hp
    rwa [swapAxes_swapAxes hl] at this
  have hc := calt_csign he hn
  have hφ : CAlt n (fun l => if P l then csign n e l else 0) := by
    constructor
    · intro i hi l hl
      simp only [hflip' i hi l hl]
      split
      · exact hc.flip i hi l hl
      · simp
    · intro i hi l hl
      simp only [hswap' i hi l hl]
      split
      · exact hc.swap i hi l hl
      · simp
  have := hφ.symmetric he h
  simp only [if_pos hP, csign_eq he hn (SymmetricCube.refl he)] at this
  by_contra hl
  rw [if_neg hl] at this
  rcases h.sign with rfl | rfl <;> simp at this

theorem Spec.SymmetricCube.trans {e l m : List Nat} {s s' : ℤ} (he : e.length = 2 ^ n) (hn : e.Nodup)
    (h : SymmetricCube n e l s) (h' : SymmetricCube n l m s') : SymmetricCube n e m (s * s') := by
  have hc := calt_csign he hn
  have h1 := hc.symmetric h.length h'
  rw [csign_eq he hn h] at h1
  by_cases hm : ∃ r, SymmetricCube n e m r
  · obtain ⟨r, hr⟩ := hm
    rw [csign_eq he hn hr] at h1
    rw [mul_comm, ← h1]
    exact hr
  · rw [csign_none hm] at h1
    rcases h.sign with rfl | rfl <;> rcases h'.sign with rfl | rfl <;> simp at h1

/-- sides of symmetric cubes are symmetric -/
theorem Spec.SymmetricCube.slice {e l : List Nat} {s : ℤ} (he : e.length = 2 ^ (n + 1)) (hn : e.Nodup)
    (h : SymmetricCube (n + 1) e l s) : ∀ i ≤ n, ∀ t : Bool, ∃ i' ≤ n, ∃ t' σ,
      SymmetricCube n (sliceAxis n i' t' e) (sliceAxis n i t l) σ := by
  refine symmetric_induction (n := n + 1) (P := fun l => ∀ i ≤ n, ∀ t : Bool, ∃ i' ≤ n, ∃ t' σ,
    SymmetricCube n (sliceAxis n i' t' e) (sliceAxis n i t l) σ) ?_ ?_ he hn h ?_
  · intro j hj l hl hP i hi t
    rcases Nat.lt_trichotomy j i with hlt | rfl | hgt
    · obtain ⟨i', hi', t', σ, h1⟩ := hP i hi t
      refine ⟨i', hi', t', -σ, ?_⟩
      rw [sliceAxis_flipAxis_lt t l hlt hi]
      exact h1.flip (by omega)
    · rw [sliceAxis_flipAxis_self t l hi]
      exact hP j hi _
    · obtain ⟨i', hi', t', σ, h1⟩ := hP i hi t
      refine ⟨i', hi', t', -σ, ?_⟩
      obtain ⟨j, rfl⟩ : ∃ j', j = j' + 1 := ⟨j - 1, by omega⟩
      rw [sliceAxis_flipAxis_gt t l (by omega) hi]
      exact h1.flip (by omega)
  · intro j hj l hl hP i hi t
    by_cases h1 : i = j
    · subst h1
      rw [sliceAxis_swapAxes_self t l (by omega)]
      exact hP (i + 1) (by omega) t
    · by_cases h2 : i = j + 1
      · subst h2
        rw [sliceAxis_swapAxes_succ t l (by omega)]
        exact hP j (by omega) t
      · obtain ⟨i', hi', t', σ, h3⟩ := hP i hi t
        refine ⟨i', hi', t', -σ, ?_⟩
        rcases Nat.lt_or_ge i j with hlt | hge
        · obtain ⟨j, rfl⟩ : ∃ j', j = j' + 1 := ⟨j - 1, by omega⟩
          rw [sliceAxis_swapAxes_gt t l (by omega) hi]
          exact h3.swap (by omega)
        · rw [sliceAxis_swapAxes_lt t l (by omega) hi]
          exact h3.swap (by omega)
  · intro i hi t
    exact ⟨i, hi, t, 1, SymmetricCube.refl (sliceAxis_length _ _ _ _)⟩

/-! ### sides -/

theorem filter_cubeIndices (s : Bool) : ∀ (k i : Nat), i ≤ k →
    ((cubeIndices (k + 1)).filter fun b => b[i]? == some s) = (cubeIndices k).map fun b => b.insertIdx i s := by
  intro k
  induction k with
  | zero =>
    intro i hi
    have : i = 0 := by omega
    subst this
    cases s <;> rfl
  | succ k ih =>
    intro i hi
    rw [cubeIndices, List.filter_append, List.filter_map, List.filter_map]
    cases i with
    | zero =>
      have h1 : ∀ t : Bool, (cubeIndices (k + 1)).filter ((fun b : List Bool => b[0]? == some s) ∘ (t :: ·)) =
          if t = s then cubeIndices (k + 1) else [] := by
        intro t
        split
        · next h => subst h; simp [List.filter_eq_self]
        · next h => simp [List.filter_eq_nil_iff, h]
      rw [h1, h1]
      cases s <;> simp
    | succ i =>
      have h1 : ∀ t : Bool, ((fun b : List Bool => b[i + 1]? == some s) ∘ (t :: ·)) =
          fun b : List Bool => b[i]? == some s := by
        intro t; rfl
      rw [h1, h1, ih i (by omega), cubeIndices, List.map_append, List.map_map, List.map_map, List.map_map,
        List.map_map]
      rfl

theorem side_eq {k i : Nat} (hi : i ≤ k) (s : Bool) (l : List Nat) : side k i s l = sliceAxis k i s l := by
  unfold side sliceAxis cubeOf
  rw [filter_cubeIndices s k i hi, List.map_map]
  rfl

theorem sliceAxis_nodup {k i : Nat} (hi : i ≤ k) (s : Bool) {l : List Nat} (hl : l.length = 2 ^ (k + 1))
    (hn : l.Nodup) : (sliceAxis k i s l).Nodup := by
  refine cubeOf_nodup hl hn _ (fun b hb => insertIdx_length s hb hi) ?_
  intro b b' hb hb' he
  have := congrArg (fun x => x.eraseIdx i) he
  simpa [List.eraseIdx_insertIdx_self] using this

theorem mem_sliceAxis {k i : Nat} (s : Bool) {l : List Nat} {v : Nat} :
    v ∈ sliceAxis k i s l ↔ ∃ b : List Bool, b.length = k ∧ cubeAt l (b.insertIdx i s) = v := by
  unfold sliceAxis cubeOf
  simp [mem_cubeIndices]

/-! ### the generated boundary -/

theorem combinations_one_range (n : Nat) :
    combinations 1 (List.range (n + 1)) = (List.range (n + 1)).map fun i => (i % 2, [i]) := by
  unfold combinations
  rw [if_neg (by simp)]
  simp only [List.length_range, Nat.add_sub_cancel, zero_add]
  rw [List.flatMap_def, List.map_congr_left (g := fun i => [(i % 2, [i])])]
  · generalize List.range (n + 1) = L
    induction L with
    | nil => rfl
    | cons a t ih => simpa using ih
  · intro i hi
    rw [List.getElem?_range (List.mem_range.1 hi)]
    simp [combinations]

theorem flatMap_two {α β : Type} {f : α → List β} (hf : ∀ a, (f a).length = 2) : ∀ (L : List α) (i c : Nat),
    c < 2 → (L.flatMap f)[2 * i + c]? = (L[i]?).bind fun a => (f a)[c]? := by
  intro L
  induction L with
  | nil => intro i c _; simp
  | cons a t ih =>
    intro i c hc
    rw [List.flatMap_cons]
    cases i with
    | zero =>
      rw [List.getElem?_append_left (by rw [hf]; omega)]
      simp
    | succ i =>
      rw [List.getElem?_append_right (by rw [hf]; omega), hf, show 2 * (i + 1) + c - 2 = 2 * i + c by omega,
        ih i c hc]
      simp

/-- the face stored for side `s` along axis `i` -/
def mirroredSide (n i : Nat) (s : Bool) (l : List Nat) : List Nat :=
  let view := if i % 2 ≠ 0 then flipAxis n (n - 1) (sliceAxis n i s l) else sliceAxis n i s l
  if s then flipAxis n (n - 1) view else view

theorem cubeBoundary_eq (n : Nat) (l : List Nat) :
    cubeBoundary n true l = (List.range (n + 1)).flatMap fun i => [mirroredSide n i false l, mirroredSide n i true l] := by
  unfold cubeBoundary
  rw [combinations_one_range, List.flatMap_map]
  refine congrArg (fun f => List.flatMap f _) (funext fun i => ?_)
  simp [cubeSides, mirroredSide]

theorem cubeBoundary_get {l : List Nat} {i : Nat} (hi : i ≤ n) (s : Bool) :
    (cubeBoundary n true l)[2 * i + s.toNat]? = some (mirroredSide n i s l) := by
  rw [cubeBoundary_eq, flatMap_two (fun _ => rfl) _ _ _ (by cases s <;> simp),
    List.getElem?_range (by omega)]
  cases s <;> rfl

theorem cubeBoundary_length (l : List Nat) : (cubeBoundary n true l).length = 2 * (n + 1) := by
  rw [cubeBoundary_eq, List.length_flatMap]
  simp
  ring

theorem mem_cubeBoundary {l f : List Nat} :
    f ∈ cubeBoundary n true l ↔ ∃ i ≤ n, ∃ s, f = mirroredSide n i s l := by
  rw [cubeBoundary_eq]
  simp only [List.mem_flatMap, List.mem_range, List.mem_cons, List.not_mem_nil, or_false]
  constructor
  · rintro ⟨i, hi, h | h⟩
    · exact ⟨i, by omega, false, h⟩
    · exact ⟨i, by omega, true, h⟩
  · rintro ⟨i, hi, s, h⟩
    refine ⟨i, by omega, ?_⟩
    cases s
    · exact Or.inl h
    · exact Or.inr h

theorem mirroredSide_symmetric (hn : 1 ≤ n) (i : Nat) (s : Bool) (l : List Nat) :
    SymmetricCube n (sliceAxis n i s l) (mirroredSide n i s l) ((-1) ^ (i + s.toNat)) := by
  have h0 := SymmetricCube.refl (n := n) (l := sliceAxis n i s l) (sliceAxis_length _ _ _ _)
  have h1 := h0.flip (i := n - 1) (by omega)
  have h2 := h1.flip (i := n - 1) (by omega)
  unfold mirroredSide
  rw [pow_add]
  rcases Nat.even_or_odd i with h | h
  · have h' := Nat.even_iff.1 h
    cases s
    · simpa [h', h.neg_one_pow] using h0
    · simpa [h', h.neg_one_pow] using h1
  · have h' := Nat.odd_iff.1 h
    cases s
    · simpa [h', h.neg_one_pow] using h1
    · simpa [h', h.neg_one_pow] using h2

theorem mapM_ok_inv {α β : Type} {f : α → Except PyErr β} : ∀ {l : List α} {r : List β}, l.mapM f = .ok r →
    ∀ a ∈ l, ∃ b, f a = .ok b := by
  intro l
  induction l with
  | nil => intro r _ a ha; simp at ha
  | cons x t ih =>
    intro r h a ha
    rw [List.mapM_cons] at h
    cases hx : f x with
    | error e => rw [hx] at h; simp [bind, Except.bind] at h
    | ok b =>
      rw [hx] at h
      cases ht : t.mapM f with
      | error e => rw [ht] at h; simp [bind, Except.bind] at h
      | ok bs =>
        rcases List.mem_cons.1 ha with rfl | ha
        · exact ⟨b, hx⟩
        · exact ih ht a ha

/-- one step of the construction for faces of dimension at least one: it fails unless all faces with the same
corners are symmetric, and otherwise gives a correct level -/
theorem lowerCubes_general {uniq : List (List Nat) → List (List Nat)} (hu : UniqSpec uniq) {k : Nat}
    (hk : 1 ≤ k) {F : List (List Nat)} (hF : Cubes (k + 1) F) :
    (∀ r, lowerCubes uniq true k F = .ok r → 2 ^ k < 128 ∧
      (∀ l ∈ F, ∀ l' ∈ F, ∀ i ≤ k, ∀ i' ≤ k, ∀ s s', (sliceAxis k i s l).Perm (sliceAxis k i' s' l') →
        ∃ σ, SymmetricCube k (sliceAxis k i s l) (sliceAxis k i' s' l') σ) ∧
      Cubes k r.1 ∧ DistinctElements r.1 ∧ SidesOf k r.1 F ∧ CubeBoundary k r.1 F r.2.1 r.2.2) ∧
    (2 ^ k < 128 → (∀ l ∈ F, ∀ l' ∈ F, ∀ i ≤ k, ∀ i' ≤ k, ∀ s s', (sliceAxis k i s l).Perm (sliceAxis k i' s' l') →
        ∃ σ, SymmetricCube k (sliceAxis k i s l) (sliceAxis k i' s' l') σ) →
      ∃ r, lowerCubes uniq true k F = .ok r) := by
  set full := F.map (cubeBoundary k true) with hfull
  set corners := full.flatten with hcorners
  have hmem : ∀ b, b ∈ corners ↔ ∃ l ∈ F, ∃ i ≤ k, ∃ s, b = mirroredSide k i s l := by
    intro b
    simp only [hcorners, hfull, List.mem_flatten, List.mem_map]
    constructor
    · rintro ⟨_, ⟨l, hl, rfl⟩, hb⟩
      exact ⟨l, hl, mem_cubeBoundary.1 hb⟩
    · rintro ⟨l, hl, hb⟩
      exact ⟨_, ⟨l, hl, rfl⟩, mem_cubeBoundary.2 hb⟩
  have hslice : ∀ l ∈ F, ∀ i ≤ k, ∀ s, (sliceAxis k i s l).length = 2 ^ k ∧ (sliceAxis k i s l).Nodup :=
    fun l hl i hi s => ⟨sliceAxis_length _ _ _ _, sliceAxis_nodup hi s (hF l hl).1 (hF l hl).2⟩
  have hms : ∀ l ∈ F, ∀ i ≤ k, ∀ s,
      SymmetricCube k (sliceAxis k i s l) (mirroredSide k i s l) ((-1) ^ (i + s.toNat)) :=
    fun l _ i _ s => mirroredSide_symmetric hk i s l
  have hcn : ∀ b ∈ corners, b.length = 2 ^ k ∧ b.Nodup := by
    intro b hb
    obtain ⟨l, hl, i, hi, s, rfl⟩ := (hmem b).1 hb
    exact ⟨(hms l hl i hi s).length, (hms l hl i hi s).nodup (hslice l hl i hi s).1 (hslice l hl i hi s).2⟩
  set sorted := corners.map sortRow with hsorted
  set keys := uniq sorted with hkeys
  have hkn : keys.Nodup := (hu sorted).1
  have hkm : ∀ r, r ∈ keys ↔ r ∈ sorted := (hu sorted).2
  set rep : List Nat → List Nat := fun key => (corners[sorted.idxOf key]?).getD [] with hrep
  have hrs : ∀ key ∈ sorted, rep key ∈ corners ∧ sortRow (rep key) = key := by
    intro key hkey
    exact rep_spec hkey
  have hbs : ∀ b ∈ corners, sortRow b ∈ sorted := fun b hb => List.mem_map_of_mem hb
  have hrp : ∀ b ∈ corners, b.Perm (rep (sortRow b)) := by
    intro b hb
    rw [← sortRow_eq_iff]
    exact (hrs _ (hbs b hb)).2.symm
  set look : List Nat → Except PyErr Nat := fun b =>
    relativeCubeParity k (relativePermutation (argsort b) (argsort (rep (sortRow b)))) with hlook
  have hlookiff : ∀ b ∈ corners, ∀ p, look b = .ok p ↔ p < 2 ∧ SymmetricCube k b (rep (sortRow b)) ((-1) ^ p) :=
    fun b hb p => relativeCubeParity_iff hk (hcn b hb).1 (hcn b hb).2 (hrp b hb)
  have hdef : lowerCubes uniq true k F = (if 128 ≤ 2 ^ k then .error .assertionError else do
      let parity ← full.mapM fun bs => bs.mapM look
      .ok (keys.map rep, full.map fun bs => bs.map fun b => keys.idxOf (sortRow b),
        parity.map fun ps => ps.map parityToOrientation)) := by
    unfold lowerCubes
    rw [if_neg (by omega)]
  -- when all lookups succeed
  have hall : (∃ r, lowerCubes uniq true k F = .ok r) → 2 ^ k < 128 ∧ ∀ b ∈ corners, ∃ p, look b = .ok p := by
    rintro ⟨r, hr⟩
    rw [hdef] at hr
    split at hr
    · simp at hr
    · next h128 =>
      refine ⟨by omega, fun b hb => ?_⟩
      obtain ⟨bs, hbs', hb⟩ := List.mem_flatten.1 hb
      cases hm : full.mapM (fun bs => bs.mapM look) with
      | error e => rw [hm] at hr; simp [bind, Except.bind] at hr
      | ok ps =>
        obtain ⟨q, hq⟩ := mapM_ok_inv hm bs hbs'
        exact mapM_ok_inv hq b hb
  have hsym : (∀ b ∈ corners, ∃ p, look b = .ok p) → ∀ l ∈ F, ∀ l' ∈ F, ∀ i ≤ k, ∀ i' ≤ k, ∀ s s',
      (sliceAxis k i s l).Perm (sliceAxis k i' s' l') →
        ∃ σ, SymmetricCube k (sliceAxis k i s l) (sliceAxis k i' s' l') σ := by
    intro hp l hl l' hl' i hi i' hi' s s' hperm
    have a1 := hms l hl i hi s
    have a2 := hms l' hl' i' hi' s'
    have g1 := hslice l hl i hi s
    have g2 := hslice l' hl' i' hi' s'
    have m1 := (hmem _).2 ⟨l, hl, i, hi, s, rfl⟩
    have m2 := (hmem _).2 ⟨l', hl', i', hi', s', rfl⟩
    obtain ⟨p, hp1⟩ := hp _ m1
    obtain ⟨q, hq1⟩ := hp _ m2
    have b1 := ((hlookiff _ m1 p).1 hp1).2
    have b2 := ((hlookiff _ m2 q).1 hq1).2
    have hkey : sortRow (mirroredSide k i s l) = sortRow (mirroredSide k i' s' l') := by
      rw [sortRow_eq_iff]
      exact (a1.perm g1.1).trans (hperm.trans (a2.perm g2.1).symm)
    rw [hkey] at b1
    have c1 := a1.trans g1.1 g1.2 b1
    have c2 := a2.trans g2.1 g2.2 b2
    exact ⟨_, c1.trans g1.1 g1.2 (c2.symm g2.1 g2.2)⟩
  constructor
  · intro r hr
    obtain ⟨h128, hp⟩ := hall ⟨r, hr⟩
    refine ⟨h128, hsym hp, ?_⟩
    have hpar : ∀ b, ∃ p, b ∈ corners → look b = .ok p := by
      intro b
      by_cases hb : b ∈ corners
      · obtain ⟨p, h⟩ := hp b hb; exact ⟨p, fun _ => h⟩
      · exact ⟨0, fun h => absurd h hb⟩
    choose par hpar using hpar
    have hmapM : (full.mapM fun bs => bs.mapM look) = .ok (full.map fun bs => bs.map par) := by
      apply mapM_ok
      intro bs hbs'
      apply mapM_ok
      intro b hb
      exact hpar b (List.mem_flatten.2 ⟨bs, hbs', hb⟩)
    rw [hdef, if_neg (by omega), hmapM] at hr
    simp only [bind, Except.bind, Except.ok.injEq] at hr
    subst hr
    -- the stored cube and a side
    have hstored : ∀ l ∈ F, ∀ i ≤ k, ∀ s, ∃ σ : ℤ, (σ = 1 ∨ σ = -1) ∧
        SymmetricCube k (rep (sortRow (mirroredSide k i s l))) (sliceAxis k i s l) σ ∧
        parityToOrientation (par (mirroredSide k i s l)) = - ((-1) ^ (i + s.toNat) * σ) := by
      intro l hl i hi s
      have m1 := (hmem _).2 ⟨l, hl, i, hi, s, rfl⟩
      have g1 := hslice l hl i hi s
      obtain ⟨hp2, b1⟩ := (hlookiff _ m1 _).1 (hpar _ m1)
      have c1 := (hms l hl i hi s).trans g1.1 g1.2 b1
      refine ⟨_, c1.sign, c1.symm g1.1 g1.2, ?_⟩
      have e1 : ((-1 : ℤ) ^ (i + s.toNat)) * ((-1) ^ (i + s.toNat)) = 1 := by
        rw [← mul_pow]; simp
      rw [← mul_assoc, e1, one_mul]
      have : par (mirroredSide k i s l) = 0 ∨ par (mirroredSide k i s l) = 1 := by omega
      rcases this with h | h <;> rw [h] <;> decide
    refine ⟨?_, ?_, ⟨?_, ?_⟩, by simp [hfull], by simp [hfull], ?_⟩
    · intro e he
      obtain ⟨key, hkey, rfl⟩ := List.mem_map.1 he
      exact hcn _ (hrs key ((hkm key).1 hkey)).1
    · unfold DistinctElements
      rw [List.pairwise_map]
      refine List.Pairwise.imp_of_mem ?_ hkn
      intro a b ha hb hab hperm
      apply hab
      rw [← (hrs a ((hkm a).1 ha)).2, ← (hrs b ((hkm b).1 hb)).2]
      exact (sortRow_eq_iff _ _).2 hperm
    · intro l hl i hi s
      have m1 := (hmem _).2 ⟨l, hl, i, hi, s, rfl⟩
      obtain ⟨σ, -, h1, -⟩ := hstored l hl i hi s
      exact ⟨_, List.mem_map_of_mem ((hkm _).2 (hbs _ m1)), σ, by rw [side_eq hi]; exact h1⟩
    · intro e he
      obtain ⟨key, hkey, rfl⟩ := List.mem_map.1 he
      have hr := hrs key ((hkm key).1 hkey)
      obtain ⟨l, hl, i, hi, s, hlc⟩ := (hmem _).1 hr.1
      refine ⟨l, hl, i, hi, s, (-1) ^ (i + s.toNat), ?_⟩
      · rw [side_eq hi, hlc]
        exact (hms l hl i hi s).symm (hslice l hl i hi s).1 (hslice l hl i hi s).2
    · intro j l hj
      have hl : l ∈ F := List.mem_of_getElem? hj
      have hfj : full[j]? = some (cubeBoundary k true l) := by
        rw [hfull, List.getElem?_map, hj]; rfl
      refine ⟨_, _, by rw [List.getElem?_map, hfj]; rfl,
        by rw [List.getElem?_map, List.getElem?_map, hfj]; rfl, by simp [cubeBoundary_length],
        by simp [cubeBoundary_length], ?_⟩
      intro i hi s
      obtain ⟨σ, -, h1, h2⟩ := hstored l hl i hi s
      have m1 := (hmem _).2 ⟨l, hl, i, hi, s, rfl⟩
      have hkey : sortRow (mirroredSide k i s l) ∈ keys := (hkm _).2 (hbs _ m1)
      refine ⟨keys.idxOf (sortRow (mirroredSide k i s l)), σ, rep (sortRow (mirroredSide k i s l)), ?_, ?_, ?_, ?_⟩
      · rw [List.getElem?_map, cubeBoundary_get hi]; rfl
      · rw [List.getElem?_map, List.getElem?_map, cubeBoundary_get hi, ← h2]; rfl
      · rw [List.getElem?_map, List.getElem?_eq_getElem (List.idxOf_lt_length_of_mem hkey),
          List.getElem_idxOf]
        rfl
      · rw [side_eq hi]
        exact h1
  · intro h128 hs
    have hp : ∀ b, ∃ p, b ∈ corners → look b = .ok p := by
      intro b
      by_cases hb : b ∈ corners
      · obtain ⟨l, hl, i, hi, s, rfl⟩ := (hmem b).1 hb
        have hr := hrs _ (hbs _ hb)
        obtain ⟨l', hl', i', hi', s', hlc⟩ := (hmem _).1 hr.1
        have a1 := hms l hl i hi s
        have a2 := hms l' hl' i' hi' s'
        have g1 := hslice l hl i hi s
        have g2 := hslice l' hl' i' hi' s'
        have hperm : (sliceAxis k i s l).Perm (sliceAxis k i' s' l') :=
          (a1.perm g1.1).symm.trans ((hrp _ hb).trans (by rw [hlc]; exact a2.perm g2.1))
        obtain ⟨σ, hσ⟩ := hs l hl l' hl' i hi i' hi' s s' hperm
        have c1 := (a1.symm g1.1 g1.2).trans (hcn _ hb).1 (hcn _ hb).2 hσ
        have c2 := c1.trans (hcn _ hb).1 (hcn _ hb).2 a2
        rw [← hlc] at c2
        rcases c2.sign with h | h
        · exact ⟨0, fun _ => (hlookiff _ hb 0).2 ⟨by omega, by rw [h] at c2; simpa using c2⟩⟩
        · exact ⟨1, fun _ => (hlookiff _ hb 1).2 ⟨by omega, by rw [h] at c2; simpa using c2⟩⟩
      · exact ⟨0, fun h => absurd h hb⟩
    choose par hpar using hp
    have hmapM : (full.mapM fun bs => bs.mapM look) = .ok (full.map fun bs => bs.map par) := by
      apply mapM_ok
      intro bs hbs'
      apply mapM_ok
      intro b hb
      exact hpar b (List.mem_flatten.2 ⟨bs, hbs', hb⟩)
    rw [hdef, if_neg (by omega), hmapM]
    exact ⟨_, rfl⟩

end Verif
