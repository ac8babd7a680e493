/-
Orientation of cubical topologies, and the chain of boundary sides.
-/
import Verif.Lemmas.CubicalBoundary
import Verif.Lemmas.GridOrient
import Verif.Lemmas.ProductTopo
import Verif.Props.Boundary

set_option linter.unusedSectionVars false

namespace Verif

open Verif.Model Verif.Spec Verif.Props

/-- if `is_oriented` says `True`, the two entries of a row with exactly two entries cancel -/
theorem isOriented_matrix_sound {solve : List (List Int) → Option (List Int)} (hsat : SatSpec solve) {t : Topo} {n : Nat}
    (hB : t.boundary.length = n + 1)
    (hpm : ∀ i < (t.matrix n).rows, ∀ j1 j2, nonzeroCols (t.matrix n) i = [j1, j2] →
      ((t.matrix n).entry i j1 = 1 ∨ (t.matrix n).entry i j1 = -1) ∧
      ((t.matrix n).entry i j2 = 1 ∨ (t.matrix n).entry i j2 = -1))
    (ho : isOriented solve t = .ok true) :
    ∀ i < (t.matrix n).rows, ∀ j1 j2, nonzeroCols (t.matrix n) i = [j1, j2] →
      (t.matrix n).entry i j1 + (t.matrix n).entry i j2 = 0 := by
  intro i hi j1 j2 hz
  set M := t.matrix n with hM
  have hin := mem_interiorClauses.2 ⟨i, hi, j1, j2, hz, rfl⟩
  have hc : interiorClauses M ≠ [] := List.ne_nil_of_mem hin
  have hrp : relativeParity solve t = match solve (allClauses M) with
      | none => .error .valueError
      | some m => .ok (m.map orientationToParity) := by
    unfold relativeParity allClauses
    simp only [hB, hc, Nat.add_sub_cancel, if_false, Nat.add_one_ne_zero, ← hM]
    rfl
  have hlit : ∀ c ∈ allClauses M, ∃ i < M.rows, ∃ j1 j2, nonzeroCols M i = [j1, j2] ∧
      (c = [((j1 : Int) + 1) * M.entry i j1, ((j2 : Int) + 1) * M.entry i j2] ∨
       c = [-(((j1 : Int) + 1) * M.entry i j1), -(((j2 : Int) + 1) * M.entry i j2)]) := by
    intro c hcm
    rcases List.mem_append.1 hcm with h | h
    · obtain ⟨i, hi, j1, j2, hz, rfl⟩ := mem_interiorClauses.1 h
      exact ⟨i, hi, j1, j2, hz, Or.inl rfl⟩
    · obtain ⟨c', hc', rfl⟩ := List.mem_map.1 h
      obtain ⟨i, hi, j1, j2, hz, rfl⟩ := mem_interiorClauses.1 hc'
      exact ⟨i, hi, j1, j2, hz, Or.inr rfl⟩
  have hvar : ∀ c ∈ allClauses M, ∀ v ∈ c, v ≠ 0 := by
    intro c hcm v hv
    obtain ⟨i, hi, j1, j2, hz, hcc⟩ := hlit c hcm
    obtain ⟨h1, h2⟩ := hpm i hi j1 j2 hz
    rcases hcc with rfl | rfl <;> simp only [List.mem_cons, List.not_mem_nil, or_false] at hv <;>
      rcases hv with rfl | rfl <;> rcases h1 with h1 | h1 <;> rcases h2 with h2 | h2 <;>
      simp only [h1, h2, mul_one, mul_neg] <;> omega
  obtain ⟨hok, -⟩ := hsat (allClauses M) hvar
  obtain ⟨h1, h2⟩ := hpm i hi j1 j2 hz
  cases hs : solve (allClauses M) with
  | none =>
    unfold isOriented at ho
    rw [hrp, hs] at ho
    simp [bind, Except.bind] at ho
  | some m =>
    obtain ⟨σ, hm, hσ⟩ := hok m hs
    have hp : relativeParity solve t = .ok (m.map orientationToParity) := by rw [hrp, hs]
    rw [isOriented_of hp, hm, List.map_map,
      show (orientationToParity ∘ fun (v : Nat) => if σ (v + 1) = true then (v : Int) + 1 else -((v : Int) + 1)) =
        fun v => !σ (v + 1) from ?_] at ho
    · have hall := (allEqual_map _ _).1 (Except.ok.inj ho)
      have b : ∀ j, (j = j1 ∨ j = j2) → j < ((allClauses M).flatten.map Int.natAbs).foldl max 0 := by
        intro j hj
        have hmem : ∃ v ∈ [((j1 : Int) + 1) * M.entry i j1, ((j2 : Int) + 1) * M.entry i j2], v.natAbs = j + 1 := by
          rcases hj with rfl | rfl
          · refine ⟨_, List.mem_cons_self, ?_⟩
            rcases h1 with h1 | h1 <;> rw [h1] <;> omega
          · refine ⟨_, List.mem_cons_of_mem _ (List.mem_singleton_self _), ?_⟩
            rcases h2 with h2 | h2 <;> rw [h2] <;> omega
        obtain ⟨v, hv, hvj⟩ := hmem
        have : j + 1 ≤ ((allClauses M).flatten.map Int.natAbs).foldl max 0 := by
          rw [← hvj]
          apply le_foldl_max
          exact List.mem_map_of_mem (List.mem_flatten.2 ⟨_, List.mem_append_left _ hin, hv⟩)
        omega
      have heq := hall j1 (b j1 (Or.inl rfl)) j2 (b j2 (Or.inr rfl))
      have heq' : σ (j1 + 1) = σ (j2 + 1) := by simpa using heq
      have := (satisfies_pair σ j1 j2 h1 h2).1 ⟨hσ _ (List.mem_append_left _ hin),
        hσ _ (List.mem_append_right _ (List.mem_map.2 ⟨_, hin, rfl⟩))⟩
      rw [heq', ← mul_add] at this
      unfold sg at this
      cases hb : σ (j2 + 1) <;> simp [hb] at this <;> omega
    · funext v
      simp only [Function.comp, orientationToParity]
      by_cases hb : σ (v + 1) = true
      · simp [hb]; omega
      · simp [hb]; omega

section sides

variable {uniq : List (List Nat) → List (List Nat)} {n : Nat} {cubes : List (List Nat)} {t : Topo}

/-- a stored side of a stored cube has an orientation, and the entry of the matrix is its negative -/
theorem entry_isSide (hu : UniqSpec uniq) (hc : Cubes n cubes) (h : fromCubes uniq true n cubes = .ok t) {k : Nat}
    (hk : k < n) {x j : Nat} {e l : List Nat} (he : (t.elements[k]?.getD [])[x]? = some e)
    (hl : (t.elements[k + 1]?.getD [])[j]? = some l) (hs : IsCubeSide k e l) :
    ∃ τ, SideSign k e l τ ∧ (τ = 1 ∨ τ = -1) ∧ (t.matrix k).entry x j = - τ ∧
      ∀ τ', SideSign k e l τ' → τ' = τ := by
  have wf := fromCubes_wf hu hc h
  obtain ⟨h1, h2, h3, h4, h5⟩ := wf.get hk
  have hee := h1 e (List.mem_of_getElem? he)
  obtain ⟨i, hi, s, hp⟩ := hs
  obtain ⟨e', he', σ, hσ⟩ := h4.1 l (List.mem_of_getElem? hl) i hi s
  obtain ⟨x', hx', rfl⟩ := List.getElem_of_mem he'
  have hx := distinct_index h3 he (List.getElem?_eq_getElem hx') (hp.trans (hσ.perm (h1 _ he').1))
  subst hx
  have hq := Option.some.inj ((List.getElem?_eq_getElem hx').symm.trans he)
  rw [hq] at hσ
  have hent := (C19_entries hu hc h k hk x j e l he hl).1
  refine ⟨(-1) ^ (i + s.toNat) * σ, ⟨i, hi, s, σ, hσ, rfl⟩, ?_, hent i hi s σ hσ, ?_⟩
  · rcases neg_one_pow_eq_or ℤ (i + s.toNat) with h | h <;> rcases hσ.sign with h' | h' <;> rw [h, h'] <;> simp
  · rintro τ' ⟨i', hi', s', σ', hσ', rfl⟩
    have a := hent i hi s σ hσ
    have b := hent i' hi' s' σ' hσ'
    linarith

theorem entry_not_isSide (hu : UniqSpec uniq) (hc : Cubes n cubes) (h : fromCubes uniq true n cubes = .ok t) {k : Nat}
    (hk : k < n) {x j : Nat} {e l : List Nat} (he : (t.elements[k]?.getD [])[x]? = some e)
    (hl : (t.elements[k + 1]?.getD [])[j]? = some l) (hs : ¬ IsCubeSide k e l) : (t.matrix k).entry x j = 0 :=
  (C19_entries hu hc h k hk x j e l he hl).2 fun i hi s hp => hs ⟨i, hi, s, hp⟩

/-- the sides of dimension at least one are stored as some cube lists them, with orientation `+1` -/
theorem stored_first (hu : UniqSpec uniq) (hc : Cubes (n + 1) cubes) (hn : 1 ≤ n)
    (h : fromCubes uniq true (n + 1) cubes = .ok t) :
    ∀ e ∈ t.elements[n]?.getD [], ∃ l ∈ cubes, SideSign n e l 1 := by
  have hall : cubes.all (fun l => l.length = 2 ^ (n + 1)) = true := by
    rw [List.all_eq_true]
    intro l hl
    simpa using (hc l hl).1
  simp only [fromCubes, hall, if_true] at h
  cases hr : lowerCubes uniq true n cubes with
  | error e => simp [cubeLevels, hr, bind, Except.bind] at h
  | ok r =>
    obtain ⟨E, B, O⟩ := r
    cases ht' : cubeLevels uniq true n E with
    | error e => simp [cubeLevels, hr, ht', bind, Except.bind] at h
    | ok t' =>
      obtain ⟨-, -, h2, -⟩ := (lowerCubes_general hu hn hc).1 _ hr
      have hb := ((cubeLevels_built hu n h2).1 t' ht').2.2
      have htt : t = ⟨t'.elements ++ [cubes], t'.boundary ++ [B], t'.orientation ++ [O]⟩ := by
        simp only [cubeLevels, hr, ht', bind, Except.bind, checkTopo] at h
        split at h
        · simp at h
        · split at h
          · exact (Except.ok.inj h).symm
          · simp at h
      have htop : t.elements[n]? = some E := by
        rw [htt, List.getElem?_append_left (by rw [hb.lenE]; omega)]
        exact hb.top_eq
      rw [htop, Option.getD_some]
      intro e he
      -- the stored row is one of the listed sides
      have hmem : e ∈ (cubes.map (cubeBoundary n true)).flatten := by
        unfold lowerCubes at hr
        rw [if_neg (by omega)] at hr
        split at hr
        · simp at hr
        · simp only [bind, Except.bind] at hr
          split at hr
          · simp at hr
          · have hE := congrArg Prod.fst (Except.ok.inj hr)
            simp only at hE
            rw [← hE] at he
            obtain ⟨key, hkey, rfl⟩ := List.mem_map.1 he
            exact (rep_spec ((hu _).2 key |>.1 hkey)).1
      obtain ⟨bs, hbs, heb⟩ := List.mem_flatten.1 hmem
      obtain ⟨l, hl, rfl⟩ := List.mem_map.1 hbs
      obtain ⟨i, hi, s, rfl⟩ := mem_cubeBoundary.1 heb
      have hsy := (mirroredSide_symmetric hn i s l).symm (sliceAxis_length _ _ _ _)
        (sliceAxis_nodup hi s (hc l hl).1 (hc l hl).2)
      refine ⟨l, hl, i, hi, s, (-1) ^ (i + s.toNat), by rw [side_eq hi]; exact hsy, ?_⟩
      rw [← mul_pow]
      simp

/-- the nonzero entries of a row of the last matrix belong to the cubes that have the side -/
theorem mem_nonzeroCols_cubes (hu : UniqSpec uniq) (hc : Cubes (n + 1) cubes) (h : fromCubes uniq true (n + 1) cubes = .ok t)
    {x : Nat} {e : List Nat} (he : (t.elements[n]?.getD [])[x]? = some e) (j : Nat) :
    j ∈ nonzeroCols (t.matrix n) x ↔ ∃ l, cubes[j]? = some l ∧ IsCubeSide n e l := by
  have wf := fromCubes_wf hu hc h
  have hcols : (t.matrix n).cols = cubes.length := by
    rw [(wf.shape (k := n) (by omega)).2, Topo.nElements, wf.top_eq]; rfl
  have htop : t.elements[n + 1]?.getD [] = cubes := by rw [wf.top_eq]; rfl
  unfold nonzeroCols
  rw [List.mem_filter, List.mem_range, hcols]
  constructor
  · rintro ⟨hj, hne⟩
    have hl := List.getElem?_eq_getElem hj
    refine ⟨_, hl, ?_⟩
    by_contra hns
    have := entry_not_isSide hu hc h (k := n) (by omega) he (by rw [htop]; exact hl) hns
    rw [this] at hne
    simp at hne
  · rintro ⟨l, hl, hs⟩
    refine ⟨(List.getElem?_eq_some_iff.1 hl).1, ?_⟩
    obtain ⟨τ, -, h1, h2, -⟩ := entry_isSide hu hc h (k := n) (by omega) he (by rw [htop]; exact hl) hs
    rw [h2]
    rcases h1 with rfl | rfl <;> simp

theorem rows_cubes (hu : UniqSpec uniq) (hc : Cubes (n + 1) cubes) (h : fromCubes uniq true (n + 1) cubes = .ok t) :
    (t.matrix n).rows = (t.elements[n]?.getD []).length :=
  ((fromCubes_wf hu hc h).shape (k := n) (by omega)).1

/-- rows with two entries -/
theorem shared_of_pair_cubes (hu : UniqSpec uniq) (hc : Cubes (n + 1) cubes) (h : fromCubes uniq true (n + 1) cubes = .ok t)
    {x : Nat} {e : List Nat} (he : (t.elements[n]?.getD [])[x]? = some e) {a b : Nat}
    (hz : nonzeroCols (t.matrix n) x = [a, b]) : SharedSide n cubes e a b := by
  have hmem := mem_nonzeroCols_cubes hu hc h he
  have hnd := WF.nonzeroCols_nodup (t.matrix n) x
  rw [hz] at hmem hnd
  obtain ⟨la, ha, -⟩ := (hmem a).1 (by simp)
  obtain ⟨lb, hb, -⟩ := (hmem b).1 (by simp)
  refine ⟨by simpa using hnd, (List.getElem?_eq_some_iff.1 ha).1, (List.getElem?_eq_some_iff.1 hb).1, ?_⟩
  intro j l hl
  constructor
  · intro hs
    simpa using (hmem j).2 ⟨l, hl, hs⟩
  · intro hj
    obtain ⟨l', hl', hs⟩ := (hmem j).1 (by simpa using hj)
    rw [hl] at hl'
    rw [Option.some.inj hl']
    exact hs

/-- a side in a list of cubes has the corners of a stored cube -/
theorem stored_of_isSide (hu : UniqSpec uniq) (hc : Cubes (n + 1) cubes) (h : fromCubes uniq true (n + 1) cubes = .ok t)
    {l e : List Nat} (hl : l ∈ cubes) (hs : IsCubeSide n e l) :
    ∃ (x : Nat) (e' : List Nat), (t.elements[n]?.getD [])[x]? = some e' ∧ e.Perm e' := by
  have wf := fromCubes_wf hu hc h
  obtain ⟨h1, -, -, h4, -⟩ := wf.get (k := n) (by omega)
  rw [wf.top_eq, Option.getD_some] at h4
  obtain ⟨i, hi, s, hp⟩ := hs
  obtain ⟨e', he', σ, hσ⟩ := h4.1 l hl i hi s
  obtain ⟨x, hx, rfl⟩ := List.getElem_of_mem he'
  exact ⟨x, _, List.getElem?_eq_getElem hx, hp.trans (hσ.perm (h1 _ he').1)⟩

theorem isSide_perm {k : Nat} {e e' l : List Nat} (hp : e.Perm e') : IsCubeSide k e l ↔ IsCubeSide k e' l :=
  ⟨fun ⟨i, hi, s, h⟩ => ⟨i, hi, s, hp.symm.trans h⟩, fun ⟨i, hi, s, h⟩ => ⟨i, hi, s, hp.trans h⟩⟩

theorem sharedSide_perm {k : Nat} {e e' : List Nat} (hp : e.Perm e') {a b : Nat} :
    SharedSide k cubes e a b ↔ SharedSide k cubes e' a b := by
  unfold SharedSide
  simp only [isSide_perm hp]

/-- the orientation of a side listed in another order -/
theorem sideSign_symmetric {k : Nat} {e e' l : List Nat} {σ τ : ℤ} (he : e.length = 2 ^ k) (hn : e.Nodup)
    (h : SymmetricCube k e e' σ) (hs : SideSign k e' l τ) : SideSign k e l (σ * τ) := by
  obtain ⟨i, hi, s, ρ, hρ, rfl⟩ := hs
  exact ⟨i, hi, s, σ * ρ, h.trans he hn hρ, by ring⟩

theorem SideSign.isSide {k : Nat} {e l : List Nat} {τ : ℤ} (he : e.length = 2 ^ k) (h : SideSign k e l τ) : IsCubeSide k e l := by
  obtain ⟨i, hi, s, ρ, hρ, rfl⟩ := h
  exact ⟨i, hi, s, (hρ.perm he).symm⟩

/-- the cubes are coherently oriented exactly when the entries of every row with two entries cancel -/
theorem coherent_iff_rows (hu : UniqSpec uniq) (hc : Cubes (n + 1) cubes) (h : fromCubes uniq true (n + 1) cubes = .ok t) :
    CubesCoherent n cubes ↔ ∀ x < (t.matrix n).rows, ∀ j1 j2, nonzeroCols (t.matrix n) x = [j1, j2] →
      (t.matrix n).entry x j1 + (t.matrix n).entry x j2 = 0 := by
  have wf := fromCubes_wf hu hc h
  have htop : t.elements[n + 1]?.getD [] = cubes := by rw [wf.top_eq]; rfl
  obtain ⟨hcn, -, hd, h4, -⟩ := wf.get (k := n) (by omega)
  constructor
  · intro hco x hx j1 j2 hz
    rw [rows_cubes hu hc h] at hx
    have he := List.getElem?_eq_getElem hx
    have hsh := shared_of_pair_cubes hu hc h he hz
    have h1 := List.getElem?_eq_getElem hsh.2.1
    have h2 := List.getElem?_eq_getElem hsh.2.2.1
    obtain ⟨τ1, s1, -, e1, -⟩ := entry_isSide hu hc h (k := n) (by omega) he (by rw [htop]; exact h1)
      ((hsh.2.2.2 _ _ h1).2 (Or.inl rfl))
    obtain ⟨τ2, s2, -, e2, -⟩ := entry_isSide hu hc h (k := n) (by omega) he (by rw [htop]; exact h2)
      ((hsh.2.2.2 _ _ h2).2 (Or.inr rfl))
    have := hco _ j1 j2 _ _ h1 h2 hsh τ1 τ2 s1 s2
    rw [e1, e2]
    linarith
  · intro hrow e j1 j2 l1 l2 h1 h2 hsh τ1 τ2 s1 s2
    have hs1 := (hsh.2.2.2 _ _ h1).2 (Or.inl rfl)
    have hs2 := (hsh.2.2.2 _ _ h2).2 (Or.inr rfl)
    obtain ⟨i1, hi1, b1, σ1, hσ1, rfl⟩ := s1
    obtain ⟨i2, hi2, b2, σ2, hσ2, rfl⟩ := s2
    -- the stored cube with the corners of `e`
    obtain ⟨x, e', he', hp⟩ := stored_of_isSide hu hc h (List.mem_of_getElem? h1) hs1
    obtain ⟨e1, he1, ρ1, hρ1⟩ := by
      have := h4.1
      rw [htop] at this
      exact this l1 (List.mem_of_getElem? h1) i1 hi1 b1
    obtain ⟨e2, he2, ρ2, hρ2⟩ := by
      have := h4.1
      rw [htop] at this
      exact this l2 (List.mem_of_getElem? h2) i2 hi2 b2
    -- lengths of `e`: through the symmetric sides
    have hside1 : (side n i1 b1 l1).length = 2 ^ n := side_length hi1 b1 l1
    have hsn1 := side_nodup hi1 b1 (hc l1 (List.mem_of_getElem? h1)).1 (hc l1 (List.mem_of_getElem? h1)).2
    have hce' := hcn e' (List.mem_of_getElem? he')
    have hel : e.length = 2 ^ n := by rw [hp.length_eq]; exact hce'.1
    have hen : e.Nodup := hp.nodup_iff.2 hce'.2
    have heq : ∀ e1 ∈ t.elements[n]?.getD [], ∀ (l : List Nat) (ρ σ : ℤ), SymmetricCube n e1 l ρ → SymmetricCube n e l σ →
        e1 = e' := by
      intro e1 he1 l ρ σ hρ hσ
      obtain ⟨y, hy, rfl⟩ := List.getElem_of_mem he1
      have := distinct_index hd (List.getElem?_eq_getElem hy) he'
        (((hρ.perm (hcn _ he1).1).symm.trans (hσ.perm hel)).trans hp)
      subst this
      exact Option.some.inj ((List.getElem?_eq_getElem hy).symm.trans he')
    have q1 := heq e1 he1 _ _ _ hρ1 hσ1
    have q2 := heq e2 he2 _ _ _ hρ2 hσ2
    subst q1
    rw [q2] at hρ2
    clear q2 he2 e2
    -- the sign between the two listings
    have hee := hσ1.trans hel hen (hρ1.symm hce'.1 hce'.2)
    have u2 := SymmetricCube.unique hel hen (hee.trans hel hen hρ2) hσ2
    have ent := (C19_entries hu hc h n (by omega) x j1 e1 l1 he' (by rw [htop]; exact h1)).1 i1 hi1 b1 ρ1 hρ1
    have ent2 := (C19_entries hu hc h n (by omega) x j2 e1 l2 he' (by rw [htop]; exact h2)).1 i2 hi2 b2 ρ2 hρ2
    have hx : x < (t.matrix n).rows := by
      rw [rows_cubes hu hc h]; exact (List.getElem?_eq_some_iff.1 he').1
    have hmem := mem_nonzeroCols_cubes hu hc h he'
    have hnd := WF.nonzeroCols_nodup (t.matrix n) x
    have hiff : ∀ j, j ∈ nonzeroCols (t.matrix n) x ↔ j = j1 ∨ j = j2 := by
      intro j
      rw [hmem]
      constructor
      · rintro ⟨l, hl, hs⟩
        exact (hsh.2.2.2 j l hl).1 ((isSide_perm hp).2 hs)
      · rintro (rfl | rfl)
        · exact ⟨_, h1, (isSide_perm hp).1 hs1⟩
        · exact ⟨_, h2, (isSide_perm hp).1 hs2⟩
    have hsum : (t.matrix n).entry x j1 + (t.matrix n).entry x j2 = 0 := by
      have hperm : (nonzeroCols (t.matrix n) x).Perm [j1, j2] := by
        rw [List.perm_ext_iff_of_nodup hnd (by simpa using hsh.1)]
        intro j
        rw [hiff]; simp
      rcases hzz : nonzeroCols (t.matrix n) x with _ | ⟨a, _ | ⟨b, _ | ⟨c, r⟩⟩⟩
      · rw [hzz] at hperm; simpa using hperm.length_eq
      · rw [hzz] at hperm; simpa using hperm.length_eq
      · have := hrow x hx a b hzz
        rw [hzz] at hiff hnd
        have ha := (hiff a).1 (by simp)
        have hb := (hiff b).1 (by simp)
        have hab : a ≠ b := by simpa using hnd
        rcases ha with rfl | rfl <;> rcases hb with rfl | rfl
        · exact absurd rfl hab
        · exact this
        · rw [add_comm]; exact this
        · exact absurd rfl hab
      · rw [hzz] at hperm; simpa using hperm.length_eq
    rw [ent, ent2] at hsum
    rw [← u2]
    rcases hρ1.sign with r | r <;> rcases hσ1.sign with r' | r' <;> rw [r] at hsum ⊢ <;> rw [r'] <;> linarith

end sides

end Verif
