/-
Orientation of the cubes at the corners of simplices.
-/
import Verif.Lemmas.SimplexCubes
import Verif.Spec.CubicalBoundary
import Verif.Lemmas.CubicalOrient
import Verif.Lemmas.Fundamental

set_option linter.unusedSectionVars false

namespace Verif

open Verif.Model Verif.Spec

variable {m : Nat} {top : List (List Nat)} {t : Topo} {order : List Nat → Nat → List Nat}

/-- the cube at corner `i` of simplex `j` -/
def cornerCube (t : Topo) (n : Nat) (order : List Nat → Nat → List Nat) (j : Nat) (l : List Nat) (i : Nat) : List Nat :=
  between (snum t n j) [l[i]?.getD 0] (order l i)

theorem get_cornerCubes {n j i : Nat} {l : List Nat} (hj : top[j]? = some l) (hi : i ≤ n) :
    (cornerCubes t n order top).flatten[(n + 1) * j + i]? = some (cornerCube t n order j l i) := by
  unfold cornerCubes
  rw [flatten_uniform (m := n + 1) (by omega)]
  · rw [Nat.mul_add_div (by omega), Nat.div_eq_of_lt (by omega), show j + 0 = j from rfl, Nat.mul_add_mod, Nat.mod_eq_of_lt (by omega),
      List.getElem?_mapIdx, hj, Option.map_some, Option.bind_some, List.getElem?_map, List.getElem?_range (by omega)]
    rfl
  · intro cs hcs
    obtain ⟨j, hj, rfl⟩ := List.mem_mapIdx.1 hcs
    simp

theorem get_cornerCubes_inv {n x : Nat} {c : List Nat} (hx : (cornerCubes t n order top).flatten[x]? = some c) :
    ∃ j l i, top[j]? = some l ∧ i ≤ n ∧ x = (n + 1) * j + i ∧ c = cornerCube t n order j l i := by
  have hlen : (cornerCubes t n order top).flatten.length = (n + 1) * top.length := by
    unfold cornerCubes
    rw [List.length_flatten, show (top.mapIdx fun j l => (List.range (n + 1)).map fun i =>
        between (snum t n j) [l[i]?.getD 0] (order l i)).map List.length = List.replicate top.length (n + 1) from
      List.ext_getElem (by simp) (by simp)]
    simp [Nat.mul_comm]
  have hlt := (List.getElem?_eq_some_iff.1 hx).1
  rw [hlen] at hlt
  have hj : x / (n + 1) < top.length := Nat.div_lt_of_lt_mul hlt
  have hi : x % (n + 1) < n + 1 := Nat.mod_lt _ (by omega)
  have hxe : x = (n + 1) * (x / (n + 1)) + x % (n + 1) := (Nat.div_add_mod x (n + 1)).symm
  have := get_cornerCubes (t := t) (order := order) (List.getElem?_eq_getElem hj) (show x % (n + 1) ≤ n by omega)
  rw [← hxe, hx] at this
  exact ⟨_, _, _, List.getElem?_eq_getElem hj, by omega, hxe, Option.some.inj this⟩

theorem flatten_cornerCubes_length {n : Nat} : (cornerCubes t n order top).flatten.length = (n + 1) * top.length := by
  unfold cornerCubes
  rw [List.length_flatten, show (top.mapIdx fun j l => (List.range (n + 1)).map fun i =>
      between (snum t n j) [l[i]?.getD 0] (order l i)).map List.length = List.replicate top.length (n + 1) from
    List.ext_getElem (by simp) (by simp)]
  simp [Nat.mul_comm]

/-- the corners and axes of a side -/
theorem cornerCube_side (ho : Others (m + 1) order) {j i a : Nat} {l : List Nat} (hll : l.length = m + 2) (hi : i ≤ m + 1)
    (ha : a ≤ m) (s : Bool) : side m a s (cornerCube t (m + 1) order j l i) = between (snum t (m + 1) j)
      ([l[i]?.getD 0] ++ if s then [(order l i)[a]?.getD 0] else []) ((order l i).eraseIdx a) := by
  have hlen := ho.length hll hi
  unfold cornerCube
  rw [between_side (snum_permInv t (m + 1) j) hlen ha, List.getElem?_eq_getElem (l := order l i) (i := a) (by omega), Option.getD_some]

theorem cornerCube_side_subperm (ho : Others (m + 1) order) {i a : Nat} {l : List Nat} (hll : l.length = m + 2) (hi : i ≤ m + 1)
    (ha : a ≤ m) (s : Bool) :
    (([l[i]?.getD 0] ++ if s then [(order l i)[a]?.getD 0] else []) ++ (order l i).eraseIdx a).Subperm l := by
  have hlen := ho.length hll hi
  refine List.Subperm.trans ?_ (ho l i hll hi).subperm
  rw [List.append_assoc]
  refine (List.subperm_append_left [l[i]?.getD 0]).2 ?_
  cases s
  · exact (List.eraseIdx_sublist _ _).subperm
  · rw [if_pos rfl, List.getElem?_eq_getElem (by omega), Option.getD_some]
    exact (List.getElem_cons_eraseIdx_perm (by omega)).subperm

/-- a side of the cube at a corner receives a sign -/
theorem cornerCube_sideSign (htop : Simplices (m + 2) top) (ho : Others (m + 1) order)
    {j0 j i : Nat} {l A D : List Nat} (hj : top[j]? = some l) (hi : i ≤ m + 1) (hD : D.length = m)
    (hv : l[i]?.getD 0 ∈ A) (hsub : (A ++ D).Subperm l) (hjj : (A ++ D).length = m + 2 → j0 = j) :
    ∃ τ, SideSign m (between (snum t (m + 1) j0) A D) (cornerCube t (m + 1) order j l i) τ := by
  obtain ⟨hll, hln⟩ := htop l (List.mem_of_getElem? hj)
  have hperm := ho l i hll hi
  have hlen := ho.length hll hi
  obtain ⟨A', hA⟩ : ∃ A', A.Perm (l[i]?.getD 0 :: A') := ⟨_, List.perm_cons_erase hv⟩
  have hs2 : (A' ++ D).Subperm (order l i) := by
    have h1 := (hA.append_right D).symm.subperm.trans (hsub.trans hperm.symm.subperm)
    exact (List.subperm_cons _).1 h1
  obtain ⟨S, hS1, hS2⟩ := hs2
  obtain ⟨R, hR⟩ := hS2.exists_perm_append
  have hn : (order l i).Nodup := (hperm.nodup_iff.2 hln).of_cons
  have hRp : (A' ++ D ++ R).Perm (order l i) := (hS1.symm.append_right R).trans hR.symm
  obtain ⟨Q', q1, a, ha, s, q2⟩ := exists_between_face (snum_permInv t (m + 1) j) (A := [l[i]?.getD 0]) (d := 1) (by rw [hlen]) hn hD hRp
  have q2' : between (snum t (m + 1) j) ([l[i]?.getD 0] ++ A') Q' = side m a s (cornerCube t (m + 1) order j l i) := q2
  have hg : (([l[i]?.getD 0] ++ A') ++ Q').Subperm l :=
    ((hA.symm.append_right Q').trans (q1.append_left A)).subperm.trans hsub
  have hs := between_agree (t := t) (j := j0) (j' := j) htop hj hg hA q1.symm hjj
  rw [hD, q2'] at hs
  exact ⟨_, a, ha, s, _, hs, rfl⟩

/-- which sides the cube at a corner has -/
theorem cornerCube_side_iff (wf : WF (m + 1) top t) (htop : Simplices (m + 2) top) (ho : Others (m + 1) order)
    {j0 j i : Nat} {l0 l A D : List Nat} (hj0 : top[j0]? = some l0) (hj : top[j]? = some l) (hi : i ≤ m + 1)
    (h : (A ++ D).Subperm l0) (h0 : A ≠ []) (hD : D.length = m) :
    IsCubeSide m (between (snum t (m + 1) j0) A D) (cornerCube t (m + 1) order j l i) ↔
      l[i]?.getD 0 ∈ A ∧ (A ++ D).Subperm l ∧ ((A ++ D).length = m + 2 → j0 = j) := by
  obtain ⟨hll, hln⟩ := htop l (List.mem_of_getElem? hj)
  constructor
  · rintro ⟨a, ha, s, hp⟩
    rw [cornerCube_side ho hll hi ha] at hp
    have hsub := cornerCube_side_subperm ho hll hi ha s
    obtain ⟨e1, e2, e3⟩ := between_inj wf htop hj0 hj h hsub h0 (by simp) hp
    exact ⟨e1.mem_iff.2 (by simp), (e1.append e2).subperm.trans hsub, e3⟩
  · rintro ⟨hv, hsub, hjj⟩
    obtain ⟨τ, a, ha, s, σ, hs, -⟩ := cornerCube_sideSign (t := t) htop ho hj hi hD hv hsub hjj
    exact ⟨a, ha, s, (hs.perm (by rw [between_length, hD])).symm⟩

/-! ### signs -/

theorem relSign_cons {v : Nat} {P Q : List Nat} (hn : (v :: P).Nodup) (hp : Q.Perm P) :
    relSign (v :: P) (v :: Q) = relSign P Q := by
  have hφ : Alt (fun s => relSign (v :: P) (v :: s)) := fun u a b w => alt_relSign (v :: P) (v :: u) a b w
  have := hφ.eq_relSign hn.of_cons hp
  simpa [relSign_self hn] using this

theorem sq_relSign {P Q : List Nat} (hn : P.Nodup) (hp : Q.Perm P) : relSign P Q = 1 ∨ relSign P Q = -1 :=
  relSign_eq_one_or hn hp

/-- the sign of a simplex read from a corner, with one of the axes brought to the front -/
theorem relSign_bring {l D : List Nat} {v a : Nat} (ha : a < D.length) :
    relSign l (v :: D) = (-1) ^ a * relSign l (v :: D[a]?.getD 0 :: D.eraseIdx a) := by
  have hφ : Alt (fun s => relSign l (v :: s)) := fun u x y w => alt_relSign l (v :: u) x y w
  have := hφ.insert D[a] (D.eraseIdx a) a (by rw [List.length_eraseIdx_of_lt ha]; omega)
  have e : (D.eraseIdx a).take a ++ D[a] :: (D.eraseIdx a).drop a = D := by
    have hl : (D.take a).length = a := by rw [List.length_take]; omega
    rw [List.eraseIdx_eq_take_drop_succ, List.take_left' hl, List.drop_left' hl, List.getElem_cons_drop, List.take_append_drop]
  simp only [e] at this
  rw [this, List.getElem?_eq_getElem ha, Option.getD_some, smul_eq_mul]

/-- the orientation a simplex induces on the face that a side of the cube at a corner lies in -/
theorem inducedSign_corner {l D P : List Nat} {v a : Nat} (hn : l.Nodup) (hp : (v :: D).Perm l) (ha : a < D.length)
    (hP : P.Perm (D.eraseIdx a)) :
    relSign l (v :: D) * inducedSign (v :: P) l = -((-1) ^ a * relSign P (D.eraseIdx a)) := by
  have hvD : (v :: D).Nodup := hp.nodup_iff.2 hn
  have hvP : (v :: P).Nodup := ((hP.cons v).nodup_iff).2 (hvD.sublist ((List.eraseIdx_sublist D a).cons_cons v))
  rw [inducedSign_eq_cob]
  have h1 := (alt_relSign (v :: P)).cob.eq_relSign hn hp
  rw [smul_eq_mul] at h1
  rw [← h1, cob_relSign_face hvD (c := a + 1) (by simpa using ha) (by simpa using hP)]
  rw [List.eraseIdx_cons_succ, relSign_cons hvP hP.symm]
  ring

theorem cornerCubes_pair (wf : WF (m + 1) top t) (htop : Simplices (m + 2) top) (ho : Others (m + 1) order)
    {j1 j2 i1 i2 : Nat} {l1 l2 e : List Nat} (hj1 : top[j1]? = some l1) (hj2 : top[j2]? = some l2) (hi1 : i1 ≤ m + 1)
    (hi2 : i2 ≤ m + 1) {τ1 τ2 : ℤ} (he : e.length = 2 ^ m) (hn : e.Nodup)
    (h1 : SideSign m e (cornerCube t (m + 1) order j1 l1 i1) τ1)
    (h2 : SideSign m e (cornerCube t (m + 1) order j2 l2 i2) τ2) :
    ∃ a1 ≤ m, ∃ a2 ≤ m, ∃ s : Bool,
      ([l1[i1]?.getD 0] ++ if s then [(order l1 i1)[a1]?.getD 0] else []).Perm
        ([l2[i2]?.getD 0] ++ if s then [(order l2 i2)[a2]?.getD 0] else []) ∧
      ((order l1 i1).eraseIdx a1).Perm ((order l2 i2).eraseIdx a2) ∧ (s = true → j1 = j2) ∧
      e.Perm (between (snum t (m + 1) j1) ([l1[i1]?.getD 0] ++ if s then [(order l1 i1)[a1]?.getD 0] else []) ((order l1 i1).eraseIdx a1)) ∧
      (τ1 + τ2 = 0 ↔ (-1 : ℤ) ^ a1 + (-1) ^ a2 * relSign ((order l1 i1).eraseIdx a1) ((order l2 i2).eraseIdx a2) = 0) := by
  obtain ⟨hl1, hn1⟩ := htop l1 (List.mem_of_getElem? hj1)
  obtain ⟨hl2, hn2⟩ := htop l2 (List.mem_of_getElem? hj2)
  obtain ⟨a1, ha1, s1, σ1, q1, rfl⟩ := h1
  obtain ⟨a2, ha2, s2, σ2, q2, rfl⟩ := h2
  rw [cornerCube_side ho hl1 hi1 ha1] at q1
  rw [cornerCube_side ho hl2 hi2 ha2] at q2
  have p1 := q1.perm he
  have p2 := q2.perm he
  have hs1 := cornerCube_side_subperm ho hl1 hi1 ha1 s1
  have hs2 := cornerCube_side_subperm ho hl2 hi2 ha2 s2
  obtain ⟨eA, eP, ej⟩ := between_inj wf htop hj1 hj2 hs1 hs2 (by simp) (by simp) (p1.trans p2.symm)
  have hs : s1 = s2 := by
    have := eA.length_eq
    cases s1 <;> cases s2 <;> simp_all
  subst hs
  have hD1 := ho.length hl1 hi1
  have hP1 : ((order l1 i1).eraseIdx a1).length = m := by rw [List.length_eraseIdx_of_lt (by omega)]; omega
  refine ⟨a1, ha1, a2, ha2, s1, eA, eP, ?_, p1.symm, ?_⟩
  · rintro rfl
    exact ej (by simp [hP1])
  · have hg := between_agree (t := t) (j := j1) (j' := j2) htop hj2 hs2 eA eP ej
    rw [hP1] at hg
    have hu := (q1.trans he hn hg).unique he hn q2
    rw [← hu]
    have hσ := q1.sign
    have : (-1 : ℤ) ^ (a1 + s1.toNat) * σ1 + (-1) ^ (a2 + s1.toNat) *
        (σ1 * relSign ((order l1 i1).eraseIdx a1) ((order l2 i2).eraseIdx a2)) = ((-1) ^ s1.toNat * σ1) *
        ((-1) ^ a1 + (-1) ^ a2 * relSign ((order l1 i1).eraseIdx a1) ((order l2 i2).eraseIdx a2)) := by
      rw [pow_add, pow_add]; ring
    rw [this, mul_eq_zero, or_iff_right]
    rcases hσ with rfl | rfl <;> simp

theorem divmod_inj (n : Nat) {i i' j j' : Nat} (hi : i < n) (hi' : i' < n) (h : n * j + i = n * j' + i') : j = j' ∧ i = i' := by
  have h1 : (n * j + i) / n = j := by rw [Nat.mul_add_div (by omega), Nat.div_eq_of_lt hi, Nat.add_zero]
  have h2 : (n * j' + i') / n = j' := by rw [Nat.mul_add_div (by omega), Nat.div_eq_of_lt hi', Nat.add_zero]
  have h3 : (n * j + i) % n = i := by rw [Nat.mul_add_mod, Nat.mod_eq_of_lt hi]
  have h4 : (n * j' + i') % n = i' := by rw [Nat.mul_add_mod, Nat.mod_eq_of_lt hi']
  rw [h] at h1 h3
  exact ⟨h1.symm.trans h2, h3.symm.trans h4⟩

theorem getD_inj {l : List Nat} (hn : l.Nodup) {i k : Nat} (hi : i < l.length) (hk : k < l.length)
    (h : l[i]?.getD 0 = l[k]?.getD 0) : i = k := by
  rw [List.getElem?_eq_getElem hi, List.getElem?_eq_getElem hk, Option.getD_some, Option.getD_some] at h
  exact (hn.getElem_inj_iff).1 h

theorem getD_of_mem {l : List Nat} {v : Nat} (hv : v ∈ l) : ∃ i < l.length, l[i]?.getD 0 = v := by
  obtain ⟨i, hi, rfl⟩ := List.getElem_of_mem hv
  exact ⟨i, hi, by rw [List.getElem?_eq_getElem hi, Option.getD_some]⟩

/-- being a face, by containment -/
theorem isFace_iff_subperm {e l : List Nat} {k : Nat} (hl : l.length = k + 1) (he : e.length = k) : IsFace e l ↔ e.Subperm l := by
  constructor
  · rintro ⟨c, hc, hp⟩
    exact hp.subperm.trans (List.eraseIdx_sublist _ _).subperm
  · rintro ⟨S, hS, hsub⟩
    obtain ⟨R, hR⟩ := hsub.exists_perm_append
    have hlen := hR.length_eq
    have := hS.length_eq
    rw [List.length_append] at hlen
    obtain ⟨r, rfl⟩ := List.length_eq_one_iff.1 (show R.length = 1 by omega)
    have hr : r ∈ l := hR.mem_iff.2 (by simp)
    obtain ⟨c, hc, rfl⟩ := List.getElem_of_mem hr
    refine ⟨c, hc, hS.symm.trans ?_⟩
    have h1 := (List.getElem_cons_eraseIdx_perm hc).trans (hR.trans (List.perm_append_singleton _ _))
    exact ((List.perm_cons _).1 h1).symm

/-- the two cubes at two corners of the same simplex share a side -/
theorem sharedSide_inner (wf : WF (m + 1) top t) (htop : Simplices (m + 2) top) (ho : Others (m + 1) order)
    {j i1 i2 : Nat} {l : List Nat} (hj : top[j]? = some l) (hi1 : i1 ≤ m + 1) (hi2 : i2 ≤ m + 1) (hne : i1 ≠ i2) :
    ∃ D : List Nat, D.length = m ∧ ([l[i1]?.getD 0, l[i2]?.getD 0] ++ D).Perm l ∧
      SharedSide m (cornerCubes t (m + 1) order top).flatten
        (between (snum t (m + 1) j) [l[i1]?.getD 0, l[i2]?.getD 0] D) ((m + 2) * j + i1) ((m + 2) * j + i2) := by
  obtain ⟨hll, hln⟩ := htop l (List.mem_of_getElem? hj)
  have hvw : l[i1]?.getD 0 ≠ l[i2]?.getD 0 := fun h => hne (getD_inj hln (by omega) (by omega) h)
  have hv : l[i1]?.getD 0 ∈ l := by rw [List.getElem?_eq_getElem (by omega), Option.getD_some]; exact List.getElem_mem _
  have hw : l[i2]?.getD 0 ∈ l := by rw [List.getElem?_eq_getElem (by omega), Option.getD_some]; exact List.getElem_mem _
  have hp1 := List.perm_cons_erase hv
  have hw' : l[i2]?.getD 0 ∈ l.erase (l[i1]?.getD 0) := (List.mem_erase_of_ne hvw.symm).2 hw
  have hp2 := List.perm_cons_erase hw'
  have hp := (hp1.trans (hp2.cons _)).symm
  have hlen := hp.length_eq
  simp only [List.length_cons] at hlen
  have hD : ((l.erase (l[i1]?.getD 0)).erase (l[i2]?.getD 0)).length = m := by omega
  refine ⟨_, hD, hp, ?_, ?_, ?_, ?_⟩
  · omega
  · exact (List.getElem?_eq_some_iff.1 (get_cornerCubes (t := t) (order := order) hj hi1)).1
  · exact (List.getElem?_eq_some_iff.1 (get_cornerCubes (t := t) (order := order) hj hi2)).1
  · intro x c hx
    obtain ⟨j', l', i, hj', hi, rfl, rfl⟩ := get_cornerCubes_inv hx
    rw [cornerCube_side_iff wf htop ho hj hj' hi hp.subperm (by simp) hD]
    constructor
    · rintro ⟨h1, -, h3⟩
      obtain rfl := h3 (by simp [hD])
      obtain rfl := Option.some.inj (hj.symm.trans hj')
      rcases List.mem_cons.1 h1 with h | h
      · left; rw [getD_inj hln (by omega) (by omega) h]
      · right; rw [getD_inj hln (by omega) (by omega) (List.mem_singleton.1 h)]
    · intro h
      have hjj : j' = j ∧ (i = i1 ∨ i = i2) := by
        rcases h with h | h
        · obtain ⟨h1, h2⟩ := divmod_inj (m + 2) (by omega) (by omega) h
          exact ⟨h1, .inl h2⟩
        · obtain ⟨h1, h2⟩ := divmod_inj (m + 2) (by omega) (by omega) h
          exact ⟨h1, .inr h2⟩
      obtain ⟨rfl, hi'⟩ := hjj
      obtain rfl := Option.some.inj (hj.symm.trans hj')
      refine ⟨?_, hp.subperm, fun _ => rfl⟩
      rcases hi' with rfl | rfl <;> simp

/-- cubes at the same corner of two simplices with a shared face share a side, and conversely -/
theorem sharedSide_outer (wf : WF (m + 1) top t) (htop : Simplices (m + 2) top) (ho : Others (m + 1) order)
    {j1 j2 i1 i2 v : Nat} {l1 l2 P : List Nat} (hj1 : top[j1]? = some l1) (hj2 : top[j2]? = some l2) (hi1 : i1 ≤ m + 1)
    (hi2 : i2 ≤ m + 1) (hv1 : l1[i1]?.getD 0 = v) (hv2 : l2[i2]?.getD 0 = v) (hP : P.length = m) (hs : (v :: P).Subperm l1) :
    SharedSide m (cornerCubes t (m + 1) order top).flatten (between (snum t (m + 1) j1) [v] P) ((m + 2) * j1 + i1) ((m + 2) * j2 + i2) ↔
      SharedFace top (v :: P) j1 j2 := by
  have hx1 := get_cornerCubes (t := t) (order := order) hj1 hi1
  have hx2 := get_cornerCubes (t := t) (order := order) hj2 hi2
  have hside : ∀ {j i : Nat} {l : List Nat}, top[j]? = some l → i ≤ m + 1 →
      (IsCubeSide m (between (snum t (m + 1) j1) [v] P) (cornerCube t (m + 1) order j l i) ↔
        l[i]?.getD 0 = v ∧ (v :: P).Subperm l) := by
    intro j i l hj hi
    rw [cornerCube_side_iff wf htop ho hj1 hj hi (A := [v]) (by simpa using hs) (by simp) hP]
    simp [hP]
  constructor
  · rintro ⟨h1, -, -, h4⟩
    refine ⟨?_, (List.getElem?_eq_some_iff.1 hj1).1, (List.getElem?_eq_some_iff.1 hj2).1, ?_⟩
    · rintro rfl
      obtain rfl := Option.some.inj (hj1.symm.trans hj2)
      obtain ⟨hll, hln⟩ := htop l1 (List.mem_of_getElem? hj1)
      exact h1 (by rw [getD_inj hln (by omega) (by omega) (hv1.trans hv2.symm)])
    · intro j l hj
      obtain ⟨hll, hln⟩ := htop l (List.mem_of_getElem? hj)
      rw [isFace_iff_subperm (k := m + 1) hll (by simp [hP])]
      constructor
      · intro hsub
        obtain ⟨i, hi, hiv⟩ := getD_of_mem (hsub.subset (List.mem_cons_self (a := v)))
        have := (h4 _ _ (get_cornerCubes hj (by omega))).1 ((hside hj (by omega)).2 ⟨hiv, hsub⟩)
        rcases this with h | h
        · exact .inl (divmod_inj (m + 2) (by omega) (by omega) h).1
        · exact .inr (divmod_inj (m + 2) (by omega) (by omega) h).1
      · rintro (rfl | rfl)
        · obtain rfl := Option.some.inj (hj1.symm.trans hj)
          exact hs
        · obtain rfl := Option.some.inj (hj2.symm.trans hj)
          exact ((hside hj hi2).1 ((h4 _ _ hx2).2 (.inr rfl))).2
  · rintro ⟨h1, -, -, h4⟩
    refine ⟨?_, (List.getElem?_eq_some_iff.1 hx1).1, (List.getElem?_eq_some_iff.1 hx2).1, ?_⟩
    · exact fun h => h1 (divmod_inj (m + 2) (by omega) (by omega) h).1
    · intro x c hx
      obtain ⟨j, l, i, hj, hi, rfl, rfl⟩ := get_cornerCubes_inv hx
      obtain ⟨hll, hln⟩ := htop l (List.mem_of_getElem? hj)
      have h5 := h4 j l hj
      rw [isFace_iff_subperm (k := m + 1) hll (by simp [hP])] at h5
      rw [hside hj hi, h5]
      constructor
      · rintro ⟨hiv, rfl | rfl⟩
        · obtain rfl := Option.some.inj (hj1.symm.trans hj)
          left; rw [getD_inj hln (by omega) (by omega) (hiv.trans hv1.symm)]
        · obtain rfl := Option.some.inj (hj2.symm.trans hj)
          right; rw [getD_inj hln (by omega) (by omega) (hiv.trans hv2.symm)]
      · rintro (h | h)
        · obtain ⟨rfl, rfl⟩ := divmod_inj (m + 2) (by omega) (by omega) h
          obtain rfl := Option.some.inj (hj1.symm.trans hj)
          exact ⟨hv1, .inl rfl⟩
        · obtain ⟨rfl, rfl⟩ := divmod_inj (m + 2) (by omega) (by omega) h
          obtain rfl := Option.some.inj (hj2.symm.trans hj)
          exact ⟨hv2, .inr rfl⟩

theorem relSign_trans {P Q R : List Nat} (hn : P.Nodup) (hQ : Q.Perm P) (hR : R.Perm P) :
    relSign P R = relSign P Q * relSign Q R := by
  have := (alt_relSign P).eq_relSign (hQ.nodup_iff.2 hn) (hR.trans hQ.symm)
  rw [this, smul_eq_mul, mul_comm]

theorem sum_signs {x y r : ℤ} (hr : r = 1 ∨ r = -1) : x * r + y * r = 0 ↔ x + y = 0 := by
  rw [← add_mul, mul_eq_zero, or_iff_left]
  rcases hr with rfl | rfl <;> decide

/-- within a simplex, the cubes at two corners are coherent when the corners have the same sign -/
theorem signs_inner {l D1 D2 : List Nat} {v1 v2 a1 a2 : Nat} (hn : l.Nodup) (h1 : (v1 :: D1).Perm l)
    (hne : v1 ≠ v2) (ha1 : a1 < D1.length) (ha2 : a2 < D2.length)
    (hA : [v1, D1[a1]?.getD 0].Perm [v2, D2[a2]?.getD 0]) (hP : (D1.eraseIdx a1).Perm (D2.eraseIdx a2)) :
    (-1 : ℤ) ^ a1 + (-1) ^ a2 * relSign (D1.eraseIdx a1) (D2.eraseIdx a2) = 0 ↔ relSign l (v1 :: D1) = relSign l (v2 :: D2) := by
  have hw1 : D1[a1]?.getD 0 = v2 := by
    have : v2 ∈ [v1, D1[a1]?.getD 0] := hA.mem_iff.2 (by simp)
    simp only [List.mem_cons, List.not_mem_nil, or_false] at this
    rcases this with h | h
    · exact absurd h.symm hne
    · exact h.symm
  have hw2 : D2[a2]?.getD 0 = v1 := by
    have : v1 ∈ [v2, D2[a2]?.getD 0] := hA.mem_iff.1 (by simp)
    simp only [List.mem_cons, List.not_mem_nil, or_false] at this
    rcases this with h | h
    · exact absurd h hne
    · exact h.symm
  rw [relSign_bring (l := l) (v := v1) ha1, relSign_bring (l := l) (v := v2) ha2, hw1, hw2]
  have hfull : (v1 :: v2 :: D1.eraseIdx a1).Perm l := by
    refine List.Perm.trans (List.Perm.cons _ ?_) h1
    rw [← hw1, List.getElem?_eq_getElem ha1, Option.getD_some]
    exact List.getElem_cons_eraseIdx_perm ha1
  have hPn : (D1.eraseIdx a1).Nodup := ((hfull.nodup_iff).2 hn).of_cons.of_cons
  have hswap : relSign l (v2 :: v1 :: D2.eraseIdx a2) = - relSign l (v1 :: v2 :: D2.eraseIdx a2) :=
    alt_relSign l [] v2 v1 (D2.eraseIdx a2)
  have hφ : Alt (fun s => relSign l (v1 :: v2 :: s)) := fun u x y w => alt_relSign l (v1 :: v2 :: u) x y w
  have h3 := hφ.eq_relSign hPn hP.symm
  simp only [smul_eq_mul] at h3
  rw [hswap, h3]
  have hr : relSign l (v1 :: v2 :: D1.eraseIdx a1) = 1 ∨ relSign l (v1 :: v2 :: D1.eraseIdx a1) = -1 := relSign_eq_one_or hn hfull
  have := sum_signs (x := (-1 : ℤ) ^ a1) (y := (-1) ^ a2 * relSign (D1.eraseIdx a1) (D2.eraseIdx a2)) hr
  rw [← this]
  constructor <;> intro h <;> linear_combination h

/-- the cubes are coherent exactly when the simplices are, if every corner lists its simplex in its own orientation -/
theorem cornerCubes_coherent_iff (wf : WF (m + 1) top t) (htop : Simplices (m + 2) top) (ho : Others (m + 1) order)
    (hε : ∀ (l : List Nat) (i : Nat), l.length = m + 2 → l.Nodup → i ≤ m + 1 → relSign l (l[i]?.getD 0 :: order l i) = 1) :
    CubesCoherent m (cornerCubes t (m + 1) order top).flatten ↔ Coherent top := by
  constructor
  · intro hc e0 j1 j2 l1 l2 hj1 hj2 hsh
    obtain ⟨hl1, hn1⟩ := htop l1 (List.mem_of_getElem? hj1)
    obtain ⟨hl2, hn2⟩ := htop l2 (List.mem_of_getElem? hj2)
    have hf1 := (hsh.2.2.2 j1 l1 hj1).2 (.inl rfl)
    have hf2 := (hsh.2.2.2 j2 l2 hj2).2 (.inr rfl)
    have he0 : e0.length = m + 1 := by
      obtain ⟨c, hc, hp⟩ := hf1
      rw [hp.length_eq, List.length_eraseIdx_of_lt hc]; omega
    rw [isFace_iff_subperm (k := m + 1) hl1 he0] at hf1
    rw [isFace_iff_subperm (k := m + 1) hl2 he0] at hf2
    match e0, he0 with
    | v :: P, he0 =>
      have hP : P.length = m := by simpa using he0
      obtain ⟨i1, hi1, hv1⟩ := getD_of_mem (hf1.subset (List.mem_cons_self (a := v)))
      obtain ⟨i2, hi2, hv2⟩ := getD_of_mem (hf2.subset (List.mem_cons_self (a := v)))
      have hss := (sharedSide_outer wf htop ho hj1 hj2 (by omega) (by omega) hv1 hv2 hP hf1).2 hsh
      obtain ⟨τ1, hτ1⟩ := cornerCube_sideSign (t := t) (order := order) (i := i1) (j0 := j1) (A := [v]) (D := P) htop ho hj1 (by omega) hP
        (by simp [hv1]) (by simpa using hf1) (by simp [hP])
      obtain ⟨τ2, hτ2⟩ := cornerCube_sideSign (t := t) (order := order) (i := i2) (j0 := j1) (A := [v]) (D := P) htop ho hj2 (by omega) hP
        (by simp [hv2]) (by simpa using hf2) (by simp [hP])
      have hz := hc _ _ _ _ _ (get_cornerCubes hj1 (by omega)) (get_cornerCubes hj2 (by omega)) hss τ1 τ2 hτ1 hτ2
      have hbn := between_nodup (A := [v]) (D := P) wf htop hj1 (by simpa using hf1) (by simp)
      obtain ⟨a1, ha1, a2, ha2, s, eA, eP, -, ep, hiff⟩ := cornerCubes_pair wf htop ho hj1 hj2 (by omega) (by omega)
        (by rw [between_length, hP]) hbn hτ1 hτ2
      rw [hiff] at hz
      obtain ⟨b1, b2, -⟩ := between_inj (A := [v]) (D := P) wf htop hj1 hj1 (by simpa using hf1)
        (cornerCube_side_subperm ho hl1 (by omega) ha1 s) (by simp) (by simp) ep
      have hD1 := ho.length hl1 (show i1 ≤ m + 1 by omega)
      have hD2 := ho.length hl2 (show i2 ≤ m + 1 by omega)
      have c1 := inducedSign_corner hn1 (ho l1 i1 hl1 (by omega)) (a := a1) (by omega) b2
      have c2 := inducedSign_corner hn2 (ho l2 i2 hl2 (by omega)) (a := a2) (by omega) (b2.trans eP)
      rw [hε l1 i1 hl1 hn1 (by omega), one_mul, hv1] at c1
      rw [hε l2 i2 hl2 hn2 (by omega), one_mul, hv2] at c2
      have hPn : P.Nodup := (nodup_of_subperm hf1 hn1).of_cons
      rw [c1, c2, relSign_trans hPn b2.symm (b2.trans eP).symm]
      linear_combination (- relSign P ((order l1 i1).eraseIdx a1)) * hz
  · intro hc e x1 x2 c1 c2 hx1 hx2 hsh τ1 τ2 hτ1 hτ2
    obtain ⟨j1, l1, i1, hj1, hi1, rfl, rfl⟩ := get_cornerCubes_inv hx1
    obtain ⟨j2, l2, i2, hj2, hi2, rfl, rfl⟩ := get_cornerCubes_inv hx2
    obtain ⟨hl1, hn1⟩ := htop l1 (List.mem_of_getElem? hj1)
    obtain ⟨hl2, hn2⟩ := htop l2 (List.mem_of_getElem? hj2)
    have hD1 := ho.length hl1 hi1
    have hD2 := ho.length hl2 hi2
    obtain ⟨he, hn⟩ : e.length = 2 ^ m ∧ e.Nodup := by
      obtain ⟨a, ha, s, hp⟩ := (hsh.2.2.2 _ _ hx1).2 (.inl rfl)
      rw [cornerCube_side ho hl1 hi1 ha] at hp
      refine ⟨?_, hp.nodup_iff.2 (between_nodup wf htop hj1 (cornerCube_side_subperm ho hl1 hi1 ha s) (by simp))⟩
      rw [hp.length_eq, between_length, List.length_eraseIdx_of_lt (by omega), hD1, Nat.add_sub_cancel]
    obtain ⟨a1, ha1, a2, ha2, s, eA, eP, ej, ep, hiff⟩ := cornerCubes_pair wf htop ho hj1 hj2 hi1 hi2 he hn hτ1 hτ2
    rw [hiff]
    cases s
    · simp only [Bool.false_eq_true, if_false, List.append_nil] at eA ep
      have hvv : l2[i2]?.getD 0 = l1[i1]?.getD 0 := by simpa using (List.perm_singleton.1 eA.symm)
      have hP : ((order l1 i1).eraseIdx a1).length = m := by rw [List.length_eraseIdx_of_lt (by omega)]; omega
      have hsub : (l1[i1]?.getD 0 :: (order l1 i1).eraseIdx a1).Subperm l1 := by
        simpa using cornerCube_side_subperm ho hl1 hi1 ha1 false
      have hsf := (sharedSide_outer wf htop ho hj1 hj2 hi1 hi2 rfl hvv hP hsub).1 ((sharedSide_perm ep).1 hsh)
      have hz := hc _ j1 j2 l1 l2 hj1 hj2 hsf
      have c1 := inducedSign_corner hn1 (ho l1 i1 hl1 hi1) (a := a1) (by omega) (List.Perm.refl _)
      have c2 := inducedSign_corner hn2 (ho l2 i2 hl2 hi2) (a := a2) (by omega) eP
      rw [hε l1 i1 hl1 hn1 hi1, one_mul, relSign_self ((nodup_of_subperm hsub hn1).of_cons)] at c1
      rw [hε l2 i2 hl2 hn2 hi2, one_mul, hvv] at c2
      rw [c1, c2] at hz
      linear_combination -hz
    · obtain rfl := ej rfl
      obtain rfl := Option.some.inj (hj1.symm.trans hj2)
      have hne : l1[i1]?.getD 0 ≠ l1[i2]?.getD 0 := fun h => hsh.1 (by rw [getD_inj hn1 (by omega) (by omega) h])
      rw [signs_inner hn1 (ho l1 i1 hl1 hi1) hne (by omega) (by omega) (by simpa using eA) eP,
        hε l1 i1 hl1 hn1 hi1, hε l1 i2 hl1 hn1 hi2]

/-- the cubes are not coherent if two corners of some simplex have opposite signs -/
theorem cornerCubes_incoherent (wf : WF (m + 1) top t) (htop : Simplices (m + 2) top) (ho : Others (m + 1) order)
    {j i1 i2 : Nat} {l : List Nat} (hj : top[j]? = some l) (hi1 : i1 ≤ m + 1) (hi2 : i2 ≤ m + 1)
    (hε : relSign l (l[i1]?.getD 0 :: order l i1) ≠ relSign l (l[i2]?.getD 0 :: order l i2)) :
    ¬ CubesCoherent m (cornerCubes t (m + 1) order top).flatten := by
  intro hc
  obtain ⟨hl, hn⟩ := htop l (List.mem_of_getElem? hj)
  have hne : i1 ≠ i2 := by rintro rfl; exact hε rfl
  obtain ⟨D, hD, hp, hsh⟩ := sharedSide_inner wf htop ho hj hi1 hi2 hne
  obtain ⟨τ1, hτ1⟩ := cornerCube_sideSign (t := t) (order := order) (i := i1) (j0 := j) htop ho hj hi1 hD (by simp) hp.subperm (fun _ => rfl)
  obtain ⟨τ2, hτ2⟩ := cornerCube_sideSign (t := t) (order := order) (i := i2) (j0 := j) htop ho hj hi2 hD (by simp) hp.subperm (fun _ => rfl)
  have hz := hc _ _ _ _ _ (get_cornerCubes hj hi1) (get_cornerCubes hj hi2) hsh τ1 τ2 hτ1 hτ2
  obtain ⟨a1, ha1, a2, ha2, s, eA, eP, -, ep, hiff⟩ := cornerCubes_pair wf htop ho hj hj hi1 hi2
    (by rw [between_length, hD]) (between_nodup wf htop hj hp.subperm (by simp)) hτ1 hτ2
  have hs : s = true := by
    obtain ⟨b1, -, -⟩ := between_inj wf htop hj hj hp.subperm (cornerCube_side_subperm ho hl hi1 ha1 s) (by simp) (by simp) ep
    have := b1.length_eq
    cases s <;> simp_all
  subst hs
  have hD1 := ho.length hl hi1
  have hD2 := ho.length hl hi2
  rw [hiff, signs_inner hn (ho l i1 hl hi1) (fun h => hne (getD_inj hn (by omega) (by omega) h)) (by omega) (by omega)
    (by simpa using eA) eP] at hz
  exact hε hz

/-- the cubes are connected through their sides if the simplices are through their faces -/
theorem cornerCubes_connected (wf : WF (m + 1) top t) (htop : Simplices (m + 2) top) (ho : Others (m + 1) order)
    (hc : Connected top) : CubesConnected m (cornerCubes t (m + 1) order top).flatten := by
  let R := fun a b => ∃ e, SharedSide m (cornerCubes t (m + 1) order top).flatten e a b
  have inner : ∀ {j i1 i2 : Nat} {l : List Nat}, top[j]? = some l → i1 ≤ m + 1 → i2 ≤ m + 1 →
      Relation.ReflTransGen R ((m + 2) * j + i1) ((m + 2) * j + i2) := by
    intro j i1 i2 l hj h1 h2
    by_cases h : i1 = i2
    · subst h; exact .refl
    · obtain ⟨D, -, -, hsh⟩ := sharedSide_inner wf htop ho hj h1 h2 h
      exact .single ⟨_, hsh⟩
  have outer : ∀ j1 j2, Relation.ReflTransGen (Adjacent top) j1 j2 → ∀ i1 ≤ m + 1, ∀ i2 ≤ m + 1, j1 < top.length →
      Relation.ReflTransGen R ((m + 2) * j1 + i1) ((m + 2) * j2 + i2) := by
    intro j1 j2 h
    induction h with
    | refl =>
      intro i1 h1 i2 h2 hj
      exact inner (List.getElem?_eq_getElem hj) h1 h2
    | tail _ hstep ih =>
      rename_i b c
      intro i1 h1 i2 h2 hj
      obtain ⟨e, hsh⟩ := hstep
      have hb := hsh.2.1
      have hcl := hsh.2.2.1
      have hjb := List.getElem?_eq_getElem hb
      have hjc := List.getElem?_eq_getElem hcl
      obtain ⟨hl1, hn1⟩ := htop _ (List.mem_of_getElem? hjb)
      obtain ⟨hl2, hn2⟩ := htop _ (List.mem_of_getElem? hjc)
      have hf1 := (hsh.2.2.2 _ _ hjb).2 (.inl rfl)
      have hf2 := (hsh.2.2.2 _ _ hjc).2 (.inr rfl)
      have he0 : e.length = m + 1 := by
        obtain ⟨c, hc, hp⟩ := hf1
        rw [hp.length_eq, List.length_eraseIdx_of_lt hc]; omega
      rw [isFace_iff_subperm (k := m + 1) hl1 he0] at hf1
      rw [isFace_iff_subperm (k := m + 1) hl2 he0] at hf2
      match e, he0 with
      | v :: P, he0 =>
        have hP : P.length = m := by simpa using he0
        obtain ⟨k1, hk1, hv1⟩ := getD_of_mem (hf1.subset (List.mem_cons_self (a := v)))
        obtain ⟨k2, hk2, hv2⟩ := getD_of_mem (hf2.subset (List.mem_cons_self (a := v)))
        have hss := (sharedSide_outer wf htop ho hjb hjc (by omega) (by omega) hv1 hv2 hP hf1).2 hsh
        exact ((ih i1 h1 k1 (by omega) hj).tail ⟨_, hss⟩).trans (inner hjc (by omega) h2)
  intro x1 hx1 x2 hx2
  obtain ⟨j1, l1, i1, hj1, hi1, rfl, -⟩ := get_cornerCubes_inv (List.getElem?_eq_getElem hx1)
  obtain ⟨j2, l2, i2, hj2, hi2, rfl, -⟩ := get_cornerCubes_inv (List.getElem?_eq_getElem hx2)
  have b1 := (List.getElem?_eq_some_iff.1 hj1).1
  have b2 := (List.getElem?_eq_some_iff.1 hj2).1
  exact outer j1 j2 (hc j1 b1 j2 b2) i1 hi1 i2 hi2 b1

end Verif
