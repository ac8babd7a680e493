/-
Cubes whose corners are the sets between two sets of vertices.
-/
import Verif.Lemmas.CubeStored
import Verif.Lemmas.Flags
import Verif.Lemmas.Orientation

set_option linter.unusedSectionVars false

namespace Verif

open Verif.Model Verif.Spec

/-- the entries of a list that are marked -/
def marked (D : List Nat) (b : List Bool) : List Nat := ((D.zip b).filter (·.2)).map (·.1)

@[simp] theorem marked_nil (b : List Bool) : marked [] b = [] := by simp [marked]

@[simp] theorem marked_cons (x : Nat) (D : List Nat) (s : Bool) (b : List Bool) :
    marked (x :: D) (s :: b) = (if s then [x] else []) ++ marked D b := by
  cases s <;> simp [marked]

theorem mem_marked : ∀ {D : List Nat} {b : List Bool} {x : Nat}, x ∈ marked D b ↔ ∃ i : Nat, D[i]? = some x ∧ b[i]? = some true
  | [], b, x => by simp
  | y :: D, [], x => by simp [marked]
  | y :: D, s :: b, x => by
    rw [marked_cons, List.mem_append, mem_marked (D := D) (b := b)]
    constructor
    · rintro (h | ⟨i, h1, h2⟩)
      · refine ⟨0, ?_⟩
        cases s <;> simp_all
      · exact ⟨i + 1, by simpa using h1, by simpa using h2⟩
    · rintro ⟨i, h1, h2⟩
      rcases i with _ | i
      · left
        simp at h1 h2
        simp [h1, h2]
      · exact Or.inr ⟨i, by simpa using h1, by simpa using h2⟩

theorem marked_sublist : ∀ (D : List Nat) (b : List Bool), (marked D b).Sublist D
  | [], b => by simp
  | y :: D, [] => by simp [marked]
  | y :: D, s :: b => by
    rw [marked_cons]
    cases s
    · exact (marked_sublist D b).cons _
    · exact (marked_sublist D b).cons_cons _

theorem marked_length : ∀ {D : List Nat} {b : List Bool}, b.length = D.length → (marked D b).length = b.count true
  | [], b, h => by
    obtain rfl := List.length_eq_zero_iff.1 h
    simp
  | y :: D, [], h => by simp at h
  | y :: D, s :: b, h => by
    rw [marked_cons, List.length_append, marked_length (by simpa using h), List.count_cons]
    cases s <;> simp [Nat.add_comm]

theorem marked_false (D : List Nat) (k : Nat) : marked D (List.replicate k false) = [] := by
  rw [List.eq_nil_iff_forall_not_mem]
  intro x hx
  obtain ⟨i, -, h⟩ := mem_marked.1 hx
  rw [List.getElem?_replicate] at h
  split at h <;> simp at h

theorem marked_true : ∀ (D : List Nat), marked D (List.replicate D.length true) = D
  | [] => by simp
  | x :: D => by simp [List.replicate_succ, marked_true D]

/-- every sublist is marked by some marks -/
theorem exists_marks : ∀ {D S : List Nat}, S.Sublist D → ∃ b : List Bool, b.length = D.length ∧ marked D b = S
  | _, _, .slnil => ⟨[], rfl, rfl⟩
  | _, _, .cons a h => by
    obtain ⟨b, h1, h2⟩ := exists_marks h
    exact ⟨false :: b, by simp [h1], by simp [h2]⟩
  | _, _, .cons_cons a h => by
    obtain ⟨b, h1, h2⟩ := exists_marks h
    exact ⟨true :: b, by simp [h1], by simp [h2]⟩

theorem marked_inj {D : List Nat} (hD : D.Nodup) {b b' : List Bool} (h : b.length = D.length) (h' : b'.length = D.length)
    (hp : (marked D b).Perm (marked D b')) : b = b' := by
  refine List.ext_getElem? fun i => ?_
  rcases Nat.lt_or_ge i D.length with hi | hi
  · have key : ∀ {b : List Bool} (h : b.length = D.length), D[i] ∈ marked D b ↔ b[i]? = some true := by
      intro b h
      rw [mem_marked]
      constructor
      · rintro ⟨j, h1, h2⟩
        obtain ⟨hj, h3⟩ := List.getElem?_eq_some_iff.1 h1
        obtain rfl := hD.getElem_inj_iff.1 h3
        exact h2
      · intro h1
        exact ⟨i, List.getElem?_eq_getElem hi, h1⟩
    have := hp.mem_iff (a := D[i])
    rw [key h, key h', List.getElem?_eq_getElem (by omega), List.getElem?_eq_getElem (by omega)] at this
    rw [List.getElem?_eq_getElem (by omega), List.getElem?_eq_getElem (by omega)]
    congr 1
    cases h1 : b[i] <;> cases h2 : b'[i] <;> simp [h1, h2] at this ⊢
  · rw [List.getElem?_eq_none (by omega), List.getElem?_eq_none (by omega)]

theorem marked_insert (s : Bool) : ∀ {D : List Nat} {i : Nat} {b : List Bool} (hi : i < D.length), b.length + 1 = D.length →
    (marked D (b.insertIdx i s)).Perm ((if s then [D[i]] else []) ++ marked (D.eraseIdx i) b)
  | [], i, b, hi, _ => by simp at hi
  | x :: D, 0, b, hi, h => by simp
  | x :: D, i + 1, [], hi, h => by simp only [List.length_cons, List.length_nil] at h hi; omega
  | x :: D, i + 1, c :: b, hi, h => by
    have ih := marked_insert s (D := D) (i := i) (b := b) (by simpa using hi) (by simpa using h)
    simp only [List.insertIdx_succ_cons, marked_cons, List.eraseIdx_cons_succ, List.getElem_cons_succ]
    refine (ih.append_left _).trans ?_
    rw [← List.append_assoc, ← List.append_assoc]
    exact List.perm_append_comm.append_right _

/-- the cube between the sets `A` and `A ++ D`: its corners are the numbers of `A` together with some of `D` -/
def between (W : List Nat → Nat) (A D : List Nat) : List Nat := cubeOf D.length fun b => W (A ++ marked D b)

theorem between_length (W : List Nat → Nat) (A D : List Nat) : (between W A D).length = 2 ^ D.length := cubeOf_length _ _

theorem mem_between {W : List Nat → Nat} {A D : List Nat} {v : Nat} :
    v ∈ between W A D ↔ ∃ b : List Bool, b.length = D.length ∧ W (A ++ marked D b) = v := by
  unfold between cubeOf
  simp only [List.mem_map, mem_cubeIndices]

theorem between_congr {W W' : List Nat → Nat} {A A' D : List Nat}
    (h : ∀ S : List Nat, S.Sublist D → W (A ++ S) = W' (A' ++ S)) : between W A D = between W' A' D :=
  cubeOf_congr fun b _ => h _ (marked_sublist D b)

theorem between_side {W : List Nat → Nat} (hW : PermInv W) {A D : List Nat} {k i : Nat} (hD : D.length = k + 1) (hi : i ≤ k)
    (s : Bool) : side k i s (between W A D) = between W (A ++ if s then [D[i]] else []) (D.eraseIdx i) := by
  have hi' : i < D.length := by omega
  unfold between
  have e1 : ∀ f : List Bool → Nat, cubeOf D.length f = cubeOf (k + 1) f := fun f => by rw [hD]
  have e2 : ∀ f : List Bool → Nat, cubeOf (D.eraseIdx i).length f = cubeOf k f := fun f => by
    rw [List.length_eraseIdx_of_lt hi', hD, Nat.add_sub_cancel]
  rw [side_eq hi, e1, e2, sliceAxis_cubeOf hi]
  refine cubeOf_congr fun b hb => hW _ _ ?_
  rw [List.append_assoc]
  exact (marked_insert s hi' (by omega)).append_left _

/-- the faces of such a cube are such cubes -/
theorem between_face {W : List Nat → Nat} (hW : PermInv W) : ∀ {d k : Nat} {A D f : List Nat}, D.length = k + d →
    IsCubeFace d k (between W A D) f → ∃ P Q R, f = between W (A ++ P) Q ∧ Q.length = k ∧ (P ++ Q ++ R).Perm D
  | 0, k, A, D, f, hD, hf => ⟨[], D, [], by rw [List.append_nil]; exact hf, hD, by simp⟩
  | d + 1, k, A, D, f, hD, hf => by
    obtain ⟨i, hi, s, hf⟩ := hf
    have hi' : i < D.length := by omega
    rw [between_side hW (show D.length = k + d + 1 by omega) hi] at hf
    obtain ⟨P, Q, R, h1, h2, h3⟩ := between_face hW (by rw [List.length_eraseIdx_of_lt hi']; omega) hf
    have hp : (D[i] :: (D.eraseIdx i)).Perm D := List.getElem_cons_eraseIdx_perm hi'
    cases s
    · refine ⟨P, Q, R ++ [D[i]], by simpa using h1, h2, ?_⟩
      refine List.Perm.trans ?_ hp
      rw [← List.append_assoc]
      exact List.perm_append_comm.trans (h3.cons _)
    · refine ⟨D[i] :: P, Q, R, by rw [h1]; simp, h2, ?_⟩
      exact (h3.cons D[i]).trans hp

/-- all cubes between sets of vertices of such a cube are faces of it -/
theorem exists_between_face {W : List Nat → Nat} (hW : PermInv W) : ∀ {d k : Nat} {A D P Q R : List Nat}, D.length = k + d → D.Nodup →
    Q.length = k → (P ++ Q ++ R).Perm D →
    ∃ Q' : List Nat, Q'.Perm Q ∧ IsCubeFace d k (between W A D) (between W (A ++ P) Q')
  | 0, k, A, D, P, Q, R, hD, _, hQ, hp => by
    have := hp.length_eq
    simp only [List.length_append] at this
    obtain rfl := List.length_eq_zero_iff.1 (show P.length = 0 by omega)
    obtain rfl := List.length_eq_zero_iff.1 (show R.length = 0 by omega)
    refine ⟨D, by simpa using hp.symm, ?_⟩
    rw [List.append_nil]
    rfl
  | d + 1, k, A, D, P, Q, R, hD, hn, hQ, hp => by
    have hlen := hp.length_eq
    simp only [List.length_append] at hlen
    have step : ∀ (s : Bool) (x : Nat) (P' R' : List Nat), (x :: (P' ++ Q ++ R')).Perm D →
        (∀ Q' : List Nat, between W (A ++ (if s then [x] else []) ++ P') Q' = between W (A ++ P) Q') →
        ∃ Q' : List Nat, Q'.Perm Q ∧ IsCubeFace (d + 1) k (between W A D) (between W (A ++ P) Q') := by
      intro s x P' R' hx he
      obtain ⟨i, hi, rfl⟩ := List.getElem_of_mem (hx.mem_iff.1 (List.mem_cons_self ..))
      have hp' : (P' ++ Q ++ R').Perm (D.eraseIdx i) :=
        (hx.trans (List.getElem_cons_eraseIdx_perm hi).symm).cons_inv
      obtain ⟨Q', h1, h2⟩ := exists_between_face hW (d := d) (k := k) (A := A ++ if s then [D[i]] else [])
        (by rw [List.length_eraseIdx_of_lt hi]; omega) (hn.eraseIdx i) hQ hp'
      refine ⟨Q', h1, i, by omega, s, ?_⟩
      rw [between_side hW (show D.length = k + d + 1 by omega) (by omega), ← he]
      exact h2
    rcases P with _ | ⟨x, P⟩
    · rcases R with _ | ⟨x, R⟩
      · simp at hlen; omega
      · refine step false x [] R ?_ (fun Q' => by simp)
        refine List.Perm.trans ?_ hp
        simpa using List.perm_middle.symm
    · exact step true x P R (by simpa using hp) (fun Q' => by simp)

theorem idxOf_getElem? {D : List Nat} {x : Nat} (hx : x ∈ D) : D[D.idxOf x]? = some x := by
  have hlt := List.idxOf_lt_length_of_mem hx
  rw [List.getElem?_eq_getElem hlt, List.getElem_idxOf hlt]

/-- another order of the vertices lists the cube along other axes -/
theorem between_symmetric {W : List Nat → Nat} (hW : PermInv W) {A D D' : List Nat} (hD : D.Nodup) (hp : D'.Perm D) :
    SymmetricCube D.length (between W A D) (between W A D') (relSign D D') := by
  have hD' : D'.Nodup := hp.nodup_iff.2 hD
  have hlen := hp.length_eq
  have hsym : IsSymmetry D.length (D'.map fun x => D.idxOf x) (List.replicate D.length false) := by
    refine ⟨?_, by simp⟩
    refine perm_range_of_nodup ?_ (by simp [hlen]) ?_
    · refine List.Nodup.map_on ?_ hD'
      intro x hx y hy h
      have h1 := idxOf_getElem? (hp.mem_iff.1 hx)
      rw [h, idxOf_getElem? (hp.mem_iff.1 hy)] at h1
      exact (Option.some.inj h1).symm
    · intro x hx
      obtain ⟨y, hy, rfl⟩ := List.mem_map.1 hx
      exact List.idxOf_lt_length_of_mem (hp.mem_iff.1 hy)
  refine ⟨_, _, hsym, ?_, ?_⟩
  · refine cube_ext (n := D.length) (by rw [between_length, hlen]) (turn_length _ _ _) ?_
    intro b hb
    unfold turn
    rw [cubeAt_cubeOf _ hb]
    unfold between
    rw [cubeAt_cubeOf _ (by omega), cubeAt_cubeOf _ (turnIndex_length _ _ _)]
    refine hW _ _ (List.Perm.append_left _ ?_)
    rw [List.perm_ext_iff_of_nodup (hD'.sublist (marked_sublist _ _)) (hD.sublist (marked_sublist _ _))]
    have hidx : ∀ j (hj : j < D'.length), (D'.map fun x => D.idxOf x).idxOf (D.idxOf D'[j]) = j := by
      intro j hj
      have h1 : (D'.map fun x => D.idxOf x)[j]'(by simpa using hj) = D.idxOf D'[j] := by simp
      rw [← h1]
      exact hsym.nodup.idxOf_getElem j _
    intro x
    rw [mem_marked, mem_marked]
    constructor
    · rintro ⟨j, h1, h2⟩
      obtain ⟨hj, rfl⟩ := List.getElem?_eq_some_iff.1 h1
      have hx : D'[j] ∈ D := hp.mem_iff.1 (List.getElem_mem hj)
      refine ⟨D.idxOf D'[j], idxOf_getElem? hx, ?_⟩
      rw [turnIndex_get (List.idxOf_lt_length_of_mem hx), hidx j hj, h2, List.getElem?_replicate]
      split <;> rfl
    · rintro ⟨j, h1, h2⟩
      obtain ⟨hj, rfl⟩ := List.getElem?_eq_some_iff.1 h1
      have hx : D[j] ∈ D' := hp.mem_iff.2 (List.getElem_mem hj)
      obtain ⟨m, hm, hmx⟩ := List.getElem_of_mem hx
      refine ⟨m, by rw [List.getElem?_eq_getElem hm, hmx], ?_⟩
      have h3 := hidx m hm
      rw [hmx, hD.idxOf_getElem j hj] at h3
      rw [turnIndex_get hj, h3] at h2
      rw [List.getElem?_replicate] at h2
      have hb' : m < b.length := by omega
      rw [List.getElem?_eq_getElem hb'] at h2 ⊢
      split at h2 <;> simpa using h2
  · unfold symmetrySign relSign
    rw [if_pos (List.isPerm_iff.2 hp), List.count_replicate]
    simp

end Verif
