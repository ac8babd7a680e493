/-
Lemmas on the transfer matrices of Loop subdivision.
-/
import Verif.Lemmas.Loop

namespace Verif.Model

open Verif.Spec

/-- every element is stored with the corner order of the first simplex it is a face of -/
def FirstFace (E F : List (List Nat)) : Prop :=
  ∀ e ∈ E, ∃ (j : Nat) (l : List Nat) (c : Nat), F[j]? = some l ∧ c < l.length ∧
    e = simplexFace l c ∧ ∀ (j' : Nat) (l' : List Nat), j' < j → F[j']? = some l' → ¬ IsFace e l'

theorem idxOf_le_of_get {a : List Nat} : ∀ {xs : List (List Nat)} {i : Nat}, xs[i]? = some a →
    xs.idxOf a ≤ i
  | [], i, h => by simp at h
  | x :: xs, 0, h => by
    have : x = a := by simpa using h
    simp [this]
  | x :: xs, i + 1, h => by
    have h1 := idxOf_le_of_get (xs := xs) (i := i) (by simpa using h)
    rw [List.idxOf_cons]
    cases x == a <;> simp; omega

theorem constructLower_first {uniq : List (List Nat) → List (List Nat)} (hu : UniqSpec uniq)
    {F : List (List Nat)} (hF : Simplices 3 F) {E B : List (List Nat)} {O : List (List Int)}
    (h : constructLower uniq 3 F = .ok (E, B, O)) : FirstFace E F := by
  set full := F.map fun l => (List.range 3).map fun c => simplexFace l c with hfull
  set corners := full.flatten with hcorners
  have hE : E = (uniq (corners.map sortRow)).map fun k =>
      (corners[(corners.map sortRow).idxOf k]?).getD [] := by
    unfold constructLower at h
    rw [if_neg (by omega)] at h
    have hgen : generateSimplexBoundary 3 F = .ok full := rfl
    rw [hgen] at h
    simp only [bind, Except.bind] at h
    split at h
    · exact absurd h (by simp)
    · exact (congrArg (fun p => p.1) (Except.ok.inj h)).symm
  have hidx : ∀ I : Nat, corners[I]? = (F[I / 3]?).bind fun l =>
      if I % 3 < 3 then some (simplexFace l (I % 3)) else none := by
    intro I
    rw [hcorners, flatten_uniform (m := 3) (by omega) full (by
      intro L hL
      obtain ⟨l, -, rfl⟩ := List.mem_map.1 hL
      simp), hfull, List.getElem?_map]
    cases F[I / 3]? with
    | none => rfl
    | some l =>
      have : I % 3 < 3 := by omega
      simp [this]
  intro e he
  rw [hE] at he
  obtain ⟨key, hk, rfl⟩ := List.mem_map.1 he
  have hk' := ((hu _).2 key).1 hk
  set I := (corners.map sortRow).idxOf key with hI
  have hlt : I < corners.length := by
    have := List.idxOf_lt_length_of_mem hk'
    simpa using this
  have hkey : sortRow corners[I] = key := by
    have h1 := List.getElem_idxOf (List.idxOf_lt_length_of_mem hk')
    rw [List.getElem_map] at h1
    exact h1
  have hg := List.getElem?_eq_getElem hlt
  have hx := hidx I
  rw [hg] at hx
  have h3 : I % 3 < 3 := by omega
  simp only [h3, if_true] at hx
  obtain ⟨l, hl, hc⟩ : ∃ l, F[I / 3]? = some l ∧ corners[I] = simplexFace l (I % 3) := by
    cases hF' : F[I / 3]? with
    | none => rw [hF'] at hx; simp at hx
    | some l => rw [hF'] at hx; exact ⟨l, rfl, by simpa using hx⟩
  have hl3 := (hF l (List.mem_of_getElem? hl)).1
  rw [hg, Option.getD_some]
  refine ⟨I / 3, l, I % 3, hl, by omega, hc, ?_⟩
  rintro j' l' hj' hl' ⟨c, hc', hp⟩
  have hl'3 := (hF l' (List.mem_of_getElem? hl')).1
  have hI' := hidx (3 * j' + c)
  rw [show (3 * j' + c) / 3 = j' by omega, show (3 * j' + c) % 3 = c by omega, hl'] at hI'
  have hc3 : c < 3 := by omega
  simp only [Option.bind_some, hc3, if_true] at hI'
  have hlt' : 3 * j' + c < I := by omega
  have hget := (List.getElem?_eq_some_iff.1 hI').2
  have hne : sortRow corners[3 * j' + c] ≠ key := by
    intro heq
    have h1 := idxOf_le_of_get (a := key) (xs := corners.map sortRow) (i := 3 * j' + c) (by
      rw [List.getElem?_map, hI', ← hget, Option.map_some, heq])
    omega
  apply hne
  refine Eq.trans ?_ hkey
  rw [sortRow_eq_iff, hget]
  exact (simplexFace_perm hc').trans hp.symm

theorem fromSimplices_first {uniq : List (List Nat) → List (List Nat)} (hu : UniqSpec uniq)
    {F : List (List Nat)} (hF : Simplices 3 F) {t : Topo} (h : fromSimplices uniq 3 F = .ok t) :
    FirstFace (t.elements[1]?.getD []) F := by
  obtain ⟨E, B, O, h1, h2, -⟩ := constructLower_general hu (k := 1) (by omega) hF
  obtain ⟨E0, B0, O0, h3, -⟩ := constructLower_edges (uniq := uniq) h2
  have ht : t.elements = [E0, E, F] := by
    simp only [fromSimplices, lowerLevels, h1, h3, bind, Except.bind] at h
    unfold checkTopo at h
    simp only [List.nil_append, List.cons_append] at h
    split at h
    · exact (congrArg Topo.elements (Except.ok.inj h)).symm
    · exact absurd h (by simp)
  rw [ht]
  exact constructLower_first hu hF h1

/-- an entry of a transfer matrix whose rows are listed once -/
theorem transferMatrix_entry {r c : List Nat} (hr : r.Nodup) (hl : r.length = c.length)
    {nr nc k i j : Nat} (hk : r[k]? = some i) :
    (transferMatrix r c nr nc).entry i j = if c[k]? = some j then 1 else 0 := by
  unfold transferMatrix
  simp only
  have hk1 := List.getElem?_eq_some_iff.1 hk
  have hkc : k < c.length := by
    have := hk1.1
    omega
  have hzn : (r.zip c).Nodup := by
    refine List.Nodup.of_map Prod.fst ?_
    rwa [List.map_fst_zip (by omega)]
  have hmem : (i, c[k]) ∈ r.zip c := by
    rw [List.mem_iff_getElem?]
    refine ⟨k, ?_⟩
    rw [List.getElem?_zip_eq_some]
    exact ⟨hk, List.getElem?_eq_getElem hkc⟩
  rw [sum_map_eq_single _ hzn (i, c[k]) _ hmem]
  · rw [List.getElem?_eq_getElem hkc]
    simp
  · rintro ⟨x, y⟩ hxy hne
    rw [if_neg]
    rintro ⟨h1, h2⟩
    simp only at h1 h2
    subst h1
    obtain ⟨m, hm⟩ := List.mem_iff_getElem?.1 hxy
    rw [List.getElem?_zip_eq_some] at hm
    have hmk : m = k := by
      have h1 := List.getElem?_eq_some_iff.1 hm.1
      have := (List.Nodup.getElem_inj_iff hr (hi := h1.1) (hj := hk1.1)).1 (by rw [h1.2, hk1.2])
      exact this
    subst hmk
    apply hne
    rw [List.getElem?_eq_getElem hkc] at hm
    have := Option.some.inj hm.2
    simp only at this
    rw [← this]

/-- an unlisted row is empty -/
theorem transferMatrix_zero {r c : List Nat} {nr nc i j : Nat} (hi : i ∉ r) :
    (transferMatrix r c nr nc).entry i j = 0 := by
  unfold transferMatrix
  simp only
  apply List.sum_eq_zero
  intro x hx
  obtain ⟨⟨a, b⟩, hab, rfl⟩ := List.mem_map.1 hx
  rw [if_neg]
  rintro ⟨rfl, -⟩
  exact hi (List.of_mem_zip hab).1

end Verif.Model
