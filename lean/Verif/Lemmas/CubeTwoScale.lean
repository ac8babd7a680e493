/-
The transfer matrices of `subdivide_cubical` with the right signs commute with the boundary.
-/
import Verif.Lemmas.CubeCoarsen
import Verif.Lemmas.CubeTransfer

set_option linter.unusedSectionVars false

namespace Verif

open Verif.Model Verif.Spec

/-- the fine elements in a coarse element, with the orientation of the coarse element -/
noncomputable def cellSign (t s : Topo) (k x i : Nat) : ℤ :=
  coarsen (vnum t k i) k (csign k ((s.elements[k]?.getD [])[x]?.getD [])) ((t.elements[k]?.getD [])[i]?.getD [])

section

variable {n : Nat} {top : List (List Nat)} {t : Topo} {uniq : List (List Nat) → List (List Nat)} {s : Topo}

theorem Stored.getD {t : Topo} {k i : Nat} {e : List Nat} (h : Stored t k i e) :
    (t.elements[k]?.getD [])[i]?.getD [] = e := by
  rw [show (t.elements[k]?.getD [])[i]? = some e from h, Option.getD_some]

theorem stored_of_lt {t : Topo} {k i : Nat} (h : i < t.nElements k) : ∃ e, Stored t k i e :=
  ⟨_, List.getElem?_eq_getElem h⟩

theorem fine_cubes (hu : UniqSpec uniq) (w : CWF n top t) (hn : 1 ≤ n) (hs : fromCubes uniq true n (allFine t n top) = .ok s)
    {k : Nat} (hk : k ≤ n) : Cubes k (s.elements[k]?.getD []) := by
  have ws := fromCubes_wf hu (allFine_cubes w hn) hs
  intro l hl
  obtain ⟨x, hx⟩ := List.mem_iff_getElem?.1 hl
  exact ws.cube hn hk hx

/-- the signed transfers commute with the boundary -/
theorem cellSign_chain (hu : UniqSpec uniq) (w : CWF n top t) (hn : 1 ≤ n)
    (hs : fromCubes uniq true n (allFine t n top) = .ok s) {k : Nat} (hk : k < n) {x j : Nat}
    (hx : x < s.nElements k) (hj : j < t.nElements (k + 1)) :
    ((List.range (s.nElements (k + 1))).map fun y => (s.matrix k).entry x y * cellSign t s (k + 1) y j).sum =
      ((List.range (t.nElements k)).map fun i => cellSign t s k x i * (t.matrix k).entry i j).sum := by
  have ws := fromCubes_wf hu (allFine_cubes w hn) hs
  obtain ⟨e', hx'⟩ := stored_of_lt hx
  obtain ⟨f, hf⟩ := stored_of_lt hj
  obtain ⟨hf1, hf2⟩ := w.cube hn (by omega) hf
  obtain ⟨he1, he2⟩ := ws.cube hn (by omega) hx'
  set φ := csign k e' with hφ
  have hφa : CAlt k φ := calt_csign he1 he2
  set W := vnum t (k + 1) j with hWd
  have hW : PermInv W := vnum_permInv t (k + 1) j
  have hR : ((List.range (t.nElements k)).map fun i => cellSign t s k x i * (t.matrix k).entry i j).sum =
      - coarsen W (k + 1) (ccob k φ) f := by
    rw [← coarsen_ccob hW hf1 hf2]
    have h1 := w.sum_entry hk (coarsen_calt hW hφa) hj
    rw [hf.getD] at h1
    rw [← h1]
    congr 1
    refine List.map_congr_left fun i hi => ?_
    obtain ⟨e, he⟩ := stored_of_lt (List.mem_range.1 hi)
    congr 1
    unfold cellSign
    rw [hx'.getD, he.getD, coarsen_of_nodup (w.cube hn (by omega) he).2, coarsen_of_nodup (w.cube hn (by omega) he).2]
    congr 1
    refine List.map_congr_left fun p hp => ?_
    rw [hWd, cell_change (K := k + 1) w hn (by omega) (Nat.lt_succ_self k) he (inCube_cellBox p)
      (by rw [cellBox_length, List.length_map, mem_cubeIndices.1 hp])]
  rw [hR, coarsen_of_nodup hf2, ← list_sum_map_neg]
  have hL : ∀ y ∈ List.range (s.nElements (k + 1)), (s.matrix k).entry x y * cellSign t s (k + 1) y j =
      ((cubeIndices (k + 1)).map fun p => - (ccob k φ ((s.elements[k + 1]?.getD [])[y]?.getD []) *
        csign (k + 1) ((s.elements[k + 1]?.getD [])[y]?.getD []) (cell W f (cellBox (p.map Bool.toNat))))).sum := by
    intro y hy
    rw [ws.entry hk hx (List.mem_range.1 hy), hx'.getD]
    unfold cellSign
    rw [hf.getD, coarsen_of_nodup hf2, list_mul_sum]
    congr 1
    refine List.map_congr_left fun p _ => ?_
    rw [hφ, hWd]
    ring
  rw [List.map_congr_left hL, sum_sum_comm]
  congr 1
  refine List.map_congr_left fun p hp => ?_
  have hp := mem_cubeIndices.1 hp
  rw [list_sum_map_neg]
  congr 1
  refine sum_csign (fine_cubes hu w hn hs (by omega)) (fine_distinct hu w hn hs (by omega)) hφa.ccob ?_
  obtain ⟨y, e2, g1, e3, g3, -, -, -, -, τ, g4⟩ := fine_exists hu w hn hs (k := k + 1) (by omega) hf (inCube_cellBox p)
    (by rw [cellBox_length, List.length_map, hp]) (openBox_cellBox _) (by rw [cellBox_free, List.length_map, hp])
  obtain rfl := g3.unique hf
  exact ⟨e2, List.mem_of_getElem? g1, τ, g4⟩

/-- the sign of a fine element in a coarse one -/
theorem cellSign_eq (hu : UniqSpec uniq) (w : CWF n top t) (hn : 1 ≤ n) (hs : fromCubes uniq true n (allFine t n top) = .ok s)
    {k : Nat} (hk : k ≤ n) {x i : Nat} {e e' : List Nat} {p : List Bool} {τ : ℤ} (hx : Stored s k x e') (he : Stored t k i e)
    (hp : p.length = k) (hτ : SymmetricCube k e' (cell (vnum t k i) e (cellBox (p.map Bool.toNat))) τ) :
    cellSign t s k x i = τ := by
  have ws := fromCubes_wf hu (allFine_cubes w hn) hs
  obtain ⟨he1, he2⟩ := ws.cube hn hk hx
  unfold cellSign
  rw [hx.getD, he.getD, coarsen_of_nodup (w.cube hn hk he).2,
    sum_map_eq_single (cubeIndices k) (cubeIndices_nodup k) p _ (mem_cubeIndices.2 hp)]
  · exact csign_eq he1 he2 hτ
  · intro q hq hne
    have hq := mem_cubeIndices.1 hq
    apply csign_none
    rintro ⟨σ, hσ⟩
    have h1 := (hτ.perm he1).trans (hσ.perm he1).symm
    obtain ⟨-, -, h⟩ := cell_unique w hn hk hk he he (inCube_cellBox _) (inCube_cellBox _)
      (by rw [cellBox_length, List.length_map, hp]) (by rw [cellBox_length, List.length_map, hq])
      (openBox_cellBox _) (openBox_cellBox _) h1
    have h2 := (List.map_injective_iff.2 (fun a b h => by simpa using h) h : p.map Bool.toNat = q.map Bool.toNat)
    exact hne (List.map_injective_iff.2 (fun a b h => by cases a <;> cases b <;> simp_all) h2).symm

theorem cellSign_zero (hu : UniqSpec uniq) (w : CWF n top t) (hn : 1 ≤ n) (hs : fromCubes uniq true n (allFine t n top) = .ok s)
    {k : Nat} (hk : k ≤ n) {x i K i' : Nat} {e' : List Nat} {B : Box} (hx : Stored s k x e') (hi : i < t.nElements k)
    (hK : K ≤ n) (hc : IsCell t e' k K i' B) (hne : ¬ (K = k ∧ i' = i)) : cellSign t s k x i = 0 := by
  have ws := fromCubes_wf hu (allFine_cubes w hn) hs
  obtain ⟨he1, he2⟩ := ws.cube hn hk hx
  obtain ⟨e, he⟩ := stored_of_lt hi
  unfold cellSign
  rw [hx.getD, he.getD, coarsen_of_nodup (w.cube hn hk he).2]
  apply List.sum_eq_zero
  intro a ha
  obtain ⟨q, hq, rfl⟩ := List.mem_map.1 ha
  have hq := mem_cubeIndices.1 hq
  apply csign_none
  rintro ⟨σ, hσ⟩
  have h2 : IsCell t e' k k i (cellBox (q.map Bool.toNat)) :=
    ⟨e, he, by rw [cellBox_length, List.length_map, hq], inCube_cellBox _, openBox_cellBox _,
      by rw [cellBox_free, List.length_map, hq], σ, hσ⟩
  obtain ⟨h3, h4, -⟩ := IsCell.unique w hn hK hk he1 he1 (List.Perm.refl _) hc h2
  exact hne ⟨h3, h4⟩

end

end Verif
