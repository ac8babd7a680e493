/-
C67: subdivision of cubical topologies, `TopologyCubical.subdivide_cubical`.
-/
import Verif.Lemmas.CubeFirst
import Verif.Spec.CubicalDomains

set_option linter.unusedSectionVars false

namespace Verif.Props

open Verif.Model Verif.Spec

variable {n : Nat} {cubes : List (List Nat)} {uniq : List (List Nat) → List (List Nat)} {t s : Topo} {T : List (Mat Int)}

theorem subdivideCubical_iff (hu : UniqSpec uniq) (hc : Cubes n cubes) (hn : 1 ≤ n)
    (ht : fromCubes uniq true n cubes = .ok t) : subdivideCubical uniq t = .ok (s, T) ↔
      fromCubes uniq true n (allFine t n cubes) = .ok s ∧ T = s.elements.mapIdx fun k rows =>
        transferMatrix (cubicalTransfer (t.elements.map List.length) k rows).1
          (cubicalTransfer (t.elements.map List.length) k rows).2 (s.nElements k) (t.nElements k) := by
  have w := fromCubes_wf hu hc ht
  unfold subdivideCubical
  rw [subdivideCubes_ok w hn, w.lenB]
  show (fromCubes uniq true n (allFine t n cubes) >>= fun sub => _) = _ ↔ _
  rw [Except.bind_eq_ok']
  constructor
  · rintro ⟨s', h1, h2⟩
    have h2 := Except.ok.inj h2
    rw [Prod.mk.injEq] at h2
    obtain ⟨rfl, rfl⟩ := h2
    exact ⟨h1, rfl⟩
  · rintro ⟨h1, rfl⟩
    exact ⟨s, h1, rfl⟩

/-- C67: the subdivision of a topology made by `from_cubes` does not fail. -/
theorem C67_accepts (hu : UniqSpec uniq) (hc : Cubes n cubes) (hn : 1 ≤ n) (ht : fromCubes uniq true n cubes = .ok t) :
    ∃ s T, subdivideCubical uniq t = .ok (s, T) := by
  have w := fromCubes_wf hu hc ht
  obtain ⟨m, rfl⟩ : ∃ m, n = m + 1 := ⟨n - 1, by omega⟩
  obtain ⟨s, hs⟩ := allFine_accepts hu w hn ((C19_accepts_iff hu hc).1 ⟨t, ht⟩).1
  exact ⟨s, _, (subdivideCubical_iff hu hc hn ht).2 ⟨hs, rfl⟩⟩

theorem getElem?_corner {W : List Nat → Nat} {l : List Nat} {B : Box} {b : List Bool} (hb : b.length = free B) :
    (cell W l B)[ravel b]? = some (W (gridFace l (point B b))) := by
  unfold cell cubeOf
  rw [List.getElem?_map, cubeIndices_ravel hb]
  rfl

theorem agrees_corner : ∀ {p b c : List Bool}, b.length = p.length → c.length = p.length →
    (agrees (corner (p.map Bool.toNat) b) c = true ↔ ∀ a : Nat, p[a]? = b[a]? → c[a]? = p[a]?)
  | [], b, c, hb, hc => by
    obtain rfl := List.length_eq_zero_iff.1 hb
    obtain rfl := List.length_eq_zero_iff.1 hc
    simp [corner, agrees]
  | _ :: _, [], _, hb, _ => by simp at hb
  | _ :: _, _ :: _, [], _, hc => by simp at hc
  | x :: p, y :: b, z :: c, hb, hc => by
    have ih := agrees_corner (p := p) (b := b) (c := c) (by simpa using hb) (by simpa using hc)
    have hcn : corner ((x :: p).map Bool.toNat) (y :: b) = (x.toNat + y.toNat) :: corner (p.map Bool.toNat) b := rfl
    rw [hcn, agrees, Bool.and_eq_true, ih]
    constructor
    · rintro ⟨h1, h2⟩ a
      rcases a with _ | a
      · cases x <;> cases y <;> cases z <;> simp_all
      · simpa using h2 a
    · intro h
      refine ⟨?_, fun a => by simpa using h (a + 1)⟩
      have := h 0
      cases x <;> cases y <;> cases z <;> simp_all

theorem count_corner : ∀ {p b : List Bool}, b.length = p.length → (corner (p.map Bool.toNat) b).count 1 =
    ((List.range p.length).filter fun a => p[a]? != b[a]?).length
  | [], b, _ => by simp [corner]
  | _ :: _, [], hb => by simp at hb
  | x :: p, y :: b, hb => by
    have hcn : corner ((x :: p).map Bool.toNat) (y :: b) = (x.toNat + y.toNat) :: corner (p.map Bool.toNat) b := rfl
    have : ((fun a : Nat => (x :: p)[a]? != (y :: b)[a]?) ∘ Nat.succ) = fun a : Nat => p[a]? != b[a]? := by
      funext a; simp
    rw [hcn, List.count_cons, count_corner (by simpa using hb), List.length_cons, List.range_succ_eq_map, List.filter_cons,
      List.filter_map, this]
    cases x <;> cases y <;> simp [List.length_map]

/-- C67: cube `j` is cut into the `2 ^ n` cubes `2 ^ n * j + ravel p` at its corners `p`.  The corner `b` of such a cube
is the vertex that was put into the face of cube `j` between its corner `p` and the sides on which `b` agrees with
`p`.  Its dimension is the number of axes on which they differ; for all `n` axes it is cube `j` itself. -/
theorem C67_cubes (hu : UniqSpec uniq) (hc : Cubes n cubes) (hn : 1 ≤ n) (ht : fromCubes uniq true n cubes = .ok t)
    (hs : subdivideCubical uniq t = .ok (s, T)) :
    s.nElements n = 2 ^ n * cubes.length ∧
    ∀ (j : Nat) (l : List Nat) (p b : List Bool), cubes[j]? = some l → p.length = n → b.length = n →
      ∃ (c : List Nat) (k i : Nat) (e : List Nat), (s.elements[n]?.getD [])[2 ^ n * j + ravel p]? = some c ∧
        (t.elements[k]?.getD [])[i]? = some e ∧ c[ravel b]? = some (subVertex t k i) ∧
        k = ((List.range n).filter fun a => p[a]? != b[a]?).length ∧ (∀ v, v ∈ e ↔ OnCornerFace l p b v) ∧
        (k = n → i = j) := by
  have w := fromCubes_wf hu hc ht
  obtain ⟨hs, -⟩ := (subdivideCubical_iff hu hc hn ht).1 hs
  have ws := fromCubes_wf hu (allFine_cubes w hn) hs
  have htop : s.elements[n]?.getD [] = allFine t n cubes := by rw [ws.top_eq]; rfl
  constructor
  · unfold Topo.nElements
    rw [htop, allFine_length, Nat.mul_comm]
  · intro j l p b hj hp hb
    have hjl := (stored_top w).2 hj
    have hx : IsPoint (corner (p.map Bool.toNat) b) := by
      rw [← point_cellBox (by simpa [hp] using hb)]
      exact point_isPoint b (inCube_cellBox p)
    have hxl : (corner (p.map Bool.toNat) b).length = n := by simp [corner, hp, hb]
    obtain ⟨i, e, h1, h2, h3, h4⟩ := vnum_gridFace w hn (le_refl n) hjl hx hxl
    refine ⟨_, _, i, e, by rw [htop]; exact allFine_get hj hp, h1, ?_, ?_, ?_, ?_⟩
    · rw [getElem?_corner (by rw [cellBox_free, List.length_map, hb, hp]), point_cellBox (by simpa [hp] using hb), h4]
      rfl
    · rw [count_corner (by omega), hp]
    · intro v
      rw [← h2.mem_iff]
      unfold gridFace OnCornerFace
      rw [hxl, List.mem_map]
      obtain ⟨hl1, hl2⟩ := hc l (List.mem_of_getElem? hj)
      constructor
      · rintro ⟨c, hcm, rfl⟩
        obtain ⟨g1, g2⟩ := List.mem_filter.1 hcm
        have hcl := mem_cubeIndices.1 g1
        refine ⟨c, by omega, (agrees_corner (by omega) (by omega)).1 g2, ?_⟩
        have := ravel_lt c
        rw [hcl, ← hl1] at this
        unfold cubeAt
        rw [List.getElem?_eq_getElem this]
        rfl
      · rintro ⟨c, g1, g2, g3⟩
        refine ⟨c, List.mem_filter.2 ⟨mem_cubeIndices.2 (by omega), (agrees_corner (by omega) (by omega)).2 g2⟩, ?_⟩
        unfold cubeAt
        rw [g3]
        rfl
    · intro hk
      exact h3 (count_eq_length hxl hk)

/-- C67: the number of fine elements of dimension `k`. -/
theorem C67_counts (hu : UniqSpec uniq) (hc : Cubes n cubes) (hn : 1 ≤ n) (ht : fromCubes uniq true n cubes = .ok t)
    (hs : subdivideCubical uniq t = .ok (s, T)) {k : Nat} (hk : k ≤ n) :
    s.nElements k = ((List.range (n + 1)).map fun m => t.nElements m * (m.choose k * 2 ^ k)).sum :=
  fine_count hu (fromCubes_wf hu hc ht) hn ((subdivideCubical_iff hu hc hn ht).1 hs).1 hk

/-- C67: the subdivision has the Euler characteristic of the original. -/
theorem C67_euler (hu : UniqSpec uniq) (hc : Cubes n cubes) (hn : 1 ≤ n) (ht : fromCubes uniq true n cubes = .ok t)
    (hs : subdivideCubical uniq t = .ok (s, T)) :
    ∑ k ∈ Finset.range (n + 1), (-1 : ℤ) ^ k * s.nElements k = ∑ k ∈ Finset.range (n + 1), (-1 : ℤ) ^ k * t.nElements k :=
  fine_euler _ _ n fun _ hk => C67_counts hu hc hn ht hs hk

/-- all vertices of a fine element are in a coarse element of the same dimension iff it is a part of it -/
theorem inElement_iff (w : CWF n cubes t) (hn : 1 ≤ n) {k K i i0 : Nat} {e' : List Nat} {B : Box} (hK : K ≤ n)
    (hl : e'.length = 2 ^ k) (hi : i < t.nElements k) (hcell : IsCell t e' k K i0 B) :
    (∀ v ∈ e', InElement t k i v) ↔ K = k ∧ i0 = i := by
  obtain ⟨e0, h1, h2, h3, h4, h5, τ, hτ⟩ := hcell
  have hp := hτ.perm hl
  have hle := free_le B
  constructor
  · intro h
    obtain ⟨b, hb, hm⟩ := h4.middle h3
    have hmem : subVertex t K i0 ∈ e' := by
      rw [← hp.mem_iff, mem_cell]
      refine ⟨b, hb, ?_⟩
      rw [hm, h2, vnum_middle w hn hK h1]
      rfl
    rcases h _ hmem with g | ⟨m, r, f, e, g0, g1, g2, g3, g4⟩
    · exact offs_encode_inj h1.lt hi g
    · have := (offs_encode_inj h1.lt (Stored.lt (t := t) g1) g3).1
      omega
  · rintro ⟨rfl, rfl⟩
    intro v hv
    rw [← hp.mem_iff, mem_cell] at hv
    obtain ⟨b, hb, rfl⟩ := hv
    obtain ⟨r, f, g1, g2, g3, g4⟩ := vnum_gridFace w hn hK h1 (point_isPoint b h3) (by rw [point_length, h2])
    have hcl := List.count_le_length (a := 1) (l := point B b)
    rw [point_length, h2] at hcl
    rcases Nat.lt_or_ge ((point B b).count 1) K with hlt | hge
    · right
      refine ⟨_, r, f, e0, hlt, g1, h1, g4, ?_⟩
      intro u hu
      rw [← g2.mem_iff] at hu
      unfold gridFace at hu
      obtain ⟨c, hcm, rfl⟩ := List.mem_map.1 hu
      have hcl := mem_cubeIndices.1 (List.mem_filter.1 hcm).1
      have hlt := ravel_lt c
      rw [hcl, point_length, h2, ← (w.cube hn hK h1).1] at hlt
      unfold cubeAt
      rw [List.getElem?_eq_getElem hlt]
      exact List.getElem_mem _
    · left
      have he : (point B b).count 1 = K := by omega
      have hr := g3 (count_eq_length (by rw [point_length, h2]) he)
      rw [g4, he, hr]
      rfl

theorem subdivideCubical_transfer (hu : UniqSpec uniq) (hc : Cubes n cubes) (hn : 1 ≤ n)
    (ht : fromCubes uniq true n cubes = .ok t) (hs : subdivideCubical uniq t = .ok (s, T)) {k : Nat} (hk : k ≤ n) :
    T[k]? = some (transferMatrix (cubicalTransfer (t.elements.map List.length) k (s.elements[k]?.getD [])).1
          (cubicalTransfer (t.elements.map List.length) k (s.elements[k]?.getD [])).2 (s.nElements k) (t.nElements k)) := by
  have w := fromCubes_wf hu hc ht
  obtain ⟨hs', hT⟩ := (subdivideCubical_iff hu hc hn ht).1 hs
  have ws := fromCubes_wf hu (allFine_cubes w hn) hs'
  have hlen := ws.lenE
  rw [hT, List.getElem?_mapIdx, List.getElem?_eq_getElem (by omega)]
  rfl

/-- the entries of the transfer matrices -/
theorem transfers_entry (hu : UniqSpec uniq) (hc : Cubes n cubes) (hn : 1 ≤ n)
    (ht : fromCubes uniq true n cubes = .ok t) (hs : subdivideCubical uniq t = .ok (s, T)) {k : Nat} (hk : k ≤ n)
    {x : Nat} {e' : List Nat} (hx : Stored s k x e') : ∃ K ≤ n, ∃ i0 B, IsCell t e' k K i0 B ∧
      ∀ j, (T[k]?.getD ⟨0, 0, fun _ _ => 0⟩).entry x j = if K = k ∧ i0 = j then 1 else 0 := by
  have w := fromCubes_wf hu hc ht
  have hT := subdivideCubical_transfer hu hc hn ht hs hk
  obtain ⟨hs, -⟩ := (subdivideCubical_iff hu hc hn ht).1 hs
  obtain ⟨K, hK, i0, B, h⟩ := fine_isCell hu w hn hs hk hx
  refine ⟨K, hK, i0, B, h, fun j => ?_⟩
  rw [hT, Option.getD_some]
  exact transfer_entry hu w hn hs hk hx hK h j _ _

/-- C67: `transfer_matrices[k]` has a row for every fine element and a column for every coarse element of dimension `k`.
The entry is one if all vertices of the fine element are in the coarse element and zero if not. -/
theorem C67_transfers (hu : UniqSpec uniq) (hc : Cubes n cubes) (hn : 1 ≤ n) (ht : fromCubes uniq true n cubes = .ok t)
    (hs : subdivideCubical uniq t = .ok (s, T)) :
    T.length = n + 1 ∧ ∀ k ≤ n, ∃ M, T[k]? = some M ∧ M.rows = s.nElements k ∧ M.cols = t.nElements k ∧
      ∀ (x i : Nat) (e : List Nat), (s.elements[k]?.getD [])[x]? = some e → i < t.nElements k →
        ((∀ v ∈ e, InElement t k i v) → M.entry x i = 1) ∧ ((¬ ∀ v ∈ e, InElement t k i v) → M.entry x i = 0) := by
  have w := fromCubes_wf hu hc ht
  have hs' := (subdivideCubical_iff hu hc hn ht).1 hs
  have ws := fromCubes_wf hu (allFine_cubes w hn) hs'.1
  constructor
  · rw [hs'.2, List.length_mapIdx, ws.lenE]
  · intro k hk
    have hT := subdivideCubical_transfer hu hc hn ht hs hk
    refine ⟨_, hT, rfl, rfl, ?_⟩
    intro x i e hx hi
    obtain ⟨K, hK, i0, B, h1, h2⟩ := transfers_entry hu hc hn ht hs hk hx
    have h2 := h2 i
    rw [hT, Option.getD_some] at h2
    rw [inElement_iff w hn hK (ws.cube hn hk hx).1 hi h1, h2]
    constructor
    · intro h; rw [if_pos h]
    · intro h; rw [if_neg h]

/-- C67: every element of dimension `k` is cut into `2 ^ k` elements of dimension `k`. -/
theorem C67_parts (hu : UniqSpec uniq) (hc : Cubes n cubes) (hn : 1 ≤ n) (ht : fromCubes uniq true n cubes = .ok t)
    (hs : subdivideCubical uniq t = .ok (s, T)) {k i : Nat} (hk : k ≤ n) (hi : i < t.nElements k) {M : Mat Int}
    (hM : T[k]? = some M) : ((List.range (s.nElements k)).map fun x => M.entry x i).sum = 2 ^ k := by
  have w := fromCubes_wf hu hc ht
  have hs' := ((subdivideCubical_iff hu hc hn ht).1 hs).1
  have ws := fromCubes_wf hu (allFine_cubes w hn) hs'
  obtain ⟨e, he⟩ := stored_of_lt hi
  have hsplit : ∀ x ∈ List.range (s.nElements k), M.entry x i = ((cubeIndices k).map fun p =>
      csign k ((s.elements[k]?.getD [])[x]?.getD []) (cell (vnum t k i) e (cellBox (p.map Bool.toNat))) *
      csign k ((s.elements[k]?.getD [])[x]?.getD []) (cell (vnum t k i) e (cellBox (p.map Bool.toNat)))).sum := by
    intro x hx
    obtain ⟨e', hx⟩ := stored_of_lt (List.mem_range.1 hx)
    obtain ⟨he1, he2⟩ := ws.cube hn hk hx
    obtain ⟨K, hK, i0, B, h1, h2⟩ := transfers_entry hu hc hn ht hs hk hx
    have h2 := h2 i
    rw [hM, Option.getD_some] at h2
    rw [h2, hx.getD]
    split
    · next h =>
      obtain ⟨rfl, rfl⟩ := h
      obtain ⟨e0, g1, g2, g3, g4, g5, τ, hτ⟩ := h1
      obtain rfl := g1.unique he
      obtain ⟨p, hp, rfl⟩ := cellBox_of_free g3 (by omega)
      rw [sum_map_eq_single (cubeIndices K) (cubeIndices_nodup K) p _ (mem_cubeIndices.2 (by omega))]
      · rw [csign_eq he1 he2 hτ]
        rcases hτ.sign with h | h <;> rw [h] <;> rfl
      · intro q hq hne
        have hq := mem_cubeIndices.1 hq
        rw [csign_none, zero_mul]
        rintro ⟨σ, hσ⟩
        obtain ⟨-, -, h⟩ := cell_unique w hn hk hk he he g3 (inCube_cellBox _) g2
          (by rw [cellBox_length, List.length_map, hq]) g4 (openBox_cellBox _) ((hτ.perm he1).trans (hσ.perm he1).symm)
        have h2 := (List.map_injective_iff.2 (fun a b h => by simpa using h) h : p.map Bool.toNat = q.map Bool.toNat)
        exact hne (List.map_injective_iff.2 (fun a b h => by cases a <;> cases b <;> simp_all) h2).symm
    · next h =>
      symm
      apply List.sum_eq_zero
      intro a ha
      obtain ⟨q, hq, rfl⟩ := List.mem_map.1 ha
      have hq := mem_cubeIndices.1 hq
      rw [csign_none, zero_mul]
      rintro ⟨σ, hσ⟩
      have h3 : IsCell t e' k k i (cellBox (q.map Bool.toNat)) :=
        ⟨e, he, by rw [cellBox_length, List.length_map, hq], inCube_cellBox _, openBox_cellBox _,
          by rw [cellBox_free, List.length_map, hq], σ, hσ⟩
      obtain ⟨h4, h5, -⟩ := IsCell.unique w hn hK hk he1 he1 (List.Perm.refl _) h1 h3
      exact h ⟨h4, h5⟩
  rw [List.map_congr_left hsplit, sum_sum_comm, List.map_congr_left (g := fun _ => (1 : ℤ))]
  · rw [List.map_const', List.sum_replicate, cubeIndices_length]
    simp
  · intro p hp
    have hp := mem_cubeIndices.1 hp
    obtain ⟨y, e2, g1, e3, g3, -, -, -, -, τ, g4⟩ := fine_exists hu w hn hs' (k := k) hk he (inCube_cellBox p)
      (by rw [cellBox_length, List.length_map, hp]) (openBox_cellBox _) (by rw [cellBox_free, List.length_map, hp])
    obtain rfl := g3.unique he
    obtain ⟨c1, c2⟩ := ws.cube hn hk g1
    rw [sum_map_eq_single _ List.nodup_range y _ (List.mem_range.2 (Stored.lt g1)), Stored.getD g1, csign_eq c1 c2 g4]
    · rcases g4.sign with h | h <;> rw [h] <;> rfl
    · intro z hz hne
      obtain ⟨e4, hz⟩ := stored_of_lt (List.mem_range.1 hz)
      obtain ⟨d1, d2⟩ := ws.cube hn hk hz
      rw [hz.getD, csign_none, zero_mul]
      rintro ⟨σ, hσ⟩
      exact hne (distinct_index (fine_distinct hu w hn hs' hk) hz g1 ((hσ.perm d1).symm.trans (g4.perm c1)))

/-- C67: the transfers and the boundary.  With signs `S` for the orientations the transfers commute with the boundary:
the boundary of the parts of a coarse element is the parts of its boundary.  The entries of `transfer_matrices`, which
have no signs, have the right signs for vertices, for the top dimension and for the dimension below it. -/
theorem C67_boundary (hu : UniqSpec uniq) (hc : Cubes n cubes) (hn : 1 ≤ n) (ht : fromCubes uniq true n cubes = .ok t)
    (hs : subdivideCubical uniq t = .ok (s, T)) :
    ∃ S : Nat → Nat → Nat → Int,
      (∀ (k x i : Nat) (M : Mat Int), k ≤ n → T[k]? = some M → x < s.nElements k → i < t.nElements k →
        |S k x i| = M.entry x i ∧ (k = 0 ∨ k = n ∨ k + 1 = n → S k x i = M.entry x i)) ∧
      ∀ (k x j : Nat), k < n → x < s.nElements k → j < t.nElements (k + 1) →
        prodEntry (s.nElements (k + 1)) (s.matrix k).entry (S (k + 1)) x j =
          prodEntry (t.nElements k) (S k) (t.matrix k).entry x j := by
  have w := fromCubes_wf hu hc ht
  have hs' := ((subdivideCubical_iff hu hc hn ht).1 hs).1
  have ws := fromCubes_wf hu (allFine_cubes w hn) hs'
  refine ⟨cellSign t s, ?_, fun k x j hk hx hj => cellSign_chain hu w hn hs' hk hx hj⟩
  intro k x i M hk hM hx hi
  obtain ⟨e', hx⟩ := stored_of_lt hx
  obtain ⟨K, hK, i0, B, h1, h2⟩ := transfers_entry hu hc hn ht hs hk hx
  have h2 := h2 i
  rw [hM, Option.getD_some] at h2
  rw [h2]
  split
  · next h =>
    obtain ⟨rfl, rfl⟩ := h
    constructor
    · obtain ⟨e, g1, g2, g3, g4, g5, τ, hτ⟩ := h1
      obtain ⟨p, hp, rfl⟩ := cellBox_of_free g3 (by omega)
      rw [cellSign_eq hu w hn hs' hk hx g1 (by omega) hτ]
      rcases hτ.sign with h | h <;> rw [h] <;> rfl
    · rintro (rfl | rfl | rfl)
      · exact cellSign_vertex hu w hn hs' hx h1
      · exact cellSign_top hu w hn hs' hx h1
      · rcases Nat.eq_zero_or_pos K with rfl | hpos
        · exact cellSign_vertex hu w hn hs' hx h1
        · exact cellSign_last hu hpos hc ht hs' hx h1
  · next h =>
    have := cellSign_zero hu w hn hs' hk hx hi hK h1 h
    rw [this]
    exact ⟨rfl, fun _ => rfl⟩

/-- C67: `transfer_matrices` commute with the boundary of the cubes. -/
theorem C67_boundary_top (hu : UniqSpec uniq) (hc : Cubes (n + 1) cubes) (ht : fromCubes uniq true (n + 1) cubes = .ok t)
    (hs : subdivideCubical uniq t = .ok (s, T)) {M N : Mat Int} (hM : T[n]? = some M) (hN : T[n + 1]? = some N) {x j : Nat}
    (hx : x < s.nElements n) (hj : j < t.nElements (n + 1)) :
    prodEntry (s.nElements (n + 1)) (s.matrix n).entry N.entry x j =
      prodEntry (t.nElements n) M.entry (t.matrix n).entry x j := by
  obtain ⟨S, h1, h2⟩ := C67_boundary hu hc (by omega) ht hs
  have h := h2 n x j (by omega) hx hj
  unfold prodEntry at h ⊢
  rw [List.map_congr_left (f := fun k => (s.matrix n).entry x k * N.entry k j)
      (g := fun k => (s.matrix n).entry x k * S (n + 1) k j), h]
  · congr 1
    refine List.map_congr_left fun i hi => ?_
    rw [(h1 n x i M (by omega) hM hx (List.mem_range.1 hi)).2 (by omega)]
  · intro y hy
    rw [(h1 (n + 1) y j N (by omega) hN (List.mem_range.1 hy) hj).2 (by omega)]

/-- C67: for squares, `transfer_matrices` commute with the boundary in all dimensions. -/
theorem C67_boundary_squares (hu : UniqSpec uniq) (hc : Cubes 2 cubes) (ht : fromCubes uniq true 2 cubes = .ok t)
    (hs : subdivideCubical uniq t = .ok (s, T)) {k : Nat} (hk : k < 2) {M N : Mat Int} (hM : T[k]? = some M)
    (hN : T[k + 1]? = some N) {x j : Nat} (hx : x < s.nElements k) (hj : j < t.nElements (k + 1)) :
    prodEntry (s.nElements (k + 1)) (s.matrix k).entry N.entry x j =
      prodEntry (t.nElements k) M.entry (t.matrix k).entry x j := by
  obtain ⟨S, h1, h2⟩ := C67_boundary hu hc (by omega) ht hs
  have h := h2 k x j hk hx hj
  unfold prodEntry at h ⊢
  rw [List.map_congr_left (f := fun y => (s.matrix k).entry x y * N.entry y j)
      (g := fun y => (s.matrix k).entry x y * S (k + 1) y j), h]
  · congr 1
    refine List.map_congr_left fun i hi => ?_
    rw [(h1 k x i M (by omega) hM hx (List.mem_range.1 hi)).2 (by omega)]
  · intro y hy
    rw [(h1 (k + 1) y j N (by omega) hN (List.mem_range.1 hy) hj).2 (by omega)]

/-! ### three dimensions

`topology/cubical.py` line 340 asks about the orientation of the fine elements relative to the coarse ones: `is it
inherited by construction? test suggests so`.  For cubes of dimension three it is not. -/

/-- rows without repetition in lexicographic order -/
def lexRows (l : List (List Nat)) : List (List Nat) := l.dedup.insertionSort (fun a b => a ≤ b)

theorem lexRows_spec : UniqSpec lexRows := by
  intro l
  have hp : (lexRows l).Perm l.dedup := List.perm_insertionSort _ _
  exact ⟨hp.nodup_iff.2 l.nodup_dedup, fun r => by rw [hp.mem_iff, List.mem_dedup]⟩

/-- what `transfer_matrices` and the boundary give for row `x` and column `j`, one after the other and in the other
order -/
def commuteAt (uniq : List (List Nat) → List (List Nat)) (n : Nat) (cubes : List (List Nat)) (k x j : Nat) :
    Option (Int × Int) :=
  (fromCubes uniq true n cubes).toOption.bind fun t => (subdivideCubical uniq t).toOption.bind fun sT =>
    sT.2[k]?.bind fun M => sT.2[k + 1]?.bind fun N =>
      if x < sT.1.nElements k ∧ j < t.nElements (k + 1) then
        some (prodEntry (sT.1.nElements (k + 1)) (sT.1.matrix k).entry N.entry x j,
          prodEntry (t.nElements k) M.entry (t.matrix k).entry x j)
      else none

theorem commuteAt_spec {uniq : List (List Nat) → List (List Nat)} {n : Nat} {cubes : List (List Nat)} {k x j : Nat} {a b : Int}
    (h : commuteAt uniq n cubes k x j = some (a, b)) (hab : a ≠ b) :
    ∃ t s T M N, fromCubes uniq true n cubes = .ok t ∧ subdivideCubical uniq t = .ok (s, T) ∧ T[k]? = some M ∧
      T[k + 1]? = some N ∧ x < s.nElements k ∧ j < t.nElements (k + 1) ∧
      prodEntry (s.nElements (k + 1)) (s.matrix k).entry N.entry x j ≠
        prodEntry (t.nElements k) M.entry (t.matrix k).entry x j := by
  unfold commuteAt at h
  cases ht : fromCubes uniq true n cubes with
  | error e => rw [ht] at h; simp [Except.toOption] at h
  | ok t =>
    cases hs : subdivideCubical uniq t with
    | error e => rw [ht] at h; simp [Except.toOption, hs] at h
    | ok sT =>
      rw [ht] at h
      simp only [Except.toOption, hs, Option.bind_some] at h
      cases hM : sT.2[k]? with
      | none => simp [hM] at h
      | some M =>
        cases hN : sT.2[k + 1]? with
        | none => simp [hM, hN] at h
        | some N =>
          simp only [hM, hN, Option.bind_some] at h
          split at h
          · next hxj =>
            have h := Option.some.inj h
            rw [Prod.mk.injEq] at h
            refine ⟨t, sT.1, sT.2, M, N, rfl, hs, hM, hN, hxj.1, hxj.2, ?_⟩
            rw [h.1, h.2]
            exact hab
          · simp at h

/-- C67: for one cube of dimension three `transfer_matrices` do not commute with the boundary of edges, nor with the
boundary of squares. -/
theorem C67_boundary_fails :
    UniqSpec lexRows ∧ Cubes 3 [[0, 7, 2, 3, 4, 5, 6, 1]] ∧ ∀ k < 2,
      ∃ t s T M N x j, fromCubes lexRows true 3 [[0, 7, 2, 3, 4, 5, 6, 1]] = .ok t ∧
        subdivideCubical lexRows t = .ok (s, T) ∧ T[k]? = some M ∧ T[k + 1]? = some N ∧
        x < s.nElements k ∧ j < t.nElements (k + 1) ∧
        prodEntry (s.nElements (k + 1)) (s.matrix k).entry N.entry x j ≠
          prodEntry (t.nElements k) M.entry (t.matrix k).entry x j := by
  refine ⟨lexRows_spec, ?_, ?_⟩
  · intro l hl
    rw [List.mem_singleton] at hl
    subst hl
    decide
  · have h0 : commuteAt lexRows 3 [[0, 7, 2, 3, 4, 5, 6, 1]] 0 0 0 = some (-1, 1) := by decide +kernel
    have h1 : commuteAt lexRows 3 [[0, 7, 2, 3, 4, 5, 6, 1]] 1 0 0 = some (1, -1) := by decide +kernel
    intro k hk
    rcases k with _ | _ | k
    · obtain ⟨t, s, T, M, N, h⟩ := commuteAt_spec h0 (by decide)
      exact ⟨t, s, T, M, N, 0, 0, h⟩
    · obtain ⟨t, s, T, M, N, h⟩ := commuteAt_spec h1 (by decide)
      exact ⟨t, s, T, M, N, 0, 0, h⟩
    · omega

/-- an example: two squares with a common edge become eight -/
example : Cubes 2 [[0, 1, 2, 3], [2, 3, 4, 5]] ∧
    ((fromCubes lexRows true 2 [[0, 1, 2, 3], [2, 3, 4, 5]]).toOption.bind fun t =>
      (subdivideCubical lexRows t).toOption.map fun sT => (sT.1.elements.map List.length, sT.1.elements[2]?)) =
    some ([15, 22, 8], some [[0, 6, 7, 13], [6, 1, 13, 8], [7, 13, 2, 9], [13, 8, 9, 3],
      [2, 9, 10, 14], [9, 3, 14, 11], [10, 14, 4, 12], [14, 11, 12, 5]]) := by
  refine ⟨?_, by decide +kernel⟩
  intro l hl
  simp only [List.mem_cons, List.not_mem_nil, or_false] at hl
  rcases hl with rfl | rfl <;> decide

end Verif.Props
