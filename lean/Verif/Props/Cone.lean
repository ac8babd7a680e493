/-
C66: `subdivide_simplicial`.
-/
import Verif.Lemmas.ConeMesh
import Verif.Props.Volume
import Verif.Props.Components
import Verif.Props.Orientation
import Mathlib.Algebra.Order.Ring.Int

namespace Verif

open Verif.Model Verif.Spec

/-- the vertices of a simplex are among the vertices of the topology -/
theorem WF.corner_lt {n : Nat} {top : List (List Nat)} {t : Topo} (wf : WF (n + 1) top t)
    (hs : Simplices (n + 2) top) {l : List Nat} (hl : l ∈ top) {v : Nat} (hv : v ∈ l) : v < t.nElements 0 := by
  obtain ⟨e, he, hp⟩ := (wf.faces hs (n + 1) 0 (by omega) [v]).2
    ⟨rfl, l, hl, List.singleton_subperm_iff.2 hv⟩
  obtain ⟨p, hp'⟩ := List.mem_iff_getElem?.1 he
  have := wf.vertex (by omega) hp'
  rw [this] at hp
  have hpv : p = v := by simpa using List.perm_singleton.1 hp
  rw [← hpv]
  exact (List.getElem?_eq_some_iff.1 hp').1

/-- every vertex is used -/
theorem WF.corner_ex {n : Nat} {top : List (List Nat)} {t : Topo} (wf : WF (n + 1) top t)
    (hs : Simplices (n + 2) top) {v : Nat} (hv : v < t.nElements 0) : ∃ l ∈ top, v ∈ l := by
  have hg := List.getElem?_eq_getElem hv
  have hv' := wf.vertex (by omega) hg
  obtain ⟨-, l, hl, hsub⟩ := (wf.faces hs (n + 1) 0 (by omega) [v]).1 ⟨_, List.mem_of_getElem? hg, by rw [hv']⟩
  exact ⟨l, hl, hsub.subset (by simp)⟩

theorem newRows_used {n : Nat} {top : List (List Nat)} {t : Topo} (wf : WF (n + 2) top t)
    (hs : Simplices (n + 3) top) (v : Nat) :
    (∃ r ∈ newRows (t.nElements 0) (n + 3) top, v ∈ r) ↔ v < t.nElements 0 + top.length := by
  constructor
  · rintro ⟨r, hr, hv⟩
    obtain ⟨I, hI⟩ := List.mem_iff_getElem?.1 hr
    obtain ⟨l, hl, rfl⟩ := (newRows_get I r).1 hI
    obtain ⟨h1, h2⟩ := hs l (List.mem_of_getElem? hl)
    have hc : I % (n + 3) < l.length := by rw [h1]; exact Nat.mod_lt _ (by omega)
    have hj := (List.getElem?_eq_some_iff.1 hl).1
    rcases (mem_cone h2 hc _ v).1 hv with h | h
    · have := wf.corner_lt hs (List.mem_of_getElem? hl) h.1
      omega
    · rw [h]; omega
  · intro hv
    rcases Nat.lt_or_ge v (t.nElements 0) with h | h
    · obtain ⟨l, hl, hvl⟩ := wf.corner_ex hs h
      obtain ⟨j, hj⟩ := List.mem_iff_getElem?.1 hl
      obtain ⟨h1, h2⟩ := hs l hl
      obtain ⟨d, hd, rfl⟩ := List.getElem_of_mem hvl
      obtain ⟨c, hc, hcd⟩ : ∃ c < n + 3, c ≠ d := by
        rcases Nat.eq_zero_or_pos d with h0 | h0
        · exact ⟨1, by omega, by omega⟩
        · exact ⟨0, by omega, by omega⟩
      refine ⟨_, List.mem_of_getElem? (newRows_get' hj hc), ?_⟩
      rw [mem_cone h2 (by rw [h1]; exact hc)]
      exact Or.inl ⟨List.getElem_mem _, fun he => hcd ((List.Nodup.getElem_inj_iff h2).1 he).symm⟩
    · have hj : v - t.nElements 0 < top.length := by omega
      refine ⟨_, List.mem_of_getElem? (newRows_get' (List.getElem?_eq_getElem hj) (show 0 < n + 3 by omega)), ?_⟩
      rw [List.mem_append]
      right
      simp only [List.mem_singleton]
      omega

theorem subdivideSimplicial_ok {uniq : List (List Nat) → List (List Nat)} (hu : UniqSpec uniq)
    {n : Nat} {top : List (List Nat)} {t : Topo} (wf : WF (n + 2) top t) (hs : Simplices (n + 3) top) :
    ∃ t', subdivideSimplicial uniq t = .ok t' ∧ WF (n + 2) (newRows (t.nElements 0) (n + 3) top) t' ∧
      fromSimplices uniq (n + 3) (newRows (t.nElements 0) (n + 3) top) = .ok t' := by
  have hsim := newRows_simplices hs (fun l hl v hv => wf.corner_lt hs hl hv)
  obtain ⟨t', ht'⟩ := (Props.C03_accepts_iff hu hsim).2 ⟨_, newRows_used wf hs⟩
  refine ⟨t', ?_, (fromSimplices_wf hu (n := n + 2) hsim ht').2, ht'⟩
  have hb : generateSimplexBoundary (n + 2 + 1) top =
      .ok (top.map fun l => (List.range (n + 3)).map fun c => simplexFace l c) := by
    unfold generateSimplexBoundary
    rw [if_neg (by omega), if_neg (by omega)]
  unfold subdivideSimplicial
  rw [wf.lenB, wf.lenE, show n + 2 + 1 - 1 = n + 2 from rfl, wf.top_eq]
  simp only [Option.getD_some, hb]
  exact ht'

/-- signed volume of a list of points, up to the factorial; zero for the wrong number of points -/
noncomputable def listDet {K : Type} [Field K] {d : Nat} (P : Nat → Fin d → K) (l : List Nat) : K :=
  if l.length = d + 1 then
    (edgeRows (Matrix.of fun (i : Fin (d + 1)) => P (l[i.val]?.getD 0))).det
  else 0

theorem alt_listDet {K : Type} [Field K] {d : Nat} (P : Nat → Fin d → K) : Alt (listDet P) := by
  intro u a b v
  unfold listDet
  by_cases hl : (u ++ a :: b :: v).length = d + 1
  · have hl' : (u ++ b :: a :: v).length = d + 1 := by rw [← hl]; simp
    rw [if_pos hl, if_pos hl']
    have hu : u.length + 1 < d + 1 := by rw [← hl]; simp
    set i0 : Fin (d + 1) := ⟨u.length, by omega⟩
    set i1 : Fin (d + 1) := ⟨u.length + 1, hu⟩
    rw [← Props.det_bordered, ← Props.det_bordered]
    have hne : i0 ≠ i1 := by
      intro h
      have := congrArg Fin.val h
      simp [i0, i1] at this
    have := Matrix.det_permute (Equiv.swap i0 i1) (Matrix.of fun (i : Fin (d + 1)) (j : Fin (d + 1)) =>
      (Fin.cons 1 ((Matrix.of fun (i : Fin (d + 1)) => P ((u ++ b :: a :: v)[i.val]?.getD 0)) i) :
        Fin (d + 1) → K) j)
    rw [Equiv.Perm.sign_swap hne] at this
    simp only [Units.val_neg, Units.val_one, Int.cast_neg, Int.cast_one, neg_mul, one_mul] at this
    rw [← this]
    congr 1
    ext i j
    simp only [Matrix.submatrix_apply, Matrix.of_apply, id]
    have hi : (u ++ a :: b :: v)[i.val]?.getD 0 = (u ++ b :: a :: v)[(Equiv.swap i0 i1 i).val]?.getD 0 := by
      by_cases h0 : i = i0
      · subst h0
        rw [Equiv.swap_apply_left]
        simp [i0, i1]
      · by_cases h1 : i = i1
        · subst h1
          rw [Equiv.swap_apply_right]
          simp [i0, i1]
        · rw [Equiv.swap_apply_of_ne_of_ne h0 h1]
          have e0 : i.val ≠ u.length := fun h => h0 (Fin.ext h)
          have e1 : i.val ≠ u.length + 1 := fun h => h1 (Fin.ext h)
          rcases Nat.lt_or_ge i.val u.length with h | h
          · rw [List.getElem?_append_left h, List.getElem?_append_left h]
          · rw [List.getElem?_append_right h, List.getElem?_append_right h]
            obtain ⟨k, hk⟩ : ∃ k, i.val - u.length = k + 2 := ⟨i.val - u.length - 2, by omega⟩
            rw [hk]
            rfl
    show (Fin.cons 1 (P ((u ++ a :: b :: v)[i.val]?.getD 0)) : Fin (d + 1) → K) j =
      (Fin.cons 1 (P ((u ++ b :: a :: v)[(Equiv.swap i0 i1 i).val]?.getD 0)) : Fin (d + 1) → K) j
    rw [hi]
  · have hl' : (u ++ b :: a :: v).length ≠ d + 1 := by
      intro h; apply hl; rw [← h]; simp
    rw [if_neg hl, if_neg hl', neg_zero]

/-- the simplices that replace `l` have together its volume, up to a sign -/
theorem cone_volume {K : Type} [Field K] [CharZero K] {n : Nat} (P : Nat → Fin (n + 2) → K) {l : List Nat}
    (hl : l.length = n + 3) (v : Nat) :
    ((List.range (n + 3)).map fun c => listDet P (simplexFace l c ++ [v])).sum =
      ((-1 : ℤ) ^ n) • listDet P l := by
  have hA := alt_listDet P
  have h1 : ∀ c ∈ List.range (n + 3), listDet P (simplexFace l c ++ [v]) =
      ((-1 : ℤ) ^ n) • listDet P (l.set c v) := by
    intro c hc
    have hc := List.mem_range.1 hc
    have hB : Alt (fun s => listDet P (s ++ [v])) := by
      intro u a b w
      simpa using hA u a b (w ++ [v])
    rw [hB.simplexFace (l := l) (c := c) (by omega) (by omega)]
    have h2 := (hA.append (l.take c)).append_comm (l.drop (c + 1)) [v]
    rw [List.eraseIdx_eq_take_drop_succ, List.append_assoc]
    rw [h2, smul_smul, ← pow_add, List.set_eq_take_append_cons_drop, if_pos (by omega)]
    congr 1
    simp only [List.length_drop, List.length_singleton, mul_one]
    rw [hl, show c + (n + 3 - (c + 1)) = n + 2 by omega, pow_add]
    simp
  rw [List.map_congr_left h1]
  have e : ((List.range (n + 3)).map fun c => ((-1 : ℤ) ^ n) • listDet P (l.set c v)).sum =
      ((-1 : ℤ) ^ n) • ((List.range (n + 3)).map fun c => listDet P (l.set c v)).sum := by
    rw [List.smul_sum, List.map_map]; rfl
  rw [e]
  congr 1
  set M : Matrix (Fin (n + 3)) (Fin (n + 2)) K := Matrix.of fun i => P (l[i.val]?.getD 0) with hM
  obtain ⟨w, hw, hsum⟩ := Props.C55_split M (P v) _ (Props.signedVolume_eq _)
  have hfac : (((n + 2).factorial : ℕ) : K) ≠ 0 := Nat.cast_ne_zero.2 (Nat.factorial_ne_zero _)
  have hupd : ∀ i : Fin (n + 3), listDet P (l.set i.val v) = w i * ((n + 2).factorial : K) := by
    intro i
    have h := hw i
    rw [Props.signedVolume_eq] at h
    have h := Except.ok.inj h
    rw [← h, div_mul_cancel₀ _ hfac]
    unfold listDet
    rw [if_pos (by rw [List.length_set, hl])]
    congr 2
    ext k q
    by_cases hk : k = i
    · subst hk
      rw [Matrix.updateRow_self]
      show P ((l.set k.val v)[k.val]?.getD 0) q = P v q
      rw [List.getElem?_set_self (by omega)]
      rfl
    · rw [Matrix.updateRow_ne hk]
      show P ((l.set i.val v)[k.val]?.getD 0) q = P (l[k.val]?.getD 0) q
      rw [List.getElem?_set_ne (fun h => hk (Fin.ext h.symm))]
  have hl' : listDet P l = (edgeRows M).det := by
    unfold listDet
    rw [if_pos hl]
  rw [hl']
  have hr : ((List.range (n + 3)).map fun c => listDet P (l.set c v)).sum =
      ∑ i : Fin (n + 3), listDet P (l.set i.val v) := by
    rw [Finset.sum_fin_eq_sum_range]
    have : ∀ N : Nat, N ≤ n + 3 → ((List.range N).map fun c => listDet P (l.set c v)).sum =
        ∑ i ∈ Finset.range N, if _ : i < n + 3 then listDet P (l.set i v) else 0 := by
      intro N
      induction N with
      | zero => simp
      | succ N ih =>
        intro hN
        rw [List.range_succ, List.map_append, List.sum_append, ih (by omega), Finset.sum_range_succ,
          dif_pos (by omega)]
        simp
    exact this _ (Nat.le_refl _)
  rw [hr, Finset.sum_congr rfl (fun i _ => hupd i), ← Finset.sum_mul, hsum, div_mul_cancel₀ _ hfac]

namespace Props

variable {uniq : List (List Nat) → List (List Nat)} {n : Nat} {simplices : List (List Nat)} {t : Topo}

/-- C66: `subdivide_simplicial` succeeds on every topology of triangles, tetrahedra, ... .  Simplex number `j`
is replaced by one simplex for each of its corners: number `(n + 3) * j + c` consists of the other corners
and, in the last place, of a new vertex with number `n_vertices + j`. -/
theorem C66_simplices (hu : UniqSpec uniq) (hs : Simplices (n + 3) simplices)
    (h : fromSimplices uniq (n + 3) simplices = .ok t) :
    ∃ t' rows, subdivideSimplicial uniq t = .ok t' ∧ t'.elements[n + 2]? = some rows ∧
      fromSimplices uniq (n + 3) rows = .ok t' ∧ Simplices (n + 3) rows ∧
      rows.length = (n + 3) * simplices.length ∧ t'.nElements 0 = t.nElements 0 + simplices.length ∧
      ∀ (j : Nat) (l : List Nat), simplices[j]? = some l → ∀ c < n + 3, ∃ r face : List Nat,
        rows[(n + 3) * j + c]? = some r ∧ face.Perm (l.eraseIdx c) ∧ r = face ++ [t.nElements 0 + j] := by
  have wf := (fromSimplices_wf hu (n := n + 2) hs h).2
  obtain ⟨t', h1, wf', h2⟩ := subdivideSimplicial_ok hu wf hs
  have hV := fun l hl v hv => wf.corner_lt hs (l := l) hl (v := v) hv
  refine ⟨t', _, h1, wf'.top_eq, h2, newRows_simplices hs hV, newRows_length _ _ _, ?_, ?_⟩
  · have := cone_counts wf hs hV wf' (k := 0) (by omega)
    simpa using this
  · intro j l hj c hc
    have hcl : c < l.length := by rw [(hs l (List.mem_of_getElem? hj)).1]; exact hc
    exact ⟨_, _, newRows_get' hj hc, simplexFace_perm hcl, by rw [Nat.add_comm]⟩

/-- C66: on a topology of edges `subdivide_simplicial` fails -/
theorem C66_edges_fail (hu : UniqSpec uniq) (hs : Simplices 2 simplices)
    (h : fromSimplices uniq 2 simplices = .ok t) : subdivideSimplicial uniq t = .error .indexError := by
  have wf := (fromSimplices_wf hu (n := 1) hs h).2
  unfold subdivideSimplicial
  rw [wf.lenB]
  rfl

/-- C66: numbers of elements: on every level below the highest the old ones and, for each simplex, one for
every `k` of its corners; on the highest level one per corner of a simplex -/
theorem C66_counts (hu : UniqSpec uniq) (hs : Simplices (n + 3) simplices)
    (h : fromSimplices uniq (n + 3) simplices = .ok t) {t' : Topo} (h' : subdivideSimplicial uniq t = .ok t') :
    (∀ k < n + 2, t'.nElements k = t.nElements k + simplices.length * (n + 3).choose k) ∧
    t'.nElements (n + 2) = (n + 3) * t.nElements (n + 2) := by
  have wf := (fromSimplices_wf hu (n := n + 2) hs h).2
  obtain ⟨t1, h1, wf', h2⟩ := subdivideSimplicial_ok hu wf hs
  rw [h1] at h'
  obtain rfl := Except.ok.inj h'
  refine ⟨fun k hk => cone_counts wf hs (fun l hl v hv => wf.corner_lt hs hl hv) wf' hk, ?_⟩
  unfold Topo.nElements
  rw [wf'.top_eq, wf.top_eq, Option.getD_some, Option.getD_some, newRows_length]

/-- C66: the Euler characteristic stays the same -/
theorem C66_euler (hu : UniqSpec uniq) (hs : Simplices (n + 3) simplices)
    (h : fromSimplices uniq (n + 3) simplices = .ok t) {t' : Topo} (h' : subdivideSimplicial uniq t = .ok t') :
    ∑ k ∈ Finset.range (n + 3), (-1 : ℤ) ^ k * t'.nElements k =
      ∑ k ∈ Finset.range (n + 3), (-1 : ℤ) ^ k * t.nElements k := by
  obtain ⟨h1, h2⟩ := C66_counts hu hs h h'
  have wf := (fromSimplices_wf hu (n := n + 2) hs h).2
  have hN : t.nElements (n + 2) = simplices.length := by
    unfold Topo.nElements; rw [wf.top_eq, Option.getD_some]
  rw [Finset.sum_range_succ, Finset.sum_range_succ (fun k => (-1 : ℤ) ^ k * t.nElements k), h2, hN]
  have e1 : ∑ k ∈ Finset.range (n + 2), (-1 : ℤ) ^ k * t'.nElements k =
      ∑ k ∈ Finset.range (n + 2), (-1 : ℤ) ^ k * t.nElements k +
        simplices.length * ∑ k ∈ Finset.range (n + 2), (-1 : ℤ) ^ k * ((n + 3).choose k : ℤ) := by
    rw [Finset.mul_sum, ← Finset.sum_add_distrib]
    refine Finset.sum_congr rfl fun k hk => ?_
    rw [h1 k (Finset.mem_range.1 hk)]
    push_cast
    ring
  have e2 := Int.alternating_sum_range_choose_of_ne (show n + 3 ≠ 0 by omega)
  rw [Finset.sum_range_succ, Finset.sum_range_succ, Nat.choose_self,
    show (n + 3).choose (n + 2) = n + 3 from Nat.choose_succ_self_right (n + 2)] at e2
  rw [e1]
  have e3 : ∑ k ∈ Finset.range (n + 2), (-1 : ℤ) ^ k * ((n + 3).choose k : ℤ) =
      - ((-1) ^ (n + 2) * ((n + 3 : ℕ) : ℤ) + (-1) ^ (n + 3)) := by
    rw [← sub_eq_zero]
    rw [← e2]
    push_cast
    ring
  rw [e3, pow_succ (-1 : ℤ) (n + 2)]
  push_cast
  ring

/-- C66: the simplices that replace one simplex have together its boundary, with one sign for all
dimensions: whatever face is considered, the orientations that they induce on it add up to the one that the
old simplex induces, times `(-1)` to the dimension -/
theorem C66_boundary (hu : UniqSpec uniq) (hs : Simplices (n + 3) simplices)
    (h : fromSimplices uniq (n + 3) simplices = .ok t) {t' : Topo} (h' : subdivideSimplicial uniq t = .ok t')
    {rows : List (List Nat)} (hr : t'.elements[n + 2]? = some rows) (e : List Nat) (j : Nat) (l : List Nat)
    (hj : simplices[j]? = some l) :
    ((List.range (n + 3)).map fun c => inducedSign e (rows[(n + 3) * j + c]?.getD [])).sum =
      (-1) ^ (n + 2) * inducedSign e l := by
  have wf := (fromSimplices_wf hu (n := n + 2) hs h).2
  obtain ⟨t1, h1, wf', h2⟩ := subdivideSimplicial_ok hu wf hs
  rw [h1] at h'
  obtain rfl := Except.ok.inj h'
  rw [wf'.top_eq] at hr
  obtain rfl := Option.some.inj hr
  rw [show (-1 : ℤ) ^ (n + 2) = (-1) ^ n by rw [pow_add]; simp,
    ← block_sum (nV := t.nElements 0) hs (fun l hl v hv => wf.corner_lt hs hl hv) hj e]
  congr 1
  apply List.map_congr_left
  intro c hc
  rw [newRows_get' hj (List.mem_range.1 hc), Option.getD_some]

/-- C66: coherence of the orientation, the faces on the boundary, whether some face belongs to more than two
simplices, and connectedness are the same before and after -/
theorem C66_preserves (hu : UniqSpec uniq) (hs : Simplices (n + 3) simplices)
    (h : fromSimplices uniq (n + 3) simplices = .ok t) {t' : Topo} (h' : subdivideSimplicial uniq t = .ok t')
    {rows : List (List Nat)} (hr : t'.elements[n + 2]? = some rows) :
    (Coherent rows ↔ Coherent simplices) ∧ (∀ e, BoundaryFace rows e ↔ BoundaryFace simplices e) ∧
    (AtMostTwo rows ↔ AtMostTwo simplices) ∧ (Connected rows ↔ Connected simplices) := by
  have wf := (fromSimplices_wf hu (n := n + 2) hs h).2
  obtain ⟨t1, h1, wf', h2⟩ := subdivideSimplicial_ok hu wf hs
  rw [h1] at h'
  obtain rfl := Except.ok.inj h'
  rw [wf'.top_eq] at hr
  obtain rfl := Option.some.inj hr
  have hV := fun l hl v hv => wf.corner_lt hs (l := l) hl (v := v) hv
  exact ⟨cone_coherent_iff hs hV, cone_boundaryFace_iff hs hV, cone_atMostTwo_iff hs hV, cone_connected_iff hs hV⟩

/-- C66: `is_connected` gives the same answer before and after -/
theorem C66_is_connected {cc : Mat Int → Nat × List Nat} (hcc : ComponentsSpec cc) (hu : UniqSpec uniq)
    (hs : Simplices (n + 3) simplices) (hn : n + 3 < 256)
    (h : fromSimplices uniq (n + 3) simplices = .ok t) {t' : Topo} (h' : subdivideSimplicial uniq t = .ok t') :
    isConnected cc t' = isConnected cc t := by
  have wf := (fromSimplices_wf hu (n := n + 2) hs h).2
  obtain ⟨t1, h1, wf', h2⟩ := subdivideSimplicial_ok hu wf hs
  rw [h1] at h'
  obtain rfl := Except.ok.inj h'
  have hV := fun l hl v hv => wf.corner_lt hs (l := l) hl (v := v) hv
  obtain ⟨b, hb, hbi⟩ := C65_is_connected hcc hu hs hn h
  obtain ⟨b', hb', hbi'⟩ := C65_is_connected hcc hu (newRows_simplices hs hV) hn h2
  rw [hb, hb']
  congr 1
  rw [Bool.eq_iff_iff, hbi, hbi', ← cone_linked_iff hs hV]
  apply and_congr_left
  intro _
  rw [not_iff_not, ← List.length_eq_zero_iff, newRows_length, Nat.mul_eq_zero, List.length_eq_zero_iff]
  simp

/-- C66: for a connected topology `is_oriented` gives the same answer before and after, whichever solver is used -/
theorem C66_is_oriented {solve solve' : List (List Int) → Option (List Int)} (hsat : SatSpec solve)
    (hsat' : SatSpec solve') (hu : UniqSpec uniq) (hs : Simplices (n + 3) simplices)
    (h : fromSimplices uniq (n + 3) simplices = .ok t) (hne : simplices ≠ []) (hcon : Connected simplices)
    {t' : Topo} (h' : subdivideSimplicial uniq t = .ok t') :
    isOriented solve' t' = .ok true ↔ isOriented solve t = .ok true := by
  obtain ⟨t1, rows, h1, h2, h3, h4, h5, -⟩ := C66_simplices hu hs h
  obtain ⟨p1, -, -, p4⟩ := C66_preserves hu hs h h1 h2
  rw [h1] at h'
  obtain rfl := Except.ok.inj h'
  rw [C08_connected_exact hu hs hsat h hne hcon, C08_connected_exact hu h4 hsat' h3 ?_ (p4.2 hcon), p1]
  intro h0
  rw [h0] at h5
  have : simplices.length = 0 := by
    rcases Nat.mul_eq_zero.1 h5.symm with h | h
    · omega
    · exact h
  exact hne (List.length_eq_zero_iff.1 this)

/-- C66: the vertices of the complex are the old ones, followed by one in the center of every simplex: the
last corner of the simplices that replace simplex `j` is at the center of simplex `j` -/
theorem C66_positions {α : Type} (hu : UniqSpec uniq) (hs : Simplices (n + 3) simplices)
    (h : fromSimplices uniq (n + 3) simplices = .ok t) {t' : Topo} (h' : subdivideSimplicial uniq t = .ok t')
    (PP : List (List α)) (hPP : PP.length = n + 3) (h0 : (PP[0]?.getD []).length = t.nElements 0)
    (hN : (PP[n + 2]?.getD []).length = simplices.length) :
    (coneVertices PP).length = t'.nElements 0 ∧
    (∀ v < t.nElements 0, (coneVertices PP)[v]? = (PP[0]?.getD [])[v]?) ∧
    ∀ j, (coneVertices PP)[t.nElements 0 + j]? = (PP[n + 2]?.getD [])[j]? := by
  obtain ⟨t1, rows, h1, -, -, -, -, h6, -⟩ := C66_simplices hu hs h
  rw [h1] at h'
  obtain rfl := Except.ok.inj h'
  unfold coneVertices
  rw [hPP, show n + 3 - 1 = n + 2 from rfl]
  refine ⟨by rw [List.length_append, h0, hN, h6], ?_, ?_⟩
  · intro v hv
    rw [List.getElem?_append_left (by rw [h0]; exact hv)]
  · intro j
    rw [List.getElem?_append_right (by rw [h0]; omega), h0, Nat.add_sub_cancel_left]

/-- C66: wherever the vertices are put, the signed volumes of the simplices that replace one simplex add up to
its volume, times `(-1)` to the dimension -/
theorem C66_volume {K : Type} [Field K] [CharZero K] (hu : UniqSpec uniq) (hs : Simplices (n + 3) simplices)
    (h : fromSimplices uniq (n + 3) simplices = .ok t) {t' : Topo} (h' : subdivideSimplicial uniq t = .ok t')
    {rows : List (List Nat)} (hr : t'.elements[n + 2]? = some rows) (P : Nat → Fin (n + 2) → K) (j : Nat)
    (l : List Nat) (hj : simplices[j]? = some l) (v : K)
    (hv : signedVolume (Matrix.of fun i : Fin (n + 3) => P (l[i.val]?.getD 0)) = .ok v) :
    ∃ w : Nat → K, (∀ c < n + 3, ∃ r : List Nat, rows[(n + 3) * j + c]? = some r ∧
        signedVolume (Matrix.of fun i : Fin (n + 3) => P (r[i.val]?.getD 0)) = .ok (w c)) ∧
      ((List.range (n + 3)).map w).sum = (-1) ^ (n + 2) * v := by
  have wf := (fromSimplices_wf hu (n := n + 2) hs h).2
  obtain ⟨t1, h1, wf', h2⟩ := subdivideSimplicial_ok hu wf hs
  rw [h1] at h'
  obtain rfl := Except.ok.inj h'
  rw [wf'.top_eq] at hr
  obtain rfl := Option.some.inj hr
  have hl := (hs l (List.mem_of_getElem? hj)).1
  have hdet : ∀ r : List Nat, r.length = n + 3 →
      signedVolume (Matrix.of fun i : Fin (n + 3) => P (r[i.val]?.getD 0)) =
        .ok (listDet P r / ((n + 2).factorial : K)) := by
    intro r hr
    rw [signedVolume_eq]
    unfold listDet
    rw [if_pos hr]
  rw [hdet l hl] at hv
  obtain rfl := Except.ok.inj hv
  refine ⟨fun c => listDet P (simplexFace l c ++ [j + t.nElements 0]) / ((n + 2).factorial : K), ?_, ?_⟩
  · intro c hc
    exact ⟨_, newRows_get' hj hc, hdet _ (by rw [cone_length (by omega), hl])⟩
  · have := cone_volume P hl (j + t.nElements 0)
    have hdiv : ((List.range (n + 3)).map fun c =>
        listDet P (simplexFace l c ++ [j + t.nElements 0]) / ((n + 2).factorial : K)).sum =
        ((List.range (n + 3)).map fun c => listDet P (simplexFace l c ++ [j + t.nElements 0])).sum /
          ((n + 2).factorial : K) := by
      simp only [div_eq_mul_inv]
      rw [List.sum_map_mul_right]
    rw [hdiv, this, zsmul_eq_mul, pow_add]
    push_cast
    ring

/-- C66, what one would not expect: in odd dimensions all orientations are reversed.  The tetrahedra that
replace a tetrahedron of positive volume have negative volumes: for
the corner of a cube and its center of mass each of them is `-1/24`. -/
theorem C66_reversed :
    ∃ t', subdivideSimplicial List.dedup (built 4 [[0, 1, 2, 3]]) = .ok t' ∧
      t'.elements[3]? = some [[1, 2, 3, 4], [3, 2, 0, 4], [3, 0, 1, 4], [1, 0, 2, 4]] ∧
      signedVolume (!![0, 0, 0; 1, 0, 0; 0, 1, 0; 0, 0, 1] : Matrix (Fin 4) (Fin 3) ℚ) = .ok (1 / 6) ∧
      signedVolume (!![1, 0, 0; 0, 1, 0; 0, 0, 1; 1/4, 1/4, 1/4] : Matrix (Fin 4) (Fin 3) ℚ) = .ok (-1 / 24) ∧
      signedVolume (!![0, 0, 1; 0, 1, 0; 0, 0, 0; 1/4, 1/4, 1/4] : Matrix (Fin 4) (Fin 3) ℚ) = .ok (-1 / 24) ∧
      signedVolume (!![0, 0, 1; 0, 0, 0; 1, 0, 0; 1/4, 1/4, 1/4] : Matrix (Fin 4) (Fin 3) ℚ) = .ok (-1 / 24) ∧
      signedVolume (!![1, 0, 0; 0, 0, 0; 0, 1, 0; 1/4, 1/4, 1/4] : Matrix (Fin 4) (Fin 3) ℚ) = .ok (-1 / 24) := by
  refine ⟨_, rfl, by decide +kernel, ?_, ?_, ?_, ?_, ?_⟩ <;>
  · rw [signedVolume_eq, Matrix.det_fin_three]
    simp [edgeRows, Nat.factorial]
    try norm_num

/-! Concrete cases -/

/-- the boundary of a tetrahedron -/
def tetraSphere : List (List Nat) := [[0, 2, 1], [0, 1, 3], [0, 3, 2], [1, 2, 3]]

theorem built_tetraSphere : fromSimplices List.dedup 3 tetraSphere = .ok (built 3 tetraSphere) := by
  decide +kernel

/-- subdivision of the boundary of a tetrahedron: twelve triangles, eighteen edges, eight vertices, and the
hypotheses of the theorems above are met -/
example : Simplices 3 tetraSphere ∧ fromSimplices List.dedup 3 tetraSphere = .ok (built 3 tetraSphere) ∧
    ∃ t', subdivideSimplicial List.dedup (built 3 tetraSphere) = .ok t' ∧
      t'.elements[2]? = some [[2, 1, 4], [1, 0, 4], [0, 2, 4], [1, 3, 5], [3, 0, 5], [0, 1, 5], [3, 2, 6],
        [2, 0, 6], [0, 3, 6], [2, 3, 7], [3, 1, 7], [1, 2, 7]] ∧
      t'.nElements 0 = 4 + 4 ∧ t'.nElements 1 = 6 + 4 * 3 ∧ t'.nElements 2 = 3 * 4 :=
  ⟨simplices_of_all (by decide), built_tetraSphere, _, rfl, by decide +kernel, by decide +kernel,
    by decide +kernel, by decide +kernel⟩

/-- the theorems apply to it: the Euler characteristic is still two -/
example (t' : Topo) (h' : subdivideSimplicial List.dedup (built 3 tetraSphere) = .ok t') :
    ∑ k ∈ Finset.range 3, (-1 : ℤ) ^ k * t'.nElements k = 2 := by
  rw [C66_euler (n := 0) uniqSpec_dedup (simplices_of_all (by decide)) built_tetraSphere h']
  decide +kernel

/-- positions: a triangle, its edges and its face -/
example : coneVertices [[(0, 0), (3, 0), (0, 3)], [(1, 1), (0, 1), (1, 0)], [(1, 1)]] =
    [((0 : Nat), (0 : Nat)), (3, 0), (0, 3), (1, 1)] := by decide

/-- volumes: the triangle with corners `(0, 0)`, `(4, 0)`, `(1, 3)` and the new vertex `(2, 1)` -/
example : signedVolume (!![0, 0; 4, 0; 1, 3] : Matrix (Fin 3) (Fin 2) ℚ) = .ok 6 ∧
    signedVolume (!![4, 0; 1, 3; 2, 1] : Matrix (Fin 3) (Fin 2) ℚ) = .ok (3 / 2) ∧
    signedVolume (!![1, 3; 0, 0; 2, 1] : Matrix (Fin 3) (Fin 2) ℚ) = .ok (5 / 2) ∧
    signedVolume (!![0, 0; 4, 0; 2, 1] : Matrix (Fin 3) (Fin 2) ℚ) = .ok 2 := by
  refine ⟨?_, ?_, ?_, ?_⟩ <;>
  · rw [signedVolume_eq, Matrix.det_fin_two]
    simp [edgeRows]
    norm_num

end Props

end Verif
