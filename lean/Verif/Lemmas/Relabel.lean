/-
Relabelling of corners, and the topology extracted from a selection of elements.
-/
import Verif.Lemmas.Orientation
import Verif.Model.Boundary
import Verif.Props.Simplicial

namespace Verif

open Verif.Model Verif.Spec

/-! ### signs are invariant under relabelling -/

theorem map_leftInverse {φ ψ : Nat → Nat} {l : List Nat} (h : ∀ x ∈ l, ψ (φ x) = x) :
    (l.map φ).map ψ = l := by
  rw [List.map_map]
  conv_rhs => rw [← List.map_id l]
  apply List.map_congr_left
  intro x hx
  exact h x hx

theorem perm_map_iff {φ ψ : Nat → Nat} {l c : List Nat} (hl : ∀ x ∈ l, ψ (φ x) = x)
    (hc : ∀ x ∈ c, ψ (φ x) = x) : (l.map φ).Perm (c.map φ) ↔ l.Perm c := by
  constructor
  · intro h
    have := h.map ψ
    rwa [map_leftInverse hl, map_leftInverse hc] at this
  · exact fun h => h.map φ

theorem idxOf_map {φ ψ : Nat → Nat} {c : List Nat} (hc : ∀ x ∈ c, ψ (φ x) = x) {x : Nat}
    (hx : ψ (φ x) = x) : (c.map φ).idxOf (φ x) = c.idxOf x := by
  induction c with
  | nil => rfl
  | cons a t ih =>
    rw [List.map_cons, List.idxOf_cons, List.idxOf_cons, ih (fun y hy => hc y (by simp [hy]))]
    by_cases hax : a = x
    · subst hax; simp
    · have : φ a ≠ φ x := by
        intro h
        apply hax
        rw [← hc a (by simp), ← hx, h]
      simp [beq_eq_false_iff_ne.2 hax, beq_eq_false_iff_ne.2 this]

theorem relSign_map {φ ψ : Nat → Nat} {l c : List Nat} (hl : ∀ x ∈ l, ψ (φ x) = x)
    (hc : ∀ x ∈ c, ψ (φ x) = x) : relSign (c.map φ) (l.map φ) = relSign c l := by
  unfold relSign
  have h1 : (l.map φ).isPerm (c.map φ) = l.isPerm c := by
    rw [Bool.eq_iff_iff, List.isPerm_iff, List.isPerm_iff, perm_map_iff hl hc]
  rw [h1, List.map_map]
  congr 2
  apply List.map_congr_left
  intro x hx
  exact idxOf_map hc (hl x hx)

theorem inducedSign_map {φ ψ : Nat → Nat} {e l : List Nat} (hl : ∀ x ∈ l, ψ (φ x) = x)
    (he : ∀ x ∈ e, ψ (φ x) = x) : inducedSign (e.map φ) (l.map φ) = inducedSign e l := by
  unfold inducedSign
  rw [List.length_map]
  congr 1
  apply List.map_congr_left
  intro c _
  rw [List.eraseIdx_map, relSign_map (fun x hx => hl x ((List.eraseIdx_sublist _ _).subset hx)) he]

theorem isFace_map {φ ψ : Nat → Nat} {e l : List Nat} (hl : ∀ x ∈ l, ψ (φ x) = x)
    (he : ∀ x ∈ e, ψ (φ x) = x) : IsFace (e.map φ) (l.map φ) ↔ IsFace e l := by
  unfold IsFace
  rw [List.length_map]
  have : ∀ c, (e.map φ).Perm ((l.map φ).eraseIdx c) ↔ e.Perm (l.eraseIdx c) := by
    intro c
    rw [List.eraseIdx_map,
      perm_map_iff he (fun x hx => hl x ((List.eraseIdx_sublist _ _).subset hx))]
  simp only [this]

/-! ### `relabel` -/

/-- the vertex map back to the original numbering -/
def back (rows : List (List Nat)) (v : Nat) : Nat := (relabel rows).1[v]?.getD 0

/-- the new number of a vertex -/
def fresh (rows : List (List Nat)) (v : Nat) : Nat := (relabel rows).1.idxOf v

section relabel

variable (rows : List (List Nat))

theorem mapping_mem (v : Nat) : v ∈ (relabel rows).1 ↔ ∃ r ∈ rows, v ∈ r := by
  unfold relabel
  rw [npUnique_mem, List.mem_flatten]

theorem mapping_nodup : (relabel rows).1.Nodup := npUnique_nodup _

theorem mapping_sorted : (relabel rows).1.Pairwise (· < ·) := by
  have h1 : (relabel rows).1.Pairwise (· ≤ ·) := sortRow_sorted _
  have h2 := mapping_nodup rows
  have := h1.and h2
  exact this.imp fun ⟨a, b⟩ => Nat.lt_of_le_of_ne a b

theorem back_fresh {r : List Nat} (hr : r ∈ rows) {v : Nat} (hv : v ∈ r) :
    back rows (fresh rows v) = v := by
  have hm : v ∈ (relabel rows).1 := (mapping_mem rows v).2 ⟨r, hr, hv⟩
  unfold back fresh
  rw [List.getElem?_eq_getElem (List.idxOf_lt_length_of_mem hm), Option.getD_some,
    List.getElem_idxOf]

theorem fresh_back {v : Nat} (hv : v < (relabel rows).1.length) :
    fresh rows (back rows v) = v := by
  unfold back fresh
  rw [List.getElem?_eq_getElem hv, Option.getD_some]
  exact (mapping_nodup rows).idxOf_getElem v hv

theorem relabel_rows : (relabel rows).2 = rows.map fun r => r.map (fresh rows) := rfl

theorem relabel_back : (relabel rows).2.map (fun r => r.map (back rows)) = rows := by
  rw [relabel_rows, List.map_map]
  conv_rhs => rw [← List.map_id rows]
  apply List.map_congr_left
  intro r hr
  exact map_leftInverse fun x hx => back_fresh rows hr hx

theorem relabel_used (v : Nat) :
    (∃ r ∈ (relabel rows).2, v ∈ r) ↔ v < (relabel rows).1.length := by
  rw [relabel_rows]
  constructor
  · rintro ⟨r, hr, hv⟩
    obtain ⟨r0, hr0, rfl⟩ := List.mem_map.1 hr
    obtain ⟨w, hw, rfl⟩ := List.mem_map.1 hv
    exact List.idxOf_lt_length_of_mem ((mapping_mem rows w).2 ⟨r0, hr0, hw⟩)
  · intro hv
    have hm : (relabel rows).1[v] ∈ (relabel rows).1 := List.getElem_mem hv
    obtain ⟨r, hr, hvr⟩ := (mapping_mem rows _).1 hm
    refine ⟨_, List.mem_map_of_mem hr, List.mem_map.2 ⟨_, hvr, ?_⟩⟩
    exact (mapping_nodup rows).idxOf_getElem v hv

theorem relabel_simplices {k : Nat} (hs : Simplices k rows) : Simplices k (relabel rows).2 := by
  rw [relabel_rows]
  intro l hl
  obtain ⟨r, hr, rfl⟩ := List.mem_map.1 hl
  refine ⟨by simpa using (hs r hr).1, ?_⟩
  have h0 := map_leftInverse (l := r) (fun x hx => back_fresh rows hr hx)
  have := (hs r hr).2
  rw [← h0] at this
  exact List.Nodup.of_map _ this

end relabel

theorem subperm_map (f : Nat → Nat) {a b : List Nat} (h : a.Subperm b) :
    (a.map f).Subperm (b.map f) := by
  obtain ⟨l, hp, hs⟩ := h
  exact ⟨l.map f, hp.map f, hs.map f⟩

theorem gather_ok {mapping row : List Nat} (h : ∀ v ∈ row, v < mapping.length) :
    gather mapping row = .ok (row.map fun v => mapping[v]?.getD 0) := by
  unfold gather
  apply mapM_ok
  intro v hv
  rw [List.getElem?_eq_getElem (h v hv)]
  rfl

/-! ### vertices -/

theorem WF.vertex {n : Nat} {top : List (List Nat)} {t : Topo} (h : WF n top t) (hn : 0 < n)
    {p : Nat} {e : List Nat} (hp : (t.elements[0]?.getD [])[p]? = some e) : e = [p] := by
  obtain ⟨E, hE, hfl⟩ := h.vertices
  have hs := (h.get hn).1
  rw [hE, Option.getD_some] at hs hp
  have key : ∀ (E : List (List Nat)) (a : Nat), Simplices 1 E →
      E.flatten = List.range' a E.length → ∀ p e, E[p]? = some e → e = [a + p] := by
    intro E
    induction E with
    | nil => intro a _ _ p e hp; simp at hp
    | cons x E ih =>
      intro a hs hf p e hp
      obtain ⟨v, rfl⟩ : ∃ v, x = [v] := by
        have := (hs x (by simp)).1
        rcases x with _ | ⟨v, _ | ⟨w, r⟩⟩
        · simp at this
        · exact ⟨v, rfl⟩
        · simp at this
      rw [List.flatten_cons, List.length_cons, List.range'_succ, List.singleton_append,
        List.cons.injEq] at hf
      cases p with
      | zero => simp at hp; rw [← hp, hf.1, Nat.add_zero]
      | succ p =>
        have := ih (a + 1) (fun l hl => hs l (by simp [hl])) hf.2 p e (by simpa using hp)
        rw [this]
        congr 1
        omega
  have := key E 0 hs (by rw [hfl, List.range_eq_range']) p e hp
  simpa using this

/-! ### the extracted topology -/

/-- what is known about a topology extracted from the rows `rows` of `(k+1)`-cornered elements -/
structure SubOK (k : Nat) (t : Topo) (rows : List (List Nat)) (s : Sub) : Prop where
  wf : WF k (relabel rows).2 s.topo
  lenIdx : s.parentIdx.length = k + 1
  bound : ∀ j ≤ k, ∀ e ∈ s.topo.elements[j]?.getD [], ∀ v ∈ e, v < (relabel rows).1.length
  idx : ∀ j ≤ k, ∃ P, s.parentIdx[j]? = some P ∧ P.length = s.topo.nElements j ∧
    ∀ (i : Nat) (e : List Nat), (s.topo.elements[j]?.getD [])[i]? = some e → ∃ (p : Nat) (e' : List Nat), P[i]? = some p ∧
      (t.elements[j]?.getD [])[p]? = some e' ∧ e'.Perm (e.map (back rows))

theorem subTopology_ok {uniq : List (List Nat) → List (List Nat)} (hu : UniqSpec uniq)
    {n : Nat} {top : List (List Nat)} {t : Topo} (h : WF n top t) (htop : Simplices (n + 1) top)
    {k : Nat} (hk : k + 1 ≤ n) {rows : List (List Nat)}
    (hrows : ∀ r ∈ rows, r ∈ t.elements[k + 1]?.getD []) :
    ∃ s, subTopology uniq (k + 2) t rows = .ok s ∧ SubOK (k + 1) t rows s := by
  have hlev : Simplices (k + 2) (t.elements[k + 1]?.getD []) := (h.get (k := k) (by omega)).2.1
  have hsr : Simplices (k + 2) rows := fun r hr => hlev r (hrows r hr)
  have hsn := relabel_simplices rows hsr
  obtain ⟨s, hs⟩ := (Props.C03_accepts_iff hu hsn).2 ⟨_, relabel_used rows⟩
  obtain ⟨-, wf⟩ := fromSimplices_wf hu (n := k + 1) hsn hs
  have hfs := wf.faces hsn
  have hft := h.faces htop
  have bound : ∀ j ≤ k + 1, ∀ e ∈ s.elements[j]?.getD [], ∀ v ∈ e,
      v < (relabel rows).1.length := by
    intro j hj e he v hv
    obtain ⟨-, l, hl, hsub⟩ := (hfs (k + 1 - j) j (by omega) e).1 ⟨e, he, List.Perm.refl _⟩
    exact (relabel_used rows v).1 ⟨l, hl, hsub.subset hv⟩
  have corr : ∀ j ≤ k + 1, ∀ e ∈ s.elements[j]?.getD [],
      ∃ e' ∈ t.elements[j]?.getD [], e'.Perm (e.map (back rows)) := by
    intro j hj e he
    obtain ⟨hlen, l, hl, hsub⟩ := (hfs (k + 1 - j) j (by omega) e).1 ⟨e, he, List.Perm.refl _⟩
    have hl' : l.map (back rows) ∈ rows := by
      have : l.map (back rows) ∈ (relabel rows).2.map (fun r => r.map (back rows)) :=
        List.mem_map_of_mem hl
      rwa [relabel_back] at this
    obtain ⟨-, L, hL, hsubL⟩ := (hft (n - (k + 1)) (k + 1) (by omega) (l.map (back rows))).1
      ⟨_, hrows _ hl', List.Perm.refl _⟩
    exact (hft (n - j) j (by omega) (e.map (back rows))).2
      ⟨by simpa using hlen, L, hL, (subperm_map (back rows) hsub).trans hsubL⟩
  set idxf : List (List Nat) × List (List Nat) → List Nat := fun Cc =>
    Cc.2.map fun e => (Cc.1.map sortRow).idxOf (sortRow (e.map (back rows))) with hidxf
  have hzip : ∀ (j : Nat) Cc, (t.elements.zip s.elements)[j]? = some Cc → j ≤ k + 1 ∧
      t.elements[j]? = some Cc.1 ∧ s.elements[j]? = some Cc.2 := by
    intro j Cc hj
    obtain ⟨h1, h2⟩ := List.getElem?_zip_eq_some.1 hj
    refine ⟨?_, h1, h2⟩
    have := (List.getElem?_eq_some_iff.1 h2).1
    rw [wf.lenE] at this
    omega
  have hfc : findCorrespondence t.elements s.elements (relabel rows).1 =
      .ok ((t.elements.zip s.elements).map idxf) := by
    unfold findCorrespondence
    apply mapM_ok
    intro Cc hCc
    obtain ⟨j, hj⟩ := List.mem_iff_getElem?.1 hCc
    obtain ⟨hjk, h1, h2⟩ := hzip j Cc hj
    have hb := bound j hjk
    have hc := corr j hjk
    rw [h2, Option.getD_some] at hb hc
    rw [h1, Option.getD_some] at hc
    have hg : Cc.2.mapM (gather (relabel rows).1) = .ok (Cc.2.map fun e => e.map (back rows)) := by
      apply mapM_ok
      intro e he
      rw [gather_ok (hb e he)]
      rfl
    rw [hg]
    simp only [bind, Except.bind]
    unfold npiIndices
    rw [mapM_ok _ (fun r => (Cc.1.map sortRow).idxOf r)]
    · rw [hidxf]
      simp only [List.map_map]
      rfl
    · intro r hr
      obtain ⟨r', hr', rfl⟩ := List.mem_map.1 hr
      obtain ⟨e, he, rfl⟩ := List.mem_map.1 hr'
      obtain ⟨e', he', hp⟩ := hc e he
      rw [if_pos]
      rw [← (sortRow_eq_iff _ _).2 hp]
      exact List.mem_map_of_mem he'
  refine ⟨⟨s, (t.elements.zip s.elements).map idxf⟩, ?_, ?_⟩
  · unfold subTopology
    simp only [hs, bind, Except.bind, hfc]
  · refine ⟨wf, ?_, bound, ?_⟩
    · simp only [List.length_map, List.length_zip, h.lenE, wf.lenE]
      omega
    · intro j hj
      have hjt : j < t.elements.length := by rw [h.lenE]; omega
      have hjs : j < s.elements.length := by rw [wf.lenE]; omega
      have hz : (t.elements.zip s.elements)[j]? = some (t.elements[j], s.elements[j]) :=
        List.getElem?_zip_eq_some.2
          ⟨List.getElem?_eq_getElem hjt, List.getElem?_eq_getElem hjs⟩
      refine ⟨idxf (t.elements[j], s.elements[j]), by rw [List.getElem?_map, hz]; rfl, ?_, ?_⟩
      · simp only [hidxf, List.length_map, Topo.nElements]
        rw [List.getElem?_eq_getElem hjs]; rfl
      · intro i e hi
        have hmem := List.mem_of_getElem? hi
        obtain ⟨e', he', hp⟩ := corr j hj e hmem
        rw [List.getElem?_eq_getElem hjs, Option.getD_some] at hi
        have hkey : sortRow (e.map (back rows)) ∈ t.elements[j].map sortRow := by
          rw [← (sortRow_eq_iff _ _).2 hp]
          rw [List.getElem?_eq_getElem hjt, Option.getD_some] at he'
          exact List.mem_map_of_mem he'
        have hlt := List.idxOf_lt_length_of_mem hkey
        have hlt' : (t.elements[j].map sortRow).idxOf (sortRow (e.map (back rows))) <
            t.elements[j].length := by simpa using hlt
        refine ⟨_, _, by simp only [hidxf]; rw [List.getElem?_map, hi]; rfl,
          by rw [List.getElem?_eq_getElem hjt, Option.getD_some]
             exact List.getElem?_eq_getElem hlt', ?_⟩
        rw [← sortRow_eq_iff]
        have := List.getElem_idxOf hlt
        rw [List.getElem_map] at this
        exact this

theorem SubOK.idx_zero {n k : Nat} {top : List (List Nat)} {t : Topo} {rows : List (List Nat)}
    {s : Sub} (hk : 0 < k) (hn : 0 < n) (h : WF n top t) (hs : SubOK k t rows s) :
    s.parentIdx[0]? = some (relabel rows).1 := by
  obtain ⟨P, hP, hlen, hidx⟩ := hs.idx 0 (by omega)
  rw [hP]
  congr 1
  have hsv : ∀ v e, (s.topo.elements[0]?.getD [])[v]? = some e → e = [v] :=
    fun v e => hs.wf.vertex hk
  have hns : s.topo.nElements 0 = (relabel rows).1.length := by
    apply Nat.le_antisymm
    · by_contra hlt
      push Not at hlt
      unfold Topo.nElements at hlt
      have := hs.bound 0 (by omega) _ (List.getElem_mem hlt) (relabel rows).1.length
        (by rw [hsv _ _ (List.getElem?_eq_getElem hlt)]; simp)
      omega
    · by_contra hlt
      push Not at hlt
      obtain ⟨r, hr, hv⟩ := (relabel_used rows (s.topo.nElements 0)).2 hlt
      have hsimp : Simplices (k + 1) (relabel rows).2 := by
        have := (hs.wf.get (k := k - 1) (by omega)).2.1
        rw [show k - 1 + 1 = k by omega, hs.wf.top_eq] at this
        exact fun l hl => by have := this l hl; exact ⟨by omega, this.2⟩
      obtain ⟨e, he, hp⟩ := (hs.wf.faces hsimp k 0 (by omega) [s.topo.nElements 0]).2
        ⟨rfl, r, hr, by simpa using hv⟩
      obtain ⟨i, hi, rfl⟩ := List.getElem_of_mem he
      have h1 := hsv i _ (List.getElem?_eq_getElem hi)
      rw [h1] at hp
      have : i = s.topo.nElements 0 := by simpa using hp
      unfold Topo.nElements at this
      omega
  apply List.ext_getElem?
  intro v
  by_cases hv : v < (relabel rows).1.length
  · have hv' : v < (s.topo.elements[0]?.getD []).length := by
      rw [← hns] at hv; exact hv
    obtain ⟨p, e', h1, h2, h3⟩ := hidx v _ (List.getElem?_eq_getElem hv')
    rw [hsv v _ (List.getElem?_eq_getElem hv'), h.vertex hn h2] at h3
    have : p = back rows v := by simpa using h3
    rw [h1, this]
    unfold back
    rw [List.getElem?_eq_getElem hv]; rfl
  · rw [List.getElem?_eq_none (by omega), List.getElem?_eq_none (by omega)]

end Verif
