/-
Relabelled cubes, and the topology extracted from a selection of cubes.
-/
import Verif.Lemmas.Boundary
import Verif.Model.CubicalBoundary
import Verif.Spec.CubicalBoundary
import Verif.Props.Cubical

set_option linter.unusedSectionVars false

namespace Verif

open Verif.Model Verif.Spec Verif.Props

/-! ### cubes under a map of the vertices -/

theorem cubeAt_map {n : Nat} {l : List Nat} (hl : l.length = 2 ^ n) (φ : Nat → Nat) {b : List Bool} (hb : b.length = n) :
    cubeAt (l.map φ) b = φ (cubeAt l b) := by
  have hlt : ravel b < l.length := by rw [hl, ← hb]; exact ravel_lt b
  unfold cubeAt
  rw [List.getElem?_map, List.getElem?_eq_getElem hlt]
  rfl

theorem side_map {k : Nat} {l : List Nat} (hl : l.length = 2 ^ (k + 1)) (φ : Nat → Nat) (i : Nat) (s : Bool) :
    side k i s (l.map φ) = (side k i s l).map φ := by
  unfold side
  rw [List.map_map]
  apply List.map_congr_left
  intro b hb
  exact cubeAt_map hl φ (mem_cubeIndices.1 (List.mem_filter.1 hb).1)

theorem turn_map {n : Nat} {l : List Nat} (hl : l.length = 2 ^ n) (φ : Nat → Nat) (axes : List Nat) (flips : List Bool) :
    turn n axes flips (l.map φ) = (turn n axes flips l).map φ := by
  unfold turn cubeOf
  rw [List.map_map]
  apply List.map_congr_left
  intro b _
  exact cubeAt_map hl φ (turnIndex_length _ _ _)

theorem SymmetricCube.map {n : Nat} {e l : List Nat} {σ : ℤ} (he : e.length = 2 ^ n) (h : SymmetricCube n e l σ)
    (φ : Nat → Nat) : SymmetricCube n (e.map φ) (l.map φ) σ := by
  obtain ⟨axes, flips, h1, rfl, rfl⟩ := h
  exact ⟨axes, flips, h1, (turn_map he φ _ _).symm, rfl⟩

theorem IsCubeFace.map (φ : Nat → Nat) : ∀ {d k : Nat} {l f : List Nat}, l.length = 2 ^ (k + d) → IsCubeFace d k l f →
    IsCubeFace d k (l.map φ) (f.map φ) := by
  intro d
  induction d with
  | zero => rintro k l f _ rfl; rfl
  | succ d ih =>
    rintro k l f hl ⟨i, hi, s, h⟩
    refine ⟨i, hi, s, ?_⟩
    rw [side_map (k := k + d) hl]
    exact ih (side_length hi s l) h

theorem symmetricCube_map_iff {n : Nat} {e l : List Nat} {σ : ℤ} {φ ψ : Nat → Nat} (he : e.length = 2 ^ n)
    (hee : ∀ x ∈ e, ψ (φ x) = x) (hll : ∀ x ∈ l, ψ (φ x) = x) :
    SymmetricCube n (e.map φ) (l.map φ) σ ↔ SymmetricCube n e l σ := by
  constructor
  · intro h
    have := SymmetricCube.map (by simpa using he) h ψ
    rwa [map_leftInverse hee, map_leftInverse hll] at this
  · intro h
    exact SymmetricCube.map he h φ

theorem sideSign_map_iff {k : Nat} {e l : List Nat} {τ : ℤ} {φ ψ : Nat → Nat} (he : e.length = 2 ^ k)
    (hl : l.length = 2 ^ (k + 1)) (hee : ∀ x ∈ e, ψ (φ x) = x) (hll : ∀ x ∈ l, ψ (φ x) = x) :
    SideSign k (e.map φ) (l.map φ) τ ↔ SideSign k e l τ := by
  have hs : ∀ i s, ∀ x ∈ side k i s l, ψ (φ x) = x := by
    intro i s x hx
    obtain ⟨b, hb, rfl⟩ := List.mem_map.1 hx
    exact hll _ (cubeAt_mem hl (mem_cubeIndices.1 (List.mem_filter.1 hb).1))
  unfold SideSign
  simp only [side_map hl]
  constructor
  · rintro ⟨i, hi, s, σ, h, rfl⟩
    exact ⟨i, hi, s, σ, (symmetricCube_map_iff he hee (hs i s)).1 h, rfl⟩
  · rintro ⟨i, hi, s, σ, h, rfl⟩
    exact ⟨i, hi, s, σ, (symmetricCube_map_iff he hee (hs i s)).2 h, rfl⟩

theorem relabel_cubes {k : Nat} {rows : List (List Nat)} (hs : Cubes k rows) : Cubes k (relabel rows).2 := by
  rw [relabel_rows]
  intro l hl
  obtain ⟨r, hr, rfl⟩ := List.mem_map.1 hl
  refine ⟨by simpa using (hs r hr).1, ?_⟩
  have h0 := map_leftInverse (l := r) (fun x hx => back_fresh rows hr hx)
  have := (hs r hr).2
  rw [← h0] at this
  exact List.Nodup.of_map _ this

/-! ### looking elements up -/

theorem findCorrespondence_spec {T S : List (List (List Nat))} {mapping : List Nat} (hlen : S.length ≤ T.length)
    (bound : ∀ (j : Nat) E, S[j]? = some E → ∀ e ∈ E, ∀ v ∈ e, v < mapping.length)
    (corr : ∀ (j : Nat) E F, S[j]? = some E → T[j]? = some F → ∀ e ∈ E,
      ∃ e' ∈ F, e'.Perm (e.map fun v => mapping[v]?.getD 0)) :
    ∃ idx, findCorrespondence T S mapping = .ok idx ∧ idx.length = S.length ∧
      ∀ (j : Nat) (E F : List (List Nat)), S[j]? = some E → T[j]? = some F → ∃ P, idx[j]? = some P ∧ P.length = E.length ∧
        ∀ (i : Nat) (e : List Nat), E[i]? = some e → ∃ (p : Nat) (e' : List Nat), P[i]? = some p ∧ F[p]? = some e' ∧
          e'.Perm (e.map fun v => mapping[v]?.getD 0) := by
  set bk : Nat → Nat := fun v => mapping[v]?.getD 0 with hbk
  set idxf : List (List Nat) × List (List Nat) → List Nat := fun Cc =>
    Cc.2.map fun e => (Cc.1.map sortRow).idxOf (sortRow (e.map bk)) with hidxf
  refine ⟨(T.zip S).map idxf, ?_, by simp [hlen], ?_⟩
  · unfold findCorrespondence
    apply mapM_ok
    intro Cc hCc
    obtain ⟨j, hj⟩ := List.mem_iff_getElem?.1 hCc
    obtain ⟨h1, h2⟩ := List.getElem?_zip_eq_some.1 hj
    have hb := bound j _ h2
    have hc := corr j _ _ h2 h1
    have hg : Cc.2.mapM (gather mapping) = .ok (Cc.2.map fun e => e.map bk) := by
      apply mapM_ok
      intro e he
      rw [gather_ok (hb e he)]
    rw [hg]
    simp only [bind, Except.bind]
    unfold npiIndices
    rw [mapM_ok _ (fun r => (Cc.1.map sortRow).idxOf r)]
    · rw [hidxf]
      simp only [List.map_map]
      rfl
    · intro r hr
      obtain ⟨r', hr', rfl⟩ := List.mem_map.1 hr
      obtain ⟨e, he, rfl⟩ := List.mem_map.1 hr'
      obtain ⟨e', he', hp⟩ := hc e he
      rw [if_pos]
      rw [← (sortRow_eq_iff _ _).2 hp]
      exact List.mem_map_of_mem he'
  · intro j E F hE hF
    have hz : (T.zip S)[j]? = some (F, E) := List.getElem?_zip_eq_some.2 ⟨hF, hE⟩
    refine ⟨idxf (F, E), by rw [List.getElem?_map, hz]; rfl, by simp [hidxf], ?_⟩
    intro i e hi
    obtain ⟨e', he', hp⟩ := corr j E F hE hF e (List.mem_of_getElem? hi)
    have hkey : sortRow (e.map bk) ∈ F.map sortRow := by
      rw [← (sortRow_eq_iff _ _).2 hp]
      exact List.mem_map_of_mem he'
    have hlt := List.idxOf_lt_length_of_mem hkey
    have hlt' : (F.map sortRow).idxOf (sortRow (e.map bk)) < F.length := by simpa using hlt
    refine ⟨_, _, by simp only [hidxf]; rw [List.getElem?_map, hi]; rfl, List.getElem?_eq_getElem hlt', ?_⟩
    rw [← sortRow_eq_iff]
    have := List.getElem_idxOf hlt
    rw [List.getElem_map] at this
    exact this

/-! ### levels of a cubical topology -/

namespace CWF

variable {n : Nat} {top : List (List Nat)} {t : Topo}

theorem cubes (h : CWF n top t) (htop : Cubes n top) {k : Nat} (hk : k ≤ n) : Cubes k (t.elements[k]?.getD []) := by
  rcases Nat.lt_or_ge k n with hlt | hge
  · exact (h.get hlt).1
  · have : k = n := by omega
    subst this
    rw [h.top_eq]
    exact htop

/-- the faces of stored cubes are stored -/
theorem stored_face (h : CWF n top t) (htop : Cubes n top) (d : Nat) : ∀ (k : Nat), k + d ≤ n →
    ∀ l ∈ t.elements[k + d]?.getD [], ∀ f, IsCubeFace d k l f → ∃ e ∈ t.elements[k]?.getD [], ∃ σ, SymmetricCube k e f σ := by
  induction d with
  | zero =>
    intro k hk l hl f hf
    obtain rfl : f = l := hf
    exact ⟨f, hl, 1, SymmetricCube.refl (h.cubes htop (by omega) f hl).1⟩
  | succ d ih =>
    rintro k hk l hl f ⟨i, hi, s, hf⟩
    obtain ⟨h1, h2, h3, h4, h5⟩ := h.get (k := k + d) (by omega)
    obtain ⟨e, he, σ, hσ⟩ := h4.1 l hl i hi s
    obtain ⟨f', hf', τ, hτ⟩ := IsCubeFace.symmetric (h1 e he).1 (h1 e he).2 hσ hf
    obtain ⟨e', he', ρ, hρ⟩ := ih k (by omega) e he f' hf'
    have hc := h.cubes htop (k := k) (by omega) e' he'
    exact ⟨e', he', _, hρ.trans hc.1 hc.2 hτ⟩

/-- stored vertices are numbered in order -/
theorem point (h : CWF n top t) (hn : 0 < n) {p : Nat} {e : List Nat} (hp : (t.elements[0]?.getD [])[p]? = some e) :
    e = [p] := by
  obtain ⟨E, hE, hfl⟩ := h.vertices
  have hs := (h.get hn).1
  rw [hE, Option.getD_some] at hs hp
  have key : ∀ (E : List (List Nat)) (a : Nat), Cubes 0 E →
      E.flatten = List.range' a E.length → ∀ (p : Nat) e, E[p]? = some e → e = [a + p] := by
    intro E
    induction E with
    | nil => intro a _ _ p e hp; simp at hp
    | cons x E ih =>
      intro a hs hf p e hp
      obtain ⟨v, rfl⟩ : ∃ v, x = [v] := by
        have := (hs x (by simp)).1
        rcases x with _ | ⟨v, _ | ⟨w, r⟩⟩
        · simp at this
        · exact ⟨v, rfl⟩
        · simp at this
      rw [List.flatten_cons, List.length_cons, List.range'_succ, List.singleton_append,
        List.cons.injEq] at hf
      cases p with
      | zero => simp at hp; rw [← hp, hf.1, Nat.add_zero]
      | succ p =>
        have := ih (a + 1) (fun l hl => hs l (by simp [hl])) hf.2 p e (by simpa using hp)
        rw [this]
        congr 1
        omega
  have := key E 0 hs (by rw [hfl, List.range_eq_range']) p e hp
  simpa using this

end CWF

/-! ### the extracted topology -/

/-- what is known about a topology extracted from the `k`-cubes `rows` of a topology -/
structure CSubOK (uniq : List (List Nat) → List (List Nat)) (k : Nat) (t : Topo) (rows : List (List Nat)) (s : Sub) : Prop where
  built : fromCubes uniq true k (relabel rows).2 = .ok s.topo
  wf : CWF k (relabel rows).2 s.topo
  bound : ∀ j ≤ k, ∀ e ∈ s.topo.elements[j]?.getD [], ∀ v ∈ e, v < (relabel rows).1.length
  parent : ∀ j ≤ k, ∀ e ∈ s.topo.elements[j]?.getD [], ∃ e' ∈ t.elements[j]?.getD [],
    ∃ σ, SymmetricCube j e' (e.map (back rows)) σ
  lenIdx : s.parentIdx.length = k + 1
  idx : ∀ j ≤ k, ∃ P, s.parentIdx[j]? = some P ∧ P.length = s.topo.nElements j ∧
    ∀ (i : Nat) (e : List Nat), (s.topo.elements[j]?.getD [])[i]? = some e → ∃ (p : Nat) (e' : List Nat), P[i]? = some p ∧
      (t.elements[j]?.getD [])[p]? = some e' ∧ e'.Perm (e.map (back rows))

theorem subCubes_ok {uniq : List (List Nat) → List (List Nat)} (hu : UniqSpec uniq)
    {n : Nat} {top : List (List Nat)} {t : Topo} (h : CWF n top t) (htop : Cubes n top)
    {k : Nat} (hk : k + 1 ≤ n) (h128 : 1 ≤ k → 2 ^ k < 128) {rows : List (List Nat)}
    (hrows : ∀ r ∈ rows, r ∈ t.elements[k + 1]?.getD []) :
    ∃ s, subCubes uniq (k + 1) t rows = .ok s ∧ CSubOK uniq (k + 1) t rows s := by
  have hlev := h.cubes htop (k := k + 1) (by omega)
  have hsr : Cubes (k + 1) rows := fun r hr => hlev r (hrows r hr)
  have hsn := relabel_cubes hsr
  have hrow : ∀ l ∈ (relabel rows).2, l.map (back rows) ∈ rows := by
    intro l hl
    have : l.map (back rows) ∈ (relabel rows).2.map (fun r => r.map (back rows)) := List.mem_map_of_mem hl
    rwa [relabel_back] at this
  -- faces of the relabelled cubes, in the original numbering
  have hface : ∀ d j, j + d = k + 1 → ∀ l ∈ (relabel rows).2, ∀ f, IsCubeFace d j l f →
      ∃ e ∈ t.elements[j]?.getD [], ∃ σ, SymmetricCube j e (f.map (back rows)) σ := by
    intro d j hj l hl f hf
    have hl' := hrows _ (hrow l hl)
    rw [← hj] at hl'
    exact h.stored_face htop d j (by omega) _ hl' _
      (IsCubeFace.map (back rows) (by rw [hj]; exact (hsn l hl).1) hf)
  have hfb : ∀ d j, j + d = k + 1 → ∀ l ∈ (relabel rows).2, ∀ f, IsCubeFace d j l f → ∀ v ∈ f,
      v < (relabel rows).1.length := by
    intro d
    induction d with
    | zero =>
      rintro j hj l hl f rfl v hv
      exact (relabel_used rows v).1 ⟨f, hl, hv⟩
    | succ d ih =>
      intro j hj l hl f hf v hv
      obtain ⟨g, hg, i, hi, s, rfl⟩ := (isCubeFace_succ d j l f).1 hf
      have hgl := (hg.cube (by rw [show j + 1 + d = k + 1 by omega]; exact (hsn l hl).1) (hsn l hl).2).1
      obtain ⟨b, hb, rfl⟩ := List.mem_map.1 hv
      exact ih (j + 1) (by omega) l hl g hg _ (cubeAt_mem hgl (mem_cubeIndices.1 (List.mem_filter.1 hb).1))
  have hagree : FacesAgree (k + 1) (relabel rows).2 := by
    intro j d hj hjd l hl l' hl' f f' hf hf' hp
    obtain ⟨e, he, σ, hσ⟩ := hface _ j hjd l hl f hf
    obtain ⟨e', he', σ', hσ'⟩ := hface _ j hjd l' hl' f' hf'
    have hc := h.cubes htop (k := j) (by omega)
    have hee : e = e' := by
      obtain ⟨x, hx, rfl⟩ := List.getElem_of_mem he
      obtain ⟨x', hx', rfl⟩ := List.getElem_of_mem he'
      have p1 := (hσ.perm (hc _ he).1).symm
      have p2 := hσ'.perm (hc _ he').1
      have := distinct_index (h.get (k := j) (by omega)).2.2.1 (List.getElem?_eq_getElem hx)
        (List.getElem?_eq_getElem hx') ((p1.trans (hp.map _)).trans p2)
      subst this
      rfl
    subst hee
    have hce := hc e he
    have hfc := (hf.cube (by rw [hjd]; exact (hsn l hl).1) (hsn l hl).2).1
    have hsy := (hσ.symm hce.1 hce.2).trans (by simpa using hfc) (hσ.nodup hce.1 hce.2) hσ'
    refine ⟨_, (symmetricCube_map_iff (ψ := fresh rows) hfc ?_ ?_).1 hsy⟩
    · exact fun x hx => fresh_back rows (hfb _ j hjd l hl f hf x hx)
    · exact fun x hx => fresh_back rows (hfb _ j hjd l' hl' f' hf' x hx)
  obtain ⟨s, hs⟩ := (C19_accepts_iff hu hsn).2 ⟨h128, hagree, _, relabel_used rows⟩
  have wf := fromCubes_wf hu hsn hs
  have hel := fun j (hj : j ≤ k + 1) => (C19_elements_are_faces hu hsn hs (k + 1 - j) j (by omega)).1
  have hcs := fun j (hj : j ≤ k + 1) => wf.cubes hsn hj
  have bound : ∀ j ≤ k + 1, ∀ e ∈ s.elements[j]?.getD [], ∀ v ∈ e, v < (relabel rows).1.length := by
    intro j hj e he v hv
    obtain ⟨l, hl, f, σ, hf, hσ⟩ := hel j hj e he
    exact hfb _ j (by omega) l hl f hf v ((hσ.perm (hcs j hj e he).1).mem_iff.2 hv)
  have parent : ∀ j ≤ k + 1, ∀ e ∈ s.elements[j]?.getD [], ∃ e' ∈ t.elements[j]?.getD [],
      ∃ σ, SymmetricCube j e' (e.map (back rows)) σ := by
    intro j hj e he
    obtain ⟨l, hl, f, σ, hf, hσ⟩ := hel j hj e he
    obtain ⟨e', he', τ, hτ⟩ := hface _ j (by omega) l hl f hf
    have hce := hcs j hj e he
    have hce' := h.cubes htop (k := j) (by omega) e' he'
    have h1 := SymmetricCube.map hσ.length (hσ.symm hce.1 hce.2) (back rows)
    exact ⟨e', he', _, hτ.trans hce'.1 hce'.2 h1⟩
  obtain ⟨idx, h1, h2, h3⟩ := findCorrespondence_spec (T := t.elements) (S := s.elements) (mapping := (relabel rows).1)
    (by rw [wf.lenE, h.lenE]; omega)
    (by
      intro j E hE
      have hj : j ≤ k + 1 := by
        have := (List.getElem?_eq_some_iff.1 hE).1
        rw [wf.lenE] at this
        omega
      have := bound j hj
      rwa [hE] at this)
    (by
      intro j E F hE hF e he
      have hj : j ≤ k + 1 := by
        have := (List.getElem?_eq_some_iff.1 hE).1
        rw [wf.lenE] at this
        omega
      obtain ⟨e', he', σ, hσ⟩ := parent j hj e (by rw [hE]; exact he)
      have hce' := h.cubes htop (k := j) (by omega) e' he'
      rw [hF] at he'
      exact ⟨e', he', (hσ.perm hce'.1).symm⟩)
  refine ⟨⟨s, idx⟩, ?_, hs, wf, bound, parent, by rw [h2, wf.lenE], ?_⟩
  · unfold subCubes
    simp only [hs, bind, Except.bind, h1]
  · intro j hj
    have hjt : j < t.elements.length := by rw [h.lenE]; omega
    have hjs : j < s.elements.length := by rw [wf.lenE]; omega
    obtain ⟨P, hP, hlen, hi⟩ := h3 j _ _ (List.getElem?_eq_getElem hjs) (List.getElem?_eq_getElem hjt)
    refine ⟨P, hP, by rw [hlen, Topo.nElements, List.getElem?_eq_getElem hjs]; rfl, ?_⟩
    intro i e he
    rw [List.getElem?_eq_getElem hjs, Option.getD_some] at he
    rw [List.getElem?_eq_getElem hjt, Option.getD_some]
    exact hi i e he

end Verif
