/-
The levels of a product of cubical topologies.
-/
import Verif.Lemmas.Product

set_option linter.unusedSectionVars false

namespace Verif

open Verif.Model Verif.Spec Verif.Props

variable {uniq : List (List Nat) → List (List Nat)} {n m : Nat} {F G : List (List Nat)} {a b t : Topo}

/-! ### one factor -/

theorem face_subset : ∀ {d k : Nat} {l f : List Nat}, l.length = 2 ^ (k + d) → IsCubeFace d k l f → ∀ v ∈ f, v ∈ l := by
  intro d
  induction d with
  | zero => rintro k l f - rfl v hv; exact hv
  | succ d ih =>
    rintro k l f hl ⟨i, hi, s, hf⟩ v hv
    have hv := ih (side_length hi s l) hf v hv
    obtain ⟨c, hc, rfl⟩ := List.mem_map.1 hv
    exact cubeAt_mem (n := k + d + 1) (by rw [hl]; rfl) (mem_cubeIndices.1 (List.mem_filter.1 hc).1)

theorem exists_point_face : ∀ {d : Nat} {l : List Nat} {v : Nat}, l.length = 2 ^ d → v ∈ l →
    ∃ f, IsCubeFace d 0 l f ∧ v ∈ f := by
  intro d
  induction d with
  | zero => intro l v _ hv; exact ⟨l, rfl, hv⟩
  | succ d ih =>
    intro l v hl hv
    obtain ⟨b, hb, rfl⟩ := exists_cubeAt hl hv
    cases b with
    | nil => simp at hb
    | cons s b =>
      have hmem : cubeAt l (s :: b) ∈ side d 0 s l :=
        List.mem_map.2 ⟨s :: b, List.mem_filter.2 ⟨mem_cubeIndices.2 hb, by simp⟩, rfl⟩
      obtain ⟨f, hf, hvf⟩ := ih (side_length (by omega) s l) hmem
      refine ⟨f, ⟨0, by omega, s, ?_⟩, hvf⟩
      rw [Nat.zero_add]
      exact hf

/-- what a factor of a product has at every level -/
structure FactorLevel (k nv : Nat) (E : List (List Nat)) : Prop where
  cubes : Cubes k E
  distinct : DistinctElements E
  lt : ∀ e ∈ E, ∀ v ∈ e, v < nv

theorem distinct_eq {E : List (List Nat)} (h : DistinctElements E) {e f : List Nat} (he : e ∈ E) (hf : f ∈ E)
    (hp : e.Perm f) : e = f := by
  obtain ⟨i, hi, rfl⟩ := List.getElem_of_mem he
  obtain ⟨j, hj, rfl⟩ := List.getElem_of_mem hf
  have := distinct_index h (List.getElem?_eq_getElem hi) (List.getElem?_eq_getElem hj) hp
  subst this
  rfl

theorem level_cubes (hF : Cubes n F) (wf : CWF n F a) {k : Nat} (hk : k ≤ n) : Cubes k (a.elements[k]?.getD []) := by
  rcases Nat.lt_or_ge k n with hlt | hge
  · exact (wf.get hlt).1
  · have : k = n := by omega
    subst this
    rw [wf.top_eq]
    exact hF

/-- the vertices of the cubes are the numbers below the number of vertices -/
theorem cube_vertices (hu : UniqSpec uniq) (hF : Cubes n F) (h : fromCubes uniq true n F = .ok a) (v : Nat) :
    (∃ l ∈ F, v ∈ l) ↔ v < a.nElements 0 := by
  have wf := fromCubes_wf hu hF h
  obtain ⟨E, hE, hr⟩ := wf.vertices
  have h0 : ∀ v, v < a.nElements 0 ↔ ∃ e ∈ a.elements[0]?.getD [], v ∈ e := by
    intro v
    unfold Topo.nElements
    rw [hE, Option.getD_some, ← List.mem_range, ← hr, List.mem_flatten]
  have hc0 := level_cubes hF wf (k := 0) (by omega)
  rw [h0]
  obtain ⟨h1, h2⟩ := C19_elements_are_faces hu hF h n 0 (by omega)
  constructor
  · rintro ⟨l, hl, hv⟩
    obtain ⟨f, hf, hvf⟩ := exists_point_face (hF l hl).1 hv
    obtain ⟨e, he, σ, hσ⟩ := h2 l hl f hf
    exact ⟨e, he, (hσ.perm (hc0 e he).1).mem_iff.1 hvf⟩
  · rintro ⟨e, he, hv⟩
    obtain ⟨l, hl, f, σ, hf, hσ⟩ := h1 e he
    exact ⟨l, hl, face_subset (by rw [(hF l hl).1, Nat.zero_add]) hf v ((hσ.perm (hc0 e he).1).mem_iff.2 hv)⟩

theorem factor_level (hu : UniqSpec uniq) (hF : Cubes n F) (hd : DistinctElements F) (h : fromCubes uniq true n F = .ok a)
    {k : Nat} (hk : k ≤ n) : FactorLevel k (a.nElements 0) (a.elements[k]?.getD []) := by
  have wf := fromCubes_wf hu hF h
  refine ⟨level_cubes hF wf hk, ?_, ?_⟩
  · rcases Nat.lt_or_ge k n with hlt | hge
    · exact (wf.get hlt).2.2.1
    · have : k = n := by omega
      subst this
      rw [wf.top_eq]
      exact hd
  · intro e he v hv
    obtain ⟨l, hl, f, σ, hf, hσ⟩ := (C19_elements_are_faces hu hF h (n - k) k (by omega)).1 e he
    rw [← cube_vertices hu hF h]
    refine ⟨l, hl, face_subset (by rw [(hF l hl).1]; congr 1; omega) hf v ?_⟩
    exact (hσ.perm (level_cubes hF wf hk e he).1).mem_iff.2 hv

theorem factor_facesAgree (hu : UniqSpec uniq) (hF : Cubes n F) (h : fromCubes uniq true n F = .ok a) : FacesAgree n F := by
  cases n with
  | zero => intro k d h1 h2; omega
  | succ n => exact ((C19_accepts_iff hu hF).1 ⟨a, h⟩).2.1

/-- faces with the same corners, including vertices and the cubes themselves -/
theorem faces_agree_all (hu : UniqSpec uniq) (hF : Cubes n F) (hd : DistinctElements F) (h : fromCubes uniq true n F = .ok a)
    {k d : Nat} (hkd : n = k + d) {l l' f f' : List Nat} (hl : l ∈ F) (hl' : l' ∈ F) (hf : IsCubeFace d k l f)
    (hf' : IsCubeFace d k l' f') (hp : f.Perm f') : ∃ σ, SymmetricCube k f f' σ := by
  have hcf := hf.cube (by rw [(hF l hl).1, hkd]) (hF l hl).2
  cases d with
  | zero =>
    obtain rfl : f = l := hf
    obtain rfl : f' = l' := hf'
    rw [← distinct_eq hd hl hl' hp]
    exact ⟨1, SymmetricCube.refl hcf.1⟩
  | succ d =>
    rcases Nat.eq_zero_or_pos k with rfl | hk
    · have hcf' := hf'.cube (by rw [(hF l' hl').1, hkd]) (hF l' hl').2
      obtain ⟨x, rfl⟩ := List.length_eq_one_iff.1 (by simpa using hcf.1)
      obtain ⟨y, rfl⟩ := List.length_eq_one_iff.1 (by simpa using hcf'.1)
      have : x = y := by simpa using hp
      subst this
      exact ⟨1, SymmetricCube.refl hcf.1⟩
    · exact factor_facesAgree hu hF h k d hk hkd.symm l hl l' hl' f f' hf hf' hp

/-! ### the product -/

theorem mem_productCubes {nv : Nat} (hF : Cubes n F) (hG : Cubes m G) {c : List Nat} :
    c ∈ productCubes nv F G ↔ ∃ l ∈ F, ∃ g ∈ G, c = pairCube nv n m l g := by
  unfold productCubes
  simp only [List.mem_flatMap, List.mem_map]
  constructor
  · rintro ⟨l, hl, g, hg, rfl⟩
    exact ⟨l, hl, g, hg, productCube_eq (hF l hl).1 (hG g hg).1⟩
  · rintro ⟨l, hl, g, hg, rfl⟩
    exact ⟨l, hl, g, hg, productCube_eq (hF l hl).1 (hG g hg).1⟩

theorem productCubes_cubes {nv : Nat} (hF : Cubes n F) (hG : Cubes m G) (hlt : ∀ l ∈ F, ∀ v ∈ l, v < nv) :
    Cubes (n + m) (productCubes nv F G) := by
  intro c hc
  obtain ⟨l, hl, g, hg, rfl⟩ := (mem_productCubes hF hG).1 hc
  exact ⟨pairCube_length _ _, pairCube_nodup (hF l hl).1 (hG g hg).1 (hF l hl).2 (hG g hg).2 (hlt l hl)⟩

theorem productTopology_eq (hu : UniqSpec uniq) (hF : Cubes n F) (hG : Cubes m G) (ha : fromCubes uniq true n F = .ok a)
    (hb : fromCubes uniq true m G = .ok b) :
    productTopology uniq a b = fromCubes uniq true (n + m) (productCubes (a.nElements 0) F G) := by
  have wa := fromCubes_wf hu hF ha
  have wb := fromCubes_wf hu hG hb
  unfold productTopology
  simp only [wa.lenB, wb.lenB, wa.top_eq, wb.top_eq, Option.getD_some]

theorem top_lt (hu : UniqSpec uniq) (hF : Cubes n F) (ha : fromCubes uniq true n F = .ok a) :
    ∀ l ∈ F, ∀ v ∈ l, v < a.nElements 0 :=
  fun l hl v hv => (cube_vertices hu hF ha v).1 ⟨l, hl, hv⟩

theorem product_facesAgree (hu : UniqSpec uniq) (hF : Cubes n F) (hG : Cubes m G) (hdF : DistinctElements F)
    (hdG : DistinctElements G) (ha : fromCubes uniq true n F = .ok a) (hb : fromCubes uniq true m G = .ok b) :
    FacesAgree (n + m) (productCubes (a.nElements 0) F G) := by
  intro k d hk hkd c hc c' hc' f f' hf hf' hp
  obtain ⟨l, hl, g, hg, rfl⟩ := (mem_productCubes hF hG).1 hc
  obtain ⟨l', hl', g', hg', rfl⟩ := (mem_productCubes hF hG).1 hc'
  obtain ⟨d1, k1, d2, k2, f1, f2, h1, h2, h3, h4, h5, h6, rfl⟩ := face_pair hkd.symm hf
  obtain ⟨d1', k1', d2', k2', f1', f2', h1', h2', h3', h4', h5', h6', rfl⟩ := face_pair hkd.symm hf'
  have c1 := h5.cube (by rw [(hF l hl).1, h3]) (hF l hl).2
  have c2 := h6.cube (by rw [(hG g hg).1, h4]) (hG g hg).2
  have c1' := h5'.cube (by rw [(hF l' hl').1, h3']) (hF l' hl').2
  have c2' := h6'.cube (by rw [(hG g' hg').1, h4']) (hG g' hg').2
  have lt1 : ∀ x ∈ f1, x < a.nElements 0 := fun x hx =>
    top_lt hu hF ha l hl x (face_subset (by rw [(hF l hl).1, h3]) h5 x hx)
  have lt1' : ∀ x ∈ f1', x < a.nElements 0 := fun x hx =>
    top_lt hu hF ha l' hl' x (face_subset (by rw [(hF l' hl').1, h3']) h5' x hx)
  obtain ⟨p1, p2⟩ := pairCube_perm c1.1 c2.1 c1'.1 c2'.1 c1.2 c2.2 c1'.2 c2'.2 lt1 lt1' hp
  have hk1 : k1 = k1' := Nat.pow_right_injective (le_refl 2) (by
    simp only
    rw [← c1.1, ← c1'.1, p1.length_eq])
  subst hk1
  obtain rfl : k2 = k2' := by omega
  obtain rfl : d1 = d1' := by omega
  obtain rfl : d2 = d2' := by omega
  obtain ⟨σ, hσ⟩ := faces_agree_all hu hF hdF ha h3 hl hl' h5 h5' p1
  obtain ⟨τ, hτ⟩ := faces_agree_all hu hG hdG hb h4 hg hg' h6 h6' p2
  rw [h2]
  exact ⟨_, symmetric_pair c1.1 c1.2 c2.1 c2.2 lt1 hσ hτ⟩

theorem numbering_lt {ns no s o : Nat} (hs : s < ns) (ho : o < no) : s + o * ns < ns * no := by
  calc s + o * ns < ns + o * ns := by omega
    _ = (o + 1) * ns := by ring
    _ ≤ no * ns := Nat.mul_le_mul_right _ ho
    _ = ns * no := by ring

theorem product_vertices (hu : UniqSpec uniq) (hF : Cubes n F) (hG : Cubes m G) (ha : fromCubes uniq true n F = .ok a)
    (hb : fromCubes uniq true m G = .ok b) (v : Nat) :
    (∃ c ∈ productCubes (a.nElements 0) F G, v ∈ c) ↔ v < a.nElements 0 * b.nElements 0 := by
  constructor
  · rintro ⟨c, hc, hv⟩
    obtain ⟨l, hl, g, hg, rfl⟩ := (mem_productCubes hF hG).1 hc
    obtain ⟨x, hx, y, hy, rfl⟩ := (mem_pairCube (hF l hl).1 (hG g hg).1).1 hv
    exact numbering_lt (top_lt hu hF ha l hl x hx) (top_lt hu hG hb g hg y hy)
  · intro hv
    have hpos : 0 < a.nElements 0 := by
      rcases Nat.eq_zero_or_pos (a.nElements 0) with h | h
      · rw [h, Nat.zero_mul] at hv; omega
      · exact h
    obtain ⟨l, hl, hx⟩ := (cube_vertices hu hF ha (v % a.nElements 0)).2 (Nat.mod_lt _ hpos)
    obtain ⟨g, hg, hy⟩ := (cube_vertices hu hG hb (v / a.nElements 0)).2 (by
      rw [Nat.div_lt_iff_lt_mul hpos, Nat.mul_comm]; exact hv)
    refine ⟨_, (mem_productCubes hF hG).2 ⟨l, hl, g, hg, rfl⟩, (mem_pairCube (hF l hl).1 (hG g hg).1).2
      ⟨_, hx, _, hy, ?_⟩⟩
    rw [Nat.mul_comm]
    exact (Nat.mod_add_div v _).symm

/-! ### signs -/

theorem csign_of_symmetric {k : Nat} {e P : List Nat} {ρ : ℤ} (hP : P.length = 2 ^ k) (hPn : P.Nodup)
    (h : SymmetricCube k P e ρ) (l : List Nat) : csign k e l = ρ * csign k P l := by
  have he : e.length = 2 ^ k := h.length
  have hen := h.nodup hP hPn
  by_cases hl : ∃ σ, SymmetricCube k P l σ
  · obtain ⟨σ, hσ⟩ := hl
    rw [csign_eq hP hPn hσ, csign_eq he hen ((h.symm hP hPn).trans he hen hσ)]
  · rw [csign_none hl, csign_none, mul_zero]
    rintro ⟨σ, hσ⟩
    exact hl ⟨_, h.trans hP hPn hσ⟩

/-- sign between products -/
theorem csign_pair {nv k1 k2 : Nat} {f g h g' : List Nat} (hf : f.length = 2 ^ k1) (hfn : f.Nodup) (hflt : ∀ x ∈ f, x < nv)
    (hg : g.length = 2 ^ k2) (hgn : g.Nodup) (hh : h.length = 2 ^ k1) (hhn : h.Nodup) (hhlt : ∀ x ∈ h, x < nv)
    (hg' : g'.length = 2 ^ k2) (hgn' : g'.Nodup) (s1 : f.Perm h → ∃ σ, SymmetricCube k1 f h σ)
    (s2 : g.Perm g' → ∃ σ, SymmetricCube k2 g g' σ) :
    csign (k1 + k2) (pairCube nv k1 k2 f g) (pairCube nv k1 k2 h g') = csign k1 f h * csign k2 g g' := by
  have hP : (pairCube nv k1 k2 f g).length = 2 ^ (k1 + k2) := pairCube_length _ _
  have hPn := pairCube_nodup (nv := nv) hf hg hfn hgn hflt
  by_cases hp : f.Perm h ∧ g.Perm g'
  · obtain ⟨σ, hσ⟩ := s1 hp.1
    obtain ⟨τ, hτ⟩ := s2 hp.2
    rw [csign_eq hf hfn hσ, csign_eq hg hgn hτ, csign_eq hP hPn (symmetric_pair hf hfn hg hgn hflt hσ hτ)]
  · have h1 : csign k1 f h * csign k2 g g' = 0 := by
      rw [mul_eq_zero]
      by_contra hne
      push Not at hne
      apply hp
      constructor
      · by_contra hnp
        exact hne.1 (csign_none fun ⟨σ, hσ⟩ => hnp (hσ.perm hf).symm)
      · by_contra hnp
        exact hne.2 (csign_none fun ⟨σ, hσ⟩ => hnp (hσ.perm hg).symm)
    rw [h1]
    apply csign_none
    rintro ⟨σ, hσ⟩
    exact hp (pairCube_perm hf hg hh hg' hfn hgn hhn hgn' hflt hhlt (hσ.perm hP).symm)

theorem csign_pair_ne {nv k1 k2 k1' k2' : Nat} {f g h g' : List Nat} (hf : f.length = 2 ^ k1) (hfn : f.Nodup)
    (hflt : ∀ x ∈ f, x < nv) (hg : g.length = 2 ^ k2) (hgn : g.Nodup) (hh : h.length = 2 ^ k1') (hhn : h.Nodup)
    (hhlt : ∀ x ∈ h, x < nv) (hg' : g'.length = 2 ^ k2') (hgn' : g'.Nodup) (hne : k1 ≠ k1') :
    csign (k1 + k2) (pairCube nv k1 k2 f g) (pairCube nv k1' k2' h g') = 0 := by
  apply csign_none
  rintro ⟨σ, hσ⟩
  obtain ⟨p1, -⟩ := pairCube_perm hf hg hh hg' hfn hgn hhn hgn' hflt hhlt (hσ.perm (pairCube_length _ _)).symm
  exact hne (Nat.pow_right_injective (le_refl 2) (by
    simp only
    rw [← hf, ← hh, p1.length_eq]))

end Verif
