/-
C21: products of cubical topologies.
-/
import Verif.Lemmas.ProductChain

set_option linter.unusedSectionVars false

namespace Verif.Props

open Verif.Model Verif.Spec

variable {uniq : List (List Nat) → List (List Nat)} {n m : Nat} {F G : List (List Nat)} {a b t : Topo}

/-! ### vertices -/

/-- C21: every number below the product of the numbers of vertices is the number of exactly one pair of vertices. -/
theorem C21_numbering (ns no : Nat) :
    (∀ s < ns, ∀ o < no, s + o * ns < ns * no) ∧
    (∀ v < ns * no, ∃! p : Nat × Nat, p.1 < ns ∧ p.2 < no ∧ p.1 + p.2 * ns = v) := by
  refine ⟨fun s hs o ho => numbering_lt hs ho, fun v hv => ?_⟩
  have hpos : 0 < ns := by
    rcases Nat.eq_zero_or_pos ns with h | h
    · rw [h, Nat.zero_mul] at hv; omega
    · exact h
  refine ⟨(v % ns, v / ns), ⟨Nat.mod_lt _ hpos, ?_, ?_⟩, ?_⟩
  · simp only
    rw [Nat.div_lt_iff_lt_mul hpos, Nat.mul_comm]; exact hv
  · simp only
    rw [Nat.mul_comm]
    exact Nat.mod_add_div v _
  · rintro ⟨s, o⟩ ⟨h1, -, h3⟩
    have := decode h1 (Nat.mod_lt v hpos) (h3.trans (by rw [Nat.mul_comm]; exact (Nat.mod_add_div v ns).symm :
      v = v % ns + v / ns * ns))
    exact Prod.ext this.1 this.2

/-- C21: the vertices of the product complex are the pairs of vertices, at the number of the pair. -/
theorem C21_vertices {K : Type} (V W : List (List K)) :
    (productVertices V W).length = V.length * W.length ∧
    ∀ (s o : Nat) (x y : List K), V[s]? = some x → W[o]? = some y →
      (productVertices V W)[s + o * V.length]? = some (x ++ y) := by
  constructor
  · simp [productVertices, gridIndices_length, Nat.mul_comm]
  · intro s o x y hx hy
    have hs := (List.getElem?_eq_some_iff.1 hx).1
    have ho := (List.getElem?_eq_some_iff.1 hy).1
    have hnum : num [W.length, V.length] [o, s] = s + o * V.length := by
      simp [num, strides]
      omega
    unfold productVertices
    rw [List.getElem?_map, ← hnum, gridIndices_num (List.Forall₂.cons ho (List.Forall₂.cons hs List.Forall₂.nil))]
    simp [hx, hy]

/-! ### cubes -/

/-- C21: one cube for every pair of cubes; its corners are the pairs of corners, the axes of the first factor coming
first. -/
theorem C21_cubes (hu : UniqSpec uniq) (hF : Cubes n F) (hG : Cubes m G) (ha : fromCubes uniq true n F = .ok a)
    (hb : fromCubes uniq true m G = .ok b) (h : productTopology uniq a b = .ok t) :
    ∃ P, t.elements[n + m]? = some P ∧ P.length = F.length * G.length ∧
      ∀ (i j : Nat) (l g : List Nat), F[i]? = some l → G[j]? = some g →
        ∃ c, P[i * G.length + j]? = some c ∧ ∀ b1 b2 : List Bool, b1.length = n → b2.length = m →
          cubeAt c (b1 ++ b2) = cubeAt l b1 + cubeAt g b2 * a.nElements 0 := by
  rw [productTopology_eq hu hF hG ha hb] at h
  have hP := productCubes_cubes (nv := a.nElements 0) hF hG (top_lt hu hF ha)
  refine ⟨_, (C19_levels hu hP h).2.2.2, by simp [productCubes, List.length_flatMap], ?_⟩
  intro i j l g hi hj
  refine ⟨pairCube (a.nElements 0) n m l g, ?_, fun b1 b2 h1 h2 => cubeAt_pairCube h1 h2⟩
  unfold productCubes
  rw [flatMap_getElem (m := G.length) (fun x => by simp) _ _ _ (List.getElem?_eq_some_iff.1 hj).1, hi]
  simp only [Option.bind_some, List.getElem?_map, hj, Option.map_some]
  rw [productCube_eq (hF l (List.mem_of_getElem? hi)).1 (hG g (List.mem_of_getElem? hj)).1]

/-- C21: the position of a corner of a cube of the product is made of the positions of the corners of the factors. -/
theorem C21_positions {K : Type} (hu : UniqSpec uniq) (hF : Cubes n F) (hG : Cubes m G)
    (ha : fromCubes uniq true n F = .ok a) (hb : fromCubes uniq true m G = .ok b)
    (h : productTopology uniq a b = .ok t) (V W : List (List K)) (hV : V.length = a.nElements 0)
    (hW : W.length = b.nElements 0) (i j : Nat) (l g : List Nat) (hl : F[i]? = some l) (hg : G[j]? = some g) :
    ∃ c, (t.elements[n + m]?.getD [])[i * G.length + j]? = some c ∧
      ∀ b1 b2 : List Bool, b1.length = n → b2.length = m → ∃ x y, V[cubeAt l b1]? = some x ∧ W[cubeAt g b2]? = some y ∧
        (productVertices V W)[cubeAt c (b1 ++ b2)]? = some (x ++ y) := by
  obtain ⟨P, h1, -, h3⟩ := C21_cubes hu hF hG ha hb h
  obtain ⟨c, h4, h5⟩ := h3 i j l g hl hg
  rw [h1, Option.getD_some]
  refine ⟨c, h4, fun b1 b2 hb1 hb2 => ?_⟩
  have hlm := List.mem_of_getElem? hl
  have hgm := List.mem_of_getElem? hg
  have e1 := List.getElem?_eq_getElem (l := V) (i := cubeAt l b1) (by
    rw [hV]; exact top_lt hu hF ha l hlm _ (cubeAt_mem (hF l hlm).1 hb1))
  have e2 := List.getElem?_eq_getElem (l := W) (i := cubeAt g b2) (by
    rw [hW]; exact top_lt hu hG hb g hgm _ (cubeAt_mem (hG g hgm).1 hb2))
  refine ⟨_, _, e1, e2, ?_⟩
  have e3 := (C21_vertices V W).2 _ _ _ _ e1 e2
  rw [h5 b1 b2 hb1 hb2]
  simp only [hV] at e3
  exact e3

/-- C21: the product of two accepted topologies, each without two cubes on the same corners, is accepted, as long as
the faces of its cubes have less than 128 corners. -/
theorem C21_accepted (hu : UniqSpec uniq) (hF : Cubes n F) (hG : Cubes m G) (hdF : DistinctElements F)
    (hdG : DistinctElements G) (ha : fromCubes uniq true n F = .ok a) (hb : fromCubes uniq true m G = .ok b)
    (h1 : 1 ≤ n + m) (h7 : n + m ≤ 7) : ∃ t, productTopology uniq a b = .ok t := by
  rw [productTopology_eq hu hF hG ha hb]
  have hP := productCubes_cubes (nv := a.nElements 0) hF hG (top_lt hu hF ha)
  have hA := product_facesAgree hu hF hG hdF hdG ha hb
  have hv := product_vertices hu hF hG ha hb
  obtain ⟨k, hk⟩ : ∃ k, n + m = k + 1 := ⟨n + m - 1, by omega⟩
  rw [hk] at hP hA ⊢
  rw [C19_accepts_iff hu hP]
  refine ⟨fun _ => ?_, hA, _, hv⟩
  calc 2 ^ k ≤ 2 ^ 6 := Nat.pow_le_pow_right (by omega) (by omega)
    _ < 128 := by norm_num

/-- C21: without that condition the product can fail: two quads on the same four corners in different arrangements
make a topology, their product with an edge is rejected. -/
theorem C21_same_corners : ∃ a b, fromCubes List.dedup true 2 [[0, 1, 2, 3], [0, 1, 3, 2]] = .ok a ∧
    fromCubes List.dedup true 1 [[0, 1]] = .ok b ∧ productTopology List.dedup a b = .error .valueError := by
  have h : ((do
    let a ← fromCubes List.dedup true 2 [[0, 1, 2, 3], [0, 1, 3, 2]]
    let b ← fromCubes List.dedup true 1 [[0, 1]]
    .ok (productTopology List.dedup a b)) : Except PyErr (Except PyErr Topo)) = .ok (.error .valueError) := by
    decide +kernel
  cases ha : fromCubes List.dedup true 2 [[0, 1, 2, 3], [0, 1, 3, 2]] with
  | error e => rw [ha] at h; simp [bind, Except.bind] at h
  | ok a =>
    cases hb : fromCubes List.dedup true 1 [[0, 1]] with
    | error e => rw [ha, hb] at h; simp [bind, Except.bind] at h
    | ok b =>
      rw [ha, hb] at h
      simp only [bind, Except.bind, Except.ok.injEq] at h
      exact ⟨a, b, rfl, rfl, h⟩

/-! ### elements of all dimensions -/

/-- C21: the elements of the product are the products of the elements of the factors, up to the order in which their
corners are listed. -/
theorem C21_elements (hu : UniqSpec uniq) (hF : Cubes n F) (hG : Cubes m G) (ha : fromCubes uniq true n F = .ok a)
    (hb : fromCubes uniq true m G = .ok b) (h : productTopology uniq a b = .ok t) (k : Nat) (hk : k ≤ n + m) :
    (∀ e ∈ t.elements[k]?.getD [], ∃ k1 ≤ n, ∃ k2 ≤ m, k1 + k2 = k ∧ ∃ f ∈ a.elements[k1]?.getD [],
      ∃ g ∈ b.elements[k2]?.getD [], ∃ ρ, SymmetricCube k (pairCube (a.nElements 0) k1 k2 f g) e ρ) ∧
    (∀ k1 ≤ n, ∀ k2 ≤ m, k1 + k2 = k → ∀ f ∈ a.elements[k1]?.getD [], ∀ g ∈ b.elements[k2]?.getD [],
      ∃ e ∈ t.elements[k]?.getD [], ∃ ρ, SymmetricCube k (pairCube (a.nElements 0) k1 k2 f g) e ρ) := by
  rw [productTopology_eq hu hF hG ha hb] at h
  have hP := productCubes_cubes (nv := a.nElements 0) hF hG (top_lt hu hF ha)
  have wa := fromCubes_wf hu hF ha
  have wb := fromCubes_wf hu hG hb
  have wt := fromCubes_wf hu hP h
  obtain ⟨g1, g2⟩ := C19_elements_are_faces hu hP h (n + m - k) k (by omega)
  have hE := level_cubes hP wt hk
  have hlt : ∀ k1 d1, n = k1 + d1 → ∀ f ∈ a.elements[k1]?.getD [], ∀ x ∈ f, x < a.nElements 0 := by
    intro k1 d1 hkd f hf x hx
    obtain ⟨l, hl, f', σ, hf', hσ⟩ := (C19_elements_are_faces hu hF ha d1 k1 hkd.symm).1 f hf
    exact top_lt hu hF ha l hl x (face_subset (by rw [(hF l hl).1, hkd]) hf' x
      ((hσ.perm (level_cubes hF wa (by omega) f hf).1).mem_iff.2 hx))
  constructor
  · intro e he
    obtain ⟨c, hc, q, σ, hq, hσ⟩ := g1 e he
    obtain ⟨l, hl, g, hg, rfl⟩ := (mem_productCubes hF hG).1 hc
    obtain ⟨d1, k1, d2, k2, f1, f2, h1, h2, h3, h4, h5, h6, rfl⟩ := face_pair (by omega) hq
    obtain ⟨f, hf, σ1, hσ1⟩ := (C19_elements_are_faces hu hF ha d1 k1 h3.symm).2 l hl f1 h5
    obtain ⟨g, hg, σ2, hσ2⟩ := (C19_elements_are_faces hu hG hb d2 k2 h4.symm).2 g hg f2 h6
    have cf := level_cubes hF wa (k := k1) (by omega) f hf
    have cg := level_cubes hG wb (k := k2) (by omega) g hg
    have ltf := hlt k1 d1 h3 f hf
    refine ⟨k1, by omega, k2, by omega, h2.symm, f, hf, g, hg, σ1 * σ2 * σ, ?_⟩
    subst h2
    exact (symmetric_pair cf.1 cf.2 cg.1 cg.2 ltf hσ1 hσ2).trans (pairCube_length _ _)
      (pairCube_nodup cf.1 cg.1 cf.2 cg.2 ltf) (hσ.symm (hE e he).1 (hE e he).2)
  · intro k1 hk1 k2 hk2 hk f hf g hg
    obtain ⟨l, hl, f1, σ1, h1, hσ1⟩ := (C19_elements_are_faces hu hF ha (n - k1) k1 (by omega)).1 f hf
    obtain ⟨q, hq, g1, σ2, h2, hσ2⟩ := (C19_elements_are_faces hu hG hb (m - k2) k2 (by omega)).1 g hg
    have cf := level_cubes hF wa hk1 f hf
    have cg := level_cubes hG wb hk2 g hg
    have ltf := hlt k1 (n - k1) (by omega) f hf
    have hface := face_pair_both (nv := a.nElements 0) h1 h2
    rw [show k1 + (n - k1) = n by omega, show k2 + (m - k2) = m by omega, hk,
      show n - k1 + (m - k2) = n + m - k by omega] at hface
    obtain ⟨e, he, σ, hσ⟩ := g2 _ ((mem_productCubes hF hG).2 ⟨l, hl, q, hq, rfl⟩) _ hface
    refine ⟨e, he, σ1 * σ2 * σ, ?_⟩
    subst hk
    exact (symmetric_pair cf.1 cf.2 cg.1 cg.2 ltf hσ1 hσ2).trans (pairCube_length _ _)
      (pairCube_nodup cf.1 cg.1 cf.2 cg.2 ltf) (hσ.symm (hE e he).1 (hE e he).2)

theorem nElements_zero_of_lt (hu : UniqSpec uniq) (hF : Cubes n F) (ha : fromCubes uniq true n F = .ok a) {k : Nat}
    (hk : n < k) : a.elements[k]?.getD [] = [] := by
  rw [List.getElem?_eq_none (by rw [(fromCubes_wf hu hF ha).lenE]; omega)]
  rfl

/-- C21: the numbers of elements of the product. -/
theorem C21_counts (hu : UniqSpec uniq) (hF : Cubes n F) (hG : Cubes m G) (hdF : DistinctElements F)
    (hdG : DistinctElements G) (ha : fromCubes uniq true n F = .ok a) (hb : fromCubes uniq true m G = .ok b)
    (h : productTopology uniq a b = .ok t) (k : Nat) (hk : k ≤ n + m) :
    t.nElements k = ∑ i ∈ Finset.range (k + 1), a.nElements i * b.nElements (k - i) := by
  obtain ⟨h1, h2⟩ := C21_elements hu hF hG ha hb h k hk
  have hA : ∀ i ≤ n, FactorLevel i (a.nElements 0) (a.elements[i]?.getD []) := fun i hi => factor_level hu hF hdF ha hi
  have hB : ∀ i ≤ m, FactorLevel i (b.nElements 0) (b.elements[i]?.getD []) := fun i hi => factor_level hu hG hdG hb hi
  have h' := h
  rw [productTopology_eq hu hF hG ha hb] at h'
  have hP := productCubes_cubes (nv := a.nElements 0) hF hG (top_lt hu hF ha)
  -- dimensions of the factors of a listed pair
  have hdim : ∀ i f g, f ∈ a.elements[i]?.getD [] → g ∈ b.elements[k - i]?.getD [] → i ≤ n ∧ k - i ≤ m := by
    intro i f g hf hg
    constructor
    · by_contra hlt
      rw [nElements_zero_of_lt hu hF ha (by omega)] at hf
      simp at hf
    · by_contra hlt
      rw [nElements_zero_of_lt hu hG hb (by omega)] at hg
      simp at hg
  -- equal products
  have hinj : ∀ i j f g f' g', f ∈ a.elements[i]?.getD [] → g ∈ b.elements[k - i]?.getD [] →
      f' ∈ a.elements[j]?.getD [] → g' ∈ b.elements[k - j]?.getD [] →
      (pairCube (a.nElements 0) i (k - i) f g).Perm (pairCube (a.nElements 0) j (k - j) f' g') → i = j ∧ f = f' ∧ g = g' := by
    intro i j f g f' g' hf hg hf' hg' hp
    obtain ⟨d1, d2⟩ := hdim i f g hf hg
    obtain ⟨d1', d2'⟩ := hdim j f' g' hf' hg'
    have cf := (hA i d1).cubes f hf
    have cg := (hB _ d2).cubes g hg
    have cf' := (hA j d1').cubes f' hf'
    have cg' := (hB _ d2').cubes g' hg'
    obtain ⟨p1, p2⟩ := pairCube_perm cf.1 cg.1 cf'.1 cg'.1 cf.2 cg.2 cf'.2 cg'.2 ((hA i d1).lt f hf) ((hA j d1').lt f' hf') hp
    have hij : i = j := Nat.pow_right_injective (le_refl 2) (by
      simp only
      rw [← cf.1, ← cf'.1, p1.length_eq])
    subst hij
    exact ⟨rfl, distinct_eq (hA i d1).distinct hf hf' p1, distinct_eq (hB _ d2).distinct hg hg' p2⟩
  set L : List (List Nat) := (List.range (k + 1)).flatMap fun i => (a.elements[i]?.getD []).flatMap fun f =>
    (b.elements[k - i]?.getD []).map fun g => sortRow (pairCube (a.nElements 0) i (k - i) f g) with hL
  have hmemL : ∀ s, s ∈ L ↔ ∃ i < k + 1, ∃ f ∈ a.elements[i]?.getD [], ∃ g ∈ b.elements[k - i]?.getD [],
      sortRow (pairCube (a.nElements 0) i (k - i) f g) = s := by
    intro s
    simp [hL]
  have hnodupL : L.Nodup := by
    rw [hL, List.nodup_flatMap]
    have hinA : ∀ i : Nat, (a.elements[i]?.getD []).Nodup := by
      intro i
      rcases Nat.lt_or_ge n i with hi | hi
      · rw [nElements_zero_of_lt hu hF ha hi]; simp
      · exact List.Pairwise.imp (fun {x y} hab (he : x = y) => hab (he ▸ List.Perm.refl _)) (hA i hi).distinct
    have hinB : ∀ i : Nat, (b.elements[i]?.getD []).Nodup := by
      intro i
      rcases Nat.lt_or_ge m i with hi | hi
      · rw [nElements_zero_of_lt hu hG hb hi]; simp
      · exact List.Pairwise.imp (fun {x y} hab (he : x = y) => hab (he ▸ List.Perm.refl _)) (hB i hi).distinct
    constructor
    · intro i _
      rw [List.nodup_flatMap]
      constructor
      · intro f hf
        refine List.Nodup.map_on ?_ (hinB _)
        intro g hg g' hg' he
        exact (hinj i i f g f g' hf hg hf hg' ((sortRow_eq_iff _ _).1 he)).2.2
      · refine List.Pairwise.imp_of_mem ?_ (hinA i)
        intro f f' hf hf' hne s hs hs'
        obtain ⟨g, hg, rfl⟩ := List.mem_map.1 hs
        obtain ⟨g', hg', he⟩ := List.mem_map.1 hs'
        exact hne (hinj i i f g f' g' hf hg hf' hg' ((sortRow_eq_iff _ _).1 he.symm)).2.1
    · refine List.Pairwise.imp_of_mem ?_ List.nodup_range
      intro i j _ _ hij s hs hs'
      obtain ⟨f, hf, hs⟩ := List.mem_flatMap.1 hs
      obtain ⟨g, hg, rfl⟩ := List.mem_map.1 hs
      obtain ⟨f', hf', hs'⟩ := List.mem_flatMap.1 hs'
      obtain ⟨g', hg', he⟩ := List.mem_map.1 hs'
      exact hij (hinj i j f g f' g' hf hg hf' hg' ((sortRow_eq_iff _ _).1 he.symm)).1
  have hPd : DistinctElements (t.elements[k]?.getD []) := by
    have wt := fromCubes_wf hu hP h'
    rcases Nat.lt_or_ge k (n + m) with hlt | hge
    · exact (wt.get hlt).2.2.1
    · obtain rfl : k = n + m := by omega
      rw [wt.top_eq, Option.getD_some]
      unfold productCubes
      rw [DistinctElements, List.pairwise_flatMap]
      have tA := fromCubes_wf hu hF ha
      have tB := fromCubes_wf hu hG hb
      have key : ∀ l ∈ F, ∀ l' ∈ F, ∀ g ∈ G, ∀ g' ∈ G,
          (productCube (a.nElements 0) l g).Perm (productCube (a.nElements 0) l' g') → l.Perm l' ∧ g.Perm g' := by
        intro l hl l' hl' g hg g' hg' hp
        rw [productCube_eq (hF l hl).1 (hG g hg).1, productCube_eq (hF l' hl').1 (hG g' hg').1] at hp
        exact pairCube_perm (hF l hl).1 (hG g hg).1 (hF l' hl').1 (hG g' hg').1 (hF l hl).2 (hG g hg).2 (hF l' hl').2
          (hG g' hg').2 (top_lt hu hF ha l hl) (top_lt hu hF ha l' hl') hp
      constructor
      · intro l hl
        rw [List.pairwise_map]
        refine List.Pairwise.imp_of_mem ?_ hdG
        intro g g' hg hg' hne hp
        exact hne (key l hl l hl g hg g' hg' hp).2
      · refine List.Pairwise.imp_of_mem ?_ hdF
        intro l l' hl hl' hne c hc c' hc' hp
        obtain ⟨g, hg, rfl⟩ := List.mem_map.1 hc
        obtain ⟨g', hg', rfl⟩ := List.mem_map.1 hc'
        exact hne (key l hl l' hl' g hg g' hg' hp).1
  have hperm : ((t.elements[k]?.getD []).map sortRow).Perm L := by
    rw [List.perm_ext_iff_of_nodup ?_ hnodupL]
    · intro s
      rw [hmemL]
      constructor
      · intro hs
        obtain ⟨e, he, rfl⟩ := List.mem_map.1 hs
        obtain ⟨k1, hk1, k2, hk2, hkk, f, hf, g, hg, ρ, hρ⟩ := h1 e he
        obtain rfl : k2 = k - k1 := by omega
        refine ⟨k1, by omega, f, hf, g, hg, ?_⟩
        rw [sortRow_eq_iff]
        exact (hρ.perm (by rw [pairCube_length, hkk])).symm
      · rintro ⟨i, hi, f, hf, g, hg, rfl⟩
        obtain ⟨d1, d2⟩ := hdim i f g hf hg
        obtain ⟨e, he, ρ, hρ⟩ := h2 i d1 (k - i) d2 (by omega) f hf g hg
        refine List.mem_map.2 ⟨e, he, ?_⟩
        rw [sortRow_eq_iff]
        exact hρ.perm (by rw [pairCube_length]; congr 1; omega)
    · rw [List.Nodup, List.pairwise_map]
      exact hPd.imp fun hab he => hab ((sortRow_eq_iff _ _).1 he)
  have hlen := hperm.length_eq
  rw [List.length_map] at hlen
  unfold Topo.nElements
  rw [hlen, hL, List.length_flatMap]
  have : ∀ i : Nat, ((a.elements[i]?.getD []).flatMap fun f => (b.elements[k - i]?.getD []).map fun g =>
      sortRow (pairCube (a.nElements 0) i (k - i) f g)).length =
      (a.elements[i]?.getD []).length * (b.elements[k - i]?.getD []).length := by
    intro i
    simp [List.length_flatMap]
  simp only [this]
  rw [← List.sum_toFinset _ List.nodup_range, List.toFinset_range]

/-! ### boundaries -/

/-- C21: the boundary of a product: an entry between two products is the entry of the first factor if the second
is the same, the entry of the second factor times `(-1)^k1` if the first is the same, and zero otherwise. Stored
elements may list their corners in another order; `ρ` and `ρ'` are the signs of these reorderings. -/
theorem C21_leibniz (hu : UniqSpec uniq) (hF : Cubes n F) (hG : Cubes m G) (hdF : DistinctElements F)
    (hdG : DistinctElements G) (ha : fromCubes uniq true n F = .ok a) (hb : fromCubes uniq true m G = .ok b)
    (h : productTopology uniq a b = .ok t) {k k1 k2 k1' k2' : Nat} (hk : k1 + k2 = k) (hk' : k1' + k2' = k + 1)
    (h1 : k1 ≤ n) (h2 : k2 ≤ m) (h1' : k1' ≤ n) (h2' : k2' ≤ m) {x1 x2 y1 y2 i j : Nat} {f g f' g' e e' : List Nat}
    {ρ ρ' : ℤ} (hx1 : (a.elements[k1]?.getD [])[x1]? = some f) (hx2 : (b.elements[k2]?.getD [])[x2]? = some g)
    (hy1 : (a.elements[k1']?.getD [])[y1]? = some f') (hy2 : (b.elements[k2']?.getD [])[y2]? = some g')
    (hi : (t.elements[k]?.getD [])[i]? = some e) (hj : (t.elements[k + 1]?.getD [])[j]? = some e')
    (hρ : SymmetricCube k (pairCube (a.nElements 0) k1 k2 f g) e ρ)
    (hρ' : SymmetricCube (k + 1) (pairCube (a.nElements 0) k1' k2' f' g') e' ρ') :
    (t.matrix k).entry i j = ρ * ρ' * (
      if k1' = k1 + 1 then if x2 = y2 then (a.matrix k1).entry x1 y1 else 0
      else if k2' = k2 + 1 then if x1 = y1 then (-1) ^ k1 * (b.matrix k2).entry x2 y2 else 0
      else 0) := by
  have hA : ∀ i ≤ n, FactorLevel i (a.nElements 0) (a.elements[i]?.getD []) := fun i hi => factor_level hu hF hdF ha hi
  have hB : ∀ i ≤ m, FactorLevel i (b.nElements 0) (b.elements[i]?.getD []) := fun i hi => factor_level hu hG hdG hb hi
  have h' := h
  rw [productTopology_eq hu hF hG ha hb] at h'
  have hP := productCubes_cubes (nv := a.nElements 0) hF hG (top_lt hu hF ha)
  have wt := fromCubes_wf hu hP h'
  have wa := fromCubes_wf hu hF ha
  have wb := fromCubes_wf hu hG hb
  have lf := (hA k1 h1)
  have lg := (hB k2 h2)
  have lf' := (hA k1' h1')
  have lg' := (hB k2' h2')
  have mf := List.mem_of_getElem? hx1
  have mg := List.mem_of_getElem? hx2
  have mf' := List.mem_of_getElem? hy1
  have mg' := List.mem_of_getElem? hy2
  have cf := lf.cubes f mf
  have cg := lg.cubes g mg
  have cf' := lf'.cubes f' mf'
  have cg' := lg'.cubes g' mg'
  have ltf := lf.lt f mf
  have ltf' := lf'.lt f' mf'
  have hPl : (pairCube (a.nElements 0) k1 k2 f g).length = 2 ^ k := by rw [pairCube_length, hk]
  have hPn := pairCube_nodup (nv := a.nElements 0) cf.1 cg.1 cf.2 cg.2 ltf
  have hPl' : (pairCube (a.nElements 0) k1' k2' f' g').length = 2 ^ (k + 1) := by rw [pairCube_length, hk']
  obtain ⟨hil, -⟩ := List.getElem?_eq_some_iff.1 hi
  obtain ⟨hjl, -⟩ := List.getElem?_eq_some_iff.1 hj
  have hent := wt.entry (k := k) (by omega) (i := i) (j := j) hil hjl
  rw [hi, hj, Option.getD_some, Option.getD_some] at hent
  have e1 : ccob k (csign k e) e' =
      ρ * ρ' * ccob k (csign k (pairCube (a.nElements 0) k1 k2 f g)) (pairCube (a.nElements 0) k1' k2' f' g') := by
    have : csign k e = fun l => ρ * csign k (pairCube (a.nElements 0) k1 k2 f g) l :=
      funext fun l => csign_of_symmetric hPl hPn hρ l
    have h3 : ccob k (csign k e) e' = ρ * ccob k (csign k (pairCube (a.nElements 0) k1 k2 f g)) e' := by
      rw [this]
      unfold ccob sideDiff
      rw [Finset.mul_sum]
      exact Finset.sum_congr rfl fun i _ => by ring
    rw [h3, ((calt_csign hPl hPn).ccob).symmetric hPl' hρ']
    ring
  rw [hent, e1, ← mul_neg]
  congr 1
  have hone : ∀ {k : Nat} {nv : Nat} {E : List (List Nat)} {x y : Nat} {u v : List Nat}, FactorLevel k nv E → E[x]? = some u →
      E[y]? = some v → csign k u v = if x = y then 1 else 0 := by
    intro k nv E x y u v hE hx hy
    rw [csign_other hE.cubes hE.distinct hx hy (SymmetricCube.refl (hE.cubes v (List.mem_of_getElem? hy)).1)]
    simp only [eq_comm]
  have hsame : ∀ {k : Nat} {nv : Nat} {E : List (List Nat)} {u v : List Nat}, FactorLevel k nv E → u ∈ E → v ∈ E →
      u.Perm v → ∃ σ, SymmetricCube k u v σ := by
    intro k nv E u v hE hu hv hp
    rw [distinct_eq hE.distinct hu hv hp]
    exact ⟨1, SymmetricCube.refl (hE.cubes v hv).1⟩
  by_cases c1 : k1' = k1 + 1
  · subst c1
    obtain rfl : k2' = k2 := by omega
    subst hk
    obtain ⟨-, -, -, a4, -⟩ := wa.get (k := k1) (by omega)
    rw [if_pos rfl, ccob_pair_left cf.1 cf.2 ltf cg.1 cg.2 cf'.1 cf'.2 ltf' cg'.1 cg'.2
      (fun i hi s hp => stored_side lf.cubes lf.distinct a4 mf mf' i hi s hp) (hsame lg mg mg'), hone lg hx2 hy2]
    have := wa.entry (k := k1) (by omega) (i := x1) (j := y1) (List.getElem?_eq_some_iff.1 hx1).1
      (List.getElem?_eq_some_iff.1 hy1).1
    rw [hx1, hy1, Option.getD_some, Option.getD_some] at this
    rw [this]
    split <;> ring
  · rw [if_neg c1]
    by_cases c2 : k2' = k2 + 1
    · subst c2
      obtain rfl : k1' = k1 := by omega
      subst hk
      obtain ⟨-, -, -, b4, -⟩ := wb.get (k := k2) (by omega)
      rw [if_pos rfl, ccob_pair_right cf.1 cf.2 ltf cg.1 cg.2 cf'.1 cf'.2 ltf' cg'.1 cg'.2 (hsame lf mf mf')
        (fun i hi s hp => stored_side lg.cubes lg.distinct b4 mg mg' i hi s hp), hone lf hx1 hy1]
      have := wb.entry (k := k2) (by omega) (i := x2) (j := y2) (List.getElem?_eq_some_iff.1 hx2).1
        (List.getElem?_eq_some_iff.1 hy2).1
      rw [hx2, hy2, Option.getD_some, Option.getD_some] at this
      rw [this]
      split <;> ring
    · rw [if_neg c2, ccob_pair_other hk hk' c1 c2 cf.1 cf.2 ltf cg.1 cg.2 cf'.1 cf'.2 ltf' cg'.1 cg'.2, neg_zero]

/-- C21: the Euler characteristic of the product is the product of the Euler characteristics. -/
theorem C21_euler (hu : UniqSpec uniq) (hF : Cubes n F) (hG : Cubes m G) (hdF : DistinctElements F)
    (hdG : DistinctElements G) (ha : fromCubes uniq true n F = .ok a) (hb : fromCubes uniq true m G = .ok b)
    (h : productTopology uniq a b = .ok t) :
    ∑ k ∈ Finset.range (n + m + 1), (-1 : ℤ) ^ k * t.nElements k =
      (∑ k ∈ Finset.range (n + 1), (-1 : ℤ) ^ k * a.nElements k) *
      (∑ k ∈ Finset.range (m + 1), (-1 : ℤ) ^ k * b.nElements k) := by
  have e1 : ∑ k ∈ Finset.range (n + m + 1), (-1 : ℤ) ^ k * t.nElements k =
      ∑ k ∈ Finset.range (n + m + 1), ∑ i ∈ Finset.range (k + 1),
        (fun i j => ((-1 : ℤ) ^ i * a.nElements i) * ((-1 : ℤ) ^ j * b.nElements j)) i (k - i) := by
    refine Finset.sum_congr rfl fun k hk => ?_
    rw [C21_counts hu hF hG hdF hdG ha hb h k (by have := Finset.mem_range.1 hk; omega)]
    push_cast
    rw [Finset.mul_sum]
    refine Finset.sum_congr rfl fun i hi => ?_
    have hi := Finset.mem_range.1 hi
    rw [show (-1 : ℤ) ^ k = (-1) ^ i * (-1) ^ (k - i) by rw [← pow_add]; congr 1; omega]
    ring
  refine (e1.trans (Finset.sum_range_diag_flip (n + m + 1)
    (fun i j => ((-1 : ℤ) ^ i * a.nElements i) * ((-1 : ℤ) ^ j * b.nElements j)))).trans ?_
  have hzA : ∀ i, n < i → a.nElements i = 0 := fun i hi => by
    unfold Topo.nElements
    rw [nElements_zero_of_lt hu hF ha hi]
    rfl
  have hzB : ∀ i, m < i → b.nElements i = 0 := fun i hi => by
    unfold Topo.nElements
    rw [nElements_zero_of_lt hu hG hb hi]
    rfl
  rw [show n + m + 1 = n + 1 + m by omega, Finset.sum_range_add, Finset.sum_eq_zero (s := Finset.range m), add_zero,
    Finset.sum_mul]
  · refine Finset.sum_congr rfl fun i hi => ?_
    have hi := Finset.mem_range.1 hi
    rw [← Finset.mul_sum, show n + 1 + m - i = m + 1 + (n - i) by omega, Finset.sum_range_add,
      Finset.sum_eq_zero (s := Finset.range (n - i)), add_zero]
    intro j _
    rw [hzB _ (by omega)]
    simp
  · intro i _
    rw [hzA _ (by omega)]
    simp

/-! ### orientation -/

/-- C21: faces of the cubes of the product are products of a face and a cube. -/
theorem product_row_left (hu : UniqSpec uniq) (hF : Cubes (n + 1) F) (hG : Cubes (m + 1) G) (hdF : DistinctElements F)
    (hdG : DistinctElements G) (ha : fromCubes uniq true (n + 1) F = .ok a) (hb : fromCubes uniq true (m + 1) G = .ok b)
    (h : productTopology uniq a b = .ok t) {x1 x2 i : Nat} {f g e : List Nat} {ρ : ℤ}
    (hx1 : (a.elements[n]?.getD [])[x1]? = some f) (hx2 : G[x2]? = some g)
    (hi : (t.elements[n + 1 + m]?.getD [])[i]? = some e)
    (hρ : SymmetricCube (n + 1 + m) (pairCube (a.nElements 0) n (m + 1) f g) e ρ) (y1 y2 : Nat) (hy1 : y1 < F.length)
    (hy2 : y2 < G.length) :
    (t.matrix (n + 1 + m)).entry i (y1 * G.length + y2) = if x2 = y2 then ρ * (a.matrix n).entry x1 y1 else 0 := by
  have tA := (fromCubes_wf hu hF ha).top_eq
  have tB := (fromCubes_wf hu hG hb).top_eq
  have g1 := List.getElem?_eq_getElem hy1
  have g2 := List.getElem?_eq_getElem hy2
  obtain ⟨P, hP, -, hc⟩ := C21_cubes hu hF hG ha hb h
  obtain ⟨c, hc1, hc2⟩ := hc y1 y2 _ _ g1 g2
  have hPm : P = productCubes (a.nElements 0) F G := by
    have h' := h
    rw [productTopology_eq hu hF hG ha hb] at h'
    have := (C19_levels hu (productCubes_cubes hF hG (top_lt hu hF ha)) h').2.2.2
    rw [hP] at this
    exact Option.some.inj this
  have hcl : c.length = 2 ^ (n + 1 + (m + 1)) := by
    have := productCubes_cubes (nv := a.nElements 0) hF hG (top_lt hu hF ha) c (by
      rw [← hPm]; exact List.mem_of_getElem? hc1)
    exact this.1
  have hce : c = pairCube (a.nElements 0) (n + 1) (m + 1) F[y1] G[y2] :=
    pairCube_ext hcl fun b1 b2 h1 h2 => hc2 b1 b2 h1 h2
  have key := C21_leibniz hu hF hG hdF hdG ha hb h (k := n + 1 + m) (k1 := n) (k2 := m + 1) (k1' := n + 1) (k2' := m + 1)
    (by omega) (by omega) (by omega) (by omega) (by omega) (by omega) (x1 := x1) (x2 := x2) (y1 := y1) (y2 := y2)
    (i := i) (j := y1 * G.length + y2) (f := f) (g := g) (f' := F[y1]) (g' := G[y2]) (e := e) (e' := c) (ρ := ρ) (ρ' := 1)
    hx1 (by rw [tB]; exact hx2) (by rw [tA]; exact g1) (by rw [tB]; exact g2) hi
    (by rw [show n + 1 + m + 1 = n + 1 + (m + 1) by omega, hP]; exact hc1) hρ
    (by rw [hce]; exact SymmetricCube.refl (pairCube_length _ _))
  rw [key, if_pos rfl]
  split <;> ring

theorem product_row_right (hu : UniqSpec uniq) (hF : Cubes (n + 1) F) (hG : Cubes (m + 1) G) (hdF : DistinctElements F)
    (hdG : DistinctElements G) (ha : fromCubes uniq true (n + 1) F = .ok a) (hb : fromCubes uniq true (m + 1) G = .ok b)
    (h : productTopology uniq a b = .ok t) {x1 x2 i : Nat} {f g e : List Nat} {ρ : ℤ}
    (hx1 : F[x1]? = some f) (hx2 : (b.elements[m]?.getD [])[x2]? = some g)
    (hi : (t.elements[n + 1 + m]?.getD [])[i]? = some e)
    (hρ : SymmetricCube (n + 1 + m) (pairCube (a.nElements 0) (n + 1) m f g) e ρ) (y1 y2 : Nat) (hy1 : y1 < F.length)
    (hy2 : y2 < G.length) :
    (t.matrix (n + 1 + m)).entry i (y1 * G.length + y2) =
      if x1 = y1 then ρ * (-1) ^ (n + 1) * (b.matrix m).entry x2 y2 else 0 := by
  have tA := (fromCubes_wf hu hF ha).top_eq
  have tB := (fromCubes_wf hu hG hb).top_eq
  have g1 := List.getElem?_eq_getElem hy1
  have g2 := List.getElem?_eq_getElem hy2
  obtain ⟨P, hP, -, hc⟩ := C21_cubes hu hF hG ha hb h
  obtain ⟨c, hc1, hc2⟩ := hc y1 y2 _ _ g1 g2
  have hPm : P = productCubes (a.nElements 0) F G := by
    have h' := h
    rw [productTopology_eq hu hF hG ha hb] at h'
    have := (C19_levels hu (productCubes_cubes hF hG (top_lt hu hF ha)) h').2.2.2
    rw [hP] at this
    exact Option.some.inj this
  have hcl : c.length = 2 ^ (n + 1 + (m + 1)) := by
    have := productCubes_cubes (nv := a.nElements 0) hF hG (top_lt hu hF ha) c (by
      rw [← hPm]; exact List.mem_of_getElem? hc1)
    exact this.1
  have hce : c = pairCube (a.nElements 0) (n + 1) (m + 1) F[y1] G[y2] :=
    pairCube_ext hcl fun b1 b2 h1 h2 => hc2 b1 b2 h1 h2
  have key := C21_leibniz hu hF hG hdF hdG ha hb h (k := n + 1 + m) (k1 := n + 1) (k2 := m) (k1' := n + 1) (k2' := m + 1)
    (by omega) (by omega) (by omega) (by omega) (by omega) (by omega) (x1 := x1) (x2 := x2) (y1 := y1) (y2 := y2)
    (i := i) (j := y1 * G.length + y2) (f := f) (g := g) (f' := F[y1]) (g' := G[y2]) (e := e) (e' := c) (ρ := ρ) (ρ' := 1)
    (by rw [tA]; exact hx1) hx2 (by rw [tA]; exact g1) (by rw [tB]; exact g2) hi
    (by rw [show n + 1 + m + 1 = n + 1 + (m + 1) by omega, hP]; exact hc1) hρ
    (by rw [hce]; exact SymmetricCube.refl (pairCube_length _ _))
  rw [key, if_neg (by omega), if_pos rfl]
  split <;> ring

/-- C21: the cubes of the product of linked topologies are linked. -/
theorem C21_linked (hu : UniqSpec uniq) (hF : Cubes (n + 1) F) (hG : Cubes (m + 1) G) (hdF : DistinctElements F)
    (hdG : DistinctElements G) (ha : fromCubes uniq true (n + 1) F = .ok a) (hb : fromCubes uniq true (m + 1) G = .ok b)
    (h : productTopology uniq a b = .ok t) (hla : Linked (a.matrix n)) (hlb : Linked (b.matrix m)) :
    Linked (t.matrix (n + 1 + m)) := by
  have wa := fromCubes_wf hu hF ha
  have wb := fromCubes_wf hu hG hb
  obtain ⟨ra, ca⟩ := wa.shape (k := n) (by omega)
  obtain ⟨rb, cb⟩ := wb.shape (k := m) (by omega)
  obtain ⟨rt, ct⟩ := product_shape hu hF hG ha hb h
  have ca' : (a.matrix n).cols = F.length := by
    rw [ca]; unfold Topo.nElements; rw [wa.top_eq]; rfl
  have cb' : (b.matrix m).cols = G.length := by
    rw [cb]; unfold Topo.nElements; rw [wb.top_eq]; rfl
  rw [Linked, ct]
  -- steps along the first factor
  have s1 : ∀ y1 y1' x2, x2 < G.length → (∃ i, TwoColumns (a.matrix n) i y1 y1') →
      ∃ i, TwoColumns (t.matrix (n + 1 + m)) i (y1 * G.length + x2) (y1' * G.length + x2) := by
    rintro y1 y1' x2 hx2 ⟨x1, hx1, hne, hy1, hy1', hall⟩
    rw [ca'] at hy1 hy1' hall
    rw [ra] at hx1
    have hg := List.getElem?_eq_getElem hx2
    have hf := List.getElem?_eq_getElem (show x1 < (a.elements[n]?.getD []).length from hx1)
    obtain ⟨e, he, ρ, hρ⟩ := (C21_elements hu hF hG ha hb h (n + 1 + m) (by omega)).2 n (by omega) (m + 1) (by omega)
      (by omega) _ (List.mem_of_getElem? hf) G[x2] (by rw [wb.top_eq]; exact List.mem_of_getElem? hg)
    obtain ⟨i, hi, rfl⟩ := List.getElem_of_mem he
    have row := product_row_left hu hF hG hdF hdG ha hb h hf hg (List.getElem?_eq_getElem hi) hρ
    refine ⟨i, by rw [rt]; exact hi, ?_, by rw [ct]; exact pair_lt hy1 hx2, by rw [ct]; exact pair_lt hy1' hx2, ?_⟩
    · intro he
      exact hne (pair_inj hx2 hx2 he).1
    · intro j hj
      rw [ct] at hj
      obtain ⟨z1, z2, hz1, hz2, rfl⟩ := pair_exists hj
      rw [row z1 z2 hz1 hz2]
      have hρ0 : ρ ≠ 0 := by rcases hρ.sign with h | h <;> rw [h] <;> decide
      constructor
      · intro hnz
        have hx : x2 = z2 := by
          by_contra hx
          rw [if_neg hx] at hnz
          exact hnz rfl
        subst hx
        rw [if_pos rfl] at hnz
        rcases (hall z1 hz1).1 (fun h0 => hnz (by rw [h0, mul_zero])) with rfl | rfl
        · exact Or.inl rfl
        · exact Or.inr rfl
      · intro hz
        have hz' : (z1 = y1 ∨ z1 = y1') ∧ z2 = x2 := by
          rcases hz with hz | hz
          · exact ⟨Or.inl (pair_inj hz2 hx2 hz).1, (pair_inj hz2 hx2 hz).2⟩
          · exact ⟨Or.inr (pair_inj hz2 hx2 hz).1, (pair_inj hz2 hx2 hz).2⟩
        rw [if_pos hz'.2.symm]
        exact mul_ne_zero hρ0 ((hall z1 hz1).2 hz'.1)
  have s2 : ∀ x1 y2 y2', x1 < F.length → (∃ i, TwoColumns (b.matrix m) i y2 y2') →
      ∃ i, TwoColumns (t.matrix (n + 1 + m)) i (x1 * G.length + y2) (x1 * G.length + y2') := by
    rintro x1 y2 y2' hx1 ⟨x2, hx2, hne, hy2, hy2', hall⟩
    rw [cb'] at hy2 hy2' hall
    rw [rb] at hx2
    have hf := List.getElem?_eq_getElem hx1
    have hg := List.getElem?_eq_getElem (show x2 < (b.elements[m]?.getD []).length from hx2)
    obtain ⟨e, he, ρ, hρ⟩ := (C21_elements hu hF hG ha hb h (n + 1 + m) (by omega)).2 (n + 1) (by omega) m (by omega)
      (by omega) F[x1] (by rw [wa.top_eq]; exact List.mem_of_getElem? hf) _ (List.mem_of_getElem? hg)
    obtain ⟨i, hi, rfl⟩ := List.getElem_of_mem he
    have row := product_row_right hu hF hG hdF hdG ha hb h hf hg (List.getElem?_eq_getElem hi) hρ
    refine ⟨i, by rw [rt]; exact hi, ?_, by rw [ct]; exact pair_lt hx1 hy2, by rw [ct]; exact pair_lt hx1 hy2', ?_⟩
    · intro he
      exact hne (pair_inj hy2 hy2' he).2
    · intro j hj
      rw [ct] at hj
      obtain ⟨z1, z2, hz1, hz2, rfl⟩ := pair_exists hj
      rw [row z1 z2 hz1 hz2]
      have hρ0 : ρ * (-1) ^ (n + 1) ≠ 0 := by
        refine mul_ne_zero ?_ (pow_ne_zero _ (by decide))
        rcases hρ.sign with h | h <;> rw [h] <;> decide
      constructor
      · intro hnz
        have hx : x1 = z1 := by
          by_contra hx
          rw [if_neg hx] at hnz
          exact hnz rfl
        subst hx
        rw [if_pos rfl] at hnz
        rcases (hall z2 hz2).1 (fun h0 => hnz (by rw [h0, mul_zero])) with rfl | rfl
        · exact Or.inl rfl
        · exact Or.inr rfl
      · intro hz
        have hz' : z1 = x1 ∧ (z2 = y2 ∨ z2 = y2') := by
          rcases hz with hz | hz
          · exact ⟨(pair_inj hz2 hy2 hz).1, Or.inl (pair_inj hz2 hy2 hz).2⟩
          · exact ⟨(pair_inj hz2 hy2' hz).1, Or.inr (pair_inj hz2 hy2' hz).2⟩
        rw [if_pos hz'.1.symm]
        exact mul_ne_zero hρ0 ((hall z2 hz2).2 hz'.2)
  intro j hj j' hj'
  obtain ⟨z1, z2, hz1, hz2, rfl⟩ := pair_exists hj
  obtain ⟨w1, w2, hw1, hw2, rfl⟩ := pair_exists hj'
  have p1 := Relation.ReflTransGen.lift (r := fun j j' => ∃ i, TwoColumns (a.matrix n) i j j')
    (p := fun j j' => ∃ i, TwoColumns (t.matrix (n + 1 + m)) i j j') (fun z => z * G.length + z2)
    (fun y y' => s1 y y' z2 hz2) _ _ (hla z1 (by rw [ca']; exact hz1) w1 (by rw [ca']; exact hw1))
  have p2 := Relation.ReflTransGen.lift (r := fun j j' => ∃ i, TwoColumns (b.matrix m) i j j')
    (p := fun j j' => ∃ i, TwoColumns (t.matrix (n + 1 + m)) i j j') (fun z => w1 * G.length + z)
    (fun y y' => s2 w1 y y' hw1) _ _ (hlb z2 (by rw [cb']; exact hz2) w2 (by rw [cb']; exact hw2))
  exact p1.trans p2

/-- C21: if faces shared by two cubes get opposite signs in both factors, they do so in the product. -/
theorem C21_pairsCancel (hu : UniqSpec uniq) (hF : Cubes (n + 1) F) (hG : Cubes (m + 1) G) (hdF : DistinctElements F)
    (hdG : DistinctElements G) (ha : fromCubes uniq true (n + 1) F = .ok a) (hb : fromCubes uniq true (m + 1) G = .ok b)
    (h : productTopology uniq a b = .ok t) (hpa : PairsCancel (a.matrix n)) (hpb : PairsCancel (b.matrix m)) :
    PairsCancel (t.matrix (n + 1 + m)) := by
  have wa := fromCubes_wf hu hF ha
  have wb := fromCubes_wf hu hG hb
  obtain ⟨ra, ca⟩ := wa.shape (k := n) (by omega)
  obtain ⟨rb, cb⟩ := wb.shape (k := m) (by omega)
  obtain ⟨rt, ct⟩ := product_shape hu hF hG ha hb h
  have ca' : (a.matrix n).cols = F.length := by
    rw [ca]; unfold Topo.nElements; rw [wa.top_eq]; rfl
  have cb' : (b.matrix m).cols = G.length := by
    rw [cb]; unfold Topo.nElements; rw [wb.top_eq]; rfl
  rintro i j j' ⟨hi, hne, hj, hj', hall⟩
  rw [rt] at hi
  rw [ct] at hj hj' hall
  have he := List.getElem?_eq_getElem (show i < (t.elements[n + 1 + m]?.getD []).length from hi)
  obtain ⟨z1, z2, hz1, hz2, rfl⟩ := pair_exists hj
  obtain ⟨w1, w2, hw1, hw2, rfl⟩ := pair_exists hj'
  have hnz := (hall _ hj).2 (Or.inl rfl)
  have hnw := (hall _ hj').2 (Or.inr rfl)
  obtain ⟨k1, hk1, k2, hk2, hk, f, hf, g, hg, ρ, hρ⟩ :=
    (C21_elements hu hF hG ha hb h (n + 1 + m) (by omega)).1 _ (List.mem_of_getElem? he)
  have hρ0 : ρ ≠ 0 := by rcases hρ.sign with h | h <;> rw [h] <;> decide
  obtain ⟨x1, hx1, rfl⟩ := List.getElem_of_mem hf
  obtain ⟨x2, hx2, rfl⟩ := List.getElem_of_mem hg
  have hf := List.getElem?_eq_getElem hx1
  have hg := List.getElem?_eq_getElem hx2
  rcases (show k1 = n ∧ k2 = m + 1 ∨ k1 = n + 1 ∧ k2 = m by omega) with ⟨rfl, rfl⟩ | ⟨rfl, rfl⟩
  · have hxG : x2 < G.length := by
      rw [wb.top_eq] at hx2; exact hx2
    have hg2 : G[x2]? = some ((b.elements[m + 1]?.getD [])[x2]) := by
      rw [← hg, wb.top_eq]; rfl
    have row := product_row_left hu hF hG hdF hdG ha hb h hf hg2 he hρ
    rw [row z1 z2 hz1 hz2] at hnz ⊢
    rw [row w1 w2 hw1 hw2] at hnw ⊢
    have e1 : x2 = z2 := by
      by_contra hx
      rw [if_neg hx] at hnz
      exact hnz rfl
    have e2 : x2 = w2 := by
      by_contra hx
      rw [if_neg hx] at hnw
      exact hnw rfl
    subst e1; subst e2
    rw [if_pos rfl, if_pos rfl, ← mul_add, hpa x1 z1 w1, mul_zero]
    refine ⟨by rw [ra]; exact hx1, fun h => hne (by rw [h]), by rw [ca']; exact hz1, by rw [ca']; exact hw1, ?_⟩
    intro y hy
    rw [ca'] at hy
    have := hall _ (pair_lt hy hz2)
    rw [row y x2 hy hz2, if_pos rfl] at this
    constructor
    · intro hy0
      rcases this.1 (mul_ne_zero hρ0 hy0) with h | h
      · exact Or.inl (pair_inj hz2 hz2 h).1
      · exact Or.inr (pair_inj hz2 hz2 h).1
    · intro hy0 h0
      exact this.2 (by rcases hy0 with rfl | rfl <;> simp) (by rw [h0, mul_zero])
  · have hxF : x1 < F.length := by
      rw [wa.top_eq] at hx1; exact hx1
    have hf2 : F[x1]? = some ((a.elements[n + 1]?.getD [])[x1]) := by
      rw [← hf, wa.top_eq]; rfl
    have row := product_row_right hu hF hG hdF hdG ha hb h hf2 hg he hρ
    have hs0 : ρ * (-1) ^ (n + 1) ≠ 0 := mul_ne_zero hρ0 (pow_ne_zero _ (by decide))
    rw [row z1 z2 hz1 hz2] at hnz ⊢
    rw [row w1 w2 hw1 hw2] at hnw ⊢
    have e1 : x1 = z1 := by
      by_contra hx
      rw [if_neg hx] at hnz
      exact hnz rfl
    have e2 : x1 = w1 := by
      by_contra hx
      rw [if_neg hx] at hnw
      exact hnw rfl
    subst e1; subst e2
    rw [if_pos rfl, if_pos rfl, ← mul_add, hpb x2 z2 w2, mul_zero]
    refine ⟨by rw [rb]; exact hx2, fun h => hne (by rw [h]), by rw [cb']; exact hz2, by rw [cb']; exact hw2, ?_⟩
    intro y hy
    rw [cb'] at hy
    have := hall _ (pair_lt hz1 hy)
    rw [row x1 y hz1 hy, if_pos rfl] at this
    constructor
    · intro hy0
      rcases this.1 (mul_ne_zero hs0 hy0) with h | h
      · exact Or.inl (pair_inj hy hz2 h).2
      · exact Or.inr (pair_inj hy hw2 h).2
    · intro hy0 h0
      exact this.2 (by rcases hy0 with rfl | rfl <;> simp) (by rw [h0, mul_zero])

/-- C21: the product of linked topologies that call themselves oriented calls itself oriented. -/
theorem C21_oriented {solve : List (List Int) → Option (List Int)} (hsat : SatSpec solve) (hu : UniqSpec uniq)
    (hF : Cubes (n + 1) F) (hG : Cubes (m + 1) G) (hdF : DistinctElements F)
    (hdG : DistinctElements G) (ha : fromCubes uniq true (n + 1) F = .ok a) (hb : fromCubes uniq true (m + 1) G = .ok b)
    (h : productTopology uniq a b = .ok t) (hla : Linked (a.matrix n)) (hlb : Linked (b.matrix m))
    (hoa : isOriented solve a = .ok true) (hob : isOriented solve b = .ok true) : isOriented solve t = .ok true := by
  have hpa := pairsCancel_of_isOriented hsat hu hF ha hoa
  have hpb := pairsCancel_of_isOriented hsat hu hG hb hob
  have h' := h
  rw [productTopology_eq hu hF hG ha hb] at h'
  have hP : Cubes (n + 1 + (m + 1)) (productCubes (a.nElements 0) F G) := productCubes_cubes hF hG (top_lt hu hF ha)
  exact isOriented_of_pairsCancel hsat hu (n := n + 1 + m) hP h' (C21_pairsCancel hu hF hG hdF hdG ha hb h hpa hpb)
    (C21_linked hu hF hG hdF hdG ha hb h hla hlb)

-- a ring of three edges times itself: a torus of nine squares
example : ∃ a t, fromCubes List.dedup true 1 [[0, 1], [1, 2], [2, 0]] = .ok a ∧ productTopology List.dedup a a = .ok t ∧
    t.nElements 0 = 9 ∧ t.nElements 1 = 18 ∧ t.nElements 2 = 9 := by
  have hF : Cubes 1 [[0, 1], [1, 2], [2, 0]] := by simp [Cubes]
  have hd : DistinctElements [[0, 1], [1, 2], [2, 0]] := by
    unfold DistinctElements
    simp only [List.pairwise_cons, List.mem_cons, List.not_mem_nil, or_false, forall_eq_or_imp, forall_eq,
      false_imp_iff, implies_true, and_true, List.Pairwise.nil]
    refine ⟨⟨?_, ?_⟩, ?_⟩ <;> decide
  have ha : ∃ a, fromCubes List.dedup true 1 [[0, 1], [1, 2], [2, 0]] = .ok a ∧ a.nElements 0 = 3 ∧ a.nElements 1 = 3 :=
    ⟨⟨[[[0], [1], [2]], [[0, 1], [1, 2], [2, 0]]], [[[0, 1], [1, 2], [2, 0]]], [[[-1, 1], [-1, 1], [-1, 1]]]⟩,
      by decide +kernel, rfl, rfl⟩
  obtain ⟨a, ha, h0, h1⟩ := ha
  obtain ⟨t, ht⟩ := C21_accepted uniqSpec_dedup hF hF hd hd ha ha (by omega) (by omega)
  have hz : a.nElements 2 = 0 := by
    unfold Topo.nElements
    rw [nElements_zero_of_lt uniqSpec_dedup hF ha (by omega)]
    rfl
  refine ⟨a, t, ha, ht, ?_, ?_, ?_⟩ <;>
    rw [C21_counts uniqSpec_dedup hF hF hd hd ha ha ht _ (by omega)] <;>
    simp [Finset.sum_range_succ, h0, h1, hz]

/-- two edges in a row -/
def pathTopo : Topo := ⟨[[[0], [1], [2]], [[0, 1], [1, 2]]], [[[0, 1], [1, 2]]], [[[-1, 1], [-1, 1]]]⟩

-- two edges in a row are linked and oriented; so is the product
example : ∃ solve a t, SatSpec solve ∧ fromCubes List.dedup true 1 [[0, 1], [1, 2]] = .ok a ∧
    productTopology List.dedup a a = .ok t ∧ Linked (a.matrix 0) ∧ isOriented solve a = .ok true ∧
    isOriented solve t = .ok true := by
  obtain ⟨solve, hsat⟩ := exists_satSolver
  have hF : Cubes 1 [[0, 1], [1, 2]] := by simp [Cubes]
  have hd : DistinctElements [[0, 1], [1, 2]] := by
    unfold DistinctElements
    simp only [List.pairwise_cons, List.mem_cons, List.not_mem_nil, or_false, forall_eq,
      false_imp_iff, implies_true, and_true, List.Pairwise.nil]
    decide
  have ha : fromCubes List.dedup true 1 [[0, 1], [1, 2]] =
      .ok pathTopo := by decide +kernel
  obtain ⟨t, ht⟩ := C21_accepted uniqSpec_dedup hF hF hd hd ha ha (by omega) (by omega)
  have hl : Linked (pathTopo.matrix 0) := by
    intro j1 h1 j2 h2
    change j1 < 2 at h1
    change j2 < 2 at h2
    rcases (show j1 = 0 ∨ j1 = 1 by omega) with rfl | rfl <;> rcases (show j2 = 0 ∨ j2 = 1 by omega) with rfl | rfl
    · exact .refl
    · exact .single ⟨1, by decide, by decide, by decide, by decide, by decide +kernel⟩
    · exact .single ⟨1, by decide, by decide, by decide, by decide, by decide +kernel⟩
    · exact .refl
  have hp : PairsCancel (pathTopo.matrix 0) := by
    have key : ∀ i < 3, ∀ j1 < 2, ∀ j2 < 2,
        (j1 ≠ j2 ∧ (pathTopo.matrix 0).entry i j1 ≠ 0 ∧ (pathTopo.matrix 0).entry i j2 ≠ 0) →
          (pathTopo.matrix 0).entry i j1 + (pathTopo.matrix 0).entry i j2 = 0 := by
      decide +kernel
    exact fun i j1 j2 h => key i h.1 j1 h.2.2.1 j2 h.2.2.2.1 ⟨h.2.1, (h.2.2.2.2 j1 h.2.2.1).2 (Or.inl rfl),
      (h.2.2.2.2 j2 h.2.2.2.1).2 (Or.inr rfl)⟩
  have ho := isOriented_of_pairsCancel hsat uniqSpec_dedup hF ha hp hl
  exact ⟨solve, _, t, hsat, ha, ht, hl, ho,
    C21_oriented hsat uniqSpec_dedup hF hF hd hd ha ha ht hl hl ho ho⟩

end Verif.Props
