/-
C65 on concrete inputs: a program that finds components, two triangles that meet in a vertex, three triangles
on one edge, and a fan.
-/
import Verif.Props.Components
import Verif.Model.Cubical
import Mathlib.Data.List.ProdSigma

namespace Verif.Props

open Verif.Model Verif.Spec

/-- join two classes: everything labelled like `b` gets the label of `a` -/
def joinLabels (L : List Nat) (ab : Nat × Nat) : List Nat :=
  L.map fun x => if x = L[ab.2]?.getD 0 then L[ab.1]?.getD 0 else x

/-- components of a graph by joining the ends of its edges one after the other -/
def findComponents (G : Mat Int) : Nat × List Nat :=
  let L := ((List.range G.rows ×ˢ List.range G.rows).filter fun ab => G.entry ab.1 ab.2 ≠ 0).foldl joinLabels
    (List.range G.rows)
  (L.dedup.length, L.map fun x => L.dedup.idxOf x)

/-- equal labels are the equivalence generated by the edges of a list -/
def Labels (N : Nat) (R : Nat → Nat → Prop) (L : List Nat) : Prop :=
  L.length = N ∧ ∀ a < N, ∀ b < N, L[a]? = L[b]? ↔ Relation.EqvGen R a b

theorem joinLabels_get {L : List Nat} {a b i : Nat} (ha : a < L.length) (hb : b < L.length) (hi : i < L.length) :
    (joinLabels L (a, b))[i]? = some (if L[i] = L[b] then L[a] else L[i]) := by
  unfold joinLabels
  rw [List.getElem?_map, List.getElem?_eq_getElem hi, List.getElem?_eq_getElem ha, List.getElem?_eq_getElem hb]
  rfl

theorem labels_join {N : Nat} {R : Nat → Nat → Prop} {L : List Nat} (h : Labels N R L) {a b : Nat} (ha : a < N)
    (hb : b < N) : Labels N (fun x y => R x y ∨ (x = a ∧ y = b)) (joinLabels L (a, b)) := by
  obtain ⟨hl, h⟩ := h
  subst hl
  have hR : ∀ {x y}, Relation.EqvGen R x y → Relation.EqvGen (fun x y => R x y ∨ (x = a ∧ y = b)) x y :=
    fun h => h.mono fun _ _ => Or.inl
  have hab : Relation.EqvGen (fun x y => R x y ∨ (x = a ∧ y = b)) a b := Relation.EqvGen.rel _ _ (Or.inr ⟨rfl, rfl⟩)
  have get : ∀ {x y}, x < L.length → y < L.length → (L[x]? = L[y]? ↔ L[x]?.getD 0 = L[y]?.getD 0) := by
    intro x y hx hy
    rw [List.getElem?_eq_getElem hx, List.getElem?_eq_getElem hy]
    simp
  refine ⟨by simp [joinLabels], fun x hx y hy => ?_⟩
  rw [joinLabels_get ha hb hx, joinLabels_get ha hb hy, Option.some_inj]
  have eqv : ∀ {x y}, (hx : x < L.length) → (hy : y < L.length) → (L[x] = L[y] ↔ Relation.EqvGen R x y) := by
    intro x y hx hy
    rw [← h x hx y hy, List.getElem?_eq_getElem hx, List.getElem?_eq_getElem hy, Option.some_inj]
  constructor
  · intro he
    split at he
    · next hxb =>
      split at he
      · next hyb => exact hR ((eqv hx hy).1 (hxb.trans hyb.symm))
      · exact (((hR ((eqv hx hb).1 hxb)).trans _ _ _ (hab.symm _ _))).trans _ _ _ (hR ((eqv ha hy).1 he))
    · split at he
      · next hyb =>
        exact ((hR ((eqv hx ha).1 he)).trans _ _ _ hab).trans _ _ _ (hR ((eqv hb hy).1 hyb.symm))
      · exact hR ((eqv hx hy).1 he)
  · intro he
    have key : ∀ {x y}, Relation.EqvGen (fun x y => R x y ∨ (x = a ∧ y = b)) x y →
        Relation.EqvGen R x y ∨ ((Relation.EqvGen R x a ∨ Relation.EqvGen R x b) ∧
          (Relation.EqvGen R y a ∨ Relation.EqvGen R y b)) := by
      intro x y h
      induction h with
      | rel x y h =>
        rcases h with h | ⟨rfl, rfl⟩
        · exact Or.inl (Relation.EqvGen.rel _ _ h)
        · exact Or.inr ⟨Or.inl (Relation.EqvGen.refl _), Or.inr (Relation.EqvGen.refl _)⟩
      | refl x => exact Or.inl (Relation.EqvGen.refl _)
      | symm x y _ ih =>
        rcases ih with ih | ⟨h1, h2⟩
        · exact Or.inl (ih.symm _ _)
        · exact Or.inr ⟨h2, h1⟩
      | trans x y z _ _ ih1 ih2 =>
        rcases ih1 with ih1 | ⟨h1, h2⟩
        · rcases ih2 with ih2 | ⟨h1', h2'⟩
          · exact Or.inl (ih1.trans _ _ _ ih2)
          · exact Or.inr ⟨h1'.imp (ih1.trans _ _ _) (ih1.trans _ _ _), h2'⟩
        · rcases ih2 with ih2 | ⟨h1', h2'⟩
          · exact Or.inr ⟨h1, h2.imp ((ih2.symm _ _).trans _ _ _) ((ih2.symm _ _).trans _ _ _)⟩
          · exact Or.inr ⟨h1, h2'⟩
    rcases key he with he | ⟨h1, h2⟩
    · rw [(eqv hx hy).2 he]
    · rw [← eqv hx ha, ← eqv hx hb] at h1
      rw [← eqv hy ha, ← eqv hy hb] at h2
      clear eqv key hR hab he get h
      split <;> split <;> rcases h1 with h1 | h1 <;> rcases h2 with h2 | h2 <;> simp_all

theorem labels_fold {N : Nat} : ∀ (es : List (Nat × Nat)) (R : Nat → Nat → Prop) (L : List Nat), Labels N R L →
    (∀ e ∈ es, e.1 < N ∧ e.2 < N) → Labels N (fun x y => R x y ∨ (x, y) ∈ es) (es.foldl joinLabels L) := by
  intro es
  induction es with
  | nil => intro R L h _; simpa using h
  | cons e es ih =>
    intro R L h he
    obtain ⟨h1, h2⟩ := he e (by simp)
    have := ih _ _ (labels_join h h1 h2) fun e' he' => he e' (by simp [he'])
    rw [List.foldl_cons]
    have hR : (fun x y => R x y ∨ (x, y) ∈ e :: es) = fun x y => (R x y ∨ (x = e.1 ∧ y = e.2)) ∨ (x, y) ∈ es := by
      funext x y
      rw [List.mem_cons, or_assoc, Prod.ext_iff]
    rw [hR]
    exact this

theorem findComponents_spec : ComponentsSpec findComponents := by
  intro G _
  have h0 : Labels G.rows (fun _ _ => False) (List.range G.rows) := by
    refine ⟨by simp, fun a ha b hb => ?_⟩
    rw [List.getElem?_range ha, List.getElem?_range hb, Option.some_inj]
    constructor
    · rintro rfl; exact Relation.EqvGen.refl _
    · intro h
      clear ha hb
      induction h with
      | rel _ _ h => exact h.elim
      | refl => rfl
      | symm _ _ _ ih => exact ih.symm
      | trans _ _ _ _ _ ih1 ih2 => exact ih1.trans ih2
  have h1 := labels_fold ((List.range G.rows ×ˢ List.range G.rows).filter fun ab => G.entry ab.1 ab.2 ≠ 0)
    _ _ h0 (by
      rintro ⟨x, y⟩ he
      have := (List.mem_filter.1 he).1
      rw [List.mem_product, List.mem_range, List.mem_range] at this
      exact this)
  have hedge : (fun x y => False ∨ (x, y) ∈ (List.range G.rows ×ˢ List.range G.rows).filter
      fun ab => G.entry ab.1 ab.2 ≠ 0) = Edge G := by
    funext x y
    rw [false_or, List.mem_filter, List.mem_product, List.mem_range, List.mem_range, eq_iff_iff, decide_eq_true_eq]
    exact ⟨fun ⟨⟨h1, h2⟩, h3⟩ => ⟨h1, h2, h3⟩, fun ⟨h1, h2, h3⟩ => ⟨⟨h1, h2⟩, h3⟩⟩
  rw [hedge] at h1
  unfold findComponents
  simp only
  generalize ((List.range G.rows ×ˢ List.range G.rows).filter fun ab => G.entry ab.1 ab.2 ≠ 0).foldl
    joinLabels (List.range G.rows) = L at h1
  obtain ⟨hl, h⟩ := h1
  refine ⟨by simpa using hl, fun l => ?_, fun a ha b hb => ?_⟩
  · rw [List.mem_map]
    constructor
    · rintro ⟨x, hx, rfl⟩
      exact List.idxOf_lt_length_of_mem (List.mem_dedup.2 hx)
    · intro hlt
      exact ⟨L.dedup[l], List.mem_dedup.1 (List.getElem_mem hlt), L.nodup_dedup.idxOf_getElem l hlt⟩
  · rw [← h a ha b hb, List.getElem?_map, List.getElem?_map, List.getElem?_eq_getElem (by omega),
      List.getElem?_eq_getElem (by omega)]
    simp only [Option.map_some, Option.some_inj]
    constructor
    · intro he
      exact List.idxOf_inj (List.mem_dedup.2 (List.getElem_mem _)) |>.1 he
    · intro he; rw [he]

/-- whatever finds the components, the answers are the same -/
theorem C65_same_answers {cc cc' : Mat Int → Nat × List Nat} (hcc : ComponentsSpec cc) (hcc' : ComponentsSpec cc')
    {uniq : List (List Nat) → List (List Nat)} (hu : UniqSpec uniq) {nCorners : Nat} {simplices : List (List Nat)}
    (hs : Simplices nCorners simplices) (hc : nCorners ≤ 10) {t : Topo}
    (h : fromSimplices uniq nCorners simplices = .ok t) :
    isConnected cc t = isConnected cc' t ∧ isManifold cc t = isManifold cc' t := by
  obtain ⟨b1, h1, h1'⟩ := C65_is_connected hcc hu hs (by omega) h
  obtain ⟨b2, h2, h2'⟩ := C65_is_connected hcc' hu hs (by omega) h
  obtain ⟨b3, h3, h3'⟩ := C65_is_manifold hcc hu hs hc h
  obtain ⟨b4, h4, h4'⟩ := C65_is_manifold hcc' hu hs hc h
  rw [h1, h2, h3, h4]
  have e1 : b1 = b2 := Bool.eq_iff_iff.2 (h1'.trans h2'.symm)
  have e2 : b3 = b4 := Bool.eq_iff_iff.2 (h3'.trans h4'.symm)
  rw [e1, e2]
  exact ⟨rfl, rfl⟩

/-! ### three triangles, one of them touching the others in a vertex only -/

def touching : List (List Nat) := [[0, 1, 2], [2, 3, 4], [3, 4, 5]]

def builtTouching : Topo := (fromSimplices List.dedup 3 touching).toOption.getD ⟨[], [], []⟩

theorem touching_simplices : Simplices 3 touching := by
  intro l hl
  simp [touching] at hl
  rcases hl with rfl | rfl | rfl <;> simp

theorem touching_built : fromSimplices List.dedup 3 touching = .ok builtTouching := by decide +kernel

/-- the vertex in the middle has two regions, the pieces are not connected, and the split puts the larger
piece, which comes second, first -/
theorem C65_touching : labelConnections findComponents builtTouching = .ok (2, [0, 1, 1]) ∧
    isConnected findComponents builtTouching = .ok false ∧
    regionsPerVertex findComponents builtTouching = .ok [1, 1, 2, 1, 1, 1] ∧
    isManifold findComponents builtTouching = .ok false ∧
    (splitConnectedComponents findComponents List.dedup builtTouching).map
      (fun l => l.map fun s => (s.topo.elements[2]?.getD [], s.parentIdx[0]?.getD [])) =
        .ok [([[0, 1, 2], [1, 2, 3]], [2, 3, 4, 5]), ([[0, 1, 2]], [0, 1, 2])] := by
  decide +kernel

/-- the hypotheses of the general theorems hold for it -/
example : ∃ components, ∃ classes : List (List Nat), splitConnectedComponents findComponents List.dedup builtTouching = .ok components ∧
      classes.flatten.Perm (List.range 3) ∧ classes.Pairwise (fun K L => L.length ≤ K.length) ∧
      components.length = classes.length := by
  obtain ⟨c, k, h1, h2, h3, h4⟩ := C65_split findComponents_spec uniqSpec_dedup touching_simplices (by omega)
    touching_built
  exact ⟨c, k, h1, h2, h3, h4.length_eq⟩

/-! ### three triangles on one edge -/

def book : List (List Nat) := [[0, 1, 2], [0, 1, 3], [0, 1, 4]]

def builtBook : Topo := (fromSimplices List.dedup 3 book).toOption.getD ⟨[], [], []⟩

theorem book_simplices : Simplices 3 book := by
  intro l hl
  simp [book] at hl
  rcases hl with rfl | rfl | rfl <;> simp

theorem book_built : fromSimplices List.dedup 3 book = .ok builtBook := by decide +kernel

/-- C65: `is_manifold` looks at the connections around vertices only: it accepts three triangles on one
edge. -/
theorem C65_accepts_book {cc : Mat Int → Nat × List Nat} (hcc : ComponentsSpec cc) :
    fromSimplices List.dedup 3 book = .ok builtBook ∧ incident book [0, 1] = [0, 1, 2] ∧
      isManifold cc builtBook = .ok true := by
  refine ⟨book_built, by decide, ?_⟩
  rw [(C65_same_answers hcc findComponents_spec uniqSpec_dedup book_simplices (by omega) book_built).2]
  decide +kernel

/-! ### a single simplex of dimension ten -/

def bigSimplex : List (List Nat) := [List.range 11]

/-- C65: a single simplex of dimension ten is not accepted as a manifold. -/
theorem C65_rejects_simplex {cc : Mat Int → Nat × List Nat} (hcc : ComponentsSpec cc) :
    ∃ t, fromSimplices List.dedup 11 bigSimplex = .ok t ∧ isConnected cc t = .ok true ∧
      isManifold cc t = .ok false := by
  have hs : Simplices 11 bigSimplex := by
    intro l hl
    simp only [bigSimplex, List.mem_singleton] at hl
    subst hl
    exact ⟨by simp, List.nodup_range⟩
  obtain ⟨t, ht⟩ := (C03_accepts_iff (nCorners := 9) uniqSpec_dedup hs).2 ⟨11, fun v => by
    simp only [bigSimplex, List.mem_singleton, exists_eq_left, List.mem_range]⟩
  refine ⟨t, ht, ?_, (C65_wraps hcc uniqSpec_dedup hs (by omega) (by omega) (by simp [bigSimplex]) ht).2⟩
  obtain ⟨b, hb, hiff⟩ := C65_is_connected hcc uniqSpec_dedup hs (by omega) ht
  rw [hb, hiff.2 ⟨by simp [bigSimplex], fun i hi j hj => ?_⟩]
  simp [bigSimplex] at hi hj
  subst hi hj
  exact Relation.ReflTransGen.refl

/-! ### a closed strip of two squares with a half twist -/

def twisted : List (List Nat) := [[0, 1, 2, 3], [1, 0, 2, 3]]

def builtTwisted : Topo := (fromCubes List.dedup true 2 twisted).toOption.getD ⟨[], [], []⟩

/-- C65: for squares the two common edges of a twisted strip cancel in the product of the matrices: the two
squares share the edges 0-1 and 2-3, but are counted as two components. -/
theorem C65_twisted_strip : fromCubes List.dedup true 2 twisted = .ok builtTwisted ∧
    ((List.range (builtTwisted.matrix 1).rows).filter fun i =>
      (builtTwisted.matrix 1).entry i 0 ≠ 0 ∧ (builtTwisted.matrix 1).entry i 1 ≠ 0).map
        (fun i => (builtTwisted.elements[1]?.getD [])[i]?.getD []) = [[0, 1], [3, 2]] ∧
    labelConnections findComponents builtTwisted = .ok (2, [0, 1]) ∧
    isConnected findComponents builtTwisted = .ok false := by
  decide +kernel

end Verif.Props
