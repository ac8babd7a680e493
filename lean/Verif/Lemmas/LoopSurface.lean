/-
Loop subdivision of a closed surface is a closed surface.
-/
import Verif.Lemmas.Loop
import Verif.Lemmas.Extrude
import Verif.Spec.Icosphere

set_option linter.unusedSectionVars false

namespace Verif

open Model Spec Props

variable {T : List (List Nat)} {t : Topo}

/-- the two halves of a directed edge -/
def halvesOf (t : Topo) (p : Nat × Nat) : List (Nat × Nat) :=
  [(p.1, mid t p.1 p.2), (mid t p.1 p.2, p.2)]

/-- the edges of the middle triangle -/
def innerOf (t : Topo) : List Nat → List (Nat × Nat)
  | [a, b, c] => [(mid t b c, mid t c a), (mid t c a, mid t a b), (mid t a b, mid t b c)]
  | _ => []

theorem kidEdges_perm {l : List Nat} (hl : l.length = 3) :
    ((kidsOf t l).flatMap triangleEdges).Perm
      ((triangleEdges l).flatMap (halvesOf t) ++ (innerOf t l ++ (innerOf t l).map Prod.swap)) := by
  obtain ⟨a, b, c, rfl⟩ := length_three hl
  refine List.perm_iff_count.mpr fun p => ?_
  simp only [kidsOf, kids, triangleEdges, halvesOf, innerOf, List.flatMap_cons, List.flatMap_nil,
    List.count_append, List.count_cons, List.count_nil, List.map_cons, List.map_nil, Prod.swap,
    List.getElem?_cons_zero, List.getElem?_cons_succ, Option.getD_some]
  omega

theorem Balanced.flatMap {L : List (Nat × Nat)} (h : Balanced L) (f : Nat × Nat → List (Nat × Nat))
    (hf : ∀ p, (f p.swap).Perm ((f p).map Prod.swap)) : Balanced (L.flatMap f) := by
  unfold Balanced
  rw [List.map_flatMap]
  refine (List.Perm.flatMap_right f h).trans ?_
  rw [List.flatMap_map]
  exact List.Perm.flatMap_left _ fun p _ => hf p

theorem directedEdges_kids (hT : ∀ l ∈ T, l.length = 3) :
    (directedEdges (T.map (kidsOf t)).flatten).Perm
      ((directedEdges T).flatMap (halvesOf t) ++
        (T.flatMap (innerOf t) ++ (T.flatMap (innerOf t)).map Prod.swap)) := by
  unfold directedEdges
  have e : (T.map (kidsOf t)).flatten.flatMap triangleEdges
      = T.flatMap fun l => (kidsOf t l).flatMap triangleEdges := by
    rw [← List.flatMap_def, List.flatMap_assoc]
  rw [e]
  refine (List.Perm.flatMap_left _ fun l hl => kidEdges_perm (hT l hl)).trans ?_
  refine (List.flatMap_append_perm T _ _).symm.trans ?_
  rw [List.flatMap_assoc]
  refine List.Perm.append_left _ ?_
  refine (List.flatMap_append_perm T _ _).symm.trans ?_
  rw [List.map_flatMap]

theorem loop_closed (hT : ∀ l ∈ T, l.length = 3) (h : ClosedSurface T) :
    ClosedSurface (T.map (kidsOf t)).flatten := by
  refine balanced_iff.mp (Balanced.perm ?_ (directedEdges_kids hT).symm)
  refine Balanced.append (Balanced.flatMap (balanced_iff.mpr h) _ ?_) (balanced_self _)
  rintro ⟨p, q⟩
  simp only [halvesOf, Prod.swap, List.map_cons, List.map_nil]
  rw [mid_comm t q p]
  exact List.Perm.swap _ _ _

theorem eq_of_perm (hd : DistinctElements T) {l l' : List Nat} (hl : l ∈ T) (hl' : l' ∈ T)
    (h : l.Perm l') : l = l' := by
  by_contra hne
  obtain ⟨i, hi, rfl⟩ := List.getElem_of_mem hl
  obtain ⟨j, hj, rfl⟩ := List.getElem_of_mem hl'
  rcases Nat.lt_trichotomy i j with hij | hij | hij
  · exact List.pairwise_iff_getElem.mp hd i j hi hj hij h
  · subst hij
    exact hne rfl
  · exact List.pairwise_iff_getElem.mp hd j i hj hi hij h.symm

theorem inner_mids {l : List Nat} {x y : Nat} (h : (x, y) ∈ innerOf t l) :
    ∃ v w z, x = mid t v w ∧ y = mid t w z ∧ l.Perm [v, w, z] := by
  unfold innerOf at h
  split at h
  · next a b c =>
    simp only [List.mem_cons, Prod.mk.injEq, List.not_mem_nil, or_false] at h
    rcases h with ⟨rfl, rfl⟩ | ⟨rfl, rfl⟩ | ⟨rfl, rfl⟩
    · exact ⟨b, c, a, rfl, rfl, (List.perm_append_comm (l₁ := [a]) (l₂ := [b, c]))⟩
    · exact ⟨c, a, b, rfl, rfl, (List.perm_append_comm (l₁ := [a, b]) (l₂ := [c]))⟩
    · exact ⟨a, b, c, rfl, rfl, List.Perm.refl _⟩
  · simp at h

theorem inner_mids' {l : List Nat} {x y : Nat} (h : (x, y) ∈ innerOf t l ∨ (y, x) ∈ innerOf t l) :
    ∃ v w z, x = mid t v w ∧ y = mid t w z ∧ l.Perm [v, w, z] := by
  rcases h with h | h
  · exact inner_mids h
  · obtain ⟨v, w, z, rfl, rfl, hp⟩ := inner_mids h
    exact ⟨z, w, v, mid_comm _ _ _, mid_comm _ _ _, hp.trans (List.reverse_perm [v, w, z]).symm⟩

theorem inner_perm (wf : WF 2 T t) (hs : Simplices 3 T) {l l' : List Nat} (hl : l ∈ T) (hl' : l' ∈ T)
    {x y : Nat} (h : (x, y) ∈ innerOf t l) (h' : (x, y) ∈ innerOf t l' ∨ (y, x) ∈ innerOf t l') :
    l.Perm l' := by
  obtain ⟨v, w, z, rfl, rfl, hp⟩ := inner_mids h
  obtain ⟨v', w', z', e1, e2, hp'⟩ := inner_mids' h'
  have hn := hp.nodup_iff.mp (hs l hl).2
  have hn' := hp'.nodup_iff.mp (hs l' hl').2
  simp at hn hn'
  have m : ∀ u ∈ [v, w, z], u ∈ l := fun u hu => hp.mem_iff.mpr hu
  have m' : ∀ u ∈ [v', w', z'], u ∈ l' := fun u hu => hp'.mem_iff.mpr hu
  have i1 := wf.mid_inj hs hl hl' (m v (by simp)) (m w (by simp)) (by omega) (m' v' (by simp))
    (m' w' (by simp)) (by omega) e1
  have i2 := wf.mid_inj hs hl hl' (m w (by simp)) (m z (by simp)) (by omega) (m' w' (by simp))
    (m' z' (by simp)) (by omega) e2
  have : v = v' ∧ w = w' ∧ z = z' := by omega
  obtain ⟨rfl, rfl, rfl⟩ := this
  exact hp.trans hp'.symm

/-- the corners and midpoints of a triangle are different -/
theorem mids_ne (wf : WF 2 T t) (hs : Simplices 3 T) {a b c : Nat} (hl : [a, b, c] ∈ T) :
    (a ≠ b ∧ b ≠ c ∧ c ≠ a) ∧ (a < t.nElements 0 ∧ b < t.nElements 0 ∧ c < t.nElements 0) ∧
    (t.nElements 0 ≤ mid t a b ∧ t.nElements 0 ≤ mid t b c ∧ t.nElements 0 ≤ mid t c a) ∧
    mid t a b ≠ mid t b c ∧ mid t b c ≠ mid t c a ∧ mid t c a ≠ mid t a b := by
  have hn := (hs _ hl).2
  simp at hn
  have d : a ≠ b ∧ b ≠ c ∧ c ≠ a := by omega
  refine ⟨d, ⟨wf.vertex_lt hs hl (by simp), wf.vertex_lt hs hl (by simp), wf.vertex_lt hs hl (by simp)⟩,
    ⟨WF.mid_ge _ _ _, WF.mid_ge _ _ _, WF.mid_ge _ _ _⟩, ?_, ?_, ?_⟩
  · intro e
    have := wf.mid_inj hs hl hl (by simp) (by simp) d.1 (by simp) (by simp) d.2.1 e
    omega
  · intro e
    have := wf.mid_inj hs hl hl (by simp) (by simp) d.2.1 (by simp) (by simp) d.2.2 e
    omega
  · intro e
    have := wf.mid_inj hs hl hl (by simp) (by simp) d.2.2 (by simp) (by simp) d.1 e
    omega

theorem loop_once (wf : WF 2 T t) (h : OrientedSurface T) :
    (directedEdges (T.map (kidsOf t)).flatten).Nodup := by
  have hs := h.simplices
  have hT : ∀ l ∈ T, l.length = 3 := fun l hl => (hs l hl).1
  rw [(directedEdges_kids hT).nodup_iff]
  have edge : ∀ p ∈ directedEdges T, ∃ l ∈ T, p.1 ∈ l ∧ p.2 ∈ l ∧ p.1 ≠ p.2 := by
    rintro ⟨a, b⟩ hp
    obtain ⟨l, hl, he⟩ := List.mem_flatMap.mp hp
    exact ⟨l, hl, (triangleEdges_mem he).1, (triangleEdges_mem he).2, triangleEdges_ne (hs l hl).2 he⟩
  have inner : ∀ x y, (x, y) ∈ T.flatMap (innerOf t) → t.nElements 0 ≤ x ∧ t.nElements 0 ≤ y := by
    intro x y hxy
    obtain ⟨l, _, he⟩ := List.mem_flatMap.mp hxy
    obtain ⟨v, w, z, rfl, rfl, _⟩ := inner_mids he
    exact ⟨WF.mid_ge _ _ _, WF.mid_ge _ _ _⟩
  have half : ∀ x y, (x, y) ∈ (directedEdges T).flatMap (halvesOf t) →
      x < t.nElements 0 ∨ y < t.nElements 0 := by
    intro x y hxy
    obtain ⟨⟨a, b⟩, hp, he⟩ := List.mem_flatMap.mp hxy
    obtain ⟨l, hl, h1, h2, _⟩ := edge _ hp
    have g1 := wf.vertex_lt hs hl h1
    have g2 := wf.vertex_lt hs hl h2
    simp only [halvesOf, List.mem_cons, Prod.mk.injEq, List.not_mem_nil, or_false] at he g1 g2
    rcases he with ⟨rfl, rfl⟩ | ⟨rfl, rfl⟩
    · exact Or.inl g1
    · exact Or.inr g2
  have hin : (T.flatMap (innerOf t)).Nodup := by
    rw [List.nodup_flatMap]
    constructor
    · intro l hl
      obtain ⟨a, b, c, rfl⟩ := length_three (hT l hl)
      obtain ⟨_, _, _, e1, e2, e3⟩ := mids_ne wf hs hl
      simp only [innerOf, List.nodup_cons, List.mem_cons, Prod.mk.injEq, List.not_mem_nil, or_false,
        not_false_eq_true, List.nodup_nil, and_true]
      omega
    · refine h.distinct.imp_of_mem fun {l l'} hl hl' hne => ?_
      rintro ⟨x, y⟩ h1 h2
      exact hne (inner_perm wf hs hl hl' h1 (Or.inl h2))
  refine List.nodup_append.mpr ⟨?_, List.nodup_append.mpr ⟨hin, hin.map Prod.swap_injective, ?_⟩, ?_⟩
  · rw [List.nodup_flatMap]
    constructor
    · rintro ⟨a, b⟩ hp
      obtain ⟨l, hl, h1, h2, _⟩ := edge _ hp
      have g1 := wf.vertex_lt hs hl h1
      have := WF.mid_ge t a b
      simp only [halvesOf, List.nodup_cons, List.mem_cons, Prod.mk.injEq, List.not_mem_nil, or_false,
        not_false_eq_true, List.nodup_nil, and_true] at g1 ⊢
      omega
    · refine List.Pairwise.imp_of_mem (fun {p q} hp hq hne => ?_) h.once
      rintro ⟨x, y⟩ h1 h2
      obtain ⟨l, hl, a1, a2, a3⟩ := edge _ hp
      obtain ⟨l', hl', b1, b2, b3⟩ := edge _ hq
      have g1 := wf.vertex_lt hs hl a1
      have g2 := wf.vertex_lt hs hl a2
      have g3 := wf.vertex_lt hs hl' b1
      have g4 := wf.vertex_lt hs hl' b2
      have k1 := WF.mid_ge t p.1 p.2
      have k2 := WF.mid_ge t q.1 q.2
      simp only [halvesOf, List.mem_cons, Prod.mk.injEq, List.not_mem_nil, or_false] at h1 h2
      have hmid : mid t p.1 p.2 = mid t q.1 q.2 ∧ (p.1 = q.1 ∨ p.2 = q.2) := by omega
      have := wf.mid_inj hs hl hl' a1 a2 a3 b1 b2 b3 hmid.1
      exact hne (Prod.ext (by omega) (by omega))
  · rintro ⟨x, y⟩ h1 ⟨x', y'⟩ h2 e
    obtain ⟨rfl, rfl⟩ := Prod.mk.inj e
    obtain ⟨⟨y0, x0⟩, h3, e3⟩ := List.mem_map.mp h2
    obtain ⟨rfl, rfl⟩ := Prod.mk.inj e3
    obtain ⟨l, hl, k1⟩ := List.mem_flatMap.mp h1
    obtain ⟨l', hl', k2⟩ := List.mem_flatMap.mp h3
    have := eq_of_perm h.distinct hl hl' (inner_perm wf hs hl hl' k1 (Or.inr k2))
    subst this
    obtain ⟨a, b, c, rfl⟩ := length_three (hT l hl)
    obtain ⟨_, _, _, e1, e2, e3⟩ := mids_ne wf hs hl
    simp only [innerOf, List.mem_cons, Prod.mk.injEq, List.not_mem_nil, or_false] at k1 k2
    omega
  · rintro ⟨x, y⟩ h1 ⟨x', y'⟩ h2 e
    obtain ⟨rfl, rfl⟩ := Prod.mk.inj e
    have i1 := half _ _ h1
    rcases List.mem_append.mp h2 with h2 | h2
    · have := inner _ _ h2
      omega
    · obtain ⟨⟨y0, x0⟩, h3, e3⟩ := List.mem_map.mp h2
      obtain ⟨rfl, rfl⟩ := Prod.mk.inj e3
      have := inner _ _ h3
      simp only at i1
      omega

theorem kid_perm (wf : WF 2 T t) (hs : Simplices 3 T) {l l' : List Nat} (hl : l ∈ T) (hl' : l' ∈ T)
    {r r' : List Nat} (hr : r ∈ kidsOf t l) (hr' : r' ∈ kidsOf t l') (hp : r.Perm r') : l.Perm l' := by
  obtain ⟨a, b, c, rfl⟩ := length_three (hs l hl).1
  obtain ⟨a', b', c', rfl⟩ := length_three (hs l' hl').1
  obtain ⟨_, ⟨v1, v2, v3⟩, ⟨g1, g2, g3⟩, e1, e2, e3⟩ := mids_ne wf hs hl
  obtain ⟨_, ⟨w1, w2, w3⟩, ⟨k1, k2, k3⟩, f1, f2, f3⟩ := mids_ne wf hs hl'
  -- two different midpoints of the first are midpoints of the second
  have key : ∀ x y, (x, y) ∈ innerOf t [a, b, c] → x ∈ r → y ∈ r → [a, b, c].Perm [a', b', c'] := by
    intro x y hxy hx hy
    refine inner_perm wf hs hl hl' hxy ?_
    have hx' := hp.mem_iff.mp hx
    have hy' := hp.mem_iff.mp hy
    obtain ⟨v, w, z, ex, ey, hpp⟩ := inner_mids hxy
    have gx : t.nElements 0 ≤ x := ex ▸ WF.mid_ge t v w
    have gy : t.nElements 0 ≤ y := ey ▸ WF.mid_ge t w z
    have hne : x ≠ y := by
      simp only [innerOf, List.mem_cons, Prod.mk.injEq, List.not_mem_nil, or_false] at hxy
      omega
    have hm : ∀ u ∈ r', t.nElements 0 ≤ u → u = mid t a' b' ∨ u = mid t b' c' ∨ u = mid t c' a' := by
      intro u hu hge
      simp only [kidsOf, kids, List.getElem?_cons_zero, List.getElem?_cons_succ, Option.getD_some,
        List.mem_cons, List.not_mem_nil, or_false] at hr'
      rcases hr' with rfl | rfl | rfl | rfl <;> simp only [List.mem_cons, List.not_mem_nil, or_false] at hu <;>
        omega
    have mx := hm x hx' gx
    have my := hm y hy' gy
    simp only [innerOf, List.mem_cons, Prod.mk.injEq, List.not_mem_nil, or_false]
    rcases mx with mx | mx | mx <;> rcases my with my | my | my <;>
      first
        | exact absurd (mx.trans my.symm) hne
        | (simp only [mx, my, true_and, and_true, and_self, true_or, or_true])
  simp only [kidsOf, kids, List.getElem?_cons_zero, List.getElem?_cons_succ, Option.getD_some,
    List.mem_cons, List.not_mem_nil, or_false] at hr
  rcases hr with rfl | rfl | rfl | rfl
  · exact key (mid t b c) (mid t c a) (by simp [innerOf]) (by simp) (by simp)
  · exact key (mid t c a) (mid t a b) (by simp [innerOf]) (by simp) (by simp)
  · exact key (mid t a b) (mid t b c) (by simp [innerOf]) (by simp) (by simp)
  · exact key (mid t b c) (mid t c a) (by simp [innerOf]) (by simp) (by simp)

theorem loop_distinct (wf : WF 2 T t) (hs : Simplices 3 T) (h : DistinctElements T) :
    DistinctElements (T.map (kidsOf t)).flatten := by
  unfold DistinctElements
  rw [List.pairwise_flatten]
  constructor
  · intro L hL
    obtain ⟨l, hl, rfl⟩ := List.mem_map.mp hL
    obtain ⟨a, b, c, rfl⟩ := length_three (hs l hl).1
    obtain ⟨⟨d1, d2, d3⟩, ⟨v1, v2, v3⟩, ⟨g1, g2, g3⟩, e1, e2, e3⟩ := mids_ne wf hs hl
    have ne : ∀ {x y z : Nat} {r : List Nat}, x ∉ r → ¬ r.Perm [x, y, z] := fun hx hp =>
      hx (hp.mem_iff.mpr (by simp))
    simp only [kidsOf, kids, List.getElem?_cons_zero, List.getElem?_cons_succ, Option.getD_some,
      List.pairwise_cons, List.mem_cons, List.not_mem_nil, or_false, forall_eq_or_imp, forall_eq,
      List.Pairwise.nil, and_true, IsEmpty.forall_iff, implies_true]
    refine ⟨⟨?_, ?_, ?_⟩, ⟨?_, ?_⟩, ?_⟩ <;>
      exact ne (by simp only [List.mem_cons, List.not_mem_nil, or_false]; omega)
  · rw [List.pairwise_map]
    exact h.imp_of_mem fun {l l'} hl hl' hne r hr r' hr' hp => hne (kid_perm wf hs hl hl' hr hr' hp)

theorem adjacent_of_edges {S : List (List Nat)} (hs : Simplices 3 S) (ho : (directedEdges S).Nodup)
    {a b j1 j2 : Nat} {l1 l2 : List Nat} (e1 : S[j1]? = some l1) (e2 : S[j2]? = some l2)
    (p1 : (a, b) ∈ triangleEdges l1) (p2 : (b, a) ∈ triangleEdges l2) : Adjacent S j1 j2 :=
  ⟨_, shared_of_count hs e1 e2 p1 p2 (fun _ _ h1 h2 => nodup_flatMap_index _ ho h1 e1 h2 p1)
    fun _ _ h1 h2 => nodup_flatMap_index _ ho h1 e2 h2 p2⟩

theorem loop_connected (wf : WF 2 T t) (h : OrientedSurface T) :
    Connected (T.map (kidsOf t)).flatten := by
  have hs := h.simplices
  have hs' := wf.loop_simplices hs
  have ho := loop_once wf h
  set S := (T.map (kidsOf t)).flatten with hS
  have row : ∀ {j i : Nat} {l r : List Nat}, T[j]? = some l → i < 4 → (kidsOf t l)[i]? = some r →
      S[4 * j + i]? = some r := by
    intro j i l r hl hi hr
    rw [hS, WF.loop_row]
    exact ⟨l, by rw [show (4 * j + i) / 4 = j by omega]; exact hl,
      by rw [show (4 * j + i) % 4 = i by omega]; exact hr⟩
  have adj_symm : ∀ {x y : Nat}, Adjacent S x y → Adjacent S y x := by
    rintro x y ⟨e, h1, h2, h3, h4⟩
    exact ⟨e, h1.symm, h3, h2, fun j l hj => (h4 j l hj).trans or_comm⟩
  -- a child and the middle
  have toMid : ∀ {j i : Nat}, j < T.length → i < 4 → Relation.ReflTransGen (Adjacent S) (4 * j + i) (4 * j) := by
    intro j i hj hi
    have hl := List.getElem?_eq_getElem hj
    have hmem := List.getElem_mem hj
    obtain ⟨a, b, c, e⟩ := length_three (hs _ hmem).1
    rw [e] at hl
    have r0 := row (i := 0) hl (by omega) rfl
    rw [Nat.add_zero] at r0
    match i, hi with
    | 0, _ => exact Relation.ReflTransGen.refl
    | 1, _ =>
      refine Relation.ReflTransGen.single (adjacent_of_edges hs' ho (row (i := 1) hl (by omega) rfl) r0
        (a := mid t a b) (b := mid t c a) ?_ ?_) <;> simp [triangleEdges]
    | 2, _ =>
      refine Relation.ReflTransGen.single (adjacent_of_edges hs' ho (row (i := 2) hl (by omega) rfl) r0
        (a := mid t b c) (b := mid t a b) ?_ ?_) <;> simp [triangleEdges]
    | 3, _ =>
      refine Relation.ReflTransGen.single (adjacent_of_edges hs' ho (row (i := 3) hl (by omega) rfl) r0
        (a := mid t c a) (b := mid t b c) ?_ ?_) <;> simp [triangleEdges]
  have symm : ∀ {x y : Nat}, Relation.ReflTransGen (Adjacent S) x y → Relation.ReflTransGen (Adjacent S) y x :=
    fun hxy => by
      induction hxy with
      | refl => exact Relation.ReflTransGen.refl
      | tail _ h1 ih => exact (Relation.ReflTransGen.single (adj_symm h1)).trans ih
  -- the children at a half of an edge
  have halfKid : ∀ {l : List Nat} {a b : Nat}, l.length = 3 → (a, b) ∈ triangleEdges l →
      (∃ i r, i < 4 ∧ (kidsOf t l)[i]? = some r ∧ (a, mid t a b) ∈ triangleEdges r) ∧
      ∃ i r, i < 4 ∧ (kidsOf t l)[i]? = some r ∧ (mid t a b, b) ∈ triangleEdges r := by
    intro l a b hl hab
    obtain ⟨x, y, z, rfl⟩ := length_three hl
    simp only [triangleEdges, List.mem_cons, Prod.mk.injEq, List.not_mem_nil, or_false] at hab
    rcases hab with ⟨rfl, rfl⟩ | ⟨rfl, rfl⟩ | ⟨rfl, rfl⟩
    · exact ⟨⟨1, _, by omega, rfl, by simp [triangleEdges]⟩, ⟨2, _, by omega, rfl, by simp [triangleEdges]⟩⟩
    · exact ⟨⟨2, _, by omega, rfl, by simp [triangleEdges]⟩, ⟨3, _, by omega, rfl, by simp [triangleEdges]⟩⟩
    · exact ⟨⟨3, _, by omega, rfl, by simp [triangleEdges]⟩, ⟨1, _, by omega, rfl, by simp [triangleEdges]⟩⟩
  have cross : ∀ {j j' : Nat} {a b : Nat} {l l' : List Nat}, T[j]? = some l → T[j']? = some l' →
      (a, b) ∈ triangleEdges l → (b, a) ∈ triangleEdges l' →
      Relation.ReflTransGen (Adjacent S) (4 * j) (4 * j') := by
    intro j j' a b l l' hl hl' hab hba
    have hj := (List.getElem?_eq_some_iff.mp hl).1
    have hj' := (List.getElem?_eq_some_iff.mp hl').1
    obtain ⟨⟨i, r, hi, hr, he⟩, _⟩ := halfKid (hs l (List.mem_of_getElem? hl)).1 hab
    obtain ⟨_, ⟨i', r', hi', hr', he'⟩⟩ := halfKid (hs l' (List.mem_of_getElem? hl')).1 hba
    rw [mid_comm t b a] at he'
    have := adjacent_of_edges hs' ho (row hl hi hr) (row hl' hi' hr') he he'
    exact (symm (toMid hj hi)).trans ((Relation.ReflTransGen.single this).trans (toMid hj' hi'))
  have step : ∀ {j j' : Nat}, Adjacent T j j' → Relation.ReflTransGen (Adjacent S) (4 * j) (4 * j') := by
    rintro j j' ⟨e, h1, h2, h3, h4⟩
    have hl := List.getElem?_eq_getElem h2
    have hl' := List.getElem?_eq_getElem h3
    have f1 := (h4 _ _ hl).mpr (Or.inl rfl)
    have f2 := (h4 _ _ hl').mpr (Or.inr rfl)
    have s1 := hs _ (List.getElem_mem h2)
    have s2 := hs _ (List.getElem_mem h3)
    obtain ⟨a, b, rfl⟩ := isFace_length s1.1 f1
    rw [isFace_pair s1.1] at f1
    rw [isFace_pair s2.1] at f2
    rcases f1 with f1 | f1 <;> rcases f2 with f2 | f2
    · exact absurd (nodup_flatMap_index _ h.once hl hl' f1 f2) h1
    · exact cross hl hl' f1 f2
    · exact cross hl hl' f1 f2
    · exact absurd (nodup_flatMap_index _ h.once hl hl' f1 f2) h1
  have steps : ∀ {j j' : Nat}, Relation.ReflTransGen (Adjacent T) j j' →
      Relation.ReflTransGen (Adjacent S) (4 * j) (4 * j') := fun hjj => by
    induction hjj with
    | refl => exact Relation.ReflTransGen.refl
    | tail _ h1 ih => exact ih.trans (step h1)
  have hlen : S.length = 4 * T.length := by
    rw [hS, List.length_flatten, List.map_map]
    have : ∀ l ∈ T, (List.length ∘ kidsOf t) l = 4 := fun _ _ => rfl
    rw [List.map_congr_left this, List.map_const', List.sum_replicate, smul_eq_mul, Nat.mul_comm]
  intro j1 h1 j2 h2
  have a1 := toMid (j := j1 / 4) (i := j1 % 4) (by omega) (by omega)
  have a2 := toMid (j := j2 / 4) (i := j2 % 4) (by omega) (by omega)
  rw [show 4 * (j1 / 4) + j1 % 4 = j1 by omega] at a1
  rw [show 4 * (j2 / 4) + j2 % 4 = j2 by omega] at a2
  exact a1.trans ((steps (h.connected (j1 / 4) (by omega) (j2 / 4) (by omega))).trans (symm a2))

/-- Loop subdivision of a connected closed oriented surface is one -/
theorem loop_surface (wf : WF 2 T t) (h : OrientedSurface T) :
    OrientedSurface (T.map (kidsOf t)).flatten :=
  ⟨wf.loop_simplices h.simplices, loop_distinct wf h.simplices h.distinct, loop_once wf h,
    loop_closed (fun l hl => (h.simplices l hl).1) h.closed, loop_connected wf h⟩

end Verif
