/-
C71: extruding a surface gives a closed surface.
-/
import Verif.Lemmas.Extrude
import Verif.Props.PickingInstances

set_option linter.unusedSectionVars false

namespace Verif.Props

open Verif.Model Verif.Spec

variable {uniq : List (List Nat) → List (List Nat)} {solve : List (List Int) → Option (List Int)}
  {t : Topo} {T : List (List Nat)}

/-! ### the border of a topology -/

theorem mem_bRows (wf : WF 2 T t) (hs : Simplices 3 T) (h2 : AtMostTwo T) (hco : Coherent T)
    {e : List Nat} : e ∈ bRows t ↔ e ∈ t.elements[1]?.getD [] ∧ BoundaryFace T e := by
  have hd := (wf.get (k := 1) (by omega)).2.2.1
  constructor
  · intro hm
    refine ⟨bRows_mem wf e hm, ?_⟩
    rw [bRows_eq wf, bIdx_coherent wf (by omega) hs h2 hco] at hm
    obtain ⟨i, hi1, he⟩ := List.mem_map.1 hm
    obtain ⟨hr1, hr2⟩ := List.mem_filter.1 hi1
    have hlt : i < (t.elements[1]?.getD []).length := List.mem_range.1 hr1
    have hi' := List.getElem?_eq_getElem hlt
    rw [hi', Option.getD_some] at he
    rcases wf.rowSum_coherent (by omega) hs h2 hco hi' with ⟨hbf, -⟩ | ⟨-, hr⟩
    · rw [← he]; exact hbf
    · rw [hr] at hr2; simp at hr2
  · rintro ⟨he, hbf⟩
    obtain ⟨i, hi, rfl⟩ := List.getElem_of_mem he
    have hi' := List.getElem?_eq_getElem hi
    rw [bRows_eq wf, bIdx_coherent wf (by omega) hs h2 hco]
    refine List.mem_map.2 ⟨i, List.mem_filter.2 ⟨List.mem_range.2 hi, ?_⟩, by rw [hi']; rfl⟩
    rcases wf.rowSum_coherent (by omega) hs h2 hco hi' with ⟨-, hr⟩ | ⟨hnb, -⟩
    · rw [hr]; rfl
    · exact absurd hbf hnb

theorem elements_nodup (wf : WF 2 T t) : (t.elements[1]?.getD []).Nodup :=
  List.Pairwise.imp (fun {_ _} h he => h (List.Perm.of_eq he)) (wf.get (k := 1) (by omega)).2.2.1

/-- the boundary faces, as stored, are the border of the surface in the direction of its triangles -/
theorem bRows_border (wf : WF 2 T t) (hs : Simplices 3 T) (h2 : AtMostTwo T) (hco : Coherent T) :
    ∃ E : List (Nat × Nat), bRows t = E.map (fun e => [e.1, e.2]) ∧ IsBorder T E := by
  obtain ⟨w1, w2, w3, w4, w5⟩ := wf.get (k := 1) (by omega)
  have htop : t.elements[2]?.getD [] = T := by rw [wf.top_eq]; rfl
  rw [htop] at w4
  have hnd := directedEdges_nodup hs h2 hco
  have hpair : ∀ r ∈ bRows t, ∃ a b, r = [a, b] := by
    intro r hr
    have := (w1 r (bRows_mem wf r hr)).1
    match r, this with
    | [a, b], _ => exact ⟨a, b, rfl⟩
  have hdir : ∀ a b, [a, b] ∈ t.elements[1]?.getD [] → (a, b) ∈ directedEdges T := by
    intro a b he
    obtain ⟨l, hl, c, hc, hp, hsg⟩ := wf.inherited 1 le_rfl (by omega) _ he
    rw [htop] at hl
    have hln := hs l hl
    have hone : inducedSign [a, b] l = 1 := by
      rw [inducedSign_eq_cob, cob_relSign_face hln.2 hc hp]; exact hsg
    have hab : a ≠ b := by
      have := (w1 _ he).2
      simpa using this
    rw [inducedSign_edge hln.1 hln.2 hab] at hone
    by_contra hno
    have hno' : (a, b) ∉ triangleEdges l := fun h => hno (List.mem_flatMap.2 ⟨l, hl, h⟩)
    rw [if_neg hno'] at hone
    split at hone <;> simp at hone
  refine ⟨(bRows t).map fun r => (r[0]?.getD 0, r[1]?.getD 0), ?_, ?_, ?_⟩
  · rw [List.map_map]
    conv_lhs => rw [← List.map_id (bRows t)]
    refine List.map_congr_left fun r hr => ?_
    obtain ⟨a, b, rfl⟩ := hpair r hr
    rfl
  · refine List.Nodup.map_on ?_ ?_
    · intro r hr r' hr' h
      obtain ⟨a, b, rfl⟩ := hpair r hr
      obtain ⟨a', b', rfl⟩ := hpair r' hr'
      simpa using h
    · have hsub : (bRows t).Sublist (t.elements[1]?.getD []) := by
        rw [bRows_eq wf, bIdx_eq wf]
        have hid : t.elements[1]?.getD [] = (List.range (t.nElements 1)).map
            fun i => (t.elements[1]?.getD [])[i]?.getD [] := by
          apply List.ext_getElem
          · simp [Topo.nElements]
          · intro i h1 h2
            simp [List.getElem?_eq_getElem h1]
        conv_rhs => rw [hid]
        exact List.filter_sublist.map _
      exact hsub.nodup (elements_nodup wf)
  · intro a b
    have hmem : (a, b) ∈ (bRows t).map (fun r => (r[0]?.getD 0, r[1]?.getD 0)) ↔
        [a, b] ∈ bRows t := by
      rw [List.mem_map]
      constructor
      · rintro ⟨r, hr, h⟩
        obtain ⟨x, y, rfl⟩ := hpair r hr
        simp at h
        rw [← h.1, ← h.2]
        exact hr
      · intro h
        exact ⟨_, h, rfl⟩
    rw [hmem, mem_bRows wf hs h2 hco]
    constructor
    · rintro ⟨he, hbf⟩
      refine ⟨hdir a b he, fun hback => ?_⟩
      obtain ⟨j, l, hj, hp⟩ := mem_directedEdges.1 (hdir a b he)
      obtain ⟨j', l', hj', hp'⟩ := mem_directedEdges.1 hback
      have sl := hs l (List.mem_of_getElem? hj)
      have sl' := hs l' (List.mem_of_getElem? hj')
      obtain ⟨j0, -, -, -, huniq⟩ := hbf
      have e1 := huniq j l hj ((isFace_pair sl.1).2 (Or.inl hp))
      have e2 := huniq j' l' hj' ((isFace_pair sl'.1).2 (Or.inr hp'))
      rw [e1] at hj
      rw [e2, hj] at hj'
      rw [← Option.some.inj hj'] at hp'
      exact triangleEdges_not_back sl.2 hp hp'
    · rintro ⟨hd, hback⟩
      obtain ⟨j, l, hj, hp⟩ := mem_directedEdges.1 hd
      have hl := List.mem_of_getElem? hj
      have sl := hs l hl
      obtain ⟨c, hc, hpc⟩ := (isFace_pair sl.1).2 (Or.inl hp)
      obtain ⟨e, he, hpe⟩ := w4.1 l hl c hc
      have hee : e = [a, b] := by
        have hlen := (w1 e he).1
        match e, hlen with
        | [x, y], _ =>
          rcases Verif.perm_pair.1 (hpe.trans hpc.symm) with ⟨rfl, rfl⟩ | ⟨rfl, rfl⟩
          · rfl
          · exact absurd (hdir _ _ he) hback
      rw [hee] at he
      refine ⟨he, j, l, hj, ⟨c, hc, hpc⟩, ?_⟩
      intro j' l' hj' hf
      have sl' := hs l' (List.mem_of_getElem? hj')
      rcases (isFace_pair sl'.1).1 hf with p | p
      · exact nodup_flatMap_index _ hnd hj' hj p hp
      · exact absurd (mem_directedEdges.2 ⟨j', l', hj', p⟩) hback

theorem fancyRows_ok {α : Type} {rows : List α} {idx : List Nat} (d : α)
    (h : ∀ i ∈ idx, i < rows.length) :
    fancyRows rows idx = .ok (idx.map fun i => rows[i]?.getD d) := by
  unfold fancyRows
  refine mapM_ok _ _ _ fun i hi => ?_
  simp [List.getElem?_eq_getElem (h i hi)]

theorem rowSum_induced (wf : WF 2 T t) {i : Nat} {e : List Nat}
    (hi : (t.elements[1]?.getD [])[i]? = some e) :
    rowSum t 1 i = - (T.map fun l => inducedSign e l).sum := by
  obtain ⟨w1, w2, w3, w4, w5⟩ := wf.get (k := 1) (by omega)
  have htop : t.elements[2]?.getD [] = T := by rw [wf.top_eq]; rfl
  rw [htop] at w2 w4 w5
  unfold rowSum
  rw [(wf.shape (k := 1) (by omega)).2, Topo.nElements, htop]
  have hmap : (List.range T.length).map (fun j => (t.matrix 1).entry i j) =
      T.map fun l => -1 * inducedSign e l := by
    apply List.ext_getElem
    · simp
    · intro j hj _
      have hj' : j < T.length := by simpa using hj
      simp only [List.getElem_map, List.getElem_range]
      rw [inducedSign_eq_cob]
      exact entry_eq_cob w2 w3 w5 hi (List.getElem?_eq_getElem hj')
  rw [hmap, List.sum_map_mul_left]
  ring

/-- a closed surface has no boundary -/
theorem closed_no_boundary (wf : WF 2 T t) (hs : Simplices 3 T) (hc : ClosedSurface T)
    (hor : isOriented solve t = .ok true) : boundary solve uniq t = .ok none := by
  have hnil : bIdx t = [] := by
    rw [bIdx_eq wf, List.filter_eq_nil_iff]
    intro i hi
    have hlt : i < (t.elements[1]?.getD []).length := List.mem_range.1 hi
    have hi' := List.getElem?_eq_getElem hlt
    have w1 := (wf.get (k := 1) (by omega)).1 _ (List.mem_of_getElem? hi')
    rw [rowSum_induced wf hi']
    generalize (t.elements[1]?.getD [])[i] = e at w1
    match e, w1 with
    | [a, b], w1 =>
      have hab : a ≠ b := by simpa using w1.2
      rw [← count_directedEdges hab hs, hc a b, sub_self]
      decide
  rw [boundary_eq hor, hnil]
  rfl

/-! ### extrusion -/

section

variable {K : Type} [Field K] {d : Nat}

theorem solidTriangles_prism (n : Nat) (T : List (List Nat)) (E : List (Nat × Nat)) :
    solidTriangles n T (E.map fun e => [e.1, e.2]) = prism n T E := by
  unfold solidTriangles stripTriangles prism
  simp [List.map_map, Function.comp_def]

/-- what `extrude` comes to, before the last two steps -/
theorem extrude_eq (hu : UniqSpec uniq) (hs : Simplices 3 T) (hsat : SatSpec solve)
    (h : fromSimplices uniq 3 T = .ok t) (h2 : AtMostTwo T) (hor : isOriented solve t = .ok true)
    (hb : ∃ e, BoundaryFace T e) (V other : List (Vec K d)) (w : Option (List K))
    (hV : ∀ l ∈ T, ∀ v ∈ l, v < V.length) :
    ∃ E, IsBorder T E ∧ E ≠ [] ∧ extrude solve uniq true ⟨V, t, w⟩ other = (do
      let t' ← fromSimplices uniq 3 (prism V.length T E)
      let oriented' ← isOriented solve t'
      if !oriented' then .error .assertionError else .ok ⟨V ++ other, t', w⟩) := by
  have hco := C08_true_sound hu hs hsat h hor
  obtain ⟨m, hm, -, wf⟩ := wf_of_ok hu hs h
  have : m = 2 := by omega
  subst this
  obtain ⟨E, hbE, hE⟩ := bRows_border wf hs h2 hco
  have hdis := (wf.get (k := 1) (by omega)).2.2.1
  obtain ⟨s, hsub, hok⟩ := subTopology_ok hu wf hs (k := 0) (by omega) (bRows_mem wf)
  have hne : bIdx t ≠ [] := by
    obtain ⟨e, he⟩ := hb
    have hcl := C09_closed_iff (nCorners := 0) hu hs hsat h h2 hor
    intro hnil
    refine hcl.2.1 ?_ e he
    rw [boundary_eq hor, hnil]
    rfl
  have hlt1 : ∀ i ∈ bIdx t, i < t.nElements 1 := by
    intro i hi
    rw [bIdx_eq wf, List.mem_filter, List.mem_range] at hi
    exact hi.1
  have hp1 : s.parentIdx[1]? = some (bIdx t) :=
    hok.idx_top wf hdis hlt1 (bRows_eq wf)
  have hp0 := hok.idx_zero (by omega) (by omega) wf
  have hlt0 : ∀ i ∈ (relabel (bRows t)).1, i < V.length := by
    intro i hi
    have : i ∈ (bRows t).flatten := by
      unfold relabel at hi
      exact (npUnique_mem _ _).1 hi
    obtain ⟨r, hr, hir⟩ := List.mem_flatten.1 this
    rw [hbE] at hr
    obtain ⟨⟨a, b⟩, hab, rfl⟩ := List.mem_map.1 hr
    obtain ⟨l, hl, hp⟩ := List.mem_flatMap.1 ((hE.2 a b).1 hab).1
    have hml := triangleEdges_mem hp
    simp only [List.mem_cons, List.not_mem_nil, or_false] at hir
    rcases hir with rfl | rfl
    · exact hV l hl _ hml.1
    · exact hV l hl _ hml.2
  refine ⟨E, hE, ?_, ?_⟩
  · rintro rfl
    rw [bRows_eq wf, List.map_nil, List.map_eq_nil_iff] at hbE
    exact hne hbE
  · have hbd : boundary solve uniq t = .ok (some s) := by
      rw [boundary_eq hor, if_neg (by simpa using hne), wf.lenB, hsub]
      rfl
    have htop : t.elements[2]?.getD [] = T := by rw [wf.top_eq]; rfl
    obtain ⟨x0, f0⟩ : ∃ x, fancyRows V (s.parentIdx[0]?.getD []) = .ok x := by
      rw [hp0]; exact ⟨_, fancyRows_ok 0 hlt0⟩
    have f1 : fancyRows (t.elements[1]?.getD []) (s.parentIdx[1]?.getD []) =
        .ok (E.map fun e => [e.1, e.2]) := by
      rw [hp1, Option.getD_some, fancyRows_ok [] hlt1, ← bRows_eq wf, hbE]
    unfold extrude
    simp only [Bool.not_true, Bool.false_eq_true, if_false, hor, bind, Except.bind, hbd, f0, f1, htop,
      solidTriangles_prism]

/-- C71: extruding a connected, oriented surface with a border between its vertices and as many others
succeeds; the result is the surface, its copy turned over and two triangles for every border edge, on
the vertices of both, whatever SAT solver and `unique` are used -/
theorem C71_extrude (hu : UniqSpec uniq) (hs : Simplices 3 T) (hsat : SatSpec solve)
    (h : fromSimplices uniq 3 T = .ok t) (h2 : AtMostTwo T) (hcon : Connected T)
    (hor : isOriented solve t = .ok true) (hb : ∃ e, BoundaryFace T e)
    (V other : List (Vec K d)) (w : Option (List K))
    (hV : ∀ v, (∃ l ∈ T, v ∈ l) ↔ v < V.length) :
    ∃ E t', IsBorder T E ∧ E ≠ [] ∧ fromSimplices uniq 3 (prism V.length T E) = .ok t' ∧
      extrude solve uniq true ⟨V, t, w⟩ other = .ok ⟨V ++ other, t', w⟩ ∧
      isOriented solve t' = .ok true := by
  have hco := C08_true_sound hu hs hsat h hor
  have hlt : ∀ l ∈ T, ∀ v ∈ l, v < V.length := fun l hl v hv => (hV v).1 ⟨l, hl, hv⟩
  obtain ⟨E, hE, hne, hex⟩ := extrude_eq hu hs hsat h h2 hor hb V other w hlt
  have hnd := directedEdges_nodup hs h2 hco
  have hps := prism_simplices hlt hs hE
  have hacc := (C03_accepts_iff (nCorners := 1) hu hps).2 ⟨V.length + V.length, fun v => by
    have hEe : ∀ a b, (a, b) ∈ E → a < V.length ∧ b < V.length := by
      intro a b hab
      obtain ⟨l, hl, hpl⟩ := List.mem_flatMap.1 ((hE.2 a b).1 hab).1
      have hm := triangleEdges_mem hpl
      exact ⟨hlt l hl a hm.1, hlt l hl b hm.2⟩
    constructor
    · rintro ⟨l, hl, hv⟩
      rcases List.mem_append.1 hl with hl | hl
      · rcases List.mem_append.1 hl with hl | hl
        · have := hlt l hl v hv; omega
        · obtain ⟨l', hl', rfl⟩ := List.mem_map.1 hl
          obtain ⟨x, hx, rfl⟩ := List.mem_map.1 hv
          have := hlt l' hl' x (List.mem_reverse.1 hx); omega
      · rcases List.mem_append.1 hl with hl | hl
        · obtain ⟨⟨a, b⟩, he, rfl⟩ := List.mem_map.1 hl
          have := hEe a b he
          simp at hv
          omega
        · obtain ⟨⟨a, b⟩, he, rfl⟩ := List.mem_map.1 hl
          have := hEe a b he
          simp at hv
          omega
    · intro hv
      by_cases hlow : v < V.length
      · obtain ⟨l, hl, hvl⟩ := (hV v).2 hlow
        exact ⟨l, List.mem_append_left _ (List.mem_append_left _ hl), hvl⟩
      · obtain ⟨l, hl, hvl⟩ := (hV (v - V.length)).2 (by omega)
        refine ⟨_, List.mem_append_left _ (List.mem_append_right _ (List.mem_map.2 ⟨l, hl, rfl⟩)), ?_⟩
        exact List.mem_map.2 ⟨v - V.length, List.mem_reverse.2 hvl, by omega⟩⟩
  obtain ⟨t', ht'⟩ := hacc
  have hclosed := prism_closed (n := V.length) hs hnd hE
  have hpne : prism V.length T E ≠ [] := by
    obtain ⟨e, E', rfl⟩ := List.exists_cons_of_ne_nil hne
    intro h0
    have := congrArg List.length h0
    rw [prism_length] at this
    simp at this
  have hor' := (C08_connected_exact hu hps hsat ht' hpne
    (prism_connected hlt hs hnd hE hco hcon hne)).2 (closedSurface_coherent hps hclosed)
  refine ⟨E, t', hE, hne, ht', ?_, hor'⟩
  rw [hex, ht']
  simp only [bind, Except.bind, hor', Bool.not_true, Bool.false_eq_true, if_false]

/-- C71: whatever `extrude` returns is a closed surface: every edge is passed as often in one direction
as in the other, the boundary of the result is `None`, and it has twice the triangles and two more for
every border edge -/
theorem C71_closed (hu : UniqSpec uniq) (hs : Simplices 3 T) (hsat : SatSpec solve)
    (h : fromSimplices uniq 3 T = .ok t) (h2 : AtMostTwo T) (V other : List (Vec K d))
    (w : Option (List K)) (hV : ∀ l ∈ T, ∀ v ∈ l, v < V.length) {r : TriComplex K d}
    (hr : extrude solve uniq true ⟨V, t, w⟩ other = .ok r) :
    ∃ E S, IsBorder T E ∧ r.topo.elements[2]? = some S ∧ S = prism V.length T E ∧ ClosedSurface S ∧
      boundary solve uniq r.topo = .ok none ∧ r.topo.nElements 2 = 2 * T.length + 2 * E.length ∧
      r.vertices = V ++ other := by
  have hor : isOriented solve t = .ok true := by
    unfold extrude at hr
    simp only [Bool.not_true, Bool.false_eq_true, if_false, bind, Except.bind] at hr
    cases ho : isOriented solve t with
    | error e => rw [ho] at hr; simp at hr
    | ok b =>
      cases b with
      | true => rfl
      | false => rw [ho] at hr; simp at hr
  have hco := C08_true_sound hu hs hsat h hor
  have hb : ∃ e, BoundaryFace T e := by
    by_contra hno
    have hcl := (C09_closed_iff (nCorners := 0) hu hs hsat h h2 hor).2.2
      (fun e he => hno ⟨e, he⟩)
    unfold extrude at hr
    simp only [Bool.not_true, Bool.false_eq_true, if_false, bind, Except.bind, hor, hcl] at hr
    simp at hr
  obtain ⟨E, hE, hne, hex⟩ := extrude_eq hu hs hsat h h2 hor hb V other w hV
  have hps := prism_simplices hV hs hE
  rw [hex] at hr
  cases ht' : fromSimplices uniq 3 (prism V.length T E) with
  | error e => rw [ht'] at hr; simp [bind, Except.bind] at hr
  | ok t' =>
    rw [ht'] at hr
    simp only [bind, Except.bind] at hr
    obtain ⟨m, hm, -, wf'⟩ := wf_of_ok hu hps ht'
    have : m = 2 := by omega
    subst this
    have hcl := prism_closed (n := V.length) hs (directedEdges_nodup hs h2 hco) hE
    cases ho : isOriented solve t' with
    | error e => rw [ho] at hr; simp at hr
    | ok b =>
      rw [ho] at hr
      cases b with
      | false => simp at hr
      | true =>
        have hr' : (⟨V ++ other, t', w⟩ : TriComplex K d) = r := by simpa using hr
        subst hr'
        refine ⟨E, _, hE, wf'.top_eq, rfl, hcl, closed_no_boundary wf' hps hcl ho, ?_, rfl⟩
        simp only [Topo.nElements, wf'.top_eq, Option.getD_some, prism_length]

/-- C71: the result has two triangles at every edge exactly if no vertex is the start of two border
edges; where the border touches itself, the vertical edge has four triangles or more -/
theorem C71_two_triangles (hs : Simplices 3 T) (h2 : AtMostTwo T) (hco : Coherent T)
    {E : List (Nat × Nat)} (hE : IsBorder T E) {n : Nat} (hV : ∀ l ∈ T, ∀ v ∈ l, v < n) :
    TwoTriangles (prism n T E) ↔ (E.map Prod.fst).Nodup := by
  have hnd := directedEdges_nodup hs h2 hco
  have hps := prism_simplices hV hs hE
  have hends := border_ends hnd hE
  have hcl := prism_closed (n := n) hs hnd hE
  constructor
  · rintro ⟨ha, -⟩
    by_contra hdup
    obtain ⟨k1, k2, hk1, hk2, hlt, heq⟩ : ∃ k1 k2, ∃ (h1 : k1 < E.length) (h2 : k2 < E.length),
        k1 < k2 ∧ E[k1].1 = E[k2].1 := by
      by_contra hno
      push Not at hno
      apply hdup
      rw [List.nodup_iff_injective_get]
      rintro ⟨i, hi⟩ ⟨j, hj⟩ hij
      simp only [List.get_eq_getElem, List.getElem_map] at hij
      rw [List.length_map] at hi hj
      rcases lt_trichotomy i j with hl | hl | hl
      · exact absurd hij (hno i j hi hj hl)
      · simp [hl]
      · exact absurd hij.symm (hno j i hj hi hl)
    have hm : E[k1].1 ∈ E.map Prod.snd := hends.mem_iff.1 (List.mem_map.2 ⟨_, List.getElem_mem hk1, rfl⟩)
    obtain ⟨e3, he3, hee⟩ := List.mem_map.1 hm
    obtain ⟨k3, hk3⟩ := List.getElem?_of_mem he3
    have g1 := prism_get_side (n := n) (T := T) (List.getElem?_eq_getElem hk1)
    have g2 := prism_get_side (n := n) (T := T) (List.getElem?_eq_getElem hk2)
    have g3 := prism_get_side' (n := n) (T := T) hk3
    have := ha [E[k1].1, E[k1].1 + n] _ _ _ _ _ _ g1 g2 g3
      ((isFace_pair rfl).2 (Or.inl (by simp [triangleEdges])))
      ((isFace_pair rfl).2 (Or.inl (by simp [triangleEdges, heq])))
      ((isFace_pair rfl).2 (Or.inr (by simp [triangleEdges, hee])))
    omega
  · intro hnodup
    have hDn : (directedEdges (prism n T E)).Nodup := by
      rw [(directedEdges_prism hs).nodup_iff, List.nodup_append]
      rcases Nat.eq_zero_or_pos n with rfl | hpos
      · have : directedEdges T = [] := by
          rw [List.eq_nil_iff_forall_not_mem]
          rintro ⟨a, b⟩ hab
          obtain ⟨l, hl, hp⟩ := List.mem_flatMap.1 hab
          have := hV l hl a (triangleEdges_mem hp).1
          omega
        have hE0 : E = [] := by
          rw [List.eq_nil_iff_forall_not_mem]
          rintro ⟨a, b⟩ hab
          have := ((hE.2 a b).1 hab).1
          rw [‹directedEdges T = []›] at this
          simp at this
        subst hE0
        simp [slanted, vertical, this]
      · refine ⟨slanted_nodup hV hs hnd hE, vertical_nodup hnodup (hends.nodup_iff.1 hnodup) hpos, ?_⟩
        rintro p hp q hq rfl
        have h1 := slanted_num hV hs hE hp
        rcases vertical_num hq with h3 | h3
        · exact h1.1 h3
        · exact h1.2 h3
    refine ⟨atMostTwo_of_nodup hps hDn, ?_⟩
    rintro e ⟨j, l, hj, hf, huniq⟩
    have sl := hps l (List.mem_of_getElem? hj)
    obtain ⟨a, b, rfl⟩ := isFace_length sl.1 hf
    have key : ∀ a b, (a, b) ∈ triangleEdges l → IsFace [a, b] l → (∀ (j' : Nat) (l' : List Nat),
        (prism n T E)[j']? = some l' → IsFace [a, b] l' → j' = j) → False := by
      intro a b hp _ huniq
      have hmem : (a, b) ∈ directedEdges (prism n T E) := mem_directedEdges.2 ⟨j, l, hj, hp⟩
      have hc := hcl a b
      have h1 := List.count_pos_iff.2 hmem
      obtain ⟨j', l', hj', hp'⟩ := mem_directedEdges.1 (List.count_pos_iff.1 (hc ▸ h1))
      have sl' := hps l' (List.mem_of_getElem? hj')
      have := huniq j' l' hj' ((isFace_pair sl'.1).2 (Or.inr hp'))
      rw [this, hj] at hj'
      rw [← Option.some.inj hj'] at hp'
      exact triangleEdges_not_back sl.2 hp hp'
    rcases (isFace_pair sl.1).1 hf with hp | hp
    · exact key a b hp hf huniq
    · refine key b a hp ((isFace_pair sl.1).2 (Or.inl hp)) fun j' l' hj' hf' => huniq j' l' hj' ?_
      have sl' := hps l' (List.mem_of_getElem? hj')
      exact (isFace_pair sl'.1).2 ((isFace_pair sl'.1).1 hf').symm

/-- C71: `extrude` fails with an `AssertionError` if the topologies are not one object, if the surface
is not oriented, and if it has no border -/
theorem C71_rejects (V other : List (Vec K d)) (w : Option (List K)) :
    extrude solve uniq false ⟨V, t, w⟩ other = .error .assertionError ∧
    (isOriented solve t = .ok false →
      extrude solve uniq true ⟨V, t, w⟩ other = .error .assertionError) ∧
    (isOriented solve t = .ok true → boundary solve uniq t = .ok none →
      extrude solve uniq true ⟨V, t, w⟩ other = .error .assertionError) := by
  refine ⟨rfl, fun ho => ?_, fun ho hb => ?_⟩
  · unfold extrude
    simp [ho, bind, Except.bind]
  · unfold extrude
    simp [ho, hb, bind, Except.bind]

/-- C71: with positions that no triangle uses, `extrude` fails: the vertices of the result are not
numbered without gaps -/
theorem C71_unused_position (hu : UniqSpec uniq) (hs : Simplices 3 T) (hsat : SatSpec solve)
    (h : fromSimplices uniq 3 T = .ok t) (h2 : AtMostTwo T) (V other : List (Vec K d))
    (w : Option (List K)) (hV : ∀ l ∈ T, ∀ v ∈ l, v < V.length) {u : Nat} (hu' : u < V.length)
    (hun : ∀ l ∈ T, u ∉ l) (r : TriComplex K d) :
    extrude solve uniq true ⟨V, t, w⟩ other ≠ .ok r := by
  intro hr
  obtain ⟨E, S, hE, hS, hSp, -, -, -, -⟩ := C71_closed hu hs hsat h h2 V other w hV hr
  have hco : Simplices 3 (prism V.length T E) := prism_simplices hV hs hE
  have hEe : ∀ a b, (a, b) ∈ E → (a ≠ u ∧ b ≠ u) ∧ a < V.length ∧ b < V.length := by
    intro a b hab
    obtain ⟨l, hl, hpl⟩ := List.mem_flatMap.1 ((hE.2 a b).1 hab).1
    have hm := triangleEdges_mem hpl
    exact ⟨⟨fun h => hun l hl (h ▸ hm.1), fun h => hun l hl (h ▸ hm.2)⟩, hV l hl a hm.1,
      hV l hl b hm.2⟩
  -- the topology of the result was built from the prism
  have hbuilt : ∃ t', fromSimplices uniq 3 (prism V.length T E) = .ok t' := by
    have hor : isOriented solve t = .ok true := by
      unfold extrude at hr
      simp only [Bool.not_true, Bool.false_eq_true, if_false, bind, Except.bind] at hr
      cases ho : isOriented solve t with
      | error e => rw [ho] at hr; simp at hr
      | ok b =>
        cases b with
        | true => rfl
        | false => rw [ho] at hr; simp at hr
    have hb : ∃ e, BoundaryFace T e := by
      by_contra hno
      have hcl := (C09_closed_iff (nCorners := 0) hu hs hsat h h2 hor).2.2
        (fun e he => hno ⟨e, he⟩)
      rw [(C71_rejects V other w).2.2 hor hcl] at hr
      simp at hr
    obtain ⟨E', hE', -, hex⟩ := extrude_eq hu hs hsat h h2 hor hb V other w hV
    rw [hex] at hr
    cases ht' : fromSimplices uniq 3 (prism V.length T E') with
    | error e => rw [ht'] at hr; simp [bind, Except.bind] at hr
    | ok t' =>
      obtain ⟨m, hm, -, wf'⟩ := wf_of_ok hu (prism_simplices hV hs hE') ht'
      have : m = 2 := by omega
      subst this
      rw [ht'] at hr
      simp only [bind, Except.bind] at hr
      cases ho : isOriented solve t' with
      | error e => rw [ho] at hr; simp at hr
      | ok b =>
        rw [ho] at hr
        cases b with
        | false => simp at hr
        | true =>
          have hr' : (⟨V ++ other, t', w⟩ : TriComplex K d) = r := by simpa using hr
          subst hr'
          rw [wf'.top_eq] at hS
          rw [← hSp, ← Option.some.inj hS]
          exact ⟨t', ht'⟩
  obtain ⟨m, hm⟩ := (C03_accepts_iff (nCorners := 1) hu hco).1 hbuilt
  -- the copy of a used vertex lies above the unused one
  obtain ⟨l, hl⟩ : ∃ l, l ∈ T := by
    rcases T with _ | ⟨l, T⟩
    · have hE0 : E = [] := by
        rw [List.eq_nil_iff_forall_not_mem]
        rintro ⟨a, b⟩ hab
        have := ((hE.2 a b).1 hab).1
        simp [directedEdges] at this
      subst hE0
      obtain ⟨t', ht'⟩ := hbuilt
      obtain ⟨t0, ht0⟩ : ∃ t0, t0 = t := ⟨t, rfl⟩
      have hor := hr
      unfold extrude at hor
      simp only [Bool.not_true, Bool.false_eq_true, if_false, bind, Except.bind] at hor
      cases ho : isOriented solve t with
      | error e => rw [ho] at hor; simp at hor
      | ok b =>
        cases b with
        | false => rw [ho] at hor; simp at hor
        | true =>
          have hcl := (C09_closed_iff (nCorners := 0) hu hs hsat h h2 ho).2.2
            (fun e he => by obtain ⟨j, l, hj, -⟩ := he; simp at hj)
          rw [(C71_rejects V other w).2.2 ho hcl] at hr
          simp at hr
    · exact ⟨l, by simp⟩
  obtain ⟨a, b, c, rfl⟩ := triple (hs l hl).1
  have hm1 : a + V.length < m := (hm _).1 ⟨_, List.mem_append_left _ (List.mem_append_right _
    (List.mem_map.2 ⟨_, hl, rfl⟩)), List.mem_map.2 ⟨a, by simp, rfl⟩⟩
  obtain ⟨l', hl', hul⟩ := (hm u).2 (by omega)
  rcases List.mem_append.1 hl' with hl' | hl'
  · rcases List.mem_append.1 hl' with hl' | hl'
    · exact hun l' hl' hul
    · obtain ⟨l'', -, rfl⟩ := List.mem_map.1 hl'
      obtain ⟨x, -, hx⟩ := List.mem_map.1 hul
      omega
  · rcases List.mem_append.1 hl' with hl' | hl'
    · obtain ⟨⟨x, y⟩, he, rfl⟩ := List.mem_map.1 hl'
      have := hEe x y he
      simp at hul
      omega
    · obtain ⟨⟨x, y⟩, he, rfl⟩ := List.mem_map.1 hl'
      have := hEe x y he
      simp at hul
      omega

/-- C71: the weights of the result are those of the surface: one for every vertex of the surface, half
as many as the result has vertices -/
theorem C71_weights (hu : UniqSpec uniq) (hs : Simplices 3 T) (hsat : SatSpec solve)
    (h : fromSimplices uniq 3 T = .ok t) (h2 : AtMostTwo T) (hcon : Connected T)
    (hor : isOriented solve t = .ok true) (hb : ∃ e, BoundaryFace T e)
    (V other : List (Vec K d)) (w : List K) (hw : w.length = V.length)
    (ho : other.length = V.length) (hV : ∀ v, (∃ l ∈ T, v ∈ l) ↔ v < V.length) :
    ∃ r, extrude solve uniq true ⟨V, t, some w⟩ other = .ok r ∧ r.weights = some w ∧
      r.vertices.length = 2 * w.length ∧ 0 < w.length := by
  obtain ⟨E, t', hE, hne, -, hr, -⟩ := C71_extrude hu hs hsat h h2 hcon hor hb V other (some w) hV
  refine ⟨_, hr, rfl, ?_, ?_⟩
  · simp [ho, hw]
    omega
  · obtain ⟨⟨a, b⟩, E', rfl⟩ := List.exists_cons_of_ne_nil hne
    obtain ⟨l, hl, hp⟩ := List.mem_flatMap.1 ((hE.2 a b).1 (by simp)).1
    have := (hV a).1 ⟨l, hl, (triangleEdges_mem hp).1⟩
    omega

end

/-! ### the volume of an extrusion -/

section

variable {K : Type} [Field K]

theorem sum_balanced {α : Type} [AddCommGroup α] (h2 : ∀ a : α, a + a = 0 → a = 0)
    (f : Nat → Nat → α) (hf : ∀ a b, f b a = - f a b) {L : List (Nat × Nat)} (h : Balanced L) :
    (L.map fun e => f e.1 e.2).sum = 0 := by
  apply h2
  have h1 := (List.Perm.map (fun e : Nat × Nat => f e.1 e.2) h).sum_eq
  rw [List.map_map] at h1
  nth_rw 2 [h1]
  rw [← List.sum_map_add]
  have : ∀ e ∈ L, f e.1 e.2 + ((fun e : Nat × Nat => f e.1 e.2) ∘ Prod.swap) e = (fun _ => 0) e :=
    fun e _ => by simp [hf e.1 e.2]
  rw [List.map_congr_left this]
  simp

theorem pos_joined_left {V W : List (Vec K 3)} {i : Nat} (h : i < V.length) :
    pos (V ++ W) i = pos V i := by
  simp [pos, List.getElem?_append_left h]

theorem pos_joined_right {V W : List (Vec K 3)} {i : Nat} :
    pos (V ++ W) (i + V.length) = pos W i := by
  unfold pos
  rw [List.getElem?_append_right (by omega), Nat.add_sub_cancel]

/-- C71: extruding a surface by a translation `m` gives the volume `- (A · m)`, where `A` is half the sum
of the normals, the vector area of the surface: along the normal the result is inside out -/
theorem C71_volume [CharZero K] {V : List (Vec K 3)} (h : Mesh V T) (h2 : AtMostTwo T)
    (hco : Coherent T) {E : List (Nat × Nat)} (hE : IsBorder T E) (m : Vec K 3) :
    ∃ ns v, triangleNormals V T = .ok ns ∧
      volume (V ++ translate V m) (prism V.length T E) = .ok v ∧ 2 * v = - dot ns.sum m := by
  have hs := h.simplices
  have hnd := directedEdges_nodup hs h2 hco
  have hEe : ∀ a b, (a, b) ∈ E → a < V.length ∧ b < V.length := by
    intro a b hab
    obtain ⟨l, hl, hpl⟩ := List.mem_flatMap.1 ((hE.2 a b).1 hab).1
    have hm := triangleEdges_mem hpl
    exact ⟨h.inRange l hl a hm.1, h.inRange l hl b hm.2⟩
  have hlen : (translate V m).length = V.length := by simp [translate]
  have hmesh : Mesh (V ++ translate V m) (prism V.length T E) := by
    refine ⟨prism_simplices h.inRange hs hE, ?_⟩
    rw [List.length_append, hlen]
    intro l hl i hi
    rcases List.mem_append.1 hl with hl | hl
    · rcases List.mem_append.1 hl with hl | hl
      · have := h.inRange l hl i hi; omega
      · obtain ⟨l', hl', rfl⟩ := List.mem_map.1 hl
        obtain ⟨x, hx, rfl⟩ := List.mem_map.1 hi
        have := h.inRange l' hl' x (List.mem_reverse.1 hx); omega
    · rcases List.mem_append.1 hl with hl | hl
      · obtain ⟨⟨a, b⟩, he, rfl⟩ := List.mem_map.1 hl
        have := hEe a b he
        simp at hi
        omega
      · obtain ⟨⟨a, b⟩, he, rfl⟩ := List.mem_map.1 hl
        have := hEe a b he
        simp at hi
        omega
  refine ⟨_, _, normals_ok h, volume_ok hmesh, ?_⟩
  -- the sum of the normals, over the triangles and over the border
  set A := (T.map (onTriangle fun a b c => dot (cross (pos V a) (pos V b)) m +
    dot (cross (pos V b) (pos V c)) m + dot (cross (pos V c) (pos V a)) m)).sum with hA
  have hA1 : A = ((directedEdges T).map fun e => dot (cross (pos V e.1) (pos V e.2)) m).sum :=
    sum_onTriangle (fun a b => dot (cross (pos V a) (pos V b)) m) hs
  have hA2 : A = (E.map fun e => dot (cross (pos V e.1) (pos V e.2)) m).sum := by
    have hz := sum_balanced num_two (fun a b => dot (cross (pos V a) (pos V b)) m)
      (fun a b => by rw [cross_neg]; simp [dot]) (balanced_border hnd hE)
    rw [List.map_append, List.sum_append, ← hA1, List.map_map] at hz
    have hneg : E.map ((fun e : Nat × Nat => dot (cross (pos V e.1) (pos V e.2)) m) ∘ Prod.swap) =
        E.map fun e => -1 * dot (cross (pos V e.1) (pos V e.2)) m :=
      List.map_congr_left fun e _ => by
        simp only [Function.comp, Prod.fst_swap, Prod.snd_swap]
        rw [cross_neg]
        simp [dot]
    rw [hneg, List.sum_map_mul_left] at hz
    linear_combination hz
  have hA3 : dot (T.map (onTriangle fun a b c =>
      cross (pos V b - pos V a) (pos V c - pos V b))).sum m = A := by
    rw [dot_sum, List.map_map, hA]
    refine congrArg List.sum (List.map_congr_left fun l hl => ?_)
    obtain ⟨a, b, c, rfl⟩ := triple (hs l hl).1
    simp [onTriangle, dot, Fin.sum_univ_three, cross]
    ring
  rw [hA3]
  set S := (T.map (onTriangle fun a b c => dot (pos V a) (cross (pos V b) (pos V c)))).sum with hS
  have e1 : T.map (onTriangle fun a b c => dot (pos (V ++ translate V m) a)
      (cross (pos (V ++ translate V m) b) (pos (V ++ translate V m) c))) =
      T.map (onTriangle fun a b c => dot (pos V a) (cross (pos V b) (pos V c))) :=
    List.map_congr_left fun l hl => by
      obtain ⟨a, b, c, rfl⟩ := triple (hs l hl).1
      have hr := h.inRange _ hl
      simp only [onTriangle]
      rw [pos_joined_left (hr a (by simp)), pos_joined_left (hr b (by simp)),
        pos_joined_left (hr c (by simp))]
  have e2 : (T.map fun l => l.reverse.map (· + V.length)).map (onTriangle fun a b c =>
      dot (pos (V ++ translate V m) a)
        (cross (pos (V ++ translate V m) b) (pos (V ++ translate V m) c))) =
      T.map fun l => -1 * (onTriangle (fun a b c => dot (pos V a) (cross (pos V b) (pos V c))) l +
        onTriangle (fun a b c => dot (cross (pos V a) (pos V b)) m +
          dot (cross (pos V b) (pos V c)) m + dot (cross (pos V c) (pos V a)) m) l) := by
    rw [List.map_map]
    refine List.map_congr_left fun l hl => ?_
    obtain ⟨a, b, c, rfl⟩ := triple (hs l hl).1
    have hr := h.inRange _ hl
    simp only [Function.comp, List.reverse_cons, List.reverse_nil, List.nil_append,
      List.cons_append, List.map_cons, List.map_nil, onTriangle]
    rw [pos_joined_right, pos_joined_right, pos_joined_right, translate,
      pos_map _ (hr a (by simp)), pos_map _ (hr b (by simp)), pos_map _ (hr c (by simp))]
    simp [dot, Fin.sum_univ_three, cross]
    ring
  have e3 : (E.map fun e => [e.2, e.1, e.1 + V.length]).map (onTriangle fun a b c =>
      dot (pos (V ++ translate V m) a)
        (cross (pos (V ++ translate V m) b) (pos (V ++ translate V m) c))) =
      E.map fun e => -1 * dot (cross (pos V e.1) (pos V e.2)) m := by
    rw [List.map_map]
    refine List.map_congr_left fun e he => ?_
    obtain ⟨h1, h3⟩ := hEe e.1 e.2 he
    simp only [Function.comp, onTriangle]
    rw [pos_joined_right, pos_joined_left h1, pos_joined_left h3, translate, pos_map _ h1]
    simp [dot, Fin.sum_univ_three, cross]
    ring
  have e4 : (E.map fun e => [e.1 + V.length, e.2 + V.length, e.2]).map (onTriangle fun a b c =>
      dot (pos (V ++ translate V m) a)
        (cross (pos (V ++ translate V m) b) (pos (V ++ translate V m) c))) =
      E.map fun e => -1 * dot (cross (pos V e.1) (pos V e.2)) m := by
    rw [List.map_map]
    refine List.map_congr_left fun e he => ?_
    obtain ⟨h1, h3⟩ := hEe e.1 e.2 he
    simp only [Function.comp, onTriangle]
    rw [pos_joined_right, pos_joined_right, pos_joined_left h3, translate, pos_map _ h1, pos_map _ h3]
    simp [dot, Fin.sum_univ_three, cross]
    ring
  unfold prism
  rw [List.map_append, List.map_append, List.map_append, e1, e2, e3, e4, List.sum_append,
    List.sum_append, List.sum_append, List.sum_map_mul_left, List.sum_map_mul_left,
    List.sum_map_add, ← hA2]
  change 2 * ((S + -1 * (S + A) + (-1 * A + -1 * A)) / 6) = -A
  ring

end

/-! ### a unit square -/

/-- two triangles -/
def slabT : List (List Nat) := [[0, 1, 2], [2, 1, 3]]

/-- the corners of the unit square, seen from above -/
def slabV : List (Vec ℚ 3) := [![0, 0, 0], ![1, 0, 0], ![0, 1, 0], ![1, 1, 0]]

theorem slab_simplices : Simplices 3 slabT := simplices_of_all (by decide)

theorem slab_built : fromSimplices List.dedup 3 slabT = .ok (built 3 slabT) := by decide +kernel

theorem slab_coherent : Coherent slabT := by
  rw [← reorient_false slabT,
    ← (wf_built slab_simplices slab_built).satisfies_iff_coherent slab_simplices (fun _ => false)]
  decide +kernel

theorem slab_connected : Connected slabT := by
  refine connected_of_chain fun j hj => ?_
  have : j = 0 := by
    simp [slabT] at hj
    omega
  subst this
  exact ⟨[1, 2], sharedFace_of_check (by decide)⟩

theorem slab_border : IsBorder slabT [(0, 1), (2, 0), (1, 3), (3, 2)] := by
  refine ⟨by decide, fun a b => ?_⟩
  simp only [directedEdges, slabT, List.flatMap_cons, List.flatMap_nil, triangleEdges,
    List.mem_cons, List.mem_append, Prod.mk.injEq, List.not_mem_nil, or_false]
  omega

theorem slab_dot : dot (slabT.map (onTriangle fun a b c =>
    cross (pos slabV b - pos slabV a) (pos slabV c - pos slabV b))).sum ![0, 0, 1] = 2 := by
  have h0 : pos slabV 0 = ![0, 0, 0] := rfl
  have h1 : pos slabV 1 = ![1, 0, 0] := rfl
  have h2 : pos slabV 2 = ![0, 1, 0] := rfl
  have h3 : pos slabV 3 = ![1, 1, 0] := rfl
  simp only [slabT, List.map_cons, List.map_nil, onTriangle, h0, h1, h2, h3]
  norm_num [dot, Fin.sum_univ_three, cross]
  change ((1 : ℚ) + 1) * 1 = 2
  norm_num

/-- example for C71: the square meets the hypotheses of the theorems; raised by 1 it becomes a box with 12
triangles and two triangles at every edge, with volume -1 -/
theorem C71_square : ∃ solve, SatSpec solve ∧ isOriented solve (built 3 slabT) = .ok true ∧
    AtMostTwo slabT ∧ (∃ e, BoundaryFace slabT e) ∧
    (∀ v, (∃ l ∈ slabT, v ∈ l) ↔ v < slabV.length) ∧
    ∃ r S, extrude solve List.dedup true ⟨slabV, built 3 slabT, none⟩ (translate slabV ![0, 0, 1]) =
      .ok r ∧ r.topo.elements[2]? = some S ∧ S.length = 12 ∧ TwoTriangles S ∧
      volume r.vertices S = .ok (-1) := by
  obtain ⟨solve, hsat, hor⟩ := C08_coherent_some_solver uniqSpec_dedup slab_simplices slab_built
    (by decide) slab_coherent
  have h2 : AtMostTwo slabT := atMostTwo_of_check (by decide +kernel)
  have hb : ∃ e, BoundaryFace slabT e := by
    refine ⟨[0, 1], 0, [0, 1, 2], rfl, by decide, ?_⟩
    intro j l hj hf
    rcases j with _ | _ | j
    · rfl
    · have : l = [2, 1, 3] := by simpa [slabT] using hj.symm
      subst this
      exact absurd hf (by decide)
    · simp [slabT] at hj
  have hV : ∀ v, (∃ l ∈ slabT, v ∈ l) ↔ v < slabV.length := by
    intro v
    simp only [slabT, slabV, List.mem_cons, List.not_mem_nil, or_false, exists_eq_or_imp,
      exists_eq_left, List.length_cons, List.length_nil]
    omega
  refine ⟨solve, hsat, hor, h2, hb, hV, ?_⟩
  obtain ⟨E, t', hE, -, ht', hr, -⟩ := C71_extrude uniqSpec_dedup slab_simplices hsat slab_built h2
    slab_connected hor hb slabV (translate slabV ![0, 0, 1]) none hV
  have hlt : ∀ l ∈ slabT, ∀ v ∈ l, v < slabV.length := fun l hl v hv => (hV v).1 ⟨l, hl, hv⟩
  have hperm : E.Perm [(0, 1), (2, 0), (1, 3), (3, 2)] := by
    rw [List.perm_ext_iff_of_nodup hE.1 slab_border.1]
    rintro ⟨a, b⟩
    rw [hE.2, slab_border.2]
  obtain ⟨m, hm, -, wf'⟩ := wf_of_ok uniqSpec_dedup (prism_simplices hlt slab_simplices hE) ht'
  have : m = 2 := by omega
  subst this
  obtain ⟨ns, v, hns, hv, h2v⟩ := C71_volume (V := slabV) ⟨slab_simplices, hlt⟩ h2 slab_coherent hE
    ![0, 0, 1]
  refine ⟨_, _, hr, wf'.top_eq, ?_, ?_, ?_⟩
  · rw [prism_length, hperm.length_eq]
    rfl
  · rw [C71_two_triangles slab_simplices h2 slab_coherent hE hlt, (hperm.map Prod.fst).nodup_iff]
    decide
  · have hv1 : v = -1 := by
      rw [normals_ok ⟨slab_simplices, hlt⟩] at hns
      have hns' := Except.ok.inj hns
      subst hns'
      rw [slab_dot] at h2v
      linarith
    rw [← hv1]
    exact hv

/-- two triangles that meet in a vertex only -/
def bowT : List (List Nat) := [[0, 1, 2], [0, 3, 4]]

/-- C71: two triangles that meet in one vertex: extruded, the edge above that vertex has four triangles -/
theorem C71_pinched : Simplices 3 bowT ∧ AtMostTwo bowT ∧ Coherent bowT ∧
    IsBorder bowT [(0, 1), (1, 2), (2, 0), (0, 3), (3, 4), (4, 0)] ∧
    ¬ TwoTriangles (prism 5 bowT [(0, 1), (1, 2), (2, 0), (0, 3), (3, 4), (4, 0)]) := by
  have hs : Simplices 3 bowT := simplices_of_all (by decide)
  have h2 : AtMostTwo bowT := atMostTwo_of_check (by decide +kernel)
  have hf : fromSimplices List.dedup 3 bowT = .ok (built 3 bowT) := by decide +kernel
  have hco : Coherent bowT := by
    rw [← reorient_false bowT, ← (wf_built hs hf).satisfies_iff_coherent hs (fun _ => false)]
    decide +kernel
  have hE : IsBorder bowT [(0, 1), (1, 2), (2, 0), (0, 3), (3, 4), (4, 0)] := by
    refine ⟨by decide, fun a b => ?_⟩
    simp only [directedEdges, bowT, List.flatMap_cons, List.flatMap_nil, triangleEdges,
      List.mem_cons, List.mem_append, Prod.mk.injEq, List.not_mem_nil, or_false]
    omega
  refine ⟨hs, h2, hco, hE, ?_⟩
  rw [C71_two_triangles hs h2 hco hE (by decide)]
  decide

end Verif.Props
