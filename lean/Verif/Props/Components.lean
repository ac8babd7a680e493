/-
C65: connected components, splitting, and the test for manifolds.
-/
import Verif.Lemmas.ComponentsLinks
import Verif.Props.Averaging

namespace Verif

open Verif.Model Verif.Spec

variable {cc : Mat Int → Nat × List Nat} {uniq : List (List Nat) → List (List Nat)}
variable {m : Nat} {top : List (List Nat)} {t : Topo}

theorem isFace_renamed {e l : List Nat} (φ : Nat → Nat) (h : IsFace e l) : IsFace (e.map φ) (l.map φ) := by
  obtain ⟨c, hc, hp⟩ := h
  refine ⟨c, by simpa using hc, ?_⟩
  rw [List.eraseIdx_map]
  exact hp.map φ

/-- the simplices with one label -/
def labelled (labels : List Nat) (c : Nat) : List Nat :=
  (List.range labels.length).filter fun j => labels[j]? = some c

theorem mem_labelled {labels : List Nat} {c j : Nat} : j ∈ labelled labels c ↔ labels[j]? = some c := by
  unfold labelled
  simp only [List.mem_filter, List.mem_range, decide_eq_true_eq]
  exact ⟨fun h => h.2, fun h => ⟨(List.getElem?_eq_some_iff.1 h).1, h⟩⟩

theorem flatnonzero_labels (labels : List Nat) (c : Nat) :
    flatnonzero (labels.map fun l => if l = c then 1 else 0) = labelled labels c := by
  unfold flatnonzero labelled
  rw [List.length_map]
  apply List.filter_congr
  intro i hi
  rw [List.mem_range] at hi
  rw [List.getElem?_map, List.getElem?_eq_getElem hi]
  simp

/-- one component -/
theorem component_ok (hcc : ComponentsSpec cc) (hu : UniqSpec uniq) (wf : WF (m + 1) top t)
    (htop : Simplices (m + 2) top) (hm : m + 2 < 256) {labels : List Nat} {n : Nat}
    (hlen : labels.length = top.length) (hlab : ∀ l, l ∈ labels ↔ l < n)
    (hlink : ∀ a b, a < top.length → b < top.length →
      (labels[a]? = labels[b]? ↔ FaceLinked top (List.range top.length) a b)) {c : Nat} (hc : c < n) :
    ∃ s P0 new, selectSubset uniq t (labels.map fun l => if l = c then 1 else 0) = .ok s ∧
      s.parentIdx[0]? = some P0 ∧ s.topo.elements[m + 1]? = some new ∧ s.topo.nTop = new.length ∧
      IsComponent top new P0 (labelled labels c) ∧ Corresponds t.elements s.topo.elements s.parentIdx ∧
      isConnected cc s.topo = .ok true := by
  have hin : ∀ j ∈ labelled labels c, j < top.length := by
    intro j hj
    rw [← hlen]
    exact (List.getElem?_eq_some_iff.1 (mem_labelled.1 hj)).1
  set rows := (labelled labels c).map fun j => top[j]?.getD [] with hrows
  obtain ⟨s, hsub, hok⟩ := subTopology_ok hu wf htop (k := m) (Nat.le_refl _) (rows := rows) (by
    intro r hr
    rw [wf.top_eq, Option.getD_some]
    obtain ⟨j, hj, rfl⟩ := List.mem_map.1 hr
    rw [List.getElem?_eq_getElem (hin j hj), Option.getD_some]
    exact List.getElem_mem _)
  have hnew : (relabel rows).2.length = (labelled labels c).length := by
    rw [relabel_rows, List.length_map, hrows, List.length_map]
  have hne : labelled labels c ≠ [] := by
    obtain ⟨j, hj, he⟩ := List.getElem_of_mem ((hlab c).2 hc)
    exact List.ne_nil_of_mem (mem_labelled.2 (List.getElem?_eq_some_iff.2 ⟨hj, he⟩) : j ∈ _)
  have hclass : ∀ j ∈ labelled labels c, ∀ i < top.length,
      (i ∈ labelled labels c ↔ FaceLinked top (List.range top.length) j i) := by
    intro j hj i hi
    rw [← hlink j i (hin j hj) hi, mem_labelled, mem_labelled.1 hj]
    exact eq_comm
  refine ⟨s, _, _, ?_, hok.idx_zero (by omega) (by omega) wf, hok.wf.top_eq, ?_, ?_,
    hok.corresponds (by omega) (Nat.le_refl _) wf, ?_⟩
  · unfold selectSubset
    simp only [wf.lenB, Topo.nElements, wf.top_eq, Option.getD_some]
    rw [if_neg (by simpa using hlen), flatnonzero_labels, takeRows_eq hin]
    exact hsub
  · unfold Topo.nTop Topo.nElements
    rw [hok.wf.lenE, Nat.add_sub_cancel, hok.wf.top_eq, Option.getD_some]
  · exact ⟨hne, List.pairwise_lt_range.filter _, hin, hclass, mapping_sorted _, relabel_used _, relabel_back _⟩
  · obtain ⟨b, hb, hiff⟩ := isConnected_ok hcc hok.wf (relabel_simplices rows (by
      intro r hr
      obtain ⟨j, hj, rfl⟩ := List.mem_map.1 hr
      rw [List.getElem?_eq_getElem (hin j hj), Option.getD_some]
      exact htop _ (List.getElem_mem _))) hm
    rw [hb, hiff.2 ⟨?_, ?_⟩]
    · intro h0
      rw [h0] at hnew
      exact hne (List.length_eq_zero_iff.1 hnew.symm)
    · rw [hnew]
      intro i hi j hj
      have hK : ∀ {i}, (hi : i < (labelled labels c).length) → (relabel rows).2[i]? =
          some ((top[(labelled labels c)[i]]?.getD []).map (fresh rows)) := by
        intro i hi
        rw [relabel_rows, List.getElem?_map, hrows, List.getElem?_map, List.getElem?_eq_getElem hi]
        rfl
      have key : ∀ y, FaceLinked top (List.range top.length) (labelled labels c)[i] y → ∀ j,
          (labelled labels c)[j]? = some y →
          FaceLinked (relabel rows).2 (List.range (labelled labels c).length) i j := by
        intro y h
        induction h with
        | refl =>
          intro j hj
          obtain ⟨hj', he⟩ := List.getElem?_eq_some_iff.1 hj
          obtain rfl := (List.Nodup.getElem_inj_iff (List.nodup_range.filter _)).1 he
          exact Relation.ReflTransGen.refl
        | @tail x y hx hxy ih =>
          intro j hj
          obtain ⟨hxr, -, hs⟩ := hxy
          have hxK : x ∈ labelled labels c :=
            (hclass _ (List.getElem_mem hi) x (List.mem_range.1 hxr)).2 hx
          obtain ⟨k, hk, rfl⟩ := List.getElem_of_mem hxK
          obtain ⟨hj', rfl⟩ := List.getElem?_eq_some_iff.1 hj
          refine (ih k (List.getElem?_eq_getElem hk)).tail
            ⟨List.mem_range.2 hk, List.mem_range.2 hj', ?_⟩
          obtain ⟨l, l', g1, g2, e, g3, g4⟩ := hs
          refine ⟨_, _, hK hk, hK hj', e.map (fresh rows), ?_, ?_⟩
          · rw [g1]; exact isFace_renamed _ g3
          · rw [g2]; exact isFace_renamed _ g4
      exact key _ ((hclass _ (List.getElem_mem hi) _ (hin _ (List.getElem_mem hj))).1 (List.getElem_mem hj)) j
        (List.getElem?_eq_getElem hj)

theorem labelled_flatten {labels : List Nat} {n : Nat} (hlab : ∀ l, l ∈ labels ↔ l < n) :
    ((List.range n).map (labelled labels)).flatten.Perm (List.range labels.length) := by
  refine (List.perm_ext_iff_of_nodup ?_ List.nodup_range).2 fun j => ?_
  · rw [List.nodup_flatten]
    refine ⟨fun l hl => ?_, ?_⟩
    · obtain ⟨c, -, rfl⟩ := List.mem_map.1 hl
      exact List.nodup_range.filter _
    · rw [List.pairwise_map]
      refine (List.nodup_range (n := n)).imp fun {a b} hab => ?_
      intro j ha hb
      rw [mem_labelled] at ha hb
      exact hab (Option.some.inj (ha.symm.trans hb))
  · rw [List.mem_flatten, List.mem_range]
    constructor
    · rintro ⟨l, hl, hj⟩
      obtain ⟨c, -, rfl⟩ := List.mem_map.1 hl
      exact (List.getElem?_eq_some_iff.1 (mem_labelled.1 hj)).1
    · intro hj
      exact ⟨_, List.mem_map.2 ⟨labels[j], List.mem_range.2 ((hlab _).1 (List.getElem_mem hj)), rfl⟩,
        mem_labelled.2 (List.getElem?_eq_getElem hj)⟩

namespace Props

variable {simplices : List (List Nat)} {nCorners : Nat}

/-- C65: `label_connections` gives two simplices the same label exactly when one gets from one to the other
through simplices with a common face, it uses the labels `0, ..., n_components - 1`, all of them, and
`n_components` is the number of classes of linked simplices. -/
theorem C65_labels (hcc : ComponentsSpec cc) (hu : UniqSpec uniq) (hs : Simplices nCorners simplices)
    (hc : nCorners < 256) (h : fromSimplices uniq nCorners simplices = .ok t) :
    ∃ n labels, labelConnections cc t = .ok (n, labels) ∧ labels.length = simplices.length ∧
      (∀ l, l ∈ labels ↔ l < n) ∧
      (∀ a b, a < simplices.length → b < simplices.length →
        (labels[a]? = labels[b]? ↔ FaceLinked simplices (List.range simplices.length) a b)) ∧
      HasClasses (List.range simplices.length) (FaceLinked simplices (List.range simplices.length)) n := by
  obtain ⟨n, rfl, hn, wf⟩ := wf_of_ok hu hs h
  obtain ⟨m, rfl⟩ : ∃ m, n = m + 1 := ⟨n - 1, by omega⟩
  exact labelConnections_ok hcc wf hs hc

/-- C65: `is_connected` is true exactly when there is a simplex and every two simplices are linked through
simplices with a common face. -/
theorem C65_is_connected (hcc : ComponentsSpec cc) (hu : UniqSpec uniq) (hs : Simplices nCorners simplices)
    (hc : nCorners < 256) (h : fromSimplices uniq nCorners simplices = .ok t) :
    ∃ b, isConnected cc t = .ok b ∧
      (b = true ↔ simplices ≠ [] ∧ ∀ i < simplices.length, ∀ j < simplices.length,
        FaceLinked simplices (List.range simplices.length) i j) := by
  obtain ⟨n, rfl, hn, wf⟩ := wf_of_ok hu hs h
  obtain ⟨m, rfl⟩ : ∃ m, n = m + 1 := ⟨n - 1, by omega⟩
  exact isConnected_ok hcc wf hs hc

/-- C65: `split_connected_components` succeeds.  Its results are the classes of linked simplices, each once
and together all simplices, from the largest to the smallest; every one of them keeps the simplices of its
class in order, up to a renumbering of the vertices, knows where its elements come from, and is connected. -/
theorem C65_split (hcc : ComponentsSpec cc) (hu : UniqSpec uniq) (hs : Simplices nCorners simplices)
    (hc : nCorners < 256) (h : fromSimplices uniq nCorners simplices = .ok t) :
    ∃ components classes, splitConnectedComponents cc uniq t = .ok components ∧
      classes.flatten.Perm (List.range simplices.length) ∧
      classes.Pairwise (fun K L => L.length ≤ K.length) ∧
      List.Forall₂ (fun (s : Sub) K => ∃ P0 new, s.parentIdx[0]? = some P0 ∧
        s.topo.elements[nCorners - 1]? = some new ∧ IsComponent simplices new P0 K ∧
        Corresponds t.elements s.topo.elements s.parentIdx ∧ isConnected cc s.topo = .ok true)
        components classes := by
  obtain ⟨n, rfl, hn, wf⟩ := wf_of_ok hu hs h
  obtain ⟨m, rfl⟩ : ∃ m, n = m + 1 := ⟨n - 1, by omega⟩
  obtain ⟨n, labels, hl, hlen, hlab, hlink, -⟩ := labelConnections_ok hcc wf hs hc
  have key : ∀ c, ∃ s : Sub, c < n → ∃ P0 new,
      selectSubset uniq t (labels.map fun l => if l = c then 1 else 0) = .ok s ∧
      s.parentIdx[0]? = some P0 ∧ s.topo.elements[m + 1]? = some new ∧ s.topo.nTop = new.length ∧
      IsComponent simplices new P0 (labelled labels c) ∧ Corresponds t.elements s.topo.elements s.parentIdx ∧
      isConnected cc s.topo = .ok true := by
    intro c
    by_cases hcn : c < n
    · obtain ⟨s, P0, new, hh⟩ := component_ok hcc hu wf hs hc hlen hlab hlink hcn
      exact ⟨s, fun _ => ⟨P0, new, hh⟩⟩
    · exact ⟨⟨t, []⟩, fun h => absurd h hcn⟩
  choose g hg using key
  have hsplit : splitConnectedComponents cc uniq t =
      .ok (((List.range n).map g).insertionSort fun a b => b.topo.nTop ≤ a.topo.nTop) := by
    unfold splitConnectedComponents
    rw [hl]
    simp only [bind, Except.bind]
    rw [mapM_ok _ g (List.range n) fun c hc' => by
      obtain ⟨P0, new, h1, -⟩ := hg c (List.mem_range.1 hc')
      exact h1]
  have hsort := List.map_insertionSort (fun a b => (g b).topo.nTop ≤ (g a).topo.nTop)
    (fun a b : Sub => b.topo.nTop ≤ a.topo.nTop) g (List.range n) fun a _ b _ => Iff.rfl
  set σ := (List.range n).insertionSort fun a b => (g b).topo.nTop ≤ (g a).topo.nTop with hσ
  have hperm : σ.Perm (List.range n) := List.perm_insertionSort _ _
  have hmem : ∀ c ∈ σ, c < n := fun c hc' => List.mem_range.1 (hperm.mem_iff.1 hc')
  have hsize : ∀ c ∈ σ, (g c).topo.nTop = (labelled labels c).length := by
    intro c hc'
    obtain ⟨P0, new, -, -, -, h1, h2, -⟩ := hg c (hmem c hc')
    rw [h1]
    have := congrArg List.length h2.same
    simpa using this
  refine ⟨σ.map g, σ.map (labelled labels), ?_, ?_, ?_, ?_⟩
  · rw [hsplit, hsort]
  · rw [← hlen]
    exact ((hperm.map _).flatten).trans (labelled_flatten hlab)
  · rw [List.pairwise_map]
    have hp : σ.Pairwise fun a b => (g b).topo.nTop ≤ (g a).topo.nTop := by
      have : (σ.map g).Pairwise fun a b : Sub => b.topo.nTop ≤ a.topo.nTop := by
        rw [hsort]
        have : Std.Total fun a b : Sub => b.topo.nTop ≤ a.topo.nTop := ⟨fun a b => Nat.le_total _ _⟩
        have : IsTrans Sub fun a b : Sub => b.topo.nTop ≤ a.topo.nTop := ⟨fun a b c h1 h2 => Nat.le_trans h2 h1⟩
        exact List.pairwise_insertionSort _ _
      rwa [List.pairwise_map] at this
    refine hp.imp_of_mem fun {a b} ha hb hab => ?_
    rwa [hsize a ha, hsize b hb] at hab
  · rw [List.forall₂_map_left_iff, List.forall₂_map_right_iff, List.forall₂_same]
    intro c hc'
    obtain ⟨P0, new, -, h1, h2, -, h3, h4, h5⟩ := hg c (hmem c hc')
    exact ⟨P0, new, h1, h2, h3, h4, h5⟩

end Props

/-! ### the simplices around a vertex -/

theorem factorial_wrap_small {n : Nat} (h : n ≤ 9) : wrap8 (n.factorial : ℤ) ≠ 0 := by
  interval_cases n <;> decide

theorem factorial_wrap_large {n : Nat} (h : 10 ≤ n) : wrap8 (n.factorial : ℤ) = 0 := by
  have h1 : 256 ∣ n.factorial := Dvd.dvd.trans (by decide) (Nat.factorial_dvd_factorial h)
  unfold wrap8
  omega

theorem vertices_used (wf : WF (m + 1) top t) (htop : Simplices (m + 2) top) (v : Nat) :
    (∃ l ∈ top, v ∈ l) ↔ v < t.nElements 0 := by
  have hf := wf.faces htop (m + 1) 0 (by omega) [v]
  constructor
  · rintro ⟨l, hl, hv⟩
    obtain ⟨e, he, hp⟩ := hf.2 ⟨rfl, l, hl, by simpa using hv⟩
    obtain ⟨i, hi, rfl⟩ := List.getElem_of_mem he
    have h1 := wf.vertex (by omega) (List.getElem?_eq_getElem hi)
    rw [h1] at hp
    have : i = v := by simpa using hp
    subst this
    exact hi
  · intro hv
    have h1 : (t.elements[0]?.getD [])[v]? = some [v] := by
      have := WF.corners_get (t := t) hv
      rw [wf.vertex_corners (by omega) hv] at this
      exact this
    obtain ⟨-, l, hl, hsub⟩ := hf.1 ⟨[v], List.mem_of_getElem? h1, List.Perm.refl _⟩
    exact ⟨l, hl, hsub.subset (by simp)⟩

/-- `regions_per_vertex` -/
theorem regionsPerVertex_ok (hcc : ComponentsSpec cc) (wf : WF (m + 1) top t) (htop : Simplices (m + 2) top)
    (hm : m + 2 < 256) :
    ∃ regions, regionsPerVertex cc t = .ok regions ∧ regions.length = t.nElements 0 ∧
      ∀ (v r : Nat), regions[v]? = some r →
        if m + 1 ≤ 9 then HasClasses (incident top [v]) (FaceLinked top (incident top [v])) r else r = 0 := by
  obtain ⟨L, hL, hlen, -, hA⟩ := wf.accumulatedN htop (by omega)
  obtain ⟨A, hA0, hAr, hAc, hAe⟩ := hA 0 (by omega)
  cases L with
  | nil => simp at hA0
  | cons a L =>
    have ha : a = A := by simpa using hA0
    subst ha
    have hcols : t.nElements (m + 1) = top.length := by
      unfold Topo.nElements
      rw [wf.top_eq, Option.getD_some]
    rw [hcols] at hAr hAe
    have hM := wf.shape (k := m) (by omega)
    rw [hcols] at hM
    have hiN : ∀ v < t.nElements 0, ((List.range a.transpose.cols).filter fun j => a.transpose.entry v j ≠ 0) =
        if m + 1 ≤ 9 then incident top [v] else [] := by
      intro v hv
      have hent : ∀ j < top.length, a.transpose.entry v j =
          wrap8 (if v ∈ top[j]?.getD [] then ((m + 1).factorial : ℤ) else 0) := by
        intro j hj
        show a.entry j v = _
        rw [hAe j hj v hv, wf.vertex_corners (by omega) hv]
        have : WF.corners t (m + 1) j = top[j]?.getD [] := by
          unfold WF.corners
          rw [wf.top_eq, Option.getD_some]
        rw [this, Nat.sub_zero]
        have hsub : [v] ⊆ top[j]?.getD [] ↔ v ∈ top[j]?.getD [] := by simp
        simp only [hsub]
      show ((List.range a.rows).filter _) = _
      rw [hAr]
      split
      · next h9 =>
        unfold incident
        apply List.filter_congr
        intro j hj
        rw [hent j (List.mem_range.1 hj)]
        by_cases hvj : v ∈ top[j]?.getD []
        · simp [hvj, factorial_wrap_small h9]
        · simp [hvj, wrap8_zero]
      · next h9 =>
        rw [List.filter_eq_nil_iff]
        intro j hj
        rw [hent j (List.mem_range.1 hj)]
        split
        · simp [factorial_wrap_large (n := m + 1) (by omega)]
        · simp [wrap8_zero]
    have key : ∀ v, ∃ r, v < t.nElements 0 →
        (let iN := (List.range a.transpose.cols).filter fun j => a.transpose.entry v j ≠ 0
          if iN = [] then Except.ok 0
          else do
            let subset := selectColumns (t.matrix m) iN
            let g ← mul8 subset.transpose subset
            .ok (cc g).1) = (Except.ok r : Except PyErr Nat) ∧
        if m + 1 ≤ 9 then HasClasses (incident top [v]) (FaceLinked top (incident top [v])) r else r = 0 := by
      intro v
      by_cases hv : v < t.nElements 0
      · simp only [hiN v hv]
        by_cases h9 : m + 1 ≤ 9
        · simp only [if_pos h9]
          set S := incident top [v] with hS
          have hne : S ≠ [] := by
            obtain ⟨l, hl, hvl⟩ := (vertices_used wf htop v).2 hv
            obtain ⟨j, hj, rfl⟩ := List.getElem_of_mem hl
            refine List.ne_nil_of_mem (Props.mem_incident.2 ⟨hj, ?_⟩ : j ∈ _)
            rw [List.getElem?_eq_getElem hj, Option.getD_some]
            simpa using hvl
          obtain ⟨-, -, -, h4⟩ := labels_linked (top := top) hcc (S := S) (List.nodup_range.filter _)
            (G := ⟨S.length, S.length, fun a b => wrap8 (((List.range (t.matrix m).rows).map fun i =>
              (t.matrix m).entry i (S[a]?.getD 0) * (t.matrix m).entry i (S[b]?.getD 0)).sum)⟩) rfl rfl (by
              intro a b ha hb
              simp only [List.getElem?_eq_getElem ha, List.getElem?_eq_getElem hb, Option.getD_some]
              exact shareEntry wf htop hm (Props.mem_incident.1 (List.getElem_mem ha)).1
                (Props.mem_incident.1 (List.getElem_mem hb)).1)
          refine ⟨_, fun _ => ⟨?_, h4⟩⟩
          rw [if_neg hne]
          unfold mul8 Mat.mul selectColumns
          simp only [Mat.transpose, if_true]
          rfl
        · simp only [if_neg h9, if_true]
          exact ⟨0, fun _ => ⟨rfl, rfl⟩⟩
      · exact ⟨0, fun h => absurd h hv⟩
    choose f hf using key
    refine ⟨(List.range (t.nElements 0)).map f, ?_, by simp, ?_⟩
    · unfold regionsPerVertex
      simp only [hL, bind, Except.bind, wf.lenB, Nat.add_sub_cancel]
      exact mapM_ok _ f _ fun v hv => (hf v (List.mem_range.1 hv)).1
    · intro v r hr
      rw [List.getElem?_map] at hr
      by_cases hv : v < t.nElements 0
      · rw [List.getElem?_range hv] at hr
        obtain rfl := Option.some.inj hr
        exact (hf v hv).2
      · rw [List.getElem?_eq_none (by simpa using hv)] at hr
        simp at hr

namespace Props

variable {simplices : List (List Nat)} {nCorners : Nat}

/-- C65: up to dimension nine, `regions_per_vertex` counts, for every vertex, the classes of the simplices
around it that are linked through common faces without leaving them. -/
theorem C65_regions (hcc : ComponentsSpec cc) (hu : UniqSpec uniq) (hs : Simplices nCorners simplices)
    (hc : nCorners ≤ 10) (h : fromSimplices uniq nCorners simplices = .ok t) :
    ∃ regions, regionsPerVertex cc t = .ok regions ∧
      (∀ v, (∃ l ∈ simplices, v ∈ l) ↔ v < regions.length) ∧
      ∀ (v r : Nat), regions[v]? = some r →
        HasClasses (incident simplices [v]) (FaceLinked simplices (incident simplices [v])) r := by
  obtain ⟨n, rfl, hn, wf⟩ := wf_of_ok hu hs h
  obtain ⟨m, rfl⟩ : ∃ m, n = m + 1 := ⟨n - 1, by omega⟩
  obtain ⟨regions, h1, h2, h3⟩ := regionsPerVertex_ok hcc wf hs (by omega)
  refine ⟨regions, h1, fun v => by rw [vertices_used wf hs, h2], fun v r hr => ?_⟩
  have := h3 v r hr
  rwa [if_pos (by omega)] at this

/-- C65: up to dimension nine, `is_manifold` is true exactly when, around every vertex, the simplices are
linked through common faces without leaving them. -/
theorem C65_is_manifold (hcc : ComponentsSpec cc) (hu : UniqSpec uniq) (hs : Simplices nCorners simplices)
    (hc : nCorners ≤ 10) (h : fromSimplices uniq nCorners simplices = .ok t) :
    ∃ b, isManifold cc t = .ok b ∧
      (b = true ↔ ∀ v, ∀ i ∈ incident simplices [v], ∀ j ∈ incident simplices [v],
        FaceLinked simplices (incident simplices [v]) i j) := by
  obtain ⟨regions, h1, h2, h3⟩ := C65_regions hcc hu hs hc h
  refine ⟨regions.all fun r => r == 1, by unfold isManifold; rw [h1]; rfl, ?_⟩
  have hone := fun v => hasClasses_one (S := incident simplices [v])
    (R := FaceLinked simplices (incident simplices [v])) (fun _ _ => linked_symm) fun _ _ _ => linked_trans
  rw [List.all_eq_true]
  constructor
  · intro hall v i hi j hj
    obtain ⟨hlt, hsub⟩ := mem_incident.1 hi
    have hv : v < regions.length := by
      refine (h2 v).1 ⟨_, List.getElem_mem hlt, ?_⟩
      rw [List.getElem?_eq_getElem hlt, Option.getD_some] at hsub
      exact hsub (by simp)
    have hk := h3 v _ (List.getElem?_eq_getElem hv)
    have : regions[v] = 1 := by simpa using hall _ (List.getElem_mem hv)
    rw [this] at hk
    exact ((hone v).1 hk).2 i hi j hj
  · intro hall r hr
    obtain ⟨v, hv, rfl⟩ := List.getElem_of_mem hr
    rw [beq_iff_eq]
    refine Spec.HasClasses.unique (R := FaceLinked simplices (incident simplices [v])) (fun _ _ => linked_symm)
      (fun _ _ _ => linked_trans) (h3 v _ (List.getElem?_eq_getElem hv)) ((hone v).2 ⟨?_, hall v⟩)
    obtain ⟨l, hl, hvl⟩ := (h2 v).2 hv
    obtain ⟨j, hj, rfl⟩ := List.getElem_of_mem hl
    refine List.ne_nil_of_mem (mem_incident.2 ⟨hj, ?_⟩ : j ∈ _)
    rw [List.getElem?_eq_getElem hj, Option.getD_some]
    simpa using hvl

/-- C65: from dimension ten on, the `int8` incidences of vertices and simplices wrap around to zero:
`regions_per_vertex` is zero everywhere, and nothing is a manifold. -/
theorem C65_wraps (hcc : ComponentsSpec cc) (hu : UniqSpec uniq) (hs : Simplices nCorners simplices)
    (hc : 11 ≤ nCorners) (hc' : nCorners < 256) (hne : simplices ≠ [])
    (h : fromSimplices uniq nCorners simplices = .ok t) :
    (∃ regions, regionsPerVertex cc t = .ok regions ∧ regions ≠ [] ∧ ∀ r ∈ regions, r = 0) ∧
      isManifold cc t = .ok false := by
  obtain ⟨n, rfl, hn, wf⟩ := wf_of_ok hu hs h
  obtain ⟨m, rfl⟩ : ∃ m, n = m + 1 := ⟨n - 1, by omega⟩
  obtain ⟨regions, h1, h2, h3⟩ := regionsPerVertex_ok hcc wf hs (by omega)
  have hz : ∀ r ∈ regions, r = 0 := by
    intro r hr
    obtain ⟨v, hv, rfl⟩ := List.getElem_of_mem hr
    have := h3 v _ (List.getElem?_eq_getElem hv)
    rwa [if_neg (by omega)] at this
  have hr : regions ≠ [] := by
    obtain ⟨l, hl⟩ := List.exists_mem_of_ne_nil _ hne
    have hlen := (hs l hl).1
    have := (vertices_used wf hs (l[0]'(by omega))).1 ⟨l, hl, List.getElem_mem _⟩
    intro h0
    rw [h0] at h2
    simp at h2
    omega
  refine ⟨⟨regions, h1, hr, hz⟩, ?_⟩
  unfold isManifold
  rw [h1]
  obtain ⟨r, hrm⟩ := List.exists_mem_of_ne_nil _ hr
  have : (regions.all fun r => r == 1) = false := by
    rw [List.all_eq_false]
    exact ⟨r, hrm, by rw [hz r hrm]; decide⟩
  simp only [bind, Except.bind, this]

end Props

end Verif
