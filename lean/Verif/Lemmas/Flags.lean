/-
The domains computed by `fundamental_domains` are the flags of the corner orderings.
-/
import Verif.Lemmas.Subdivide

namespace Verif

open Verif.Model Verif.Spec

theorem elIdx_get {E : List (List Nat)} {s : List Nat} (h : ∃ e ∈ E, e.Perm s) :
    sortRow s ∈ E.map sortRow ∧ ∃ e, E[elIdx E s]? = some e ∧ e.Perm s := by
  obtain ⟨e, he, hp⟩ := h
  have hm : sortRow s ∈ E.map sortRow :=
    List.mem_map.2 ⟨e, he, (sortRow_eq_iff _ _).2 hp⟩
  refine ⟨hm, ?_⟩
  have hlt := List.idxOf_lt_length_of_mem hm
  have hg := List.getElem_idxOf hlt
  have hlt' : elIdx E s < E.length := by
    have := hlt; rw [List.length_map] at this; exact this
  refine ⟨E[elIdx E s], List.getElem?_eq_getElem hlt', ?_⟩
  rw [← sortRow_eq_iff]
  rw [List.getElem_map] at hg
  exact hg

theorem elIdx_unique {E : List (List Nat)} (hd : DistinctElements E) {s e : List Nat} {x : Nat}
    (hx : E[x]? = some e) (hp : e.Perm s) : x = elIdx E s := by
  obtain ⟨-, e', h1, h2⟩ := elIdx_get ⟨e, List.mem_of_getElem? hx, hp⟩
  exact distinct_index hd hx h1 (hp.trans h2.symm)

namespace WF

variable {n : Nat} {top : List (List Nat)} {t : Topo}

theorem hasFace (wf : WF n top t) (htop : Simplices (n + 1) top) {k : Nat} (hk : k ≤ n)
    {s l : List Nat} (hl : l ∈ top) (hs : s.Subperm l) (hlen : s.length = k + 1) :
    ∃ e ∈ t.elements[k]?.getD [], e.Perm s :=
  (wf.faces htop (n - k) k (by omega) s).2 ⟨hlen, l, hl, hs⟩

theorem elIdx_vertex (wf : WF n top t) (hn : 0 < n) (htop : Simplices (n + 1) top)
    {v : Nat} {l : List Nat} (hl : l ∈ top) (hv : v ∈ l) :
    elIdx (t.elements[0]?.getD []) [v] = v := by
  obtain ⟨-, e, h1, h2⟩ := elIdx_get (wf.hasFace htop (k := 0) (by omega) hl
    (List.singleton_subperm_iff.2 hv) rfl)
  have h3 := wf.vertex hn h1
  rw [h3] at h2
  have := List.perm_singleton.1 h2
  simpa using this

theorem flagRows_eq (wf : WF n top t) (htop : Simplices (n + 1) top) {l : List Nat}
    (hl : l ∈ top) : ∀ (k : Nat) (row : List Nat), k + 1 ≤ n → row.length = k + 2 → row.Nodup →
    row.Subperm l →
    flagRows t.elements k row = .ok ((wRows k row).map (flagOf t.elements k)) := by
  intro k
  induction k with
  | zero =>
    intro row hk hlen hnd hsub
    obtain ⟨a, b, rfl⟩ := length_two hlen
    have ha := wf.elIdx_vertex (by omega) htop hl (hsub.subset (show a ∈ [a, b] by simp))
    have hb := wf.elIdx_vertex (by omega) htop hl (hsub.subset (show b ∈ [a, b] by simp))
    simp [flagRows, wRows, flagOf, ha, hb]
  | succ k ih =>
    intro row hk hlen hnd hsub
    have hface : ∀ c < row.length, (simplexFace row c).Subperm l := fun c hc =>
      (simplexFace_perm hc).subperm.trans ((List.eraseIdx_sublist _ _).subperm.trans hsub)
    have hstep : ∀ f ∈ (List.range row.length).map (fun c => simplexFace row c),
        (do
          let i ← elementIndex (t.elements[k + 1]?.getD []) f
          let fl ← flagRows t.elements k f
          Except.ok (fl.map fun d => d ++ [i]) : Except PyErr (List (List Nat))) =
        .ok (((wRows k f).map (flagOf t.elements k)).map fun d =>
          d ++ [elIdx (t.elements[k + 1]?.getD []) f]) := by
      intro f hf
      obtain ⟨c, hc, rfl⟩ := List.mem_map.1 hf
      have hc := List.mem_range.1 hc
      have hfl : (simplexFace row c).length = k + 2 := by rw [simplexFace_length hc]; omega
      rw [ih _ (by omega) hfl (simplexFace_nodup hnd hc) (hface c hc)]
      unfold elementIndex
      rw [if_pos (elIdx_get (wf.hasFace htop (k := k + 1) (by omega) hl (hface c hc) hfl)).1]
      rfl
    rw [flagRows, mapM_ok _ _ _ hstep]
    simp only [bind, Except.bind, wRows, List.map_flatten, List.map_map]
    congr 2
    apply List.map_congr_left
    intro c hc
    have hc := List.mem_range.1 hc
    have hfl : (simplexFace row c).length = k + 2 := by rw [simplexFace_length hc]; omega
    simp only [Function.comp, List.map_map]
    apply List.map_congr_left
    intro w hw
    have hp := (mem_wRows k _ hfl (simplexFace_nodup hnd hc) w).1 hw
    have hwl : w.length = k + 2 := hp.length_eq.trans hfl
    simp only [flagOf, Function.comp]
    rw [List.range_succ (n := k + 1), List.map_append, List.map_singleton]
    congr 1
    · apply List.map_congr_left
      intro i hi
      have hi := List.mem_range.1 hi
      rw [List.take_append_of_le_length (by omega)]
    · rw [List.take_append_of_le_length (by omega), List.take_of_length_le (by omega)]
      unfold elIdx
      rw [(sortRow_eq_iff _ _).2 hp]

theorem domains_eq (wf : WF (n + 1) top t) (htop : Simplices (n + 2) top) :
    fundamentalDomains t = .ok (top.mapIdx fun j l =>
      (wRows n l).map fun w => flagOf t.elements n w ++ [j]) := by
  unfold fundamentalDomains
  simp only [wf.lenB, wf.top_eq, Option.getD_some, Nat.add_sub_cancel]
  rw [mapM_ok _ (fun lj => (wRows n lj.1).map fun w => flagOf t.elements n w ++ [lj.2])]
  · congr 1
    apply List.ext_getElem?
    intro j
    simp [List.getElem?_mapIdx]
    cases top[j]? <;> rfl
  · rintro ⟨l, j⟩ hlj
    have hl : l ∈ top := by
      obtain ⟨i, hi, he⟩ := List.getElem_of_mem hlj
      rw [List.getElem_zipIdx] at he
      have := (Prod.mk.inj he).1
      rw [← this]; exact List.getElem_mem _
    rw [wf.flagRows_eq htop hl n l (by omega) (htop l hl).1 (htop l hl).2 (List.Subperm.refl _)]
    simp [bind, Except.bind, Function.comp_def]

/-- an ordering whose initial segments are the elements of the flag -/
theorem flag_order {j : Nat} {d l : List Nat} (wf : WF n top t) (hf : IsFlag t.elements n j d)
    (hj : top[j]? = some l) :
    ∃ w : List Nat, w.Perm l ∧ ∀ k < n, ∃ (x : Nat) (e : List Nat), d[k]? = some x ∧
      (t.elements[k]?.getD [])[x]? = some e ∧ e.Perm (w.take (k + 1)) := by
  obtain ⟨hlen, hlast, hstep⟩ := hf
  have key : ∀ m ≤ n, ∀ (x : Nat) (e : List Nat), d[m]? = some x →
      (t.elements[m]?.getD [])[x]? = some e →
      ∃ w : List Nat, w.Perm e ∧ ∀ k < m, ∃ (x : Nat) (e : List Nat), d[k]? = some x ∧
      (t.elements[k]?.getD [])[x]? = some e ∧ e.Perm (w.take (k + 1)) := by
    intro m
    induction m with
    | zero => intro _ x e _ _; exact ⟨e, List.Perm.refl _, by simp⟩
    | succ m ih =>
      intro hm y f hy hfe
      obtain ⟨x, y', e, f', h1, h2, h3, h4, h5⟩ := hstep m (by omega)
      obtain rfl : y = y' := by rw [hy] at h2; exact Option.some.inj h2
      obtain rfl : f = f' := by rw [hfe] at h4; exact Option.some.inj h4
      obtain ⟨w, hw, hk⟩ := ih (by omega) x e h1 h3
      obtain ⟨g1, g2, -, -, -⟩ := wf.get (k := m) (by omega)
      have he := g1 e (List.mem_of_getElem? h3)
      have hf := g2 f (List.mem_of_getElem? hfe)
      have hsp : e.Subperm f := List.subperm_of_subset he.2 h5
      obtain ⟨r, hr⟩ : ∃ r, f.Perm (e ++ r) := by
        obtain ⟨e', hp, hs⟩ := hsp
        obtain ⟨r, hr⟩ := hs.exists_perm_append
        exact ⟨r, hr.trans (hp.append_right r)⟩
      have hwl : w.length = m + 1 := hw.length_eq.trans he.1
      refine ⟨w ++ r, (hw.append_right r).trans hr.symm, ?_⟩
      intro k hk'
      rcases Nat.lt_or_ge k m with h | h
      · obtain ⟨x, e, q1, q2, q3⟩ := hk k h
        exact ⟨x, e, q1, q2, by rw [List.take_append_of_le_length (by omega)]; exact q3⟩
      · obtain rfl : k = m := by omega
        refine ⟨x, e, h1, h3, ?_⟩
        rw [List.take_append_of_le_length (by omega), List.take_of_length_le (by omega)]
        exact hw.symm
  have := key n (Nat.le_refl _) j l hlast (by rw [wf.top_eq]; exact hj)
  exact this

theorem flagOf_get (wf : WF (n + 1) top t) (htop : Simplices (n + 2) top) {l w : List Nat}
    (hl : l ∈ top) (hw : w.Perm l) {k : Nat} (hk : k ≤ n) :
    ∃ (x : Nat) (e : List Nat), (flagOf t.elements n w)[k]? = some x ∧
      (t.elements[k]?.getD [])[x]? = some e ∧ e.Perm (w.take (k + 1)) := by
  have hwl : w.length = n + 2 := hw.length_eq.trans (htop l hl).1
  obtain ⟨-, e, h1, h2⟩ := elIdx_get (wf.hasFace htop (k := k) (by omega) hl
    ((List.take_sublist (k + 1) w).subperm.trans hw.subperm) (by simp; omega))
  refine ⟨_, e, ?_, h1, h2⟩
  unfold flagOf
  rw [List.getElem?_map, List.getElem?_range (by omega)]
  rfl

theorem flagOf_isFlag (wf : WF (n + 1) top t) (htop : Simplices (n + 2) top) {l w : List Nat}
    {j : Nat} (hj : top[j]? = some l) (hw : w.Perm l) :
    IsFlag t.elements (n + 1) j (flagOf t.elements n w ++ [j]) := by
  have hlen : (flagOf t.elements n w).length = n + 1 := by simp [flagOf]
  have hl := List.mem_of_getElem? hj
  have hwl : w.length = n + 2 := hw.length_eq.trans (htop l hl).1
  refine ⟨by simp [hlen], by rw [List.getElem?_append_right (by omega), hlen]; simp, ?_⟩
  intro k hk
  obtain ⟨x, e, h1, h2, h3⟩ := wf.flagOf_get htop hl hw (k := k) (by omega)
  rw [List.getElem?_append_left (by omega)]
  rcases Nat.lt_or_ge k n with h | h
  · obtain ⟨y, f, g1, g2, g3⟩ := wf.flagOf_get htop hl hw (k := k + 1) (by omega)
    rw [List.getElem?_append_left (by omega)]
    refine ⟨x, y, e, f, h1, g1, h2, g2, ?_⟩
    intro v hv
    exact g3.mem_iff.2 ((List.take_sublist_take_left (by omega)).subset (h3.mem_iff.1 hv))
  · obtain rfl : k = n := by omega
    rw [List.getElem?_append_right (by omega), hlen]
    refine ⟨x, j, e, l, h1, by simp, h2, by rw [wf.top_eq]; exact hj, ?_⟩
    intro v hv
    exact hw.mem_iff.1 ((List.take_sublist _ _).subset (h3.mem_iff.1 hv))

/-- equal flag entries mean equal initial segments -/
theorem flagOf_eq_take (wf : WF (n + 1) top t) (htop : Simplices (n + 2) top)
    {l l' w w' : List Nat} (hl : l ∈ top) (hl' : l' ∈ top) (hw : w.Perm l) (hw' : w'.Perm l')
    {k : Nat} (hk : k ≤ n)
    (he : (flagOf t.elements n w)[k]? = (flagOf t.elements n w')[k]?) :
    (w.take (k + 1)).Perm (w'.take (k + 1)) := by
  obtain ⟨x, e, h1, h2, h3⟩ := wf.flagOf_get htop hl hw hk
  obtain ⟨x', e', h1', h2', h3'⟩ := wf.flagOf_get htop hl' hw' hk
  rw [h1, h1'] at he
  obtain rfl := Option.some.inj he
  rw [h2] at h2'
  obtain rfl := Option.some.inj h2'
  exact h3.symm.trans h3'

end WF

theorem take_succ_perm {w w' : List Nat} {k : Nat} (h0 : k < w.length) (h0' : k < w'.length)
    (h1 : (w.take k).Perm (w'.take k)) (h2 : (w.take (k + 1)).Perm (w'.take (k + 1))) :
    w[k] = w'[k] := by
  rw [List.take_succ_eq_append_getElem h0, List.take_succ_eq_append_getElem h0'] at h2
  have h3 := (h1.symm.append_right [w[k]]).trans h2
  have := (List.perm_append_left_iff _).1 h3
  have := List.perm_singleton.1 this
  simpa using this

theorem eq_of_take_perm {w w' : List Nat} (hlen : w.length = w'.length)
    (h : ∀ k ≤ w.length, (w.take k).Perm (w'.take k)) : w = w' := by
  apply List.ext_getElem hlen
  intro k h1 h2
  exact take_succ_perm h1 h2 (h k (by omega)) (h (k + 1) (by omega))

end Verif
