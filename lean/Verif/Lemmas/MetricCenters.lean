/-
The positions and the signs that `metric` works with.
-/
import Verif.Lemmas.MetricEval
import Verif.Spec.Metric
import Verif.Props.Circumcenter

set_option linter.unusedSectionVars false

namespace Verif

open Verif.Model Verif.Spec Matrix

variable {D : Nat} {V : List (Vec ℝ D)}

theorem rowValues_ok {P : Nat} {row : List Nat} (hl : row.length = P) (hr : ∀ v ∈ row, v < V.length) :
    rowValues V P row = .ok (cornersOf V P row) := by
  unfold rowValues
  rw [dif_pos ⟨hl, fun i => hr _ (List.getElem_mem _)⟩]
  congr 1
  funext i
  simp only [cornersOf, position]
  have hi : i.val < row.length := by omega
  rw [List.getElem?_eq_getElem hi, Option.getD_some, List.getElem?_eq_getElem (hr _ (List.getElem_mem hi)),
    Option.getD_some]
  rfl

theorem cornerBatch_ok {P : Nat} {rows : List (List Nat)}
    (h : ∀ e ∈ rows, e.length = P ∧ ∀ v ∈ e, v < V.length) :
    cornerBatch V none P rows = .ok (rows.map fun e => (Matrix.of (cornersOf V P e), none)) := by
  unfold cornerBatch
  rw [mapM_ok]
  intro e he
  rw [rowValues_ok (h e he).1 (h e he).2]
  rfl

theorem sum_fin_list (e : List Nat) (hn : e.Nodup) {P : Nat} (hl : e.length = P) (f : Nat → ℝ) :
    ∑ i : Fin P, f (e[i.val]?.getD 0) = ∑ v ∈ e.toFinset, f v := by
  subst hl
  rw [List.sum_toFinset f hn, ← List.sum_ofFn]
  congr 1
  apply List.ext_getElem
  · simp
  · intro i h1 h2
    simp

/-- the center of a face, in the form used for circumcenters -/
theorem Spec.CenterCoords.isCenter {e : List Nat} (hn : e.Nodup) {P : Nat} (hl : e.length = P)
    {y : Nat → ℝ} {c : Fin D → ℝ} (h : CenterCoords V e.toFinset y c) :
    Combines (cornersOf V P e) (fun i => y (e[i.val]?.getD 0)) c ∧
      ∀ i j, power c (cornersOf V P e i) 0 = power c (cornersOf V P e j) 0 := by
  have hm : ∀ i : Fin P, e[i.val]?.getD 0 ∈ e.toFinset := by
    intro i
    have hi : i.val < e.length := by omega
    rw [List.getElem?_eq_getElem hi, Option.getD_some, List.mem_toFinset]
    exact List.getElem_mem hi
  refine ⟨⟨?_, fun j => ?_⟩, fun i j => ?_⟩
  · rw [sum_fin_list e hn hl y]
    exact h.one
  · rw [h.point j, ← sum_fin_list e hn hl (fun v => y v * position V v j)]
    rfl
  · have := h.equidistant _ (hm i) _ (hm j)
    simp only [power, sub_zero]
    exact this

theorem spansFace_of_subset {top : List (List Nat)} {l s : List Nat} (hl : l ∈ top) (hs : s ⊆ l)
    (h0 : s ≠ []) : SpansFace top s.toFinset := by
  refine ⟨?_, l, hl, fun v hv => List.mem_toFinset.2 (hs (List.mem_toFinset.1 hv))⟩
  obtain ⟨v, hv⟩ := List.exists_mem_of_ne_nil s h0
  exact ⟨v, List.mem_toFinset.2 hv⟩

section

variable {n : Nat} {top : List (List Nat)} {t : Topo} {y : Finset Nat → Nat → ℝ}
  {ctr : Finset Nat → Fin D → ℝ} {eigh : (n : Nat) → Matrix (Fin n) (Fin n) ℝ → Eigh n ℝ} {ratio : ℝ}

theorem subperm_nodup' {s l : List Nat} (hs : s.Subperm l) (hl : l.Nodup) : s.Nodup := by
  obtain ⟨s', hp, hsub⟩ := hs
  exact hp.nodup_iff.1 (hsub.nodup hl)

theorem WF.element_face (wf : WF n top t) (htop : Simplices (n + 1) top) {k : Nat} (hk : k ≤ n)
    {e : List Nat} (he : e ∈ t.elements[k]?.getD []) : e.length = k + 1 ∧ e.Nodup ∧ ∃ l ∈ top, e ⊆ l := by
  obtain ⟨h1, l, hl, hs⟩ := (wf.faces htop (n - k) k (by omega) e).1 ⟨e, he, List.Perm.refl _⟩
  exact ⟨h1, subperm_nodup' hs (htop l hl).2, l, hl, hs.subset⟩

theorem WF.level_ne (wf : WF n top t) (htop : Simplices (n + 1) top) (hne : top ≠ []) {k : Nat}
    (hk : k ≤ n) : t.elements[k]?.getD [] ≠ [] := by
  obtain ⟨l, hl⟩ := List.exists_mem_of_ne_nil top hne
  obtain ⟨e, he, -⟩ := wf.hasFace htop hk hl (s := l.take (k + 1)) (List.take_sublist _ _).subperm
    (by rw [List.length_take, (htop l hl).1]; omega)
  exact List.ne_nil_of_mem he

/-- the positions that `primal_position` finds are the circumcenters -/
theorem primalPositions_ok (wf : WF n top t) (htop : Simplices (n + 1) top) (hne : top ≠ [])
    (hV : ∀ l ∈ top, ∀ v ∈ l, v < V.length)
    (hE : ∀ k M, Mᵀ = M → IsEigh M (eigh k M).v (eigh k M).w)
    (hw : ∀ k ≤ n, EigenvaluesWithin ratio ((t.elements[k]?.getD []).map (cornersOf V (k + 1))))
    (hc : Centers V top y ctr) :
    primalPositions eigh ratio t V none =
      .ok ((List.range (n + 1)).map fun k => (t.elements[k]?.getD []).map fun e => ctr e.toFinset) := by
  unfold primalPositions
  rw [mapM_ok _ (fun ek : List (List Nat) × Nat => ek.1.map fun e => ctr e.toFinset)]
  · congr 1
    apply List.ext_getElem
    · simp [wf.lenE]
    · intro k h1 h2
      simp at h1
      simp [h1]
  · rintro ⟨E, k⟩ hEk
    have hEk' := List.mem_zipIdx' hEk
    have hk : k ≤ n := by have := hEk'.1; rw [wf.lenE] at this; omega
    have hEe : t.elements[k]?.getD [] = E := by
      rw [hEk'.2, List.getElem?_eq_getElem hEk'.1]; rfl
    have hwk := hw k hk
    have hnek := wf.level_ne htop hne hk
    rw [hEe] at hwk hnek
    have hel : ∀ e ∈ E, e.length = k + 1 ∧ e.Nodup ∧ ∃ l ∈ top, e ⊆ l := by
      intro e he
      exact wf.element_face htop hk (by rw [hEe]; exact he)
    simp only
    rw [cornerBatch_ok (fun e he => ⟨(hel e he).1, fun v hv => by
      obtain ⟨-, -, l, hl, hs⟩ := hel e he
      exact hV l hl v (hs hv)⟩)]
    simp only [bind, Except.bind]
    unfold primalPosition
    obtain ⟨out, h1, h2, h3⟩ := Props.C57_center (eigh (k + 1 + 1)) ratio (hE (k + 1 + 1))
      (E.map fun e => (Matrix.of (cornersOf V (k + 1) e), (none : Option (Vec ℝ (k + 1)))))
      (by simpa using hnek) (by rw [List.map_map]; exact hwk)
    rw [h1]
    simp only [bind, Except.bind]
    congr 1
    apply List.ext_getElem
    · simp [h2]
    · intro x hx1 hx2
      have hx : x < E.length := by simpa using hx2
      have hxo : x < out.length := by rw [h2]; simpa using hx
      rw [List.getElem_zipWith, List.getElem_map, List.getElem_map]
      obtain ⟨hl, hn, l, hlt, hs⟩ := hel E[x] (List.getElem_mem hx)
      have hface := spansFace_of_subset hlt hs (by intro h0; rw [h0] at hl; simp at hl)
      obtain ⟨hcomb, hpow⟩ := (hc _ hface).isCenter hn hl
      have := h3 x (Matrix.of (cornersOf V (k + 1) E[x]), none) out[x]
        (by simp [hx]) (List.getElem?_eq_getElem hxo) (ctr E[x].toFinset) ⟨⟨_, hcomb⟩, hpow⟩
      funext j
      rw [this.2 j]
      exact Finset.sum_congr rfl fun i _ => mul_comm _ _

/-- the coordinates that the signs are taken from are those of the circumcenters -/
theorem topBarycentric_ok (wf : WF n top t) (htop : Simplices (n + 1) top) (hne : top ≠ [])
    (hV : ∀ l ∈ top, ∀ v ∈ l, v < V.length)
    (hE : ∀ k M, Mᵀ = M → IsEigh M (eigh k M).v (eigh k M).w)
    (hw : EigenvaluesWithin ratio (top.map fun l => centred (cornersOf V (n + 1) l)))
    (hnd : NonDegenerate V n top) (hc : Centers V top y ctr) :
    ∃ bary, topBarycentric eigh ratio t V = .ok bary ∧
      domainSigns bary = top.flatMap fun l => l.flatMap fun v =>
        List.replicate n.factorial (Real.sign (y l.toFinset v)) := by
  have lenB := wf.lenB
  unfold topBarycentric
  generalize hN : t.boundary.length = N at *
  subst lenB
  simp only [wf.top_eq, Option.getD_some]
  rw [cornerBatch_ok (fun l hl => ⟨(htop l hl).1, hV l hl⟩)]
  simp only [bind, Except.bind, List.map_map]
  obtain ⟨out, h1, h2, h3⟩ := Props.C57_center (eigh (N + 1 + 1)) ratio (hE (N + 1 + 1))
      (top.map ((fun b : Matrix (Fin (N + 1)) (Fin D) ℝ × Option (Vec ℝ (N + 1)) =>
        ((Matrix.of fun i j => b.1 i j - (∑ k, b.1 k j) / ((N + 1 : ℕ) : ℝ)),
          (none : Option (Vec ℝ (N + 1))))) ∘
        fun l => (Matrix.of (cornersOf V (N + 1) l), (none : Option (Vec ℝ (N + 1))))))
      (by simpa using hne) (by rw [List.map_map]; exact hw)
  refine ⟨out, h1, ?_⟩
  have hlen : out.length = top.length := by rw [h2]; simp
  have key : ∀ (x : Nat) (hx : x < top.length), ∀ c : Fin (N + 1),
      (out[x]'(by omega)) c = y top[x].toFinset (top[x][c.val]?.getD 0) := by
    intro x hx
    obtain ⟨hl, hn⟩ := htop top[x] (List.getElem_mem hx)
    have hface := spansFace_of_subset (List.getElem_mem hx) (List.Subset.refl top[x])
      (by intro h0; rw [h0] at hl; simp at hl)
    obtain ⟨hcomb, hpow⟩ := (hc _ hface).isCenter hn hl
    set pts := cornersOf V (N + 1) top[x] with hpts
    set c := ctr top[x].toFinset with hcdef
    set mean : Fin D → ℝ := fun j => (∑ k, pts k j) / ((N + 1 : ℕ) : ℝ) with hmean
    have hcen : ∀ (z : Fin (N + 1) → ℝ), ∑ i, z i = 1 → ∀ j,
        ∑ i, z i * (pts i j - mean j) = ∑ i, z i * pts i j - mean j := by
      intro z hz j
      simp only [mul_sub, Finset.sum_sub_distrib, ← Finset.sum_mul, hz, one_mul]
    have := h3 x (Matrix.of fun i j => pts i j - mean j, none) (out[x]'(by omega))
      (by rw [List.getElem?_map, List.getElem?_eq_getElem hx]; rfl) (List.getElem?_eq_getElem (by omega))
      (fun j => c j - mean j) ⟨⟨fun i => y top[x].toFinset (top[x][i.val]?.getD 0), hcomb.1, fun j => by
        refine Eq.trans ?_ (hcen _ hcomb.1 j).symm
        simp only
        rw [hcomb.2 j]⟩, fun i j => by
        have := hpow i j
        simp only [power, sub_zero] at this ⊢
        simpa [weightsOf] using this⟩
    have hcomb2 : Combines pts (out[x]'(by omega)) c := by
      refine ⟨this.1, fun j => ?_⟩
      have h5 := this.2 j
      have h6 := hcen _ this.1 j
      have h7 : c j - mean j = ∑ i, (out[x]'(by omega)) i * (pts i j - mean j) := h5
      linarith
    have h8 := (Props.C57_exists pts (hnd _ (List.getElem_mem hx)) 0).2 _ _ _ hcomb2 hcomb
    intro i
    rw [h8]
  unfold domainSigns
  have : out = top.map fun l => fun c : Fin (N + 1) => y l.toFinset (l[c.val]?.getD 0) := by
    apply List.ext_getElem
    · simp [hlen]
    · intro x hx1 hx2
      rw [List.getElem_map]
      funext c
      exact key x (by omega) c
  rw [this, List.flatMap_map]
  simp only [List.flatMap]
  congr 1
  apply List.map_congr_left
  intro l hl
  have hll := (htop l hl).1
  congr 1
  apply List.ext_getElem
  · simp [hll]
  · intro i h1 h2
    have hi : i < l.length := by simpa using h2
    simp [hi]

end

end Verif
