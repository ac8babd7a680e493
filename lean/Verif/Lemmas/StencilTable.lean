/-
The tables computed by `generate`.
-/
import Verif.Model.Stencil
import Verif.Spec.Stencil
import Verif.Spec.Simplicial
import Verif.Lemmas.Simplicial
import Verif.Props.Combinatorial

set_option linter.unusedSectionVars false

namespace Verif.Props

open Verif.Model Verif.Spec

/-- looking up a rearrangement in the permutation table gives its parity -/
theorem parity_of_perm {c : List Nat} (h : c.Perm (List.range c.length)) (h0 : c ≠ []) :
    relativeSimplexParity c = .ok (inversions c % 2) := by
  have hL : List.range c.length ≠ [] := by
    rw [Ne, List.range_eq_nil, List.length_eq_zero_iff]; exact h0
  have hid : c.map (fun x => (List.range c.length).idxOf x) = c := by
    conv_rhs => rw [← List.map_id c]
    apply List.map_congr_left
    intro x hx
    have hx' : x < c.length := List.mem_range.mp (h.mem_iff.mp hx)
    have := List.nodup_range (n := c.length)
    have h2 := this.idxOf_getElem x (by simpa using hx')
    simpa using h2
  have hm : (inversions c % 2, c) ∈ permutations (List.range c.length) :=
    (C01_permutations_exact _ hL List.nodup_range _ _).mpr ⟨h, by rw [hid]⟩
  unfold relativeSimplexParity
  cases hf : (permutations (List.range c.length)).find? (fun pc => pc.2 == c) with
  | none => simpa using List.find?_eq_none.1 hf _ hm
  | some pc =>
    obtain ⟨p, r⟩ := pc
    have he := List.find?_some hf
    simp only [beq_iff_eq] at he
    subst he
    have := (C01_permutations_exact _ hL List.nodup_range _ _).mp (List.mem_of_find?_eq_some hf)
    rw [this.2, hid]

theorem inversions_append_sorted (u v : List Nat) (hu : u.Pairwise (· ≤ ·))
    (huv : ∀ x ∈ u, ∀ y ∈ v, x ≤ y) : inversions (u ++ v) = inversions v := by
  induction u with
  | nil => rfl
  | cons a t ih =>
    rw [List.pairwise_cons] at hu
    rw [List.cons_append, inversions, ih hu.2 fun x hx => huv x (List.mem_cons_of_mem _ hx)]
    rw [List.countP_eq_zero.mpr, Nat.zero_add]
    intro x hx
    rcases List.mem_append.mp hx with hx | hx
    · simpa using hu.1 x hx
    · simpa using huv a List.mem_cons_self x hx

/-- the entries of a sorted row below and above a missing number -/
theorem sorted_split {s : List Nat} (hs : s.Pairwise (· < ·)) (d : Nat) (hd : d ∉ s) :
    ∃ a b, s = a ++ b ∧ (∀ x ∈ a, x < d) ∧ (∀ x ∈ b, d < x) ∧ b.length = s.countP (d < ·) := by
  induction s with
  | nil => exact ⟨[], [], rfl, by simp, by simp, rfl⟩
  | cons x t ih =>
    rw [List.pairwise_cons] at hs
    by_cases hx : x < d
    · obtain ⟨a, b, e, h1, h2, h3⟩ := ih hs.2 fun h => hd (List.mem_cons_of_mem _ h)
      refine ⟨x :: a, b, by rw [e]; rfl, ?_, h2, ?_⟩
      · intro y hy
        rcases List.mem_cons.mp hy with rfl | hy
        · exact hx
        · exact h1 y hy
      · rw [h3, List.countP_cons_of_neg (by simpa using hx.le)]
    · have hx' : d < x := by
        have : x ≠ d := fun h => hd (h ▸ List.mem_cons_self)
        omega
      have hall : ∀ y ∈ x :: t, d < y := by
        intro y hy
        rcases List.mem_cons.mp hy with rfl | hy
        · exact hx'
        · have := hs.1 y hy; omega
      refine ⟨[], x :: t, rfl, by simp, hall, ?_⟩
      symm
      rw [List.countP_eq_length]
      intro y hy; simpa using hall y hy

theorem pairwise_insert {a b : List Nat} {d : Nat} (h : (a ++ b).Pairwise (· < ·))
    (ha : ∀ x ∈ a, x < d) (hb : ∀ x ∈ b, d < x) : (a ++ d :: b).Pairwise (· < ·) := by
  rw [List.pairwise_append] at h ⊢
  refine ⟨h.1, List.pairwise_cons.mpr ⟨hb, h.2.1⟩, ?_⟩
  intro x hx y hy
  rcases List.mem_cons.mp hy with rfl | hy
  · exact ha x hx
  · exact h.2.2 x hx y hy

theorem sortRow_unique {l k : List Nat} (hp : k.Perm l) (hk : k.Pairwise (· < ·)) :
    sortRow l = k :=
  List.Perm.eq_of_pairwise' (sortRow_sorted l) (hk.imp fun h => Nat.le_of_lt h)
    ((sortRow_perm l).trans hp.symm)

/-- the parity of a derived term: the number of axes after the new one -/
theorem term_parity {s : List Nat} (hs : s.Pairwise (· < ·)) {d : Nat} (hd : d ∉ s) :
    relativeSimplexParity (argsort (s ++ [d])) = .ok (s.countP (d < ·) % 2) := by
  obtain ⟨a, b, e, h1, h2, h3⟩ := sorted_split hs d hd
  set l := s ++ [d] with hl
  have hlen : l.length = a.length + b.length + 1 := by rw [hl, e]; simp; omega
  have hsort : sortRow l = a ++ d :: b := by
    refine sortRow_unique ?_ (pairwise_insert (e ▸ hs) h1 h2)
    rw [hl, e]
    refine List.perm_middle.trans ?_
    exact (List.perm_append_singleton d (a ++ b)).symm
  have hnd : l.Nodup := by
    rw [hl]
    refine List.nodup_append.mpr ⟨hs.imp fun h => Nat.ne_of_lt h, List.nodup_singleton _, ?_⟩
    intro x hx y hy
    rw [List.mem_singleton] at hy
    subst hy
    exact fun h => hd (h ▸ hx)
  -- the explicit permutation
  set c := List.range a.length ++ (a.length + b.length) :: List.range' a.length b.length with hc
  have hcm : c.map (fun i => (l[i]?).getD 0) = a ++ d :: b := by
    rw [hc, List.map_append, List.map_cons]
    congr 1
    · apply List.ext_getElem
      · simp
      · intro i h1' h2'
        simp only [List.getElem_map, List.getElem_range, hl, e]
        rw [List.append_assoc, List.getElem?_append_left h2', List.getElem?_eq_getElem h2']
        rfl
    · congr 1
      · rw [hl, e, List.getElem?_append_right (by simp)]
        simp
      · apply List.ext_getElem
        · simp
        · intro i h1' h2'
          simp only [List.getElem_map, List.getElem_range', hl, e]
          rw [List.append_assoc, List.getElem?_append_right (by omega),
            List.getElem?_append_left (by omega)]
          have : a.length + 1 * i - a.length = i := by omega
          rw [this, List.getElem?_eq_getElem h2']
          rfl
  have hcl : c.length = l.length := by rw [hc, hlen]; simp; omega
  have hclt : ∀ i ∈ c, i < l.length := by
    intro i hi
    rw [hc] at hi
    simp only [List.mem_append, List.mem_range, List.mem_cons, List.mem_range'_1] at hi
    omega
  have heq : argsort l = c := by
    have h4 := argsort_map l
    rw [hsort, ← hcm] at h4
    refine List.ext_getElem (by rw [argsort_length, hcl]) ?_
    intro i hi1 hi2
    have h5 : ((argsort l).map (fun i => (l[i]?).getD 0))[i]? =
        (c.map (fun i => (l[i]?).getD 0))[i]? := by rw [h4]
    simp only [List.getElem?_map, List.getElem?_eq_getElem hi1, List.getElem?_eq_getElem hi2,
      Option.map_some, Option.some.injEq] at h5
    have k1 : (argsort l)[i] < l.length :=
      List.mem_range.mp ((argsort_perm l).mem_iff.mp (List.getElem_mem hi1))
    have k2 : c[i] < l.length := hclt _ (List.getElem_mem hi2)
    rw [List.getElem?_eq_getElem k1, List.getElem?_eq_getElem k2] at h5
    exact (List.Nodup.getElem_inj_iff hnd).mp h5
  have hperm := argsort_perm l
  rw [heq] at hperm ⊢
  rw [parity_of_perm (by rw [hcl]; exact hperm) (by rw [hc]; simp)]
  congr 2
  rw [hc, inversions_append_sorted]
  · rw [inversions, inversions_of_sorted, ← h3]
    · rw [List.countP_eq_length.mpr]
      · simp
      · intro x hx
        have := List.mem_range'_1.mp hx
        simp; omega
    · exact (List.pairwise_lt_range' (s := a.length) (n := b.length)).imp fun h => Nat.le_of_lt h
  · exact (List.pairwise_lt_range).imp fun h => Nat.le_of_lt h
  · intro x hx y hy
    simp only [List.mem_range, List.mem_cons, List.mem_range'_1] at hx hy
    omega

theorem mem_derivedTerms {N : Nat} {symbols : List (List Nat)} {r : List Nat} :
    r ∈ derivedTerms N symbols ↔ ∃ d < N, ∃ s ∈ symbols, d ∉ s ∧ r = s ++ [d] := by
  simp only [derivedTerms, List.mem_flatMap, List.mem_range, List.mem_map, List.mem_filter]
  constructor
  · rintro ⟨d, hd, s, ⟨hs, hds⟩, rfl⟩
    exact ⟨d, hd, s, hs, by simpa using hds, rfl⟩
  · rintro ⟨d, hd, s, hs, hds, rfl⟩
    exact ⟨d, hd, s, ⟨hs, by simpa using hds⟩, rfl⟩

theorem derivedTerms_nodup {N : Nat} {symbols : List (List Nat)} (h : symbols.Nodup) :
    (derivedTerms N symbols).Nodup := by
  unfold derivedTerms
  rw [List.nodup_flatMap]
  refine ⟨fun d _ => ?_, ?_⟩
  · refine List.Nodup.map ?_ (h.filter _)
    intro a b hab
    exact (List.append_inj' hab rfl).1
  · refine List.Nodup.pairwise_of_forall_ne List.nodup_range ?_
    intro d _ e _ hde r hr hr'
    obtain ⟨s, _, rfl⟩ := List.mem_map.mp hr
    obtain ⟨s', _, h2⟩ := List.mem_map.mp hr'
    have := (List.append_inj' h2 rfl).2
    simp at this
    exact hde this.symm

/-- the sorted derived term of an axis that is missing -/
theorem sort_term {N n : Nat} {s : List Nat} (hs : AxisSet N n s) {d : Nat} (hd : d ∉ s)
    (hdN : d < N) : AxisSet N (n + 1) (sortRow (s ++ [d])) ∧ d ∈ sortRow (s ++ [d]) ∧
      (sortRow (s ++ [d])).erase d = s ∧
      (sortRow (s ++ [d])).countP (d < ·) = s.countP (d < ·) := by
  obtain ⟨a, b, e, h1, h2, h3⟩ := sorted_split hs.1 d hd
  have hpw := pairwise_insert (e ▸ hs.1) h1 h2
  have hsort : sortRow (s ++ [d]) = a ++ d :: b := by
    refine sortRow_unique ?_ hpw
    rw [e]
    exact List.perm_middle.trans (List.perm_append_singleton d (a ++ b)).symm
  rw [hsort]
  have hda : d ∉ a := fun h => hd (by rw [e]; simp [h])
  refine ⟨⟨hpw, ?_, ?_⟩, by simp, ?_, ?_⟩
  · have := hs.2.1
    rw [e] at this
    simp at this ⊢
    omega
  · intro x hx
    simp only [List.mem_append, List.mem_cons] at hx
    rcases hx with hx | rfl | hx
    · exact hs.2.2 x (by rw [e]; simp [hx])
    · exact hdN
    · exact hs.2.2 x (by rw [e]; simp [hx])
  · rw [List.erase_append_right _ hda, List.erase_cons_head, e]
  · rw [e, List.countP_append, List.countP_append, List.countP_cons_of_neg (by simp)]

theorem axisSet_erase {N n : Nat} {u : List Nat} (hu : AxisSet N (n + 1) u) {d : Nat} (hd : d ∈ u) :
    AxisSet N n (u.erase d) ∧ d ∉ u.erase d ∧ d < N ∧ sortRow (u.erase d ++ [d]) = u := by
  have hnd : u.Nodup := hu.1.imp fun h => Nat.ne_of_lt h
  refine ⟨⟨hu.1.sublist List.erase_sublist, ?_, fun x hx => hu.2.2 x (List.mem_of_mem_erase hx)⟩,
    hnd.not_mem_erase, hu.2.2 d hd, ?_⟩
  · rw [List.length_erase_of_mem hd, hu.2.1]; rfl
  · refine sortRow_unique ?_ hu.1
    exact (List.perm_cons_erase hd).trans (List.perm_append_singleton d _).symm

/-- what the table of one derivative should contain -/
def TableSpec (symbols symbols' : List (List Nat)) (table : List (List StencilTerm)) : Prop :=
  table.length = symbols'.length ∧
  ∀ (c : Nat) (u : List Nat), symbols'[c]? = some u → ∃ row, table[c]? = some row ∧
    (row.map StencilTerm.axis).Perm u ∧
    ∀ e ∈ row, symbols[e.term]? = some (u.erase e.axis) ∧ e.parity = u.countP (e.axis < ·) % 2

/-- the symbols of degree `n` -/
def SymbolSpec (N n : Nat) (symbols : List (List Nat)) : Prop :=
  symbols.Nodup ∧ ∀ u, u ∈ symbols ↔ AxisSet N n u

theorem generateLevel_ok {uniq : List (List Nat) → List (List Nat)} (hu : UniqSpec uniq)
    {N n : Nat} {symbols : List (List Nat)} (hs : SymbolSpec N n symbols) :
    ∃ symbols' table, generateLevel uniq N symbols = .ok (symbols', table) ∧
      SymbolSpec N (n + 1) symbols' ∧ TableSpec symbols symbols' table := by
  set t := derivedTerms N symbols with ht
  set par : List Nat → Nat := fun r => r.dropLast.countP (r.getLastD 0 < ·) % 2 with hpar
  have hmem : ∀ r ∈ t, ∃ d s, d < N ∧ AxisSet N n s ∧ d ∉ s ∧ r = s ++ [d] := by
    intro r hr
    obtain ⟨d, hd, s, hs', hds, e⟩ := mem_derivedTerms.mp hr
    exact ⟨d, s, hd, (hs.2 s).mp hs', hds, e⟩
  have hparity : t.mapM (fun r => relativeSimplexParity (argsort r)) = .ok (t.map par) := by
    apply mapM_ok
    intro r hr
    obtain ⟨d, s, hd, hs', hds, rfl⟩ := hmem r hr
    rw [term_parity hs'.1 hds, hpar]
    simp
  set unique := uniq (t.map sortRow) with hun
  obtain ⟨hund, humem⟩ := hu (t.map sortRow)
  have hzip : t.zip (t.map par) = t.map fun r => (r, par r) := by
    have := List.zip_map' (f := fun r : List Nat => r) (g := par) (l := t)
    rwa [List.map_id'] at this
  have hsym : SymbolSpec N (n + 1) unique := by
    refine ⟨hund, fun u => ?_⟩
    rw [humem, List.mem_map]
    constructor
    · rintro ⟨r, hr, rfl⟩
      obtain ⟨d, s, hd, hs', hds, rfl⟩ := hmem r hr
      exact (sort_term hs' hds hd).1
    · intro h
      have h0 : u ≠ [] := by
        intro h0; have := h.2.1; rw [h0] at this; simp at this
      obtain ⟨d, hd⟩ := List.exists_mem_of_ne_nil u h0
      obtain ⟨h1, h2, h3, h4⟩ := axisSet_erase h hd
      exact ⟨u.erase d ++ [d], mem_derivedTerms.mpr ⟨d, h3, _, (hs.2 _).mpr h1, h2, rfl⟩, h4⟩
  -- the members of one group
  set members : List Nat → List (List Nat) := fun u => t.filter fun r => sortRow r == u with hmbr
  have haxes : ∀ u, AxisSet N (n + 1) u →
      ((members u).map fun r => r.getLastD 0).Perm u := by
    intro u hau
    have hnd : u.Nodup := hau.1.imp fun h => Nat.ne_of_lt h
    refine (List.perm_ext_iff_of_nodup ?_ hnd).mpr ?_
    · refine List.Nodup.map_on ?_ ((derivedTerms_nodup hs.1).filter _)
      intro r hr r' hr' heq
      obtain ⟨hr1, hr2⟩ := List.mem_filter.mp hr
      obtain ⟨hr1', hr2'⟩ := List.mem_filter.mp hr'
      obtain ⟨d, s, hd, hs', hds, rfl⟩ := hmem r hr1
      obtain ⟨d', s', hd', hs'', hds', rfl⟩ := hmem r' hr1'
      simp only [beq_iff_eq] at hr2 hr2'
      have hdd : d = d' := by simpa using heq
      subst hdd
      rw [← (sort_term hs' hds hd).2.2.1, ← (sort_term hs'' hds' hd).2.2.1, hr2, hr2']
    · intro d
      rw [List.mem_map]
      constructor
      · rintro ⟨r, hr, rfl⟩
        obtain ⟨hr1, hr2⟩ := List.mem_filter.mp hr
        obtain ⟨d, s, hd, hs', hds, rfl⟩ := hmem r hr1
        simp only [beq_iff_eq] at hr2
        rw [← hr2]
        simpa using (sort_term hs' hds hd).2.1
      · intro hd
        obtain ⟨h1, h2, h3, h4⟩ := axisSet_erase hau hd
        refine ⟨u.erase d ++ [d], List.mem_filter.mpr
          ⟨mem_derivedTerms.mpr ⟨d, h3, _, (hs.2 _).mpr h1, h2, rfl⟩, by simp [h4]⟩, by simp⟩
  have hgroups : (unique.map fun k => (t.zip (t.map par)).filter fun tp => sortRow tp.1 == k) =
      unique.map fun u => (members u).map fun r => (r, par r) := by
    apply List.map_congr_left
    intro u _
    rw [hzip, List.filter_map]
    rfl
  have hlen : ∀ u ∈ unique, (members u).length = n + 1 := by
    intro u hu'
    have hau := (hsym.2 u).mp hu'
    have := (haxes u hau).length_eq
    rw [List.length_map, hau.2.1] at this
    exact this
  have hsame : sameLength (unique.map fun u => (members u).map fun r => (r, par r)) = true := by
    have : ∀ l : List (List Nat), (∀ u ∈ l, (members u).length = n + 1) →
        sameLength (l.map fun u => (members u).map fun r => (r, par r)) = true := by
      intro l hl
      cases l with
      | nil => rfl
      | cons a t' =>
        simp only [List.map_cons, sameLength, List.all_map, List.all_eq_true, Function.comp_apply,
          List.length_map, beq_iff_eq]
        intro u hu'
        rw [hl u (List.mem_cons_of_mem _ hu'), hl a List.mem_cons_self]
    exact this unique hlen
  set mk : List Nat → StencilTerm := fun r => ⟨symbols.idxOf r.dropLast, r.getLastD 0, par r⟩ with hmk
  have htable : (unique.map fun u => (members u).map fun r => (r, par r)).mapM (fun g => g.mapM
      fun tp => do
        let i ← symbolIndex symbols tp.1.dropLast
        (.ok ⟨i, tp.1.getLastD 0, tp.2⟩ : Except PyErr StencilTerm)) =
      .ok (unique.map fun u => (members u).map mk) := by
    have := mapM_ok (fun g : List (List Nat × Nat) => g.mapM
      fun tp => do
        let i ← symbolIndex symbols tp.1.dropLast
        (.ok ⟨i, tp.1.getLastD 0, tp.2⟩ : Except PyErr StencilTerm))
      (fun g => g.map fun tp => (⟨symbols.idxOf tp.1.dropLast, tp.1.getLastD 0, tp.2⟩ : StencilTerm))
      (unique.map fun u => (members u).map fun r => (r, par r)) ?_
    · rw [this, List.map_map]
      congr 1
      apply List.map_congr_left
      intro u _
      simp [hmk]
    · intro g hg
      obtain ⟨u, hu', rfl⟩ := List.mem_map.mp hg
      apply mapM_ok
      intro tp htp
      obtain ⟨r, hr, rfl⟩ := List.mem_map.mp htp
      obtain ⟨d, s, hd, hs', hds, rfl⟩ := hmem r (List.mem_filter.mp hr).1
      have : s ∈ symbols := (hs.2 s).mpr hs'
      simp [symbolIndex, this, bind, Except.bind]
  refine ⟨unique, unique.map fun u => (members u).map mk, ?_, hsym, ?_, ?_⟩
  · unfold generateLevel
    rw [← ht]
    simp only []
    rw [hparity]
    show (if sameLength (unique.map fun k =>
      (t.zip (t.map par)).filter fun tp => sortRow tp.1 == k) = true then _ else _) = _
    rw [hgroups, if_pos hsame, htable]
    rfl
  · rw [List.length_map]
  · intro c u hc
    have hu' : u ∈ unique := List.mem_of_getElem? hc
    have hau := (hsym.2 u).mp hu'
    refine ⟨(members u).map mk, by simp [hc], ?_, ?_⟩
    · rw [List.map_map]; exact haxes u hau
    · intro e he
      obtain ⟨r, hr, rfl⟩ := List.mem_map.mp he
      obtain ⟨hr1, hr2⟩ := List.mem_filter.mp hr
      obtain ⟨d, s, hd, hs', hds, rfl⟩ := hmem r hr1
      simp only [beq_iff_eq] at hr2
      obtain ⟨k1, k2, k3, k4⟩ := sort_term hs' hds hd
      rw [hr2] at k1 k2 k3 k4
      have hss : s ∈ symbols := (hs.2 s).mpr hs'
      refine ⟨?_, ?_⟩
      · simp only [hmk, List.dropLast_concat, List.getLastD_concat]
        rw [k3, List.getElem?_eq_getElem (List.idxOf_lt_length_of_mem hss), List.getElem_idxOf]
      · simp only [hmk, hpar, List.dropLast_concat, List.getLastD_concat]
        rw [k4]

end Verif.Props
