/-
Smoothing with creases.
-/
import Verif.Model.Smooth
import Verif.Spec.Smooth
import Verif.Lemmas.Simplicial
import Verif.Lemmas.Construct

set_option linter.unusedSectionVars false

namespace Verif

open Verif.Model Verif.Spec

variable {K : Type} [Field K] {d : Nat} {t : Topo} {n : Nat} {creases : List (Nat × List Int)}

/-- elements with the same number of different corners on each level -/
structure UniformRows (t : Topo) (n N : Nat) (size : Nat → Nat) : Prop where
  levels : t.elements.length = n + 1
  dim : t.boundary.length = n
  rows : ∀ (k i : Nat) (e : List Nat), (t.elements[k]?.getD [])[i]? = some e → e.length = size k ∧ e.Nodup ∧ ∀ v ∈ e, v < N

/-! ### creases of `smooth` -/

/-- what `smooth` takes of a level -/
def pickOf (n : Nat) (creases : List (Nat × List Int)) (k : Nat) : Pick :=
  match creases.lookup k with
  | some c => .only (flatnonzero c)
  | none => if k = n then .all else .skip

theorem smoothPicks_ok (hnd : (creases.map (·.1)).Nodup) (hk : ∀ kc ∈ creases, kc.1 ≤ n) :
    smoothPicks n creases = .ok ((List.range (n + 1)).map (pickOf n creases)) := by
  have key : ∀ (creases : List (Nat × List Int)) (C : List Pick), (creases.map (·.1)).Nodup → (∀ kc ∈ creases, kc.1 ≤ n) →
      C.length = n + 1 → creases.foldlM (fun C nc =>
        if nc.1 < C.length then .ok (C.set nc.1 (.only (flatnonzero nc.2))) else .error .indexError) C =
      (.ok ((List.range (n + 1)).map fun k => match creases.lookup k with
        | some c => .only (flatnonzero c)
        | none => C[k]?.getD .skip) : Except PyErr (List Pick)) := by
    intro creases
    induction creases with
    | nil =>
      intro C _ _ hC
      show Except.ok C = _
      congr 1
      apply List.ext_getElem?
      intro k
      rw [List.getElem?_map]
      rcases Nat.lt_or_ge k (n + 1) with h | h
      · rw [List.getElem?_range h, List.getElem?_eq_getElem (by omega), Option.map_some, List.lookup_nil]
        simp only
        rw [List.getElem?_eq_getElem (by omega), Option.getD_some]
      · rw [List.getElem?_eq_none (by omega), List.getElem?_eq_none (by simpa using h)]
        rfl
    | cons kc creases ih =>
      intro C hnd hk hC
      obtain ⟨k0, c0⟩ := kc
      rw [List.map_cons, List.nodup_cons] at hnd
      have h0 := hk (k0, c0) (by simp)
      rw [List.foldlM_cons, if_pos (by simp only; omega)]
      show List.foldlM _ _ creases = _
      rw [ih _ hnd.2 (fun kc h => hk kc (by simp [h])) (by rw [List.length_set, hC])]
      congr 1
      refine List.map_congr_left fun k hk' => ?_
      rw [List.lookup_cons]
      by_cases hkk : k = k0
      · subst hkk
        have hnone : creases.lookup k = none := by
          rw [List.lookup_eq_none_iff]
          intro p hp
          simp only [bne_iff_ne, ne_eq]
          intro h
          exact hnd.1 (List.mem_map.2 ⟨p, hp, h.symm⟩)
        rw [hnone, beq_self_eq_true]
        simp only [List.getElem?_set, if_true]
        rw [if_pos (by omega)]
        rfl
      · have : (k == k0) = false := by simpa using hkk
        rw [this]
        simp only [List.getElem?_set_ne (fun h => hkk h.symm)]
  unfold smoothPicks
  rw [key creases _ hnd hk (by simp)]
  congr 1
  refine List.map_congr_left fun k hk' => ?_
  have hk' := List.mem_range.1 hk'
  unfold pickOf
  cases creases.lookup k with
  | some c => rfl
  | none =>
    simp only
    split
    · next h =>
      subst h
      rw [List.getElem?_append_right (by simp)]
      simp
    · rw [List.getElem?_append_left (by simp; omega), List.getElem?_replicate, if_pos (by omega)]
      rfl

theorem pickOf_rows {α : Type} (dflt : α) {k : Nat} {rows : List α} (hl : ∀ c, creases.lookup k = some c → c.length = rows.length)
    (hs : pickOf n creases k ≠ .skip) : (pickOf n creases k).rows rows =
      .ok (((List.range rows.length).filter (isCrease n creases k)).map fun i => rows[i]?.getD dflt) := by
  unfold pickOf isCrease at *
  cases h : creases.lookup k with
  | some c =>
    rw [h] at hl
    have hlen := hl c rfl
    simp only
    unfold Pick.rows
    simp only
    rw [mapM_ok _ (fun i => rows[i]?.getD dflt)]
    · congr 1
      unfold flatnonzero
      rw [hlen]
      congr 1
      apply List.filter_congr
      intro i _
      by_cases hc : c[i]?.getD 0 = 0 <;> simp [hc]
    · intro i hi
      have : i < rows.length := by
        unfold flatnonzero at hi
        have := List.mem_range.1 (List.mem_filter.1 hi).1
        omega
      rw [List.getElem?_eq_getElem this]
      rfl
  | none =>
    rw [h] at hs
    simp only at hs ⊢
    have hkn : k = n := by
      by_contra hne
      rw [if_neg hne] at hs
      exact hs rfl
    rw [if_pos hkn, List.filter_eq_self.2 (by simp [hkn])]
    show Except.ok rows = _
    congr 1
    apply List.ext_getElem?
    intro i
    rw [List.getElem?_map]
    rcases Nat.lt_or_ge i rows.length with h | h
    · rw [List.getElem?_range h, Option.map_some, List.getElem?_eq_getElem h, Option.getD_some]
    · rw [List.getElem?_eq_none h, List.getElem?_eq_none (by simpa using h)]
      rfl

theorem pickOf_skip {k : Nat} (hs : pickOf n creases k = .skip) (v : Nat) : creasesAt t n creases k v = [] := by
  unfold creasesAt
  rw [List.filter_eq_nil_iff]
  intro i _
  unfold pickOf at hs
  unfold isCrease
  cases h : creases.lookup k with
  | some c => rw [h] at hs; simp at hs
  | none =>
    rw [h] at hs
    simp only at hs ⊢
    have hkn : k ≠ n := by
      intro he
      rw [if_pos he] at hs
      exact absurd hs (by simp)
    simp [hkn]

/-! ### group means -/

theorem zip_flatMap {α β γ : Type} (I : List α) (f : α → List β) (g : α → List γ) (h : ∀ i ∈ I, (f i).length = (g i).length) :
    (I.flatMap f).zip (I.flatMap g) = I.flatMap fun i => (f i).zip (g i) := by
  induction I with
  | nil => rfl
  | cons a I ih =>
    rw [List.flatMap_cons, List.flatMap_cons, List.flatMap_cons, List.zip_append (h a (by simp)),
      ih fun i hi => h i (by simp [hi])]

theorem zip_replicate {β γ : Type} (l : List β) (c : γ) : l.zip (List.replicate l.length c) = l.map fun b => (b, c) := by
  induction l with
  | nil => rfl
  | cons a l ih => rw [List.length_cons, List.replicate_succ, List.zip_cons_cons, ih, List.map_cons]

theorem filter_key {γ : Type} {l : List Nat} (hl : l.Nodup) (c : γ) (u : Nat) :
    ((l.map fun b => (b, c)).filter fun kv => kv.1 == u).map (·.2) = if u ∈ l then [c] else [] := by
  rw [List.filter_map, List.map_map]
  have : (l.filter ((fun kv : Nat × γ => kv.1 == u) ∘ fun b => (b, c))) = l.filter (· == u) := rfl
  rw [this, List.filter_beq]
  by_cases h : u ∈ l
  · rw [if_pos h, List.count_eq_one_of_mem hl h]
    rfl
  · rw [if_neg h, List.count_eq_zero_of_not_mem h]
    rfl

/-- the groups formed by the loop of `smooth` -/
theorem groupMeans_eq (I : List Nat) (f : Nat → List Nat) (c : Nat → Vec K d) (m : Nat)
    (hf : ∀ i ∈ I, (f i).length = m ∧ (f i).Nodup) :
    groupMeans (I.flatMap f) (I.flatMap fun i => List.replicate m (c i)) =
      (npUnique (I.flatMap f)).map fun u => (u, fun q =>
        mean ((I.filter fun i => (f i).contains u).map fun i => c i q)) := by
  unfold groupMeans
  refine List.map_congr_left fun u hu => ?_
  clear hu
  rw [zip_flatMap _ _ _ fun i hi => by rw [List.length_replicate, (hf i hi).1]]
  have : (((I.flatMap fun i => (f i).zip (List.replicate m (c i))).filter fun kv => kv.1 == u).map (·.2)) =
      (I.filter fun i => (f i).contains u).map c := by
    induction I with
    | nil => rfl
    | cons a I ih =>
      have ha := hf a (by simp)
      rw [List.flatMap_cons, List.filter_append, List.map_append, ih fun i hi => hf i (by simp [hi]), ← ha.1, zip_replicate,
        filter_key ha.2, List.filter_cons]
      by_cases h : u ∈ f a
      · simp [h]
      · simp [h]
  simp only [this]
  refine Prod.ext rfl (funext fun q => ?_)
  show (List.map _ (List.map _ _)).sum / _ = _
  rw [List.map_map, List.length_map]
  show _ = mean _
  unfold mean
  rw [List.length_map]
  rfl

theorem mem_of_lookup {β : Type} {k : Nat} {b : β} : ∀ {l : List (Nat × β)}, l.lookup k = some b → (k, b) ∈ l
  | [], h => by simp at h
  | (k', b') :: l, h => by
    rw [List.lookup_cons] at h
    by_cases hk : k = k'
    · subst hk
      rw [beq_self_eq_true] at h
      simp only [Option.some.injEq] at h
      rw [h]
      exact List.mem_cons_self
    · have : (k == k') = false := by simpa using hk
      rw [this] at h
      exact List.mem_cons_of_mem _ (mem_of_lookup h)

theorem foldlM_set {α : Type} : ∀ (g : List (Nat × α)) (V : List α), (g.map (·.1)).Nodup → (∀ ip ∈ g, ip.1 < V.length) →
    ∃ W, g.foldlM (fun V ip => if ip.1 < V.length then .ok (V.set ip.1 ip.2) else .error .indexError) V =
        (.ok W : Except PyErr (List α)) ∧ W.length = V.length ∧ (∀ v, v ∉ g.map (·.1) → W[v]? = V[v]?) ∧
      ∀ ip ∈ g, W[ip.1]? = some ip.2 := by
  intro g
  induction g with
  | nil =>
    intro V _ _
    exact ⟨V, rfl, rfl, fun _ _ => rfl, fun _ h => by simp at h⟩
  | cons a g ih =>
    intro V hnd hlt
    rw [List.map_cons, List.nodup_cons] at hnd
    obtain ⟨W, h1, h2, h3, h4⟩ := ih (V.set a.1 a.2) hnd.2 (fun ip h => by
      rw [List.length_set]; exact hlt ip (by simp [h]))
    refine ⟨W, ?_, by rw [h2, List.length_set], fun v hv => ?_, fun ip hip => ?_⟩
    · rw [List.foldlM_cons, if_pos (hlt a (by simp))]
      exact h1
    · rw [List.map_cons, List.mem_cons, not_or] at hv
      rw [h3 v hv.2, List.getElem?_set_ne (fun h => hv.1 h.symm)]
    · rcases List.mem_cons.1 hip with rfl | hip
      · rw [h3 _ hnd.1, List.getElem?_set_self (hlt ip (by simp))]
      · exact h4 ip hip

/-- one pass of the loop of `smooth` -/
theorem smoothLevel_ok {N : Nat} {size : Nat → Nat} (hr : UniformRows t n N size) (hv : ValidCreases t n creases) {k : Nat}
    (V : List (Vec K d)) (hV : V.length = N) (P : List (Vec K d)) (hP : P.length = t.nElements k) :
    ∃ W, smoothLevel V (t.elements[k]?.getD []) (pickOf n creases k) P = .ok W ∧ W.length = N ∧
      ∀ v < N, W[v]? = if creasesAt t n creases k v = [] then V[v]?
        else some fun q => mean ((creasesAt t n creases k v).map fun i => (P[i]?.getD 0) q) := by
  unfold smoothLevel
  by_cases hs : pickOf n creases k = .skip
  · rw [if_pos hs]
    refine ⟨V, rfl, hV, fun v _ => ?_⟩
    rw [if_pos (pickOf_skip hs v)]
  · rw [if_neg hs]
    have hlook : ∀ c, creases.lookup k = some c → c.length = t.nElements k := by
      intro c hc
      exact (hv.2 (k, c) (mem_of_lookup hc)).2
    have hE : (t.elements[k]?.getD []).length = t.nElements k := rfl
    rw [pickOf_rows [] (fun c hc => by rw [hE]; exact hlook c hc) hs, pickOf_rows 0 (fun c hc => by rw [hP]; exact hlook c hc) hs, hP, hE]
    set I := (List.range (t.nElements k)).filter (isCrease n creases k) with hI
    simp only [bind, Except.bind]
    set f : Nat → List Nat := fun i => (t.elements[k]?.getD [])[i]?.getD [] with hf
    have hff : ∀ i ∈ I, (f i).length = size k ∧ (f i).Nodup ∧ ∀ v ∈ f i, v < N := by
      intro i hi
      have hi : i < (t.elements[k]?.getD []).length := List.mem_range.1 (List.mem_filter.1 hi).1
      have := List.getElem?_eq_getElem hi
      have h2 := hr.rows k i _ this
      rw [hf]
      simp only [this, Option.getD_some]
      exact h2
    have hsize : I ≠ [] → ((t.elements[k]?.getD [])[0]?.getD []).length = size k := by
      intro hne
      obtain ⟨i, hi⟩ := List.exists_mem_of_ne_nil I hne
      have hi : i < (t.elements[k]?.getD []).length := List.mem_range.1 (List.mem_filter.1 hi).1
      have := List.getElem?_eq_getElem (l := t.elements[k]?.getD []) (i := 0) (by omega)
      rw [this, Option.getD_some]
      exact (hr.rows k 0 _ this).1
    have hval : (I.map fun i => P[i]?.getD 0).flatMap (fun c => List.replicate ((t.elements[k]?.getD [])[0]?.getD []).length c) =
        I.flatMap fun i => List.replicate (size k) (P[i]?.getD 0) := by
      rw [List.flatMap_map]
      by_cases hne : I = []
      · rw [hne]; rfl
      · rw [hsize hne]
    rw [← List.flatMap_def, hval, groupMeans_eq I f (fun i => P[i]?.getD 0) (size k) fun i hi => ⟨(hff i hi).1, (hff i hi).2.1⟩]
    have hcr : ∀ u, (I.filter fun i => (f i).contains u) = creasesAt t n creases k u := by
      intro u
      rw [hI, List.filter_filter]
      unfold creasesAt
      apply List.filter_congr
      intro i _
      rw [Bool.and_comm]
    have hmem : ∀ u, u ∈ npUnique (I.flatMap f) ↔ creasesAt t n creases k u ≠ [] := by
      intro u
      rw [npUnique_mem, ← hcr, Ne, List.filter_eq_nil_iff, List.mem_flatMap]
      simp only [List.contains_iff_mem]
      push Not
      rfl
    obtain ⟨W, h1, h2, h3, h4⟩ := foldlM_set ((npUnique (I.flatMap f)).map fun u => (u, fun q =>
        mean ((I.filter fun i => (f i).contains u).map fun i => (P[i]?.getD 0) q))) V
      (by rw [List.map_map]; show (List.map id _).Nodup; rw [List.map_id]; exact npUnique_nodup _)
      (by
        intro ip hip
        obtain ⟨u, hu, rfl⟩ := List.mem_map.1 hip
        obtain ⟨i, hi, hu⟩ := List.mem_flatMap.1 ((npUnique_mem _ _).1 hu)
        rw [hV]
        exact (hff i hi).2.2 u hu)
    refine ⟨W, h1, by rw [h2, hV], fun v hvN => ?_⟩
    split
    · next h =>
      refine h3 v fun hm => ?_
      rw [List.map_map] at hm
      obtain ⟨u, hu, rfl⟩ := List.mem_map.1 hm
      exact (hmem u).1 hu h
    · next h =>
      have := h4 (v, _) (List.mem_map.2 ⟨v, (hmem v).2 h, rfl⟩)
      rw [hcr v] at this
      exact this

/-- the value at a vertex after the levels from `k` on -/
theorem smooth_ok {size : Nat → Nat} {V : List (Vec K d)} (hr : UniformRows t n V.length size) (hv : ValidCreases t n creases)
    {PP : List (List (Vec K d))} (hPP : PP.length = n + 1) (hPl : ∀ k ≤ n, (PP[k]?.getD []).length = t.nElements k) :
    ∃ W, smooth t V PP creases = .ok W ∧ W.length = V.length ∧ ∀ v < V.length, W[v]? = some fun q =>
      smoothed t n creases (fun u => (V[u]?.getD 0) q) (fun k i => ((PP[k]?.getD [])[i]?.getD 0) q) v := by
  set L := t.elements.zip (((List.range (n + 1)).map (pickOf n creases)).zip PP) with hL
  have hLl : L.length = n + 1 := by
    simp [hL, hr.levels, hPP]
  have hLk : ∀ k ≤ n, L[k]? = some (t.elements[k]?.getD [], pickOf n creases k, PP[k]?.getD []) := by
    intro k hk
    have h1 : k < t.elements.length := by rw [hr.levels]; omega
    have h2 : k < PP.length := by rw [hPP]; omega
    rw [hL, List.getElem?_zip_eq_some]
    refine ⟨?_, ?_⟩
    · rw [List.getElem?_eq_getElem h1]; rfl
    · rw [List.getElem?_zip_eq_some]
      refine ⟨?_, ?_⟩
      · rw [List.getElem?_map, List.getElem?_range (by omega)]; rfl
      · rw [List.getElem?_eq_getElem h2]; rfl
  have key : ∀ m k, k + m = n + 1 →
      ∃ W, (L.drop k).reverse.foldlM (fun V ecp => smoothLevel V ecp.1 ecp.2.1 ecp.2.2) V = .ok W ∧ W.length = V.length ∧
        ∀ v < V.length, W[v]? = some fun q =>
          match (List.range' k m).find? (fun k => !(creasesAt t n creases k v).isEmpty) with
          | some k => mean ((creasesAt t n creases k v).map fun i => ((PP[k]?.getD [])[i]?.getD 0) q)
          | none => (V[v]?.getD 0) q := by
    intro m
    induction m with
    | zero =>
      intro k hk
      rw [List.drop_of_length_le (by omega)]
      refine ⟨V, rfl, rfl, fun v hvl => ?_⟩
      rw [List.getElem?_eq_getElem hvl]
      rfl
    | succ m ih =>
      intro k hk
      obtain ⟨W, h1, h2, h3⟩ := ih (k + 1) (by omega)
      have hget := hLk k (by omega)
      obtain ⟨hlt, hget⟩ := List.getElem?_eq_some_iff.1 hget
      rw [List.drop_eq_getElem_cons hlt, hget, List.reverse_cons, List.foldlM_append, h1]
      obtain ⟨W', g1, g2, g3⟩ := smoothLevel_ok (K := K) hr hv (k := k) W h2 (PP[k]?.getD []) (hPl k (by omega))
      refine ⟨W', ?_, g2, fun v hvl => ?_⟩
      · show List.foldlM _ W _ = _
        rw [List.foldlM_cons, g1]
        rfl
      · rw [g3 v hvl, List.range'_succ, List.find?_cons, h3 v hvl]
        by_cases hc : creasesAt t n creases k v = []
        · rw [if_pos hc, hc]
          rfl
        · rw [if_neg hc]
          have : (creasesAt t n creases k v).isEmpty = false := by simpa using hc
          rw [this]
          rfl
  obtain ⟨W, h1, h2, h3⟩ := key (n + 1) 0 (by omega)
  refine ⟨W, ?_, h2, fun v hvl => ?_⟩
  · unfold smooth
    rw [hr.dim, smoothPicks_ok hv.1 fun kc h => (hv.2 kc h).1]
    exact h1
  · rw [h3 v hvl, ← List.range_eq_range']
    rfl

end Verif
