/-
The simplices of `subdivide_simplicial`: rows, faces and orientation.
-/
import Verif.Model.Cone
import Verif.Lemmas.Fundamental
import Verif.Lemmas.Averaging
import Verif.Lemmas.Components

set_option linter.unusedSectionVars false

namespace Verif

open Verif.Model Verif.Spec

theorem cob_snoc {α M : Type} [AddCommGroup M] (φ : List α → M) (l : List α) (v : α) :
    cob φ (l ++ [v]) = cob (fun s => φ (s ++ [v])) l + ((-1 : ℤ) ^ l.length) • φ l := by
  induction l generalizing φ with
  | nil => simp [cob_cons, cob_nil]
  | cons a t ih =>
    rw [List.cons_append, cob_cons, cob_cons, ih]
    simp only [List.length_cons, pow_succ, mul_neg, mul_one, neg_smul, List.cons_append]
    abel

theorem cob_add {α M : Type} [AddCommGroup M] (φ ψ : List α → M) (l : List α) :
    cob (fun s => φ s + ψ s) l = cob φ l + cob ψ l := by
  induction l generalizing φ ψ with
  | nil => simp [cob_nil]
  | cons a t ih => rw [cob_cons, cob_cons, cob_cons, ih]; abel

/-- the simplices that replace `l`: together they have the boundary of `l`, up to one sign -/
theorem cone_sum {M : Type} [AddCommGroup M] {φ : List Nat → M} (h : Alt φ) {l : List Nat} {n : Nat}
    (hl : l.length = n + 3) (v : Nat) :
    ((List.range (n + 3)).map fun c => cob φ (simplexFace l c ++ [v])).sum =
      ((-1 : ℤ) ^ n) • cob φ l := by
  have e1 : ((List.range (n + 3)).map fun c => cob φ (simplexFace l c ++ [v])).sum =
      cob (fun s => cob φ (s ++ [v])) l := by
    unfold cob
    rw [hl]
    congr 1
    apply List.map_congr_left
    intro c hc
    have hA : Alt (fun s => cob φ (s ++ [v])) := by
      intro u a b w
      have := h.cob u a b (w ++ [v])
      simpa using this
    have := hA.simplexFace (l := l) (c := c) (by rw [hl]; exact List.mem_range.1 hc) (by omega)
    exact this
  rw [e1]
  have e2 : cob (fun s => cob φ (s ++ [v])) l =
      cob (fun s => cob (fun s => φ (s ++ [v])) s + ((-1 : ℤ) ^ s.length) • φ s) l := by
    congr 1
    funext s
    exact cob_snoc φ s v
  rw [e2, cob_add, cob_cob, zero_add]
  unfold cob
  rw [List.smul_sum, List.map_map]
  congr 1
  apply List.map_congr_left
  intro c hc
  have : (l.eraseIdx c).length = n + 2 := by
    rw [List.length_eraseIdx_of_lt (List.mem_range.1 hc), hl]; omega
  simp only [Function.comp, this]
  rw [smul_smul, smul_smul, pow_add]
  congr 1
  ring

theorem isFace_iff_subset {e l : List Nat} {n : Nat} (hl : l.length = n + 2) (hn : l.Nodup) :
    IsFace e l ↔ e.Nodup ∧ e.length = n + 1 ∧ e ⊆ l := by
  constructor
  · rintro ⟨c, hc, hp⟩
    have h1 : e.Nodup := hp.nodup_iff.2 (eraseIdx_nodup hn c)
    have h2 : e.length = n + 1 := by rw [hp.length_eq, List.length_eraseIdx_of_lt hc]; omega
    exact ⟨h1, h2, (subset_iff_face ⟨h2, h1⟩ ⟨hl, hn⟩).2 ⟨c, hc, hp⟩⟩
  · rintro ⟨h1, h2, h3⟩
    exact (subset_iff_face ⟨h2, h1⟩ ⟨hl, hn⟩).1 h3

theorem mem_eraseIdx_nodup {l : List Nat} (hn : l.Nodup) {c : Nat} (hc : c < l.length) (x : Nat) :
    x ∈ l.eraseIdx c ↔ x ∈ l ∧ x ≠ l[c] := by
  rw [← hn.erase_getElem c hc, hn.mem_erase_iff, and_comm]

/-- the corners of a new simplex -/
theorem mem_cone {l : List Nat} (hn : l.Nodup) {c : Nat} (hc : c < l.length) (v x : Nat) :
    x ∈ simplexFace l c ++ [v] ↔ (x ∈ l ∧ x ≠ l[c]) ∨ x = v := by
  rw [List.mem_append, (simplexFace_perm hc).mem_iff, mem_eraseIdx_nodup hn hc]
  simp

theorem cone_length {l : List Nat} {c : Nat} (hc : c < l.length) (v : Nat) :
    (simplexFace l c ++ [v]).length = l.length := by
  rw [List.length_append, simplexFace_length hc]
  simp; omega

theorem cone_nodup {l : List Nat} (hn : l.Nodup) {c : Nat} (hc : c < l.length) {v : Nat} (hv : v ∉ l) :
    (simplexFace l c ++ [v]).Nodup := by
  rw [List.nodup_append]
  refine ⟨simplexFace_nodup hn hc, by simp, ?_⟩
  intro a ha b hb
  rw [(simplexFace_perm hc).mem_iff, mem_eraseIdx_nodup hn hc] at ha
  simp at hb
  rintro rfl
  rw [hb] at ha
  exact hv ha.1

theorem sum_two {ι : Type} [DecidableEq ι] (l : List ι) (hl : l.Nodup) (f : ι → ℤ) (a b : ι)
    (ha : a ∈ l) (hb : b ∈ l) (hab : a ≠ b) (h0 : ∀ x ∈ l, x ≠ a → x ≠ b → f x = 0) :
    (l.map f).sum = f a + f b := by
  have e1 : (l.map f).sum = (l.map fun x => (if x = a then f x else 0) +
      (if x = b then f x else 0)).sum := by
    congr 1
    apply List.map_congr_left
    intro x hx
    by_cases h1 : x = a
    · subst h1; simp [hab]
    · by_cases h2 : x = b
      · subst h2; simp [h1]
      · simp [h1, h2, h0 x hx h1 h2]
  rw [e1, List.sum_map_add, sum_map_ite_eq l hl a f ha, sum_map_ite_eq l hl b f hb]

section
variable {l : List Nat} {n : Nat} (hl : l.length = n + 3) (hn : l.Nodup) {v : Nat} (hv : v ∉ l)
include hl hn hv

/-- a face of a new simplex without the new vertex is the face of the old one opposite to the corner -/
theorem cone_face_old {c : Nat} (hc : c < l.length) {e : List Nat} (he : v ∉ e) :
    IsFace e (simplexFace l c ++ [v]) ↔ IsFace e l ∧ l[c] ∉ e := by
  rw [isFace_iff_subset (n := n + 1) (by rw [cone_length hc, hl]) (cone_nodup hn hc hv),
    isFace_iff_subset (n := n + 1) hl hn]
  constructor
  · rintro ⟨h1, h2, h3⟩
    have h4 : ∀ x ∈ e, x ∈ l ∧ x ≠ l[c] := by
      intro x hx
      rcases (mem_cone hn hc v x).1 (h3 hx) with h | h
      · exact h
      · exact absurd (h ▸ hx) he
    exact ⟨⟨h1, h2, fun x hx => (h4 x hx).1⟩, fun h => (h4 _ h).2 rfl⟩
  · rintro ⟨⟨h1, h2, h3⟩, h4⟩
    refine ⟨h1, h2, fun x hx => (mem_cone hn hc v x).2 (Or.inl ⟨h3 hx, ?_⟩)⟩
    rintro rfl
    exact h4 hx

omit hl hv in
/-- a face of an old simplex misses exactly one corner -/
theorem face_misses_one {e : List Nat} (he : IsFace e l) :
    ∃ c, ∃ hc : c < l.length, l[c] ∉ e ∧ ∀ d, ∀ h : d < l.length, l[d] ∉ e → d = c := by
  obtain ⟨c, hc, hp⟩ := he
  refine ⟨c, hc, ?_, ?_⟩
  · rw [hp.mem_iff, mem_eraseIdx_nodup hn hc]
    exact fun h => h.2 rfl
  · intro d hd h
    rw [hp.mem_iff, mem_eraseIdx_nodup hn hc] at h
    by_contra hne
    exact h ⟨List.getElem_mem _, fun he => hne ((List.Nodup.getElem_inj_iff hn).1 he)⟩

/-- a face of a new simplex with the new vertex misses exactly two corners of the old one -/
theorem cone_face_new {e : List Nat} (he : v ∈ e) {c : Nat} (hc : c < l.length)
    (hf : IsFace e (simplexFace l c ++ [v])) :
    ∃ d, d < l.length ∧ d ≠ c ∧ ∀ b, b < l.length →
      (IsFace e (simplexFace l b ++ [v]) ↔ b = c ∨ b = d) := by
  have hf' := hf
  rw [isFace_iff_subset (n := n + 1) (by rw [cone_length hc, hl]) (cone_nodup hn hc hv)] at hf
  obtain ⟨h1, h2, h3⟩ := hf
  have hce : l[c] ∉ e := by
    intro h
    rcases (mem_cone hn hc v _).1 (h3 h) with h | h
    · exact h.2 rfl
    · exact hv (h ▸ List.getElem_mem _)
  -- the part of e inside l
  set s := e.erase v with hsd
  have hsn : s.Nodup := h1.erase v
  have hsl : s.length = n + 1 := by rw [hsd, List.length_erase_of_mem he, h2]; omega
  have hms : ∀ x, x ∈ s ↔ x ∈ e ∧ x ≠ v := fun x => by rw [hsd, h1.mem_erase_iff, and_comm]
  have hsf : IsFace s (simplexFace l c) := by
    rw [isFace_iff_subset (n := n) (by rw [simplexFace_length hc]; omega) (simplexFace_nodup hn hc)]
    refine ⟨hsn, hsl, fun x hx => ?_⟩
    obtain ⟨hx1, hx2⟩ := (hms x).1 hx
    rw [(simplexFace_perm hc).mem_iff, mem_eraseIdx_nodup hn hc]
    rcases (mem_cone hn hc v x).1 (h3 hx1) with h | h
    · exact h
    · exact absurd h hx2
  have hsub : ∀ x ∈ s, x ∈ l := by
    intro x hx
    obtain ⟨hx1, hx2⟩ := (hms x).1 hx
    rcases (mem_cone hn hc v x).1 (h3 hx1) with h | h
    · exact h.1
    · exact absurd h hx2
  -- count the missing corners
  obtain ⟨k, hk, hp⟩ := hsf
  have hkn := simplexFace_nodup hn hc
  have hy : (simplexFace l c)[k] ∈ l ∧ (simplexFace l c)[k] ≠ l[c] := by
    rw [← mem_eraseIdx_nodup hn hc, ← (simplexFace_perm hc).mem_iff]
    exact List.getElem_mem _
  obtain ⟨d, hd, hdk⟩ := List.getElem_of_mem hy.1
  have hms' : ∀ x, x ∈ s ↔ x ∈ l ∧ x ≠ l[c] ∧ x ≠ l[d] := by
    intro x
    rw [hp.mem_iff, mem_eraseIdx_nodup hkn hk, (simplexFace_perm hc).mem_iff, mem_eraseIdx_nodup hn hc,
      ← hdk, and_assoc]
  have hdc : d ≠ c := by
    rintro rfl
    exact hy.2 hdk.symm
  refine ⟨d, hd, hdc, ?_⟩
  intro b hb
  rw [isFace_iff_subset (n := n + 1) (by rw [cone_length hb, hl]) (cone_nodup hn hb hv)]
  constructor
  · rintro ⟨-, -, h4⟩
    by_contra hno
    push Not at hno
    have : l[b] ∈ s := (hms' _).2 ⟨List.getElem_mem _,
      fun h => hno.1 ((List.Nodup.getElem_inj_iff hn).1 h), fun h => hno.2 ((List.Nodup.getElem_inj_iff hn).1 h)⟩
    rcases (mem_cone hn hb v _).1 (h4 ((hms _).1 this).1) with h | h
    · exact h.2 rfl
    · exact ((hms _).1 this).2 h
  · intro hbcd
    refine ⟨h1, h2, fun x hx => (mem_cone hn hb v x).2 ?_⟩
    by_cases hxv : x = v
    · exact Or.inr hxv
    · left
      obtain ⟨q1, q2, q3⟩ := (hms' x).1 ((hms x).2 ⟨hx, hxv⟩)
      refine ⟨q1, ?_⟩
      rcases hbcd with rfl | rfl
      · exact q2
      · exact q3

end

/-! ### the rows of a mesh -/

/-- the rows that `subdivide_simplicial` hands to `from_simplices` -/
def newRows (nV w : Nat) (top : List (List Nat)) : List (List Nat) :=
  coneRows nV (top.map fun l => (List.range w).map fun c => simplexFace l c)

theorem newRows_get {nV n : Nat} {top : List (List Nat)} (I : Nat) (r : List Nat) :
    (newRows nV (n + 3) top)[I]? = some r ↔
      ∃ l : List Nat, top[I / (n + 3)]? = some l ∧
        r = simplexFace l (I % (n + 3)) ++ [I / (n + 3) + nV] := by
  unfold newRows coneRows
  rw [flatten_uniform (m := n + 3) (by omega)]
  · rw [List.getElem?_mapIdx, List.getElem?_map]
    cases top[I / (n + 3)]? with
    | none => simp
    | some l =>
      simp only [Option.map_some, Option.bind_some, List.getElem?_map,
        List.getElem?_range (Nat.mod_lt I (show 0 < n + 3 by omega)), Option.some.injEq, exists_eq_left']
      exact eq_comm
  · intro L hL
    obtain ⟨j, hj⟩ := List.mem_iff_getElem?.1 hL
    rw [List.getElem?_mapIdx, Option.map_eq_some_iff] at hj
    obtain ⟨a, ha, rfl⟩ := hj
    rw [List.getElem?_map, Option.map_eq_some_iff] at ha
    obtain ⟨l, -, rfl⟩ := ha
    simp

theorem newRows_get' {nV n : Nat} {top : List (List Nat)} {j c : Nat} {l : List Nat}
    (hj : top[j]? = some l) (hc : c < n + 3) :
    (newRows nV (n + 3) top)[(n + 3) * j + c]? = some (simplexFace l c ++ [j + nV]) := by
  have h1 : ((n + 3) * j + c) / (n + 3) = j := by
    rw [Nat.mul_add_div (by omega), Nat.div_eq_of_lt hc, Nat.add_zero]
  have h2 : ((n + 3) * j + c) % (n + 3) = c := by rw [Nat.mul_add_mod, Nat.mod_eq_of_lt hc]
  rw [newRows_get, h1, h2]
  exact ⟨l, hj, rfl⟩

theorem newRows_length (nV n : Nat) (top : List (List Nat)) :
    (newRows nV (n + 3) top).length = (n + 3) * top.length := by
  unfold newRows coneRows
  rw [List.length_flatten]
  have : ∀ L ∈ ((top.map fun l => (List.range (n + 3)).map fun c => simplexFace l c).mapIdx
      fun j faces => faces.map fun face => face ++ [j + nV]), L.length = n + 3 := by
    intro L hL
    obtain ⟨j, hj⟩ := List.mem_iff_getElem?.1 hL
    rw [List.getElem?_mapIdx, Option.map_eq_some_iff] at hj
    obtain ⟨a, ha, rfl⟩ := hj
    rw [List.getElem?_map, Option.map_eq_some_iff] at ha
    obtain ⟨l, -, rfl⟩ := ha
    simp
  rw [List.map_congr_left this, List.map_const', List.sum_replicate]
  simp [Nat.mul_comm]

section
variable {nV n : Nat} {top : List (List Nat)} (hs : Simplices (n + 3) top)
  (hV : ∀ l ∈ top, ∀ v ∈ l, v < nV)
include hs hV

theorem tip_not_mem {j : Nat} {l : List Nat} (hj : top[j]? = some l) : j + nV ∉ l := by
  intro h
  have := hV l (List.mem_of_getElem? hj) _ h
  omega

theorem newRows_simplices : Simplices (n + 3) (newRows nV (n + 3) top) := by
  intro r hr
  obtain ⟨I, hI⟩ := List.mem_iff_getElem?.1 hr
  obtain ⟨l, hl, rfl⟩ := (newRows_get I r).1 hI
  obtain ⟨h1, h2⟩ := hs l (List.mem_of_getElem? hl)
  have hc : I % (n + 3) < l.length := by rw [h1]; exact Nat.mod_lt _ (by omega)
  exact ⟨by rw [cone_length hc, h1], cone_nodup h2 hc (tip_not_mem hs hV hl)⟩

/-- the row with a given parent and position -/
theorem row_eq_iff {I j c : Nat} (hc : c < n + 3) :
    I = (n + 3) * j + c ↔ I / (n + 3) = j ∧ I % (n + 3) = c := by
  constructor
  · rintro rfl
    rw [Nat.mul_add_div (by omega), Nat.div_eq_of_lt hc, Nat.mul_add_mod, Nat.mod_eq_of_lt hc]
    simp
  · rintro ⟨rfl, rfl⟩
    exact (Nat.div_add_mod _ _).symm

/-- the sum of the signs over the simplices that replace one simplex -/
theorem block_sum {j : Nat} {l : List Nat} (hj : top[j]? = some l) (e : List Nat) :
    ((List.range (n + 3)).map fun c => inducedSign e (simplexFace l c ++ [j + nV])).sum =
      (-1) ^ n * inducedSign e l := by
  have := cone_sum (alt_relSign e) (hs l (List.mem_of_getElem? hj)).1 (j + nV)
  simp only [inducedSign_eq_cob]
  rw [this, smul_eq_mul]

theorem inducedSign_zero {e l : List Nat} (h : ¬ IsFace e l) : inducedSign e l = 0 := by
  rw [inducedSign_eq_cob, cob_not_face h]

theorem old_down {e : List Nat} (he : ∀ x ∈ e, x < nV) {I : Nat} {r : List Nat}
    (hI : (newRows nV (n + 3) top)[I]? = some r) (hf : IsFace e r) :
    ∃ l : List Nat, top[I / (n + 3)]? = some l ∧ IsFace e l ∧
      inducedSign e r = (-1) ^ n * inducedSign e l ∧
      ∀ I' r', (newRows nV (n + 3) top)[I']? = some r' → IsFace e r' → I' / (n + 3) = I / (n + 3) →
        I' = I := by
  obtain ⟨l, hl, rfl⟩ := (newRows_get I r).1 hI
  obtain ⟨h1, h2⟩ := hs l (List.mem_of_getElem? hl)
  have htip := tip_not_mem hs hV hl
  have hte : I / (n + 3) + nV ∉ e := fun h => absurd (he _ h) (Nat.not_lt.2 (Nat.le_add_left _ _))
  have hc : I % (n + 3) < l.length := by rw [h1]; exact Nat.mod_lt _ (by omega)
  have hfl := (cone_face_old h1 h2 htip hc hte).1 hf
  obtain ⟨c, hcl, hce, huniq⟩ := face_misses_one h2 hfl.1
  have hIc := huniq _ hc hfl.2
  refine ⟨l, hl, hfl.1, ?_, ?_⟩
  · rw [← block_sum hs hV hl e]
    rw [sum_map_eq_single (List.range (n + 3)) List.nodup_range (I % (n + 3)) _
      (List.mem_range.2 (Nat.mod_lt _ (by omega)))]
    intro d hd hne
    apply inducedSign_zero hs hV
    have hd' : d < l.length := by rw [h1]; exact List.mem_range.1 hd
    intro hfd
    exact hne ((huniq d hd' ((cone_face_old h1 h2 htip hd' hte).1 hfd).2).trans hIc.symm)
  · intro I' r' hI' hf' hdiv
    obtain ⟨l', hl', rfl⟩ := (newRows_get I' r').1 hI'
    rw [hdiv, hl] at hl'
    obtain rfl := Option.some.inj hl'
    have hc' : I' % (n + 3) < l.length := by rw [h1]; exact Nat.mod_lt _ (by omega)
    rw [hdiv] at hf'
    have := huniq _ hc' ((cone_face_old h1 h2 htip hc' hte).1 hf').2
    rw [← Nat.div_add_mod I' (n + 3), ← Nat.div_add_mod I (n + 3), hdiv, this, hIc]

theorem old_up {e : List Nat} (he : ∀ x ∈ e, x < nV) {j : Nat} {l : List Nat} (hj : top[j]? = some l)
    (hf : IsFace e l) :
    ∃ I r, I / (n + 3) = j ∧ (newRows nV (n + 3) top)[I]? = some r ∧ IsFace e r := by
  obtain ⟨h1, h2⟩ := hs l (List.mem_of_getElem? hj)
  have htip := tip_not_mem hs hV hj
  have hte : j + nV ∉ e := fun h => by have := he _ h; omega
  obtain ⟨c, hc, hce, -⟩ := face_misses_one h2 hf
  have hc' : c < n + 3 := by rw [← h1]; exact hc
  refine ⟨(n + 3) * j + c, _, ((row_eq_iff hs hV hc').1 rfl).1, newRows_get' hj hc', ?_⟩
  exact (cone_face_old h1 h2 htip hc hte).2 ⟨hf, hce⟩

theorem new_face {e : List Nat} {x : Nat} (hx : x ∈ e) (hxV : nV ≤ x) {I : Nat} {r : List Nat}
    (hI : (newRows nV (n + 3) top)[I]? = some r) (hf : IsFace e r) :
    x = I / (n + 3) + nV ∧ ∃ I' r', I' ≠ I ∧ (newRows nV (n + 3) top)[I']? = some r' ∧
      (∀ K rk, (newRows nV (n + 3) top)[K]? = some rk → (IsFace e rk ↔ K = I ∨ K = I')) ∧
      inducedSign e r + inducedSign e r' = 0 := by
  have tip : ∀ K rk, (newRows nV (n + 3) top)[K]? = some rk → IsFace e rk → x = K / (n + 3) + nV := by
    intro K rk hK hfK
    obtain ⟨l, hl, rfl⟩ := (newRows_get K rk).1 hK
    obtain ⟨h1, h2⟩ := hs l (List.mem_of_getElem? hl)
    have hc : K % (n + 3) < l.length := by rw [h1]; exact Nat.mod_lt _ (by omega)
    obtain ⟨d, hd, hp⟩ := hfK
    have := (List.eraseIdx_sublist _ _).subset (hp.mem_iff.1 hx)
    rcases (mem_cone h2 hc _ x).1 this with h | h
    · have := hV l (List.mem_of_getElem? hl) x h.1; omega
    · exact h
  have hxI := tip I r hI hf
  refine ⟨hxI, ?_⟩
  obtain ⟨l, hl, rfl⟩ := (newRows_get I r).1 hI
  obtain ⟨h1, h2⟩ := hs l (List.mem_of_getElem? hl)
  have htip := tip_not_mem hs hV hl
  have hcm := Nat.mod_lt I (show 0 < n + 3 by omega)
  have hc : I % (n + 3) < l.length := by rw [h1]; exact hcm
  rw [hxI] at hx
  obtain ⟨d, hd, hne, hiff⟩ := cone_face_new h1 h2 htip hx hc hf
  have hd' : d < n + 3 := by rw [← h1]; exact hd
  have hget := newRows_get' (nV := nV) hl hd'
  obtain ⟨q1, q2⟩ := (row_eq_iff (I := (n + 3) * (I / (n + 3)) + d) hs hV hd').1 rfl
  refine ⟨(n + 3) * (I / (n + 3)) + d, _, ?_, hget, ?_, ?_⟩
  · intro h
    rw [h] at q2
    exact hne q2.symm
  · intro K rk hK
    constructor
    · intro hfK
      have hKI : K / (n + 3) = I / (n + 3) := by have := tip K rk hK hfK; omega
      obtain ⟨l', hl', rfl⟩ := (newRows_get K rk).1 hK
      rw [hKI, hl] at hl'
      obtain rfl := Option.some.inj hl'
      rw [hKI] at hfK
      rcases (hiff _ (by rw [h1]; exact Nat.mod_lt _ (by omega))).1 hfK with h | h
      · left
        rw [← Nat.div_add_mod K (n + 3), ← Nat.div_add_mod I (n + 3), hKI, h]
      · right
        exact (row_eq_iff hs hV hd').2 ⟨hKI, h⟩
    · rintro (rfl | rfl)
      · rw [hI] at hK
        obtain rfl := Option.some.inj hK
        exact hf
      · rw [hget] at hK
        obtain rfl := Option.some.inj hK
        exact (hiff d hd).2 (Or.inr rfl)
  · have hsum := block_sum hs hV hl e
    rw [inducedSign_zero hs hV (e := e) (l := l), mul_zero] at hsum
    · rw [sum_two (List.range (n + 3)) List.nodup_range _ (I % (n + 3)) d (List.mem_range.2 hcm)
        (List.mem_range.2 hd') (Ne.symm hne)] at hsum
      · exact hsum
      · intro b hb hb1 hb2
        apply inducedSign_zero hs hV
        intro hfb
        rcases (hiff b (by rw [h1]; exact List.mem_range.1 hb)).1 hfb with h | h
        · exact hb1 h
        · exact hb2 h
    · rintro ⟨c, -, hp⟩
      exact htip ((List.eraseIdx_sublist _ _).subset (hp.mem_iff.1 hx))

end

end Verif
