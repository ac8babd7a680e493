/-
The simplices of `subdivide_fundamental` and their orientation.
-/
import Verif.Lemmas.Flags
import Verif.Lemmas.Offset
import Verif.Lemmas.Orientation

namespace Verif

open Verif.Model Verif.Spec

/-! ### uniform nested lists -/

theorem flatten_uniform {α : Type} {m : Nat} (hm : 0 < m) : ∀ (L : List (List α)),
    (∀ l ∈ L, l.length = m) → ∀ I, L.flatten[I]? = (L[I / m]?).bind fun l => l[I % m]? := by
  intro L
  induction L with
  | nil => intro _ I; simp
  | cons a t ih =>
    intro hL I
    have ha := hL a List.mem_cons_self
    rw [List.flatten_cons, List.getElem?_append]
    split
    · next h =>
      rw [ha] at h
      rw [Nat.div_eq_of_lt h, Nat.mod_eq_of_lt h]; rfl
    · next h =>
      rw [ha] at h
      rw [ih (fun l hl => hL l (List.mem_cons_of_mem _ hl)), ha]
      have h1 : I / m = (I - m) / m + 1 := by
        conv_lhs => rw [show I = (I - m) + m by omega, Nat.add_div_right _ hm]
      have h2 : (I - m) % m = I % m := by
        conv_rhs => rw [show I = (I - m) + m by omega, Nat.add_mod_right]
      rw [h1, h2]; rfl

/-! ### orderings that differ in one initial segment -/

theorem adjacent_orders {w w' : List Nat} {c : Nat} (hlen : w.length = w'.length)
    (hc : c + 1 < w.length) (hne : w ≠ w')
    (h : ∀ m ≤ w.length, m ≠ c + 1 → (w.take m).Perm (w'.take m)) :
    ∃ A x y B, w = A ++ x :: y :: B ∧ w' = A ++ y :: x :: B := by
  have hA : w.take c = w'.take c := by
    apply eq_of_take_perm (by simp; omega)
    intro k hk
    simp only [List.length_take] at hk
    rw [List.take_take, List.take_take, Nat.min_eq_left (by omega)]
    exact h k (by omega) (by omega)
  have hB : w.drop (c + 2) = w'.drop (c + 2) := by
    apply List.ext_getElem (by simp; omega)
    intro k h1 h2
    rw [List.getElem_drop, List.getElem_drop]
    simp only [List.length_drop] at h1 h2
    exact take_succ_perm (by omega) (by omega) (h _ (by omega) (by omega))
      (h _ (by omega) (by omega))
  have dec : ∀ v : List Nat, ∀ hv : c + 1 < v.length,
      v = v.take c ++ (v[c] :: v[c + 1] :: v.drop (c + 2)) := by
    intro v hv
    conv_lhs => rw [← List.take_append_drop c v, List.drop_eq_getElem_cons (show c < v.length by omega),
      List.drop_eq_getElem_cons hv]
  have d1 := dec w hc
  have d2 := dec w' (by omega)
  have hp : [w[c], w[c + 1]].Perm [w'[c]'(by omega), w'[c + 1]'(by omega)] := by
    have h2 := h (c + 2) (by omega) (by omega)
    rw [List.take_succ_eq_append_getElem hc, List.take_succ_eq_append_getElem (show c < w.length by omega),
      List.take_succ_eq_append_getElem (show c + 1 < w'.length by omega),
      List.take_succ_eq_append_getElem (show c < w'.length by omega), hA] at h2
    simp only [List.append_assoc] at h2
    exact (List.perm_append_left_iff _).1 h2
  refine ⟨w.take c, w[c], w[c + 1], w.drop (c + 2), d1, ?_⟩
  have hx : w'[c]'(by omega) ∈ [w[c], w[c + 1]] := hp.mem_iff.2 (by simp)
  refine d2.trans ?_
  rw [← hA, ← hB]
  simp only [List.mem_cons, List.not_mem_nil, or_false] at hx
  rcases hx with hx | hx
  · exfalso
    rw [hx] at hp
    have h3 := (List.perm_cons _).1 hp
    have h4 := List.perm_singleton.1 h3
    apply hne
    refine d1.trans (Eq.trans ?_ d2.symm)
    rw [List.cons.injEq] at h4
    rw [← hA, ← hB, hx, h4.1]
  · rw [hx] at hp
    have h3 := (List.Perm.swap (w[c]) (w[c + 1]) []).trans hp
    have h4 := List.perm_singleton.1 ((List.perm_cons _).1 h3)
    rw [List.cons.injEq] at h4
    rw [hx, ← h4.1]

/-! ### swapping the last two corners -/

theorem swapLast_perm (l : List Nat) : (swapLast l).Perm l :=
  (List.reverse_perm _).trans ((swap01_perm _).trans (List.reverse_perm _))

theorem inducedSign_swapLast (e : List Nat) {l : List Nat} (h : 2 ≤ l.length) :
    inducedSign e (swapLast l) = - inducedSign e l := by
  rw [inducedSign_eq_cob, inducedSign_eq_cob]
  unfold swapLast
  have hr : l = l.reverse.reverse := by simp
  rcases hl : l.reverse with _ | ⟨a, _ | ⟨b, r⟩⟩
  · have : l.reverse.length = 0 := by rw [hl]; rfl
    simp at this; subst this; simp at h
  · have : l.reverse.length = 1 := by rw [hl]; rfl
    simp at this; omega
  · conv_rhs => rw [hr, hl]
    simp only [swap01, List.reverse_cons, List.append_assoc,
      List.cons_append, List.nil_append]
    exact (alt_relSign e).cob r.reverse a b []

/-! ### offsets -/

theorem levelOffset_eq (t : Topo) (k : Nat) : levelOffset t k = offs t.nElements k := rfl

/-- the entries of a row are valid element numbers of their level -/
def InLevels (t : Topo) (m : Nat) (d : List Nat) : Prop :=
  d.length = m ∧ ∀ (k x : Nat), d[k]? = some x → x < t.nElements k

theorem addOffsets_get (t : Topo) (d : List Nat) (k : Nat) :
    (addOffsets t d)[k]? = d[k]?.map (fun x => x + offs t.nElements k) := by
  unfold addOffsets
  rw [List.getElem?_mapIdx]
  rfl

theorem addOffsets_levels {t : Topo} {m : Nat} {d : List Nat} (h : InLevels t m d) :
    (addOffsets t d).map (levelOf t.nElements m) = List.range m := by
  apply List.ext_getElem?
  intro k
  rw [List.getElem?_map, addOffsets_get]
  rcases Nat.lt_or_ge k m with hk | hk
  · have hk' : k < d.length := by rw [h.1]; exact hk
    rw [List.getElem?_range hk, List.getElem?_eq_getElem hk']
    simp only [Option.map_some]
    rw [levelOf_encode _ (by omega) (h.2 k _ (List.getElem?_eq_getElem hk'))]
  · rw [List.getElem?_eq_none (by rw [h.1]; exact hk), List.getElem?_eq_none (by simpa using hk)]
    rfl

theorem addOffsets_sorted {t : Topo} {m : Nat} {d : List Nat} (h : InLevels t m d) :
    (addOffsets t d).Pairwise (· < ·) := by
  rw [List.pairwise_iff_getElem]
  intro i j hi hj hij
  have li : i < d.length := by simpa [addOffsets] using hi
  have lj : j < d.length := by simpa [addOffsets] using hj
  have ei : (addOffsets t d)[i] = d[i] + offs t.nElements i := by
    simp [addOffsets, levelOffset_eq]
  have ej : (addOffsets t d)[j] = d[j] + offs t.nElements j := by
    simp [addOffsets, levelOffset_eq]
  rw [ei, ej]
  have h1 := h.2 i _ (List.getElem?_eq_getElem li)
  have h2 := offs_succ t.nElements i
  have h3 := offs_mono t.nElements (show i + 1 ≤ j by omega)
  omega

theorem addOffsets_nodup {t : Topo} {m : Nat} {d : List Nat} (h : InLevels t m d) :
    (addOffsets t d).Nodup := (addOffsets_sorted h).imp (fun h => Nat.ne_of_lt h)

theorem addOffsets_length (t : Topo) (d : List Nat) : (addOffsets t d).length = d.length := by
  simp [addOffsets]

theorem getElem?_eraseIdx_ne (l : List Nat) {c k : Nat} (h : k ≠ c) :
    l[k]? = (l.eraseIdx c)[if k < c then k else k - 1]? := by
  rw [List.getElem?_eraseIdx]
  by_cases h1 : k < c
  · simp [h1]
  · rw [if_neg h1, if_neg (by omega), show k - 1 + 1 = k by omega]

/-- two rows that agree up to one deleted entry each have lost the same level -/
theorem addOffsets_face {t : Topo} {m : Nat} {d d' : List Nat} (h : InLevels t m d)
    (h' : InLevels t m d') {c c' : Nat} (hc : c < m)
    (hp : ((addOffsets t d).eraseIdx c).Perm ((addOffsets t d').eraseIdx c')) :
    c = c' ∧ (addOffsets t d).eraseIdx c = (addOffsets t d').eraseIdx c' ∧
      ∀ k : Nat, k ≠ c → d[k]? = d'[k]? := by
  have he : (addOffsets t d).eraseIdx c = (addOffsets t d').eraseIdx c' := by
    refine List.Perm.eq_of_pairwise (le := (· < ·)) (fun a b _ _ h1 h2 => by omega)
      (((addOffsets_sorted h).sublist (List.eraseIdx_sublist _ _)))
      (((addOffsets_sorted h').sublist (List.eraseIdx_sublist _ _))) hp
  have hcc : c = c' := by
    have := congrArg (List.map (levelOf t.nElements m)) he
    rw [← List.eraseIdx_map, ← List.eraseIdx_map, addOffsets_levels h, addOffsets_levels h'] at this
    exact eraseIdx_perm_inj List.nodup_range (by simpa using hc) (by rw [this])
  refine ⟨hcc, he, ?_⟩
  subst hcc
  intro k hk
  have h1 := getElem?_eraseIdx_ne (addOffsets t d) hk
  rw [he, ← getElem?_eraseIdx_ne (addOffsets t d') hk, addOffsets_get, addOffsets_get] at h1
  cases hd : d[k]? <;> cases hd' : d'[k]? <;> rw [hd, hd'] at h1 <;> simp at h1 ⊢
  exact h1

end Verif
