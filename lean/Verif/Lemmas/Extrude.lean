/-
Lemmas on the directed edges of surfaces, and of the surface made by extrusion.
-/
import Verif.Model.Extrude
import Verif.Spec.Extrude
import Verif.Props.Triangles

set_option linter.unusedSectionVars false

namespace Verif

open Verif.Model Verif.Spec Verif.Props

/-! ### lists of directed edges that pass every edge as often in both directions -/

/-- as many edges in one direction as in the other -/
def Balanced (L : List (Nat × Nat)) : Prop := L.Perm (L.map Prod.swap)

theorem balanced_iff {L : List (Nat × Nat)} :
    Balanced L ↔ ∀ a b, L.count (a, b) = L.count (b, a) := by
  have key : ∀ a b, (L.map Prod.swap).count (a, b) = L.count (b, a) := fun a b =>
    List.count_map_of_injective L Prod.swap Prod.swap_injective (b, a)
  constructor
  · intro h a b
    rw [← key a b]
    exact h.count_eq (a, b)
  · intro h
    refine List.perm_iff_count.mpr ?_
    rintro ⟨a, b⟩
    rw [key, h]

theorem Balanced.perm {L L' : List (Nat × Nat)} (h : Balanced L) (hp : L.Perm L') : Balanced L' :=
  (hp.symm.trans h).trans (hp.map _)

theorem Balanced.append {L L' : List (Nat × Nat)} (h : Balanced L) (h' : Balanced L') :
    Balanced (L ++ L') := by
  unfold Balanced
  rw [List.map_append]
  exact List.Perm.append h h'

theorem balanced_self (L : List (Nat × Nat)) : Balanced (L ++ L.map Prod.swap) := by
  unfold Balanced
  rw [List.map_append, List.map_map]
  have : L.map (Prod.swap ∘ Prod.swap) = L := by
    conv_rhs => rw [← List.map_id L]
    exact List.map_congr_left fun p _ => Prod.swap_swap p
  rw [this]
  exact List.perm_append_comm

theorem Balanced.map {L : List (Nat × Nat)} (h : Balanced L) (f : Nat × Nat → Nat × Nat)
    (hf : ∀ p, f p.swap = (f p).swap) : Balanced (L.map f) := by
  unfold Balanced
  have := List.Perm.map f h
  rw [List.map_map] at this ⊢
  refine this.trans (List.Perm.of_eq (List.map_congr_left fun p _ => ?_))
  exact hf p

/-! ### the edges of a triangle -/

theorem mem_directedEdges {T : List (List Nat)} {p : Nat × Nat} :
    p ∈ directedEdges T ↔ ∃ (j : Nat) (l : List Nat), T[j]? = some l ∧ p ∈ triangleEdges l := by
  rw [directedEdges, List.mem_flatMap]
  constructor
  · rintro ⟨l, hl, hp⟩
    obtain ⟨j, hj⟩ := List.getElem?_of_mem hl
    exact ⟨j, l, hj, hp⟩
  · rintro ⟨j, l, hj, hp⟩
    exact ⟨l, List.mem_of_getElem? hj, hp⟩

theorem isFace_pair {a b : Nat} {l : List Nat} (hl : l.length = 3) :
    IsFace [a, b] l ↔ (a, b) ∈ triangleEdges l ∨ (b, a) ∈ triangleEdges l := by
  obtain ⟨x, y, z, rfl⟩ := triple hl
  unfold IsFace
  simp only [triangleEdges, List.mem_cons, Prod.mk.injEq, List.not_mem_nil, or_false]
  constructor
  · rintro ⟨c, hc, hp⟩
    rcases c with _ | _ | _ | c
    · rcases perm_pair.1 hp with ⟨h1, h2⟩ | ⟨h1, h2⟩ <;> subst h1 h2 <;> simp
    · rcases perm_pair.1 hp with ⟨h1, h2⟩ | ⟨h1, h2⟩ <;> subst h1 h2 <;> simp
    · rcases perm_pair.1 hp with ⟨h1, h2⟩ | ⟨h1, h2⟩ <;> subst h1 h2 <;> simp
    · simp only [List.length_cons, List.length_nil] at hc; omega
  · rintro ((⟨rfl, rfl⟩ | ⟨rfl, rfl⟩ | ⟨rfl, rfl⟩) | (⟨rfl, rfl⟩ | ⟨rfl, rfl⟩ | ⟨rfl, rfl⟩))
    · exact ⟨2, by simp, perm_pair.2 (Or.inl ⟨rfl, rfl⟩)⟩
    · exact ⟨0, by simp, perm_pair.2 (Or.inl ⟨rfl, rfl⟩)⟩
    · exact ⟨1, by simp, perm_pair.2 (Or.inr ⟨rfl, rfl⟩)⟩
    · exact ⟨2, by simp, perm_pair.2 (Or.inr ⟨rfl, rfl⟩)⟩
    · exact ⟨0, by simp, perm_pair.2 (Or.inr ⟨rfl, rfl⟩)⟩
    · exact ⟨1, by simp, perm_pair.2 (Or.inl ⟨rfl, rfl⟩)⟩

theorem isFace_length {e l : List Nat} (hl : l.length = 3) (h : IsFace e l) :
    ∃ a b, e = [a, b] := by
  obtain ⟨c, hc, hp⟩ := h
  have hlen : e.length = 2 := by
    rw [hp.length_eq, List.length_eraseIdx_of_lt hc, hl]
  match e, hlen with
  | [a, b], _ => exact ⟨a, b, rfl⟩

theorem triangleEdges_nodup {l : List Nat} (hl : l.Nodup) : (triangleEdges l).Nodup := by
  unfold triangleEdges
  split
  · next a b c =>
    simp at hl
    simp
    omega
  · simp

theorem triangleEdges_ne {l : List Nat} (hl : l.Nodup) {a b : Nat} (h : (a, b) ∈ triangleEdges l) :
    a ≠ b := by
  unfold triangleEdges at h
  split at h
  · next x y z =>
    simp at hl h
    omega
  · simp at h

theorem triangleEdges_not_back {l : List Nat} (hl : l.Nodup) {a b : Nat}
    (h : (a, b) ∈ triangleEdges l) : (b, a) ∉ triangleEdges l := by
  unfold triangleEdges at h ⊢
  split at h
  · next x y z =>
    simp at hl h ⊢
    omega
  · simp at h

theorem triangleEdges_mem {l : List Nat} {a b : Nat} (h : (a, b) ∈ triangleEdges l) :
    a ∈ l ∧ b ∈ l := by
  unfold triangleEdges at h
  split at h
  · next x y z =>
    simp at h ⊢
    omega
  · simp at h

theorem triangleEdges_turn {l : List Nat} (hl : l.length = 3) (n : Nat) :
    (triangleEdges (l.reverse.map (· + n))).Perm
      ((triangleEdges l).map fun p => (p.2 + n, p.1 + n)) := by
  obtain ⟨x, y, z, rfl⟩ := triple hl
  simp only [List.reverse_cons, List.reverse_nil, List.nil_append, List.cons_append, List.map_cons,
    List.map_nil, triangleEdges]
  exact List.Perm.swap _ _ _

theorem triangleEdges_ends {l : List Nat} :
    ((triangleEdges l).map Prod.fst).Perm ((triangleEdges l).map Prod.snd) := by
  unfold triangleEdges
  split
  · next x y z =>
    simp only [List.map_cons, List.map_nil]
    have : [x, y, z].Perm ([y, z] ++ [x]) := by
      have : [x, y, z] = [x] ++ [y, z] := rfl
      rw [this]
      exact List.perm_append_comm
    exact this
  · simp

/-- the induced orientation of an edge, in directed edges -/
theorem inducedSign_edge {a b : Nat} {l : List Nat} (hl : l.length = 3) (hn : l.Nodup)
    (hab : a ≠ b) : inducedSign [a, b] l =
      (if (a, b) ∈ triangleEdges l then 1 else 0) - if (b, a) ∈ triangleEdges l then 1 else 0 := by
  rw [← count_triangleEdges hab hl, (triangleEdges_nodup hn).count, (triangleEdges_nodup hn).count]
  push_cast
  rfl

theorem nodup_flatMap_index {α β : Type} (f : α → List β) : ∀ {L : List α}, (L.flatMap f).Nodup →
    ∀ {j1 j2 : Nat} {l1 l2 : α} {p : β}, L[j1]? = some l1 → L[j2]? = some l2 → p ∈ f l1 → p ∈ f l2 →
      j1 = j2
  | [], _, j1, j2, l1, l2, p, h1, _, _, _ => by simp at h1
  | x :: L, h, j1, j2, l1, l2, p, h1, h2, p1, p2 => by
    rw [List.flatMap_cons, List.nodup_append] at h
    obtain ⟨-, hL, hd⟩ := h
    rcases j1 with _ | j1 <;> rcases j2 with _ | j2
    · rfl
    · simp at h1 h2
      subst h1
      exact absurd rfl (hd p p1 p (List.mem_flatMap.2 ⟨_, List.mem_of_getElem? h2, p2⟩))
    · simp at h1 h2
      subst h2
      exact absurd rfl (hd p p2 p (List.mem_flatMap.2 ⟨_, List.mem_of_getElem? h1, p1⟩))
    · simp at h1 h2
      rw [nodup_flatMap_index f hL h1 h2 p1 p2]

theorem nodup_flatMap_of {α β : Type} (f : α → List β) : ∀ {L : List α}, (∀ l ∈ L, (f l).Nodup) →
    (∀ (j1 j2 : Nat) (l1 l2 : α) (p : β), L[j1]? = some l1 → L[j2]? = some l2 → p ∈ f l1 → p ∈ f l2 →
      j1 = j2) → (L.flatMap f).Nodup
  | [], _, _ => by simp
  | x :: L, h1, h2 => by
    rw [List.flatMap_cons, List.nodup_append]
    refine ⟨h1 x (by simp), nodup_flatMap_of f (fun l hl => h1 l (by simp [hl])) ?_, ?_⟩
    · intro j1 j2 l1 l2 p e1 e2 p1 p2
      have := h2 (j1 + 1) (j2 + 1) l1 l2 p (by simpa using e1) (by simpa using e2) p1 p2
      omega
    · rintro p hp q hq rfl
      obtain ⟨l, hl, hpl⟩ := List.mem_flatMap.1 hq
      obtain ⟨j, hj⟩ := List.getElem?_of_mem hl
      have := h2 0 (j + 1) x l p rfl (by simpa using hj) hp hpl
      omega

/-- no directed edge is passed twice by a coherent surface -/
theorem directedEdges_nodup {T : List (List Nat)} (hs : Simplices 3 T) (h2 : AtMostTwo T)
    (hco : Coherent T) : (directedEdges T).Nodup := by
  refine nodup_flatMap_of _ (fun l hl => triangleEdges_nodup (hs l hl).2) ?_
  rintro j1 j2 l1 l2 ⟨a, b⟩ e1 e2 p1 p2
  by_contra hne
  have s1 := hs l1 (List.mem_of_getElem? e1)
  have s2 := hs l2 (List.mem_of_getElem? e2)
  have f1 : IsFace [a, b] l1 := (isFace_pair s1.1).2 (Or.inl p1)
  have f2 : IsFace [a, b] l2 := (isFace_pair s2.1).2 (Or.inl p2)
  have hsh : SharedFace T [a, b] j1 j2 := by
    refine ⟨hne, (List.getElem?_eq_some_iff.1 e1).1, (List.getElem?_eq_some_iff.1 e2).1, ?_⟩
    intro j l hj
    constructor
    · intro hf
      rcases h2 _ j1 j2 j l1 l2 l e1 e2 hj f1 f2 hf with h | h | h
      · exact absurd h hne
      · exact Or.inl h.symm
      · exact Or.inr h.symm
    · rintro (rfl | rfl)
      · rw [e1] at hj; rw [← Option.some.inj hj]; exact f1
      · rw [e2] at hj; rw [← Option.some.inj hj]; exact f2
  have := hco _ _ _ _ _ e1 e2 hsh
  have hab := triangleEdges_ne s1.2 p1
  rw [inducedSign_edge s1.1 s1.2 hab, inducedSign_edge s2.1 s2.2 hab, if_pos p1, if_pos p2,
    if_neg (triangleEdges_not_back s1.2 p1), if_neg (triangleEdges_not_back s2.2 p2)] at this
  simp at this

/-- a surface that passes no directed edge twice has at most two triangles at an edge -/
theorem atMostTwo_of_nodup {T : List (List Nat)} (hs : Simplices 3 T)
    (h : (directedEdges T).Nodup) : AtMostTwo T := by
  intro e j1 j2 j3 l1 l2 l3 e1 e2 e3 f1 f2 f3
  have s1 := hs l1 (List.mem_of_getElem? e1)
  have s2 := hs l2 (List.mem_of_getElem? e2)
  have s3 := hs l3 (List.mem_of_getElem? e3)
  obtain ⟨a, b, rfl⟩ := isFace_length s1.1 f1
  rcases (isFace_pair s1.1).1 f1 with p1 | p1 <;> rcases (isFace_pair s2.1).1 f2 with p2 | p2 <;>
    rcases (isFace_pair s3.1).1 f3 with p3 | p3
  · exact Or.inl (nodup_flatMap_index _ h e1 e2 p1 p2)
  · exact Or.inl (nodup_flatMap_index _ h e1 e2 p1 p2)
  · exact Or.inr (Or.inl (nodup_flatMap_index _ h e1 e3 p1 p3))
  · exact Or.inr (Or.inr (nodup_flatMap_index _ h e2 e3 p2 p3))
  · exact Or.inr (Or.inr (nodup_flatMap_index _ h e2 e3 p2 p3))
  · exact Or.inr (Or.inl (nodup_flatMap_index _ h e1 e3 p1 p3))
  · exact Or.inl (nodup_flatMap_index _ h e1 e2 p1 p2)
  · exact Or.inl (nodup_flatMap_index _ h e1 e2 p1 p2)

/-- the differences of the directed edges of a list of triangles are its induced orientations -/
theorem count_directedEdges {a b : Nat} (hab : a ≠ b) : ∀ {L : List (List Nat)}, Simplices 3 L →
    ((directedEdges L).count (a, b) : ℤ) - (directedEdges L).count (b, a) =
      (L.map fun l => inducedSign [a, b] l).sum
  | [], _ => by simp [directedEdges]
  | l :: L, hL => by
    have := count_directedEdges hab (L := L) fun l hl => hL l (by simp [hl])
    have h1 := count_triangleEdges hab (hL l (by simp)).1
    simp only [directedEdges, List.flatMap_cons, List.count_append, List.map_cons,
      List.sum_cons] at this ⊢
    push_cast
    linarith

/-- a closed surface is coherent -/
theorem closedSurface_coherent {T : List (List Nat)} (hs : Simplices 3 T) (h : ClosedSurface T) :
    Coherent T := by
  intro e j1 j2 l1 l2 e1 e2 hsh
  have s1 := hs l1 (List.mem_of_getElem? e1)
  have f1 : IsFace e l1 := (hsh.2.2.2 j1 l1 e1).2 (Or.inl rfl)
  obtain ⟨a, b, rfl⟩ := isFace_length s1.1 f1
  have hab : a ≠ b := by
    rcases (isFace_pair s1.1).1 f1 with p | p
    · exact triangleEdges_ne s1.2 p
    · exact (triangleEdges_ne s1.2 p).symm
  have hsum := count_directedEdges hab hs
  rw [h a b, sub_self] at hsum
  have hmap : T.map (fun l => inducedSign [a, b] l) =
      (List.range T.length).map fun j => inducedSign [a, b] (T[j]?.getD []) := by
    apply List.ext_getElem
    · simp
    · intro j h1 h2
      have : j < T.length := by simpa using h1
      simp [this]
  rw [hmap, sum_pair _ List.nodup_range _ j1 j2 (List.mem_range.2 hsh.2.1)
    (List.mem_range.2 hsh.2.2.1) hsh.1, e1, e2] at hsum
  · simpa using hsum.symm
  · intro j hj n1 n2
    have hlt := List.mem_range.1 hj
    have hj' := List.getElem?_eq_getElem hlt
    rw [hj', Option.getD_some]
    have hnf : ¬ IsFace [a, b] T[j] := fun hf => by
      rcases (hsh.2.2.2 j _ hj').1 hf with h | h
      · exact n1 h
      · exact n2 h
    have sj := hs _ (List.mem_of_getElem? hj')
    rw [isFace_pair sj.1] at hnf
    rw [inducedSign_edge sj.1 sj.2 hab, if_neg fun h => hnf (Or.inl h),
      if_neg fun h => hnf (Or.inr h), sub_zero]

/-- two triangles that pass an edge in opposite directions, alone, share it -/
theorem shared_of_count {S : List (List Nat)} (hs : Simplices 3 S) {a b j1 j2 : Nat}
    {l1 l2 : List Nat} (e1 : S[j1]? = some l1) (e2 : S[j2]? = some l2)
    (p1 : (a, b) ∈ triangleEdges l1) (p2 : (b, a) ∈ triangleEdges l2)
    (c1 : ∀ (j : Nat) (l : List Nat), S[j]? = some l → (a, b) ∈ triangleEdges l → j = j1)
    (c2 : ∀ (j : Nat) (l : List Nat), S[j]? = some l → (b, a) ∈ triangleEdges l → j = j2) :
    SharedFace S [a, b] j1 j2 := by
  have s1 := hs l1 (List.mem_of_getElem? e1)
  have s2 := hs l2 (List.mem_of_getElem? e2)
  refine ⟨?_, (List.getElem?_eq_some_iff.1 e1).1, (List.getElem?_eq_some_iff.1 e2).1, ?_⟩
  · rintro rfl
    rw [e1] at e2
    rw [← Option.some.inj e2] at p2
    exact triangleEdges_not_back s1.2 p1 p2
  · intro j l hj
    have sj := hs l (List.mem_of_getElem? hj)
    rw [isFace_pair sj.1]
    constructor
    · rintro (h | h)
      · exact Or.inl (c1 j l hj h)
      · exact Or.inr (c2 j l hj h)
    · rintro (rfl | rfl)
      · rw [e1] at hj; rw [← Option.some.inj hj]; exact Or.inl p1
      · rw [e2] at hj; rw [← Option.some.inj hj]; exact Or.inr p2

/-! ### the border of a surface -/

section border

variable {T : List (List Nat)} {E : List (Nat × Nat)}

theorem directedEdges_split (hn : (directedEdges T).Nodup) (hE : IsBorder T E) :
    ∃ I, (directedEdges T).Perm (I ++ E) ∧ Balanced I := by
  refine ⟨(directedEdges T).filter fun p => p.swap ∈ directedEdges T, ?_, ?_⟩
  · have h1 : E.Perm ((directedEdges T).filter fun p => ¬ p.swap ∈ directedEdges T) := by
      rw [List.perm_ext_iff_of_nodup hE.1 (hn.filter _)]
      rintro ⟨a, b⟩
      rw [hE.2, List.mem_filter]
      simp
    refine List.Perm.trans ?_ (List.Perm.append_left _ h1.symm)
    have := (List.filter_append_perm (fun p => decide (p.swap ∈ directedEdges T))
      (directedEdges T)).symm
    simpa using this
  · rw [balanced_iff]
    intro a b
    rw [(hn.filter _).count, (hn.filter _).count]
    simp only [List.mem_filter, decide_eq_true_eq, Prod.swap_prod_mk]
    by_cases h1 : (a, b) ∈ directedEdges T <;> by_cases h2 : (b, a) ∈ directedEdges T <;>
      simp [h1, h2]

/-- the triangles, together with the border turned round, pass every edge as often in both
directions -/
theorem balanced_border (hn : (directedEdges T).Nodup) (hE : IsBorder T E) :
    Balanced (directedEdges T ++ E.map Prod.swap) := by
  obtain ⟨I, hp, hI⟩ := directedEdges_split hn hE
  refine Balanced.perm (hI.append (balanced_self E)) ?_
  rw [← List.append_assoc]
  exact List.Perm.append_right _ hp.symm

theorem directedEdges_ends (T : List (List Nat)) :
    ((directedEdges T).map Prod.fst).Perm ((directedEdges T).map Prod.snd) := by
  induction T with
  | nil => exact List.Perm.refl _
  | cons l T ih =>
    simp only [directedEdges, List.flatMap_cons, List.map_append] at ih ⊢
    exact List.Perm.append triangleEdges_ends ih

/-- every vertex is as often the start of a border edge as it is the end of one -/
theorem border_ends (hn : (directedEdges T).Nodup) (hE : IsBorder T E) :
    (E.map Prod.fst).Perm (E.map Prod.snd) := by
  obtain ⟨I, hp, hI⟩ := directedEdges_split hn hE
  have h1 := directedEdges_ends T
  have h2 := ((hp.map Prod.fst).symm.trans h1).trans (hp.map Prod.snd)
  rw [List.map_append, List.map_append] at h2
  have h3 : (I.map Prod.fst).Perm (I.map Prod.snd) := by
    have := List.Perm.map Prod.fst hI
    rw [List.map_map] at this
    exact this
  exact (List.perm_append_left_iff _).1 ((List.Perm.append_right _ h3).symm.trans h2)

end border

/-! ### the directed edges of the prism -/

section prism

variable {n : Nat} {T : List (List Nat)} {E : List (Nat × Nat)}

/-- renumber and turn round -/
def turnUp (n : Nat) (p : Nat × Nat) : Nat × Nat := (p.2 + n, p.1 + n)

/-- the directed edges of the prism that are not vertical -/
def slanted (n : Nat) (T : List (List Nat)) (E : List (Nat × Nat)) : List (Nat × Nat) :=
  (directedEdges T ++ E.map Prod.swap) ++ (directedEdges T ++ E.map Prod.swap).map (turnUp n) ++
    (E.map (fun e => (e.1 + n, e.2)) ++ (E.map fun e => (e.1 + n, e.2)).map Prod.swap)

/-- the vertical directed edges of the prism -/
def vertical (n : Nat) (E : List (Nat × Nat)) : List (Nat × Nat) :=
  (E.map Prod.fst).map (fun a => (a, a + n)) ++ (E.map Prod.snd).map fun b => (b + n, b)

theorem directedEdges_append (A B : List (List Nat)) :
    directedEdges (A ++ B) = directedEdges A ++ directedEdges B := by
  simp [directedEdges]

theorem directedEdges_turn (hs : Simplices 3 T) :
    (directedEdges (T.map fun l => l.reverse.map (· + n))).Perm
      ((directedEdges T).map (turnUp n)) := by
  induction T with
  | nil => exact List.Perm.refl _
  | cons l T ih =>
    simp only [directedEdges, List.flatMap_cons, List.map_append, List.map_cons] at ih ⊢
    refine List.Perm.append (triangleEdges_turn (hs l (by simp)).1 n) ?_
    exact ih fun l hl => hs l (by simp [hl])

theorem directedEdges_strip : (directedEdges (E.map (fun e => [e.2, e.1, e.1 + n]) ++
      E.map (fun e => [e.1 + n, e.2 + n, e.2]))).Perm
    (E.map Prod.swap ++ (E.map Prod.swap).map (turnUp n) ++
      (E.map (fun e => (e.1 + n, e.2)) ++ (E.map fun e => (e.1 + n, e.2)).map Prod.swap) ++
      vertical n E) := by
  rw [List.perm_iff_count]
  intro p
  simp only [directedEdges_append, vertical, List.count_append]
  induction E with
  | nil => rfl
  | cons e E ih =>
    simp only [List.map_cons, directedEdges, List.flatMap_cons, triangleEdges, List.count_append,
      List.count_cons, List.count_nil, Prod.swap, turnUp] at ih ⊢
    omega

theorem directedEdges_prism (hs : Simplices 3 T) :
    (directedEdges (prism n T E)).Perm (slanted n T E ++ vertical n E) := by
  unfold prism
  rw [directedEdges_append, directedEdges_append]
  refine (List.Perm.append (List.Perm.append_left _ (directedEdges_turn hs)) directedEdges_strip).trans ?_
  rw [List.perm_iff_count]
  intro p
  simp only [slanted, List.map_append, List.count_append]
  omega

/-- the prism is a closed surface -/
theorem prism_closed (hs : Simplices 3 T) (hn : (directedEdges T).Nodup) (hE : IsBorder T E) :
    ClosedSurface (prism n T E) := by
  have hb := balanced_border hn hE
  have : Balanced (directedEdges (prism n T E)) := by
    refine Balanced.perm ?_ (directedEdges_prism hs).symm
    refine ((hb.append ?_).append (balanced_self _)).append ?_
    · exact hb.map _ fun p => rfl
    · refine Balanced.perm (balanced_self ((E.map Prod.fst).map fun a => (a, a + n))) ?_
      refine List.Perm.append_left _ ?_
      rw [List.map_map]
      exact (border_ends hn hE).map _
  exact balanced_iff.1 this

theorem vertical_num {p : Nat × Nat} (hv : p ∈ vertical n E) : p.2 = p.1 + n ∨ p.1 = p.2 + n := by
  rcases List.mem_append.1 hv with hv | hv
  · obtain ⟨c, h3, rfl⟩ := List.mem_map.1 hv
    exact Or.inl rfl
  · obtain ⟨c, h3, rfl⟩ := List.mem_map.1 hv
    exact Or.inr rfl

theorem slanted_num (hlt : ∀ l ∈ T, ∀ v ∈ l, v < n) (hs : Simplices 3 T) (hE : IsBorder T E)
    {p : Nat × Nat} (hp : p ∈ slanted n T E) : p.2 ≠ p.1 + n ∧ p.1 ≠ p.2 + n := by
  obtain ⟨x, y⟩ := p
  have hD : ∀ a b, (a, b) ∈ directedEdges T → a < n ∧ b < n ∧ a ≠ b := by
    intro a b hab
    obtain ⟨l, hl, hpl⟩ := List.mem_flatMap.1 hab
    have hm := triangleEdges_mem hpl
    exact ⟨hlt l hl a hm.1, hlt l hl b hm.2, triangleEdges_ne (hs l hl).2 hpl⟩
  have hEe : ∀ a b, (a, b) ∈ E → a < n ∧ b < n ∧ a ≠ b := fun a b h => hD a b ((hE.2 a b).1 h).1
  have bound : ∀ a b, (a, b) ∈ directedEdges T ++ E.map Prod.swap → a < n ∧ b < n := by
    intro a b h
    rcases List.mem_append.1 h with h | h
    · have := hD a b h; omega
    · obtain ⟨⟨c, d⟩, h3, h4⟩ := List.mem_map.1 h
      simp only [Prod.swap, Prod.mk.injEq] at h4
      have := hEe c d h3
      omega
  simp only
  rcases List.mem_append.1 hp with hp | hp
  · rcases List.mem_append.1 hp with hp | hp
    · have := bound _ _ hp
      omega
    · obtain ⟨⟨c, d⟩, h3, h4⟩ := List.mem_map.1 hp
      simp only [turnUp, Prod.mk.injEq] at h4
      have := bound _ _ h3
      omega
  · rcases List.mem_append.1 hp with hp | hp
    · obtain ⟨⟨c, d⟩, h3, h4⟩ := List.mem_map.1 hp
      simp only [Prod.mk.injEq] at h4
      have := hEe _ _ h3
      omega
    · obtain ⟨⟨c', d'⟩, h5, h6⟩ := List.mem_map.1 hp
      obtain ⟨⟨c'', d''⟩, h7, h8⟩ := List.mem_map.1 h5
      simp only [Prod.swap, Prod.mk.injEq] at h6 h8
      have := hEe _ _ h7
      omega

theorem slanted_nodup (hlt : ∀ l ∈ T, ∀ v ∈ l, v < n) (hs : Simplices 3 T)
    (hn : (directedEdges T).Nodup) (hE : IsBorder T E) : (slanted n T E).Nodup := by
  have hD : ∀ a b, (a, b) ∈ directedEdges T → a < n ∧ b < n ∧ a ≠ b := by
    intro a b hab
    obtain ⟨l, hl, hpl⟩ := List.mem_flatMap.1 hab
    have hm := triangleEdges_mem hpl
    exact ⟨hlt l hl a hm.1, hlt l hl b hm.2, triangleEdges_ne (hs l hl).2 hpl⟩
  have hEe : ∀ a b, (a, b) ∈ E → a < n ∧ b < n ∧ a ≠ b := fun a b h => hD a b ((hE.2 a b).1 h).1
  have base : (directedEdges T ++ E.map Prod.swap).Nodup := by
    rw [List.nodup_append]
    refine ⟨hn, hE.1.map Prod.swap_injective, ?_⟩
    rintro ⟨a, b⟩ h1 q h2 rfl
    obtain ⟨⟨c, d⟩, h3, h4⟩ := List.mem_map.1 h2
    simp only [Prod.swap, Prod.mk.injEq] at h4
    obtain ⟨rfl, rfl⟩ := h4
    exact ((hE.2 _ _).1 h3).2 h1
  have bound : ∀ a b, (a, b) ∈ directedEdges T ++ E.map Prod.swap → a < n ∧ b < n := by
    intro a b h
    rcases List.mem_append.1 h with h | h
    · have := hD a b h; omega
    · obtain ⟨⟨c, d⟩, h3, h4⟩ := List.mem_map.1 h
      simp only [Prod.swap, Prod.mk.injEq] at h4
      have := hEe c d h3
      omega
  have hdiag : (E.map fun e => (e.1 + n, e.2)).Nodup := by
    refine hE.1.map ?_
    rintro ⟨a, b⟩ ⟨c, d⟩ h
    simp only [Prod.mk.injEq] at h ⊢
    omega
  unfold slanted
  refine List.nodup_append.2 ⟨List.nodup_append.2 ⟨base, base.map ?_, ?_⟩, List.nodup_append.2
    ⟨hdiag, hdiag.map Prod.swap_injective, ?_⟩, ?_⟩
  · rintro ⟨a, b⟩ ⟨c, d⟩ h
    simp only [turnUp, Prod.mk.injEq] at h ⊢
    omega
  · rintro ⟨a, b⟩ h1 q h2 rfl
    obtain ⟨⟨c, d⟩, h3, h4⟩ := List.mem_map.1 h2
    simp only [turnUp, Prod.mk.injEq] at h4
    have := bound _ _ h1
    omega
  · rintro ⟨a, b⟩ h1 q h2 rfl
    obtain ⟨⟨c, d⟩, h3, h4⟩ := List.mem_map.1 h1
    obtain ⟨⟨c', d'⟩, h5, h6⟩ := List.mem_map.1 h2
    obtain ⟨⟨c'', d''⟩, h7, h8⟩ := List.mem_map.1 h5
    simp only [Prod.swap, Prod.mk.injEq] at h4 h6 h8
    have := hEe _ _ h3
    have := hEe _ _ h7
    omega
  · rintro ⟨a, b⟩ h1 q h2 rfl
    have h2' : (a < n ∧ n ≤ b) ∨ (n ≤ a ∧ b < n) := by
      rcases List.mem_append.1 h2 with h2 | h2
      · obtain ⟨⟨c, d⟩, h3, h4⟩ := List.mem_map.1 h2
        simp only [Prod.mk.injEq] at h4
        have := hEe _ _ h3
        omega
      · obtain ⟨⟨c', d'⟩, h5, h6⟩ := List.mem_map.1 h2
        obtain ⟨⟨c'', d''⟩, h7, h8⟩ := List.mem_map.1 h5
        simp only [Prod.swap, Prod.mk.injEq] at h6 h8
        have := hEe _ _ h7
        omega
    rcases List.mem_append.1 h1 with h1 | h1
    · have := bound _ _ h1
      omega
    · obtain ⟨⟨c, d⟩, h3, h4⟩ := List.mem_map.1 h1
      simp only [turnUp, Prod.mk.injEq] at h4
      have := bound _ _ h3
      omega

theorem vertical_nodup (hE : (E.map Prod.fst).Nodup) (hE' : (E.map Prod.snd).Nodup) (hn : 0 < n) :
    (vertical n E).Nodup := by
  unfold vertical
  refine List.nodup_append.2 ⟨hE.map ?_, hE'.map ?_, ?_⟩
  · intro a b h
    simpa using h
  · intro a b h
    simpa using h
  · rintro ⟨a, b⟩ h1 q h2 rfl
    obtain ⟨c, h3, h4⟩ := List.mem_map.1 h1
    obtain ⟨d, h5, h6⟩ := List.mem_map.1 h2
    simp only [Prod.mk.injEq] at h4 h6
    omega

/-- the rows of the prism are triangles -/
theorem prism_simplices (hlt : ∀ l ∈ T, ∀ v ∈ l, v < n) (hs : Simplices 3 T) (hE : IsBorder T E) :
    Simplices 3 (prism n T E) := by
  have hEe : ∀ a b, (a, b) ∈ E → a < n ∧ b < n ∧ a ≠ b := by
    intro a b hab
    obtain ⟨l, hl, hpl⟩ := List.mem_flatMap.1 ((hE.2 a b).1 hab).1
    have hm := triangleEdges_mem hpl
    exact ⟨hlt l hl a hm.1, hlt l hl b hm.2, triangleEdges_ne (hs l hl).2 hpl⟩
  intro l hl
  rcases List.mem_append.1 hl with hl | hl
  · rcases List.mem_append.1 hl with hl | hl
    · exact hs l hl
    · obtain ⟨l', hl', rfl⟩ := List.mem_map.1 hl
      have := hs l' hl'
      refine ⟨by simpa using this.1, ?_⟩
      refine List.Nodup.map (fun a b h => ?_) (List.nodup_reverse.2 this.2)
      simpa using h
  · rcases List.mem_append.1 hl with hl | hl
    · obtain ⟨⟨a, b⟩, he, rfl⟩ := List.mem_map.1 hl
      have := hEe a b he
      simp
      omega
    · obtain ⟨⟨a, b⟩, he, rfl⟩ := List.mem_map.1 hl
      have := hEe a b he
      simp
      omega

theorem count_flatMap_index {α β : Type} [BEq β] [LawfulBEq β] (f : α → List β) (p : β) :
    ∀ {L : List α}, (L.flatMap f).count p ≤ 1 →
    ∀ {j1 j2 : Nat} {l1 l2 : α}, L[j1]? = some l1 → L[j2]? = some l2 → p ∈ f l1 → p ∈ f l2 → j1 = j2
  | [], _, j1, j2, l1, l2, h1, _, _, _ => by simp at h1
  | x :: L, h, j1, j2, l1, l2, h1, h2, p1, p2 => by
    rw [List.flatMap_cons, List.count_append] at h
    rcases j1 with _ | j1 <;> rcases j2 with _ | j2
    · rfl
    · simp at h1 h2
      subst h1
      have := List.count_pos_iff.2 p1
      have := List.count_pos_iff.2 (List.mem_flatMap.2 ⟨_, List.mem_of_getElem? h2, p2⟩)
      omega
    · simp at h1 h2
      subst h2
      have := List.count_pos_iff.2 p2
      have := List.count_pos_iff.2 (List.mem_flatMap.2 ⟨_, List.mem_of_getElem? h1, p1⟩)
      omega
    · simp at h1 h2
      rw [count_flatMap_index f p (L := L) (by omega) h1 h2 p1 p2]

theorem count_prism (hlt : ∀ l ∈ T, ∀ v ∈ l, v < n) (hs : Simplices 3 T)
    (hn : (directedEdges T).Nodup) (hE : IsBorder T E) {p : Nat × Nat}
    (hp : p.2 ≠ p.1 + n ∧ p.1 ≠ p.2 + n) : (directedEdges (prism n T E)).count p ≤ 1 := by
  have h0 : (vertical n E).count p = 0 := List.count_eq_zero.2 fun hv => by
    rcases vertical_num hv with h | h <;> omega
  rw [(directedEdges_prism hs).count_eq, List.count_append, h0]
  exact List.nodup_iff_count_le_one.1 (slanted_nodup hlt hs hn hE) p

theorem prism_get_bottom {j : Nat} {l : List Nat} (h : T[j]? = some l) :
    (prism n T E)[j]? = some l := by
  have hj := (List.getElem?_eq_some_iff.1 h).1
  unfold prism
  rw [List.getElem?_append_left (by simp; omega), List.getElem?_append_left hj, h]

theorem prism_get_top {j : Nat} {l : List Nat} (h : T[j]? = some l) :
    (prism n T E)[T.length + j]? = some (l.reverse.map (· + n)) := by
  have hj := (List.getElem?_eq_some_iff.1 h).1
  unfold prism
  rw [List.getElem?_append_left (by simp; omega), List.getElem?_append_right (by omega),
    Nat.add_sub_cancel_left, List.getElem?_map, h]
  rfl

theorem prism_get_side {k : Nat} {e : Nat × Nat} (h : E[k]? = some e) :
    (prism n T E)[T.length + T.length + k]? = some [e.2, e.1, e.1 + n] := by
  have hk := (List.getElem?_eq_some_iff.1 h).1
  unfold prism
  rw [List.getElem?_append_right (by simp), List.length_append, List.length_map,
    Nat.add_sub_cancel_left, List.getElem?_append_left (by simpa using hk), List.getElem?_map, h]
  rfl

theorem prism_get_side' {k : Nat} {e : Nat × Nat} (h : E[k]? = some e) :
    (prism n T E)[T.length + T.length + (E.length + k)]? = some [e.1 + n, e.2 + n, e.2] := by
  have hk := (List.getElem?_eq_some_iff.1 h).1
  unfold prism
  rw [List.getElem?_append_right (by simp), List.length_append, List.length_map,
    Nat.add_sub_cancel_left, List.getElem?_append_right (by simp), List.length_map,
    Nat.add_sub_cancel_left, List.getElem?_map, h]
  rfl

theorem prism_length : (prism n T E).length = 2 * T.length + 2 * E.length := by
  simp [prism]
  omega

/-- two triangles of the prism that pass an edge, not vertical, in opposite directions are
neighbours -/
theorem prism_adjacent (hlt : ∀ l ∈ T, ∀ v ∈ l, v < n) (hs : Simplices 3 T)
    (hn : (directedEdges T).Nodup) (hE : IsBorder T E) {a b j1 j2 : Nat} {l1 l2 : List Nat}
    (hp : b ≠ a + n ∧ a ≠ b + n) (e1 : (prism n T E)[j1]? = some l1)
    (e2 : (prism n T E)[j2]? = some l2) (p1 : (a, b) ∈ triangleEdges l1)
    (p2 : (b, a) ∈ triangleEdges l2) : Adjacent (prism n T E) j1 j2 := by
  refine ⟨[a, b], shared_of_count (prism_simplices hlt hs hE) e1 e2 p1 p2 ?_ ?_⟩
  · intro j l hj hm
    exact count_flatMap_index _ _ (count_prism hlt hs hn hE (p := (a, b)) hp) hj e1 hm p1
  · intro j l hj hm
    exact count_flatMap_index _ _ (count_prism hlt hs hn hE (p := (b, a)) hp.symm) hj e2 hm p2

theorem adjacent_symm (S : List (List Nat)) : Std.Symm (Adjacent S) :=
  ⟨fun _ _ ⟨e, h⟩ => ⟨e, sharedFace_symm h⟩⟩

/-- the prism over a connected surface with border is connected -/
theorem prism_connected (hlt : ∀ l ∈ T, ∀ v ∈ l, v < n) (hs : Simplices 3 T)
    (hn : (directedEdges T).Nodup) (hE : IsBorder T E) (hco : Coherent T) (hcon : Connected T)
    (hne : E ≠ []) : Connected (prism n T E) := by
  have hD : ∀ a b, (a, b) ∈ directedEdges T → a < n ∧ b < n ∧ a ≠ b := by
    intro a b hab
    obtain ⟨l, hl, hpl⟩ := List.mem_flatMap.1 hab
    have hm := triangleEdges_mem hpl
    exact ⟨hlt l hl a hm.1, hlt l hl b hm.2, triangleEdges_ne (hs l hl).2 hpl⟩
  have hsym : ∀ i j, Relation.ReflTransGen (Adjacent (prism n T E)) i j →
      Relation.ReflTransGen (Adjacent (prism n T E)) j i := fun i j h =>
    have := adjacent_symm (prism n T E)
    Relation.ReflTransGen.stdSymm.symm _ _ h
  have htop : ∀ {a b : Nat} {l : List Nat}, l.length = 3 → (a, b) ∈ triangleEdges l →
      (b + n, a + n) ∈ triangleEdges (l.reverse.map (· + n)) := fun hl h =>
    (triangleEdges_turn hl n).mem_iff.2 (List.mem_map.2 ⟨_, h, rfl⟩)
  -- neighbours in the surface are neighbours in both copies
  have hadj : ∀ i j, Adjacent T i j → Adjacent (prism n T E) i j ∧
      Adjacent (prism n T E) (T.length + i) (T.length + j) := by
    rintro i j ⟨e, hsh⟩
    have hi := hsh.2.1
    have hj := hsh.2.2.1
    have e1 := List.getElem?_eq_getElem hi
    have e2 := List.getElem?_eq_getElem hj
    have s1 := hs _ (List.mem_of_getElem? e1)
    have s2 := hs _ (List.mem_of_getElem? e2)
    have f1 : IsFace e _ := (hsh.2.2.2 i _ e1).2 (Or.inl rfl)
    have f2 : IsFace e _ := (hsh.2.2.2 j _ e2).2 (Or.inr rfl)
    obtain ⟨a, b, rfl⟩ := isFace_length s1.1 f1
    have hc := hco _ _ _ _ _ e1 e2 hsh
    have key : ∀ a b, (a, b) ∈ triangleEdges T[i] → (b, a) ∈ triangleEdges T[j] →
        Adjacent (prism n T E) i j ∧ Adjacent (prism n T E) (T.length + i) (T.length + j) := by
      intro a b p1 p2
      have hab := hD a b (mem_directedEdges.2 ⟨i, _, e1, p1⟩)
      exact ⟨prism_adjacent hlt hs hn hE (by omega) (prism_get_bottom e1) (prism_get_bottom e2) p1 p2,
        prism_adjacent hlt hs hn hE (by omega) (prism_get_top e1) (prism_get_top e2)
          (htop s1.1 p1) (htop s2.1 p2)⟩
    have hab : a ≠ b := by
      rcases (isFace_pair s1.1).1 f1 with p | p
      · exact triangleEdges_ne s1.2 p
      · exact (triangleEdges_ne s1.2 p).symm
    rw [inducedSign_edge s1.1 s1.2 hab, inducedSign_edge s2.1 s2.2 hab] at hc
    rcases (isFace_pair s1.1).1 f1 with p1 | p1 <;> rcases (isFace_pair s2.1).1 f2 with p2 | p2
    · rw [if_pos p1, if_pos p2, if_neg (triangleEdges_not_back s1.2 p1),
        if_neg (triangleEdges_not_back s2.2 p2)] at hc
      simp at hc
    · exact key a b p1 p2
    · exact key b a p1 p2
    · rw [if_pos p1, if_pos p2, if_neg (triangleEdges_not_back s1.2 p1),
        if_neg (triangleEdges_not_back s2.2 p2)] at hc
      simp at hc
  have hlow : ∀ i < T.length, ∀ j < T.length,
      Relation.ReflTransGen (Adjacent (prism n T E)) i j := fun i hi j hj =>
    Relation.ReflTransGen.mono (fun i j h => (hadj i j h).1) _ _ (hcon i hi j hj)
  have hup : ∀ i < T.length, ∀ j < T.length,
      Relation.ReflTransGen (Adjacent (prism n T E)) (T.length + i) (T.length + j) :=
    fun i hi j hj => Relation.ReflTransGen.lift (T.length + ·) (fun i j h => (hadj i j h).2) _ _
      (hcon i hi j hj)
  -- the two triangles at a border edge
  have hside : ∀ (k : Nat) (e : Nat × Nat), E[k]? = some e → ∃ j < T.length,
      Adjacent (prism n T E) j (T.length + T.length + k) ∧
      Adjacent (prism n T E) (T.length + T.length + k) (T.length + T.length + (E.length + k)) ∧
      Adjacent (prism n T E) (T.length + T.length + (E.length + k)) (T.length + j) := by
    rintro k ⟨a, b⟩ hk
    have hb := ((hE.2 a b).1 (List.mem_of_getElem? hk)).1
    obtain ⟨j, l, hj, hp⟩ := mem_directedEdges.1 hb
    have hab := hD a b hb
    have sl := hs l (List.mem_of_getElem? hj)
    refine ⟨j, (List.getElem?_eq_some_iff.1 hj).1, ?_, ?_, ?_⟩
    · exact prism_adjacent hlt hs hn hE (a := a) (b := b) (by omega) (prism_get_bottom hj)
        (prism_get_side hk) hp (by simp [triangleEdges])
    · exact prism_adjacent hlt hs hn hE (a := a + n) (b := b) (by omega) (prism_get_side hk)
        (prism_get_side' hk) (by simp [triangleEdges]) (by simp [triangleEdges])
    · exact prism_adjacent hlt hs hn hE (a := a + n) (b := b + n) (by omega) (prism_get_side' hk)
        (prism_get_top hj) (by simp [triangleEdges]) (htop sl.1 hp)
  obtain ⟨e0, E', rfl⟩ := List.exists_cons_of_ne_nil hne
  obtain ⟨j0, hj0, a1, a2, a3⟩ := hside 0 e0 rfl
  have hbase : ∀ j < (prism n T (e0 :: E')).length,
      Relation.ReflTransGen (Adjacent (prism n T (e0 :: E'))) j0 j := by
    intro j hj
    rw [prism_length] at hj
    by_cases h1 : j < T.length
    · exact hlow j0 hj0 j h1
    by_cases h2 : j < T.length + T.length
    · obtain ⟨i, rfl⟩ : ∃ i, j = T.length + i := ⟨j - T.length, by omega⟩
      exact ((Relation.ReflTransGen.single a1).tail a2 |>.tail a3).trans
        (hup j0 hj0 i (by omega))
    by_cases h3 : j < T.length + T.length + (e0 :: E').length
    · obtain ⟨k, rfl⟩ : ∃ k, j = T.length + T.length + k := ⟨j - (T.length + T.length), by omega⟩
      obtain ⟨i, hi, b1, -, -⟩ := hside k _ (List.getElem?_eq_getElem (by omega))
      exact (hlow j0 hj0 i hi).tail b1
    · obtain ⟨k, rfl⟩ : ∃ k, j = T.length + T.length + ((e0 :: E').length + k) :=
        ⟨j - (T.length + T.length) - (e0 :: E').length, by omega⟩
      obtain ⟨i, hi, b1, b2, -⟩ := hside k _ (List.getElem?_eq_getElem (by omega))
      exact ((hlow j0 hj0 i hi).tail b1).tail b2
  intro i hi j hj
  exact (hsym _ _ (hbase i hi)).trans (hbase j hj)

end prism

end Verif
