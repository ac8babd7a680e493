/-
`from_cubes` stores a side as the first cube has it, so that sides of coarse and fine cubes have the same orientation.
-/
import Verif.Lemmas.CubeTwoScale

set_option linter.unusedSectionVars false

namespace Verif

open Verif.Model Verif.Spec

theorem Except.bind_eq_ok' {α β : Type} {x : Except PyErr α} {f : α → Except PyErr β} {b : β} :
    (x >>= f) = .ok b ↔ ∃ a, x = .ok a ∧ f a = .ok b := by
  cases x with
  | error e => simp [bind, Except.bind]
  | ok a => simp [bind, Except.bind]

/-- the first place of a key in a list of lists -/
theorem flatten_first {β : Type} (κ : β → List Nat) : ∀ {full : List (List β)} {key : List Nat},
    key ∈ full.flatten.map κ → ∃ (j : Nat) (bs : List β), full[j]? = some bs ∧
      (∃ b ∈ bs, full.flatten[(full.flatten.map κ).idxOf key]? = some b ∧ κ b = key) ∧
      ∀ j' < j, ∀ bs', full[j']? = some bs' → ∀ b' ∈ bs', κ b' ≠ key
  | [], key, h => by simp at h
  | bs :: full, key, h => by
    rw [List.flatten_cons, List.map_append] at h ⊢
    by_cases hb : key ∈ bs.map κ
    · have hlt := List.idxOf_lt_length_of_mem hb
      rw [List.length_map] at hlt
      refine ⟨0, bs, rfl, ⟨bs[(bs.map κ).idxOf key], List.getElem_mem _, ?_, ?_⟩, by omega⟩
      · rw [List.idxOf_append_of_mem hb, List.getElem?_append_left hlt, List.getElem?_eq_getElem hlt]
      · have : (bs.map κ)[(bs.map κ).idxOf key]'(by simpa using hlt) = key := List.getElem_idxOf _
        rw [List.getElem_map] at this
        exact this
    · have hf : key ∈ full.flatten.map κ := (List.mem_append.1 h).resolve_left hb
      obtain ⟨j, bs', h1, ⟨b, h2, h3, h4⟩, h5⟩ := flatten_first κ hf
      refine ⟨j + 1, bs', h1, ⟨b, h2, ?_, h4⟩, ?_⟩
      · rw [List.idxOf_append_of_notMem hb, List.length_map, List.getElem?_append_right (by omega), Nat.add_sub_cancel_left]
        exact h3
      · intro j' hj' bs2 g1 b' hb' hk
        rcases j' with _ | j'
        · obtain rfl : bs = bs2 := Option.some.inj g1
          exact hb (List.mem_map.2 ⟨b', hb', hk⟩)
        · exact h5 j' (by omega) bs2 g1 b' hb' hk

variable {uniq : List (List Nat) → List (List Nat)}

theorem lowerCubes_first (hu : UniqSpec uniq) {k : Nat} (hk : 1 ≤ k) {F : List (List Nat)}
    {r : List (List Nat) × List (List Nat) × List (List Int)} (h : lowerCubes uniq true k F = .ok r) {e : List Nat}
    (he : e ∈ r.1) : ∃ (j : Nat) (bs : List (List Nat)), (F.map (cubeBoundary k true))[j]? = some bs ∧ e ∈ bs ∧
      ∀ j' < j, ∀ bs', (F.map (cubeBoundary k true))[j']? = some bs' → ∀ b' ∈ bs', sortRow b' ≠ sortRow e := by
  unfold lowerCubes at h
  rw [if_neg (by omega)] at h
  split at h
  · simp at h
  dsimp only at h
  obtain ⟨ps, hps, h⟩ := Except.bind_eq_ok'.1 h
  rw [← Except.ok.inj h] at he
  obtain ⟨key, hkey, rfl⟩ := List.mem_map.1 he
  obtain ⟨j, bs, g1, ⟨b, g2, g3, g4⟩, g5⟩ := flatten_first sortRow (((hu _).2 key).1 hkey)
  rw [g3, Option.getD_some]
  refine ⟨j, bs, g1, g2, ?_⟩
  rw [g4]
  exact g5

theorem cubeLevels_last : ∀ {k : Nat} {G : List (List Nat)} {t' : Topo}, cubeLevels uniq true k G = .ok t' →
    t'.elements.length = k + 1 ∧ t'.elements[k]? = some G
  | 0, G, t', hc => by
    rw [cubeLevels] at hc
    rw [← Except.ok.inj hc]
    exact ⟨rfl, rfl⟩
  | k + 1, G, t', hc => by
    rw [cubeLevels] at hc
    obtain ⟨r, hr, hc⟩ := Except.bind_eq_ok'.1 hc
    obtain ⟨t2, ht2, hc⟩ := Except.bind_eq_ok'.1 hc
    obtain ⟨h1, h2⟩ := cubeLevels_last ht2
    rw [← Except.ok.inj hc]
    exact ⟨by simp [h1], by simp [h1]⟩

/-- a stored side is the side of the first cube that has it -/
theorem fromCubes_first (hu : UniqSpec uniq) {k : Nat} (hk : 1 ≤ k) {F : List (List Nat)} (hF : Cubes (k + 1) F) {t : Topo}
    (h : fromCubes uniq true (k + 1) F = .ok t) {i : Nat} {e : List Nat} (he : Stored t k i e) :
    ∃ (j : Nat) (l : List Nat), F[j]? = some l ∧ (∃ a ≤ k, ∃ σ, e = mirroredSide k a σ l) ∧
      ∀ j' < j, ∀ l', F[j']? = some l' → ∀ a ≤ k, ∀ σ, ¬ (sliceAxis k a σ l').Perm e := by
  have hall : F.all (fun l => l.length = 2 ^ (k + 1)) = true := by
    rw [List.all_eq_true]
    intro l hl
    simpa using (hF l hl).1
  unfold fromCubes at h
  rw [if_pos hall, cubeLevels] at h
  obtain ⟨t1, ht1, h⟩ := Except.bind_eq_ok'.1 h
  obtain ⟨r, hr, ht1⟩ := Except.bind_eq_ok'.1 ht1
  obtain ⟨t2, ht2, ht1⟩ := Except.bind_eq_ok'.1 ht1
  have ht1 := Except.ok.inj ht1
  have hel : t.elements = t2.elements ++ [F] := by
    unfold checkTopo at h
    split at h
    · simp at h
    · split at h
      · rw [← Except.ok.inj h, ← ht1]
      · simp at h
  obtain ⟨h1, h2⟩ := cubeLevels_last ht2
  have he' : e ∈ r.1 := by
    have := List.mem_of_getElem? he
    rw [hel, List.getElem?_append_left (by omega), h2] at this
    exact this
  obtain ⟨j, l, hj, hfst⟩ := lowerCubes_first hu hk hr he'
  rw [List.getElem?_map] at hj
  obtain ⟨l', hl', rfl⟩ := Option.map_eq_some_iff.1 hj
  refine ⟨j, l', hl', mem_cubeBoundary.1 hfst.1, ?_⟩
  intro j' hj' l2 hl2 a ha σ hp
  refine hfst.2 j' hj' (cubeBoundary k true l2) (by rw [List.getElem?_map, hl2]; rfl) (mirroredSide k a σ l2)
    (mem_cubeBoundary.2 ⟨a, ha, σ, rfl⟩) ?_
  rw [sortRow_eq_iff]
  exact ((mirroredSide_symmetric hk a σ l2).perm (sliceAxis_length _ _ _ _)).trans hp

theorem cell_flip_last {W : List Nat → Nat} (hW : PermInv W) {k i : Nat} {l : List Nat} (hl : l.length = 2 ^ k) (hn : l.Nodup)
    (hi : i < k) {q : List Bool} (hq : q.length = k) :
    flipAxis k i (cell W l (cellBox (q.map Bool.toNat))) = cell W (flipAxis k i l) (cellBox ((q.modify i not).map Bool.toNat)) := by
  have h2 : (q.modify i not).modify i not = q := by
    apply List.ext_getElem?
    intro j
    rw [List.getElem?_modify, List.getElem?_modify]
    split <;> simp [Option.map_map, Function.comp_def]
  have hq' : (q.modify i not).length = k := by rw [List.length_modify, hq]
  rw [cell_flip_free hW hl hn (inCube_cellBox _) (by rw [cellBox_length, List.length_map, hq'])
    (cellBox_get (by omega)), reflect_cellBox, cellBox_free, free_cellBox_take _ (by simp; omega), List.length_map, hq', h2]

theorem cell_slice_outer {W : List Nat → Nat} (hW : PermInv W) {k a : Nat} {l : List Nat} (hl : l.length = 2 ^ (k + 1)) (hn : l.Nodup)
    (ha : a ≤ k) {q : List Bool} (hq : q.length = k) (σ : Bool) :
    sliceAxis k a σ (cell W l (cellBox ((q.insertIdx a σ).map Bool.toNat))) =
      cell W (sliceAxis k a σ l) (cellBox (q.map Bool.toNat)) := by
  rw [← side_eq ha, cell_side σ _ ha, cut_cellBox_insert σ σ a q (by omega),
    cell_slice hW hl hn (by rw [cellBox_length, List.length_map, hq]) ha, two_mul]
  rw [cellBox_free, List.length_map, List.length_insertIdx, if_pos (by omega), hq]

/-- the mirrored side of a part is a part of the mirrored side -/
theorem cell_mirrored {W : List Nat → Nat} (hW : PermInv W) {k a : Nat} (hk : 1 ≤ k) {l : List Nat} (hl : l.length = 2 ^ (k + 1))
    (hn : l.Nodup) (ha : a ≤ k) (σ : Bool) : ∃ g : List Bool → List Bool, (∀ q, (g q).length = q.length ∧ g (g q) = q) ∧
      ∀ {q : List Bool}, q.length = k → mirroredSide k a σ (cell W l (cellBox ((q.insertIdx a σ).map Bool.toNat))) =
        cell W (mirroredSide k a σ l) (cellBox ((g q).map Bool.toNat)) := by
  have hmm : ∀ q : List Bool, (q.modify (k - 1) not).modify (k - 1) not = q := by
    intro q
    apply List.ext_getElem?
    intro j
    rw [List.getElem?_modify, List.getElem?_modify]
    split <;> simp [Option.map_map, Function.comp_def]
  have hs1 : (sliceAxis k a σ l).length = 2 ^ k := sliceAxis_length _ _ _ _
  have hs2 := sliceAxis_nodup ha σ hl hn
  have hf1 : (flipAxis k (k - 1) (sliceAxis k a σ l)).length = 2 ^ k := flipAxis_length _ _ _
  have hf2 := (flip_nodup_iff (i := k - 1) (by omega) hs1).2 hs2
  by_cases h1 : a % 2 = 0 <;> cases σ <;> unfold mirroredSide <;> simp only [h1, ne_eq, not_true_eq_false, not_false_eq_true,
    if_true, if_false, Bool.false_eq_true]
  · exact ⟨id, fun q => ⟨rfl, rfl⟩, fun hq => cell_slice_outer hW hl hn ha hq false⟩
  · refine ⟨fun q => q.modify (k - 1) not, fun q => ⟨List.length_modify _ _ _, hmm q⟩, fun hq => ?_⟩
    rw [cell_slice_outer hW hl hn ha hq true, cell_flip_last hW hs1 hs2 (by omega) hq]
  · refine ⟨fun q => q.modify (k - 1) not, fun q => ⟨List.length_modify _ _ _, hmm q⟩, fun hq => ?_⟩
    rw [cell_slice_outer hW hl hn ha hq false, cell_flip_last hW hs1 hs2 (by omega) hq]
  · refine ⟨id, fun q => ⟨rfl, rfl⟩, fun {q} hq => ?_⟩
    rw [cell_slice_outer hW hl hn ha hq true, cell_flip_last hW hs1 hs2 (by omega) hq,
      cell_flip_last hW hf1 hf2 (by omega) (by rw [List.length_modify, hq]), hmm]
    rfl

section

variable {k : Nat} {top : List (List Nat)} {t s : Topo}

/-- the stored faces of dimension `n - 1` in a coarse face have its orientation -/
theorem cellSign_last (hu : UniqSpec uniq) (hk : 1 ≤ k) (htop : Cubes (k + 1) top)
    (ht : fromCubes uniq true (k + 1) top = .ok t) (hs : fromCubes uniq true (k + 1) (allFine t (k + 1) top) = .ok s)
    {x i : Nat} {e' : List Nat} {B : Box} (hx : Stored s k x e') (hc : IsCell t e' k k i B) : cellSign t s k x i = 1 := by
  have w := fromCubes_wf hu htop ht
  have hn : 1 ≤ k + 1 := by omega
  have ws := fromCubes_wf hu (allFine_cubes w hn) hs
  obtain ⟨he1, he2⟩ := ws.cube hn (by omega) hx
  obtain ⟨e, he, hB1, hB2, hB3, hB4, τ, hτ⟩ := hc
  obtain ⟨hE1, hE2⟩ := w.cube hn (by omega) he
  obtain ⟨p, hp, rfl⟩ := cellBox_of_free hB2 (by omega)
  have hpk : p.length = k := by omega
  -- the first coarse cube
  obtain ⟨j, l, hj, ⟨a, ha, σ, rfl⟩, hfirst⟩ := fromCubes_first hu hk htop ht he
  obtain ⟨hl1, hl2⟩ := htop l (List.mem_of_getElem? hj)
  have hjl := (stored_top w).2 hj
  have hWj := vnum_permInv t (k + 1) j
  obtain ⟨g, hg, hgm⟩ := cell_mirrored hWj hk hl1 hl2 ha σ
  have hchange : ∀ q : List Bool, q.length = k → cell (vnum t (k + 1) j) (mirroredSide k a σ l) (cellBox (q.map Bool.toNat)) =
      cell (vnum t k i) (mirroredSide k a σ l) (cellBox (q.map Bool.toNat)) := fun q hq =>
    cell_change w hn (le_refl _) (Nat.lt_succ_self k) he (inCube_cellBox q) (by rw [cellBox_length, List.length_map, hq])
  -- the first fine cube
  obtain ⟨y, c, hy, ⟨a', ha', σ', he'⟩, hfirst'⟩ := fromCubes_first hu hk (allFine_cubes w hn) hs hx
  obtain ⟨j', l', p', hj', hp', rfl, rfl⟩ := allFine_get' hy
  obtain ⟨hl1', hl2'⟩ := htop l' (List.mem_of_getElem? hj')
  have hjl' := (stored_top w).2 hj'
  have hWj' := vnum_permInv t (k + 1) j'
  have hpa : a' < p'.length := by omega
  obtain ⟨q, α, hq, rfl⟩ : ∃ (q : List Bool) (α : Bool), q.length = k ∧ p' = q.insertIdx a' α :=
    ⟨p'.eraseIdx a', p'[a'], by rw [List.length_eraseIdx, if_pos hpa]; omega, (List.insertIdx_eraseIdx_getElem hpa).symm⟩
  have hIs : IsCell t e' k k i (cellBox (p.map Bool.toNat)) := ⟨_, he, hB1, hB2, hB3, hB4, τ, hτ⟩
  have hboxlen : ((cellBox (q.map Bool.toNat)).insertIdx a' (α.toNat + σ'.toNat, false)).length = k + 1 := by
    rw [List.length_insertIdx, if_pos (by rw [cellBox_length, List.length_map]; omega), cellBox_length, List.length_map, hq]
  have hsl : sliceAxis k a' σ' (cell (vnum t (k + 1) j') l' (cellBox ((q.insertIdx a' α).map Bool.toNat))) =
      cell (vnum t (k + 1) j') l' ((cellBox (q.map Bool.toNat)).insertIdx a' (α.toNat + σ'.toNat, false)) := by
    rw [← side_eq ha', cell_side σ' _ ha', cut_cellBox_insert α σ' a' q (by omega)]
    rw [cellBox_free, List.length_map, hp']
  have hms := mirroredSide_symmetric hk a' σ' (cell (vnum t (k + 1) j') l' (cellBox ((q.insertIdx a' α).map Bool.toNat)))
  rw [← he'] at hms
  have hms' := hms.symm (sliceAxis_length _ _ _ _) ((hms.perm (sliceAxis_length _ _ _ _)).nodup_iff.1 he2)
  have hfreeq : free (cellBox (q.map Bool.toNat)) = k := by rw [cellBox_free, List.length_map, hq]
  -- the side is in the boundary of the coarse cube
  obtain rfl : α = σ' := by
    by_contra hne
    have h1 : α.toNat + σ'.toNat = 1 := by cases α <;> cases σ' <;> simp_all
    rw [hsl, h1] at hms'
    rw [h1] at hboxlen
    have hmem : ∀ r ∈ (cellBox (q.map Bool.toNat)).insertIdx a' (1, false), r = (1, false) ∨ r ∈ cellBox (q.map Bool.toNat) :=
      fun r hr => (List.mem_insertIdx (by rw [cellBox_length, List.length_map]; omega)).1 hr
    have h2 : IsCell t e' k (k + 1) j' ((cellBox (q.map Bool.toNat)).insertIdx a' (1, false)) := by
      refine ⟨l', hjl', hboxlen, ?_, ?_, by rw [free_insertIdx, hfreeq], _, hms'⟩
      · intro r hr
        rcases hmem r hr with rfl | hr
        · simp
        · exact inCube_cellBox q r hr
      · intro r hr
        rcases hmem r hr with rfl | hr
        · simp
        · exact openBox_cellBox _ r hr
    have := (IsCell.unique w hn (by omega) (by omega) he1 he1 (List.Perm.refl _) hIs h2).1
    omega
  -- the coarse side is the coarse element
  have hside : (sliceAxis k a' α l').Perm (mirroredSide k a σ l) := by
    obtain ⟨i2, e2, h1, ρ, h2⟩ := w.side (le_refl _) hjl' ha' α
    obtain ⟨hc1, hc2⟩ := w.cube hn (by omega) h1
    obtain ⟨B', b1, b2, b3, b4, τ', hτ'⟩ := cell_symmetric hWj' hc1 hc2 h2 (B := cellBox (q.map Bool.toNat))
      (by rw [cellBox_length, List.length_map, hq]) (inCube_cellBox q)
    rw [cell_slice_outer hWj' hl1' hl2' ha' hq α] at hms'
    rw [hfreeq] at hτ' b3
    rw [cell_change w hn (le_refl _) (Nat.lt_succ_self k) h1 b2 b1] at hτ'
    have hnd := cell_nodup w hn (by omega) h1 b2 b1
    have hll : (cell (vnum t k i2) e2 B').length = 2 ^ k := by rw [cell_length, b3]
    have h4 : IsCell t e' k k i2 B' := ⟨e2, h1, b1, b2, b4 (openBox_cellBox _), b3, _,
      hms'.trans he1 he2 (hτ'.symm hll hnd)⟩
    obtain ⟨-, rfl, -⟩ := IsCell.unique w hn (by omega) (by omega) he1 he1 (List.Perm.refl _) hIs h4
    obtain rfl := h1.unique he
    exact h2.perm hc1
  have hle1 : j ≤ j' := by
    by_contra hlt
    exact hfirst j' (by omega) l' hj' a' ha' α hside
  have hle2 : j' ≤ j := by
    have hgp : (g p).length = k := by rw [(hg p).1, hpk]
    have hins : ((g p).insertIdx a σ).length = k + 1 := by rw [List.length_insertIdx, if_pos (by omega), hgp]
    have hget := allFine_get (t := t) (n := k + 1) (top := top) hj (p := (g p).insertIdx a σ) hins
    have hm := hgm hgp
    rw [(hg p).2, hchange p hpk] at hm
    have hpe : (sliceAxis k a σ (cell (vnum t (k + 1) j) l (cellBox (((g p).insertIdx a σ).map Bool.toNat)))).Perm e' := by
      have h5 := (mirroredSide_symmetric hk a σ (cell (vnum t (k + 1) j) l
        (cellBox (((g p).insertIdx a σ).map Bool.toNat)))).perm (sliceAxis_length _ _ _ _)
      rw [hm] at h5
      exact h5.symm.trans (hτ.perm he1)
    by_contra hlt
    refine hfirst' (2 ^ (k + 1) * j + ravel ((g p).insertIdx a σ)) ?_ _ hget a ha σ hpe
    have h6 := ravel_lt ((g p).insertIdx a σ)
    rw [hins] at h6
    have h7 : 2 ^ (k + 1) * (j + 1) ≤ 2 ^ (k + 1) * j' := Nat.mul_le_mul_left _ (by omega)
    rw [Nat.mul_add, Nat.mul_one] at h7
    omega
  obtain rfl : j' = j := by omega
  obtain rfl : l' = l := Option.some.inj (hj'.symm.trans hj)
  have hpp := hside.trans ((mirroredSide_symmetric hk a σ l').perm (sliceAxis_length _ _ _ _))
  rw [← side_eq ha', ← side_eq ha] at hpp
  obtain ⟨rfl, rfl⟩ := Props.side_perm_inj hl1 hl2 ha' ha hpp
  rw [hgm hq, hchange _ (by rw [(hg q).1, hq])] at he'
  refine cellSign_eq hu w hn hs (by omega) hx he (p := g q) (by rw [(hg q).1, hq]) ?_
  rw [← he']
  exact SymmetricCube.refl he1

end

/-- the stored fine cubes have the orientation of the coarse ones -/
theorem cellSign_top (hu : UniqSpec uniq) {n : Nat} {top : List (List Nat)} {t s : Topo} (w : CWF n top t) (hn : 1 ≤ n)
    (hs : fromCubes uniq true n (allFine t n top) = .ok s) {x i : Nat} {e' : List Nat} {B : Box} (hx : Stored s n x e')
    (hc : IsCell t e' n n i B) : cellSign t s n x i = 1 := by
  have ws := fromCubes_wf hu (allFine_cubes w hn) hs
  obtain ⟨he1, he2⟩ := ws.cube hn (le_refl _) hx
  obtain ⟨j, l, p, h1, h2, -, rfl⟩ := allFine_get' ((stored_top ws).1 hx)
  have hst := (stored_top w).2 h1
  have h3 : IsCell t (cell (vnum t n j) l (cellBox (p.map Bool.toNat))) n n j (cellBox (p.map Bool.toNat)) :=
    ⟨l, hst, by rw [cellBox_length, List.length_map, h2], inCube_cellBox _, openBox_cellBox _,
      by rw [cellBox_free, List.length_map, h2], 1, SymmetricCube.refl he1⟩
  obtain ⟨-, rfl, -⟩ := IsCell.unique w hn (le_refl _) (le_refl _) he1 he1 (List.Perm.refl _) hc h3
  exact cellSign_eq hu w hn hs (le_refl _) hx hst h2 (SymmetricCube.refl he1)

/-- vertices have no orientation -/
theorem cellSign_vertex (hu : UniqSpec uniq) {n : Nat} {top : List (List Nat)} {t s : Topo} (w : CWF n top t) (hn : 1 ≤ n)
    (hs : fromCubes uniq true n (allFine t n top) = .ok s) {x i : Nat} {e' : List Nat} {B : Box} (hx : Stored s 0 x e')
    (hc : IsCell t e' 0 0 i B) : cellSign t s 0 x i = 1 := by
  have ws := fromCubes_wf hu (allFine_cubes w hn) hs
  obtain ⟨he1, he2⟩ := ws.cube hn (Nat.zero_le _) hx
  obtain ⟨e, he, hB1, hB2, hB3, hB4, τ, hτ⟩ := hc
  obtain ⟨p, hp, rfl⟩ := cellBox_of_free hB2 (by omega)
  have h0 : p.length = 0 := by omega
  rw [cellSign_eq hu w hn hs (Nat.zero_le _) hx he h0 hτ]
  have h1 := hτ.perm he1
  obtain ⟨v, rfl⟩ := List.length_eq_one_iff.1 he1
  have h2 := List.perm_singleton.1 h1
  rw [h2] at hτ
  exact SymmetricCube.unique he1 he2 hτ (SymmetricCube.refl he1)

end Verif
