/-
The construction of a simplicial topology satisfies the incidence specification.
-/
import Verif.Lemmas.Simplicial

namespace Verif

open Verif.Model Verif.Spec

/-- representative of a key among the corner rows -/
theorem rep_spec {corners : List (List Nat)} {key : List Nat}
    (h : key ∈ corners.map sortRow) :
    (corners[(corners.map sortRow).idxOf key]?).getD [] ∈ corners ∧
      sortRow ((corners[(corners.map sortRow).idxOf key]?).getD []) = key := by
  have hlt : (corners.map sortRow).idxOf key < (corners.map sortRow).length :=
    List.idxOf_lt_length_of_mem h
  have hlt' : (corners.map sortRow).idxOf key < corners.length := by simpa using hlt
  rw [List.getElem?_eq_getElem hlt', Option.getD_some]
  refine ⟨List.getElem_mem _, ?_⟩
  have := List.getElem_idxOf hlt
  rw [List.getElem_map] at this
  exact this

theorem eraseIdx_nodup {l : List Nat} (h : l.Nodup) (c : Nat) : (l.eraseIdx c).Nodup :=
  h.sublist (List.eraseIdx_sublist _ _)

/-- every element of `E` carries the orientation induced by one of the elements of `F` it is a
face of -/
def InheritedFrom (E F : List (List Nat)) : Prop :=
  ∀ e ∈ E, ∃ l ∈ F, ∃ c < l.length, e.Perm (l.eraseIdx c) ∧
    (-1 : ℤ) ^ c * relSign e (l.eraseIdx c) = 1

theorem constructLower_general {uniq : List (List Nat) → List (List Nat)} (hu : UniqSpec uniq)
    {k : Nat} (hk : 1 ≤ k) {F : List (List Nat)} (hF : Simplices (k + 2) F) :
    ∃ E B O, constructLower uniq (k + 2) F = .ok (E, B, O) ∧ Simplices (k + 1) E ∧
      DistinctElements E ∧ FacesOf E F ∧ InducedBoundary k E F B O ∧ InheritedFrom E F := by
  set full := F.map fun l => (List.range (k + 2)).map fun c => simplexFace l c with hfull
  set corners := full.flatten with hcorners
  have hgen : generateSimplexBoundary (k + 2) F = .ok full := by
    unfold generateSimplexBoundary
    rw [if_neg (by omega), if_neg (by omega)]
  have hmem : ∀ b, b ∈ corners ↔ ∃ l ∈ F, ∃ c < k + 2, simplexFace l c = b := by
    intro b
    simp [hcorners, hfull]
  have hface : ∀ l ∈ F, ∀ c < k + 2, (simplexFace l c).Perm (l.eraseIdx c) := by
    intro l hl c hc
    exact simplexFace_perm (by rw [(hF l hl).1]; exact hc)
  have hcn : ∀ b ∈ corners, b.Nodup ∧ b.length = k + 1 := by
    intro b hb
    obtain ⟨l, hl, c, hc, rfl⟩ := (hmem b).1 hb
    have hp := hface l hl c hc
    refine ⟨hp.nodup_iff.2 (eraseIdx_nodup (hF l hl).2 c), ?_⟩
    rw [hp.length_eq, List.length_eraseIdx_of_lt (by rw [(hF l hl).1]; exact hc), (hF l hl).1]
    rfl
  set sorted := corners.map sortRow with hsorted
  set keys := uniq sorted with hkeys
  have hkn : keys.Nodup := (hu sorted).1
  have hkm : ∀ r, r ∈ keys ↔ r ∈ sorted := (hu sorted).2
  set rep : List Nat → List Nat := fun key => (corners[sorted.idxOf key]?).getD [] with hrep
  have hrs : ∀ key ∈ sorted, rep key ∈ corners ∧ sortRow (rep key) = key := by
    intro key hkey
    exact rep_spec hkey
  have hbs : ∀ b ∈ corners, sortRow b ∈ sorted := fun b hb => List.mem_map_of_mem hb
  have hrp : ∀ b ∈ corners, b.Perm (rep (sortRow b)) := by
    intro b hb
    rw [← sortRow_eq_iff]
    exact (hrs _ (hbs b hb)).2.symm
  -- parities
  have hpar : ∀ b, ∃ p, b ∈ corners →
      relativeSimplexParity (relativePermutation (argsort b) (argsort (rep (sortRow b)))) = .ok p ∧
        parityToOrientation p = - relSign (rep (sortRow b)) b := by
    intro b
    by_cases hb : b ∈ corners
    · obtain ⟨p, h1, h2⟩ := relativeSimplexParity_ok (hrp b hb) (hcn b hb).1 (by
        intro h0; have := (hcn b hb).2; rw [h0] at this; simp at this)
      exact ⟨p, fun _ => ⟨h1, h2⟩⟩
    · exact ⟨0, fun h => absurd h hb⟩
  choose par hpar using hpar
  have hmapM : (full.mapM fun bs => bs.mapM fun b =>
      relativeSimplexParity (relativePermutation (argsort b) (argsort (rep (sortRow b)))))
      = .ok (full.map fun bs => bs.map par) := by
    apply mapM_ok
    intro bs hbs'
    apply mapM_ok
    intro b hb
    exact (hpar b (List.mem_flatten.2 ⟨bs, hbs', hb⟩)).1
  refine ⟨keys.map rep, full.map fun bs => bs.map fun b => keys.idxOf (sortRow b),
    (full.map fun bs => bs.map par).map fun ps => ps.map parityToOrientation, ?_, ?_, ?_, ?_, ?_,
    ?_⟩
  · unfold constructLower
    rw [if_neg (by omega), hgen]
    simp only [bind, Except.bind]
    have := hmapM
    simp only [hrep, hsorted, hcorners] at this
    rw [this]
  · intro e he
    obtain ⟨key, hkey, rfl⟩ := List.mem_map.1 he
    have := hcn _ (hrs key ((hkm key).1 hkey)).1
    exact ⟨this.2, this.1⟩
  · unfold DistinctElements
    rw [List.pairwise_map]
    refine List.Pairwise.imp_of_mem ?_ hkn
    intro a b ha hb hab hperm
    apply hab
    rw [← (hrs a ((hkm a).1 ha)).2, ← (hrs b ((hkm b).1 hb)).2]
    exact (sortRow_eq_iff _ _).2 hperm
  · constructor
    · intro l hl c hc
      rw [(hF l hl).1] at hc
      have hb : simplexFace l c ∈ corners := (hmem _).2 ⟨l, hl, c, hc, rfl⟩
      refine ⟨rep (sortRow (simplexFace l c)),
        List.mem_map_of_mem ((hkm _).2 (hbs _ hb)), ?_⟩
      exact (hrp _ hb).symm.trans (hface l hl c hc)
    · intro e he
      obtain ⟨key, hkey, rfl⟩ := List.mem_map.1 he
      obtain ⟨l, hl, c, hc, hlc⟩ := (hmem _).1 (hrs key ((hkm key).1 hkey)).1
      refine ⟨l, hl, c, by rw [(hF l hl).1]; exact hc, ?_⟩
      rw [← hlc]
      exact hface l hl c hc
  · refine ⟨by simp [hfull], by simp [hfull], ?_⟩
    intro j l hj
    have hl : l ∈ F := List.mem_of_getElem? hj
    have hfj : full[j]? = some ((List.range (k + 2)).map fun c => simplexFace l c) := by
      rw [hfull, List.getElem?_map, hj]; rfl
    refine ⟨_, _, by rw [List.getElem?_map, hfj]; rfl,
      by rw [List.getElem?_map, List.getElem?_map, hfj]; rfl, by simp, by simp, ?_⟩
    intro c hc
    have hb : simplexFace l c ∈ corners := (hmem _).2 ⟨l, hl, c, hc, rfl⟩
    have hkey : sortRow (simplexFace l c) ∈ keys := (hkm _).2 (hbs _ hb)
    have hopp : oppositeCorner k c = c := by
      unfold oppositeCorner; rw [if_neg (by omega)]
    rw [hopp]
    refine ⟨keys.idxOf (sortRow (simplexFace l c)), parityToOrientation (par (simplexFace l c)),
      rep (sortRow (simplexFace l c)), ?_, ?_, ?_, ?_, ?_⟩
    · simp [List.getElem?_range hc]
    · simp [List.getElem?_range hc]
    · rw [List.getElem?_map, List.getElem?_eq_getElem (List.idxOf_lt_length_of_mem hkey),
        List.getElem_idxOf]
      rfl
    · exact (hrp _ hb).symm.trans (hface l hl c hc)
    · rw [(hpar _ hb).2]
      have := (alt_relSign (rep (sortRow (simplexFace l c)))).simplexFace
        (l := l) (c := c) (by rw [(hF l hl).1]; exact hc) (by rw [(hF l hl).1]; omega)
      rw [this]
      unfold levelSign
      rw [if_neg (by omega)]
      simp
  · intro e he
    obtain ⟨key, hkey, rfl⟩ := List.mem_map.1 he
    have hr := (hrs key ((hkm key).1 hkey)).1
    obtain ⟨l, hl, c, hc, hlc⟩ := (hmem _).1 hr
    have hc' : c < l.length := by rw [(hF l hl).1]; exact hc
    refine ⟨l, hl, c, hc', hlc ▸ hface l hl c hc, ?_⟩
    have := (alt_relSign (rep key)).simplexFace (l := l) (c := c) hc'
      (by rw [(hF l hl).1]; omega)
    rw [hlc, relSign_self (hcn _ hr).1] at this
    simpa using this.symm

theorem npUnique_mem (l : List Nat) (x : Nat) : x ∈ npUnique l ↔ x ∈ l := by
  unfold npUnique
  rw [(sortRow_perm _).mem_iff, List.mem_dedup]

theorem npUnique_nodup (l : List Nat) : (npUnique l).Nodup := by
  unfold npUnique
  rw [(sortRow_perm _).nodup_iff]
  exact List.nodup_dedup l

theorem length_two {l : List Nat} (h : l.length = 2) : ∃ a b, l = [a, b] := by
  rcases l with _ | ⟨a, _ | ⟨b, _ | ⟨c, t⟩⟩⟩
  · simp at h
  · simp at h
  · exact ⟨a, b, rfl⟩
  · simp at h

theorem constructLower_edges {uniq : List (List Nat) → List (List Nat)}
    {F : List (List Nat)} (hF : Simplices 2 F) :
    ∃ E B O, constructLower uniq 2 F = .ok (E, B, O) ∧ Simplices 1 E ∧
      DistinctElements E ∧ FacesOf E F ∧
      (E.flatten = List.range E.length → InducedBoundary 0 E F B O) := by
  refine ⟨(npUnique F.flatten).map (fun v => [v]), F,
    F.map fun _ => [parityToOrientation 0, parityToOrientation 1], ?_, ?_, ?_, ?_, ?_⟩
  · simp [constructLower]
  · intro e he
    obtain ⟨v, -, rfl⟩ := List.mem_map.1 he
    simp
  · unfold DistinctElements
    rw [List.pairwise_map]
    refine List.Pairwise.imp ?_ (npUnique_nodup F.flatten)
    intro a b hab hp
    exact hab (by simpa using hp)
  · constructor
    · intro l hl c hc
      obtain ⟨a, b, rfl⟩ := length_two (hF l hl).1
      have hc2 : c = 0 ∨ c = 1 := by simp at hc; omega
      rcases hc2 with rfl | rfl
      · exact ⟨[b], List.mem_map.2 ⟨b, (npUnique_mem _ _).2 (List.mem_flatten.2 ⟨_, hl, by simp⟩),
          rfl⟩, by simp⟩
      · exact ⟨[a], List.mem_map.2 ⟨a, (npUnique_mem _ _).2 (List.mem_flatten.2 ⟨_, hl, by simp⟩),
          rfl⟩, by simp⟩
    · intro e he
      obtain ⟨v, hv, rfl⟩ := List.mem_map.1 he
      obtain ⟨l, hl, hvl⟩ := List.mem_flatten.1 ((npUnique_mem _ _).1 hv)
      refine ⟨l, hl, ?_⟩
      obtain ⟨a, b, rfl⟩ := length_two (hF l hl).1
      simp only [List.mem_cons, List.not_mem_nil, or_false] at hvl
      rcases hvl with rfl | rfl
      · exact ⟨1, by simp, by simp⟩
      · exact ⟨0, by simp, by simp⟩
  · intro hcont
    have hfl : ((npUnique F.flatten).map (fun v => [v])).flatten = npUnique F.flatten := by
      generalize npUnique F.flatten = l
      induction l with
      | nil => rfl
      | cons a t ih => simp [ih]
    rw [hfl, List.length_map] at hcont
    refine ⟨rfl, by simp, ?_⟩
    intro j l hj
    have hl : l ∈ F := List.mem_of_getElem? hj
    obtain ⟨a, b, rfl⟩ := length_two (hF l hl).1
    refine ⟨[a, b], _, hj, by rw [List.getElem?_map, hj]; rfl, rfl, rfl, ?_⟩
    have hv : ∀ v ∈ [a, b],
        ((npUnique F.flatten).map (fun v => [v]))[v]? = some [v] := by
      intro v hv
      have h1 : v ∈ npUnique F.flatten :=
        (npUnique_mem _ _).2 (List.mem_flatten.2 ⟨_, hl, hv⟩)
      rw [hcont, List.mem_range] at h1
      rw [List.getElem?_map, hcont, List.getElem?_range h1]; rfl
    intro c hc
    have hc2 : c = 0 ∨ c = 1 := by omega
    rcases hc2 with rfl | rfl
    · refine ⟨a, _, [a], rfl, rfl, hv a (by simp), by simp [oppositeCorner], ?_⟩
      have : relSign [a] [a] = 1 := relSign_self (by simp)
      simp [oppositeCorner, levelSign, this, parityToOrientation]
    · refine ⟨b, _, [b], rfl, rfl, hv b (by simp), by simp [oppositeCorner], ?_⟩
      have : relSign [b] [b] = 1 := relSign_self (by simp)
      simp [oppositeCorner, levelSign, this, parityToOrientation]

/-- What holds for the topology built by the loop: `n + 1` levels, the given top level, and
between neighbouring levels the incidence specification (for the edges: once the vertices are known
to be numbered `0..`). -/
structure Built (n : Nat) (top : List (List Nat)) (t : Topo) : Prop where
  lenE : t.elements.length = n + 1
  lenB : t.boundary.length = n
  lenO : t.orientation.length = n
  top_eq : t.elements[n]? = some top
  level : ∀ k < n, ∃ E F B O, t.elements[k]? = some E ∧ t.elements[k + 1]? = some F ∧
    t.boundary[k]? = some B ∧ t.orientation[k]? = some O ∧
    Simplices (k + 1) E ∧ Simplices (k + 2) F ∧ DistinctElements E ∧ FacesOf E F ∧
    ((k = 0 → E.flatten = List.range E.length) → InducedBoundary k E F B O)
  inherited : ∀ k, 1 ≤ k → k < n →
    InheritedFrom (t.elements[k]?.getD []) (t.elements[k + 1]?.getD [])

theorem lowerLevels_built {uniq : List (List Nat) → List (List Nat)} (hu : UniqSpec uniq)
    (n : Nat) : ∀ {F : List (List Nat)}, Simplices (n + 1) F →
    ∃ t, lowerLevels uniq n F = .ok t ∧ Built n F t := by
  induction n with
  | zero =>
    intro F hF
    exact ⟨_, rfl, ⟨rfl, rfl, rfl, rfl, fun k hk => absurd hk (by omega),
      fun k _ hk => absurd hk (by omega)⟩⟩
  | succ n ih =>
    intro F hF
    have hstep : ∃ E B O, constructLower uniq (n + 2) F = .ok (E, B, O) ∧ Simplices (n + 1) E ∧
        DistinctElements E ∧ FacesOf E F ∧
        ((n = 0 → E.flatten = List.range E.length) → InducedBoundary n E F B O) ∧
        (1 ≤ n → InheritedFrom E F) := by
      rcases Nat.eq_zero_or_pos n with rfl | hpos
      · obtain ⟨E, B, O, h1, h2, h3, h4, h5⟩ := constructLower_edges (uniq := uniq) hF
        exact ⟨E, B, O, h1, h2, h3, h4, fun h => h5 (h rfl), fun h => absurd h (by omega)⟩
      · obtain ⟨E, B, O, h1, h2, h3, h4, h5, h6⟩ := constructLower_general hu hpos hF
        exact ⟨E, B, O, h1, h2, h3, h4, fun _ => h5, fun _ => h6⟩
    obtain ⟨E, B, O, h1, h2, h3, h4, h5, h6⟩ := hstep
    obtain ⟨t, ht, hb⟩ := ih h2
    refine ⟨⟨t.elements ++ [F], t.boundary ++ [B], t.orientation ++ [O]⟩, ?_, ?_⟩
    · simp only [lowerLevels, h1, ht, bind, Except.bind]
    · refine ⟨by simp [hb.lenE], by simp [hb.lenB], by simp [hb.lenO], ?_, ?_, ?_⟩
      · rw [List.getElem?_append_right (by rw [hb.lenE]), hb.lenE]; simp
      · intro k hk
        rcases Nat.lt_or_ge k n with hlt | hge
        · obtain ⟨E', F', B', O', g1, g2, g3, g4, g5⟩ := hb.level k hlt
          refine ⟨E', F', B', O', ?_, ?_, ?_, ?_, g5⟩
          · rw [List.getElem?_append_left (by rw [hb.lenE]; omega)]; exact g1
          · rw [List.getElem?_append_left (by rw [hb.lenE]; omega)]; exact g2
          · rw [List.getElem?_append_left (by rw [hb.lenB]; omega)]; exact g3
          · rw [List.getElem?_append_left (by rw [hb.lenO]; omega)]; exact g4
        · have hkn : k = n := by omega
          subst hkn
          refine ⟨E, F, B, O, ?_, ?_, ?_, ?_, h2, hF, h3, h4, h5⟩
          · rw [List.getElem?_append_left (by rw [hb.lenE]; omega)]; exact hb.top_eq
          · rw [List.getElem?_append_right (by rw [hb.lenE]), hb.lenE]; simp
          · rw [List.getElem?_append_right (by rw [hb.lenB]), hb.lenB]; simp
          · rw [List.getElem?_append_right (by rw [hb.lenO]), hb.lenO]; simp
      · intro k hk1 hk
        rcases Nat.lt_or_ge k n with hlt | hge
        · rw [List.getElem?_append_left (by rw [hb.lenE]; omega),
            List.getElem?_append_left (by rw [hb.lenE]; omega)]
          exact hb.inherited k hk1 hlt
        · have hkn : k = n := by omega
          subst hkn
          rw [List.getElem?_append_left (by rw [hb.lenE]; omega), hb.top_eq,
            List.getElem?_append_right (by rw [hb.lenE]), hb.lenE]
          simpa using h6 hk1

/-- A simplicial topology that satisfies the incidence specification on all levels. -/
structure WF (n : Nat) (top : List (List Nat)) (t : Topo) : Prop where
  lenE : t.elements.length = n + 1
  lenB : t.boundary.length = n
  lenO : t.orientation.length = n
  top_eq : t.elements[n]? = some top
  vertices : ∃ E, t.elements[0]? = some E ∧ E.flatten = List.range E.length
  level : ∀ k < n, ∃ E F B O, t.elements[k]? = some E ∧ t.elements[k + 1]? = some F ∧
    t.boundary[k]? = some B ∧ t.orientation[k]? = some O ∧
    Simplices (k + 1) E ∧ Simplices (k + 2) F ∧ DistinctElements E ∧ FacesOf E F ∧
    InducedBoundary k E F B O
  inherited : ∀ k, 1 ≤ k → k < n →
    InheritedFrom (t.elements[k]?.getD []) (t.elements[k + 1]?.getD [])

theorem fromSimplices_wf {uniq : List (List Nat) → List (List Nat)} (hu : UniqSpec uniq)
    {n : Nat} {F : List (List Nat)} (hF : Simplices (n + 1) F) {t : Topo}
    (h : fromSimplices uniq (n + 1) F = .ok t) : 1 ≤ n ∧ WF n F t := by
  cases n with
  | zero => simp [fromSimplices] at h
  | succ n =>
    refine ⟨by omega, ?_⟩
    obtain ⟨t', ht', hb⟩ := lowerLevels_built hu (n + 1) hF
    simp only [fromSimplices, ht', bind, Except.bind, checkTopo] at h
    cases he : t'.elements with
    | nil => have := hb.lenE; rw [he] at this; simp at this
    | cons e0 rest =>
      rw [he] at h
      simp only at h
      split at h
      · next hc =>
        have : t' = t := by simpa using h
        subst this
        have he0 : t'.elements[0]? = some e0 := by rw [he]; rfl
        refine ⟨hb.lenE, hb.lenB, hb.lenO, hb.top_eq, ⟨e0, he0, hc⟩, ?_, hb.inherited⟩
        intro k hk
        obtain ⟨E, F, B, O, g1, g2, g3, g4, g5, g6, g7, g8, g9⟩ := hb.level k hk
        refine ⟨E, F, B, O, g1, g2, g3, g4, g5, g6, g7, g8, g9 ?_⟩
        rintro rfl
        have : E = e0 := by rw [he0] at g1; exact (Option.some.inj g1).symm
        rw [this]; exact hc
      · simp at h

end Verif
