/-
`cubical_domains` and the array of fine cubes of `subdivide_cubical`: every entry is the number of a face of the cube.
-/
import Verif.Lemmas.CubeStored
import Verif.Lemmas.CubeTable

set_option linter.unusedSectionVars false

namespace Verif

open Verif.Model Verif.Spec

/-! ### choices of axes -/

/-- the axes chosen by a mask whose first entry belongs to axis `A` -/
def axesFrom : Nat → List Bool → List Nat
  | _, [] => []
  | A, false :: c => axesFrom (A + 1) c
  | A, true :: c => A :: axesFrom (A + 1) c

/-- put the entries of `s` at the chosen axes, those of `r` at the others -/
def place : List Bool → List Bool → List Bool → List Bool
  | [], _, _ => []
  | true :: c, s, r => s.headD false :: place c s.tail r
  | false :: c, s, r => r.headD false :: place c s r.tail

/-- the grid point of the face at side `s` of the chosen axes -/
def facePoint : List Bool → List Bool → List Nat
  | [], _ => []
  | true :: c, s => 2 * (s.headD false).toNat :: facePoint c s.tail
  | false :: c, s => 1 :: facePoint c s

theorem place_length : ∀ (c s r : List Bool), (place c s r).length = c.length
  | [], _, _ => rfl
  | true :: c, s, r => by simp [place, place_length c]
  | false :: c, s, r => by simp [place, place_length c]

theorem facePoint_length : ∀ (c s : List Bool), (facePoint c s).length = c.length
  | [], _ => rfl
  | true :: c, s => by simp [facePoint, facePoint_length c]
  | false :: c, s => by simp [facePoint, facePoint_length c]

theorem facePoint_isPoint : ∀ (c s : List Bool), IsPoint (facePoint c s)
  | [], _ => by simp [facePoint, IsPoint]
  | true :: c, s => IsPoint.cons.2 ⟨by cases s.headD false <;> simp, facePoint_isPoint c s.tail⟩
  | false :: c, s => IsPoint.cons.2 ⟨by omega, facePoint_isPoint c s⟩

theorem facePoint_count : ∀ (c s : List Bool), (facePoint c s).count 1 = c.count false
  | [], _ => rfl
  | true :: c, s => by
    have : 2 * (s.headD false).toNat ≠ 1 := by cases s.headD false <;> simp
    simp [facePoint, facePoint_count c s.tail]
  | false :: c, s => by simp [facePoint, facePoint_count c s]

theorem agrees_facePoint : ∀ {c s b : List Bool}, s.length = c.count true →
    (agrees (facePoint c s) b = true ↔ ∃ r : List Bool, r.length = c.count false ∧ b = place c s r)
  | [], s, b, hs => by
    cases b <;> simp [facePoint, agrees, place]
  | true :: c, s, b, hs => by
    rcases s with _ | ⟨s0, s⟩
    · simp at hs
    have ih := fun b => agrees_facePoint (c := c) (s := s) (b := b) (by simpa using hs)
    rcases b with _ | ⟨b0, b⟩
    · simp [facePoint, agrees, place]
    · simp only [facePoint, agrees, place, List.headD_cons, List.tail_cons, Bool.and_eq_true, ih, List.cons.injEq]
      rw [show (true :: c).count false = c.count false by simp]
      constructor
      · rintro ⟨h, r, hr, rfl⟩
        refine ⟨r, hr, ?_, rfl⟩
        cases s0 <;> cases b0 <;> simp at h <;> rfl
      · rintro ⟨r, hr, rfl, rfl⟩
        exact ⟨by cases b0 <;> rfl, r, hr, rfl⟩
  | false :: c, s, b, hs => by
    have ih := fun b => agrees_facePoint (c := c) (s := s) (b := b) (by simpa using hs)
    rcases b with _ | ⟨b0, b⟩
    · simp [facePoint, agrees, place]
    · simp only [facePoint, agrees, place, Bool.and_eq_true, ih, List.cons.injEq]
      constructor
      · rintro ⟨-, r, hr, rfl⟩
        exact ⟨b0 :: r, by simp [hr], rfl, rfl⟩
      · rintro ⟨r, hr, h1, h2⟩
        rcases r with _ | ⟨r0, r⟩
        · simp at hr
        · exact ⟨rfl, r, by simpa using hr, h2⟩

theorem place_inj : ∀ {c s r r' : List Bool}, r.length = c.count false → r'.length = c.count false →
    place c s r = place c s r' → r = r'
  | [], _, r, r', h, h', _ => by
    simp at h h'
    rw [h, h']
  | true :: c, s, r, r', h, h', e => by
    simp only [place, List.cons.injEq] at e
    exact place_inj (c := c) (by simpa using h) (by simpa using h') e.2
  | false :: c, s, r, r', h, h', e => by
    rcases r with _ | ⟨a, r⟩
    · simp at h
    rcases r' with _ | ⟨a', r'⟩
    · simp at h'
    simp only [place, List.cons.injEq, List.headD_cons, List.tail_cons] at e
    rw [e.1, place_inj (c := c) (by simpa using h) (by simpa using h') e.2]

/-! ### moving the axes to the front -/

theorem insertIdx_append_length {α : Type} (a : α) : ∀ (l r : List α), (l ++ r).insertIdx l.length a = l ++ a :: r
  | [], _ => by simp
  | x :: l, r => by
    rw [List.cons_append, List.length_cons, List.insertIdx_succ_cons, insertIdx_append_length a l r, List.cons_append]

theorem modify_append_right {α : Type} (f : α → α) : ∀ (l r : List α) (i : Nat),
    (l ++ r).modify (l.length + i) f = l ++ r.modify i f
  | [], _, _ => by simp
  | x :: l, r, i => by
    rw [List.cons_append, List.length_cons, show l.length + 1 + i = l.length + i + 1 by omega, List.modify_succ_cons,
      modify_append_right f l r i, List.cons_append]

theorem count_false_add_true : ∀ (c : List Bool), c.count false + c.count true = c.length
  | [] => rfl
  | a :: c => by
    have := count_false_add_true c
    cases a <;> simp <;> omega

/-- where an entry of the array comes from after moving the axes `as` to the places `k`, `k + 1`, ... -/
def moved (k : Nat) (as : List Nat) (b : List Bool) : List Bool :=
  (as.zipIdx k).foldr (fun aj b => (b.eraseIdx aj.2).insertIdx aj.1 (b[aj.2]?.getD false)) b

theorem moved_eq : ∀ (c : List Bool) (k A : Nat) (pre s mid r : List Bool), pre.length = k → mid.length + k = A →
    s.length = c.count true → r.length = c.count false →
    moved k (axesFrom A c) (pre ++ s ++ mid ++ r) = pre ++ mid ++ place c s r
  | [], k, A, pre, s, mid, r, _, _, hs, hr => by
    simp at hs hr
    simp [axesFrom, moved, hs, hr, place]
  | false :: c, k, A, pre, s, mid, r, hp, hm, hs, hr => by
    rcases r with _ | ⟨r0, r⟩
    · simp at hr
    have ih := moved_eq c k (A + 1) pre s (mid ++ [r0]) r hp (by simp; omega) (by simpa using hs) (by simpa using hr)
    rw [axesFrom]
    simpa [place] using ih
  | true :: c, k, A, pre, s, mid, r, hp, hm, hs, hr => by
    rcases s with _ | ⟨s0, s⟩
    · simp at hs
    have ih := moved_eq c (k + 1) (A + 1) (pre ++ [s0]) s mid r (by simp [hp]) (by omega) (by simpa using hs)
      (by simpa using hr)
    have he : moved k (axesFrom A (true :: c)) (pre ++ (s0 :: s) ++ mid ++ r) =
        (fun b : List Bool => (b.eraseIdx k).insertIdx A (b[k]?.getD false))
          (moved (k + 1) (axesFrom (A + 1) c) (pre ++ [s0] ++ s ++ mid ++ r)) := by
      simp [moved, axesFrom]
    rw [he, ih]
    have h1 : (pre ++ [s0] ++ mid ++ place c s r)[k]? = some s0 := by
      simp [hp]
    have h2 : (pre ++ [s0] ++ mid ++ place c s r).eraseIdx k = (pre ++ mid) ++ place c s r := by
      rw [List.append_assoc, List.append_assoc, List.eraseIdx_append_of_length_le (by omega), hp]
      simp
    simp only [h1, h2, Option.getD_some]
    have h3 : A = (pre ++ mid).length := by simp; omega
    rw [h3, insertIdx_append_length]
    simp [place]

theorem moveAxis_length (n src dst : Nat) (l : List Nat) : (moveAxis n src dst l).length = 2 ^ n := cubeOf_length _ _

theorem axesFrom_lt : ∀ {A a : Nat} {c : List Bool}, a ∈ axesFrom A c → A ≤ a ∧ a < A + c.length
  | _, _, [], h => by simp [axesFrom] at h
  | A, a, false :: c, h => by
    have := axesFrom_lt (A := A + 1) (c := c) h
    simp; omega
  | A, a, true :: c, h => by
    rcases List.mem_cons.1 h with rfl | h
    · simp
    · have := axesFrom_lt (A := A + 1) (c := c) h
      simp; omega

theorem axesFrom_length : ∀ (A : Nat) (c : List Bool), (axesFrom A c).length = c.count true
  | _, [] => rfl
  | A, false :: c => by simp [axesFrom, axesFrom_length (A + 1) c]
  | A, true :: c => by simp [axesFrom, axesFrom_length (A + 1) c]

/-- the loop that moves the axes -/
theorem foldl_moveAxis {n : Nat} : ∀ (as : List Nat) (k : Nat) (l : List Nat), l.length = 2 ^ n →
    (∀ a ∈ as, a < n) → k + as.length ≤ n →
    (as.zipIdx k).foldl (fun v aj => moveAxis n aj.1 aj.2 v) l = cubeOf n fun b => cubeAt l (moved k as b)
  | [], k, l, hl, _, _ => by simp [moved, cubeOf_self hl]
  | a :: as, k, l, hl, ha, hk => by
    have hlen : ∀ (as : List Nat) (k : Nat) (b : List Bool), (∀ a ∈ as, a < n) → k + as.length ≤ n → b.length = n →
        (moved k as b).length = n := by
      intro as
      induction as with
      | nil => intro k b _ _ hb; simpa [moved] using hb
      | cons a as ih =>
        intro k b ha hk hb
        have := ih (k + 1) b (fun x hx => ha x (List.mem_cons_of_mem _ hx)) (by simp at hk; omega) hb
        simp only [moved, List.zipIdx_cons, List.foldr_cons] at this ⊢
        have ha := ha a List.mem_cons_self
        simp only [List.length_cons] at hk
        rw [List.length_insertIdx, List.length_eraseIdx, this]
        split <;> split <;> omega
    rw [List.zipIdx_cons, List.foldl_cons,
      foldl_moveAxis as (k + 1) _ (moveAxis_length _ _ _ _) (fun x hx => ha x (List.mem_cons_of_mem _ hx))
        (by simp at hk; omega)]
    refine cubeOf_congr fun b hb => ?_
    simp only [moveAxis]
    rw [cubeAt_cubeOf _ (hlen _ _ _ (fun x hx => ha x (List.mem_cons_of_mem _ hx)) (by simp at hk; omega) hb)]
    simp [moved]

theorem axesFrom_map (f : Nat → Bool) : ∀ (m A : Nat), axesFrom A ((List.range' A m).map f) = (List.range' A m).filter f
  | 0, _ => rfl
  | m + 1, A => by
    have := axesFrom_map f m (A + 1)
    rw [List.range'_succ, List.map_cons, List.filter_cons]
    cases f A <;> simp [axesFrom, this]

theorem filter_mem_sublist {as L : List Nat} (h : as.Sublist L) (hL : L.Pairwise (· < ·)) :
    L.filter (· ∈ as) = as := by
  refine List.Perm.eq_of_pairwise' (r := (· < ·)) (hL.sublist List.filter_sublist) (hL.sublist h) ?_
  have hn : L.Nodup := hL.imp (fun h => Nat.ne_of_lt h)
  rw [List.perm_ext_iff_of_nodup (hn.filter _) (hn.sublist h)]
  intro a
  simp only [List.mem_filter, decide_eq_true_eq, and_iff_right_iff_imp]
  exact fun ha => h.subset ha

theorem axesFrom_mask {as : List Nat} {n : Nat} (h : as.Sublist (List.range n)) :
    axesFrom 0 ((List.range n).map (· ∈ as)) = as := by
  have := axesFrom_map (fun a => decide (a ∈ as)) n 0
  rw [← List.range_eq_range'] at this
  rw [this, filter_mem_sublist h List.pairwise_lt_range]

theorem mask_axesFrom : ∀ (c : List Bool) (A : Nat), (List.range' A c.length).map (fun a => decide (a ∈ axesFrom A c)) = c
  | [], _ => rfl
  | b :: c, A => by
    have ih := mask_axesFrom c (A + 1)
    rw [List.length_cons, List.range'_succ, List.map_cons]
    cases b
    · rw [axesFrom, ih]
      congr 1
      simp only [decide_eq_false_iff_not]
      intro h
      have := axesFrom_lt h
      omega
    · rw [axesFrom]
      congr 1
      · simp
      · conv_rhs => rw [← ih]
        apply List.map_congr_left
        intro a ha
        have := List.mem_range'_1.1 ha
        simp only [List.mem_cons, decide_eq_decide]
        constructor
        · rintro (h | h)
          · omega
          · exact h
        · exact Or.inr

theorem axesFrom_sublist (c : List Bool) : (axesFrom 0 c).Sublist (List.range c.length) := by
  have h := mask_axesFrom c 0
  have h2 := axesFrom_map (fun a => decide (a ∈ axesFrom 0 c)) c.length 0
  rw [h] at h2
  rw [h2, ← List.range_eq_range']
  exact List.filter_sublist

/-! ### the views of `generate_cube_boundary` -/

theorem modify_last_append {s b : List Bool} {n : Nat} (hb : 1 ≤ b.length) (h : s.length + b.length = n) :
    (s ++ b).modify (n - 1) not = s ++ b.modify (b.length - 1) not := by
  rw [show n - 1 = s.length + (b.length - 1) by omega, modify_append_right]

/-- for fixed positions along the chosen axes the view lists the corners of the face, in some order -/
theorem cubeFaces_row {n d : Nat} (hdn : d < n) {l : List Nat} (hl : l.length = 2 ^ n) (hn : l.Nodup)
    {c : List Bool} {v : List Nat} (hm : (c, v) ∈ cubeFaces n d l) :
    c.length = n ∧ c.count true = d ∧ ∀ s : List Bool, s.length = d →
      ((cubeIndices (n - d)).map fun b => cubeAt v (s ++ b)).Perm (gridFace l (facePoint c s)) := by
  unfold cubeFaces at hm
  obtain ⟨⟨p, as⟩, hpa, he⟩ := List.mem_map.1 hm
  simp only [Prod.mk.injEq] at he
  obtain ⟨hc, hv⟩ := he
  obtain ⟨hsub, hal⟩ := (Props.C02_combinations_exact (List.range n) d (by simp; omega) as).1 ⟨p, hpa⟩
  have hax : axesFrom 0 c = as := by rw [← hc]; exact axesFrom_mask hsub
  have hcl : c.length = n := by rw [← hc]; simp
  have hct : c.count true = d := by rw [← axesFrom_length 0 c, hax, hal]
  have hcf : c.count false = n - d := by
    have := count_false_add_true c
    omega
  refine ⟨hcl, hct, fun s hs => ?_⟩
  -- the view is the cube along moved axes, up to flips of the last axis
  obtain ⟨g, hg1, hg2, hg3⟩ : ∃ g : List Bool → List Bool, (∀ b : List Bool, b.length = n - d → (g b).length = n - d) ∧
      (∀ b : List Bool, b.length = n - d → g (g b) = b) ∧
      ∀ b : List Bool, b.length = n - d → cubeAt v (s ++ b) = cubeAt l (place c s (g b)) := by
    have hbase : ∀ b : List Bool, b.length = n - d →
        cubeAt (as.zipIdx.foldl (fun v aj => moveAxis n aj.1 aj.2 v) l) (s ++ b) = cubeAt l (place c s b) := by
      intro b hb
      rw [foldl_moveAxis as 0 l hl (fun a ha => List.mem_range.1 (hsub.subset ha)) (by omega),
        cubeAt_cubeOf _ (by simp; omega), ← hax]
      have := moved_eq c 0 0 [] s [] b rfl rfl (by omega) (by omega)
      simp only [List.nil_append, List.append_nil] at this
      rw [this]
    have hlast : ∀ b : List Bool, b.length = n - d → (s ++ b).modify (n - 1) not = s ++ b.modify (n - d - 1) not := by
      intro b hb
      rw [modify_last_append (by omega) (by omega), hb]
    set view := as.zipIdx.foldl (fun v aj => moveAxis n aj.1 aj.2 v) l
    have hinv : ∀ b : List Bool, (b.modify (n - d - 1) not).modify (n - d - 1) not = b := modify_modify_not _
    -- after the first flip
    obtain ⟨g1, h1, h2, h3⟩ : ∃ g : List Bool → List Bool, (∀ b : List Bool, b.length = n - d → (g b).length = n - d) ∧
        (g = id ∨ g = fun b => b.modify (n - d - 1) not) ∧ ∀ b : List Bool, b.length = n - d →
          cubeAt (if p ≠ 0 then flipAxis n (n - 1) view else view) (s ++ b) = cubeAt l (place c s (g b)) := by
      by_cases hp : p = 0
      · exact ⟨id, fun b hb => hb, Or.inl rfl, fun b hb => by simp only [hp, ne_eq, not_true, if_false]; exact hbase b hb⟩
      · refine ⟨fun b => b.modify (n - d - 1) not, fun b hb => by simpa using hb, Or.inr rfl, fun b hb => ?_⟩
        simp only [ne_eq, hp, not_false_eq_true, if_true]
        rw [flipAxis, cubeAt_cubeOf _ (by simp; omega), hlast b hb]
        exact hbase _ (by simpa using hb)
    set view1 := if p ≠ 0 then flipAxis n (n - 1) view else view
    have hg1inv : ∀ b, g1 (g1 b) = b := by
      rcases h2 with rfl | rfl
      · exact fun b => rfl
      · exact hinv
    by_cases hone : d = 1
    · rw [if_pos hone] at hv
      by_cases hs0 : (s ++ ([] : List Bool))[0]? = some true
      · refine ⟨fun b => g1 (b.modify (n - d - 1) not), fun b hb => h1 _ (by simpa using hb), fun b hb => ?_, fun b hb => ?_⟩
        · rcases h2 with rfl | rfl
          · exact hinv b
          · simp only [hinv]
        · rw [← hv, cubeAt_cubeOf _ (by simp; omega), if_pos, hlast b hb]
          · exact h3 _ (by simpa using hb)
          · rw [List.getElem?_append_left (by omega)] at hs0 ⊢
            exact hs0
      · refine ⟨g1, h1, fun b hb => hg1inv b, fun b hb => ?_⟩
        rw [← hv, cubeAt_cubeOf _ (by simp; omega), if_neg]
        · exact h3 b hb
        · rw [List.getElem?_append_left (by omega)] at hs0 ⊢
          exact hs0
    · rw [if_neg hone] at hv
      exact ⟨g1, h1, fun b hb => hg1inv b, fun b hb => by rw [← hv]; exact h3 b hb⟩
  have hrow : ((cubeIndices (n - d)).map fun b => cubeAt v (s ++ b)) =
      (cubeIndices (n - d)).map fun b => cubeAt l (place c s (g b)) :=
    List.map_congr_left fun b hb => hg3 b (mem_cubeIndices.1 hb)
  rw [hrow, List.perm_ext_iff_of_nodup]
  · intro w
    rw [mem_gridFace]
    simp only [List.mem_map, mem_cubeIndices]
    constructor
    · rintro ⟨b, hb, rfl⟩
      exact ⟨_, (agrees_facePoint (by omega)).2 ⟨g b, by rw [hg1 b hb, hcf], rfl⟩, rfl⟩
    · rintro ⟨x, hx, rfl⟩
      obtain ⟨r, hr, rfl⟩ := (agrees_facePoint (by omega)).1 hx
      exact ⟨g r, hg1 r (by omega), by rw [hg2 r (by omega)]⟩
  · refine List.Nodup.map_on ?_ (cubeIndices_nodup _)
    intro b hb b' hb' h
    rw [mem_cubeIndices] at hb hb'
    have h := cubeAt_inj hl hn (by rw [place_length, hcl]) (by rw [place_length, hcl]) h
    have h := place_inj (by rw [hg1 b hb, hcf]) (by rw [hg1 b' hb', hcf]) h
    rw [← hg2 b hb, h, hg2 b' hb']
  · exact gridFace_nodup (by rw [facePoint_length, hcl, hl]) hn

/-- every choice of axes occurs -/
theorem cubeFaces_mem {n d : Nat} (hdn : d < n) (l : List Nat) {c : List Bool} (hc : c.length = n)
    (hct : c.count true = d) : ∃ v, (c, v) ∈ cubeFaces n d l := by
  have hsub := axesFrom_sublist c
  rw [hc] at hsub
  obtain ⟨p, hp⟩ := (Props.C02_combinations_exact (List.range n) d (by simp; omega) (axesFrom 0 c)).2
    ⟨hsub, by rw [axesFrom_length, hct]⟩
  unfold cubeFaces
  refine ⟨_, List.mem_map.2 ⟨_, hp, Prod.ext ?_ rfl⟩⟩
  have := mask_axesFrom c 0
  rwa [← List.range_eq_range', hc] at this

/-! ### the tables -/

theorem find_spec {α β : Type} [BEq α] [LawfulBEq α] {L : List (α × β)} {a : α} (h : ∃ b, (a, b) ∈ L) :
    ∃ b, L.find? (fun p => p.1 == a) = some (a, b) ∧ (a, b) ∈ L := by
  obtain ⟨b, hb⟩ := h
  cases hf : L.find? (fun p => p.1 == a) with
  | none =>
    rw [List.find?_eq_none] at hf
    exact absurd (hf _ hb) (by simp)
  | some q =>
    have h1 := List.find?_some hf
    have h2 := List.mem_of_find?_eq_some hf
    obtain ⟨a', b'⟩ := q
    simp only [beq_iff_eq] at h1
    subst h1
    exact ⟨b', rfl, h2⟩

section

variable {n : Nat} {top : List (List Nat)} {t : Topo}

/-- the entries of a table are the numbers of the faces -/
theorem domainTables_ok (w : CWF n top t) (hn : 1 ≤ n) {j : Nat} {l : List Nat} (hl : Stored t n j l) :
    ∃ tables, domainTables t.elements n l = .ok tables ∧
      (∀ ci ∈ tables, ci.1.length = n ∧ 1 ≤ ci.1.count true ∧ ci.1.count true < n ∧
        ∀ s : List Bool, s.length = ci.1.count true → ∃ x, ci.2[ravel s]? = some x ∧
          vnum t n j (gridFace l (facePoint ci.1 s)) = x + levelOffset t (ci.1.count false)) ∧
      ∀ c : List Bool, c.length = n → 1 ≤ c.count true → c.count true < n → ∃ idx, (c, idx) ∈ tables := by
  have hc := w.cube hn (le_refl n) hl
  unfold domainTables
  set L := (List.range' 1 (n - 1)).flatMap fun d => (cubeFaces n d l).map fun cv => (d, cv) with hL
  let val : Nat × List Bool × List Nat → List Bool × List Nat := fun dcv =>
    (dcv.2.1, (cubeIndices dcv.1).map fun s =>
      vnum t n j (gridFace l (facePoint dcv.2.1 s)) - levelOffset t (n - dcv.1))
  have hmem : ∀ {d : Nat} {c : List Bool} {v : List Nat}, (d, c, v) ∈ L ↔ 1 ≤ d ∧ d < n ∧ (c, v) ∈ cubeFaces n d l := by
    intro d c v
    rw [hL]
    simp only [List.mem_flatMap, List.mem_range'_1, List.mem_map, Prod.mk.injEq]
    constructor
    · rintro ⟨d', ⟨h1, h2⟩, cv, h3, rfl, rfl⟩
      exact ⟨h1, by omega, h3⟩
    · rintro ⟨h1, h2, h3⟩
      exact ⟨d, ⟨h1, by omega⟩, (c, v), h3, rfl, rfl⟩
  -- the number of a face is in its level
  have hoff : ∀ {d : Nat} {c : List Bool}, c.length = n → c.count true = d → d < n + 1 → ∀ s : List Bool, s.length = d →
      ∃ i e, Stored t (n - d) i e ∧ (gridFace l (facePoint c s)).Perm e ∧
        vnum t n j (gridFace l (facePoint c s)) = levelOffset t (n - d) + i := by
    intro d c h1 h2 h3 s h4
    obtain ⟨i, e, g1, g2, -, g4⟩ := vnum_gridFace w hn (le_refl n) hl (facePoint_isPoint c s)
      (by rw [facePoint_length, h1])
    have : c.count false = n - d := by
      have := count_false_add_true c
      omega
    rw [facePoint_count, this] at g1 g4
    exact ⟨i, e, g1, g2, g4⟩
  refine ⟨L.map val, mapM_ok _ val _ ?_, ?_, ?_⟩
  · rintro ⟨d, c, v⟩ hd
    obtain ⟨h1, h2, h3⟩ := hmem.1 hd
    obtain ⟨g1, g2, g3⟩ := cubeFaces_row h2 hc.1 hc.2 h3
    have hidx : (cubeIndices d).mapM (fun s =>
        elementIndex (t.elements[n - d]?.getD []) ((cubeIndices (n - d)).map fun b => cubeAt v (s ++ b))) =
        .ok ((cubeIndices d).map fun s => vnum t n j (gridFace l (facePoint c s)) - levelOffset t (n - d)) := by
      refine mapM_ok _ _ _ fun s hs => ?_
      rw [mem_cubeIndices] at hs
      obtain ⟨i, e, k1, k2, k3⟩ := hoff g1 g2 (by omega) s hs
      have hp := (g3 s hs).trans k2
      unfold elementIndex
      rw [if_pos, k3, idxOf_stored (w.get (by omega)).2.2.1 k1 hp, Nat.add_sub_cancel_left]
      exact List.mem_map.2 ⟨e, List.mem_of_getElem? k1, ((sortRow_eq_iff _ _).2 hp).symm⟩
    simp only [hidx]
    rfl
  · intro ci hci
    obtain ⟨⟨d, c, v⟩, hd, rfl⟩ := List.mem_map.1 hci
    obtain ⟨h1, h2, h3⟩ := hmem.1 hd
    obtain ⟨g1, g2, g3⟩ := cubeFaces_row h2 hc.1 hc.2 h3
    refine ⟨g1, by simpa [val, g2] using h1, by simpa [val, g2] using h2, fun s hs => ?_⟩
    simp only [val, g2] at hs
    obtain ⟨i, e, k1, k2, k3⟩ := hoff g1 g2 (by omega) s hs
    refine ⟨i, ?_, ?_⟩
    · simp only [val, List.getElem?_map, cubeIndices_ravel hs, Option.map_some, k3, Nat.add_sub_cancel_left]
    · have : c.count false = n - d := by
        have := count_false_add_true c
        omega
      rw [k3, this, Nat.add_comm]
  · intro c hc1 hc2 hc3
    obtain ⟨v, hv⟩ := cubeFaces_mem hc3 l hc1 rfl
    exact ⟨_, List.mem_map.2 ⟨(c.count true, c, v), hmem.2 ⟨hc2, hc3, hv⟩, rfl⟩⟩

theorem facePoint_atAxes : ∀ (p b : List Bool), b.length = p.length →
    facePoint (b.map not) (atAxes (b.map not) p) =
      List.zipWith (fun p q => if q then 1 else 2 * p.toNat) p b
  | [], b, h => by
    obtain rfl := List.length_eq_zero_iff.1 h
    rfl
  | a :: p, [], h => by simp at h
  | a :: p, true :: b, h => by
    have ih := facePoint_atAxes p b (by simpa using h)
    simp only [List.map_cons, Bool.not_true, facePoint, List.zipWith_cons_cons, if_true, ← ih]
    rfl
  | a :: p, false :: b, h => by
    have ih := facePoint_atAxes p b (by simpa using h)
    simp only [List.map_cons, Bool.not_false, facePoint, List.zipWith_cons_cons, Bool.false_eq_true, if_false, ← ih]
    rfl

theorem atAxes_length : ∀ (c p : List Bool), c.length = p.length → (atAxes c p).length = c.count true
  | [], p, _ => by simp [atAxes]
  | a :: c, [], h => by simp at h
  | true :: c, s :: p, h => by
    have := atAxes_length c p (by simpa using h)
    simpa [atAxes] using this
  | false :: c, s :: p, h => by
    have := atAxes_length c p (by simpa using h)
    simpa [atAxes] using this

theorem count_not (q : List Bool) : (q.map not).count true = q.count false ∧ (q.map not).count false = q.count true := by
  induction q with
  | nil => simp
  | cons a q ih => cases a <;> simp [ih.1, ih.2]

theorem not_not_map (q : List Bool) : (q.map not).map not = q := by
  rw [List.map_map]
  conv_rhs => rw [← List.map_id q]
  exact List.map_congr_left fun a _ => by simp

theorem zipWith_all_false : ∀ (p q : List Bool), q.length = p.length → (∀ b ∈ q, b = false) →
    List.zipWith (fun p q => if q then 1 else 2 * p.toNat) p q = p.map fun s => 2 * s.toNat
  | [], q, h, _ => by
    obtain rfl := List.length_eq_zero_iff.1 h
    rfl
  | a :: p, [], h, _ => by simp at h
  | a :: p, b :: q, h, hq => by
    rw [List.zipWith_cons_cons, zipWith_all_false p q (by simpa using h) (fun b hb => hq b (List.mem_cons_of_mem _ hb)),
      hq b List.mem_cons_self]
    simp

theorem zipWith_all_true : ∀ (p q : List Bool), q.length = p.length → (∀ b ∈ q, b = true) →
    List.zipWith (fun p q => if q then 1 else 2 * p.toNat) p q = List.replicate p.length 1
  | [], q, h, _ => by
    obtain rfl := List.length_eq_zero_iff.1 h
    rfl
  | a :: p, [], h, _ => by simp at h
  | a :: p, b :: q, h, hq => by
    rw [List.zipWith_cons_cons, zipWith_all_true p q (by simpa using h) (fun b hb => hq b (List.mem_cons_of_mem _ hb)),
      hq b List.mem_cons_self]
    simp [List.replicate_succ]

theorem agrees_double : ∀ (p c : List Bool), agrees (p.map fun s => 2 * s.toNat) c = true ↔ c = p
  | [], [] => by simp [agrees]
  | [], _ :: _ => by simp [agrees]
  | _ :: _, [] => by simp [agrees]
  | a :: p, b :: c => by
    simp only [List.map_cons, agrees, Bool.and_eq_true, agrees_double p c, List.cons.injEq]
    cases a <;> cases b <;> simp

/-- `domains[j][p][q]` is the number of the face that is the side `p` along the axes with `q = 0` -/
theorem domainAt_eq (w : CWF n top t) (hn : 1 ≤ n) {j : Nat} {l : List Nat} (hl : Stored t n j l)
    {tables : List (List Bool × List Nat)} (ht : domainTables t.elements n l = .ok tables) {p q : List Bool}
    (hp : p.length = n) (hq : q.length = n) :
    domainAt j l tables p q + levelOffset t (q.count true) =
      vnum t n j (gridFace l (List.zipWith (fun p q => if q then 1 else 2 * p.toNat) p q)) := by
  obtain ⟨tables', h1, h2, h3⟩ := domainTables_ok w hn hl
  obtain rfl : tables = tables' := Except.ok.inj (ht.symm.trans h1)
  have hct := count_false_add_true q
  have hfun : (fun ci : List Bool × List Nat => ci.1.map not == q) = fun ci => ci.1 == q.map not := by
    funext ci
    rw [Bool.eq_iff_iff, beq_iff_eq, beq_iff_eq]
    constructor
    · rintro rfl; rw [not_not_map]
    · rintro h; rw [h, not_not_map]
  unfold domainAt
  rw [hfun]
  by_cases hmid : 1 ≤ q.count false ∧ q.count false < n
  · obtain ⟨idx, hf, hm⟩ := find_spec (L := tables) (a := q.map not)
      (h3 _ (by simpa using hq) (by rw [(count_not q).1]; exact hmid.1) (by rw [(count_not q).1]; exact hmid.2))
    rw [hf]
    obtain ⟨-, -, -, g⟩ := h2 _ hm
    obtain ⟨x, g1, g2⟩ := g (atAxes (q.map not) p) (atAxes_length _ _ (by simp; omega))
    simp only at g1 g2 ⊢
    rw [g1, Option.getD_some, ← facePoint_atAxes p q (by omega), g2, (count_not q).2]
  · have hnone : tables.find? (fun ci => ci.1 == q.map not) = none := by
      rw [List.find?_eq_none]
      intro ci hci
      obtain ⟨k1, k2, k3, -⟩ := h2 ci hci
      simp only [beq_iff_eq]
      intro e
      rw [e, (count_not q).1] at k2 k3
      exact hmid ⟨k2, k3⟩
    rw [hnone]
    simp only
    rcases Nat.eq_zero_or_pos (q.count false) with h0 | h0
    · have hall : ∀ b ∈ q, b = true := fun b hb => by
        cases b
        · exact absurd hb (List.count_eq_zero.1 h0)
        · rfl
      rw [if_neg, if_pos, zipWith_all_true p q (by omega) hall, hp, vnum_middle w hn (le_refl n) hl,
        show q.count true = n by omega, Nat.add_comm]
      · rw [List.all_eq_true]; exact fun b hb => hall b hb
      · rcases q with _ | ⟨b, q⟩
        · simp at hq; omega
        · have := hall b List.mem_cons_self
          simp [this]
    · have h0 : q.count true = 0 := by omega
      have hall : ∀ b ∈ q, b = false := fun b hb => by
        cases b
        · rfl
        · exact absurd hb (List.count_eq_zero.1 h0)
      rw [if_pos, zipWith_all_false p q (by omega) hall, h0]
      · have hx : IsPoint (p.map fun s => 2 * s.toNat) := by
          intro a ha
          obtain ⟨s, -, rfl⟩ := List.mem_map.1 ha
          cases s <;> simp
        obtain ⟨i, e, g1, g2, -, g4⟩ := vnum_gridFace w hn (le_refl n) hl hx (by simpa using hp)
        have hcnt : (p.map fun s => 2 * s.toNat).count 1 = 0 := by
          rw [List.count_eq_zero]
          intro h
          obtain ⟨s, -, h⟩ := List.mem_map.1 h
          cases s <;> simp at h
        rw [hcnt] at g1 g4
        rw [g4, Nat.add_comm]
        congr 1
        have hv : cubeAt l p ∈ e := g2.mem_iff.1 (mem_gridFace.2 ⟨p, (agrees_double p p).2 rfl, rfl⟩)
        have hlen := (w.cube hn (by omega) g1).1
        obtain ⟨v, rfl⟩ := List.length_eq_one_iff.1 (by simpa using hlen)
        obtain ⟨E, hE, hfl⟩ := w.vertices
        have hE1 : Cubes 0 E := by
          have := (w.get (k := 0) (by omega)).1
          rwa [hE, Option.getD_some] at this
        have hEi : E[i]? = some [v] := by
          have := g1
          unfold Stored at this
          rwa [hE, Option.getD_some] at this
        have hvi : v = i := by
          have hmap : E = E.flatten.map (fun v => [v]) := by
            clear hfl hEi hE
            induction E with
            | nil => rfl
            | cons a E ih =>
              have ha := (hE1 a List.mem_cons_self).1
              obtain ⟨u, rfl⟩ := List.length_eq_one_iff.1 (by simpa using ha)
              simp only [List.flatten_cons, List.map_cons, List.singleton_append]
              rw [← ih (fun x hx => hE1 x (List.mem_cons_of_mem _ hx))]
          rw [hfl] at hmap
          rw [hmap, List.getElem?_map, Option.map_eq_some_iff] at hEi
          obtain ⟨u, hu1, hu2⟩ := hEi
          obtain ⟨_, hu3⟩ := List.getElem?_eq_some_iff.1 hu1
          simp at hu3 hu2
          omega
        simp only [List.mem_singleton] at hv
        rw [hv, hvi]
      · rw [List.all_eq_true]
        intro b hb
        rw [hall b hb]; rfl

/-! ### the fine cubes -/

theorem flipAxes_eq {p : List Bool} (hp : p.length = n) {l : List Nat} (hl : l.length = 2 ^ n) :
    flipAxes n p l = cubeOf n fun b => cubeAt l (List.zipWith xor b p) := by
  have h := flipAxes_eq_turn (n := n) (List.Perm.refl _) hp l
  rw [transposeAxes_eq_turn, turn_refl hl] at h
  rw [h]
  refine cubeOf_congr fun b hb => congrArg _ ?_
  apply List.ext_getElem?
  intro k
  rcases Nat.lt_or_ge k n with hk | hk
  · rw [turnIndex_get hk]
    have : (List.range n).idxOf k = k := by
      have h1 : (List.range n)[k]'(by simpa using hk) = k := by simp
      conv_lhs => rw [← h1]
      exact List.nodup_range.idxOf_getElem k (by simpa using hk)
    rw [this, List.getElem?_eq_getElem (by omega), List.getElem?_eq_getElem (by omega),
      List.getElem?_eq_getElem (by simp; omega)]
    simp
  · rw [List.getElem?_eq_none (by rw [turnIndex_length]; exact hk), List.getElem?_eq_none (by simp; omega)]

theorem corner_eq_zipWith : ∀ (p b : List Bool), b.length = p.length →
    corner (p.map Bool.toNat) b =
      List.zipWith (fun p q => if q then 1 else 2 * p.toNat) p (List.zipWith xor b p)
  | [], b, h => by
    obtain rfl := List.length_eq_zero_iff.1 h
    rfl
  | a :: p, [], h => by simp at h
  | a :: p, b :: r, h => by
    have ih := corner_eq_zipWith p r (by simpa using h)
    unfold corner at ih ⊢
    simp only [List.map_cons, List.zipWith_cons_cons, ih]
    cases a <;> cases b <;> rfl

/-- the fine cubes in the cube `l` -/
def fineCubes (t : Topo) (n j : Nat) (l : List Nat) : List (List Nat) :=
  (cubeIndices n).map fun p => cell (vnum t n j) l (cellBox (p.map Bool.toNat))

theorem subdivideCubes_ok (w : CWF n top t) (hn : 1 ≤ n) :
    subdivideCubes t = .ok (top.zipIdx.map fun lj => fineCubes t n lj.2 lj.1) := by
  unfold subdivideCubes
  simp only [w.lenB, w.top_eq, Option.getD_some]
  refine mapM_ok _ _ _ ?_
  rintro ⟨l, j⟩ hlj
  have hl : Stored t n j l := by
    unfold Stored
    rw [w.top_eq, Option.getD_some]
    have := List.mem_zipIdx hlj
    rw [List.getElem?_eq_some_iff]
    exact ⟨by omega, by simpa using this.2.2.symm⟩
  obtain ⟨tables, ht, -, -⟩ := domainTables_ok w hn hl
  simp only [ht, bind, Except.bind]
  congr 1
  unfold fineCubes
  refine List.map_congr_left fun p hp => ?_
  rw [mem_cubeIndices] at hp
  rw [flipAxes_eq hp (cubeOf_length _ _)]
  unfold cell
  rw [cellBox_free, List.length_map, hp]
  refine cubeOf_congr fun b hb => ?_
  rw [cubeAt_cubeOf _ (by simp; omega), domainAt_eq w hn hl ht hp (by simp; omega),
    point_cellBox (by simp; omega), corner_eq_zipWith p b (by omega)]

end

end Verif
