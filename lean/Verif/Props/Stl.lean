/-
C73: the round trip of a mesh through an STL file.
-/
import Verif.Model.Stl
import Verif.Spec.Stl
import Verif.Props.Triangles
import Verif.Props.Simplicial
import Verif.Lemmas.Extrude

set_option linter.unusedSectionVars false

namespace Verif.Props

open Verif.Model Verif.Spec

variable {V : List (Vec ℝ 3)} {T : List (List Nat)} {round : ℝ → Word} {roundNan : Option ℝ → Word}
  {value : Word → ℝ} {unique : List (List Word) → List (List Word) × List Nat}
  {uniq : List (List Nat) → List (List Nat)}

/-- the bit patterns of a position -/
def wordsOf (round : ℝ → Word) (x : Vec ℝ 3) : List Word := [round (x 0), round (x 1), round (x 2)]

theorem read32_bytes32 {w : Nat} (h : w < 4294967296) : read32 (bytes32 w) = w := by
  simp only [bytes32, read32]
  omega

theorem bytes32_length (w : Nat) : (bytes32 w).length = 4 := rfl

theorem stlRecord_length {n c : List Word} (hn : n.length = 3) (hc : c.length = 9) :
    (stlRecord n c).length = 50 := by
  simp only [stlRecord, List.length_append, List.length_flatMap, bytes32_length, List.map_const',
    List.sum_replicate, hn, hc]
  norm_num

theorem recordCorners_ok (a b c : Word) (x : List Word) (hx : x.length = 9) :
    recordCorners (stlRecord [a, b, c] x) = [x.take 3, (x.drop 3).take 3, x.drop 6] := by
  match x, hx with
  | [x0, x1, x2, x3, x4, x5, x6, x7, x8], _ =>
    have e : ∀ w : Word, Fin.ofNat 4294967296 (read32 [(w : Nat) % 256, w / 256 % 256, w / 65536 % 256,
        w / 16777216 % 256]) = w := by
      intro w
      have := read32_bytes32 w.2
      unfold bytes32 at this
      rw [this]
      exact Fin.ext (Nat.mod_eq_of_lt w.2)
    simp only [recordCorners, stlRecord, bytes32, List.range_succ, List.range_zero, List.nil_append,
      List.map_cons, List.map_nil, List.flatMap_cons, List.flatMap_nil, List.cons_append,
      List.append_nil]
    simp only [Nat.mul_zero, Nat.add_zero, Nat.mul_one, Nat.reduceMul, Nat.reduceAdd, List.drop_succ_cons,
      List.drop_zero, List.take_succ_cons, List.take_zero, e]

theorem drop_take_flatten {α : Type} {m : Nat} : ∀ {L : List (List α)}, (∀ l ∈ L, l.length = m) →
    ∀ {k : Nat} {l : List α}, L[k]? = some l → ∀ rest, ((L.flatten ++ rest).drop (m * k)).take m = l
  | [], _, k, l, h, _ => by simp at h
  | x :: L, hL, 0, l, h, rest => by
    simp only [List.getElem?_cons_zero, Option.some.injEq] at h
    subst h
    have hx := hL x (by simp)
    rw [Nat.mul_zero, List.drop_zero, List.flatten_cons, List.append_assoc, ← hx, List.take_left]
  | x :: L, hL, k + 1, l, h, rest => by
    have hx := hL x (by simp)
    rw [List.getElem?_cons_succ] at h
    rw [List.flatten_cons, List.append_assoc, Nat.mul_succ, Nat.add_comm, ← List.drop_drop, ← hx,
      List.drop_left, hx]
    exact drop_take_flatten (fun l hl => hL l (by simp [hl])) h rest

/-- the record of a triangle -/
noncomputable def recordOf (round : ℝ → Word) (roundNan : Option ℝ → Word) (V : List (Vec ℝ 3)) :
    List Nat → List Nat
  | [a, b, c] => stlRecord
    ((List.finRange 3).map fun i =>
      roundNan ((normalizedNan (cross (pos V b - pos V a) (pos V c - pos V b))).map fun y => y i))
    (wordsOf round (pos V a) ++ wordsOf round (pos V b) ++ wordsOf round (pos V c))
  | _ => []

theorem recordOf_length {l : List Nat} (h : l.length = 3) : (recordOf round roundNan V l).length = 50 := by
  obtain ⟨a, b, c, rfl⟩ := triple h
  exact stlRecord_length (by simp) rfl

theorem recordOf_corners {l : List Nat} (h : l.length = 3) :
    recordCorners (recordOf round roundNan V l) = l.map fun a => wordsOf round (pos V a) := by
  obtain ⟨a, b, c, rfl⟩ := triple h
  exact recordCorners_ok _ _ _ _ rfl

/-- the header and the count -/
def stlHead (n : Nat) : List Nat := List.replicate 80 0 ++ bytes32 n

theorem saveSTL_ok (h : Mesh V T) :
    saveSTL round roundNan V T
      = .ok (stlHead T.length ++ (T.map (recordOf round roundNan V)).flatten) := by
  have hc : T.mapM (cornersAt V) = .ok (T.map fun l =>
      (pos V (l[0]?.getD 0), pos V (l[1]?.getD 0), pos V (l[2]?.getD 0))) := by
    refine mapM_ok _ _ _ fun l hl => ?_
    obtain ⟨a, b, c, rfl⟩ := triple (h.simplices l hl).1
    have hr := h.inRange _ hl
    simp only [cornersAt, vertexAt_ok (hr a (by simp)), vertexAt_ok (hr b (by simp)),
      vertexAt_ok (hr c (by simp))]
    rfl
  simp only [saveSTL, hc, normals_ok h, bind, Except.bind]
  congr 2
  congr 1
  rw [List.zipWith_map, List.zipWith_self]
  refine List.map_congr_left fun l hl => ?_
  obtain ⟨a, b, c, rfl⟩ := triple (h.simplices l hl).1
  rfl

/-- the corners a file lists, whatever follows the records -/
theorem stlCorners_ok {T : List (List Nat)} (hT : ∀ l ∈ T, l.length = 3) (hlen : T.length < 4294967296)
    (file : List Nat) (k : Nat) (hk : k ≤ T.length) (rest : List Nat)
    (hfile : file = stlHead T.length ++ (((T.take k).map (recordOf round roundNan V)).flatten ++ rest))
    (hrest : k = T.length ∨ rest.length < 50) :
    stlCorners file = .ok ((T.take k).flatMap fun l => l.map fun a => wordsOf round (pos V a)) := by
  subst hfile
  have hd : (stlHead T.length ++ (((T.take k).map (recordOf round roundNan V)).flatten ++ rest)).drop 80
      = bytes32 T.length ++ (((T.take k).map (recordOf round roundNan V)).flatten ++ rest) := by
    rw [stlHead, List.append_assoc]
    exact List.drop_left' (by simp)
  have hL : ∀ r ∈ (T.take k).map (recordOf round roundNan V), r.length = 50 := by
    intro r hr
    obtain ⟨l, hl, rfl⟩ := List.mem_map.mp hr
    exact recordOf_length (hT l (List.mem_of_mem_take hl))
  have hlenF : ((T.take k).map (recordOf round roundNan V)).flatten.length = 50 * k := by
    rw [List.length_flatten, List.map_congr_left (g := fun _ => 50) hL]
    simp only [List.map_const', List.length_map, List.length_take, List.sum_replicate, smul_eq_mul]
    omega
  simp only [stlCorners, hd]
  rw [if_neg (by simp [bytes32_length]), List.take_left' (bytes32_length _),
    List.drop_left' (bytes32_length _), read32_bytes32 hlen, List.length_append, hlenF]
  congr 1
  have hm : min T.length ((50 * k + rest.length) / 50) = k := by
    rcases hrest with rfl | h
    · omega
    · omega
  rw [hm]
  have : (T.take k).flatMap (fun l => l.map fun a => wordsOf round (pos V a))
      = (List.range k).flatMap fun j => ((T.take k)[j]?.getD []).map fun a => wordsOf round (pos V a) := by
    have hr : T.take k = (List.range k).map fun j => (T.take k)[j]?.getD [] := by
      refine List.ext_getElem (by simp; omega) fun i h1 h2 => ?_
      simp only [List.getElem_map, List.getElem_range]
      rw [List.getElem?_eq_getElem h1]
      rfl
    conv_lhs => rw [hr]
    rw [List.flatMap_map]
  rw [this]
  refine List.flatMap_congr fun j hj => ?_
  have hj' := List.mem_range.mp hj
  have hjl : j < (T.take k).length := by rw [List.length_take]; omega
  rw [drop_take_flatten hL (l := recordOf round roundNan V (T.take k)[j])
    (by rw [List.getElem?_map, List.getElem?_eq_getElem hjl]; rfl), List.getElem?_eq_getElem hjl]
  exact recordOf_corners (hT _ (List.mem_of_mem_take (List.getElem_mem hjl)))

/-- the number a position gets -/
noncomputable def placeOf (unique : List (List Word) → List (List Word) × List Nat) (round : ℝ → Word)
    (V : List (Vec ℝ 3)) (T : List (List Nat)) (a : Nat) : Nat :=
  ((unique (T.flatMap fun l => l.map fun a => wordsOf round (pos V a))).1).idxOf (wordsOf round (pos V a))

theorem inverse_eq (hq : UniqueInverse unique) (rows : List (List Word)) :
    (unique rows).2 = rows.map fun r => (unique rows).1.idxOf r := by
  obtain ⟨h1, _, h3, h4⟩ := hq rows
  refine List.ext_getElem (by simp [h3]) fun i hi hi' => ?_
  have hi2 : i < rows.length := h3 ▸ hi
  obtain ⟨k, hk, hk'⟩ := h4 i rows[i] (List.getElem?_eq_getElem hi2)
  rw [List.getElem?_eq_getElem hi] at hk
  obtain ⟨hkl, hke⟩ := List.getElem?_eq_some_iff.mp hk'
  rw [List.getElem_map, Option.some.inj hk, ← hke, h1.idxOf_getElem]

theorem place_get (hq : UniqueInverse unique) {T : List (List Nat)} {a : Nat} (ha : ∃ l ∈ T, a ∈ l) :
    (unique (T.flatMap fun l => l.map fun a => wordsOf round (pos V a))).1[placeOf unique round V T a]?
      = some (wordsOf round (pos V a)) := by
  obtain ⟨_, _, _, h4⟩ := hq (T.flatMap fun l => l.map fun a => wordsOf round (pos V a))
  obtain ⟨l, hl, hal⟩ := ha
  have hm : wordsOf round (pos V a) ∈ T.flatMap fun l => l.map fun a => wordsOf round (pos V a) :=
    List.mem_flatMap.mpr ⟨l, hl, List.mem_map.mpr ⟨a, hal, rfl⟩⟩
  obtain ⟨i, hi⟩ := List.mem_iff_getElem?.mp hm
  obtain ⟨k, _, hk⟩ := h4 i _ hi
  have hmem := List.mem_of_getElem? hk
  have hlt := List.idxOf_lt_length_of_mem hmem
  unfold placeOf
  rw [List.getElem?_eq_getElem hlt, List.getElem_idxOf]

theorem chunks_eq {T : List (List Nat)} (hT : ∀ l ∈ T, l.length = 3) (f : Nat → Nat) :
    (List.range ((T.flatMap fun l => l.map f).length / 3)).map
      (fun j => ((T.flatMap fun l => l.map f).drop (3 * j)).take 3) = T.map fun l => l.map f := by
  have hL : ∀ l ∈ T.map (fun l => l.map f), l.length = 3 := by
    intro l hl
    obtain ⟨l', hl', rfl⟩ := List.mem_map.mp hl
    rw [List.length_map, hT l' hl']
  have hlen : (T.flatMap fun l => l.map f).length / 3 = T.length := by
    rw [List.flatMap_def, List.length_flatten, List.map_congr_left (g := fun _ => 3) hL]
    simp [Function.comp_def]
  rw [hlen]
  refine List.ext_getElem (by simp) fun j h1 h2 => ?_
  have hj : j < (T.map fun l => l.map f).length := h2
  rw [List.getElem_map, List.getElem_range, List.flatMap_def]
  have := drop_take_flatten hL (List.getElem?_eq_getElem hj) []
  rwa [List.append_nil] at this

/-- the loaded complex -/
theorem loadSTL_eq (hq : UniqueInverse unique) {T : List (List Nat)} (hT : ∀ l ∈ T, l.length = 3)
    {file : List Nat}
    (hf : stlCorners file = .ok (T.flatMap fun l => l.map fun a => wordsOf round (pos V a))) :
    loadSTL value unique uniq file =
      (fromSimplices uniq 3 (T.map fun l => l.map (placeOf unique round V T))).map fun t =>
        (((unique (T.flatMap fun l => l.map fun a => wordsOf round (pos V a))).1.map
          fun row i => value (row[i.val]?.getD 0)), t) := by
  have e : (unique (T.flatMap fun l => l.map fun a => wordsOf round (pos V a))).2
      = T.flatMap fun l => l.map (placeOf unique round V T) := by
    rw [inverse_eq hq, List.map_flatMap]
    refine List.flatMap_congr fun l _ => ?_
    rw [List.map_map]
    rfl
  unfold loadSTL
  rw [hf]
  simp only [bind, Except.bind]
  rw [e, chunks_eq hT]
  cases fromSimplices uniq 3 (T.map fun l => l.map (placeOf unique round V T)) <;> rfl

theorem place_eq_iff (hq : UniqueInverse unique) {T : List (List Nat)} {a b : Nat} (ha : ∃ l ∈ T, a ∈ l)
    (hb : ∃ l ∈ T, b ∈ l) :
    placeOf unique round V T a = placeOf unique round V T b ↔
      ∀ i, round (pos V a i) = round (pos V b i) := by
  have e1 := place_get (round := round) (V := V) hq ha
  have e2 := place_get (round := round) (V := V) hq hb
  constructor
  · intro h
    rw [h, e2] at e1
    have := Option.some.inj e1
    simp only [wordsOf, List.cons.injEq, and_true] at this
    intro i
    fin_cases i
    · exact this.1.symm
    · exact this.2.1.symm
    · exact this.2.2.symm
  · intro h
    unfold placeOf wordsOf
    rw [h 0, h 1, h 2]

/-- C73: saving a mesh of fewer than `2 ^ 32` triangles and loading the file gives the same triangles in the
same order.  `σ` is the new number of a vertex.  The position of a vertex is its position rounded to four
bytes; two vertices get the same number exactly if their rounded positions have the same bits; unused
vertices are gone.  The corners of a triangle must not be rounded to the same position. -/
theorem C73_round_trip (hq : UniqueInverse unique) (hu : UniqSpec uniq) (h : Mesh V T)
    (hlen : T.length < 2 ^ 32)
    (hround : ∀ l ∈ T, ∀ a ∈ l, ∀ b ∈ l, (∀ i, round (pos V a i) = round (pos V b i)) → a = b) :
    ∃ file W t, ∃ σ : Nat → Nat,
      saveSTL round roundNan V T = .ok file ∧ file.length = 84 + 50 * T.length ∧
      loadSTL value unique uniq file = .ok (W, t) ∧
      t.elements[2]? = some (T.map fun l => l.map σ) ∧
      (∀ a, (∃ l ∈ T, a ∈ l) → W[σ a]? = some fun i => value (round (pos V a i))) ∧
      (∀ a b, (∃ l ∈ T, a ∈ l) → (∃ l ∈ T, b ∈ l) →
        (σ a = σ b ↔ ∀ i, round (pos V a i) = round (pos V b i))) ∧
      (∀ k < W.length, ∃ a, (∃ l ∈ T, a ∈ l) ∧ σ a = k) := by
  have hT : ∀ l ∈ T, l.length = 3 := fun l hl => (h.simplices l hl).1
  have hc := stlCorners_ok (V := V) (round := round) (roundNan := roundNan) hT hlen
    (stlHead T.length ++ (T.map (recordOf round roundNan V)).flatten) T.length le_rfl []
    (by rw [List.take_length, List.append_nil]) (Or.inl rfl)
  rw [List.take_length] at hc
  have hl := loadSTL_eq (value := value) (uniq := uniq) hq hT hc
  have honto : ∀ k < (unique (T.flatMap fun l => l.map fun a => wordsOf round (pos V a))).1.length,
      ∃ a, (∃ l ∈ T, a ∈ l) ∧ placeOf unique round V T a = k := by
    intro k hk
    obtain ⟨h1, h2, _, _⟩ := hq (T.flatMap fun l => l.map fun a => wordsOf round (pos V a))
    have := h2 _ (List.getElem_mem hk)
    obtain ⟨l, hl, hm⟩ := List.mem_flatMap.mp this
    obtain ⟨a, ha, hae⟩ := List.mem_map.mp hm
    refine ⟨a, ⟨l, hl, ha⟩, ?_⟩
    unfold placeOf
    rw [hae, h1.idxOf_getElem]
  have hs : Simplices 3 (T.map fun l => l.map (placeOf unique round V T)) := by
    intro l' hl'
    obtain ⟨l, hl, rfl⟩ := List.mem_map.mp hl'
    refine ⟨by rw [List.length_map, hT l hl], ?_⟩
    refine List.Nodup.map_on (fun a ha b hb hab => ?_) (h.simplices l hl).2
    exact hround l hl a ha b hb ((place_eq_iff hq ⟨l, hl, ha⟩ ⟨l, hl, hb⟩).mp hab)
  obtain ⟨t, ht⟩ := (C03_accepts_iff (nCorners := 1) hu hs).mpr
    ⟨(unique (T.flatMap fun l => l.map fun a => wordsOf round (pos V a))).1.length, fun v => by
      constructor
      · rintro ⟨l', hl', hv⟩
        obtain ⟨l, hl, rfl⟩ := List.mem_map.mp hl'
        obtain ⟨a, ha, rfl⟩ := List.mem_map.mp hv
        exact (List.getElem?_eq_some_iff.mp (place_get hq ⟨l, hl, ha⟩)).1
      · intro hv
        obtain ⟨a, ⟨l, hl, ha⟩, rfl⟩ := honto v hv
        exact ⟨_, List.mem_map.mpr ⟨l, hl, rfl⟩, List.mem_map.mpr ⟨a, ha, rfl⟩⟩⟩
  rw [show (1 + 2 : Nat) = 3 from rfl] at ht
  rw [ht] at hl
  refine ⟨_, _, t, placeOf unique round V T, saveSTL_ok h, ?_, hl, (C04_top_level hu hs ht).2, ?_,
    fun a b ha hb => place_eq_iff hq ha hb, ?_⟩
  · rw [List.length_append, List.length_flatten, List.map_congr_left (g := fun _ => 50)]
    · simp [stlHead, bytes32_length, Function.comp_def]
      omega
    · intro r hr
      obtain ⟨l, hl, rfl⟩ := List.mem_map.mp hr
      exact recordOf_length (hT l hl)
  · intro a ha
    rw [List.getElem?_map, place_get hq ha, Option.map_some]
    congr 1
    funext i
    fin_cases i <;> rfl
  · intro k hk
    rw [List.length_map] at hk
    exact honto k hk

theorem directedEdges_map {T : List (List Nat)} (hT : ∀ l ∈ T, l.length = 3) (σ : Nat → Nat) :
    directedEdges (T.map fun l => l.map σ) = (directedEdges T).map (Prod.map σ σ) := by
  unfold directedEdges
  rw [List.map_flatMap, List.flatMap_map]
  refine List.flatMap_congr fun l hl => ?_
  obtain ⟨a, b, c, rfl⟩ := triple (hT l hl)
  rfl

/-- C73: a closed surface is closed after the round trip, also if vertices have been merged. -/
theorem C73_closed (hq : UniqueInverse unique) (hu : UniqSpec uniq) (h : Mesh V T)
    (hlen : T.length < 2 ^ 32)
    (hround : ∀ l ∈ T, ∀ a ∈ l, ∀ b ∈ l, (∀ i, round (pos V a i) = round (pos V b i)) → a = b)
    (hclosed : ClosedSurface T) :
    ∃ file W t T', saveSTL round roundNan V T = .ok file ∧
      loadSTL value unique uniq file = .ok (W, t) ∧ t.elements[2]? = some T' ∧ ClosedSurface T' := by
  obtain ⟨file, W, t, σ, h1, _, h3, h4, _⟩ := C73_round_trip (value := value) (roundNan := roundNan)
    hq hu h hlen hround
  refine ⟨file, W, t, _, h1, h3, h4, ?_⟩
  have hT : ∀ l ∈ T, l.length = 3 := fun l hl => (h.simplices l hl).1
  unfold ClosedSurface
  rw [directedEdges_map hT]
  refine balanced_iff.mp ?_
  exact (balanced_iff.mpr hclosed).map (Prod.map σ σ) fun _ => rfl

/-- C73: loading does not look at what follows the records. -/
theorem C73_trailing (h : Mesh V T) (hlen : T.length < 2 ^ 32) {file : List Nat}
    (hf : saveSTL round roundNan V T = .ok file) (extra : List Nat) :
    loadSTL value unique uniq (file ++ extra) = loadSTL value unique uniq file := by
  have hT : ∀ l ∈ T, l.length = 3 := fun l hl => (h.simplices l hl).1
  rw [saveSTL_ok h] at hf
  have hf := Except.ok.inj hf
  subst hf
  have e : ∀ rest, stlCorners (stlHead T.length ++ ((T.map (recordOf round roundNan V)).flatten ++ rest)) =
      .ok (T.flatMap fun l => l.map fun a => wordsOf round (pos V a)) := by
    intro rest
    have := stlCorners_ok (V := V) (round := round) (roundNan := roundNan) hT hlen
      _ T.length le_rfl rest rfl (Or.inl rfl)
    rwa [List.take_length] at this
  have e0 := e []
  rw [List.append_nil] at e0
  unfold loadSTL
  rw [List.append_assoc, e, e0]

/-- C73: a file that ends too early is not noticed: if at least the count is there, the complete records are
loaded, as if only these triangles had been saved; otherwise there is an `IndexError`. -/
theorem C73_truncated (h : Mesh V T) (hlen : T.length < 2 ^ 32)
    {file : List Nat} (hf : saveSTL round roundNan V T = .ok file) (m : Nat) (hm : m ≤ file.length) :
    (m < 84 → loadSTL value unique uniq (file.take m) = .error .indexError) ∧
    (84 ≤ m → ∃ part, saveSTL round roundNan V (T.take ((m - 84) / 50)) = .ok part ∧
      loadSTL value unique uniq (file.take m) = loadSTL value unique uniq part) := by
  have hT : ∀ l ∈ T, l.length = 3 := fun l hl => (h.simplices l hl).1
  have hlenF : (T.map (recordOf round roundNan V)).flatten.length = 50 * T.length := by
    rw [List.length_flatten, List.map_congr_left (g := fun _ => 50)]
    · simp [Function.comp_def]; omega
    · intro r hr
      obtain ⟨l, hl, rfl⟩ := List.mem_map.mp hr
      exact recordOf_length (hT l hl)
  rw [saveSTL_ok h] at hf
  have hf := Except.ok.inj hf
  have hhead : (stlHead T.length).length = 84 := by simp [stlHead, bytes32_length]
  have hfl : file.length = 84 + 50 * T.length := by rw [← hf, List.length_append, hlenF, hhead]
  constructor
  · intro h84
    have : ((file.take m).drop 80).length < 4 := by
      rw [List.length_drop, List.length_take]; omega
    unfold loadSTL stlCorners
    rw [if_pos this]
    rfl
  · intro h84
    have hk : (m - 84) / 50 ≤ T.length := by omega
    have hpart : Mesh V (T.take ((m - 84) / 50)) :=
      ⟨fun l hl => h.simplices l (List.mem_of_mem_take hl), fun l hl => h.inRange l (List.mem_of_mem_take hl)⟩
    refine ⟨_, saveSTL_ok hpart, ?_⟩
    have hfull : (T.take ((m - 84) / 50)).length < 4294967296 := by rw [List.length_take]; omega
    have hp := stlCorners_ok (V := V) (round := round) (roundNan := roundNan)
      (T := T.take ((m - 84) / 50)) (fun l hl => hT l (List.mem_of_mem_take hl)) hfull
      (stlHead (T.take ((m - 84) / 50)).length
        ++ ((T.take ((m - 84) / 50)).map (recordOf round roundNan V)).flatten)
      (T.take ((m - 84) / 50)).length le_rfl [] (by rw [List.take_length, List.append_nil]) (Or.inl rfl)
    rw [List.take_length] at hp
    have hpl : ((T.take ((m - 84) / 50)).map (recordOf round roundNan V)).flatten.length
        = 50 * ((m - 84) / 50) := by
      rw [List.length_flatten, List.map_congr_left (g := fun _ => 50)]
      · simp only [List.map_const', List.length_map, List.length_take, List.sum_replicate, smul_eq_mul]
        omega
      · intro r hr
        obtain ⟨l, hl, rfl⟩ := List.mem_map.mp hr
        exact recordOf_length (hT l (List.mem_of_mem_take hl))
    have hfile : file.take m = stlHead T.length ++
        (((T.take ((m - 84) / 50)).map (recordOf round roundNan V)).flatten ++
          (((T.drop ((m - 84) / 50)).map (recordOf round roundNan V)).flatten).take
            (m - 84 - 50 * ((m - 84) / 50))) := by
      rw [← hf, List.take_append, List.take_of_length_le (by omega), hhead]
      congr 1
      conv_lhs => rw [← List.take_append_drop ((m - 84) / 50) T]
      rw [List.map_append, List.flatten_append, List.take_append, hpl,
        List.take_of_length_le (by rw [hpl]; omega)]
    have hc := stlCorners_ok (V := V) (round := round) (roundNan := roundNan) hT hlen (file.take m)
      ((m - 84) / 50) hk _ hfile (Or.inr (by rw [List.length_take]; omega))
    unfold loadSTL
    rw [hc, hp]

/-- `npi.unique` as the contract allows it -/
def uniqueDedup (rows : List (List Word)) : List (List Word) × List Nat :=
  (rows.dedup, rows.map fun r => rows.dedup.idxOf r)

theorem uniqueDedup_spec : UniqueInverse uniqueDedup := by
  intro rows
  refine ⟨List.nodup_dedup rows, fun r hr => List.mem_dedup.mp hr, by simp [uniqueDedup], fun i r hi => ?_⟩
  have hm : r ∈ rows.dedup := List.mem_dedup.mpr (List.mem_of_getElem? hi)
  refine ⟨rows.dedup.idxOf r, by simp [uniqueDedup, hi], ?_⟩
  simp only [uniqueDedup]
  rw [List.getElem?_eq_getElem (List.idxOf_lt_length_of_mem hm), List.getElem_idxOf]

/-- a rounding that tells one from all other numbers -/
noncomputable def coarse (x : ℝ) : Word := if x = 1 then 1 else 0

/-- the positions of a triangle with two corners close together -/
noncomputable def thinTriangle : List (Vec ℝ 3) := [![1, 0, 0], ![0, 0, 0], ![0, 0, 1 / 2]]

theorem thin_mesh : Mesh thinTriangle [[0, 1, 2]] :=
  ⟨simplices_of_all (by decide), by intro l hl i hi; simp at hl; subst hl; simp [thinTriangle] at hi ⊢; omega⟩

/-- C73, negated without its condition: if two corners of a triangle are rounded to the same position, the
loaded complex has an edge from a vertex to itself, and there is no error. -/
theorem C73_collapse_negated : ∃ (file : List Nat) (W : List (Vec ℝ 3)) (t : Topo),
    Mesh thinTriangle [[0, 1, 2]] ∧ UniqueInverse uniqueDedup ∧ UniqSpec List.dedup ∧
    saveSTL coarse roundNan thinTriangle [[0, 1, 2]] = .ok file ∧
    loadSTL value uniqueDedup List.dedup file = .ok (W, t) ∧
    t.elements[2]? = some [[0, 1, 1]] ∧ t.elements[1]? = some [[1, 1], [1, 0]] := by
  have hT : ∀ l ∈ ([[0, 1, 2]] : List (List Nat)), l.length = 3 := by simp
  have hc := stlCorners_ok (V := thinTriangle) (round := coarse) (roundNan := roundNan) hT (by simp)
    (stlHead 1 ++ (([[0, 1, 2]] : List (List Nat)).map (recordOf coarse roundNan thinTriangle)).flatten) 1
    le_rfl [] (by simp) (Or.inl rfl)
  have hl := loadSTL_eq (value := value) (uniq := List.dedup) uniqueDedup_spec hT hc
  have w0 : wordsOf coarse (pos thinTriangle 0) = [1, 0, 0] := by
    simp [wordsOf, coarse, pos, thinTriangle]
  have w1 : wordsOf coarse (pos thinTriangle 1) = [0, 0, 0] := by
    simp [wordsOf, coarse, pos, thinTriangle]
  have w2 : wordsOf coarse (pos thinTriangle 2) = [0, 0, 0] := by
    simp [wordsOf, coarse, pos, thinTriangle]
  have hp : ([[0, 1, 2]] : List (List Nat)).map
      (fun l => l.map (placeOf uniqueDedup coarse thinTriangle [[0, 1, 2]])) = [[0, 1, 1]] := by
    simp only [placeOf, List.flatMap_cons, List.flatMap_nil, List.map_cons, List.map_nil, w0, w1, w2,
      uniqueDedup]
    decide
  rw [hp] at hl
  obtain ⟨t, ht, h2, h1⟩ : ∃ t, fromSimplices List.dedup 3 [[0, 1, 1]] = .ok t ∧
      t.elements[2]? = some [[0, 1, 1]] ∧ t.elements[1]? = some [[1, 1], [1, 0]] :=
    ⟨⟨[[[0], [1]], [[1, 1], [1, 0]], [[0, 1, 1]]], [[[1, 1], [1, 0]], [[0, 1, 1]]],
      [[[-1, 1], [-1, 1]], [[-1, -1, 1]]]⟩, by decide +kernel, rfl, rfl⟩
  rw [ht] at hl
  exact ⟨_, _, t, thin_mesh, uniqueDedup_spec, uniqSpec_dedup, saveSTL_ok thin_mesh, hl, h2, h1⟩

/-- the hypotheses of the theorems hold for a tetrahedron -/
noncomputable def tetraReal : List (Vec ℝ 3) := [![0, 0, 0], ![1, 0, 0], ![0, 1, 0], ![0, 0, 1]]

example : ∃ file W t T', saveSTL coarse roundNan tetraReal tetraSurface = .ok file ∧
    loadSTL value uniqueDedup List.dedup file = .ok (W, t) ∧ t.elements[2]? = some T' ∧ ClosedSurface T' := by
  refine C73_closed uniqueDedup_spec uniqSpec_dedup
    ⟨simplices_of_all (by decide), by unfold tetraReal; decide⟩ (by decide) ?_ tetra_closed
  have key : ∀ a < 4, ∀ b < 4, (∀ i, coarse (pos tetraReal a i) = coarse (pos tetraReal b i)) → a = b := by
    intro a ha b hb hi
    have h0 := hi 0
    have h1 := hi 1
    have h2 := hi 2
    interval_cases a <;> interval_cases b <;> simp_all [coarse, pos, tetraReal]
  intro l hl a ha b hb
  have : ∀ l ∈ tetraSurface, ∀ a ∈ l, a < 4 := by decide
  exact key a (this l hl a ha) b (this l hl b hb)

end Verif.Props
