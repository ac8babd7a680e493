/-
C80: picking and sampling on regular complexes.
-/
import Verif.Lemmas.RegularPicking
import Verif.Lemmas.CubeAveraging
import Verif.Props.RegularMetric
import Verif.Props.Sampling

set_option linter.unusedSectionVars false

namespace Verif.Props

open Verif.Model Verif.Spec

variable {K : Type} [Field K] [LinearOrder K] [IsStrictOrderedRing K]
variable {uniq : List (List Nat) → List (List Nat)}
variable {cubes : List (List Nat)} {t : Topo} {n : Nat} {V : List (Vec K n)} {nearest : List (Vec K n) → Vec K n → Nat}

theorem getElem?_mapM {α β : Type} {f : α → Except PyErr β} : ∀ {l : List α} {r : List β}, l.mapM f = .ok r →
    r.length = l.length ∧ ∀ (k : Nat) (a : α), l[k]? = some a → ∃ b, r[k]? = some b ∧ f a = .ok b := by
  intro l
  induction l with
  | nil =>
    intro r h
    obtain rfl : [] = r := by simpa [pure, Except.pure] using h
    simp
  | cons x l ih =>
    intro r h
    rw [List.mapM_cons] at h
    cases hx : f x with
    | error e => simp [hx, bind, Except.bind] at h
    | ok y =>
      cases hl : l.mapM f with
      | error e => simp [hx, hl, bind, Except.bind] at h
      | ok ys =>
        simp only [hx, hl, bind, Except.bind, pure, Except.pure] at h
        obtain rfl := Except.ok.inj h
        obtain ⟨h1, h2⟩ := ih hl
        refine ⟨by simp [h1], fun k a hk => ?_⟩
        cases k with
        | zero => obtain rfl := Option.some.inj hk; exact ⟨y, rfl, hx⟩
        | succ k => exact h2 k a hk

theorem regularPrecomp_ok (w : CWF n cubes t) (hn : 1 ≤ n) (hbox : ∀ l ∈ cubes, IsBox V l) :
    regularPrecomp t V = .ok (cubes.map fun l => cubeBasis (l.map fun v => V[v]?.getD 0)) := by
  unfold regularPrecomp
  rw [w.lenB, w.top_eq]
  refine mapM_ok _ _ _ fun l hl => ?_
  obtain ⟨j, hj⟩ := List.mem_iff_getElem?.1 hl
  rw [mapM_ok (vertexAt V) (fun v => V[v]?.getD 0) l]
  · rfl
  · intro v hv
    have := boxes_lt w hn hbox (le_refl n) ((stored_top w).2 hj) hv
    unfold vertexAt
    rw [List.getElem?_eq_getElem this]
    rfl

/-- the cube that is picked, for one point in a cell -/
theorem query_grid (w : CWF n cubes t) (hn : 1 ≤ n) (hbox : ∀ l ∈ cubes, IsBox V l)
    {o h : Vec K n} (hg : OnGrid V cubes o h) (hnear : NearestSite nearest) {p : Vec K n} (hp : ∃ l ∈ cubes, InBox V l p) :
    ∃ i b l, queryCube nearest (cubes.map fun l => cubeBasis (l.map fun v => V[v]?.getD 0)) p = .ok (i, b) ∧
      cubes[i]? = some l ∧ InBox V l p ∧ ∀ q, 0 ≤ b q ∧ b q ≤ 1 ∧
        p q = cornerPosition V l 0 q + b q * (cornerPosition V l (2 ^ n - 1) q - cornerPosition V l 0 q) := by
  have hlen : ∀ l ∈ cubes, l.length = 2 ^ n := by
    intro l hl
    obtain ⟨j, hj⟩ := List.mem_iff_getElem?.1 hl
    exact (w.cube hn (le_refl n) ((stored_top w).2 hj)).1
  have hcell : ∀ l ∈ cubes, ∃ lo hi : Vec K n, ∃ σ : Equiv.Perm (Fin n), (∀ q, lo q ≠ hi q) ∧ BoxAt V l lo hi σ ∧
      cubeBasis (l.map fun v => V[v]?.getD 0) = (fun q => (lo q + hi q) / 2, lo, fun q => hi q - lo q) ∧
      ∀ q, |hi q - lo q| = h q ∧ ∃ z : ℤ, (lo q + hi q) / 2 = o q + (z + 1 / 2) * h q := by
    intro l hl
    obtain ⟨lo, hi, σ, hne, hb⟩ := hbox l hl
    have hb : BoxAt V l lo hi σ := hb
    refine ⟨lo, hi, σ, hne, hb, (hb.posBox (hlen l hl)).basis, fun q => ?_⟩
    obtain ⟨z, hz⟩ := hg.2 l hl q
    obtain ⟨h1, h2, -⟩ := hb.cell (hlen l hl) (hne q) (hg.1 q) hz
    exact ⟨h1, z, h2⟩
  set sites := cubes.map fun l => (cubeBasis (l.map fun v => V[v]?.getD 0)).1 with hsites
  obtain ⟨l, hl, hpl⟩ := hp
  obtain ⟨x, hx, hxp⟩ := nearest_cell hnear (sites := sites) (o := o) hg.1 (by
      intro y hy q
      obtain ⟨l, hl, rfl⟩ := List.mem_map.1 hy
      obtain ⟨lo, hi, σ, -, -, hbs, hc⟩ := hcell l hl
      obtain ⟨-, z, hz⟩ := hc q
      exact ⟨z, by rw [hbs]; exact hz⟩) (p := p) (List.mem_map.2 ⟨l, hl, rfl⟩) (by
      intro q
      obtain ⟨lo, hi, σ, -, hb, hbs, hc⟩ := hcell l hl
      rw [hbs]
      have h1 := (inBox_iff hb (hlen l hl)).1 hpl q
      rw [(hc q).1] at h1
      have h2 : p q - (lo q + hi q) / 2 = (2 * p q - (lo q + hi q)) / 2 := by ring
      simp only [h2, abs_div, abs_two]
      linarith)
  rw [hsites, List.getElem?_map] at hx
  obtain ⟨l', hl', rfl⟩ := Option.map_eq_some_iff.1 hx
  have hm := List.mem_of_getElem? hl'
  obtain ⟨lo, hi, σ, hne, hb, hbs, hc⟩ := hcell l' hm
  have hin : ∀ q, |2 * p q - (lo q + hi q)| ≤ |hi q - lo q| := by
    intro q
    have h1 := hxp q
    rw [hbs] at h1
    have h2 : p q - (lo q + hi q) / 2 = (2 * p q - (lo q + hi q)) / 2 := by ring
    simp only [h2, abs_div, abs_two] at h1
    rw [(hc q).1]
    linarith
  have hcorner : ∀ q, cornerPosition V l' 0 q = lo q ∧ cornerPosition V l' (2 ^ n - 1) q = hi q := by
    intro q
    constructor
    · have := hb.coord (hlen l' hm) (c := List.replicate n false) (by simp) q
      unfold cubeAt at this
      rw [ravel_false, if_neg (by rw [List.getElem?_replicate]; split <;> simp)] at this
      exact this
    · have := hb.coord (hlen l' hm) (c := List.replicate n true) (by simp) q
      unfold cubeAt at this
      rw [ravel_true, if_pos (by rw [List.getElem?_replicate, if_pos (σ.symm q).isLt])] at this
      exact this
  refine ⟨nearest sites p, fun q => (p q - lo q) / (hi q - lo q), l', ?_, hl', (inBox_iff hb (hlen l' hm)).2 hin, ?_⟩
  · unfold queryCube basisAt
    have : (cubes.map fun l => cubeBasis (l.map fun v => V[v]?.getD 0)).map Prod.fst = sites := by
      rw [List.map_map]; rfl
    have hl2 : cubes[nearest sites p]? = some l' := hl'
    simp only [this, List.getElem?_map, hl2, Option.map_some, hbs]
    rfl
  · intro q
    rw [(hcorner q).1, (hcorner q).2]
    exact baries_mem (hne q) (hin q)

/-- C80: on a complex of boxes that are cells of a grid, `pick_primal` finds for every point of the complex a cube that
contains it, and its coordinates in the cube -/
theorem C80_pick (hu : UniqSpec uniq) (hc : Cubes n cubes) (hn : 1 ≤ n) (ht : fromCubes uniq true n cubes = .ok t)
    (hbox : ∀ l ∈ cubes, IsBox V l) {o h : Vec K n} (hg : OnGrid V cubes o h) (hnear : NearestSite nearest)
    (points : List (Vec K n)) (hp : ∀ p ∈ points, ∃ l ∈ cubes, InBox V l p) :
    ∃ R, pickRegular nearest t V points none = .ok R ∧ R.length = points.length ∧
      ∀ (k : Nat) (p : Vec K n), points[k]? = some p → ∃ i b l, R[k]? = some (i, b) ∧ cubes[i]? = some l ∧ InBox V l p ∧
        ∀ q, 0 ≤ b q ∧ b q ≤ 1 ∧
        p q = cornerPosition V l 0 q + b q * (cornerPosition V l (2 ^ n - 1) q - cornerPosition V l 0 q) := by
  have w := fromCubes_wf hu hc ht
  have hall : ∃ R, pickRegular nearest t V points none = .ok R := by
    unfold pickRegular
    rw [regularPrecomp_ok w hn hbox, regular_bind]
    classical
    refine ⟨_, mapM_ok _ (fun p => if h : ∃ l ∈ cubes, InBox V l p then
      ((query_grid w hn hbox hg hnear h).choose, (query_grid w hn hbox hg hnear h).choose_spec.choose) else (0, 0)) _
      fun p hpp => ?_⟩
    rw [dif_pos (hp p hpp)]
    exact (query_grid w hn hbox hg hnear (hp p hpp)).choose_spec.choose_spec.choose_spec.1
  obtain ⟨R, hR⟩ := hall
  refine ⟨R, hR, ?_⟩
  unfold pickRegular at hR
  rw [regularPrecomp_ok w hn hbox, regular_bind] at hR
  obtain ⟨h1, h2⟩ := getElem?_mapM hR
  refine ⟨h1, fun k p hk => ?_⟩
  obtain ⟨x, hx, hq⟩ := h2 k p hk
  obtain ⟨i, b, l, g1, g2, g3, g4⟩ := query_grid w hn hbox hg hnear (hp p (List.mem_of_getElem? hk))
  rw [g1] at hq
  obtain rfl := Except.ok.inj hq
  exact ⟨i, b, l, hx, g2, g3, g4⟩

/-- the coordinates of a point with respect to a cube -/
theorem baries_cube (w : CWF n cubes t) (hn : 1 ≤ n) (hbox : ∀ l ∈ cubes, IsBox V l) {l : List Nat} (hl : l ∈ cubes)
    (p : Vec K n) (q : Fin n) :
    cubeBaries (cubeBasis (l.map fun v => V[v]?.getD 0)) p q =
      (p q - cornerPosition V l 0 q) / (cornerPosition V l (2 ^ n - 1) q - cornerPosition V l 0 q) ∧
    cornerPosition V l 0 q ≠ cornerPosition V l (2 ^ n - 1) q ∧
    ((0 ≤ cubeBaries (cubeBasis (l.map fun v => V[v]?.getD 0)) p q ∧
      cubeBaries (cubeBasis (l.map fun v => V[v]?.getD 0)) p q ≤ 1) ↔
      ∃ v ∈ l, ∃ x ∈ l, (V[v]?.getD 0) q ≤ p q ∧ p q ≤ (V[x]?.getD 0) q) := by
  obtain ⟨j, hj⟩ := List.mem_iff_getElem?.1 hl
  have hlen := (w.cube hn (le_refl n) ((stored_top w).2 hj)).1
  obtain ⟨lo, hi, σ, hne, hb⟩ := hbox l hl
  have hb : BoxAt V l lo hi σ := hb
  have h0 : cornerPosition V l 0 q = lo q := by
    have := hb.coord hlen (c := List.replicate n false) (by simp) q
    unfold cubeAt at this
    rw [ravel_false, if_neg (by rw [List.getElem?_replicate]; split <;> simp)] at this
    exact this
  have h1 : cornerPosition V l (2 ^ n - 1) q = hi q := by
    have := hb.coord hlen (c := List.replicate n true) (by simp) q
    unfold cubeAt at this
    rw [ravel_true, if_pos (by rw [List.getElem?_replicate, if_pos (σ.symm q).isLt])] at this
    exact this
  rw [(hb.posBox hlen).basis, h0, h1]
  refine ⟨rfl, hne q, ?_⟩
  have hin : (∃ v ∈ l, ∃ x ∈ l, (V[v]?.getD 0) q ≤ p q ∧ p q ≤ (V[x]?.getD 0) q) ↔
      |2 * p q - (lo q + hi q)| ≤ |hi q - lo q| := by
    constructor
    · rintro ⟨v, hv, x, hx, h1, h2⟩
      rw [abs_le]
      have h3 := le_abs_self (hi q - lo q)
      have h4 := neg_abs_le (hi q - lo q)
      rcases hb.ends hlen hv q with e | e <;> rcases hb.ends hlen hx q with e' | e' <;> rw [e] at h1 <;> rw [e'] at h2 <;>
        constructor <;> linarith
    · intro h
      have hdummy : InBox V l (fun r => if r = q then p q else lo r) := (inBox_iff hb hlen).2 fun r => by
        by_cases hr : r = q
        · subst hr; simpa using h
        · simp only [hr, if_false]
          have : 2 * lo r - (lo r + hi r) = -(hi r - lo r) := by ring
          rw [this, abs_neg]
      simpa using hdummy q
  rw [hin]
  constructor
  · intro h
    exact baries_inv (hne q) h
  · intro h
    exact ⟨(baries_mem (hne q) h).1, (baries_mem (hne q) h).2.1⟩

/-- C80: with a given cube for a point: a cube that contains the point is kept; if the point is on the wrong side of
the first corner of the cube in some coordinate, the result is that without a given cube; but a cube is also kept if the
point is beyond its last corner -/
theorem C80_hint (hu : UniqSpec uniq) (hc : Cubes n cubes) (hn : 1 ≤ n) (ht : fromCubes uniq true n cubes = .ok t)
    (hbox : ∀ l ∈ cubes, IsBox V l) (points : List (Vec K n)) (idx : List Nat) {R S : List (Nat × Vec K n)}
    (hR : pickRegular nearest t V points (some idx) = .ok R) (hS : pickRegular nearest t V points none = .ok S)
    {k i : Nat} {p : Vec K n} {l : List Nat} (hk : points[k]? = some p) (hi : idx[k]? = some i) (hl : cubes[i]? = some l) :
    (InBox V l p → ∃ b, R[k]? = some (i, b) ∧ ∀ q, 0 ≤ b q ∧ b q ≤ 1 ∧
      p q = cornerPosition V l 0 q + b q * (cornerPosition V l (2 ^ n - 1) q - cornerPosition V l 0 q)) ∧
    ((∃ q, (p q - cornerPosition V l 0 q) / (cornerPosition V l (2 ^ n - 1) q - cornerPosition V l 0 q) < 0) → R[k]? = S[k]?) ∧
    ((∀ q, 0 ≤ (p q - cornerPosition V l 0 q) / (cornerPosition V l (2 ^ n - 1) q - cornerPosition V l 0 q)) →
      ∃ b, R[k]? = some (i, b)) := by
  have w := fromCubes_wf hu hc ht
  have hm := List.mem_of_getElem? hl
  unfold pickRegular at hR hS
  rw [regularPrecomp_ok w hn hbox, regular_bind] at hR hS
  simp only at hR
  split at hR
  · obtain ⟨-, h2⟩ := getElem?_mapM hR
    obtain ⟨x, hx, hup⟩ := h2 k (p, i) (by rw [List.getElem?_zip_eq_some]; exact ⟨hk, hi⟩)
    obtain ⟨-, h3⟩ := getElem?_mapM hS
    obtain ⟨y, hy, hqu⟩ := h3 k p hk
    have hba : basisAt (cubes.map fun l => cubeBasis (l.map fun v => V[v]?.getD 0)) i =
        .ok (cubeBasis (l.map fun v => V[v]?.getD 0)) := by
      unfold basisAt
      rw [List.getElem?_map, hl]
      rfl
    unfold updateCube at hup
    rw [hba, regular_bind] at hup
    have hbar := baries_cube w hn hbox hm p
    have hkeep : (∀ q, 0 ≤ cubeBaries (cubeBasis (l.map fun v => V[v]?.getD 0)) p q) →
        R[k]? = some (i, cubeBaries (cubeBasis (l.map fun v => V[v]?.getD 0)) p) := by
      intro hq
      rw [if_neg (by push Not; exact hq)] at hup
      obtain rfl := Except.ok.inj hup
      exact hx
    refine ⟨fun hin => ?_, fun hneg => ?_, fun hpos => ⟨_, hkeep fun q => by rw [(hbar q).1]; exact hpos q⟩⟩
    · have hq := fun q => (hbar q).2.2.2 (hin q)
      refine ⟨_, hkeep fun q => (hq q).1, fun q => ⟨(hq q).1, (hq q).2, ?_⟩⟩
      rw [(hbar q).1]
      have := sub_ne_zero.2 (hbar q).2.1.symm
      field_simp
      ring
    · rw [if_pos (by obtain ⟨q, hq⟩ := hneg; exact ⟨q, by rw [(hbar q).1]; exact hq⟩), hqu] at hup
      obtain rfl := Except.ok.inj hup
      rw [hx, hy]
  · exact absurd hR (by simp)

/-! ### sampling -/

theorem upright_refl {l : List Nat} {lo hi : Vec K n} {σ : Equiv.Perm (Fin n)} (hb : BoxAt V l lo hi σ)
    (hne : ∀ q, lo q ≠ hi q) (hl : l.length = 2 ^ n) (hup : Upright V l) : σ = Equiv.refl _ := by
  ext1 a
  by_contra hneq
  have hc : (List.replicate n false).length = n := by simp
  have hlt := ravel_lt (List.replicate n false)
  have hlt' := ravel_lt ((List.replicate n false).set a.val true)
  rw [hc, ← hl] at hlt
  rw [List.length_set, hc, ← hl] at hlt'
  have hnot : (!((List.replicate n false)[a.val]?.getD false)) = true := by
    rw [List.getElem?_replicate, if_pos a.isLt]; rfl
  have h := hup (List.replicate n false) _ _ a hc (List.getElem?_eq_getElem hlt)
    (by rw [hnot]; exact List.getElem?_eq_getElem hlt') (σ a) hneq
  have h1 := hb.coord hl hc (σ a)
  have h2 := hb.coord hl (c := (List.replicate n false).set a.val true) (by simp) (σ a)
  unfold cubeAt at h1 h2
  rw [List.getElem?_eq_getElem hlt, Option.getD_some, Equiv.symm_apply_apply, List.getElem?_replicate, if_pos a.isLt,
    if_neg (by simp)] at h1
  rw [List.getElem?_eq_getElem hlt', Option.getD_some, Equiv.symm_apply_apply,
    List.getElem?_set_self (by simp), if_pos rfl] at h2
  exact hne (σ a) (by rw [← h1, ← h2, h])

/-- a function that is affine in every coordinate, in the coordinates of a box -/
theorem affine_box {f : Vec K n → K} (hf : AffineInEach f) (lo hi : Vec K n) :
    MultiAffine n fun x : List K => f fun q => lo q + x[q.val]?.getD 0 * (hi q - lo q) := by
  intro p r s hlen
  have hup : ∀ y : K, (fun q : Fin n => lo q + ((p ++ y :: r)[q.val]?.getD 0) * (hi q - lo q)) =
      Function.update (fun q : Fin n => lo q + ((p ++ 0 :: r)[q.val]?.getD 0) * (hi q - lo q))
        ⟨p.length, by omega⟩ (lo ⟨p.length, by omega⟩ + y * (hi ⟨p.length, by omega⟩ - lo ⟨p.length, by omega⟩)) := by
    intro y
    funext q
    by_cases hq : q = ⟨p.length, by omega⟩
    · subst hq
      rw [Function.update_self]
      simp
    · rw [Function.update_of_ne hq]
      have hne : q.val ≠ p.length := fun e => hq (Fin.ext e)
      congr 3
      rcases lt_or_gt_of_ne hne with h | h
      · rw [List.getElem?_append_left h, List.getElem?_append_left h]
      · rw [List.getElem?_append_right (by omega), List.getElem?_append_right (by omega)]
        obtain ⟨m, hm⟩ : ∃ m, q.val - p.length = m + 1 := ⟨q.val - p.length - 1, by omega⟩
        rw [hm, List.getElem?_cons_succ, List.getElem?_cons_succ]
  have key := hf (fun q : Fin n => lo q + ((p ++ 0 :: r)[q.val]?.getD 0) * (hi q - lo q)) ⟨p.length, by omega⟩
    (lo ⟨p.length, by omega⟩) (hi ⟨p.length, by omega⟩) s
  have es := congrArg f (hup s)
  have e1 := congrArg f (hup 1)
  have e0 := congrArg f (hup 0)
  rw [show lo ⟨p.length, by omega⟩ + s * (hi ⟨p.length, by omega⟩ - lo ⟨p.length, by omega⟩) =
    (1 - s) * lo ⟨p.length, by omega⟩ + s * hi ⟨p.length, by omega⟩ by ring] at es
  rw [one_mul, add_sub_cancel] at e1
  rw [zero_mul, add_zero] at e0
  refine es.trans (key.trans ?_)
  rw [← e0, ← e1]

theorem cornerNumber_lt {c : List Nat} (hc : c.length = n) : cornerNumber c < 2 ^ n := by
  have := ravel_lt (c.map fun x => x == 1)
  rwa [List.length_map, hc] at this

/-- C80: on a complex of upright boxes that are cells of a grid `sample_primal_0` reproduces every function that is
affine in each coordinate, at every point of the complex -/
theorem C80_sample (hu : UniqSpec uniq) (hc : Cubes n cubes) (hn : 1 ≤ n) (ht : fromCubes uniq true n cubes = .ok t)
    (hbox : ∀ l ∈ cubes, IsBox V l) (hup : ∀ l ∈ cubes, Upright V l) {o h : Vec K n} (hg : OnGrid V cubes o h)
    (hnear : NearestSite nearest) {f : Vec K n → K} (hf : AffineInEach f) (points : List (Vec K n))
    (hp : ∀ p ∈ points, ∃ l ∈ cubes, InBox V l p) :
    sampleRegular nearest t V (V.map f) points = .ok (points.map f) := by
  have w := fromCubes_wf hu hc ht
  obtain ⟨R, hR, hlen, hget⟩ := C80_pick hu hc hn ht hbox hg hnear points hp
  unfold sampleRegular
  rw [hR, regular_bind, w.lenB, w.top_eq]
  simp only [Option.getD_some]
  have hval : ∀ (k : Nat) (ib : Nat × Vec K n), R[k]? = some ib → ∃ p, points[k]? = some p ∧
      (do
        let verts ← domainRow cubes ib.1
        let values ← verts.mapM fun v : Nat => match ((V.map f)[v]? : Option K) with
          | some x => .ok x
          | none => .error .indexError
        (.ok (samplePrimal0 (fun c => values[cornerNumber c]?.getD 0) (List.ofFn ib.2)) : Except PyErr K)) = .ok (f p) := by
    intro k ib hk
    have hkl := (List.getElem?_eq_some_iff.1 hk).1
    rw [hlen] at hkl
    refine ⟨points[k], List.getElem?_eq_getElem hkl, ?_⟩
    obtain ⟨i, b, l, h1, h2, h3, h4⟩ := hget k _ (List.getElem?_eq_getElem hkl)
    rw [hk] at h1
    obtain rfl := Option.some.inj h1
    have hm := List.mem_of_getElem? h2
    have hll := (w.cube hn (le_refl n) ((stored_top w).2 h2)).1
    have hrow : domainRow cubes i = .ok l := by unfold domainRow; rw [h2]
    simp only
    rw [hrow, regular_bind, mapM_ok _ (fun v => f (V[v]?.getD 0)) l, regular_bind]
    · congr 1
      obtain ⟨lo, hi, σ, hne, hb⟩ := hbox l hm
      have hb : BoxAt V l lo hi σ := hb
      obtain rfl := upright_refl hb hne hll (hup l hm)
      have hbar := fun q => baries_cube w hn hbox hm points[k] q
      have hex := C44_multilinear_exact (fun x : List K => f fun q => lo q + x[q.val]?.getD 0 * (hi q - lo q)) (List.ofFn b)
        (by rw [List.length_ofFn]; exact affine_box hf lo hi) (by
          intro y hy
          obtain ⟨q, rfl⟩ := (List.mem_ofFn' b y).1 hy
          exact ⟨(h4 q).1, (h4 q).2.1⟩)
      have hcp : ∀ q, cornerPosition V l 0 q = lo q ∧ cornerPosition V l (2 ^ n - 1) q = hi q := by
        intro q
        constructor
        · have := hb.coord hll (c := List.replicate n false) (by simp) q
          unfold cubeAt at this
          rw [ravel_false, if_neg (by rw [List.getElem?_replicate]; split <;> simp)] at this
          exact this
        · have := hb.coord hll (c := List.replicate n true) (by simp) q
          unfold cubeAt at this
          rw [ravel_true, if_pos (by rw [List.getElem?_replicate, if_pos ((Equiv.refl (Fin n)).symm q).isLt])] at this
          exact this
      have hfin : (fun q : Fin n => lo q + (List.ofFn b)[q.val]?.getD 0 * (hi q - lo q)) = points[k] := by
        funext q
        rw [List.getElem?_ofFn, dif_pos q.isLt, Option.getD_some, (h4 q).2.2, (hcp q).1, (hcp q).2]
      rw [hfin] at hex
      rw [← hex]
      unfold samplePrimal0
      simp only [List.length_map, List.length_ofFn]
      congr 1
      refine List.map_congr_left fun c hcc => ?_
      congr 1
      obtain ⟨hcl, h01⟩ := (C44_corners n c).1.1 hcc
      have hlt := cornerNumber_lt hcl
      rw [List.getElem?_map, List.getElem?_eq_getElem (by rw [hll]; exact hlt), Option.map_some, Option.getD_some]
      congr 1
      funext q
      have hco := hb.coord hll (c := c.map fun x => x == 1) (by simpa using hcl) q
      unfold cubeAt at hco
      have hgl : l[ravel (c.map fun x => x == 1)]? = some (l[cornerNumber c]'(by rw [hll]; exact hlt)) :=
        List.getElem?_eq_getElem (l := l) (by rw [hll]; exact hlt)
      rw [hgl, Option.getD_some] at hco
      refine Eq.trans hco ?_
      have hq : q.val < c.length := by rw [hcl]; exact q.isLt
      simp only [Equiv.refl_symm, Equiv.refl_apply, List.getElem?_map, List.getElem?_eq_getElem hq, Option.map_some,
        Option.getD_some]
      rcases h01 c[q.val] (List.getElem_mem hq) with e | e <;> rw [e] <;> simp
    · intro v hv
      have := boxes_lt w hn hbox (le_refl n) ((stored_top w).2 h2) hv
      rw [List.getElem?_map, List.getElem?_eq_getElem this]
      rfl
  have hall : ∀ (R : List (Nat × Vec K n)) (P : List (Vec K n)) (F : Nat × Vec K n → Except PyErr K), R.length = P.length →
      (∀ (k : Nat) (ib : Nat × Vec K n), R[k]? = some ib → ∃ p, P[k]? = some p ∧ F ib = .ok (f p)) →
      R.mapM F = .ok (P.map f) := by
    intro R
    induction R with
    | nil =>
      intro P F hl _
      obtain rfl := List.length_eq_zero_iff.1 hl.symm
      rfl
    | cons x R ih =>
      intro P F hl hF
      match P, hl with
      | y :: P, hl =>
        obtain ⟨p, h1, h2⟩ := hF 0 x rfl
        obtain rfl := Option.some.inj h1
        rw [List.mapM_cons, h2, regular_bind, ih P F (by simpa using hl) fun k ib hk => hF (k + 1) ib hk]
        rfl
  exact hall R points _ hlen hval

end Verif.Props
