import Verif.Lemmas.SimLik
import Verif.Props.SimNll
import Verif.Props.CovSpecs
import Mathlib.Tactic.IntervalCases
import Mathlib.Algebra.Order.Star.Real

/-!
# The likelihood of several variates (C73)

`eigh` is any function meeting the specification of `np.linalg.eigh`; such functions exist (`eighAll_exists`).
-/

namespace Verif.Sim

open Verif.Cov Matrix

variable {eigh : (d : Nat) → Mat d → List (Pair d)} {d : Nat} {mean std drift vol : List ℝ} {c dx x : Arr} {dt : ℝ}

theorem eighAll_exists : ∃ eigh, EighAll eigh :=
  ⟨fun d => (eigh_exists (n := d)).choose, fun d => (eigh_exists (n := d)).choose_spec⟩

theorem bcol_eq {a : Arr} {i j : Nat} (hj : j < a.cols) : bcol a i j = a.get i j := by
  unfold bcol
  split
  · rename_i h; rw [show j = 0 by omega]
  · rfl

/-! ### The value -/

/-- The multivariate branch: the shapes, and when a value is returned. -/
theorem mvnNll_eq (he : EighAll eigh) (hm : mean.length = d) (hs : std.length = d) (hd : 0 < d) (hc : SymArr d c)
    (hx : dx.cols = d) :
    ((covOf d (fun k => std.getD k 0) c).PosDef → mvnNll eigh mean std c dx =
      .ok (.fin (-∑ i ∈ Finset.range dx.rows, logDensity (fun k => mean.getD k 0) (covOf d (fun k => std.getD k 0) c)
        fun k => dx.get i k))) ∧
    (¬ (covOf d (fun k => std.getD k 0) c).PosDef → ∃ e, mvnNll eigh mean std c dx = .error e) := by
  subst hs
  have hsym := covMat_symm (d := std.length) std c
  obtain ⟨h1, h2, -⟩ := he std.length (covMat std.length std c) hsym
  have hcov := covMat_eq (std := std) hc
  have hck := psdCheck_ok hsym h1 h2
  rw [hcov] at hck
  unfold mvnNll
  rw [if_neg (not_not.mpr ⟨hc.rows, hc.cols⟩), if_neg (by omega)]
  constructor
  · intro hp
    rw [hcov, hck.mpr hp]
    show (if _ then _ else _) = _
    rw [if_pos (Or.inl hx)]
    congr 3
    refine Finset.sum_congr rfl fun i _ => ?_
    rw [← mvnLogpdf_eq (hcov ▸ hsym) (hcov ▸ h1) (hcov ▸ h2) hp]
    congr 1
    funext k
    rw [bcol_eq (by omega)]
  · intro hp
    rw [hcov]
    cases hr : psdCheck (eigh std.length (covOf std.length (fun k => std.getD k 0) c)) with
    | error e => exact ⟨e, rfl⟩
    | ok u => exact absurd (hck.mp hr) hp

/-- C73. With a correlation matrix, `BrownianMotion.nll` is minus the sum of the logarithms of the normal density of the
increments, with mean `drift dt` and covariance `vol_i vol_j cor_ij dt`; a value is returned exactly when this matrix is
positive definite. -/
theorem bm_nll_density (he : EighAll eigh) (hm : drift.length = d) (hv : vol.length = d) (hd : 0 < d) (hc : SymArr d c)
    (hx : x.cols = d) :
    ((covOf d (fun k => vol.getD k 0 * Real.sqrt dt) c).PosDef → bmNllFull eigh drift vol (some c) x dt =
      .ok (.fin (-∑ t ∈ Finset.range (x.rows - 1), logDensity (fun k => drift.getD k 0 * dt)
        (covOf d (fun k => vol.getD k 0 * Real.sqrt dt) c) fun k => inc x k t))) ∧
    (¬ (covOf d (fun k => vol.getD k 0 * Real.sqrt dt) c).PosDef → ∃ e, bmNllFull eigh drift vol (some c) x dt = .error e) := by
  have e1 : ∀ k, (vol.map (· * Real.sqrt dt)).getD k 0 = vol.getD k 0 * Real.sqrt dt := fun k => by
    simp only [List.getD_eq_getElem?_getD, List.getElem?_map]
    cases vol[k]? <;> simp
  have e2 : ∀ k, (drift.map (· * dt)).getD k 0 = drift.getD k 0 * dt := fun k => by
    simp only [List.getD_eq_getElem?_getD, List.getElem?_map]
    cases drift[k]? <;> simp
  have h := mvnNll_eq (mean := drift.map (· * dt)) (std := vol.map (· * Real.sqrt dt)) (dx := diffRows x) he
    (by simpa using hm) (by simpa using hv) hd hc hx
  simp only [e1, e2] at h
  refine ⟨fun hp => (h.1 hp).trans ?_, fun hp => h.2 hp⟩
  congr 3
  refine Finset.sum_congr rfl fun t _ => ?_
  congr 1
  funext k
  unfold inc Arr.get diffRows
  simp only
  congr 2
  ring

/-! ### No correlation and the identity matrix -/

theorem normNll_eq (hm : mean.length = d) (hs : std.length = d) (hx : dx.cols = d) (hpos : ∀ k < d, 0 < std.getD k 0) :
    normNll mean std dx = .ok (.fin (-∑ i ∈ Finset.range dx.rows, ∑ j ∈ Finset.range d,
      normLogpdf (mean.getD j 0) (std.getD j 0) (dx.get i j))) := by
  have hb : ∀ l : List ℝ, l.length = d → ∀ j < d, bentry l j = l.getD j 0 := by
    intro l hl j hj
    unfold bentry
    split
    · rw [show j = 0 by omega]
    · rfl
  unfold normNll
  rw [hx, hm, hs]
  have : bdim d d = .ok d := by unfold bdim; rw [if_pos rfl]
  rw [this]
  show (bdim d d >>= _) = _
  rw [this]
  show (if _ then _ else _) = _
  rw [if_neg]
  · congr 3
    refine Finset.sum_congr rfl fun i _ => Finset.sum_congr rfl fun j hj => ?_
    have hj := Finset.mem_range.mp hj
    rw [hb mean hm j hj, hb std hs j hj, bcol_eq (by omega)]
  · rintro ⟨-, j, hj, h⟩
    rw [hb std hs j hj] at h
    exact absurd (hpos j hj) (not_lt.mpr h)

/-- The density with a diagonal covariance matrix is the product of the densities of the variates. -/
theorem logDensity_diagonal (μ s y : Fin d → ℝ) (hs : ∀ k, 0 < s k) :
    logDensity μ (diagonal fun k => s k ^ 2) y = ∑ k, normLogpdf (μ k) (s k) (y k) := by
  unfold logDensity
  have hinv : (diagonal fun k => s k ^ 2)⁻¹ = diagonal fun k => (s k ^ 2)⁻¹ := by
    apply Matrix.inv_eq_right_inv
    rw [diagonal_mul_diagonal, ← diagonal_one]
    congr 1
    funext k
    have := (hs k).ne'
    field_simp
  rw [hinv, det_diagonal, Real.log_prod fun k _ => (pow_pos (hs k) 2).ne']
  have hq : dotProduct (y - μ) ((diagonal fun k => (s k ^ 2)⁻¹).mulVec (y - μ)) = ∑ k, (y k - μ k) ^ 2 / s k ^ 2 := by
    unfold dotProduct
    refine Finset.sum_congr rfl fun k _ => ?_
    rw [mulVec_diagonal]
    simp only [Pi.sub_apply]
    have := (hs k).ne'
    field_simp
  have hc : (d : ℝ) * Real.log (2 * Real.pi) = ∑ _k : Fin d, Real.log (2 * Real.pi) := by simp
  rw [hq, hc, ← Finset.sum_add_distrib, ← Finset.sum_add_distrib, Finset.mul_sum]
  refine Finset.sum_congr rfl fun k _ => ?_
  unfold normLogpdf
  rw [Real.log_pow]
  have := (hs k).ne'
  field_simp
  push_cast
  ring

/-- C73. The identity as correlation matrix gives the same likelihood as no correlation matrix, for every number of
variates and positive standard deviations (the two cases are computed by different scipy classes). -/
theorem nll_identity (he : EighAll eigh) (hm : mean.length = d) (hs : std.length = d) (hd : 0 < d) (hr : c.rows = d)
    (hcc : c.cols = d) (hid : ∀ i < d, ∀ j < d, c.get i j = if i = j then 1 else 0) (hx : dx.cols = d)
    (hpos : ∀ k < d, 0 < std.getD k 0) :
    gaussNll eigh mean std (some c) dx = gaussNll eigh mean std none dx ∧ ∃ r, gaussNll eigh mean std none dx = .ok (.fin r) := by
  have hc : SymArr d c := ⟨hr, hcc, fun i hi j hj => by rw [hid i hi j hj, hid j hj i hi]; simp [eq_comm]⟩
  have hcov : covOf d (fun k => std.getD k 0) c = diagonal fun k : Fin d => std.getD k 0 ^ 2 := by
    ext i j
    unfold covOf
    rw [hid i i.2 j j.2, diagonal_apply]
    by_cases h : i = j
    · subst h; simp; ring
    · rw [if_neg (by simpa [Fin.ext_iff] using h), if_neg h, mul_zero]
  have hp : (covOf d (fun k => std.getD k 0) c).PosDef := by
    rw [hcov]
    exact Matrix.PosDef.diagonal fun k => pow_pos (hpos k k.2) 2
  have h1 := (mvnNll_eq (mean := mean) he hm hs hd hc hx).1 hp
  have h2 := normNll_eq hm hs hx hpos
  refine ⟨?_, ⟨_, h2⟩⟩
  show mvnNll eigh mean std c dx = normNll mean std dx
  rw [h1, h2]
  congr 3
  refine Finset.sum_congr rfl fun i _ => ?_
  rw [hcov, logDensity_diagonal _ _ _ fun k => hpos k k.2, Finset.sum_range]

/-- C73. Without a correlation matrix the likelihood is the sum of the likelihoods of the columns (`bmNll` is the model of
one variate, C67). -/
theorem bm_nll_columns (hm : drift.length = d) (hv : vol.length = d) (hx : x.cols = d) (hpos : ∀ k < d, 0 < vol.getD k 0)
    (hdt : 0 < dt) : bmNllFull eigh drift vol none x dt =
      .ok (.fin (∑ j ∈ Finset.range d, bmNll (drift.getD j 0) (vol.getD j 0) dt (x.col j))) := by
  have e1 : ∀ k, (vol.map (· * Real.sqrt dt)).getD k 0 = vol.getD k 0 * Real.sqrt dt := fun k => by
    simp only [List.getD_eq_getElem?_getD, List.getElem?_map]
    cases vol[k]? <;> simp
  have e2 : ∀ k, (drift.map (· * dt)).getD k 0 = drift.getD k 0 * dt := fun k => by
    simp only [List.getD_eq_getElem?_getD, List.getElem?_map]
    cases drift[k]? <;> simp
  have h := normNll_eq (mean := drift.map (· * dt)) (std := vol.map (· * Real.sqrt dt)) (dx := diffRows x) (d := d)
    (by simpa using hm) (by simpa using hv) hx (fun k hk => by rw [e1]; exact mul_pos (hpos k hk) (Real.sqrt_pos.mpr hdt))
  refine Eq.trans h ?_
  congr 2
  rw [Finset.sum_comm, ← Finset.sum_neg_distrib]
  refine Finset.sum_congr rfl fun j _ => ?_
  rw [e1, e2]
  unfold bmNll nllCol Arr.col
  have hr : (diffRows x).rows = x.rows - 1 := rfl
  rw [hr]
  cases hn : x.rows with
  | zero => simp [diffs]
  | succ n =>
    rw [diffs_range, List.map_map, sum_range_map]
    rw [Nat.add_sub_cancel]
    congr 1
    refine Finset.sum_congr rfl fun t _ => ?_
    simp only [Function.comp]
    congr 1
    unfold Arr.get diffRows
    simp only
    congr 2
    ring

/-! ### Only the rows matter, one by one -/

/-- Row `y` under broadcasting of `v` columns. -/
def brow (v : Nat) (y : Nat → ℝ) (j : Nat) : ℝ := if v = 1 then y 0 else y j

/-- For a given number of columns, either every array is refused in the same way, or the likelihood is a sum over the rows
of a function of the row (or `nan`, for a standard deviation that is not positive and at least one row). -/
theorem gauss_shape (eigh : (d : Nat) → Mat d → List (Pair d)) (mean std : List ℝ) (cor : Option Arr) (v : Nat) :
    (∃ e, ∀ dx : Arr, dx.cols = v → gaussNll eigh mean std cor dx = .error e) ∨
    (∃ (f : (Nat → ℝ) → ℝ) (bad : Prop), (∀ y y', (∀ j < v, y j = y' j) → f y = f y') ∧ ∀ dx : Arr, dx.cols = v →
      ((bad ∧ dx.rows ≠ 0) → gaussNll eigh mean std cor dx = .ok .nan) ∧
      (¬ (bad ∧ dx.rows ≠ 0) → gaussNll eigh mean std cor dx = .ok (.fin (∑ i ∈ Finset.range dx.rows, f (dx.get i))))) := by
  have hbd : ∀ a b c, bdim a b = .ok c → a = c ∨ a = 1 := by
    intro a b c h
    unfold bdim at h
    split at h
    · left; cases h; rfl
    · split at h
      · right; assumption
      · split at h
        · left; cases h; rfl
        · cases h
  cases cor with
  | none =>
    show (∃ e, ∀ dx : Arr, dx.cols = v → normNll mean std dx = .error e) ∨ _
    cases h1 : bdim v mean.length with
    | error e =>
      left
      refine ⟨e, ?_⟩
      intro dx hv
      unfold normNll
      rw [hv, h1]
      rfl
    | ok c1 =>
      cases h2 : bdim c1 std.length with
      | error e =>
        left
        refine ⟨e, ?_⟩
        intro dx hv
        unfold normNll
        rw [hv, h1]
        show (bdim c1 std.length >>= _) = _
        rw [h2]
        rfl
      | ok c2 =>
        right
        refine ⟨fun y => -∑ j ∈ Finset.range c2, normLogpdf (bentry mean j) (bentry std j) (brow v y j),
          ∃ j < c2, bentry std j ≤ 0, ?_, ?_⟩
        · intro y y' hy
          refine congrArg (- ·) (Finset.sum_congr rfl fun j hj => ?_)
          have hj := Finset.mem_range.mp hj
          refine congrArg (normLogpdf _ _) ?_
          unfold brow
          split
          · rename_i hv; exact hy 0 (by omega)
          · rename_i hv
            have := hbd _ _ _ h1
            have := hbd _ _ _ h2
            have h3 : c1 = v := by omega
            rcases hbd _ _ _ h2 with h4 | h4
            · exact hy j (by omega)
            · omega
        · intro dx hv
          have e : ∀ i, (∑ j ∈ Finset.range c2, normLogpdf (bentry mean j) (bentry std j) (bcol dx i j)) =
              ∑ j ∈ Finset.range c2, normLogpdf (bentry mean j) (bentry std j) (brow v (dx.get i) j) := by
            intro i; unfold bcol brow; rw [hv]
          constructor
          · rintro ⟨hb, hr⟩
            show normNll mean std dx = _
            unfold normNll
            rw [hv, h1]
            show (bdim c1 std.length >>= _) = _
            rw [h2]
            show (if _ then _ else _) = _
            rw [if_pos ⟨hr, hb⟩]
          · intro hb
            show normNll mean std dx = _
            unfold normNll
            rw [hv, h1]
            show (bdim c1 std.length >>= _) = _
            rw [h2]
            show (if _ then _ else _) = _
            rw [if_neg fun h => hb ⟨h.2, h.1⟩, Finset.sum_neg_distrib, Finset.sum_congr rfl fun i _ => e i]
  | some c =>
    show (∃ e, ∀ dx : Arr, dx.cols = v → mvnNll eigh mean std c dx = .error e) ∨ _
    by_cases h1 : c.rows = std.length ∧ c.cols = std.length
    · by_cases h2 : mean.length ≠ std.length ∨ std.length = 0
      · left
        refine ⟨.valueError, fun dx _ => ?_⟩
        unfold mvnNll
        rw [if_neg (not_not.mpr h1), if_pos h2]
      · cases h3 : psdCheck (eigh std.length (covMat std.length std c)) with
        | error e =>
          left
          refine ⟨e, fun dx _ => ?_⟩
          unfold mvnNll
          rw [if_neg (not_not.mpr h1), if_neg h2, h3]
          rfl
        | ok u =>
          by_cases h4 : v = std.length ∨ v = 1
          · right
            refine ⟨fun y => -mvnLogpdf (eigh std.length (covMat std.length std c)) fun k => brow v y k - mean.getD k 0,
              False, ?_, ?_⟩
            · intro y y' hy
              refine congrArg (fun u => -mvnLogpdf _ u) (funext fun k => congrArg (· - _) ?_)
              unfold brow
              split
              · exact hy 0 (by omega)
              · exact hy k (by omega)
            · intro dx hv
              refine ⟨fun h => h.1.elim, fun _ => ?_⟩
              show mvnNll eigh mean std c dx = _
              unfold mvnNll
              rw [if_neg (not_not.mpr h1), if_neg h2, h3]
              show (if _ then _ else _) = _
              rw [if_pos (by rw [hv]; exact h4), Finset.sum_neg_distrib]
              unfold bcol brow
              rw [hv]
          · left
            refine ⟨.valueError, fun dx hv => ?_⟩
            unfold mvnNll
            rw [if_neg (not_not.mpr h1), if_neg h2, h3]
            show (if _ then _ else _) = _
            rw [if_neg (by rw [hv]; exact h4)]
    · left
      refine ⟨.valueError, fun dx _ => ?_⟩
      unfold mvnNll
      rw [if_pos h1]

/-- The first rows, and the rest of the rows. -/
def takeRows (n : Nat) (a : Arr) : Arr := ⟨n, a.cols, a.data⟩
def dropRows (n : Nat) (a : Arr) : Arr := ⟨a.rows - n, a.cols, fun k => a.data (k + n * a.cols)⟩

theorem get_dropRows (n : Nat) (a : Arr) (i j : Nat) : (dropRows n a).get i j = a.get (i + n) j := by
  unfold dropRows Arr.get
  simp only
  congr 1
  ring

theorem gauss_split (eigh : (d : Nat) → Mat d → List (Pair d)) (mean std : List ℝ) (cor : Option Arr) {a b e : Arr}
    (hb : b.cols = a.cols) (he : e.cols = a.cols) (hr : a.rows = b.rows + e.rows)
    (h1 : ∀ i < b.rows, ∀ j < a.cols, b.get i j = a.get i j) (h2 : ∀ i < e.rows, ∀ j < a.cols, e.get i j = a.get (b.rows + i) j) :
    gaussNll eigh mean std cor a = (do
      let u ← gaussNll eigh mean std cor b
      let w ← gaussNll eigh mean std cor e
      .ok (u + w)) := by
  rcases gauss_shape eigh mean std cor a.cols with ⟨er, h⟩ | ⟨f, bad, hf, h⟩
  · rw [h a rfl, h b hb]; rfl
  · by_cases hbad : bad
    · by_cases ha : a.rows = 0
      · rw [(h a rfl).2 (by tauto), (h b hb).2 (by have : b.rows = 0 := by omega
                                                   tauto), (h e he).2 (by have : e.rows = 0 := by omega
                                                                          tauto)]
        have e1 : b.rows = 0 := by omega
        have e2 : e.rows = 0 := by omega
        rw [ha, e1, e2]
        show Except.ok (XF.fin 0) = Except.ok (XF.fin (0 + 0))
        rw [add_zero]
      · rw [(h a rfl).1 ⟨hbad, ha⟩]
        by_cases hb0 : b.rows = 0
        · rw [(h b hb).2 (by tauto), (h e he).1 ⟨hbad, by omega⟩]
          rfl
        · rw [(h b hb).1 ⟨hbad, hb0⟩]
          by_cases he0 : e.rows = 0
          · rw [(h e he).2 (by tauto)]; rfl
          · rw [(h e he).1 ⟨hbad, he0⟩]; rfl
    · rw [(h a rfl).2 (by tauto), (h b hb).2 (by tauto), (h e he).2 (by tauto)]
      show _ = Except.ok (XF.fin _ + XF.fin _)
      have : ∑ i ∈ Finset.range a.rows, f (a.get i) =
          ∑ i ∈ Finset.range b.rows, f (b.get i) + ∑ i ∈ Finset.range e.rows, f (e.get i) := by
        rw [hr, Finset.sum_range_add]
        congr 1
        · exact Finset.sum_congr rfl fun i hi => hf _ _ fun j hj => (h1 i (Finset.mem_range.mp hi) j hj).symm
        · exact Finset.sum_congr rfl fun i hi => hf _ _ fun j hj => (h2 i (Finset.mem_range.mp hi) j hj).symm
      rw [this]
      rfl

/-- C73. The likelihood is additive along the path: for every cut, the value of the whole path is the value up to and
including the cut row plus the value from the cut row on (with the same errors and `nan`s), for Brownian and geometric
Brownian motion with or without correlation. -/
theorem bm_nll_additive (cor : Option Arr) {m : Nat} (hm : m < x.rows) :
    bmNllFull eigh drift vol cor x dt = (do
      let u ← bmNllFull eigh drift vol cor (takeRows (m + 1) x) dt
      let w ← bmNllFull eigh drift vol cor (dropRows m x) dt
      .ok (u + w)) := by
  have hg : ∀ (y : Arr) (i j : Nat), (diffRows y).get i j = y.get (i + 1) j - y.get i j := by
    intro y i j
    unfold diffRows Arr.get
    simp only
    congr 2
    ring
  refine gauss_split _ _ _ _ rfl rfl ?_ ?_ ?_
  · show x.rows - 1 = (m + 1 - 1) + (x.rows - m - 1); omega
  · intro i _ j _; rfl
  · intro i _ j _
    rw [hg, hg, get_dropRows, get_dropRows]
    show _ = x.get (m + 1 - 1 + i + 1) j - x.get (m + 1 - 1 + i) j
    congr 2 <;> omega

theorem gbm_nll_additive (cor : Option Arr) {m : Nat} (hm : m < x.rows) :
    gbmNllFull eigh drift vol cor x dt = (do
      let u ← gbmNllFull eigh drift vol cor (takeRows (m + 1) x) dt
      let w ← gbmNllFull eigh drift vol cor (dropRows m x) dt
      .ok (u + w)) := by
  have hg : ∀ (y : Arr) (i j : Nat), (logRatioRows y).get i j = Real.log (y.get (i + 1) j / y.get i j) := by
    intro y i j
    unfold logRatioRows Arr.get
    simp only
    congr 3
    ring
  unfold gbmNllFull
  cases hz : bzip (fun d v => d - 0.5 * v ^ 2) drift vol with
  | error e => rfl
  | ok l =>
    refine gauss_split _ _ _ _ rfl rfl ?_ ?_ ?_
    · show x.rows - 1 = (m + 1 - 1) + (x.rows - m - 1); omega
    · intro i _ j _; rfl
    · intro i _ j _
      rw [hg, hg, get_dropRows, get_dropRows]
      show _ = Real.log (x.get (m + 1 - 1 + i + 1) j / x.get (m + 1 - 1 + i) j)
      congr 3 <;> omega

theorem ouRows_shape (F : List ℝ) (v : Nat) : (∃ e, ∀ x : Arr, x.cols = v → ouRows F x = .error e) ∨
    (∃ c, ∀ x : Arr, x.cols = v → ouRows F x = .ok ⟨x.rows - 1, c, fun k =>
      bcol x (k / c + 1) (k % c) - bentry F (k % c) * bcol x (k / c) (k % c)⟩) := by
  unfold ouRows
  cases h1 : bdim F.length v with
  | error e => exact Or.inl ⟨e, fun x hx => by rw [hx, h1]; rfl⟩
  | ok c1 =>
    cases h2 : bdim v c1 with
    | error e =>
      refine Or.inl ⟨e, fun x hx => ?_⟩
      rw [hx, h1]
      show (bdim v c1 >>= _) = _
      rw [h2]
      rfl
    | ok c2 =>
      refine Or.inr ⟨c2, fun x hx => ?_⟩
      rw [hx, h1]
      show (bdim v c1 >>= _) = _
      rw [h2]
      rfl

/-- C73. The same for the Ornstein-Uhlenbeck process (rates other than zero). -/
theorem ou_nll_additive {p : OUParams} (hne : 0 ∉ p.mrr.toRow) (cor : Option Arr) {m : Nat} (hm : m < x.rows) :
    ouNllFull eigh p cor x dt = (do
      let u ← ouNllFull eigh p cor (takeRows (m + 1) x) dt
      let w ← ouNllFull eigh p cor (dropRows m x) dt
      .ok (u + w)) := by
  unfold ouNllFull
  simp only [if_neg hne]
  cases bzip (fun m f => m * (1 - f)) p.mean.toRow (p.mrr.toRow.map fun r => Real.exp (-r * dt)) with
  | error e => rfl
  | ok μ =>
    cases bzip (fun v r => Real.sqrt (v ^ 2 / (2 * r) * (1 - Real.exp (-2 * r * dt)))) p.vol p.mrr.toRow with
    | error e => rfl
    | ok s =>
      set F := p.mrr.toRow.map fun r => Real.exp (-r * dt)
      show (ouRows F x >>= fun dx => gaussNll eigh μ s cor dx) =
        ((ouRows F (takeRows (m + 1) x) >>= fun dx => gaussNll eigh μ s cor dx) >>= fun u =>
          (ouRows F (dropRows m x) >>= fun dx => gaussNll eigh μ s cor dx) >>= fun w => Except.ok (u + w))
      rcases ouRows_shape F x.cols with ⟨e, h⟩ | ⟨c2, h⟩
      · rw [h _ rfl, h (takeRows (m + 1) x) rfl]
        rfl
      · rw [h _ rfl, h (takeRows (m + 1) x) rfl, h (dropRows m x) rfl]
        refine gauss_split _ _ _ _ rfl rfl ?_ ?_ ?_
        · show x.rows - 1 = (m + 1 - 1) + (x.rows - m - 1); omega
        · intro i _ j _; rfl
        · intro i _ j hj
          have hj : j < c2 := hj
          unfold Arr.get
          simp only
          have e1 : ∀ r, (r * c2 + j) / c2 = r := fun r => by
            rw [mul_comm, Nat.mul_add_div (by omega), Nat.div_eq_of_lt hj, add_zero]
          have e2 : ∀ r, (r * c2 + j) % c2 = j := fun r => by
            rw [mul_comm, Nat.mul_add_mod, Nat.mod_eq_of_lt hj]
          rw [e1, e2, e1, e2]
          have hb : ∀ r, bcol (dropRows m x) r j = bcol x (r + m) j := by
            intro r
            unfold bcol
            rw [get_dropRows, get_dropRows]
            rfl
          rw [hb, hb]
          show _ = bcol x (m + 1 - 1 + i + 1) j - bentry F j * bcol x (m + 1 - 1 + i) j
          have a1 : m + 1 - 1 + i + 1 = i + 1 + m := by omega
          have a2 : m + 1 - 1 + i = i + m := by omega
          rw [a1, a2]

end Verif.Sim
