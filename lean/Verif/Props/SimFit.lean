import Verif.Lemmas.SimFit
import Verif.Spec.SimFit
import Verif.Props.SimPaths
import Mathlib.Tactic.IntervalCases

/-!
# Properties of calibration (C22, C23, C66)

`chol` stands for `np.linalg.cholesky`; nothing is assumed about it unless stated.
-/

namespace Verif.Sim

variable {chol : Arr → Option Arr} {x : Arr} {dt : ℝ} {r : BMFit}

theorem bmFit_eq {n : Nat} (hx : x.rows = n + 1) : bmFit chol x dt = fitIncrements chol (incLists x.cols n (inc x)) dt := by
  unfold bmFit
  rw [columns_diffs hx]
  rfl

theorem incLists_congr {v n : Nat} {f g : Nat → Nat → ℝ} (h : ∀ j < v, ∀ t < n, f j t = g j t) :
    incLists v n f = incLists v n g := by
  unfold incLists
  apply List.map_congr_left
  intro j hj
  apply List.map_congr_left
  intro t ht
  exact h j (by simpa using hj) t (by simpa using ht)

/-- All entries of the data are positive. -/
def Positive (x : Arr) : Prop := ∀ t < x.rows, ∀ j < x.cols, 0 < x.get t j

theorem gbmFit_eq {n : Nat} (hx : x.rows = n + 1) (hpos : Positive x) :
    gbmFit chol x dt = fitIncrements chol (incLists x.cols n (logInc x)) dt := by
  unfold gbmFit
  rw [columns_logRatios hx]
  rw [incLists_congr]
  intro j hj t ht
  exact Real.log_div (hpos _ (by omega) _ hj).ne' (hpos _ (by omega) _ hj).ne'

/-- C22. The fitted drift of every column is `(last - first) / ((rows - 1) dt)`: it depends on nothing else. -/
theorem bm_fit_drift (hx : 2 ≤ x.rows) (hdt : 0 < dt) (h : bmFit chol x dt = .ok r) :
    r.drift = (List.range x.cols).map fun j =>
      some ((x.get (x.rows - 1) j - x.get 0 j) / ((x.rows - 1 : ℕ) * dt)) := by
  obtain ⟨n, hn⟩ : ∃ n, x.rows = n + 1 := ⟨x.rows - 1, by omega⟩
  rw [bmFit_eq hn] at h
  rw [(fit_ok hdt h).1]
  apply List.map_congr_left
  intro j _
  rw [if_pos (by omega), hn]
  unfold inc
  rw [mean_diff n (fun t => x.get t j), div_div]
  rfl

/-- C22. The fitted volatility of every column is non-negative, `vol² dt` is the sample variance of the
increments (divisor `rows - 2`), and it is zero exactly when all increments of the column agree. -/
theorem bm_fit_vol (hx : 3 ≤ x.rows) (hdt : 0 < dt) (h : bmFit chol x dt = .ok r) :
    ∃ s : Nat → ℝ, r.vol = ((List.range x.cols).map fun j => some (s j)) ∧ ∀ j < x.cols,
      0 ≤ s j ∧ s j ^ 2 * dt = scov (x.rows - 1) 1 (inc x j) (inc x j) ∧
      (s j = 0 ↔ Constant (x.rows - 1) (inc x j)) := by
  obtain ⟨n, hn⟩ : ∃ n, x.rows = n + 1 := ⟨x.rows - 1, by omega⟩
  rw [bmFit_eq hn] at h
  have h2 : 2 ≤ n := by omega
  refine ⟨fun j => Real.sqrt (scov n 1 (inc x j) (inc x j)) / Real.sqrt dt, ?_, ?_⟩
  · rw [(fit_ok hdt h).2.1]
    simp only [if_pos h2]
  · intro j _
    rw [hn, Nat.add_sub_cancel]
    refine ⟨by positivity, ?_, vol_zero h2 hdt _⟩
    rw [div_pow, Real.sq_sqrt (scov_self_nonneg h2 _), Real.sq_sqrt hdt.le]
    field_simp

/-- C22. With too few rows a statistic is `nan` instead of an error: the volatility for one or two rows, the
drift for one row. -/
theorem bm_fit_short (hx : 1 ≤ x.rows) (hdt : 0 < dt) (h : bmFit chol x dt = .ok r) :
    (x.rows ≤ 2 → r.vol = List.replicate x.cols none) ∧ (x.rows = 1 → r.drift = List.replicate x.cols none) := by
  obtain ⟨n, hn⟩ : ∃ n, x.rows = n + 1 := ⟨x.rows - 1, by omega⟩
  rw [bmFit_eq hn] at h
  have hrep : ∀ m, (List.range m).map (fun _ => (none : Option ℝ)) = List.replicate m none := by
    intro m; rw [List.map_const']; simp
  constructor
  · intro h2
    rw [(fit_ok hdt h).2.1]
    simp only [if_neg (show ¬ 2 ≤ n by omega), hrep]
  · intro h2
    rw [(fit_ok hdt h).1]
    simp only [if_neg (show ¬ 1 ≤ n by omega), hrep]

theorem notCollinear_iff {v n : Nat} (hn : 2 ≤ n) {f : Nat → Nat → ℝ} (hne : ∀ j < v, ¬ Constant n (f j)) :
    NotCollinear v n f ↔ ∀ c : Nat → ℝ, (∃ j < v, c j ≠ 0) → 0 < ∑ i ∈ Finset.range v,
      ∑ j ∈ Finset.range v, c i * c j * (corrcoef (incLists v n f)).get i j := by
  have hs : ∀ j < v, Real.sqrt (scov n 1 (f j) (f j)) ≠ 0 := by
    intro j hj h0
    rw [Real.sqrt_eq_zero (scov_self_nonneg hn _), scov_self_eq_zero hn] at h0
    exact hne j hj h0
  have hp := pred_pos hn
  -- a combination is constant iff its deviations vanish
  have key : ∀ c : Nat → ℝ, Constant n (fun t => ∑ j ∈ Finset.range v, c j * f j t) ↔
      ∀ t < n, ∑ j ∈ Finset.range v, c j * (f j t - mean n (f j)) = 0 := by
    intro c
    have hm : ∀ t, ∑ j ∈ Finset.range v, c j * (f j t - mean n (f j)) =
        (∑ j ∈ Finset.range v, c j * f j t) - mean n (fun t => ∑ j ∈ Finset.range v, c j * f j t) := by
      intro t
      rw [mean_sum, ← Finset.sum_sub_distrib]
      exact Finset.sum_congr rfl fun _ _ => by ring
    simp only [hm]
    constructor
    · intro h t ht
      have : mean n (fun t => ∑ j ∈ Finset.range v, c j * f j t) =
          mean n (fun _ => ∑ j ∈ Finset.range v, c j * f j t) := mean_congr fun i hi => h i hi t ht
      rw [this]
      unfold mean
      rw [Finset.sum_const, Finset.card_range, nsmul_eq_mul, mul_div_cancel_left₀, sub_self]
      have : (2 : ℝ) ≤ n := by exact_mod_cast hn
      linarith
    · intro h i hi k hk
      have h1 := h i hi
      have h2 := h k hk
      simp only
      linarith
  constructor
  · intro h c ⟨j, hj, hcj⟩
    rw [corr_form hn]
    apply div_pos _ hp
    by_contra hle
    have h0 : (∑ t ∈ Finset.range n, (∑ i ∈ Finset.range v,
        c i / Real.sqrt (scov n 1 (f i) (f i)) * (f i t - mean n (f i))) ^ 2) = 0 :=
      le_antisymm (not_lt.mp hle) (Finset.sum_nonneg fun _ _ => sq_nonneg _)
    rw [Finset.sum_eq_zero_iff_of_nonneg (fun _ _ => sq_nonneg _)] at h0
    have := h (fun i => c i / Real.sqrt (scov n 1 (f i) (f i)))
      ((key _).mpr fun t ht => by simpa using h0 t (Finset.mem_range.mpr ht)) j hj
    rcases div_eq_zero_iff.mp this with h | h
    · exact hcj h
    · exact hs j hj h
  · intro h c hc j hj
    by_contra hcj
    have hpos := h (fun i => c i * Real.sqrt (scov n 1 (f i) (f i))) ⟨j, hj, mul_ne_zero hcj (hs j hj)⟩
    rw [corr_form hn] at hpos
    have hzero : ∀ t ∈ Finset.range n, (∑ i ∈ Finset.range v,
        c i * Real.sqrt (scov n 1 (f i) (f i)) / Real.sqrt (scov n 1 (f i) (f i)) * (f i t - mean n (f i))) ^ 2
        = 0 := by
      intro t ht
      have := (key c).mp hc t (Finset.mem_range.mp ht)
      rw [sq_eq_zero_iff, ← this]
      refine Finset.sum_congr rfl fun i hi => ?_
      rw [mul_div_assoc, div_self (hs i (Finset.mem_range.mp hi)), mul_one]
    rw [Finset.sum_eq_zero hzero, zero_div] at hpos
    exact lt_irrefl _ hpos

/-- C22. When the fit succeeds and when it raises, and what it raises. One column (or none): always succeeds.
Several columns: `ValueError` if some column has constant increments; otherwise success exactly when there are
three rows and no linear combination of the increments is constant; `LinAlgError` in all other cases. In
particular at least as many rows as columns plus two are needed. -/
theorem bm_fit_outcome (hc : CholTotal chol) (hx : 1 ≤ x.rows) (hdt : 0 < dt) :
    (x.cols ≤ 1 → ∃ r, bmFit chol x dt = .ok r) ∧
    (1 < x.cols → x.rows ≤ 2 → bmFit chol x dt = .error .linAlgError) ∧
    (1 < x.cols → 3 ≤ x.rows → (∃ j < x.cols, Constant (x.rows - 1) (inc x j)) →
      bmFit chol x dt = .error .valueError) ∧
    (1 < x.cols → 3 ≤ x.rows → (∀ j < x.cols, ¬ Constant (x.rows - 1) (inc x j)) →
      (NotCollinear x.cols (x.rows - 1) (inc x) → ∃ r, bmFit chol x dt = .ok r) ∧
      (¬ NotCollinear x.cols (x.rows - 1) (inc x) → bmFit chol x dt = .error .linAlgError)) := by
  obtain ⟨n, hn⟩ : ∃ n, x.rows = n + 1 := ⟨x.rows - 1, by omega⟩
  rw [bmFit_eq hn, hn, Nat.add_sub_cancel]
  obtain ⟨h1, h2, h3, h4⟩ := fit_outcome (chol := chol) (v := x.cols) (n := n) (f := inc x) hdt
  refine ⟨h1, fun hv hr => h2 hv (by omega), fun hv hr h => h3 hv (by omega) h, ?_⟩
  intro hv hr hne
  have hn2 : 2 ≤ n := by omega
  obtain ⟨h5, h6⟩ := h4 hv hn2 hne
  have hlen : (corrcoef (incLists x.cols n (inc x))).rows = x.cols := by simp [corrcoef, incLists]
  have hlen' : (corrcoef (incLists x.cols n (inc x))).cols = x.cols := by simp [corrcoef, incLists]
  have hcc := hc (corrcoef (incLists x.cols n (inc x))) (by rw [hlen, hlen']) (by
    rw [hlen]
    intro i hi j hj
    rw [corrcoef_incLists hn2 _ hi hj, corrcoef_incLists hn2 _ hj hi, scov_comm, mul_comm (Real.sqrt _)])
  rw [hlen, ← notCollinear_iff hn2 hne] at hcc
  refine ⟨fun h => h6 (hcc.mpr h), fun h => h5 ?_⟩
  by_contra hcon
  exact h (hcc.mp hcon)

/-- C22. The fitted correlation matrix: none for one column; otherwise symmetric with unit diagonal and
entries in `[-1, 1]`, positive semidefinite, and equal to the sample correlation of the increments. -/
theorem bm_fit_cor (hx : 1 ≤ x.rows) (hdt : 0 < dt) (h : bmFit chol x dt = .ok r) :
    (x.cols ≤ 1 → r.cor = none) ∧
    (1 < x.cols → ∃ c, r.cor = some c ∧ c.rows = x.cols ∧ c.cols = x.cols ∧
      (∀ i < x.cols, c.get i i = 1) ∧
      (∀ i < x.cols, ∀ j < x.cols, c.get i j = c.get j i ∧ |c.get i j| ≤ 1 ∧
        scov (x.rows - 1) 1 (inc x i) (inc x j) =
          c.get i j * Real.sqrt (scov (x.rows - 1) 1 (inc x i) (inc x i)) *
            Real.sqrt (scov (x.rows - 1) 1 (inc x j) (inc x j))) ∧
      ∀ w : Nat → ℝ, 0 ≤ ∑ i ∈ Finset.range x.cols, ∑ j ∈ Finset.range x.cols, w i * w j * c.get i j) := by
  obtain ⟨n, hn⟩ : ∃ n, x.rows = n + 1 := ⟨x.rows - 1, by omega⟩
  rw [bmFit_eq hn] at h
  rw [hn, Nat.add_sub_cancel]
  obtain ⟨-, -, h1, h2⟩ := fit_ok hdt h
  refine ⟨fun hv => (h1 hv).1, fun hv => ?_⟩
  obtain ⟨hn2, hne, hcor, -⟩ := h2 hv
  have hs : ∀ j < x.cols, 0 < scov n 1 (inc x j) (inc x j) := by
    intro j hj
    refine lt_of_le_of_ne (scov_self_nonneg hn2 _) fun h0 => ?_
    exact hne j hj ((scov_self_eq_zero hn2 _).mp h0.symm)
  refine ⟨_, hcor, by simp [corrcoef, incLists], by simp [corrcoef, incLists], ?_, ?_, ?_⟩
  · intro i hi
    rw [corrcoef_incLists hn2 _ hi hi, Real.mul_self_sqrt (hs i hi).le, div_self (hs i hi).ne']
  · intro i hi j hj
    have hi' := Real.sqrt_pos.mpr (hs i hi)
    have hj' := Real.sqrt_pos.mpr (hs j hj)
    rw [corrcoef_incLists hn2 _ hi hj, corrcoef_incLists hn2 _ hj hi]
    refine ⟨by rw [scov_comm, mul_comm (Real.sqrt _)], ?_, by field_simp⟩
    rw [abs_div, abs_of_pos (mul_pos hi' hj'), div_le_one (mul_pos hi' hj'), ← Real.sqrt_mul (hs i hi).le]
    exact Real.abs_le_sqrt (scov_sq_le hn2 _ _)
  · intro w
    rw [corr_form hn2]
    exact div_nonneg (Finset.sum_nonneg fun _ _ => sq_nonneg _) (pred_pos hn2).le

/-- Non-vacuity of C22: a matrix with two columns and four rows whose increments are neither constant nor
collinear, and a total Cholesky function. -/
example : (∃ chol, CholTotal chol) ∧
    (∀ j < 2, ¬ Constant 3 (inc (Arr.ofList 4 2 [0, 0, 1, 0, 1, 1, 3, 1]) j)) ∧
    NotCollinear 2 3 (inc (Arr.ofList 4 2 [0, 0, 1, 0, 1, 1, 3, 1])) := by
  classical
  refine ⟨⟨fun A => if ∀ c : Nat → ℝ, (∃ j < A.rows, c j ≠ 0) →
      0 < ∑ i ∈ Finset.range A.rows, ∑ j ∈ Finset.range A.rows, c i * c j * A.get i j then some A else none, ?_⟩,
    ?_, ?_⟩
  · intro A _ _
    dsimp only
    split
    · rename_i h; exact ⟨fun _ => h, fun _ => by simp⟩
    · rename_i h; exact ⟨fun h' => absurd rfl h', fun h' => absurd h' h⟩
  · intro j hj hc
    have h1 := hc 0 (by omega) 1 (by omega)
    interval_cases j <;> norm_num [inc, Arr.ofList, Arr.get] at h1
  · intro c hc
    have h1 := hc 0 (by omega) 1 (by omega)
    have h2 := hc 0 (by omega) 2 (by omega)
    norm_num [inc, Arr.ofList, Arr.get, Finset.sum_range_succ] at h1 h2
    intro j hj
    interval_cases j <;> linarith

/-! ### Fitting simulated paths -/

variable {p : BMParams} {x0 : List ℝ} {z : Nat → ℝ} {a : Arr}

/-- C22. Fitting a Brownian sample: the estimate of the drift of a column is the true drift plus
`vol / √dt` times the mean shock of that column; the estimate of the volatility is `|vol|` times the sample
standard deviation of the shocks. -/
theorem bm_fit_of_sample {s n : Nat} (hs : 2 ≤ s) (hdt : 0 < dt) (h : bmSample p x0 dt s n z = .ok a)
    (hf : bmFit chol a dt = .ok r) {q j : Nat} (hq : q < n) (hj : j < p.drift.length) :
    r.drift[q * p.drift.length + j]? = some (some (bentry p.drift j + bentry p.vol j / Real.sqrt dt *
      mean s (fun t => shock p.L p.drift.length z (t * n + q) j))) ∧
    r.vol[q * p.drift.length + j]? = some (some (|bentry p.vol j| *
      Real.sqrt (scov s 1 (fun t => shock p.L p.drift.length z (t * n + q) j)
        (fun t => shock p.L p.drift.length z (t * n + q) j)))) := by
  obtain ⟨⟨hr, hcol⟩, -, hstep⟩ := bm_increments h
  have hc := col_lt hq hj
  rw [bmFit_eq hr] at hf
  obtain ⟨f1, f2, -⟩ := fit_ok hdt hf
  have hinc : inc a (q * p.drift.length + j) = fun t => bentry p.drift j * dt + bentry p.vol j * Real.sqrt dt *
      shock p.L p.drift.length z (t * n + q) j := by
    funext t
    have := hstep t q j hq hj
    unfold path at this
    unfold inc
    linarith
  have hsq := Real.sqrt_pos.mpr hdt
  constructor
  · rw [f1, hcol, List.getElem?_map, List.getElem?_range hc, Option.map_some, if_pos (by omega), hinc,
      mean_affine s (by omega)]
    congr 2
    have : dt = Real.sqrt dt * Real.sqrt dt := (Real.mul_self_sqrt hdt.le).symm
    rw [add_div, mul_div_assoc, div_self hdt.ne', mul_one]
    congr 1
    conv_lhs => rw [this]
    rw [Real.sqrt_mul_self hsq.le]
    field_simp
  · rw [f2, hcol, List.getElem?_map, List.getElem?_range hc, Option.map_some, if_pos (by omega), hinc,
      scov_affine s (by omega)]
    congr 2
    rw [← sq, mul_pow, Real.sq_sqrt hdt.le, Real.sqrt_mul (by positivity), Real.sqrt_mul (sq_nonneg _),
      Real.sqrt_sq_eq_abs]
    field_simp

/-- C22. A noise-free simulated path is fitted exactly: the drift comes back and the volatility is 0. -/
theorem bm_fit_inverts_noise_free {s : Nat} {d : ℝ} (hs : 2 ≤ s) (hdt : 0 < dt)
    (h : bmSample ⟨[d], [0], none⟩ x0 dt s 1 z = .ok a) :
    bmFit chol a dt = .ok ⟨[some d], [some 0], none, none⟩ := by
  obtain ⟨⟨hr, hcol⟩, -⟩ := bm_increments (n := 1) h
  have hcol : a.cols = 1 := by simpa using hcol
  obtain ⟨r, hf⟩ : ∃ r, bmFit chol a dt = .ok r := by
    rw [bmFit_eq hr]
    exact (fit_outcome hdt).1 (by omega)
  obtain ⟨h1, h2⟩ := bm_fit_of_sample (chol := chol) (n := 1) hs hdt h hf (q := 0) (j := 0) (by omega) (by simp)
  rw [hf]
  rw [bmFit_eq hr] at hf
  obtain ⟨f1, f2, f3, -⟩ := fit_ok hdt hf
  obtain ⟨c1, c2⟩ := f3 (by omega)
  rw [hcol] at f1 f2
  have e1 : r.drift = [some d] := by
    rw [f1] at h1 ⊢
    simpa [bentry] using h1
  have e2 : r.vol = [some 0] := by
    rw [f2] at h2 ⊢
    simpa [bentry] using h2
  obtain ⟨rd, rv, rc, rL⟩ := r
  simp only at e1 e2 c1 c2
  rw [e1, e2, c1, c2]

/-- Non-vacuity: such a noise-free sample exists. -/
example (z : Nat → ℝ) : ∃ a, bmSample ⟨[0.3], [0], none⟩ [7] 0.5 4 1 z = .ok a := by
  rw [bm_succeeds_iff]
  refine ⟨by norm_num, by norm_num, by norm_num, Or.inl rfl, by simp, by norm_num, by norm_num⟩

/-- C22. A fitted Brownian motion can be sampled again, from any start whose length divides the number of
columns, whenever no statistic is `nan`. (Contrast `ou_fit_then_sample_fails`.) -/
theorem bm_fit_then_sample (hch : CholShape chol) (hx : 3 ≤ x.rows) (hcols : 0 < x.cols) (hdt : 0 < dt)
    (h : bmFit chol x dt = .ok r) {drift vol : List ℝ} (hd : r.drift = drift.map some)
    (hv : r.vol = vol.map some) {dt' : ℝ} (s n : Nat) (h0 : 0 < x0.length) (h0' : x0.length ∣ x.cols) :
    ∃ b, bmSample ⟨drift, vol, r.L⟩ x0 dt' s n z = .ok b ∧ IsPaths b s x.cols n := by
  obtain ⟨m, hm⟩ : ∃ m, x.rows = m + 1 := ⟨x.rows - 1, by omega⟩
  rw [bmFit_eq hm] at h
  obtain ⟨f1, f2, f3, f4⟩ := fit_ok hdt h
  have l1 : drift.length = x.cols := by
    have := congrArg List.length (hd.symm.trans f1); simpa using this
  have l2 : vol.length = x.cols := by
    have := congrArg List.length (hv.symm.trans f2); simpa using this
  have hL : ∀ l ∈ r.L, l.rows = x.cols ∧ l.cols = x.cols := by
    intro l hl
    by_cases hc : x.cols ≤ 1
    · rw [(f3 hc).2] at hl; cases hl
    · obtain ⟨-, -, -, L, hL, hL'⟩ := f4 (by omega)
      rw [hL] at hl
      cases hl
      have := hch _ _ hL'
      simpa [corrcoef, incLists] using this
  obtain ⟨b, hb⟩ := (bm_succeeds_iff (p := ⟨drift, vol, r.L⟩) (x0 := x0) (dt := dt') (z := z) s n).mpr
    ⟨by omega, by omega, by simp only; omega, Or.inl (by simp only; omega), by
      simp only [l1]; exact hL, h0, by simp only [l1, Int.toNat_natCast]; exact h0'.mul_right _⟩
  refine ⟨b, hb, ?_⟩
  have := (bm_increments hb).1
  simpa [l1] using this

/-! ### Geometric Brownian motion (C23) -/

/-- C23. For positive data the fitted drift is `(log last - log first) / ((rows - 1) dt)`: the average
log-return rate, without the `+ vol² / 2` that would invert the sampler. -/
theorem gbm_fit_drift (hx : 2 ≤ x.rows) (hdt : 0 < dt) (hpos : Positive x) (h : gbmFit chol x dt = .ok r) :
    r.drift = (List.range x.cols).map fun j =>
      some ((Real.log (x.get (x.rows - 1) j) - Real.log (x.get 0 j)) / ((x.rows - 1 : ℕ) * dt)) := by
  obtain ⟨n, hn⟩ : ∃ n, x.rows = n + 1 := ⟨x.rows - 1, by omega⟩
  rw [gbmFit_eq hn hpos] at h
  rw [(fit_ok hdt h).1]
  apply List.map_congr_left
  intro j _
  rw [if_pos (by omega), hn]
  unfold logInc
  rw [mean_diff n (fun t => Real.log (x.get t j)), div_div]
  rfl

/-- C23. Fitting a geometric Brownian sample from a positive start: the estimated drift of a column is
`drift - vol² / 2` plus the noise term; the estimated volatility is `|vol|` times the sample standard deviation
of the shocks. -/
theorem gbm_fit_of_sample {s n : Nat} (hs : 2 ≤ s) (hdt : 0 < dt) (hx : ∀ y ∈ x0, 0 < y)
    (h : gbmSample p x0 dt s n z = .ok a) (hf : gbmFit chol a dt = .ok r) {q j : Nat} (hq : q < n)
    (hj : j < p.drift.length) :
    r.drift[q * p.drift.length + j]? = some (some (bentry p.drift j - bentry p.vol j ^ 2 / 2 +
      bentry p.vol j / Real.sqrt dt * mean s (fun t => shock p.L p.drift.length z (t * n + q) j))) ∧
    r.vol[q * p.drift.length + j]? = some (some (|bentry p.vol j| *
      Real.sqrt (scov s 1 (fun t => shock p.L p.drift.length z (t * n + q) j)
        (fun t => shock p.L p.drift.length z (t * n + q) j)))) := by
  obtain ⟨⟨hr, hcol⟩, -, hp, hstep⟩ := gbm_paths h hx
  have hc := col_lt hq hj
  rw [gbmFit_eq hr (fun t _ c _ => hp t c)] at hf
  obtain ⟨f1, f2, -⟩ := fit_ok hdt hf
  have hinc : logInc a (q * p.drift.length + j) = fun t => (bentry p.drift j - bentry p.vol j ^ 2 / 2) * dt +
      bentry p.vol j * Real.sqrt dt * shock p.L p.drift.length z (t * n + q) j := by
    funext t
    have := hstep t q j hq hj
    unfold path at this
    unfold logInc
    linarith
  have hsq := Real.sqrt_pos.mpr hdt
  constructor
  · rw [f1, hcol, List.getElem?_map, List.getElem?_range hc, Option.map_some, if_pos (by omega), hinc,
      mean_affine s (by omega)]
    congr 2
    have : dt = Real.sqrt dt * Real.sqrt dt := (Real.mul_self_sqrt hdt.le).symm
    rw [add_div, mul_div_assoc, div_self hdt.ne', mul_one]
    congr 1
    conv_lhs => rw [this]
    rw [Real.sqrt_mul_self hsq.le]
    field_simp
  · rw [f2, hcol, List.getElem?_map, List.getElem?_range hc, Option.map_some, if_pos (by omega), hinc,
      scov_affine s (by omega)]
    congr 2
    rw [← sq, mul_pow, Real.sq_sqrt hdt.le, Real.sqrt_mul (by positivity), Real.sqrt_mul (sq_nonneg _),
      Real.sqrt_sq_eq_abs]
    field_simp

/-- C23 (defect). On a sample with zero mean shock, the fit does not return the simulated drift: it is too
low by `vol² / 2`, so strictly wrong whenever the volatility is not zero. -/
theorem gbm_fit_biased {s n : Nat} (hs : 2 ≤ s) (hdt : 0 < dt) (hx : ∀ y ∈ x0, 0 < y)
    (h : gbmSample p x0 dt s n z = .ok a) (hf : gbmFit chol a dt = .ok r) {q j : Nat} (hq : q < n)
    (hj : j < p.drift.length) (hvol : bentry p.vol j ≠ 0)
    (hmean : mean s (fun t => shock p.L p.drift.length z (t * n + q) j) = 0) :
    r.drift[q * p.drift.length + j]? ≠ some (some (bentry p.drift j)) := by
  rw [(gbm_fit_of_sample hs hdt hx h hf hq hj).1, hmean]
  intro hcon
  simp only [Option.some.injEq, mul_zero, add_zero] at hcon
  have : bentry p.vol j ^ 2 = 0 := by linarith
  exact hvol (by simpa using this)

/-- Non-vacuity of C23: a sample with non-zero volatility and zero mean shock that can be fitted. -/
example (chol : Arr → Option Arr) : ∃ a r, gbmSample ⟨[0.1], [0.2], none⟩ [100] 1 2 1
    (fun k => if k = 0 then 1 else -1) = .ok a ∧ gbmFit chol a 1 = .ok r ∧
    mean 2 (fun t => shock none 1 (fun k => if k = 0 then 1 else -1) (t * 1 + 0) 0) = 0 := by
  obtain ⟨a, ha⟩ := (gbm_succeeds_iff (p := ⟨[0.1], [0.2], none⟩) (x0 := [100]) (dt := 1)
    (z := fun k => if k = 0 then 1 else -1) 2 1).mpr ((bm_succeeds_iff 2 1).mpr
      ⟨by norm_num, by norm_num, by norm_num, Or.inl rfl, by simp, by norm_num, by norm_num⟩)
  have hx : ∀ y ∈ ([100] : List ℝ), 0 < y := by simp
  obtain ⟨⟨hr, hcol⟩, -, hp, -⟩ := gbm_paths (n := 1) (s := 2) ha hx
  have hcol : a.cols = 1 := by simpa using hcol
  obtain ⟨r, hf⟩ : ∃ r, gbmFit chol a 1 = .ok r := by
    rw [gbmFit_eq hr (fun t _ c _ => hp t c)]
    exact (fit_outcome one_pos).1 (by omega)
  refine ⟨a, r, ha, hf, ?_⟩
  norm_num [mean, shock, Finset.sum_range_succ]

/-! ### Equivariance of the fits (C66) -/

/-- C66. Adding a constant to a column does not change the Brownian fit; multiplying all the data by `k ≠ 0`
multiplies drifts by `k` and volatilities by `|k|` and keeps the correlation. -/
theorem bm_fit_equivariant (hx : 3 ≤ x.rows) (hdt : 0 < dt) {k c : ℝ} (hk : k ≠ 0) (h : bmFit chol x dt = .ok r)
    {r' : BMFit} (h' : bmFit chol (x.map fun y => c + k * y) dt = .ok r') :
    r'.drift = r.drift.map (·.map (k * ·)) ∧ r'.vol = r.vol.map (·.map (|k| * ·)) ∧
    (0 < k → ∀ cor cor', r.cor = some cor → r'.cor = some cor' → ∀ i < x.cols, ∀ j < x.cols,
      cor'.get i j = cor.get i j) := by
  obtain ⟨n, hn⟩ : ∃ n, x.rows = n + 1 := ⟨x.rows - 1, by omega⟩
  have hn2 : 2 ≤ n := by omega
  rw [bmFit_eq hn] at h
  rw [bmFit_eq (x := x.map fun y => c + k * y) (n := n) hn] at h'
  have hinc : ∀ j, inc (x.map fun y => c + k * y) j = fun t => 0 + k * inc x j t := by
    intro j; funext t; simp only [inc, Arr.map, Arr.get]; ring
  have hcols : (x.map fun y => c + k * y).cols = x.cols := rfl
  obtain ⟨f1, f2, f3, f4⟩ := fit_ok hdt h
  obtain ⟨g1, g2, g3, g4⟩ := fit_ok hdt h'
  rw [hcols] at g1 g2 g3 g4
  refine ⟨?_, ?_, ?_⟩
  · rw [f1, g1, List.map_map]
    apply List.map_congr_left
    intro j _
    simp only [Function.comp, if_pos (show 1 ≤ n by omega), Option.map_some, hinc, mean_affine n (by omega)]
    congr 1; ring
  · rw [f2, g2, List.map_map]
    apply List.map_congr_left
    intro j _
    simp only [Function.comp, if_pos hn2, Option.map_some, hinc, scov_affine n (by omega)]
    rw [Real.sqrt_mul (mul_self_nonneg k), Real.sqrt_mul_self_eq_abs]
    congr 1; ring
  · intro hkpos cor cor' hcor hcor' i hi j hj
    by_cases hc1 : x.cols ≤ 1
    · rw [(f3 hc1).1] at hcor; cases hcor
    · obtain ⟨-, -, e1, -⟩ := f4 (by omega)
      obtain ⟨-, -, e2, -⟩ := g4 (by omega)
      rw [hcor] at e1
      rw [hcor'] at e2
      cases e1; cases e2
      rw [corrcoef_incLists hn2 _ hi hj, corrcoef_incLists hn2 _ hi hj]
      simp only [hinc, scov_affine n (by omega : n ≠ 0)]
      rw [Real.sqrt_mul (mul_self_nonneg k), Real.sqrt_mul (mul_self_nonneg k), Real.sqrt_mul_self hkpos.le]
      rw [show k * Real.sqrt (scov n 1 (inc x i) (inc x i)) * (k * Real.sqrt (scov n 1 (inc x j) (inc x j))) =
        k * k * (Real.sqrt (scov n 1 (inc x i) (inc x i)) * Real.sqrt (scov n 1 (inc x j) (inc x j))) by ring]
      rw [mul_div_mul_left _ _ (mul_ne_zero hk hk)]

/-- C66. The geometric fit does not depend on the unit of the prices: scaling positive data by `k > 0` leaves
the fit unchanged. -/
theorem gbm_fit_scale_invariant (hx : 1 ≤ x.rows) (hpos : Positive x) {k : ℝ} (hk : 0 < k) :
    gbmFit chol (x.map (k * ·)) dt = gbmFit chol x dt := by
  obtain ⟨n, hn⟩ : ∃ n, x.rows = n + 1 := ⟨x.rows - 1, by omega⟩
  rw [gbmFit_eq hn hpos, gbmFit_eq (x := x.map (k * ·)) (n := n) hn
    (fun t ht j hj => mul_pos hk (hpos t ht j hj))]
  congr 1
  apply incLists_congr
  intro j hj t ht
  have h1 := hpos (t + 1) (by omega) j hj
  have h2 := hpos t (by omega) j hj
  simp only [logInc, Arr.map, Arr.get] at h1 h2 ⊢
  rw [Real.log_mul hk.ne' h1.ne', Real.log_mul hk.ne' h2.ne']
  ring

end Verif.Sim
