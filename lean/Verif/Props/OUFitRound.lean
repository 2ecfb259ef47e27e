import Verif.Props.OURound

/-!
# C134: the fit of the Ornstein–Uhlenbeck process in floats
-/

namespace Verif.Sim

open Verif Round Finset

variable {fl : ℝ → ℝ} {o : FitOrders} {ord : Nat → Nat → List (ℝ × ℝ) → DotTree} {recip : Nat → Nat → Bool} {chol : Arr → Option Arr}
  {lsq : Nat → List ℝ → List ℝ → ℝ × ℝ} {avg : Nat → List ℝ → SumTree} {x : Arr} {dt : ℝ} {n : Nat}

/-- The line used for column `j`. -/
noncomputable def lineR (fl : ℝ → ℝ) (lsq : Nat → List ℝ → List ℝ → ℝ × ℝ) (avg : Nat → List ℝ → SumTree) (x : Arr) (j : Nat) : ℝ × ℝ :=
  ouLineR fl (lsq j) (avg j) (x.col j)

/-- The residual as computed. -/
noncomputable def resR (fl : ℝ → ℝ) (lsq : Nat → List ℝ → List ℝ → ℝ × ℝ) (avg : Nat → List ℝ → SumTree) (x : Arr) (j t : Nat) : ℝ :=
  fl (x.get (t + 1) j - fl (fl ((lineR fl lsq avg x j).1 * x.get t j) + (lineR fl lsq avg x j).2))

/-- The exact residual of a line. -/
def resid (x : Arr) (ab : ℝ × ℝ) (j t : Nat) : ℝ := x.get (t + 1) j - (ab.1 * x.get t j + ab.2)

/-- The size of its terms. -/
def residSize (x : Arr) (ab : ℝ × ℝ) (j t : Nat) : ℝ := |x.get (t + 1) j| + (|ab.1 * x.get t j| + |ab.2|)

theorem resR_close (R : Rounding fl) (j t : Nat) :
    Close 3 (resR fl lsq avg x j t) (resid x (lineR fl lsq avg x j) j t) (residSize x (lineR fl lsq avg x j) j t) := by
  have h1 := ((((Close.refl ((lineR fl lsq avg x j).1 * x.get t j)).rd R).add ((Close.refl (lineR fl lsq avg x j).2).mono (by norm_num))).rd R)
  exact ((((Close.refl (x.get (t + 1) j)).mono (by norm_num)).sub h1).rd R)

theorem zipWith_range (F : ℝ → ℝ → ℝ) (f : Nat → ℝ) (n : Nat) :
    List.zipWith F ((List.range (n + 1)).map f).dropLast ((List.range (n + 1)).map f).tail = (List.range n).map fun t => F (f t) (f (t + 1)) := by
  apply List.ext_getElem
  · simp
  · intro i h1 h2
    simp

theorem ouResColsR_eq (hx : x.rows = n + 1) : ouResColsR fl lsq avg x = incLists x.cols n (resR fl lsq avg x) := by
  unfold ouResColsR columns incLists
  apply List.ext_getElem
  · simp
  · intro j h1 h2
    simp only [List.getElem_mapIdx, List.getElem_map, List.getElem_range]
    have hcol : (List.range (n + 1)).map (fun t => x.get t j) = x.col j := by rw [← hx]; rfl
    have := zipWith_range (fun a c => fl (c - fl (fl ((ouLineR fl (lsq j) (avg j) (x.col j)).1 * a) + (ouLineR fl (lsq j) (avg j) (x.col j)).2)))
      (fun t => x.get t j) n
    rw [hcol] at this
    exact this

theorem columns_last (hc : 0 < x.cols) : (columns x).getLast? = some (x.col (x.cols - 1)) := by
  obtain ⟨c, hc'⟩ : ∃ c, x.cols = c + 1 := ⟨x.cols - 1, by omega⟩
  unfold columns
  rw [hc', List.range_succ, List.map_append]
  simp

/-- What a successful fit consists of. -/
theorem ouFitR_ok (hx : x.rows = n + 1) (hc : 0 < x.cols) {r : OUFit} (h : ouFitR fl lsq avg o chol x dt = .ok r) :
    let ab := lineR fl lsq avg x (x.cols - 1)
    r.mean = ouLevelR fl ab.1 ab.2 ∧ r.mrr = ouRateR fl ab.1 dt ∧
    (∀ j < x.cols, r.vol[j]? = some ((npStd1R fl (o.mean j) (o.sq j) ((List.range n).map (resR fl lsq avg x j))).map
      (ouVolR fl ab.1 (ouRateR fl ab.1 dt)))) ∧
    (1 < x.cols → (∀ j < x.cols, covR fl o (incLists x.cols n (resR fl lsq avg x)) j j ≠ 0) ∧
      r.cor = some (corrcoefR fl o (incLists x.cols n (resR fl lsq avg x))) ∧
      r.L = chol (corrcoefR fl o (incLists x.cols n (resR fl lsq avg x))) ∧ r.L ≠ none) ∧
    (x.cols = 1 → r.cor = none ∧ r.L = none) := by
  intro ab
  unfold ouFitR at h
  simp only [ouResColsR_eq hx, columns_last hc] at h
  have hvol : ∀ j < x.cols, ((incLists x.cols n (resR fl lsq avg x)).mapIdx fun j r => (npStd1R fl (o.mean j) (o.sq j) r).map
      (ouVolR fl ab.1 (ouRateR fl ab.1 dt)))[j]? = some ((npStd1R fl (o.mean j) (o.sq j) ((List.range n).map (resR fl lsq avg x j))).map
      (ouVolR fl ab.1 (ouRateR fl ab.1 dt))) := fun j hj => by
    simp [incLists, hj]
  by_cases h1 : 1 < x.cols
  · rw [if_pos h1] at h
    by_cases h2 : ∃ j < x.cols, covR fl o (incLists x.cols n (resR fl lsq avg x)) j j = 0
    · rw [if_pos h2] at h
      cases h
    rw [if_neg h2] at h
    cases hch : chol (corrcoefR fl o (incLists x.cols n (resR fl lsq avg x))) with
    | none => rw [hch] at h; cases h
    | some L =>
      rw [hch] at h
      cases h
      exact ⟨rfl, rfl, hvol, fun _ => ⟨fun j hj h0 => h2 ⟨j, hj, h0⟩, rfl, rfl, by simp⟩, fun h => by omega⟩
  · rw [if_neg h1] at h
    cases h
    exact ⟨rfl, rfl, hvol, fun h => absurd h h1, fun _ => ⟨rfl, rfl⟩⟩

/-- The computed deviation of computed numbers `f` for exact numbers `g`. -/
theorem std_close (R : Rounding fl) {ord sq : List ℝ → SumTree} (o1 : IsSum ord) (o2 : IsSum sq) {k : Nat} (hn : 2 ≤ n) {f g p : Nat → ℝ}
    (hf : ∀ t < n, Close k (f t) (g t) (p t)) :
    let E := ((1 + u64) ^ (n + k) - 1) * mean n p
    let ρ := ((1 + u64) ^ k - 1) * Real.sqrt ((∑ t ∈ range n, p t ^ 2) / (n - 1))
    let σ := Real.sqrt (scov n 1 g g)
    ∃ s, npStd1R fl ord sq ((List.range n).map f) = some s ∧ 0 ≤ s ∧ |s - σ| ≤ ((1 + u64) ^ (n + 3) - 1) * (σ + ρ + 2 * E) + 2 * E + ρ := by
  intro E ρ σ
  have hu := u64_pos
  have hp := pred_pos hn
  obtain ⟨s, hs, hs0, hse⟩ := std_round R o1 o2 hn f
  refine ⟨s, hs, hs0, ?_⟩
  set σ' := Real.sqrt (scov n 1 f f)
  have hk : 1 ≤ (1 + u64) ^ k := one_le_pow₀ (by linarith)
  have hk0 : 0 ≤ (1 + u64) ^ k - 1 := by linarith
  have h1 : |σ' - σ| ≤ ρ := by
    refine (sd_perturb hn _ _).trans ?_
    have h2 : (∑ t ∈ range n, (f t - g t) ^ 2) / ((n : ℝ) - 1) ≤ ((1 + u64) ^ k - 1) ^ 2 * ((∑ t ∈ range n, p t ^ 2) / (n - 1)) := by
      rw [← mul_div_assoc, mul_sum]
      apply div_le_div_of_nonneg_right _ hp.le
      refine sum_le_sum fun t ht => ?_
      have := pow_le_pow_left₀ (abs_nonneg _) (hf t (Finset.mem_range.mp ht)).2 2
      rwa [sq_abs, mul_pow] at this
    refine (Real.sqrt_le_sqrt h2).trans (le_of_eq ?_)
    rw [Real.sqrt_mul (sq_nonneg _), Real.sqrt_sq hk0]
  have h2 : ((1 + u64) ^ n - 1) * (mean n fun t => |f t|) ≤ E := by
    have h3 : (mean n fun t => |f t|) ≤ (1 + u64) ^ k * mean n p := by
      unfold mean
      rw [← mul_div_assoc, mul_sum]
      apply div_le_div_of_nonneg_right _ (Nat.cast_nonneg n)
      exact sum_le_sum fun t ht => (hf t (Finset.mem_range.mp ht)).size
    have h4 : 1 ≤ (1 + u64) ^ n := one_le_pow₀ (by linarith)
    have h5 : 0 ≤ mean n p := div_nonneg (sum_nonneg fun t ht => (hf t (Finset.mem_range.mp ht)).pos) (Nat.cast_nonneg n)
    have h6 := mul_le_mul_of_nonneg_left h3 (show 0 ≤ (1 + u64) ^ n - 1 by linarith)
    have h7 := mul_nonneg hk0 h5
    have e : E = ((1 + u64) ^ n - 1) * ((1 + u64) ^ k * mean n p) + ((1 + u64) ^ k - 1) * mean n p := by
      simp only [E]
      ring
    linarith
  have h3 : 0 ≤ (1 + u64) ^ (n + 3) - 1 := by linarith [one_le_pow₀ (show (1 : ℝ) ≤ 1 + u64 by linarith) (n := n + 3)]
  have h4 := abs_le.mp h1
  have h5 := mul_le_mul_of_nonneg_left (show σ' + 2 * (((1 + u64) ^ n - 1) * mean n fun t => |f t|) ≤ σ + ρ + 2 * E by linarith) h3
  have h6 : |s - σ| ≤ |s - σ'| + |σ' - σ| := abs_sub_le _ _ _
  linarith

theorem ou_fit_loss (R : Rounding fl) (ho : o.Valid) (hx : x.rows = n + 1) (hn : 2 ≤ n) (hc : 0 < x.cols) {r : OUFit}
    (h : ouFitR fl lsq avg o chol x dt = .ok r) {s b g : ℝ} (hab : lineR fl lsq avg x (x.cols - 1) = (s, b)) (hs : s ^ 2 ≠ 1)
    (hg : |fl (s ^ 2) - s ^ 2| ≤ g * |1 - s ^ 2|) (h0 : 0 ≤ g) (hl : g ≤ 1 / 2) :
    |r.mrr - -Real.log s / dt| ≤ 3 * u64 * |-Real.log s / dt| ∧ |r.mean - b / (1 - s)| ≤ 3 * u64 * |b / (1 - s)| ∧
    ∀ j < x.cols,
      let f := resid x (lineR fl lsq avg x j) j
      let p := residSize x (lineR fl lsq avg x j) j
      let E := ((1 + u64) ^ (n + 3) - 1) * mean n p
      let ρ := ((1 + u64) ^ 3 - 1) * Real.sqrt ((∑ t ∈ range n, p t ^ 2) / (n - 1))
      ∃ v w, r.vol[j]? = some (some v) ∧
        |v - Real.sqrt (2 * (-Real.log s / dt) * w ^ 2 / (1 - s ^ 2))| ≤
          (10 * u64 + g) * Real.sqrt (2 * (-Real.log s / dt) * w ^ 2 / (1 - s ^ 2)) ∧
        0 ≤ w ∧ |w - Real.sqrt (scov n 1 f f)| ≤ ((1 + u64) ^ (n + 3) - 1) * (Real.sqrt (scov n 1 f f) + ρ + 2 * E) + 2 * E + ρ := by
  obtain ⟨h1, h2, h3, -, -⟩ := ouFitR_ok hx hc h
  rw [hab] at h1 h2 h3
  have key := fun σ => ou_params_loss R (b := b) (σ := σ) (dt := dt) hs hg h0 hl
  refine ⟨by rw [h2]; exact (key 0).1, by rw [h1]; exact (key 0).2.1, fun j hj => ?_⟩
  intro f p E ρ
  obtain ⟨w, hw, hw0, hwe⟩ := std_close R (ho.mean j) (ho.sq j) hn (f := resR fl lsq avg x j) (g := f) (p := p) fun t _ => resR_close R j t
  refine ⟨_, w, by rw [h3 j hj, hw]; rfl, (key w).2.2, hw0, hwe⟩

/-- C134. A fit in floats, in terms of the line found for the last column: mean and rate are those of the line to the last digits,
volatility `j` is that of the line and the computed deviation of the residuals of column `j` up to the digits lost in `1 - slope²`, and
this deviation is the exact one up to rounding. -/
theorem ou_fit_round (R : Rounding fl) (ho : o.Valid) (hx : x.rows = n + 1) (hn : 2 ≤ n) (hc : 0 < x.cols) {r : OUFit}
    (h : ouFitR fl lsq avg o chol x dt = .ok r) {s b : ℝ} (hab : lineR fl lsq avg x (x.cols - 1) = (s, b)) (hs : s ^ 2 ≠ 1)
    (hl : ouLoss s ≤ 1 / 2) :
    |r.mrr - -Real.log s / dt| ≤ 3 * u64 * |-Real.log s / dt| ∧ |r.mean - b / (1 - s)| ≤ 3 * u64 * |b / (1 - s)| ∧
    ∀ j < x.cols,
      let g := resid x (lineR fl lsq avg x j) j
      let p := residSize x (lineR fl lsq avg x j) j
      let E := ((1 + u64) ^ (n + 3) - 1) * mean n p
      let ρ := ((1 + u64) ^ 3 - 1) * Real.sqrt ((∑ t ∈ range n, p t ^ 2) / (n - 1))
      ∃ v w, r.vol[j]? = some (some v) ∧
        |v - Real.sqrt (2 * (-Real.log s / dt) * w ^ 2 / (1 - s ^ 2))| ≤
          (10 * u64 + ouLoss s) * Real.sqrt (2 * (-Real.log s / dt) * w ^ 2 / (1 - s ^ 2)) ∧
        0 ≤ w ∧ |w - Real.sqrt (scov n 1 g g)| ≤ ((1 + u64) ^ (n + 3) - 1) * (Real.sqrt (scov n 1 g g) + ρ + 2 * E) + 2 * E + ρ :=
  ou_fit_loss R ho hx hn hc h hab hs (loss_abs R hs) (loss_nonneg s) hl

/-- C134. The correlations of several columns against those of the exact residuals of the same lines. -/
theorem ou_fit_cor_error (R : Rounding fl) (ho : o.Valid) (hx : x.rows = n + 1) (hn : 2 ≤ n) (hc : 1 < x.cols)
    (hu : ((n : ℝ) + 4) * u64 ≤ 1 / 64) {r : OUFit} (h : ouFitR fl lsq avg o chol x dt = .ok r) :
    let g := fun j => resid x (lineR fl lsq avg x j) j
    let p := fun j => residSize x (lineR fl lsq avg x j) j
    ∃ C, r.cor = some C ∧ ∀ i < x.cols, ∀ j < x.cols, 0 < scov n 1 (g i) (g i) → 0 < scov n 1 (g j) (g j) →
      |C.get i j - scov n 1 (g i) (g j) / (Real.sqrt (scov n 1 (g i) (g i)) * Real.sqrt (scov n 1 (g j) (g j)))| ≤
        6 * ((n + 4) * u64) * (Real.sqrt ((∑ t ∈ range n, p i t ^ 2) / (n - 1)) / Real.sqrt (scov n 1 (g i) (g i)) +
          Real.sqrt ((∑ t ∈ range n, p j t ^ 2) / (n - 1)) / Real.sqrt (scov n 1 (g j) (g j))) := by
  intro g p
  obtain ⟨-, -, -, h4, -⟩ := ouFitR_ok hx (by omega) h
  exact ⟨_, (h4 hc).2.1, fun i hi j hj hgi hgj => cor_err R ho (k := 3) le_rfl hn hu (f := resR fl lsq avg x) (g := g) (p := p) hi hj
    (fun t _ => resR_close R i t) (fun t _ => resR_close R j t) hgi hgj⟩

/-- C134. The factor of a successful fit reproduces the fitted correlations up to rounding. -/
theorem ou_fit_factor (R : Rounding fl) (hord : IsCholOrder ord) (hx : x.rows = n + 1) (hc : 1 < x.cols)
    (hv : ((x.cols : ℝ) + 2) * u64 ≤ 1 / 64) {r : OUFit} (h : ouFitR fl lsq avg o (cholR fl ord recip) x dt = .ok r) :
    ∃ C L, r.cor = some C ∧ r.L = some L ∧ L.rows = x.cols ∧ L.cols = x.cols ∧
      ∀ i < x.cols, ∀ j < x.cols, |(∑ m ∈ range x.cols, L.get i m * L.get j m) - C.get (max i j) (min i j)| ≤ 9 / 4 * ((x.cols + 2) * u64) := by
  obtain ⟨-, -, -, h4, -⟩ := ouFitR_ok hx (by omega) h
  obtain ⟨-, h5, h6, h7⟩ := h4 hc
  obtain ⟨L, hL⟩ := Option.ne_none_iff_exists'.mp h7
  have hr : (corrcoefR fl o (incLists x.cols n (resR fl lsq avg x))).rows = x.cols := by
    show (incLists x.cols n (resR fl lsq avg x)).length = _
    simp [incLists]
  obtain ⟨l1, l2, -, -, l5⟩ := chol_product R hord (by rw [hr]; exact hv) (h6.symm.trans hL)
  rw [hr] at l1 l2 l5
  have hu := u64_pos
  have hs : ∀ i < x.cols, Real.sqrt ((corrcoefR fl o (incLists x.cols n (resR fl lsq avg x))).get i i) ≤ 1 := fun i hi => by
    refine Real.sqrt_le_iff.mpr ⟨by norm_num, ?_⟩
    rw [one_pow, corrcoefR_get hi hi]
    exact max_le (by norm_num) (min_le_left _ _)
  refine ⟨_, L, h5, hL, l1, l2, fun i hi j hj => (l5 i hi j hj).trans ?_⟩
  exact mul_le_of_le_one_right (by positivity) (mul_le_one₀ (hs i hi) (Real.sqrt_nonneg _) (hs j hj))

/-- C134. One column is always fitted; several columns are when the residuals are not too small against the data and their exact
correlation matrix is sufficiently well conditioned. -/
theorem ou_fit_sure_round (R : Rounding fl) (ho : o.Valid) (hord : IsCholOrder ord) (hx : x.rows = n + 1) (hn : 2 ≤ n) (hc : 0 < x.cols)
    (hu : ((n : ℝ) + 4) * u64 ≤ 1 / 64) (hv : ((x.cols : ℝ) + 2) * u64 ≤ 1 / 64) {g p : Nat → Nat → ℝ}
    (hg' : g = fun j => resid x (lineR fl lsq avg x j) j) (hp' : p = fun j => residSize x (lineR fl lsq avg x j) j)
    (hg : ∀ j < x.cols, 0 < scov n 1 (g j) (g j)) {K l : ℝ}
    (hK : ∀ j < x.cols, Real.sqrt ((∑ t ∈ range n, p j t ^ 2) / (n - 1)) / Real.sqrt (scov n 1 (g j) (g j)) ≤ K)
    (hl : x.cols * (12 * ((n + 4) * u64) * K + 9 / 2 * ((x.cols + 2) * u64)) < l)
    (hA : ∀ y : Nat → ℝ, l * ∑ i ∈ range x.cols, y i ^ 2 ≤ ∑ i ∈ range x.cols, ∑ j ∈ range x.cols, y i * y j *
      (scov n 1 (g i) (g j) / (Real.sqrt (scov n 1 (g i) (g i)) * Real.sqrt (scov n 1 (g j) (g j))))) :
    ∃ r, ouFitR fl lsq avg o (cholR fl ord recip) x dt = .ok r := by
  unfold ouFitR
  simp only [ouResColsR_eq hx, columns_last hc]
  by_cases h1 : 1 < x.cols
  · obtain ⟨-, hcov, hch⟩ := cor_sure (recip := recip) R ho hord (k := 3) le_rfl hn h1 hu hv (f := resR fl lsq avg x) (g := g) (p := p)
      (fun j _ t _ => by rw [hg', hp']; exact resR_close R j t) hg hK hl hA
    obtain ⟨L, hL⟩ := Option.ne_none_iff_exists'.mp hch
    simp only [if_pos h1, if_neg hcov, hL]
    exact ⟨_, rfl⟩
  · rw [if_neg h1]
    exact ⟨_, rfl⟩

/-! ### Adequacy: without rounding this is `ouFit` -/

theorem corrcoefR_id (ho : o.Valid) {dx : List (List ℝ)} (hn : 2 ≤ n) (h1 : 1 < dx.length) (hget : ∀ j < dx.length, (dx.getD j []).length = n)
    (hpos : ∀ j < dx.length, 0 < sqDev (dx.getD j [])) : corrcoefR id o dx = corrcoef dx := by
  have hp := pred_pos hn
  unfold corrcoefR corrcoef
  congr 1
  funext k
  have hlt : 0 < dx.length := by omega
  have hk : k % dx.length < dx.length := Nat.mod_lt _ hlt
  dsimp only
  by_cases hi : k / dx.length < dx.length
  · rw [if_pos hi, covR_id ho hn (hget _ hi) (hget _ hk), covR_id ho hn (hget _ hi) (hget _ hi), covR_id ho hn (hget _ hk) (hget _ hk),
      sqDev_eq_crossDev, sqDev_eq_crossDev, Real.sqrt_div' _ hp.le, Real.sqrt_div' _ hp.le]
    simp only [id]
    congr 1
    have ha := Real.sqrt_pos.mpr (hpos _ hi)
    have hb := Real.sqrt_pos.mpr (hpos _ hk)
    have hc := Real.sqrt_pos.mpr hp
    have hq : Real.sqrt ((n : ℝ) - 1) * Real.sqrt ((n : ℝ) - 1) = n - 1 := Real.mul_self_sqrt hp.le
    rw [div_div, div_div, div_div, div_mul_div_comm, hq, mul_div_assoc', mul_div_cancel_left₀ _ hp.ne']
  · rw [if_neg hi, List.getD_eq_default _ _ (by omega)]
    simp [crossDev, clip1]

/-- C134. Without rounding and with the least-squares line the model is the exact calibration `ouFit`. -/
theorem ouFitR_id (ho : o.Valid) (ha : ∀ j, IsSum (avg j)) (hx : x.rows = n + 1) (hn : 2 ≤ n) :
    ouFitR id (fun _ => lstsqLine) avg o chol x dt = ouFit chol x dt := by
  have hline : ∀ j, ouLineR id lstsqLine (avg j) (x.col j) = ouLine (x.col j) := fun j => by
    have : (x.col j).tail ≠ [] := by
      intro h
      have := congrArg List.length h
      simp [Arr.col, hx] at this
      omega
    unfold ouLineR ouLine
    simp only [id, lmeanR_id (ha j) this]
  have hres : ouResColsR id (fun _ => lstsqLine) avg x = (columns x).map ouResiduals := by
    unfold ouResColsR
    rw [List.mapIdx_eq_iff]
    intro i
    unfold columns
    by_cases hi : i < x.cols
    · simp only [List.getElem?_map, List.getElem?_range hi, Option.map_some]
      unfold ouResidualsR ouResiduals
      rw [hline i]
      rfl
    · rw [List.getElem?_eq_none (by simpa using hi), List.getElem?_eq_none (by simpa using hi)]
      rfl
  have hlen : ((columns x).map ouResiduals).length = x.cols := by simp [columns]
  have hmem : ∀ l ∈ (columns x).map ouResiduals, l.length = n := fun l hl => by
    simp only [columns, List.map_map, List.mem_map, List.mem_range] at hl
    obtain ⟨j, -, rfl⟩ := hl
    simp [ouResiduals, Arr.col, hx]
  have hvol : ∀ s r : ℝ, (((columns x).map ouResiduals).mapIdx fun j l => (npStd1R id (o.mean j) (o.sq j) l).map (ouVolR id s r)) =
      ((columns x).map ouResiduals).map fun l => (npStd1 l).map fun w => Real.sqrt ((2 * r * w ^ 2) / (1 - s ^ 2)) := fun s r => by
    rw [List.mapIdx_eq_iff]
    intro i
    simp only [List.getElem?_map, npStd1R_id (ho.mean i) (ho.sq i)]
    rfl
  unfold ouFitR ouFit
  simp only [hres, hvol]
  rcases Nat.eq_zero_or_pos x.cols with hc | hc
  · simp [hc, columns]
  simp only [columns_last hc, hline]
  by_cases h1 : 1 < x.cols
  · simp only [if_pos h1]
    have hget : ∀ j < x.cols, (((columns x).map ouResiduals).getD j []).length = n := fun j hj => by
      rw [List.getD_eq_getElem?_getD, List.getElem?_eq_getElem (by rw [hlen]; exact hj), Option.getD_some]
      exact hmem _ (List.getElem_mem _)
    have hp := pred_pos hn
    have hiff : (∃ j < x.cols, covR id o ((columns x).map ouResiduals) j j = 0) ↔ ∃ r ∈ (columns x).map ouResiduals, badColumn r := by
      have hz : ∀ j < x.cols, (covR id o ((columns x).map ouResiduals) j j = 0 ↔ badColumn (((columns x).map ouResiduals).getD j [])) := fun j hj => by
        rw [covR_id ho hn (hget j hj) (hget j hj), sqDev_eq_crossDev, div_eq_zero_iff, or_iff_left hp.ne']
        unfold badColumn npStd1
        rw [if_neg (by rw [hget j hj]; omega)]
        simp only [Option.some.injEq, reduceCtorEq, or_false, hget j hj]
        rw [Real.sqrt_eq_zero (div_nonneg (sqDev_nonneg _) hp.le), div_eq_zero_iff, or_iff_left hp.ne']
      constructor
      · rintro ⟨j, hj, h⟩
        refine ⟨_, ?_, (hz j hj).mp h⟩
        rw [List.getD_eq_getElem?_getD, List.getElem?_eq_getElem (by rw [hlen]; exact hj), Option.getD_some]
        exact List.getElem_mem _
      · rintro ⟨r, hr, h⟩
        obtain ⟨j, hj, rfl⟩ := List.mem_iff_getElem.mp hr
        refine ⟨j, by rwa [hlen] at hj, (hz j (by rwa [hlen] at hj)).mpr ?_⟩
        rw [List.getD_eq_getElem?_getD, List.getElem?_eq_getElem hj, Option.getD_some]
        exact h
    by_cases hb : ∃ r ∈ (columns x).map ouResiduals, badColumn r
    · rw [if_pos hb, if_pos (hiff.mpr hb)]
    · rw [if_neg hb, if_neg (fun h => hb (hiff.mp h))]
      have hpos : ∀ j < ((columns x).map ouResiduals).length, 0 < sqDev (((columns x).map ouResiduals).getD j []) := fun j hj => by
        refine lt_of_le_of_ne (sqDev_nonneg _) fun h => hb (hiff.mp ⟨j, by rwa [hlen] at hj, ?_⟩)
        rw [hlen] at hj
        rw [covR_id ho hn (hget j hj) (hget j hj), sqDev_eq_crossDev, ← h, zero_div]
      rw [corrcoefR_id ho hn (by rw [hlen]; exact h1) (by rw [hlen]; exact hget) hpos]
      rfl
  · simp only [if_neg h1]
    rfl

/-! ### A slope that is not positive -/

/-- C134. The slope used is never below `SLOPE_TOL`, so that the logarithm is defined, whatever line was found; the clamp only acts on
slopes that are at most `SLOPE_TOL`. -/
theorem ou_slope_pos (R : Rounding fl) (j : Nat) : 0 < (lineR fl lsq avg x j).1 ∧ fl slopeTol ≤ (lineR fl lsq avg x j).1 ∧
    (fl slopeTol < (lsq j (x.col j).dropLast (x.col j).tail).1 → lineR fl lsq avg x j = lsq j (x.col j).dropLast (x.col j).tail) := by
  have h0 : 0 < fl slopeTol := R.pos (by unfold slopeTol; norm_num)
  unfold lineR ouLineR
  dsimp only
  split_ifs with h
  · exact ⟨h0, le_rfl, fun h' => absurd h (not_le.mpr h')⟩
  · push Not at h
    exact ⟨h0.trans h, h.le, fun _ => rfl⟩

/-! ### Concrete cases -/

/-- Two columns `x(t+1) = x(t) / 2 + e(t)` with the disturbances 1, 1, -1, -1 and 1, -1, 1, -1. -/
noncomputable def halfData : Arr := .ofList 5 2 [0, 0, 1, 1, 3 / 2, -1 / 2, -1 / 4, 3 / 4, -9 / 8, -5 / 8]

/-- A regression that finds the line the data were made with. -/
noncomputable def halfLine (_ : Nat) (_ _ : List ℝ) : ℝ × ℝ := (1 / 2, 0)

theorem half_tol (R : Rounding fl) : fl slopeTol < 1 / 2 := by
  obtain ⟨δ, h, hδ⟩ := fl_rel R slopeTol
  have h1 := (abs_le.mp hδ).2
  rw [h]
  unfold slopeTol u64 at *
  linarith

theorem half_line (R : Rounding fl) (j : Nat) : lineR fl halfLine avg halfData j = (1 / 2, 0) :=
  (ou_slope_pos R j).2.2 (half_tol R)

theorem half_scov {i j : Nat} (hi : i < 2) (hj : j < 2) :
    scov 4 1 (resid halfData (1 / 2, 0) i) (resid halfData (1 / 2, 0) j) = if i = j then 4 / 3 else 0 := by
  interval_cases i <;> interval_cases j <;> norm_num [scov, mean, resid, halfData, Arr.get, Arr.ofList, Finset.sum_range_succ]

/-- Fitted in every order of the sums. -/
theorem half_fit (R : Rounding fl) (ho : o.Valid) (hord : IsCholOrder ord) :
    ∃ r, ouFitR fl halfLine avg o (cholR fl ord recip) halfData dt = .ok r := by
  have hc : halfData.cols = 2 := rfl
  refine ou_fit_sure_round R ho hord (n := 4) rfl (by norm_num) (by rw [hc]; norm_num) (by norm_num [u64]) (by rw [hc]; norm_num [u64])
    (g := fun j => resid halfData (1 / 2, 0) j) (p := fun j => residSize halfData (1 / 2, 0) j) (by simp only [half_line R])
    (by simp only [half_line R]) (K := 2) (l := 1) ?_ ?_ ?_ ?_
  · intro j hj
    rw [half_scov hj hj, if_pos rfl]
    norm_num
  · intro j hj
    rw [half_scov hj hj, if_pos rfl, ← Real.sqrt_div' _ (by norm_num), Real.sqrt_le_iff]
    rw [hc] at hj
    refine ⟨by norm_num, ?_⟩
    interval_cases j <;> norm_num [residSize, halfData, Arr.get, Arr.ofList, Finset.sum_range_succ, abs_of_pos, abs_of_neg]
  · rw [hc]
    norm_num [u64]
  · intro y
    rw [hc, one_mul]
    refine sum_le_sum fun i hi => ?_
    have hi' := Finset.mem_range.mp hi
    rw [Finset.sum_eq_single i]
    · rw [half_scov hi' hi', if_pos rfl, Real.mul_self_sqrt (by norm_num)]
      norm_num [sq]
    · intro j hj hne
      rw [half_scov hi' (Finset.mem_range.mp hj), if_neg hne.symm, zero_div, mul_zero]
    · exact fun h => absurd hi h

/-- Its rate is `log 2` and its mean 0, to the last digits. -/
example (ho : o.Valid) (hord : IsCholOrder ord) : ∃ r, ouFitR b64 halfLine avg o (cholR b64 ord recip) halfData 1 = .ok r ∧
    |r.mrr - Real.log 2| ≤ 3 * u64 * Real.log 2 ∧ r.mean = 0 := by
  obtain ⟨r, hr⟩ := half_fit (avg := avg) (dt := 1) (recip := recip) b64_rounding ho hord
  have hs : ((1 : ℝ) / 2) ^ 2 ≠ 1 := by norm_num
  obtain ⟨h1, h2, -⟩ := ou_fit_round b64_rounding ho (n := 4) rfl (by norm_num) (by decide) hr (half_line b64_rounding _) hs
    (by unfold ouLoss u64; norm_num [abs_of_pos])
  refine ⟨r, hr, ?_, ?_⟩
  · rw [one_div, Real.log_inv, neg_neg, div_one, abs_of_pos (Real.log_pos (by norm_num))] at h1
    exact h1
  · rw [zero_div, abs_zero, mul_zero, sub_zero] at h2
    exact abs_eq_zero.mp (le_antisymm h2 (abs_nonneg _))

/-- The conversion back and forth for the slope 1/2 and the step 1. -/
example : |ouScaleR b64 (ouVolR b64 (1 / 2) (ouRateR b64 (1 / 2) 1) 3) (ouRateR b64 (1 / 2) 1) 1 - (|3|)| ≤
    (12 * u64 + 4 / 3 * scaleLoss (1 / 2)) * |3| := by
  have hlog : |Real.log (1 / 2)| ≤ 1 := by
    rw [one_div, Real.log_inv, abs_neg, abs_of_pos (Real.log_pos (by norm_num))]
    have := Real.log_le_sub_one_of_pos (two_pos (α := ℝ))
    linarith
  refine ou_scale_back b64_rounding (by norm_num) (by norm_num) one_pos ?_ ?_
  · unfold u64
    linarith
  · unfold scaleLoss
    rw [abs_of_pos (by norm_num : (0 : ℝ) < 1 - (1 / 2) ^ 2), div_le_iff₀ (by norm_num)]
    unfold u64
    nlinarith

end Verif.Sim
