import Verif.Lemmas.ShockLags
import Verif.Lemmas.FitLaw
import Verif.Props.SimOUFit

/-!
# The regression of a path on its past
-/

namespace Verif.Sim

open Filter Topology

theorem mean_lin {s : Nat} (hs : s ≠ 0) (c α β : ℝ) (g h : Nat → ℝ) :
    mean s (fun t => c + α * g t + β * h t) = c + α * mean s g + β * mean s h := by
  rw [mean_add, mean_affine s hs, mean_smul]

theorem scov_lin_right {s : Nat} (hs : s ≠ 0) (c α β : ℝ) (f g h : Nat → ℝ) :
    scov s 1 f (fun t => c + α * g t + β * h t) = α * scov s 1 f g + β * scov s 1 f h := by
  unfold scov
  rw [mean_lin hs, ← mul_div_assoc, ← mul_div_assoc, ← add_div, Finset.mul_sum, Finset.mul_sum, ← Finset.sum_add_distrib]
  congr 1
  exact Finset.sum_congr rfl fun t _ => by ring

theorem scov_lin {s : Nat} (hs : s ≠ 0) (c α β c' α' β' : ℝ) (f g f' g' : Nat → ℝ) :
    scov s 1 (fun t => c + α * f t + β * g t) (fun t => c' + α' * f' t + β' * g' t) =
      α * α' * scov s 1 f f' + α * β' * scov s 1 f g' + β * α' * scov s 1 g f' + β * β' * scov s 1 g g' := by
  rw [scov_lin_right hs, scov_comm _ _ _ f', scov_comm _ _ _ g', scov_lin_right hs, scov_lin_right hs, scov_comm _ _ f' f,
    scov_comm _ _ f' g, scov_comm _ _ g' f, scov_comm _ _ g' g]
  ring

theorem scov_abs_le {s : Nat} (hs : 2 ≤ s) (f g : Nat → ℝ) : |scov s 1 f g| ≤ (scov s 1 f f + scov s 1 g g) / 2 := by
  have hp := pred_pos hs
  unfold scov
  rw [abs_div, abs_of_pos hp, ← add_div, div_right_comm]
  apply div_le_div_of_nonneg_right _ hp.le
  rw [← Finset.sum_add_distrib, Finset.sum_div]
  refine (Finset.abs_sum_le_sum_abs _ _).trans (Finset.sum_le_sum fun t _ => ?_)
  rw [abs_mul]
  nlinarith [sq_nonneg (|f t - mean s f| - |g t - mean s g|), abs_mul_abs_self (f t - mean s f), abs_mul_abs_self (g t - mean s g)]

theorem scov_vanish {f g : Nat → ℝ} {A B : ℝ} {δ : Nat → ℝ} (hf : Tendsto (fun s => scov s 1 f f) atTop (𝓝 A))
    (hg : Tendsto (fun s => scov s 1 g g) atTop (𝓝 B)) (hδ : Tendsto δ atTop (𝓝 0)) :
    Tendsto (fun s => δ s * scov s 1 f g) atTop (𝓝 0) := by
  have h := hδ.norm.mul ((hf.add hg).div_const 2)
  rw [norm_zero, zero_mul] at h
  refine squeeze_zero_norm' ?_ h
  filter_upwards [eventually_ge_atTop 2] with s hs
  rw [norm_mul]
  exact mul_le_mul_of_nonneg_left (scov_abs_le hs f g) (norm_nonneg _)

/-- The slope of the regression of a path on its past. -/
noncomputable def olsSlope (s : Nat) (x : Nat → ℝ) : ℝ := scov s 1 x (fun t => x (t + 1)) / scov s 1 x x

/-- The intercept. -/
noncomputable def olsIcept (s : Nat) (x : Nat → ℝ) : ℝ := mean s (fun t => x (t + 1)) - olsSlope s x * mean s x

/-- The residuals. -/
noncomputable def olsRes (s : Nat) (x : Nat → ℝ) (t : Nat) : ℝ := x (t + 1) - (olsSlope s x * x t + olsIcept s x)

theorem lstsqLine_range {s : Nat} {x : Nat → ℝ} (hs : 2 ≤ s) (hV : scov s 1 x x ≠ 0) :
    lstsqLine ((List.range (s + 1)).map x).dropLast ((List.range (s + 1)).map x).tail = (olsSlope s x, olsIcept s x) := by
  have hp := (pred_pos hs).ne'
  have hV' : sqDev ((List.range s).map x) ≠ 0 := by
    rw [sqDev_range]
    intro h
    exact hV (by unfold scov; rw [h, zero_div])
  have hne : (List.range s).map x ≠ [] := by
    intro h
    have := congrArg List.length h
    simp at this
    omega
  have hsl : crossDev ((List.range s).map x) ((List.range s).map fun i => x (i + 1)) / sqDev ((List.range s).map x) =
      olsSlope s x := by
    rw [crossDev_range, sqDev_range]
    unfold olsSlope scov
    rw [div_div_div_cancel_right₀ hp]
  rw [tail_range_map, dropLast_range_map]
  unfold lstsqLine
  rw [if_neg hne, if_neg hV', hsl, lmean_range, lmean_range]
  rfl

theorem ouLine_range {s : Nat} {x : Nat → ℝ} (hs : 2 ≤ s) (hV : scov s 1 x x ≠ 0) (hsl : slopeTol < olsSlope s x) :
    ouLine ((List.range (s + 1)).map x) = (olsSlope s x, olsIcept s x) := by
  unfold ouLine
  rw [lstsqLine_range hs hV]
  exact if_neg (not_le.mpr hsl)

theorem ouLine_clamped {s : Nat} {x : Nat → ℝ} (hs : 2 ≤ s) (hV : scov s 1 x x ≠ 0) (hsl : olsSlope s x ≤ slopeTol) :
    ouLine ((List.range (s + 1)).map x) = (slopeTol, mean s fun t => x (t + 1)) := by
  unfold ouLine
  rw [lstsqLine_range hs hV]
  dsimp only
  rw [if_pos hsl, tail_range_map, lmean_range]
  rfl

theorem ouResiduals_range {s : Nat} {x : Nat → ℝ} (hs : 2 ≤ s) (hV : scov s 1 x x ≠ 0) (hsl : slopeTol < olsSlope s x) :
    ouResiduals ((List.range (s + 1)).map x) = (List.range s).map (olsRes s x) := by
  unfold ouResiduals
  rw [ouLine_range hs hV hsl, tail_range_map, dropLast_range_map, List.zipWith_map, List.zipWith_self]
  rfl

section

variable {e x : Nat → ℝ} {w φ b m : ℝ}

theorem ar_var_pos (h0 : 0 ≤ φ) (h1 : φ < 1) (hw : 0 < w) (hb : b ≠ 0) : 0 < b ^ 2 * w / (1 - φ ^ 2) := by
  have : 0 < 1 - φ ^ 2 := by nlinarith
  positivity

theorem ols_limits (he : Noise e w) (h0 : 0 ≤ φ) (h1 : φ < 1) (hw : 0 < w) (hb : b ≠ 0)
    (hx : ∀ t, x (t + 1) = m + (x t - m) * φ + b * e t) :
    Tendsto (fun s => mean s fun t => x (t + 1)) atTop (𝓝 m) ∧
    Tendsto (fun s => olsSlope s x) atTop (𝓝 φ) ∧ Tendsto (fun s => olsIcept s x) atTop (𝓝 (m * (1 - φ))) := by
  obtain ⟨l1, l2, l3⟩ := ar_limits he h0 h1 hx
  have hV := ar_var_pos h0 h1 hw hb
  have hx' : (fun t => x (t + 1)) = fun t => m * (1 - φ) + φ * x t + b * e t := by
    funext t
    rw [hx]
    ring
  have l4 : Tendsto (fun s => mean s fun t => x (t + 1)) atTop (𝓝 m) := by
    have := ((l1.const_mul φ).const_add (m * (1 - φ))).add (he.mean.const_mul b)
    rw [mul_zero, add_zero, show m * (1 - φ) + φ * m = m by ring] at this
    refine this.congr' ?_
    filter_upwards [eventually_ge_atTop 1] with s hs
    rw [hx', mean_lin (by omega)]
  have l5 : Tendsto (fun s => olsSlope s x) atTop (𝓝 φ) := by
    have := ((l3.const_mul b).div l2 hV.ne').const_add φ
    rw [mul_zero, zero_div, add_zero] at this
    refine this.congr' ?_
    filter_upwards [eventually_ge_atTop 1, l2.eventually_ne hV.ne'] with s hs h
    unfold olsSlope
    rw [hx', scov_lin_right (by omega), add_div, mul_div_assoc, div_self h, mul_one]
    rfl
  refine ⟨l4, l5, ?_⟩
  have := l4.sub (l5.mul l1)
  rwa [show m - φ * m = m * (1 - φ) by ring] at this

theorem olsRes_eq (hx : ∀ t, x (t + 1) = m + (x t - m) * φ + b * e t) (s : Nat) :
    olsRes s x = fun t => (m * (1 - φ) - olsIcept s x) + (φ - olsSlope s x) * x t + b * e t := by
  funext t
  unfold olsRes
  rw [hx]
  ring

/-- The covariances of the residuals. -/
theorem olsRes_limit {e' x' : Nat → ℝ} {w' φ' b' m' C : ℝ} (he : Noise e w) (h0 : 0 ≤ φ) (h1 : φ < 1) (hw : 0 < w) (hb : b ≠ 0)
    (hx : ∀ t, x (t + 1) = m + (x t - m) * φ + b * e t) (he' : Noise e' w') (h0' : 0 ≤ φ') (h1' : φ' < 1) (hw' : 0 < w')
    (hb' : b' ≠ 0) (hx' : ∀ t, x' (t + 1) = m' + (x' t - m') * φ' + b' * e' t)
    (hC : Tendsto (fun s => scov s 1 e e') atTop (𝓝 C)) :
    Tendsto (fun s => scov s 1 (olsRes s x) (olsRes s x')) atTop (𝓝 (b * b' * C)) := by
  obtain ⟨-, v1, -⟩ := ar_limits he h0 h1 hx
  obtain ⟨-, v1', -⟩ := ar_limits he' h0' h1' hx'
  obtain ⟨-, o1, -⟩ := ols_limits he h0 h1 hw hb hx
  obtain ⟨-, o1', -⟩ := ols_limits he' h0' h1' hw' hb' hx'
  have ve : Tendsto (fun s => scov s 1 e e) atTop (𝓝 (w - 0 * 0)) := scov_tendsto he.mean he.mean he.sq
  have ve' : Tendsto (fun s => scov s 1 e' e') atTop (𝓝 (w' - 0 * 0)) := scov_tendsto he'.mean he'.mean he'.sq
  have d : Tendsto (fun s => φ - olsSlope s x) atTop (𝓝 0) := by
    have := o1.const_sub φ
    rwa [sub_self] at this
  have d' : Tendsto (fun s => φ' - olsSlope s x') atTop (𝓝 0) := by
    have := o1'.const_sub φ'
    rwa [sub_self] at this
  have dd : Tendsto (fun s => (φ - olsSlope s x) * (φ' - olsSlope s x')) atTop (𝓝 0) := by
    have := d.mul d'
    rwa [mul_zero] at this
  have db : Tendsto (fun s => (φ - olsSlope s x) * b') atTop (𝓝 0) := by
    have := d.mul_const b'
    rwa [zero_mul] at this
  have db' : Tendsto (fun s => b * (φ' - olsSlope s x')) atTop (𝓝 0) := by
    have := d'.const_mul b
    rwa [mul_zero] at this
  have := (((scov_vanish v1 v1' dd).add (scov_vanish v1 ve' db)).add (scov_vanish ve v1' db')).add (hC.const_mul (b * b'))
  rw [add_zero, add_zero, zero_add] at this
  refine this.congr' ?_
  filter_upwards [eventually_ge_atTop 1] with s hs
  rw [olsRes_eq hx, olsRes_eq hx', scov_lin (by omega)]

end

/-- Columns whose covariance matrix is regular are not collinear. -/
theorem notCollinear_of_scov {k s : Nat} (hs : 1 ≤ s) {f : Nat → Nat → ℝ}
    (hdet : (Matrix.of fun i j : Fin k => scov s 1 (f i) (f j)).det ≠ 0) : NotCollinear k s f := by
  intro c hc
  have key : ∀ i : Fin k, ∑ j : Fin k, scov s 1 (f i) (f j) * c j = 0 := fun i => by
    have h0 := scov_const_right (f i) hs hc
    rw [scov_sum_right, Finset.sum_range] at h0
    rw [← h0]
    exact Finset.sum_congr rfl fun j _ => mul_comm _ _
  have hv := Matrix.eq_zero_of_mulVec_eq_zero hdet (v := fun j : Fin k => c j) (funext fun i => key i)
  exact fun j hj => congrFun hv ⟨j, hj⟩

/-- Data with the given columns. -/
def HasColumns (A : Arr) (s k : Nat) (X : Nat → Nat → ℝ) : Prop :=
  A.rows = s + 1 ∧ A.cols = k ∧ ∀ t ≤ s, ∀ c < k, A.get t c = X c t

theorem columns_eq {A : Arr} {s k : Nat} {X : Nat → Nat → ℝ} (h : HasColumns A s k X) :
    columns A = (List.range k).map fun c => (List.range (s + 1)).map (X c) := by
  obtain ⟨h1, h2, h3⟩ := h
  unfold columns Arr.col
  rw [h1, h2]
  refine List.map_congr_left fun c hc => List.map_congr_left fun t ht => ?_
  exact h3 t (by have := List.mem_range.mp ht; omega) c (List.mem_range.mp hc)

theorem getLast_range_map {α : Type*} {k : Nat} (hk : 0 < k) (f : Nat → α) : ((List.range k).map f).getLast? = some (f (k - 1)) := by
  obtain ⟨k, rfl⟩ : ∃ m, k = m + 1 := ⟨k - 1, by omega⟩
  rw [List.range_succ, List.map_append]
  simp

/-- The result of the fit for columns whose residuals are not collinear. -/
theorem ouFit_value {chol : Arr → Option Arr} (hc : CholTotal chol) {A : Arr} {s k : Nat} {X : Nat → Nat → ℝ} {dt : ℝ}
    (hA : HasColumns A s k X) (hk : 0 < k) (hs : 2 ≤ s) (hV : ∀ c < k, scov s 1 (X c) (X c) ≠ 0)
    (hsl : ∀ c < k, slopeTol < olsSlope s (X c)) (hn : NotCollinear k s fun c => olsRes s (X c)) :
    ∃ r, ouFit chol A dt = .ok r ∧ r.mean = olsIcept s (X (k - 1)) / (1 - olsSlope s (X (k - 1))) ∧
      r.mrr = -Real.log (olsSlope s (X (k - 1))) / dt ∧
      (∀ c < k, r.vol[c]? = some (some (Real.sqrt (2 * (-Real.log (olsSlope s (X (k - 1))) / dt) *
        scov s 1 (olsRes s (X c)) (olsRes s (X c)) / (1 - olsSlope s (X (k - 1)) ^ 2))))) ∧
      (1 < k → ∃ R, r.cor = some R ∧ ∀ c < k, ∀ c' < k, R.get c c' = scov s 1 (olsRes s (X c)) (olsRes s (X c')) /
        (Real.sqrt (scov s 1 (olsRes s (X c)) (olsRes s (X c))) * Real.sqrt (scov s 1 (olsRes s (X c')) (olsRes s (X c'))))) := by
  have hcol := columns_eq hA
  have hres : (columns A).map ouResiduals = incLists k s fun c => olsRes s (X c) := by
    rw [hcol, List.map_map]
    unfold incLists
    refine List.map_congr_left fun c hc => ?_
    have hc := List.mem_range.mp hc
    exact ouResiduals_range hs (hV c hc) (hsl c hc)
  have hlast := getLast_range_map hk fun c => (List.range (s + 1)).map (X c)
  have hline := ouLine_range hs (hV (k - 1) (by omega)) (hsl (k - 1) (by omega))
  have hvol : ∀ (g : ℝ → ℝ), ∀ c < k, ((incLists k s fun c => olsRes s (X c)).map fun r => (npStd1 r).map g)[c]? =
      some (some (g (Real.sqrt (scov s 1 (olsRes s (X c)) (olsRes s (X c)))))) := by
    intro g c hc
    unfold incLists
    rw [List.map_map, List.getElem?_map, List.getElem?_range hc]
    simp only [Option.map_some, Function.comp, npStd1_range hs]
  unfold ouFit
  dsimp only
  rw [hres, hcol, hlast]
  dsimp only
  rw [hline, hA.2.1]
  by_cases h1 : 1 < k
  · have hne : ∀ j < k, ¬ Constant s (olsRes s (X j)) := fun j hj => constant_of_notCollinear hn hj
    have hbad : ¬ ∃ r ∈ incLists k s fun c => olsRes s (X c), badColumn r := by
      rintro ⟨r, hr, hb⟩
      obtain ⟨j, hj, rfl⟩ := List.mem_map.mp hr
      have hj := List.mem_range.mp hj
      unfold badColumn at hb
      rw [npStd1_range hs] at hb
      rcases hb with hb | hb
      · have hb := Option.some.inj hb
        rw [Real.sqrt_eq_zero (scov_self_nonneg hs _), scov_self_eq_zero hs] at hb
        exact hne j hj hb
      · cases hb
    have hlen : (corrcoef (incLists k s fun c => olsRes s (X c))).rows = k := by simp [corrcoef, incLists]
    have hlen' : (corrcoef (incLists k s fun c => olsRes s (X c))).cols = k := by simp [corrcoef, incLists]
    have hcc := hc (corrcoef (incLists k s fun c => olsRes s (X c))) (by rw [hlen, hlen']) (by
      rw [hlen]
      intro i hi j hj
      rw [corrcoef_incLists hs _ hi hj, corrcoef_incLists hs _ hj hi, scov_comm, mul_comm (Real.sqrt _)])
    rw [hlen, ← notCollinear_iff hs hne] at hcc
    obtain ⟨L, hL⟩ := Option.ne_none_iff_exists'.mp (hcc.mpr hn)
    rw [if_pos h1, if_neg hbad, hL]
    refine ⟨_, rfl, rfl, rfl, fun c hc => ?_, fun _ => ⟨_, rfl, fun c hc c' hc' => corrcoef_incLists hs _ hc hc'⟩⟩
    dsimp only
    rw [hvol _ c hc, Real.sq_sqrt (scov_self_nonneg hs _)]
  · rw [if_neg h1]
    refine ⟨_, rfl, rfl, rfl, fun c hc => ?_, fun h => absurd h h1⟩
    dsimp only
    rw [hvol _ c hc, Real.sq_sqrt (scov_self_nonneg hs _)]

/-- Longer and longer data with autoregressive columns. -/
structure ARColumns (A : Nat → Arr) (k : Nat) (X E : Nat → Nat → ℝ) (m φ b : Nat → ℝ) (C : Nat → Nat → ℝ) : Prop where
  cols : ∀ s, HasColumns (A s) s k X
  step : ∀ c < k, ∀ t, X c (t + 1) = m c + (X c t - m c) * φ c + b c * E c t
  noise : ∀ c < k, Noise (E c) (C c c)
  cov : ∀ c < k, ∀ c' < k, Tendsto (fun s => scov s 1 (E c) (E c')) atTop (𝓝 (C c c'))
  rate0 : ∀ c < k, 0 < φ c
  rate1 : ∀ c < k, φ c < 1
  scale : ∀ c < k, b c ≠ 0
  pos : ∀ c < k, 0 < C c c
  reg : (Matrix.of fun i j : Fin k => C i j).det ≠ 0

section

variable {A : Nat → Arr} {k : Nat} {X E : Nat → Nat → ℝ} {m φ b : Nat → ℝ} {C : Nat → Nat → ℝ}

theorem ARColumns.res (h : ARColumns A k X E m φ b C) {c c' : Nat} (hc : c < k) (hc' : c' < k) :
    Tendsto (fun s => scov s 1 (olsRes s (X c)) (olsRes s (X c'))) atTop (𝓝 (b c * b c' * C c c')) :=
  olsRes_limit (h.noise c hc) (h.rate0 c hc).le (h.rate1 c hc) (h.pos c hc) (h.scale c hc) (h.step c hc) (h.noise c' hc')
    (h.rate0 c' hc').le (h.rate1 c' hc') (h.pos c' hc') (h.scale c' hc') (h.step c' hc') (h.cov c hc c' hc')

theorem ARColumns.det (h : ARColumns A k X E m φ b C) :
    ∀ᶠ s in atTop, (Matrix.of fun i j : Fin k => scov s 1 (olsRes s (X i)) (olsRes s (X j))).det ≠ 0 := by
  have hm : Tendsto (fun s => (Matrix.of fun i j : Fin k => scov s 1 (olsRes s (X i)) (olsRes s (X j)))) atTop
      (𝓝 (Matrix.of fun i j : Fin k => b i * b j * C i j)) :=
    tendsto_pi_nhds.mpr fun i => tendsto_pi_nhds.mpr fun j => h.res i.2 j.2
  have hd : Continuous fun M : Matrix (Fin k) (Fin k) ℝ => M.det := Continuous.matrix_det continuous_id
  have ht := (hd.tendsto _).comp hm
  refine ht.eventually_ne ?_
  have e : (Matrix.of fun i j : Fin k => b i * b j * C i j) = Matrix.diagonal (fun i : Fin k => b i) *
      (Matrix.of fun i j : Fin k => C i j) * Matrix.diagonal (fun i : Fin k => b i) := by
    ext i j
    rw [Matrix.mul_diagonal, Matrix.diagonal_mul]
    simp only [Matrix.of_apply]
    ring
  rw [e, Matrix.det_mul, Matrix.det_mul, Matrix.det_diagonal]
  have hp : (∏ i : Fin k, b i) ≠ 0 := Finset.prod_ne_zero_iff.mpr fun i _ => h.scale i i.2
  exact mul_ne_zero (mul_ne_zero hp h.reg) hp

theorem ARColumns.var_ne (h : ARColumns A k X E m φ b C) : ∀ᶠ s in atTop, ∀ c < k, scov s 1 (X c) (X c) ≠ 0 := by
  have : ∀ c ∈ Finset.range k, ∀ᶠ s in atTop, scov s 1 (X c) (X c) ≠ 0 := fun c hc => by
    have hc := Finset.mem_range.mp hc
    exact (ar_limits (h.noise c hc) (h.rate0 c hc).le (h.rate1 c hc) (h.step c hc)).2.1.eventually_ne
      (ar_var_pos (h.rate0 c hc).le (h.rate1 c hc) (h.pos c hc) (h.scale c hc)).ne'
  filter_upwards [(Filter.eventually_all_finset _).mpr this] with s hs c hc
  exact hs c (Finset.mem_range.mpr hc)

theorem ARColumns.ols (h : ARColumns A k X E m φ b C) {c : Nat} (hc : c < k) :
    Tendsto (fun s => mean s fun t => X c (t + 1)) atTop (𝓝 (m c)) ∧
    Tendsto (fun s => olsSlope s (X c)) atTop (𝓝 (φ c)) ∧ Tendsto (fun s => olsIcept s (X c)) atTop (𝓝 (m c * (1 - φ c))) :=
  ols_limits (h.noise c hc) (h.rate0 c hc).le (h.rate1 c hc) (h.pos c hc) (h.scale c hc) (h.step c hc)

/-- The limits of the estimates when no decay factor is below the tolerance. -/
theorem ARColumns.limits {chol : Arr → Option Arr} (hchol : CholTotal chol) (h : ARColumns A k X E m φ b C) (hk : 0 < k)
    (htol : ∀ c < k, slopeTol < φ c) (dt : ℝ) :
    FitTendsto (fun s => ouFit chol (A s) dt) ouMeanAt (m (k - 1)) ∧
    FitTendsto (fun s => ouFit chol (A s) dt) ouRateAt (-Real.log (φ (k - 1)) / dt) ∧
    (∀ c < k, FitTendsto (fun s => ouFit chol (A s) dt) (ouVolAt c)
      (Real.sqrt (2 * (-Real.log (φ (k - 1)) / dt) * (b c * b c * C c c) / (1 - φ (k - 1) ^ 2)))) ∧
    (1 < k → ∀ c < k, ∀ c' < k, FitTendsto (fun s => ouFit chol (A s) dt) (ouCorAt c c')
      (b c * b c' * C c c' / (Real.sqrt (b c * b c * C c c) * Real.sqrt (b c' * b c' * C c' c')))) := by
  have hl : k - 1 < k := by omega
  have hsl : ∀ᶠ s in atTop, ∀ c < k, slopeTol < olsSlope s (X c) := by
    have : ∀ c ∈ Finset.range k, ∀ᶠ s in atTop, slopeTol < olsSlope s (X c) := fun c hc => by
      have hc := Finset.mem_range.mp hc
      exact (h.ols hc).2.1.eventually_const_lt (htol c hc)
    filter_upwards [(Filter.eventually_all_finset _).mpr this] with s hs c hc
    exact hs c (Finset.mem_range.mpr hc)
  have hval : ∀ᶠ s in atTop, ∃ r, ouFit chol (A s) dt = .ok r ∧ r.mean = olsIcept s (X (k - 1)) / (1 - olsSlope s (X (k - 1))) ∧
      r.mrr = -Real.log (olsSlope s (X (k - 1))) / dt ∧
      (∀ c < k, r.vol[c]? = some (some (Real.sqrt (2 * (-Real.log (olsSlope s (X (k - 1))) / dt) *
        scov s 1 (olsRes s (X c)) (olsRes s (X c)) / (1 - olsSlope s (X (k - 1)) ^ 2))))) ∧
      (1 < k → ∃ R, r.cor = some R ∧ ∀ c < k, ∀ c' < k, R.get c c' = scov s 1 (olsRes s (X c)) (olsRes s (X c')) /
        (Real.sqrt (scov s 1 (olsRes s (X c)) (olsRes s (X c))) *
          Real.sqrt (scov s 1 (olsRes s (X c')) (olsRes s (X c'))))) := by
    filter_upwards [hsl, h.var_ne, h.det, eventually_ge_atTop 2] with s s1 s2 s3 s4
    exact ouFit_value hchol (h.cols s) hk s4 s2 s1 (notCollinear_of_scov (f := fun c => olsRes s (X c)) (by omega) s3)
  have p0 := h.rate0 _ hl
  have p1 := h.rate1 _ hl
  have hne1 : 1 - φ (k - 1) ≠ 0 := by linarith
  have hne2 : 1 - φ (k - 1) ^ 2 ≠ 0 := by nlinarith
  obtain ⟨-, o2, o3⟩ := h.ols hl
  have hlog : Tendsto (fun s => -Real.log (olsSlope s (X (k - 1))) / dt) atTop (𝓝 (-Real.log (φ (k - 1)) / dt)) :=
    ((Real.continuousAt_log p0.ne').tendsto.comp o2).neg.div_const dt
  have hres := fun c (hc : c < k) c' (hc' : c' < k) => h.res hc hc'
  refine ⟨⟨_, hval.mono fun s ⟨r, hr, h1, h2, h3, h4⟩ => ⟨r, hr, congrArg some h1⟩, ?_⟩,
    ⟨_, hval.mono fun s ⟨r, hr, h1, h2, h3, h4⟩ => ⟨r, hr, congrArg some h2⟩, hlog⟩,
    fun c hc => ⟨_, hval.mono fun s ⟨r, hr, h1, h2, h3, h4⟩ => ⟨r, hr, by rw [ouVolAt, h3 c hc]; rfl⟩, ?_⟩,
    fun h1k c hc c' hc' => ⟨fun s => scov s 1 (olsRes s (X c)) (olsRes s (X c')) /
        (Real.sqrt (scov s 1 (olsRes s (X c)) (olsRes s (X c))) * Real.sqrt (scov s 1 (olsRes s (X c')) (olsRes s (X c')))),
      hval.mono fun s ⟨r, hr, h1, h2, h3, h4⟩ => ⟨r, hr, ?_⟩, ?_⟩⟩
  · have := o3.div (o2.const_sub 1) hne1
    rwa [mul_div_assoc, div_self hne1, mul_one] at this
  · exact (Real.continuous_sqrt.tendsto _).comp (((hlog.const_mul 2).mul (hres c hc c hc)).div ((o2.pow 2).const_sub 1) hne2)
  · obtain ⟨R, e1, e2⟩ := h4 h1k
    rw [ouCorAt, e1, Option.map_some, e2 c hc c' hc']
  · have q1 := (Real.continuous_sqrt.tendsto _).comp (hres c hc c hc)
    have q2 := (Real.continuous_sqrt.tendsto _).comp (hres c' hc' c' hc')
    have p : ∀ c < k, 0 < b c * b c * C c c := fun c hc => mul_pos (mul_self_pos.mpr (h.scale c hc)) (h.pos c hc)
    exact (hres c hc c' hc').div (q1.mul q2) (mul_pos (Real.sqrt_pos.mpr (p c hc)) (Real.sqrt_pos.mpr (p c' hc'))).ne'

/-- One column with a decay factor below the tolerance. -/
theorem ARColumns.clamped {chol : Arr → Option Arr} (h : ARColumns A 1 X E m φ b C) (htol : φ 0 < slopeTol) (dt : ℝ) :
    (∀ᶠ s in atTop, ∃ r, ouFit chol (A s) dt = .ok r ∧ r.mrr = -Real.log slopeTol / dt) ∧
    FitTendsto (fun s => ouFit chol (A s) dt) ouMeanAt (m 0 / (1 - slopeTol)) := by
  obtain ⟨o1, o2, -⟩ := h.ols Nat.one_pos
  have hval : ∀ᶠ s in atTop, ∃ r, ouFit chol (A s) dt = .ok r ∧ r.mrr = -Real.log slopeTol / dt ∧
      r.mean = (mean s fun t => X 0 (t + 1)) / (1 - slopeTol) := by
    filter_upwards [o2.eventually_lt_const htol, h.var_ne, eventually_ge_atTop 2] with s s1 s2 s3
    have hcol := columns_eq (h.cols s)
    have hlast := getLast_range_map Nat.one_pos fun c => (List.range (s + 1)).map (X c)
    unfold ouFit
    dsimp only
    rw [hcol, hlast, (h.cols s).2.1, if_neg (lt_irrefl 1)]
    dsimp only
    rw [ouLine_clamped s3 (s2 0 Nat.one_pos) s1.le]
    exact ⟨_, rfl, rfl, rfl⟩
  exact ⟨hval.mono fun s ⟨r, h1, h2, _⟩ => ⟨r, h1, h2⟩, _, hval.mono fun s ⟨r, h1, _, h3⟩ => ⟨r, h1, congrArg some h3⟩,
    o1.div_const _⟩

end

end Verif.Sim
