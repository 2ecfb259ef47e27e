import Verif.Spec.ChiSquare
import Verif.Lemmas.Helmert
import Verif.Props.CovLaw
import Verif.Props.SimLawFit

/-!
# C93: the exact law of the estimates on a simulated sample
-/

namespace Verif.Sim

open MeasureTheory ProbabilityTheory Stat

variable {Ω : Type*} [MeasurableSpace Ω] {P : Measure Ω} {z : Ω → Nat → ℝ} {n v : Nat} {chol : Arr → Option Arr}

/-! ### Sums of squares -/

theorem StdNormal.chiSquare [IsProbabilityMeasure P] {k : Nat} {ξ : Fin k → Ω → ℝ} (h : StdNormal P ξ) :
    HasLaw (fun ω => ∑ i, ξ i ω ^ 2) (chiSquare k) P := by
  have hm : AEMeasurable (fun ω i => ξ i ω) P := aemeasurable_pi_lambda _ fun i => (h.law i).aemeasurable
  have e := (iIndepFun_iff_map_fun_eq_pi_map fun i => (h.law i).aemeasurable).mp h.indep
  simp only [(h.law _).map_eq] at e
  refine ⟨by have := fun i => (h.law i).aemeasurable; fun_prop, ?_⟩
  unfold Stat.chiSquare
  rw [← e, AEMeasurable.map_map_of_aemeasurable (Measurable.aemeasurable (by fun_prop)) hm]
  rfl

theorem StdNormal.sq_memLp {ι : Type*} {ξ : ι → Ω → ℝ} (h : StdNormal P ξ) (a : ι) : MemLp (fun ω => ξ a ω ^ 2) 2 P := by
  have h4 : MemLp (ξ a) 4 P := by
    have := memLp_id_gaussianReal (μ := 0) (v := 1) 4
    rw [← (h.law a).map_eq] at this
    exact this.comp_of_map (h.law a).aemeasurable
  have hm : AEStronglyMeasurable (fun ω => ξ a ω ^ 2) P := h4.aestronglyMeasurable.pow 2
  rw [memLp_two_iff_integrable_sq hm]
  refine (h4.integrable_norm_pow (p := 4) (by norm_num)).congr (ae_of_all _ fun ω => ?_)
  show ‖ξ a ω‖ ^ 4 = (ξ a ω ^ 2) ^ 2
  rw [Real.norm_eq_abs, ← pow_mul, show 4 = 2 * 2 by norm_num, pow_mul, sq_abs, pow_mul]

theorem StdNormal.sq_mean {ι : Type*} {ξ : ι → Ω → ℝ} (h : StdNormal P ξ) (a : ι) : ∫ ω, ξ a ω ^ 2 ∂P = 1 := by
  classical
  have : Nonempty ι := ⟨a⟩
  have := h.prob
  have e := h.cov a a
  rw [if_pos rfl, covariance_self (h.law a).aemeasurable, variance_eq_sub (h.memLp a), h.mean, zero_pow two_ne_zero, sub_zero] at e
  exact e

theorem StdNormal.sq_variance {ι : Type*} {ξ : ι → Ω → ℝ} (h : StdNormal P ξ) (a : ι) : Var[fun ω => ξ a ω ^ 2; P] = 2 := by
  have : Nonempty ι := ⟨a⟩
  have := h.prob
  rw [variance_eq_sub (h.sq_memLp a), h.sq_mean]
  have e2 : ∫ ω, ((fun ω => ξ a ω ^ 2) ^ 2) ω ∂P = 3 := by
    rw [← Cov.gauss_fourth, ← (h.law a).integral_comp (f := fun x : ℝ => x ^ 4) (Continuous.aestronglyMeasurable (by fun_prop))]
    refine integral_congr_ae (ae_of_all _ fun ω => ?_)
    simp only [Pi.pow_apply, Function.comp_apply]
    ring
  rw [e2]
  norm_num

/-- A sum of `k` squares has mean `k` and variance `2 k`. -/
theorem StdNormal.sum_sq {ι : Type*} [Fintype ι] {ξ : ι → Ω → ℝ} (h : StdNormal P ξ) [IsProbabilityMeasure P] :
    MemLp (fun ω => ∑ i, ξ i ω ^ 2) 2 P ∧ ∫ ω, ∑ i, ξ i ω ^ 2 ∂P = Fintype.card ι ∧ Var[fun ω => ∑ i, ξ i ω ^ 2; P] = 2 * Fintype.card ι := by
  have hm := fun i => h.sq_memLp i
  refine ⟨memLp_finsetSum _ fun i _ => hm i, ?_, ?_⟩
  · rw [integral_finsetSum _ fun i _ => (hm i).integrable (by norm_num)]
    simp [h.sq_mean]
  · have e : (fun ω => ∑ i, ξ i ω ^ 2) = ∑ i, fun ω => ξ i ω ^ 2 := by funext ω; rw [Finset.sum_apply]
    rw [e, IndepFun.variance_sum (fun i _ => hm i) fun i _ j _ hij => ?_]
    · simp [h.sq_variance, mul_comm]
    · exact (h.indep.indepFun hij).comp (φ := fun x : ℝ => x ^ 2) (ψ := fun x : ℝ => x ^ 2) (by fun_prop) (by fun_prop)

/-! ### The sample variances of the shocks -/

theorem corOf_self_nonneg (L : Option Arr) {v : Nat} (j : Fin v) : 0 ≤ corOf L v j j := by
  rw [corOf_eq]
  exact Finset.sum_nonneg fun m _ => mul_self_nonneg _

/-- `s - 1` times the sample variance of the shocks of a column is the variance times a sum of `s - 1` squares of independent
standard normal variables. -/
theorem shock_sum_sq (hz : Draws P z) (L : Option Arr) {s : Nat} (hs : 2 ≤ s) (q : Fin n) (j : Fin v) :
    ∃ ξ : Fin (s - 1) → Ω → ℝ, StdNormal P ξ ∧ ∀ ω, (s - 1 : ℝ) * scov s 1 (fun t => shock L v (z ω) (t * n + q) j) (fun t => shock L v (z ω) (t * n + q) j) =
      corOf L v j j * ∑ k, ξ k ω ^ 2 := by
  obtain ⟨m, rfl⟩ : ∃ m, s = m + 1 := ⟨s - 1, by omega⟩
  have hm : (m : ℝ) ≠ 0 := by have : m ≠ 0 := by omega
                              exact_mod_cast this
  rcases (corOf_self_nonneg L j).eq_or_lt with h0 | h0
  · refine ⟨fun k ω => z ω k, StdNormal.comp hz Fin.val_injective, fun ω => ?_⟩
    have hf : ∀ m : Fin v, factor L j m = 0 := by
      have := h0
      rw [corOf_eq, eq_comm, Finset.sum_eq_zero_iff_of_nonneg fun m _ => mul_self_nonneg _] at this
      exact fun m => mul_self_eq_zero.mp (this m (Finset.mem_univ m))
    have hsh : ∀ r, shock L v (z ω) r j = 0 := fun r => by
      rw [shock_eq]
      exact Finset.sum_eq_zero fun m _ => by rw [hf, zero_mul]
    simp only [hsh, ← h0]
    simp [scov, mean]
  · obtain ⟨b, h1, h2, hb⟩ := helmert m
    obtain ⟨g1, g2, g3⟩ := coord_shocks (n := n) (v := v) hz L h1
    set c := corOf L v j j with hc
    have hsc := Real.sqrt_pos.mpr h0
    have hP : IsProbabilityMeasure P := StdNormal.prob hz
    let Y : Fin m → Ω → ℝ := fun k ω => coord b k.succ fun t => shock L v (z ω) (t * n + q) j
    have gY : IsGaussianProcess Y P := g1.comp_right (f := fun k : Fin m => ((q, j), k.succ))
    have cY : ∀ k l : Fin m, cov[Y k, Y l; P] = if k = l then c else 0 := fun k l => by
      rw [g3 ((q, j), k.succ) ((q, j), l.succ)]
      by_cases hkl : k = l
      · rw [if_pos hkl, if_pos ⟨rfl, by rw [hkl]⟩]
      · rw [if_neg hkl, if_neg (fun h => hkl (Fin.succ_injective _ h.2))]
    refine ⟨fun k ω => Y k ω / √c, ⟨fun k => ?_, ?_⟩, fun ω => ?_⟩
    · have hl := gY.hasGaussianLaw_eval k
      have hv := cY k k
      rw [covariance_self hl.aemeasurable, if_pos rfl] at hv
      have hlaw : HasLaw (Y k) (gaussianReal 0 c.toNNReal) P := ⟨hl.aemeasurable, by
        rw [hl.map_eq_gaussianReal, hv, g2 ((q, j), k.succ)]⟩
      have := gaussianReal_div_const hlaw √c
      simp only [zero_div] at this
      convert this using 2
      ext
      rw [NNReal.coe_div, Real.coe_toNNReal _ h0.le]
      simp [Real.sq_sqrt h0.le, h0.ne']
    · have hi : iIndepFun Y P := by
        have := IsGaussianProcess.iIndepFun_of_covariance_eq_zero (T := Fin m) (S := fun _ => Unit) (X := fun k _ => Y k)
          (gY.comp_right (f := fun p : (_ : Fin m) × Unit => p.1)) (fun k _ => gY.aemeasurable k) fun k l hkl _ _ => by rw [cY, if_neg hkl]
        exact this.comp (fun _ x => x ()) fun _ => by fun_prop
      exact hi.comp (fun _ x => x / √c) fun _ => by fun_prop
    · rw [scov_coord (by omega) h2 hb]
      push_cast
      rw [add_sub_cancel_right, mul_div_cancel₀ _ hm, Finset.mul_sum]
      refine Finset.sum_congr rfl fun k _ => ?_
      rw [div_pow, Real.sq_sqrt h0.le, ← sq]
      field_simp
      rfl

/-! ### Calibration -/

/-- The estimates in terms of the means and covariances of the shocks. -/
theorem fit_stats {L : Option Arr} {μ σ : Nat → ℝ} {x : Nat → ℝ} {f : Nat → Nat → ℝ} {dt : ℝ} (hdt : 0 < dt)
    (hf : Affine L (fun j => μ j * dt) (fun j => σ j * √dt) n v x f) {s : Nat} (hs : 2 ≤ s) {r : BMFit}
    (hr : fitIncrements chol (incLists (v * n) s f) dt = .ok r) (y : Fin n × Fin v) :
    driftAt (y.1 * v + y.2) r = some (μ y.2 + σ y.2 / √dt * mean s fun t => shock L v x (t * n + y.1) y.2) ∧
    volAt (y.1 * v + y.2) r = some (|σ y.2| * √(scov s 1 (fun t => shock L v x (t * n + y.1) y.2) fun t => shock L v x (t * n + y.1) y.2)) ∧
    (1 < v * n → ∀ y' : Fin n × Fin v, corAt (y.1 * v + y.2) (y'.1 * v + y'.2) r =
      some (σ y.2 * σ y'.2 * scov s 1 (fun t => shock L v x (t * n + y.1) y.2) (fun t => shock L v x (t * n + y'.1) y'.2) /
        (|σ y.2| * √(scov s 1 (fun t => shock L v x (t * n + y.1) y.2) fun t => shock L v x (t * n + y.1) y.2) *
          (|σ y'.2| * √(scov s 1 (fun t => shock L v x (t * n + y'.1) y'.2) fun t => shock L v x (t * n + y'.1) y'.2))))) := by
  have hsq := Real.sqrt_pos.mpr hdt
  have hy := col_lt y.1.2 y.2.2
  have key : ∀ y : Fin n × Fin v, √(scov s 1 (f (y.1 * v + y.2)) (f (y.1 * v + y.2))) = √dt * (|σ y.2| *
      √(scov s 1 (fun t => shock L v x (t * n + y.1) y.2) fun t => shock L v x (t * n + y.1) y.2)) := fun y => by
    rw [scov_cols hf hs, Real.sqrt_mul (mul_self_nonneg _), Real.sqrt_mul_self_eq_abs, abs_mul, abs_of_pos hsq]
    ring
  refine ⟨?_, ?_, fun hk y' => ?_⟩
  · rw [driftAt, (fit_ok hdt hr).1, List.getElem?_map, List.getElem?_range hy, Option.map_some, if_pos (by omega), hf _ y.1.2 _ y.2.2,
      mean_affine s (by omega), Option.join_some]
    congr 1
    have : dt = √dt * √dt := (Real.mul_self_sqrt hdt.le).symm
    rw [add_div, mul_div_assoc, div_self hdt.ne', mul_one]
    congr 1
    conv_lhs => rw [this]
    rw [Real.sqrt_mul_self hsq.le]
    field_simp
  · rw [volAt, (fit_ok hdt hr).2.1, List.getElem?_map, List.getElem?_range hy, Option.map_some, if_pos (by omega), key, Option.join_some,
      mul_div_cancel_left₀ _ hsq.ne']
  · obtain ⟨-, -, hC, -⟩ := (fit_ok hdt hr).2.2.2 hk
    rw [corAt, hC, Option.map_some, corrcoef_incLists hs _ hy (col_lt y'.1.2 y'.2.2), key, key, scov_cols hf hs]
    congr 1
    generalize scov s 1 (fun t => shock L v x (t * n + y.1) y.2) (fun t => shock L v x (t * n + y'.1) y'.2) = C
    generalize |σ y.2| * √(scov s 1 (fun t => shock L v x (t * n + y.1) y.2) fun t => shock L v x (t * n + y.1) y.2) = A
    generalize |σ y'.2| * √(scov s 1 (fun t => shock L v x (t * n + y'.1) y'.2) fun t => shock L v x (t * n + y'.1) y'.2) = B
    rw [show σ y.2 * √dt * (σ y'.2 * √dt) * C = √dt * √dt * (σ y.2 * σ y'.2 * C) by ring, mul_mul_mul_comm (√dt) A (√dt) B,
      mul_div_mul_left _ _ (mul_pos hsq hsq).ne']

/-- What is known about the estimates of drifts `d`, volatilities `w` and correlations `ρ` on samples of `s` steps, for the drifts
`μ`, the volatilities `σ` and the variances `c` of the shocks. -/
structure FitLaw (P : Measure Ω) (n v s : Nat) (dt : ℝ) (μ σ c : Fin v → ℝ) (d w : Fin n × Fin v → Ω → ℝ)
    (ρ : (Fin n × Fin v) × (Fin n × Fin v) → Ω → ℝ) : Prop where
  /-- The drifts are independent of the volatilities and correlations. -/
  indep : IndepFun (fun ω y => d y ω) (fun ω => ((fun y => w y ω), fun y => ρ y ω)) P
  /-- A drift is normal. -/
  drift : ∀ y, HasLaw (d y) (gaussianReal (μ y.2) (c y.2 * σ y.2 ^ 2 / (s * dt)).toNNReal) P
  /-- A squared volatility is a multiple of a chi-square variable with `s - 1` degrees of freedom. -/
  vol : ∀ y, 0 < σ y.2 ^ 2 * c y.2 → HasLaw (fun ω => (s - 1) * w y ω ^ 2 / (σ y.2 ^ 2 * c y.2)) (chiSquare (s - 1)) P
  /-- It has the right mean. -/
  mean : ∀ y, ∫ ω, w y ω ^ 2 ∂P = σ y.2 ^ 2 * c y.2
  /-- Its variance. -/
  variance : ∀ y, Var[fun ω => w y ω ^ 2; P] = 2 * (σ y.2 ^ 2 * c y.2) ^ 2 / (s - 1)
  /-- The volatility itself is too small on average. -/
  biased : ∀ y, 0 < σ y.2 ^ 2 * c y.2 → ∫ ω, w y ω ∂P < √(σ y.2 ^ 2 * c y.2)
  /-- The probability of a relative error of the squared volatility. -/
  error : ∀ y, 0 < σ y.2 ^ 2 * c y.2 → ∀ ε : ℝ, 0 < ε →
    P {ω | ε * (σ y.2 ^ 2 * c y.2) ≤ |w y ω ^ 2 - σ y.2 ^ 2 * c y.2|} ≤ ENNReal.ofReal (2 / ((s - 1) * ε ^ 2))

theorem fit_law (hz : Draws P z) (L : Option Arr) {dt : ℝ} (hdt : 0 < dt) {s : Nat} (hs : 2 ≤ s) (μ σ : Nat → ℝ) :
    FitLaw P n v s dt (fun j => μ j) (fun j => σ j) (fun j => corOf L v j j)
      (fun y ω => μ y.2 + σ y.2 / √dt * mean s fun t => shock L v (z ω) (t * n + y.1) y.2)
      (fun y ω => |σ y.2| * √(scov s 1 (fun t => shock L v (z ω) (t * n + y.1) y.2) fun t => shock L v (z ω) (t * n + y.1) y.2))
      (fun y ω => σ y.1.2 * σ y.2.2 * scov s 1 (fun t => shock L v (z ω) (t * n + y.1.1) y.1.2) (fun t => shock L v (z ω) (t * n + y.2.1) y.2.2) /
        (|σ y.1.2| * √(scov s 1 (fun t => shock L v (z ω) (t * n + y.1.1) y.1.2) fun t => shock L v (z ω) (t * n + y.1.1) y.1.2) *
          (|σ y.2.2| * √(scov s 1 (fun t => shock L v (z ω) (t * n + y.2.1) y.2.2) fun t => shock L v (z ω) (t * n + y.2.1) y.2.2)))) := by
  have hP : IsProbabilityMeasure P := StdNormal.prob hz
  have hs1 : (0 : ℝ) < s - 1 := by
    have : (2 : ℝ) ≤ s := by exact_mod_cast hs
    linarith
  have hcard : (Fintype.card (Fin (s - 1)) : ℝ) = s - 1 := by
    rw [Fintype.card_fin, Nat.cast_sub (by omega), Nat.cast_one]
  -- the squared volatility
  have hw : ∀ y : Fin n × Fin v, ∃ ξ : Fin (s - 1) → Ω → ℝ, StdNormal P ξ ∧ ∀ ω,
      (|σ y.2| * √(scov s 1 (fun t => shock L v (z ω) (t * n + y.1) y.2) fun t => shock L v (z ω) (t * n + y.1) y.2)) ^ 2 =
        σ y.2 ^ 2 * corOf L v y.2 y.2 / (s - 1) * ∑ k, ξ k ω ^ 2 := fun y => by
    obtain ⟨ξ, h1, h2⟩ := shock_sum_sq hz L hs y.1 y.2
    refine ⟨ξ, h1, fun ω => ?_⟩
    rw [mul_pow, sq_abs, Real.sq_sqrt (scov_self_nonneg hs _), div_mul_eq_mul_div, eq_div_iff hs1.ne', mul_assoc, mul_comm _ ((s : ℝ) - 1), h2, mul_assoc]
  have hvar : ∀ y : Fin n × Fin v, Var[fun ω => (|σ y.2| * √(scov s 1 (fun t => shock L v (z ω) (t * n + y.1) y.2)
      fun t => shock L v (z ω) (t * n + y.1) y.2)) ^ 2; P] = 2 * (σ y.2 ^ 2 * corOf L v y.2 y.2) ^ 2 / (s - 1) := fun y => by
    obtain ⟨ξ, h1, h2⟩ := hw y
    simp only [h2]
    rw [variance_const_mul, h1.sum_sq.2.2, hcard]
    field_simp
  have hmean : ∀ y : Fin n × Fin v, ∫ ω, (|σ y.2| * √(scov s 1 (fun t => shock L v (z ω) (t * n + y.1) y.2)
      fun t => shock L v (z ω) (t * n + y.1) y.2)) ^ 2 ∂P = σ y.2 ^ 2 * corOf L v y.2 y.2 := fun y => by
    obtain ⟨ξ, h1, h2⟩ := hw y
    simp only [h2]
    rw [integral_const_mul, h1.sum_sq.2.1, hcard]
    field_simp
  have hmem : ∀ y : Fin n × Fin v, MemLp (fun ω => (|σ y.2| * √(scov s 1 (fun t => shock L v (z ω) (t * n + y.1) y.2)
      fun t => shock L v (z ω) (t * n + y.1) y.2)) ^ 2) 2 P := fun y => by
    obtain ⟨ξ, h1, h2⟩ := hw y
    simp only [h2]
    exact h1.sum_sq.1.const_mul _
  refine ⟨?_, fun y => (estimates_law hz hs hdt (μ y.2) (σ y.2) y.1 y.2).1, fun y h0 => ?_, hmean, hvar, fun y h0 => ?_, fun y h0 ε hε => ?_⟩
  · exact (shock_stats_indep (n := n) (v := v) hz L hs).comp (φ := fun (x : Fin n × Fin v → ℝ) y => μ y.2 + σ y.2 / √dt * x y)
      (ψ := fun (x : (Fin n × Fin v) × (Fin n × Fin v) → ℝ) => ((fun y : Fin n × Fin v => |σ y.2| * √(x (y, y))),
        fun y : (Fin n × Fin v) × (Fin n × Fin v) => σ y.1.2 * σ y.2.2 * x y / (|σ y.1.2| * √(x (y.1, y.1)) * (|σ y.2.2| * √(x (y.2, y.2))))))
      (by fun_prop) (by fun_prop)
  · obtain ⟨ξ, h1, h2⟩ := hw y
    simp only [h2]
    have e : (fun ω => ((s : ℝ) - 1) * (σ y.2 ^ 2 * corOf L v y.2 y.2 / (s - 1) * ∑ k, ξ k ω ^ 2) / (σ y.2 ^ 2 * corOf L v y.2 y.2)) =
        fun ω => ∑ k, ξ k ω ^ 2 := by
      funext ω
      generalize σ y.2 ^ 2 * corOf L v y.2 y.2 = c at h0
      field_simp
    rw [e]
    exact h1.chiSquare
  · set w := fun ω => |σ y.2| * √(scov s 1 (fun t => shock L v (z ω) (t * n + y.1) y.2) fun t => shock L v (z ω) (t * n + y.1) y.2) with hwdef
    have hmeas : AEMeasurable w P := by
      have h1 : w = fun ω => √(w ω ^ 2) := by
        funext ω
        rw [Real.sqrt_sq (by simp only [hwdef]; positivity)]
      rw [h1]
      exact (hmem y).aestronglyMeasurable.aemeasurable.sqrt
    have hw2 : MemLp w 2 P := (memLp_two_iff_integrable_sq hmeas.aestronglyMeasurable).mpr ((hmem y).integrable (by norm_num))
    have hV : 0 < Var[w; P] := by
      refine lt_of_le_of_ne (variance_nonneg _ _) fun h => ?_
      have hc := ae_eq_integral_of_variance_eq_zero hw2 h.symm
      have : Var[fun ω => w ω ^ 2; P] = 0 := by
        rw [variance_congr (Y := fun _ => (∫ ω, w ω ∂P) ^ 2) (by filter_upwards [hc] with ω hω; rw [hω])]
        rw [variance_eq_integral (by fun_prop)]
        simp
      have h2 := hvar y
      rw [show (fun ω => (|σ y.2| * √(scov s 1 (fun t => shock L v (z ω) (t * n + y.1) y.2) fun t => shock L v (z ω) (t * n + y.1) y.2)) ^ 2) =
        fun ω => w ω ^ 2 from rfl, this] at h2
      have : 0 < 2 * (σ y.2 ^ 2 * corOf L v y.2 y.2) ^ 2 / (s - 1) := by positivity
      linarith
    rw [variance_eq_sub hw2] at hV
    have hm := hmean y
    refine Real.lt_sqrt_of_sq_lt ?_
    rw [← hm]
    have : ∫ ω, (w ^ 2) ω ∂P = ∫ ω, w ω ^ 2 ∂P := rfl
    rw [this] at hV
    linarith
  · have := meas_ge_le_variance_div_sq (hmem y) (mul_pos hε h0)
    rw [hmean, hvar] at this
    refine this.trans (ENNReal.ofReal_le_ofReal (le_of_eq ?_))
    generalize σ y.2 ^ 2 * corOf L v y.2 y.2 = c at h0
    field_simp

variable {p : BMParams} {x0 : List ℝ} {dt : ℝ}

/-- C93. Calibration of Brownian motion on simulated paths of `s` steps: the drift estimates are independent of the volatility and
correlation estimates, and `FitLaw` gives their laws. -/
theorem bm_fit_exact (hz : Draws P z) (hdt : 0 < dt) {s : Nat} (hs : 2 ≤ s) {a : Ω → Arr} (h : ∀ ω, bmSample p x0 dt s n (z ω) = .ok (a ω)) :
    ∃ (d w : Fin n × Fin p.drift.length → Ω → ℝ) (ρ : (Fin n × Fin p.drift.length) × (Fin n × Fin p.drift.length) → Ω → ℝ),
      (∀ ω r, bmFit chol (a ω) dt = .ok r → ∀ y, driftAt (y.1 * p.drift.length + y.2) r = some (d y ω) ∧
        volAt (y.1 * p.drift.length + y.2) r = some (w y ω) ∧
        (1 < p.drift.length * n → ∀ y', corAt (y.1 * p.drift.length + y.2) (y'.1 * p.drift.length + y'.2) r = some (ρ (y, y') ω))) ∧
      FitLaw P n p.drift.length s dt (fun j => bentry p.drift j) (fun j => bentry p.vol j) (fun j => corOf p.L p.drift.length j j) d w ρ := by
  refine ⟨_, _, _, fun ω r hr y => ?_, fit_law hz p.L hdt hs (bentry p.drift) (bentry p.vol)⟩
  rw [bmFit_of_sample (h ω)] at hr
  exact fit_stats hdt (bm_affine (h ω)) hs hr y

/-- C93. The same for geometric Brownian motion, with `drift - vol² / 2` in place of the drift. -/
theorem gbm_fit_exact (hz : Draws P z) (hdt : 0 < dt) (hx : ∀ x ∈ x0, 0 < x) {s : Nat} (hs : 2 ≤ s) {a : Ω → Arr}
    (h : ∀ ω, gbmSample p x0 dt s n (z ω) = .ok (a ω)) :
    ∃ (d w : Fin n × Fin p.drift.length → Ω → ℝ) (ρ : (Fin n × Fin p.drift.length) × (Fin n × Fin p.drift.length) → Ω → ℝ),
      (∀ ω r, gbmFit chol (a ω) dt = .ok r → ∀ y, driftAt (y.1 * p.drift.length + y.2) r = some (d y ω) ∧
        volAt (y.1 * p.drift.length + y.2) r = some (w y ω) ∧
        (1 < p.drift.length * n → ∀ y', corAt (y.1 * p.drift.length + y.2) (y'.1 * p.drift.length + y'.2) r = some (ρ (y, y') ω))) ∧
      FitLaw P n p.drift.length s dt (fun j => bentry p.drift j - bentry p.vol j ^ 2 / 2) (fun j => bentry p.vol j)
        (fun j => corOf p.L p.drift.length j j) d w ρ := by
  refine ⟨_, _, _, fun ω r hr y => ?_, fit_law hz p.L hdt hs (fun j => bentry p.drift j - bentry p.vol j ^ 2 / 2) (bentry p.vol)⟩
  rw [gbmFit_of_sample hx (h ω)] at hr
  exact fit_stats hdt (gbm_affine hx (h ω)) hs hr y

/-- A case: five years of daily observations on one path, at a drift of 5 % and a volatility of 20 %. The standard deviation of the drift
estimate, `0.2 / √5`, exceeds the drift, while the squared volatility is off by a fifth with probability at most 4 %. -/
theorem five_years : ∃ (Ω : Type) (_ : MeasurableSpace Ω) (P : Measure Ω) (z : Ω → Nat → ℝ) (p : BMParams) (a : Ω → Arr) (r : Ω → BMFit) (d w : Ω → ℝ),
    Draws P z ∧ bmInit chol (.float (1 / 20)) (.float (1 / 5)) none = .ok p ∧
      (∀ ω, bmSample p [0] (1 / 252) (1260 : Nat) (1 : Nat) (z ω) = .ok (a ω) ∧ bmFit chol (a ω) (1 / 252) = .ok (r ω) ∧
        driftAt 0 (r ω) = some (d ω) ∧ volAt 0 (r ω) = some (w ω)) ∧
      HasLaw d (gaussianReal (1 / 20) (1 / 125)) P ∧ P {ω | 1 / 125 ≤ |w ω ^ 2 - 1 / 25|} ≤ ENNReal.ofReal (4 / 100) := by
  obtain ⟨Ω, m, P, z, hz, -⟩ := draws_exist
  have h : ∀ ω, ∃ a, bmSample ⟨[1 / 20], [1 / 5], none⟩ [0] (1 / 252) (1260 : Nat) (1 : Nat) (z ω) = .ok a := fun ω =>
    (bm_succeeds_iff (1260 : Nat) (1 : Nat)).mpr ⟨by simp, by simp, by simp, by simp, fun l hl => (by cases hl), by simp, by simp⟩
  choose a ha using h
  have hdt : (0 : ℝ) < 1 / 252 := by norm_num
  have hr : ∀ ω, ∃ r, bmFit chol (a ω) (1 / 252) = .ok r := fun ω => by
    rw [bmFit_of_sample (ha ω)]
    exact (fit_outcome hdt).1 (by simp)
  choose r hr using hr
  obtain ⟨d, w, ρ, h1, h2⟩ := bm_fit_exact (chol := chol) (n := 1) hz hdt (s := 1260) (by norm_num) ha
  refine ⟨Ω, m, P, z, ⟨[1 / 20], [1 / 5], none⟩, a, r, d (0, 0), w (0, 0), hz, rfl,
    fun ω => ⟨ha ω, hr ω, by simpa using (h1 ω _ (hr ω) (0, 0)).1, by simpa using (h1 ω _ (hr ω) (0, 0)).2.1⟩, ?_, ?_⟩
  · have := h2.drift (0, 0)
    convert this using 2
    · simp [bentry]
    · ext
      rw [Real.coe_toNNReal _ (by simp [bentry, corOf]; norm_num)]
      simp [bentry, corOf]
      norm_num
  · have hc : bentry [1 / 5] (((0 : Fin 1) : Fin 1) : Nat) ^ 2 * corOf none 1 ((0 : Fin 1) : Nat) ((0 : Fin 1) : Nat) = 1 / 25 := by
      simp [bentry, corOf]
      norm_num
    have := h2.error (0, 0) (by simp [bentry, corOf]) (1 / 5) (by norm_num)
    simp only [List.length_singleton] at this
    rw [hc] at this
    refine le_trans (le_trans (le_of_eq ?_) this) (ENNReal.ofReal_le_ofReal (by norm_num))
    norm_num

end Verif.Sim
