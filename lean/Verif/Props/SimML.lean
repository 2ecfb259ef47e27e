import Verif.Lemmas.SimML
import Verif.Props.SimLikMore
import Verif.Props.SimFit

/-!
# Calibration and likelihood of several variates (C75)
-/

namespace Verif.Sim

open Verif.Cov Matrix

variable {eigh : (d : Nat) → Mat d → List (Pair d)} {chol : Arr → Option Arr} {d n : Nat} {x : Arr} {dt : ℝ} {r : BMFit}

/-- The increments as observations. -/
def incObs (d : Nat) (x : Arr) : Nat → Fin d → ℝ := fun t k => inc x k t

theorem obsCov_scov (hn : 2 ≤ n) (i j : Fin d) :
    (n / (n - 1) : ℝ) * obsCov n (incObs d x) i j = scov n 1 (inc x i) (inc x j) := by
  unfold obsCov scov obsMean mean incObs
  have := pred_pos hn
  have hn0 : (n : ℝ) ≠ 0 := by
    have : n ≠ 0 := by omega
    exact_mod_cast this
  field_simp

/-- The covariance built from the fitted values. -/
theorem covOf_fit (hn : 2 ≤ n) (hne : ∀ j < d, ¬ Constant n (inc x j)) {s : Nat → ℝ} {k : ℝ}
    (hs : ∀ j < d, s j = k * Real.sqrt (scov n 1 (inc x j) (inc x j))) :
    covOf d s (corrcoef (incLists d n (inc x))) = (k ^ 2 * (n / (n - 1)) : ℝ) • obsCov n (incObs d x) := by
  ext i j
  have hp : ∀ j < d, 0 < Real.sqrt (scov n 1 (inc x j) (inc x j)) := by
    intro j hj
    apply Real.sqrt_pos.mpr
    refine lt_of_le_of_ne (scov_self_nonneg hn _) fun h0 => ?_
    exact hne j hj ((scov_self_eq_zero hn _).mp h0.symm)
  rw [Matrix.smul_apply, smul_eq_mul, mul_assoc, obsCov_scov hn]
  unfold covOf
  rw [corrcoef_incLists hn _ i.2 j.2, hs i i.2, hs j j.2]
  have h1 := (hp i i.2).ne'
  have h2 := (hp j j.2).ne'
  field_simp

/-- A positive definite array as a matrix. -/
theorem corMat_posDef {c : Arr} (hs : SymArr d c) (h : ∀ w : Nat → ℝ, (∃ j < d, w j ≠ 0) →
    0 < ∑ i ∈ Finset.range d, ∑ j ∈ Finset.range d, w i * w j * c.get i j) : (corMat d c).PosDef := by
  apply PosDef.of_dotProduct_mulVec_pos
  · ext i j
    exact hs.symm j j.2 i i.2
  · intro y hy
    obtain ⟨k, hk⟩ : ∃ k, y k ≠ 0 := by
      by_contra hc
      push Not at hc
      exact hy (funext hc)
    have h1 := h (fun j => if hj : j < d then y ⟨j, hj⟩ else 0) ⟨k, k.2, by simpa using hk⟩
    rw [Finset.sum_range] at h1
    rw [star_trivial]
    unfold dotProduct mulVec dotProduct corMat
    refine lt_of_lt_of_eq h1 (Finset.sum_congr rfl fun i _ => ?_)
    rw [Finset.sum_range, Finset.mul_sum]
    refine Finset.sum_congr rfl fun j _ => ?_
    simp only [Fin.is_lt, dite_true]
    ring

/-- C75. Calibration of several correlated Brownian variates against the likelihood of the same class. With `n` increments:
the fitted drifts and correlations and the volatilities `vol * sqrt((n-1)/n)` minimise `nll` over all drifts, all volatilities
and all correlation arrays, and every other minimiser has the same drifts and covariances. The fitted volatilities
themselves (divisor `n - 1`) are not optimal: they are worse by `d/2 (n log(n/(n-1)) - 1) > 0`, whatever the data. -/
theorem bm_fit_ml (he : EighAll eigh) (hc : CholTotal chol) (hcols : 1 < x.cols) (hrows : 1 ≤ x.rows) (hdt : 0 < dt)
    (h : bmFit chol x dt = .ok r) :
    ∃ D V c v v', r.drift = D.map some ∧ r.vol = V.map some ∧ r.cor = some c ∧
      bmNllFull eigh D (V.map (· * Real.sqrt (((x.rows - 1 : ℕ) - 1) / (x.rows - 1 : ℕ)))) (some c) x dt = .ok (.fin v) ∧
      bmNllFull eigh D V (some c) x dt = .ok (.fin v') ∧
      v' = v + x.cols / 2 * ((x.rows - 1 : ℕ) * Real.log ((x.rows - 1 : ℕ) / ((x.rows - 1 : ℕ) - 1)) - 1) ∧ v < v' ∧
      ∀ drift vol c' w, drift.length = x.cols → vol.length = x.cols → SymArr x.cols c' →
        bmNllFull eigh drift vol (some c') x dt = .ok (.fin w) →
        v ≤ w ∧ (w = v ↔ drift = D ∧ ∀ i < x.cols, ∀ j < x.cols, vol.getD i 0 * vol.getD j 0 * c'.get i j =
          ((x.rows - 1 : ℕ) - 1) / (x.rows - 1 : ℕ) * (V.getD i 0 * V.getD j 0 * c.get i j)) := by
  obtain ⟨n, hn⟩ : ∃ n, x.rows = n + 1 := ⟨x.rows - 1, by omega⟩
  rw [bmFit_eq hn] at h
  simp only [hn, Nat.add_sub_cancel]
  obtain ⟨h1, h2, -, h4⟩ := fit_ok hdt h
  obtain ⟨hn2, hne, hcor, L, -, hL⟩ := h4 hcols
  have hn0 : (0 : ℝ) < n := by
    have : 0 < n := by omega
    exact_mod_cast this
  have hp := pred_pos hn2
  have hsq := Real.sqrt_pos.mpr hdt
  set d := x.cols with hd
  set c := corrcoef (incLists d n (inc x)) with hcdef
  have hlen : c.rows = d := by simp [hcdef, corrcoef, incLists]
  have hlen' : c.cols = d := by simp [hcdef, corrcoef, incLists]
  have hsym : SymArr d c := ⟨hlen, hlen', fun i hi j hj => by
    rw [hcdef, corrcoef_incLists hn2 _ hi hj, corrcoef_incLists hn2 _ hj hi, scov_comm, mul_comm (Real.sqrt _)]⟩
  have hpd : (corMat d c).PosDef := by
    refine corMat_posDef hsym ?_
    have := (hc c (by rw [hlen, hlen']) (by rw [hlen]; exact hsym.symm)).mp (by rw [hL]; simp)
    rwa [hlen] at this
  have hsp : ∀ j < d, 0 < Real.sqrt (scov n 1 (inc x j) (inc x j)) := by
    intro j hj
    apply Real.sqrt_pos.mpr
    refine lt_of_le_of_ne (scov_self_nonneg hn2 _) fun h0 => ?_
    exact hne j hj ((scov_self_eq_zero hn2 _).mp h0.symm)
  set D := (List.range d).map fun j => mean n (inc x j) / dt with hD
  set V := (List.range d).map fun j => Real.sqrt (scov n 1 (inc x j) (inc x j)) / Real.sqrt dt with hV
  set q := Real.sqrt (((n : ℝ) - 1) / n) with hq
  have hqpos : 0 < q := Real.sqrt_pos.mpr (div_pos hp hn0)
  have hq2 : q ^ 2 = ((n : ℝ) - 1) / n := Real.sq_sqrt (div_pos hp hn0).le
  have hVj : ∀ j < d, V.getD j 0 = Real.sqrt (scov n 1 (inc x j) (inc x j)) / Real.sqrt dt := by
    intro j hj
    simp [hV, List.getD, hj]
  have hDj : ∀ j < d, D.getD j 0 = mean n (inc x j) / dt := by
    intro j hj
    simp [hD, List.getD, hj]
  have hV'j : ∀ j < d, (V.map (· * q)).getD j 0 = V.getD j 0 * q := by
    intro j hj
    simp [hV, List.getD, hj]
  have hcov : covOf d (fun k => V.getD k 0 * Real.sqrt dt) c = ((n : ℝ) / (n - 1)) • obsCov n (incObs d x) := by
    rw [covOf_fit hn2 hne (k := 1) (fun j hj => by rw [hVj j hj, one_mul]; field_simp)]
    rw [one_pow, one_mul]
  have hcov' : covOf d (fun k => (V.map (· * q)).getD k 0 * Real.sqrt dt) c = obsCov n (incObs d x) := by
    rw [covOf_fit hn2 hne (k := q) (fun j hj => by rw [hV'j j hj, hVj j hj]; field_simp), hq2]
    rw [show ((n : ℝ) - 1) / n * (n / (n - 1)) = 1 by field_simp, one_smul]
  have hC : (obsCov n (incObs d x)).PosDef := by
    rw [← hcov', covOf_posDef hpd]
    intro j hj
    rw [hV'j j hj, hVj j hj]
    have := hsp j hj
    positivity
  have hC2 : (covOf d (fun k => V.getD k 0 * Real.sqrt dt) c).PosDef := by
    rw [covOf_posDef hpd]
    intro j hj
    rw [hVj j hj]
    have := hsp j hj
    positivity
  have hmean : (fun k : Fin d => D.getD k 0 * dt) = obsMean n (incObs d x) := by
    funext k
    rw [hDj k k.2, div_mul_cancel₀ _ hdt.ne']
    rfl
  obtain ⟨hmin, hall⟩ := obsNll_min (show 0 < n by omega) (incObs d x) hC
  have hk : (0 : ℝ) < n / (n - 1) := div_pos hn0 hp
  have hval : bmNllFull eigh D (V.map (· * q)) (some c) x dt = .ok (.fin (obsNll n (incObs d x) (obsMean n (incObs d x))
      (obsCov n (incObs d x)))) := by
    have := (bm_nll_density (drift := D) (vol := V.map (· * q)) (dt := dt) (x := x) he (by simp [hD]) (by simp [hV])
      (show 0 < d by omega) hsym rfl).1 (by rw [hcov']; exact hC)
    rw [this, hcov', hmean, hn]
    rfl
  have hval' : bmNllFull eigh D V (some c) x dt = .ok (.fin (obsNll n (incObs d x) (obsMean n (incObs d x))
      (((n : ℝ) / (n - 1)) • obsCov n (incObs d x)))) := by
    have := (bm_nll_density (drift := D) (vol := V) (dt := dt) (x := x) he (by simp [hD]) (by simp [hV])
      (show 0 < d by omega) hsym rfl).1 hC2
    rw [this, hcov, hmean, hn]
    rfl
  have hdiff : obsNll n (incObs d x) (obsMean n (incObs d x)) (((n : ℝ) / (n - 1)) • obsCov n (incObs d x)) =
      obsNll n (incObs d x) (obsMean n (incObs d x)) (obsCov n (incObs d x)) +
        d / 2 * (n * Real.log (n / (n - 1)) - 1) := by
    rw [obsNll_scaled (show 0 < n by omega) _ hC hk, hmin, det_smul, Fintype.card_fin,
      Real.log_mul (pow_pos hk d).ne' hC.det_pos.ne', Real.log_pow]
    field_simp
    ring
  have hpos : 0 < (d : ℝ) / 2 * (n * Real.log (n / (n - 1)) - 1) := by
    have hd0 : (0 : ℝ) < d := by
      have : 0 < d := by omega
      exact_mod_cast this
    have hl := Real.log_lt_sub_one_of_pos (inv_pos.mpr hk) (by
      rw [inv_div]
      intro hh
      rw [div_eq_one_iff_eq hn0.ne'] at hh
      linarith)
    rw [Real.log_inv, inv_div] at hl
    have h3 : ((n : ℝ) - 1) / n - 1 = -1 / n := by field_simp; ring
    rw [h3] at hl
    have h4 : 1 / (n : ℝ) < Real.log (n / (n - 1)) := by
      have : -1 / (n : ℝ) = -(1 / n) := by ring
      linarith
    rw [div_lt_iff₀ hn0] at h4
    have : 0 < (n : ℝ) * Real.log (n / (n - 1)) - 1 := by linarith
    positivity
  refine ⟨D, V, c, _, _, ?_, ?_, hcor, hval, hval', hdiff, by linarith, ?_⟩
  · rw [h1]
    simp [hD, show 1 ≤ n by omega]
  · rw [h2]
    simp [hV, hn2]
  · intro drift vol c' w hl1 hl2 hc' hw
    have hden := bm_nll_density (drift := drift) (vol := vol) (dt := dt) (x := x) he hl1 hl2 (show 0 < d by omega) hc' rfl
    have hS : (covOf d (fun k => vol.getD k 0 * Real.sqrt dt) c').PosDef := by
      by_contra hcon
      obtain ⟨e, he'⟩ := hden.2 hcon
      rw [he'] at hw
      cases hw
    have hw' := hden.1 hS
    rw [hw, hn] at hw'
    obtain ⟨g1, g2⟩ := hall (fun k => drift.getD k 0 * dt) _ hS
    have hweq : w = obsNll n (incObs d x) (fun k => drift.getD k 0 * dt) (covOf d (fun k => vol.getD k 0 * Real.sqrt dt) c') := by
      cases hw'
      rfl
    rw [hweq]
    refine ⟨g1, g2.trans ?_⟩
    rw [← hmean, ← hcov']
    constructor
    · rintro ⟨e1, e2⟩
      constructor
      · apply List.ext_getElem (by simp [hl1, hD])
        intro k hk1 hk2
        have hk : k < d := by omega
        have := congrFun e1 ⟨k, hk⟩
        have h5 := mul_right_cancel₀ hdt.ne' this
        simpa [List.getD, hk1, hk2] using h5
      · intro i hi j hj
        have := congrFun (congrFun e2 ⟨i, hi⟩) ⟨j, hj⟩
        unfold covOf at this
        simp only at this
        rw [hV'j i hi, hV'j j hj] at this
        have hdd := Real.mul_self_sqrt hdt.le
        rw [← hq2]
        have e3 : (vol.getD i 0 * vol.getD j 0 * c'.get i j) * dt = (q ^ 2 * (V.getD i 0 * V.getD j 0 * c.get i j)) * dt := by
          rw [← hdd]
          linarith
        exact mul_right_cancel₀ hdt.ne' e3
    · rintro ⟨rfl, e2⟩
      refine ⟨rfl, ?_⟩
      ext i j
      have := e2 i i.2 j j.2
      unfold covOf
      simp only
      rw [hV'j i i.2, hV'j j j.2]
      rw [← hq2] at this
      calc _ = (vol.getD i 0 * vol.getD j 0 * c'.get i j) * (Real.sqrt dt * Real.sqrt dt) := by ring
        _ = _ := by rw [this]; ring

/-- Two columns with four rows whose increments are neither constant nor collinear: the fit succeeds with every total
Cholesky function, and such functions exist (`SimFit`). -/
example (hc : CholTotal chol) : ∃ r, bmFit chol (Arr.ofList 4 2 [0, 0, 1, 0, 1, 1, 3, 1]) 1 = .ok r := by
  refine ((bm_fit_outcome hc (by simp [Arr.ofList]) one_pos).2.2.2 (by simp [Arr.ofList]) (by simp [Arr.ofList]) ?_).1 ?_
  · intro j hj hcon
    have hj : j < 2 := hj
    have h1 := hcon 0 (by simp [Arr.ofList]) 1 (by simp [Arr.ofList])
    interval_cases j <;> norm_num [inc, Arr.ofList, Arr.get] at h1
  · intro c hcon
    have h1 := hcon 0 (by simp [Arr.ofList]) 1 (by simp [Arr.ofList])
    have h2 := hcon 0 (by simp [Arr.ofList]) 2 (by simp [Arr.ofList])
    norm_num [inc, Arr.ofList, Arr.get, Finset.sum_range_succ] at h1 h2
    intro j hj
    have hj : j < 2 := hj
    interval_cases j <;> linarith

end Verif.Sim
