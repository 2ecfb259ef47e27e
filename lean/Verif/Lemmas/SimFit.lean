import Verif.Lemmas.SimStats

/-!
# The fits on columns of increments
-/

namespace Verif.Sim

theorem npMean_range {n : Nat} (hn : 1 ≤ n) (f : Nat → ℝ) :
    npMean ((List.range n).map f) = some (mean n f) := by
  unfold npMean
  rw [if_neg (by simp; omega), lmean_range]
  rfl

theorem npMean_range_zero (f : Nat → ℝ) : npMean ((List.range 0).map f) = none := by simp [npMean]

theorem crossDev_range (n : Nat) (f g : Nat → ℝ) :
    crossDev ((List.range n).map f) ((List.range n).map g) =
      ∑ i ∈ Finset.range n, (f i - mean n f) * (g i - mean n g) := by
  rw [crossDev_sum (by simp), List.length_map, List.length_range]
  refine Finset.sum_congr rfl fun i hi => ?_
  have hi := Finset.mem_range.mp hi
  rw [lmean_range, lmean_range]
  simp [List.getD, hi, mean]

theorem sqDev_range (n : Nat) (f : Nat → ℝ) :
    sqDev ((List.range n).map f) = ∑ i ∈ Finset.range n, (f i - mean n f) * (f i - mean n f) := by
  rw [← crossDev_self, crossDev_range]

theorem npStd1_range {n : Nat} (hn : 2 ≤ n) (f : Nat → ℝ) :
    npStd1 ((List.range n).map f) = some (Real.sqrt (scov n 1 f f)) := by
  rw [npStd1_some (by simpa using hn), sqDev_range]
  simp [scov]

theorem npStd1_range_small {n : Nat} (hn : n ≤ 1) (f : Nat → ℝ) :
    npStd1 ((List.range n).map f) = none := by
  unfold npStd1
  rw [if_pos (by simpa using hn)]

theorem pred_pos {n : Nat} (hn : 2 ≤ n) : (0 : ℝ) < (n : ℝ) - 1 := by
  have : (2 : ℝ) ≤ n := by exact_mod_cast hn
  linarith

theorem scov_self_nonneg {n : Nat} (hn : 2 ≤ n) (f : Nat → ℝ) : 0 ≤ scov n 1 f f :=
  div_nonneg (Finset.sum_nonneg fun _ _ => mul_self_nonneg _) (pred_pos hn).le

theorem scov_comm (n : Nat) (d : ℝ) (f g : Nat → ℝ) : scov n d f g = scov n d g f := by
  unfold scov
  congr 1
  exact Finset.sum_congr rfl fun _ _ => mul_comm _ _

theorem scov_self_eq_zero {n : Nat} (hn : 2 ≤ n) (f : Nat → ℝ) :
    scov n 1 f f = 0 ↔ ∀ i < n, ∀ k < n, f i = f k := by
  have h1 : scov n 1 f f = sqDev ((List.range n).map f) / (n - 1) := by rw [sqDev_range]; rfl
  have h2 : scov n 1 f f = 0 ↔ sqDev ((List.range n).map f) = 0 := by
    rw [h1, div_eq_zero_iff]
    have := pred_pos hn
    constructor
    · rintro (h | h)
      · exact h
      · linarith
    · exact Or.inl
  rw [h2, all_eq_of_sqDev (by simp; omega)]
  simp only [List.mem_map, List.mem_range, forall_exists_index, and_imp]
  constructor
  · intro h i hi k hk; exact h _ i hi rfl _ k hk rfl
  · rintro h _ i hi rfl _ k hk rfl; exact h i hi k hk

theorem scov_sq_le {n : Nat} (hn : 2 ≤ n) (f g : Nat → ℝ) :
    scov n 1 f g ^ 2 ≤ scov n 1 f f * scov n 1 g g := by
  unfold scov
  have := pred_pos hn
  rw [div_pow, div_mul_div_comm, ← sq]
  apply div_le_div_of_nonneg_right _ (by positivity)
  have h := Finset.sum_mul_sq_le_sq_mul_sq (Finset.range n) (fun i => f i - mean n f) (fun i => g i - mean n g)
  simpa only [sq] using h

theorem scov_affine (n : Nat) (hn : n ≠ 0) (d c s c' s' : ℝ) (f g : Nat → ℝ) :
    scov n d (fun i => c + s * f i) (fun i => c' + s' * g i) = s * s' * scov n d f g := by
  unfold scov
  rw [mean_affine n hn, mean_affine n hn, ← mul_div_assoc, Finset.mul_sum]
  congr 1
  exact Finset.sum_congr rfl fun _ _ => by ring

theorem mean_congr {n : Nat} {f g : Nat → ℝ} (h : ∀ i < n, f i = g i) : mean n f = mean n g := by
  unfold mean
  congr 1
  exact Finset.sum_congr rfl fun i hi => h i (Finset.mem_range.mp hi)

theorem scov_congr {n : Nat} {d : ℝ} {f g f' g' : Nat → ℝ} (h : ∀ i < n, f i = f' i)
    (h' : ∀ i < n, g i = g' i) : scov n d f g = scov n d f' g' := by
  unfold scov
  rw [mean_congr h, mean_congr h']
  congr 1
  refine Finset.sum_congr rfl fun i hi => ?_
  rw [h i (Finset.mem_range.mp hi), h' i (Finset.mem_range.mp hi)]

theorem mean_diff (n : Nat) (f : Nat → ℝ) : mean n (fun i => f (i + 1) - f i) = (f n - f 0) / n := by
  unfold mean
  rw [Finset.sum_range_sub]

/-- The columns of a matrix as lists of increments. -/
noncomputable def incLists (v n : Nat) (f : Nat → Nat → ℝ) : List (List ℝ) :=
  (List.range v).map fun j => (List.range n).map (f j)

theorem corrcoef_incLists {v n : Nat} (hn : 2 ≤ n) (f : Nat → Nat → ℝ) {i j : Nat} (hi : i < v) (hj : j < v) :
    (corrcoef (incLists v n f)).get i j =
      scov n 1 (f i) (f j) / (Real.sqrt (scov n 1 (f i) (f i)) * Real.sqrt (scov n 1 (f j) (f j))) := by
  have hlen : (incLists v n f).length = v := by simp [incLists]
  have hcol : ∀ k < v, (incLists v n f).getD k [] = (List.range n).map (f k) := by
    intro k hk; simp [incLists, List.getD, hk]
  have hp := pred_pos hn
  unfold corrcoef Arr.get
  simp only [hlen]
  rw [flat_div i hj, flat_mod i hj, hcol i hi, hcol j hj, clip1_id (corr_abs_le (by simp)),
    crossDev_range, sqDev_range, sqDev_range]
  unfold scov
  rw [Real.sqrt_div (Finset.sum_nonneg fun _ _ => mul_self_nonneg _),
    Real.sqrt_div (Finset.sum_nonneg fun _ _ => mul_self_nonneg _)]
  have hs : Real.sqrt ((n : ℝ) - 1) ≠ 0 := (Real.sqrt_pos.mpr hp).ne'
  rw [div_mul_div_comm, Real.mul_self_sqrt hp.le, div_div_div_cancel_right₀ hp.ne', div_div]

theorem fit_drift_eq {v n : Nat} (f : Nat → Nat → ℝ) (dt : ℝ) :
    ((incLists v n f).map fun l => (npMean l).map (· / dt)) =
      (List.range v).map fun j => if 1 ≤ n then some (mean n (f j) / dt) else none := by
  unfold incLists
  rw [List.map_map]
  apply List.map_congr_left
  intro j _
  simp only [Function.comp]
  split
  · rename_i h; rw [npMean_range h]; rfl
  · rename_i h
    obtain rfl : n = 0 := by omega
    rw [npMean_range_zero]; rfl

theorem fit_vol_eq {v n : Nat} (f : Nat → Nat → ℝ) (dt : ℝ) :
    ((incLists v n f).map fun l => (npStd1 l).map (· / Real.sqrt dt)) =
      (List.range v).map fun j => if 2 ≤ n then some (Real.sqrt (scov n 1 (f j) (f j)) / Real.sqrt dt)
        else none := by
  unfold incLists
  rw [List.map_map]
  apply List.map_congr_left
  intro j _
  simp only [Function.comp]
  split
  · rename_i h; rw [npStd1_range h]; rfl
  · rename_i h
    rw [npStd1_range_small (by omega)]; rfl

/-- A fitted volatility is zero exactly when all increments of the column agree. -/
theorem vol_zero {n : Nat} (hn : 2 ≤ n) {dt : ℝ} (hdt : 0 < dt) (f : Nat → ℝ) :
    Real.sqrt (scov n 1 f f) / Real.sqrt dt = 0 ↔ ∀ i < n, ∀ k < n, f i = f k := by
  rw [← scov_self_eq_zero hn]
  have := Real.sqrt_pos.mpr hdt
  rw [div_eq_zero_iff, Real.sqrt_eq_zero (scov_self_nonneg hn f)]
  constructor
  · rintro (h | h)
    · exact h
    · exact absurd h this.ne'
  · exact Or.inl

/-- The quadratic form of the correlation matrix is a sum of squares. -/
theorem corr_form {v n : Nat} (hn : 2 ≤ n) (f : Nat → Nat → ℝ) (c : Nat → ℝ) :
    ∑ i ∈ Finset.range v, ∑ j ∈ Finset.range v, c i * c j * (corrcoef (incLists v n f)).get i j =
      (∑ t ∈ Finset.range n, (∑ i ∈ Finset.range v,
        c i / Real.sqrt (scov n 1 (f i) (f i)) * (f i t - mean n (f i))) ^ 2) / (n - 1) := by
  have h1 : ∀ t, (∑ i ∈ Finset.range v, c i / Real.sqrt (scov n 1 (f i) (f i)) * (f i t - mean n (f i))) ^ 2 =
      ∑ i ∈ Finset.range v, ∑ j ∈ Finset.range v,
        (c i / Real.sqrt (scov n 1 (f i) (f i)) * (f i t - mean n (f i))) *
        (c j / Real.sqrt (scov n 1 (f j) (f j)) * (f j t - mean n (f j))) := by
    intro t
    rw [sq, Finset.sum_mul_sum]
  simp only [h1]
  conv_rhs => rw [Finset.sum_comm, Finset.sum_div]
  refine Finset.sum_congr rfl fun i hi => ?_
  conv_rhs => rw [Finset.sum_comm, Finset.sum_div]
  refine Finset.sum_congr rfl fun j hj => ?_
  rw [corrcoef_incLists hn f (Finset.mem_range.mp hi) (Finset.mem_range.mp hj)]
  conv_lhs => rw [scov]
  rw [div_div, ← mul_div_assoc, Finset.mul_sum]
  set a := Real.sqrt (scov n 1 (f i) (f i))
  set b := Real.sqrt (scov n 1 (f j) (f j))
  have h2 : ∀ t, c i / a * (f i t - mean n (f i)) * (c j / b * (f j t - mean n (f j))) =
      (c i * c j * ((f i t - mean n (f i)) * (f j t - mean n (f j)))) / (a * b) := by
    intro t; simp only [div_eq_mul_inv, mul_inv]; ring
  simp only [h2]
  rw [← Finset.sum_div, div_div, mul_comm (a * b)]

theorem columns_diffs {x : Arr} {n : Nat} (hx : x.rows = n + 1) :
    (columns x).map diffs = incLists x.cols n fun j t => x.get (t + 1) j - x.get t j := by
  unfold columns incLists
  rw [List.map_map]
  apply List.map_congr_left
  intro j _
  simp only [Function.comp, Arr.col, hx]
  exact diffs_range (fun t => x.get t j) n

theorem columns_logRatios {x : Arr} {n : Nat} (hx : x.rows = n + 1) :
    (columns x).map logRatios = incLists x.cols n fun j t => Real.log (x.get (t + 1) j / x.get t j) := by
  unfold columns incLists
  rw [List.map_map]
  apply List.map_congr_left
  intro j _
  simp only [Function.comp, Arr.col, hx]
  exact logRatios_range (fun t => x.get t j) n

/-- What `fitIncrements` returns on success. -/
theorem fit_ok {chol : Arr → Option Arr} {v n : Nat} {f : Nat → Nat → ℝ} {dt : ℝ} {r : BMFit}
    (hdt : 0 < dt) (h : fitIncrements chol (incLists v n f) dt = .ok r) :
    r.drift = ((List.range v).map fun j => if 1 ≤ n then some (mean n (f j) / dt) else none) ∧
    r.vol = ((List.range v).map fun j =>
      if 2 ≤ n then some (Real.sqrt (scov n 1 (f j) (f j)) / Real.sqrt dt) else none) ∧
    (v ≤ 1 → r.cor = none ∧ r.L = none) ∧
    (1 < v → 2 ≤ n ∧ (∀ j < v, ¬ ∀ i < n, ∀ k < n, f j i = f j k) ∧
      r.cor = some (corrcoef (incLists v n f)) ∧ ∃ L, r.L = some L ∧ chol (corrcoef (incLists v n f)) = some L) := by
  unfold fitIncrements at h
  dsimp only at h
  rw [fit_drift_eq, fit_vol_eq] at h
  have hlen : (incLists v n f).length = v := by simp [incLists]
  rw [hlen] at h
  by_cases hv : 1 < v
  · rw [if_pos hv] at h
    by_cases h0 : some 0 ∈ (List.range v).map fun j =>
        if 2 ≤ n then some (Real.sqrt (scov n 1 (f j) (f j)) / Real.sqrt dt) else none
    · rw [if_pos h0] at h; cases h
    · rw [if_neg h0] at h
      by_cases hn : 2 ≤ n
      · rw [if_neg (by simp [hn])] at h
        cases hL : chol (corrcoef (incLists v n f)) with
        | none => rw [hL] at h; cases h
        | some L =>
          rw [hL] at h
          cases h
          refine ⟨rfl, rfl, fun h => absurd hv (by omega), fun _ => ⟨hn, ?_, rfl, L, rfl, rfl⟩⟩
          intro j hj hall
          apply h0
          rw [List.mem_map]
          exact ⟨j, by simpa using hj, by rw [if_pos hn, (vol_zero hn hdt _).mpr hall]⟩
      · rw [if_pos] at h
        · cases h
        · rw [List.mem_map]
          exact ⟨0, by simp; omega, by rw [if_neg hn]⟩
  · rw [if_neg hv] at h
    cases h
    exact ⟨rfl, rfl, fun _ => ⟨rfl, rfl⟩, fun h => absurd h hv⟩

/-- The outcome of `fitIncrements`. -/
theorem fit_outcome {chol : Arr → Option Arr} {v n : Nat} {f : Nat → Nat → ℝ} {dt : ℝ} (hdt : 0 < dt) :
    (v ≤ 1 → ∃ r, fitIncrements chol (incLists v n f) dt = .ok r) ∧
    (1 < v → n ≤ 1 → fitIncrements chol (incLists v n f) dt = .error .linAlgError) ∧
    (1 < v → 2 ≤ n → (∃ j < v, ∀ i < n, ∀ k < n, f j i = f j k) →
      fitIncrements chol (incLists v n f) dt = .error .valueError) ∧
    (1 < v → 2 ≤ n → (∀ j < v, ¬ ∀ i < n, ∀ k < n, f j i = f j k) →
      (chol (corrcoef (incLists v n f)) = none → fitIncrements chol (incLists v n f) dt = .error .linAlgError) ∧
      (chol (corrcoef (incLists v n f)) ≠ none → ∃ r, fitIncrements chol (incLists v n f) dt = .ok r)) := by
  unfold fitIncrements
  dsimp only
  rw [fit_drift_eq, fit_vol_eq]
  have hlen : (incLists v n f).length = v := by simp [incLists]
  rw [hlen]
  refine ⟨?_, ?_, ?_, ?_⟩
  · intro hv
    rw [if_neg (by omega)]
    exact ⟨_, rfl⟩
  · intro hv hn
    rw [if_pos hv, if_neg, if_pos]
    · rw [List.mem_map]; exact ⟨0, by simp; omega, by rw [if_neg (by omega)]⟩
    · rw [List.mem_map]
      rintro ⟨j, -, hj⟩
      rw [if_neg (by omega)] at hj
      cases hj
  · rintro hv hn ⟨j, hj, hall⟩
    rw [if_pos hv, if_pos]
    rw [List.mem_map]
    exact ⟨j, by simpa using hj, by rw [if_pos hn, (vol_zero hn hdt _).mpr hall]⟩
  · intro hv hn hne
    rw [if_pos hv, if_neg, if_neg]
    · constructor
      · intro hc; rw [hc]
      · intro hc
        cases hL : chol (corrcoef (incLists v n f)) with
        | none => exact absurd hL hc
        | some L => exact ⟨_, rfl⟩
    · rw [List.mem_map]
      rintro ⟨j, -, hj⟩
      rw [if_pos hn] at hj
      cases hj
    · rw [List.mem_map]
      rintro ⟨j, hj, hj'⟩
      rw [if_pos hn, Option.some.injEq, vol_zero hn hdt] at hj'
      exact hne j (by simpa using hj) hj'

end Verif.Sim
