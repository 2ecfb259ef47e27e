import Verif.Props.CholRound
import Verif.Props.FitRound

/-!
# C132: calibration to several columns with the computed Cholesky factor
-/

namespace Verif.Sim

open Verif Round Finset

variable {fl : ℝ → ℝ} {o : FitOrders} {ord : Nat → Nat → List (ℝ × ℝ) → DotTree} {recip : Nat → Nat → Bool} {x : Arr} {dt : ℝ}

theorem fit_factor {v n : Nat} {f : Nat → Nat → ℝ} (R : Rounding fl) (ho : o.Valid) (hord : IsCholOrder ord) (hn : 2 ≤ n) (hc : 1 < v)
    (hv : ((v : ℝ) + 2) * u64 ≤ 1 / 64) {r : BMFit} (h : fitIncrementsR fl o (cholR fl ord recip) (incLists v n f) dt = .ok r) :
    ∃ C L, r.cor = some C ∧ r.L = some L ∧ C.rows = v ∧ L.rows = v ∧ L.cols = v ∧
      (∀ i < v, ∀ j < v, |(∑ m ∈ range v, L.get i m * L.get j m) - C.get (max i j) (min i j)| ≤ 9 / 4 * ((v + 2) * u64)) ∧
      ∀ y : Nat → ℝ, -(9 / 4 * ((v + 2) * u64) * (∑ i ∈ range v, |y i|) ^ 2) ≤ lowerForm C.get v y := by
  obtain ⟨C, h1, h2, h3, h4, h5, h6, h7⟩ := fit_cor_round R ho hn hc h
  obtain ⟨L, hL⟩ := Option.ne_none_iff_exists'.mp h7
  rw [h6] at hL
  have hu := u64_pos
  obtain ⟨l1, l2, -, -, l5⟩ := chol_product R hord (by rw [h2]; exact hv) hL
  obtain ⟨-, -, l, D, -⟩ := cholR_get hL
  rw [h2] at l1 l2 l5 D
  have hs : ∀ i < v, Real.sqrt (C.get i i) ≤ 1 := fun i hi => by
    refine Real.sqrt_le_iff.mpr ⟨by norm_num, ?_⟩
    rw [one_pow]
    exact (h4 i hi i hi).2
  refine ⟨C, L, h1, h6.trans hL, h2, l1, l2, fun i hi j hj => ?_, fun y => ?_⟩
  · refine (l5 i hi j hj).trans ?_
    have : Real.sqrt (C.get i i) * Real.sqrt (C.get j j) ≤ 1 := mul_le_one₀ (hs i hi) (Real.sqrt_nonneg _) (hs j hj)
    calc _ ≤ 9 / 4 * ((v + 2) * u64) * 1 := mul_le_mul_of_nonneg_left this (by positivity)
      _ = _ := mul_one _
  · refine le_trans ?_ (D.form_ge R hord hv y)
    have hw : weight C.get v y ≤ ∑ i ∈ range v, |y i| := by
      refine sum_le_sum fun i hi => ?_
      exact mul_le_of_le_one_right (abs_nonneg _) (hs i (Finset.mem_range.mp hi))
    have := mul_le_mul_of_nonneg_left (pow_le_pow_left₀ (weight_nonneg y) hw 2) (by positivity : (0 : ℝ) ≤ 9 / 4 * ((v + 2) * u64))
    linarith

/-- C132. After a fit of several columns the factor reproduces the fitted correlations up to rounding, and these are positive
semidefinite up to rounding. -/
theorem bm_fit_factor (R : Rounding fl) (ho : o.Valid) (hord : IsCholOrder ord) (hx : 3 ≤ x.rows) (hc : 1 < x.cols)
    (hv : ((x.cols : ℝ) + 2) * u64 ≤ 1 / 64) {r : BMFit} (h : bmFitR fl o (cholR fl ord recip) x dt = .ok r) :
    ∃ C L, r.cor = some C ∧ r.L = some L ∧ C.rows = x.cols ∧ L.rows = x.cols ∧ L.cols = x.cols ∧
      (∀ i < x.cols, ∀ j < x.cols,
        |(∑ m ∈ range x.cols, L.get i m * L.get j m) - C.get (max i j) (min i j)| ≤ 9 / 4 * ((x.cols + 2) * u64)) ∧
      ∀ y : Nat → ℝ, -(9 / 4 * ((x.cols + 2) * u64) * (∑ i ∈ range x.cols, |y i|) ^ 2) ≤ lowerForm C.get x.cols y := by
  obtain ⟨n, hn⟩ : ∃ n, x.rows = n + 1 := ⟨x.rows - 1, by omega⟩
  rw [bmFitR_eq hn] at h
  exact fit_factor R ho hord (by omega) hc hv h

/-- C132. The same for geometric Brownian motion. -/
theorem gbm_fit_factor (R : Rounding fl) (ho : o.Valid) (hord : IsCholOrder ord) (hx : 3 ≤ x.rows) (hc : 1 < x.cols)
    (hv : ((x.cols : ℝ) + 2) * u64 ≤ 1 / 64) {r : BMFit} (h : gbmFitR fl o (cholR fl ord recip) x dt = .ok r) :
    ∃ C L, r.cor = some C ∧ r.L = some L ∧ C.rows = x.cols ∧ L.rows = x.cols ∧ L.cols = x.cols ∧
      (∀ i < x.cols, ∀ j < x.cols,
        |(∑ m ∈ range x.cols, L.get i m * L.get j m) - C.get (max i j) (min i j)| ≤ 9 / 4 * ((x.cols + 2) * u64)) ∧
      ∀ y : Nat → ℝ, -(9 / 4 * ((x.cols + 2) * u64) * (∑ i ∈ range x.cols, |y i|) ^ 2) ≤ lowerForm C.get x.cols y := by
  obtain ⟨n, hn⟩ : ∃ n, x.rows = n + 1 := ⟨x.rows - 1, by omega⟩
  rw [gbmFitR_eq hn] at h
  exact fit_factor R ho hord (by omega) hc hv h

/-! ### Proportional columns -/

/-- Two columns, the second 23 times the first. -/
noncomputable def propData : Arr := .ofList 6 2 [0, 0, 5, 115, 1, 23, 0, 0, 0, 0, 0, 0]

/-- The increments of the first column. -/
def propInc (t : Nat) : ℤ := if t = 0 then 5 else if t = 1 then -4 else if t = 2 then -1 else 0

/-- The factor of a column. -/
def propFac (j : Nat) : ℤ := if j = 0 then 1 else 23

theorem prop_inc' {j t : Nat} (hj : j < 2) (ht : t < 5) : inc propData j t = ((propFac j * propInc t : ℤ) : ℝ) := by
  interval_cases j <;> interval_cases t <;> norm_num [inc, propData, Arr.get, Arr.ofList, propFac, propInc]

theorem prop_inc {j t : Nat} (hj : j < 2) (ht : t < 5) : incR b64 propData j t = ((propFac j * propInc t : ℤ) : ℝ) := by
  rw [incR, prop_inc' hj ht]
  refine b64_rounding.int _ ?_
  interval_cases j <;> interval_cases t <;> decide

theorem prop_mean {s : List ℝ → SumTree} (hs : IsSum s) {j : Nat} (hj : j < 2) :
    lmeanR b64 s ((List.range 5).map (incR b64 propData j)) = 0 := by
  have := sum_grid (n := 5) (by norm_num) hs (e := 0) (f := incR b64 propData j) (z := fun t => propFac j * propInc t)
    (fun t ht => by rw [prop_inc hj ht]; norm_num) (by interval_cases j <;> decide)
  rw [lmeanR, this]
  have e : ∑ t ∈ range 5, incR b64 propData j t = ((∑ t ∈ range 5, propFac j * propInc t : ℤ) : ℝ) := by
    rw [Int.cast_sum]
    exact sum_congr rfl fun t ht => prop_inc hj (Finset.mem_range.mp ht)
  have e0 : ∑ t ∈ range 5, propFac j * propInc t = 0 := by interval_cases j <;> decide
  rw [e, e0, Int.cast_zero, zero_div, b64_zero]

theorem prop_cov (ho : o.Valid) {i j : Nat} (hi : i < 2) (hj : j < 2) :
    covR b64 o (incLists 2 5 (incR b64 propData)) i j = ((propFac i * propFac j : ℤ) : ℝ) * (21 / 2) := by
  rw [covR_incLists hi hj, prop_mean (ho.avg i) hi, prop_mean (ho.avg j) hj]
  have hT := ho.dot (i * 2 + j) ((List.range 5).map fun t =>
    (b64 (incR b64 propData i t - 0), b64 (incR b64 propData j t - 0))) (by simp)
  have hd : ∀ j < 2, ∀ t < 5, b64 (incR b64 propData j t - 0) = ((propFac j * propInc t : ℤ) : ℝ) := by
    intro j hj t ht
    rw [sub_zero, incR, b64_idem]
    exact prop_inc hj ht
  obtain ⟨l, hl, hperm⟩ := perm_map (f := fun t : Fin 5 => (b64 (incR b64 propData i t - 0), b64 (incR b64 propData j t - 0)))
    (m := [0, 1, 2, 3, 4]) hT
  have key := DotTree.eval_grid (e := 0) (z := fun t : Fin 5 => (propFac i * propInc t) * (propFac j * propInc t))
    (f := fun t : Fin 5 => b64 (incR b64 propData i t - 0)) (g := fun t : Fin 5 => b64 (incR b64 propData j t - 0))
    (fun t => by rw [hd i hi t t.2, hd j hj t t.2]; push_cast; ring) _ l hl
    (by rw [(hperm.map _).sum_eq]; interval_cases i <;> interval_cases j <;> decide)
  rw [key, (hperm.map _).sum_eq]
  have e : (([0, 1, 2, 3, 4] : List (Fin 5)).map fun t : Fin 5 => (propFac i * propInc t) * (propFac j * propInc t)).sum =
      propFac i * propFac j * 42 := by
    interval_cases i <;> interval_cases j <;> decide
  rw [e]
  have q : b64 (1 / ((5 : ℕ) - 1)) = 1 / 4 := by
    have := b64_exact (m := 1) (by norm_num) (-2)
    norm_num at this ⊢
    exact this
  rw [q]
  have := b64_exact (m := propFac i * propFac j * 21) (by interval_cases i <;> interval_cases j <;> decide) (-1)
  have e2 : ((propFac i * propFac j * 42 : ℤ) : ℝ) * 2 ^ (0 : ℤ) * (1 / 4) = ((propFac i * propFac j * 21 : ℤ) : ℝ) * 2 ^ (-1 : ℤ) := by
    push_cast
    rw [zpow_neg]
    norm_num
    ring
  rw [e2, this]
  push_cast
  rw [zpow_neg]
  norm_num
  ring

theorem sqrt_near {c m h : ℝ} (hm : h < m) (hh : 0 < h) (h1 : (m - h) ^ 2 < c) (h2 : c < (m + h) ^ 2) : |Real.sqrt c - m| < h := by
  rw [abs_lt]
  constructor
  · have := Real.lt_sqrt_of_sq_lt h1
    linarith
  · have := (Real.sqrt_lt' (by linarith)).mpr h2
    linarith

theorem prop_sqrt : b64 (Real.sqrt (21 / 2)) = (7296665348608612 : ℤ) * 2 ^ (-51 : ℤ) ∧
    b64 (Real.sqrt (11109 / 2)) = (5244478219312440 : ℤ) * 2 ^ (-46 : ℤ) := by
  have hz : ∀ k : Nat, (2 : ℝ) ^ (-(k : ℤ)) = 1 / 2 ^ k := fun k => by rw [zpow_neg, zpow_natCast, one_div]
  have z51 := hz 51
  have z46 := hz 46
  push_cast at z51 z46
  constructor
  · have h3 : |Real.sqrt (21 / 2) - (7296665348608612 : ℤ) * 2 ^ (-51 : ℤ)| < 2 ^ (-51 : ℤ) / 2 := by
      rw [z51]
      apply sqrt_near <;> norm_num
    have h4 := abs_lt.mp h3
    refine b64_eq ?_ ?_ h3
    · rw [z51] at h4 ⊢; norm_num at h4 ⊢; linarith
    · rw [z51] at h4 ⊢; norm_num at h4 ⊢; linarith
  · have h3 : |Real.sqrt (11109 / 2) - (5244478219312440 : ℤ) * 2 ^ (-46 : ℤ)| < 2 ^ (-46 : ℤ) / 2 := by
      rw [z46]
      apply sqrt_near <;> norm_num
    have h4 := abs_lt.mp h3
    refine b64_eq ?_ ?_ h3
    · rw [z46] at h4 ⊢; norm_num at h4 ⊢; linarith
    · rw [z46] at h4 ⊢; norm_num at h4 ⊢; linarith

theorem prop_quot : b64 (b64 ((21 / 2) / b64 (Real.sqrt (21 / 2))) / b64 (Real.sqrt (21 / 2))) = 1 ∧
    b64 (b64 ((11109 / 2) / b64 (Real.sqrt (11109 / 2))) / b64 (Real.sqrt (11109 / 2))) = 1 ∧
    b64 (b64 ((483 / 2) / b64 (Real.sqrt (11109 / 2))) / b64 (Real.sqrt (21 / 2))) = 1 - 2 ^ (-53 : ℤ) := by
  have hz : ∀ k : Nat, (2 : ℝ) ^ (-(k : ℤ)) = 1 / 2 ^ k := fun k => by rw [zpow_neg, zpow_natCast, one_div]
  have z51 := hz 51
  have z46 := hz 46
  have z53 := hz 53
  push_cast at z51 z46 z53
  obtain ⟨s0, s1⟩ := prop_sqrt
  have e0 : b64 ((21 / 2) / ((7296665348608612 : ℤ) * 2 ^ (-51 : ℤ))) = (7296665348608612 : ℤ) * 2 ^ (-51 : ℤ) := by
    apply b64_eq <;> rw [z51] <;> norm_num [abs_lt]
  have e1 : b64 ((11109 / 2) / ((5244478219312440 : ℤ) * 2 ^ (-46 : ℤ))) = (5244478219312440 : ℤ) * 2 ^ (-46 : ℤ) := by
    apply b64_eq <;> rw [z46] <;> norm_num [abs_lt]
  have e2 : b64 ((483 / 2) / ((5244478219312440 : ℤ) * 2 ^ (-46 : ℤ))) = (7296665348608611 : ℤ) * 2 ^ (-51 : ℤ) := by
    apply b64_eq <;> rw [z51, z46] <;> norm_num [abs_lt]
  have e3 : b64 (((7296665348608611 : ℤ) * 2 ^ (-51 : ℤ)) / ((7296665348608612 : ℤ) * 2 ^ (-51 : ℤ))) =
      (9007199254740991 : ℤ) * 2 ^ (-53 : ℤ) := by
    apply b64_eq <;> rw [z51, z53] <;> norm_num [abs_lt]
  refine ⟨?_, ?_, ?_⟩
  · rw [s0, e0, div_self (by rw [z51]; norm_num), b64_rounding.one]
  · rw [s1, e1, div_self (by rw [z46]; norm_num), b64_rounding.one]
  · rw [s0, s1, e2, e3, z53]
    norm_num

/-- C132. Proportional columns are not recognised: for two columns with proportional increments the fit raises `LinAlgError` without
rounding, but with 64-bit numbers, in any order of summation, it can succeed, with a correlation below one. -/
theorem bm_fit_proportional (ho : o.Valid) (hord : IsCholOrder ord) (hdt : 0 < dt) :
    (∀ chol, CholTotal chol → bmFit chol propData dt = .error .linAlgError) ∧
    ∃ r C, bmFitR b64 o (cholR b64 ord recip) propData dt = .ok r ∧ r.cor = some C ∧ C.get 0 0 = 1 ∧ C.get 1 1 = 1 ∧
      C.get 1 0 = 1 - 2 ^ (-53 : ℤ) := by
  have R := b64_rounding
  have hcols : propData.cols = 2 := rfl
  have hrows : propData.rows = 6 := rfl
  constructor
  · intro chol hc
    refine ((bm_fit_outcome hc (by rw [hrows]; norm_num) hdt).2.2.2 (by rw [hcols]; norm_num) (by rw [hrows]; norm_num) ?_).2 ?_
    · intro j hj h
      have := h 0 (by rw [hrows]; norm_num) 1 (by rw [hrows]; norm_num)
      rw [prop_inc' hj (by norm_num), prop_inc' hj (by norm_num)] at this
      rw [hcols] at hj
      interval_cases j <;> norm_num [propFac, propInc] at this
    · intro h
      have := h (fun j => if j = 0 then 23 else -1) ?_ 1 (by rw [hcols]; norm_num)
      · norm_num at this
      · intro a ha b hb
        rw [hrows] at ha hb
        rw [hcols]
        simp only [Finset.sum_range_succ, Finset.sum_range_zero]
        rw [prop_inc' (by norm_num) ha, prop_inc' (by norm_num) ha, prop_inc' (by norm_num) hb, prop_inc' (by norm_num) hb]
        simp only [propFac]
        push_cast
        norm_num
  rw [bmFitR_eq (n := 5) hrows, hcols]
  set f := incR b64 propData with hf
  have hcov : ∀ i < 2, ∀ j < 2, covR b64 o (incLists 2 5 f) i j = ((propFac i * propFac j : ℤ) : ℝ) * (21 / 2) :=
    fun i hi j hj => prop_cov ho hi hj
  have c00 : covR b64 o (incLists 2 5 f) 0 0 = 21 / 2 := by rw [hcov 0 (by norm_num) 0 (by norm_num)]; norm_num [propFac]
  have c10 : covR b64 o (incLists 2 5 f) 1 0 = 483 / 2 := by rw [hcov 1 (by norm_num) 0 (by norm_num)]; norm_num [propFac]
  have c11 : covR b64 o (incLists 2 5 f) 1 1 = 11109 / 2 := by rw [hcov 1 (by norm_num) 1 (by norm_num)]; norm_num [propFac]
  obtain ⟨q0, q1, q2⟩ := prop_quot
  set A := corrcoefR b64 o (incLists 2 5 f) with hA
  have hAr : A.rows = 2 := by simp [hA, corrcoefR, incLists]
  have a00 : A.get 0 0 = 1 := by
    rw [hA, corrcoefR_get (by norm_num) (by norm_num), c00, q0]
    norm_num [clip1]
  have a11 : A.get 1 1 = 1 := by
    rw [hA, corrcoefR_get (by norm_num) (by norm_num), c11, q1]
    norm_num [clip1]
  have a10 : A.get 1 0 = 1 - 2 ^ (-53 : ℤ) := by
    rw [hA, corrcoefR_get (by norm_num) (by norm_num), c10, c11, c00, q2, clip1]
    have : (2 : ℝ) ^ (-53 : ℤ) = 1 / 2 ^ 53 := by rw [zpow_neg, one_div]; norm_num
    rw [this]
    norm_num
  have hchol : cholR b64 ord recip A ≠ none := by
    refine (chol_pair hord hAr a00 a11 ?_).mpr ?_
    · rw [a10, ← q2, b64_idem]
    · rw [a10]
      have : (2 : ℝ) ^ (-53 : ℤ) = 1 / 2 ^ 53 := by rw [zpow_neg, one_div]; norm_num
      rw [this]
      norm_num [abs_lt]
  obtain ⟨L, hL⟩ := Option.ne_none_iff_exists'.mp hchol
  have hvol : some 0 ∉ ((incLists 2 5 f).mapIdx fun j l => (npStd1R b64 (o.mean j) (o.sq j) l).map fun s => b64 (s / b64 (Real.sqrt dt))) := by
    rw [vol_zero_round R ho hdt (by norm_num)]
    rintro ⟨j, hj, h⟩
    have := h 0 (by norm_num)
    rw [prop_mean (ho.mean j) hj, hf, prop_inc hj (by norm_num)] at this
    interval_cases j <;> norm_num [propFac, propInc] at this
  have hnone := vol_some_round (fl := b64) (o := o) (dt := dt) (v := 2) (n := 5) (by norm_num) f
  have hno : ¬ ∃ j < 2, covR b64 o (incLists 2 5 f) j j = 0 := by
    rintro ⟨j, hj, h⟩
    interval_cases j
    · rw [c00] at h; norm_num at h
    · rw [c11] at h; norm_num at h
  have hlen : (incLists 2 5 f).length = 2 := by simp [incLists]
  refine ⟨⟨(incLists 2 5 f).mapIdx fun j l => (npMeanR b64 (o.mean j) l).map fun m => b64 (m / dt),
      (incLists 2 5 f).mapIdx fun j l => (npStd1R b64 (o.mean j) (o.sq j) l).map fun s => b64 (s / b64 (Real.sqrt dt)), some A, some L⟩, A,
    ?_, rfl, a00, a11, a10⟩
  unfold fitIncrementsR
  rw [hlen]
  simp only [if_pos (show 1 < 2 by norm_num), if_neg hvol, if_neg hnone, if_neg hno]
  rw [← hA, hL]

end Verif.Sim
