import Verif.Model.OUFitR
import Verif.Model.SimR
import Verif.Props.CorRound

/-!
# C134: Ornstein–Uhlenbeck calibration in floats
-/

namespace Verif.Sim

open Verif Round Finset

variable {fl : ℝ → ℝ} {dt : ℝ}

/-! ### Relative errors -/

/-- `a` is `A` up to a factor between `q` and `1 / q`. -/
def Upto (q a A : ℝ) : Prop := ∃ θ, a = A * θ ∧ q ≤ θ ∧ θ * q ≤ 1

theorem Upto.refl (A : ℝ) : Upto 1 A A := ⟨1, (mul_one A).symm, le_rfl, by norm_num⟩

theorem Upto.mono {q q' a A : ℝ} (h : Upto q a A) (hq : q' ≤ q) (hq' : 0 < q') : Upto q' a A := by
  obtain ⟨θ, h1, h2, h3⟩ := h
  refine ⟨θ, h1, hq.trans h2, le_trans (mul_le_mul_of_nonneg_left hq ?_) h3⟩
  linarith

theorem Upto.mul {q q' a A b B : ℝ} (h : Upto q a A) (h' : Upto q' b B) (hq : 0 < q) (hq' : 0 < q') : Upto (q * q') (a * b) (A * B) := by
  obtain ⟨θ, h1, h2, h3⟩ := h
  obtain ⟨φ, k1, k2, k3⟩ := h'
  refine ⟨θ * φ, by rw [h1, k1]; ring, mul_le_mul h2 k2 hq'.le (by linarith), ?_⟩
  calc θ * φ * (q * q') = (θ * q) * (φ * q') := by ring
    _ ≤ 1 := mul_le_one₀ h3 (mul_nonneg (by linarith) hq'.le) k3

theorem Upto.div {q q' a A b B : ℝ} (h : Upto q a A) (h' : Upto q' b B) (hq : 0 < q) (hq' : 0 < q') : Upto (q * q') (a / b) (A / B) := by
  obtain ⟨θ, h1, h2, h3⟩ := h
  obtain ⟨φ, k1, k2, k3⟩ := h'
  have hφ : 0 < φ := by linarith
  refine ⟨θ / φ, by rw [h1, k1, mul_div_mul_comm], ?_, ?_⟩
  · rw [le_div_iff₀ hφ]
    calc q * q' * φ = q * (φ * q') := by ring
      _ ≤ q * 1 := mul_le_mul_of_nonneg_left k3 hq.le
      _ ≤ θ := by linarith
  · rw [div_mul_eq_mul_div, div_le_one hφ]
    calc θ * (q * q') = (θ * q) * q' := by ring
      _ ≤ 1 * q' := mul_le_mul_of_nonneg_right h3 hq'.le
      _ ≤ φ := by linarith

theorem Upto.neg {q a A : ℝ} (h : Upto q a A) : Upto q (-a) (-A) := by
  obtain ⟨θ, h1, h2⟩ := h
  exact ⟨θ, by rw [h1]; ring, h2⟩

theorem Upto.sqrt {q a A : ℝ} (h : Upto q a A) (hq : 0 < q) : Upto (Real.sqrt q) (Real.sqrt a) (Real.sqrt A) := by
  obtain ⟨θ, h1, h2, h3⟩ := h
  have hθ : 0 ≤ θ := by linarith
  refine ⟨Real.sqrt θ, by rw [h1, Real.sqrt_mul' _ hθ], Real.sqrt_le_sqrt h2, ?_⟩
  rw [← Real.sqrt_mul hθ]
  exact Real.sqrt_le_iff.mpr ⟨by norm_num, by simpa using h3⟩

theorem Upto.trans {q q' a A b : ℝ} (h : Upto q b a) (h' : Upto q' a A) (hq : 0 < q) (hq' : 0 < q') : Upto (q * q') b A := by
  obtain ⟨θ, h1, h2, h3⟩ := h
  obtain ⟨φ, k1, k2, k3⟩ := h'
  refine ⟨φ * θ, by rw [h1, k1]; ring, ?_, ?_⟩
  · rw [mul_comm q]
    exact mul_le_mul k2 h2 hq.le (by linarith)
  · calc φ * θ * (q * q') = (θ * q) * (φ * q') := by ring
      _ ≤ 1 := mul_le_one₀ h3 (mul_nonneg (by linarith) hq'.le) k3

/-- A perturbation by a fraction `g` of the size. -/
theorem Upto.of_abs {a A g : ℝ} (hA : A ≠ 0) (h : |a - A| ≤ g * |A|) (hg : g < 1) : Upto (1 - g) a A := by
  refine ⟨a / A, by field_simp, ?_, ?_⟩
  all_goals
    have e : |a / A - 1| ≤ g := by
      rw [div_sub_one hA, abs_div, div_le_iff₀ (abs_pos.mpr hA)]
      exact h
    have := abs_le.mp e
  · linarith
  · nlinarith

theorem u1 : 0 < 1 - u64 := by
  unfold u64
  norm_num

theorem Upto.rd (R : Rounding fl) {q a A : ℝ} (h : Upto q a A) (hq : 0 < q) : Upto ((1 - u64) * q) (fl a) A := by
  have h1 : Upto (1 - u64) (fl a) a := by
    obtain ⟨δ, hδ, hδ'⟩ := fl_rel R a
    have := abs_le.mp hδ'
    have hu := u64_pos
    refine ⟨1 + δ, hδ, by linarith, ?_⟩
    have := mul_le_mul_of_nonneg_right (show 1 + δ ≤ 1 + u64 by linarith) u1.le
    nlinarith
  exact h1.trans h u1 hq

theorem Upto.le {q a A : ℝ} (h : Upto q a A) (hq : 0 < q) (hq1 : q ≤ 1) : |a - A| ≤ (1 / q - 1) * |A| := by
  obtain ⟨θ, h1, h2, h3⟩ := h
  have e : a - A = A * (θ - 1) := by rw [h1]; ring
  rw [e, abs_mul, mul_comm]
  refine mul_le_mul_of_nonneg_right ?_ (abs_nonneg A)
  have h4 : θ ≤ 1 / q := by
    rw [le_div_iff₀ hq]
    exact h3
  have h5 : 1 ≤ 1 / q := by
    rw [le_div_iff₀ hq]
    linarith
  have h6 : 2 ≤ q + 1 / q := by
    have : q * (1 / q) = 1 := by field_simp
    nlinarith [sq_nonneg (q - 1 / q), sq_nonneg (q - 1)]
  rw [abs_le]
  constructor <;> linarith

/-- The bound for `k` roundings. -/
theorem Upto.pow_le {k : Nat} {a A : ℝ} (h : Upto ((1 - u64) ^ k) a A) (hk : k ≤ 100) : |a - A| ≤ (k + 1) * u64 * |A| := by
  have hu := u64_pos
  have hq : 0 < (1 - u64) ^ k := pow_pos u1 k
  refine (h.le hq (pow_le_one₀ u1.le (by linarith))).trans (mul_le_mul_of_nonneg_right ?_ (abs_nonneg A))
  have hb : 1 - k * u64 ≤ (1 - u64) ^ k := by
    have := one_add_mul_le_pow (show (-2 : ℝ) ≤ -u64 by unfold u64; norm_num) k
    have e : 1 + (k : ℝ) * -u64 = 1 - k * u64 := by ring
    rw [e] at this
    exact this
  have hk' : (k : ℝ) ≤ 100 := by exact_mod_cast hk
  have hku : (k : ℝ) * u64 ≤ 100 * u64 := mul_le_mul_of_nonneg_right hk' hu.le
  have hsm : 100 * u64 * 202 ≤ 1 := by unfold u64; norm_num
  have h0 : 0 ≤ (k : ℝ) * u64 := by positivity
  rw [sub_le_iff_le_add, div_le_iff₀ hq]
  have h1 : ((k + 1) * u64 + 1) * (1 - k * u64) ≤ ((k + 1) * u64 + 1) * (1 - u64) ^ k := mul_le_mul_of_nonneg_left hb (by positivity)
  refine le_trans ?_ h1
  have h2 : (k + 1) * u64 * (k * u64) ≤ 101 * u64 * (100 * u64) :=
    mul_le_mul (mul_le_mul_of_nonneg_right (by linarith) hu.le) hku h0 (by positivity)
  nlinarith

/-! ### From the line to the parameters -/

theorem rate_near (R : Rounding fl) (s dt : ℝ) : Upto ((1 - u64) ^ 2) (ouRateR fl s dt) (-Real.log s / dt) := by
  have h1 := ((Upto.refl (Real.log s)).rd R one_pos).neg
  have h2 := (h1.div (Upto.refl dt) (by simpa using u1) one_pos).rd R (by simpa using u1)
  exact h2.mono (le_of_eq (by ring)) (pow_pos u1 2)

theorem level_near (R : Rounding fl) (s b : ℝ) : Upto ((1 - u64) ^ 2) (ouLevelR fl s b) (b / (1 - s)) := by
  have h1 := (Upto.refl (1 - s)).rd R one_pos
  have h2 := ((Upto.refl b).div h1 one_pos (by simpa using u1)).rd R (by simpa using u1)
  exact h2.mono (le_of_eq (by ring)) (pow_pos u1 2)

/-- The loss of digits in `1 - slope²`. -/
noncomputable def ouLoss (s : ℝ) : ℝ := u64 * s ^ 2 / |1 - s ^ 2|

theorem loss_nonneg (s : ℝ) : 0 ≤ ouLoss s := div_nonneg (mul_nonneg u64_pos.le (sq_nonneg s)) (abs_nonneg _)

theorem loss_abs (R : Rounding fl) {s : ℝ} (hs : s ^ 2 ≠ 1) : |fl (s ^ 2) - s ^ 2| ≤ ouLoss s * |1 - s ^ 2| := by
  have hne : 1 - s ^ 2 ≠ 0 := sub_ne_zero.mpr (Ne.symm hs)
  have h1 := R.rel (s ^ 2)
  rw [abs_of_nonneg (sq_nonneg s)] at h1
  have e : ouLoss s * |1 - s ^ 2| = u64 * s ^ 2 := div_mul_cancel₀ _ (abs_pos.mpr hne).ne'
  rw [e]
  exact h1

theorem loss_near (R : Rounding fl) {s g : ℝ} (hs : s ^ 2 ≠ 1) (hg : |fl (s ^ 2) - s ^ 2| ≤ g * |1 - s ^ 2|) (hl : g < 1) :
    Upto ((1 - u64) * (1 - g)) (fl (1 - fl (s ^ 2))) (1 - s ^ 2) := by
  have hne : 1 - s ^ 2 ≠ 0 := sub_ne_zero.mpr (Ne.symm hs)
  refine (Upto.of_abs hne ?_ hl).rd R (by linarith)
  have e2 : 1 - fl (s ^ 2) - (1 - s ^ 2) = -(fl (s ^ 2) - s ^ 2) := by ring
  rw [e2, abs_neg]
  exact hg

theorem Upto.pos_rd {q : ℝ} (hq : 0 < q) : 0 < (1 - u64) * q := mul_pos u1 hq

/-- The square of the volatility for a computed rate `r'`. -/
theorem volSq_near (R : Rounding fl) {s r r' σ q g : ℝ} (hs : s ^ 2 ≠ 1) (hg : |fl (s ^ 2) - s ^ 2| ≤ g * |1 - s ^ 2|) (hl : g < 1) (hq : 0 < q) (hr : Upto q r' r) :
    Upto ((1 - u64) ^ 5 * (1 - g) * q) (fl (fl (fl (2 * r') * fl (σ ^ 2)) / fl (1 - fl (s ^ 2)))) (2 * r * σ ^ 2 / (1 - s ^ 2)) := by
  have hl' : 0 < 1 - g := by linarith
  have h1 := ((Upto.refl 2).mul hr one_pos hq).rd R (mul_pos one_pos hq)
  have p1 := Upto.pos_rd (mul_pos one_pos hq)
  have h2 := (Upto.refl (σ ^ 2)).rd R one_pos
  have p2 := Upto.pos_rd one_pos
  have h3 := (h1.mul h2 p1 p2).rd R (mul_pos p1 p2)
  have p3 := Upto.pos_rd (mul_pos p1 p2)
  have p4 := mul_pos u1 hl'
  have h4 := (h3.div (loss_near R hs hg hl) p3 p4).rd R (mul_pos p3 p4)
  exact h4.mono (le_of_eq (by ring)) (by have := pow_pos u1 5; positivity)

theorem sqrt_pow (k : Nat) {c : ℝ} : Real.sqrt ((1 - u64) ^ (2 * k) * c) = (1 - u64) ^ k * Real.sqrt c := by
  rw [Real.sqrt_mul (pow_nonneg u1.le _), mul_comm 2 k, pow_mul, Real.sqrt_sq (pow_nonneg u1.le k)]

theorem ouVol_near (R : Rounding fl) {s r r' σ g : ℝ} (hs : s ^ 2 ≠ 1) (hg : |fl (s ^ 2) - s ^ 2| ≤ g * |1 - s ^ 2|) (hl : g < 1) (hr : Upto ((1 - u64) ^ 2) r' r) :
    Upto ((1 - u64) ^ 5 * Real.sqrt (1 - g)) (ouVolR fl s r' σ) (Real.sqrt (2 * r * σ ^ 2 / (1 - s ^ 2))) := by
  have hl' : 0 < 1 - g := by linarith
  have hp := fun k : Nat => pow_pos u1 k
  have hu := u64_pos
  have h1 := volSq_near R (σ := σ) hs hg hl (hp 2) hr
  have h2 := h1.mono (q' := (1 - u64) ^ (2 * 4) * (1 - g)) (by
    have : (1 - u64) ^ (2 * 4) ≤ (1 - u64) ^ 7 := pow_le_pow_of_le_one u1.le (by linarith) (by norm_num)
    have := mul_le_mul_of_nonneg_right this hl'.le
    calc _ ≤ (1 - u64) ^ 7 * (1 - g) := this
      _ = _ := by ring) (mul_pos (hp _) hl')
  have h3 := (h2.sqrt (mul_pos (hp _) hl')).rd R (Real.sqrt_pos.mpr (mul_pos (hp _) hl'))
  rw [sqrt_pow] at h3
  exact h3.mono (le_of_eq (by ring)) (mul_pos (hp 5) (Real.sqrt_pos.mpr hl'))

theorem inv_sqrt_le {g : ℝ} (h0 : 0 ≤ g) (h : g ≤ 1 / 2) : 1 / Real.sqrt (1 - g) ≤ 1 + g := by
  have hp : 0 < 1 - g := by linarith
  have h1 : 1 / (1 + g) ≤ Real.sqrt (1 - g) := by
    apply Real.le_sqrt_of_sq_le
    rw [div_pow, one_pow, div_le_iff₀ (by positivity)]
    nlinarith [mul_nonneg h0 h0, mul_nonneg h0 (mul_nonneg h0 h0)]
  rw [div_le_iff₀ (Real.sqrt_pos.mpr hp)]
  have := mul_le_mul_of_nonneg_left h1 (by linarith : 0 ≤ 1 + g)
  rwa [mul_one_div_cancel (by linarith)] at this

theorem inv_pow_le {k : Nat} (hk : k ≤ 100) : 1 / (1 - u64) ^ k ≤ 1 + (k + 1) * u64 := by
  have h : Upto ((1 - u64) ^ k) (1 / (1 - u64) ^ k) 1 :=
    ⟨1 / (1 - u64) ^ k, by ring, by
      rw [le_div_iff₀ (pow_pos u1 k)]
      have := pow_le_one₀ (n := k) u1.le (by linarith [u64_pos])
      nlinarith [pow_pos u1 k], by rw [one_div_mul_cancel (pow_pos u1 k).ne']⟩
  have := h.pow_le hk
  rw [abs_one, mul_one] at this
  linarith [(abs_le.mp this).2]

theorem ou_params_loss (R : Rounding fl) {s b σ dt g : ℝ} (hs : s ^ 2 ≠ 1) (hg : |fl (s ^ 2) - s ^ 2| ≤ g * |1 - s ^ 2|) (h0 : 0 ≤ g)
    (hl : g ≤ 1 / 2) :
    |ouRateR fl s dt - -Real.log s / dt| ≤ 3 * u64 * |-Real.log s / dt| ∧
    |ouLevelR fl s b - b / (1 - s)| ≤ 3 * u64 * |b / (1 - s)| ∧
    |ouVolR fl s (ouRateR fl s dt) σ - Real.sqrt (2 * (-Real.log s / dt) * σ ^ 2 / (1 - s ^ 2))| ≤
      (10 * u64 + g) * Real.sqrt (2 * (-Real.log s / dt) * σ ^ 2 / (1 - s ^ 2)) := by
  have hu := u64_pos
  refine ⟨?_, ?_, ?_⟩
  · have := (rate_near R s dt).pow_le (by norm_num)
    norm_num at this ⊢
    linarith
  · have := (level_near R s b).pow_le (by norm_num)
    norm_num at this ⊢
    linarith
  · have hp : 0 < 1 - g := by linarith
    have hq : 0 < (1 - u64) ^ 5 * Real.sqrt (1 - g) := mul_pos (pow_pos u1 5) (Real.sqrt_pos.mpr hp)
    have h1 := (ouVol_near R (σ := σ) hs hg (by linarith) (rate_near R s dt)).le hq
      (mul_le_one₀ (pow_le_one₀ u1.le (by linarith)) (Real.sqrt_nonneg _) (Real.sqrt_le_iff.mpr ⟨by norm_num, by linarith⟩))
    rw [abs_of_nonneg (Real.sqrt_nonneg (2 * (-Real.log s / dt) * σ ^ 2 / (1 - s ^ 2)))] at h1
    refine h1.trans (mul_le_mul_of_nonneg_right ?_ (Real.sqrt_nonneg _))
    have e : 1 / ((1 - u64) ^ 5 * Real.sqrt (1 - g)) = 1 / (1 - u64) ^ 5 * (1 / Real.sqrt (1 - g)) := by
      rw [one_div_mul_one_div]
    have h2 := inv_pow_le (k := 5) (by norm_num)
    have h3 := inv_sqrt_le h0 hl
    have h4 : 1 / (1 - u64) ^ 5 * (1 / Real.sqrt (1 - g)) ≤ (1 + ((5 : ℕ) + 1) * u64) * (1 + g) :=
      mul_le_mul h2 h3 (by positivity) (by positivity)
    rw [e]
    push_cast at h4
    have h5 : u64 * g ≤ u64 * (1 / 2) := mul_le_mul_of_nonneg_left hl hu.le
    nlinarith

/-- C134. The parameters computed from a line with slope other than one: rate and mean to the last digits; the volatility loses
the digits that `1 - slope²` loses. -/
theorem ou_params_round (R : Rounding fl) {s b σ dt : ℝ} (hs : s ^ 2 ≠ 1) (hl : ouLoss s ≤ 1 / 2) :
    |ouRateR fl s dt - -Real.log s / dt| ≤ 3 * u64 * |-Real.log s / dt| ∧
    |ouLevelR fl s b - b / (1 - s)| ≤ 3 * u64 * |b / (1 - s)| ∧
    |ouVolR fl s (ouRateR fl s dt) σ - Real.sqrt (2 * (-Real.log s / dt) * σ ^ 2 / (1 - s ^ 2))| ≤
      (10 * u64 + ouLoss s) * Real.sqrt (2 * (-Real.log s / dt) * σ ^ 2 / (1 - s ^ 2)) :=
  ou_params_loss R hs (loss_abs R hs) (loss_nonneg s) hl

/-! ### Back from the parameters to the recursion -/

theorem exp_near {a l m : ℝ} (h : |a - l| ≤ m) : Upto (Real.exp (-m)) (Real.exp a) (Real.exp l) := by
  have := abs_le.mp h
  refine ⟨Real.exp (a - l), by rw [← Real.exp_add]; congr 1; ring, Real.exp_le_exp.mpr (by linarith), ?_⟩
  rw [← Real.exp_add]
  exact Real.exp_le_one_iff.mpr (by linarith)

theorem exp_bound_fl (R : Rounding fl) {a l m : ℝ} (h : |a - l| ≤ m) (hm : m ≤ 1 / 16) :
    |fl (Real.exp a) - Real.exp l| ≤ (2 * u64 + 11 / 10 * m) * Real.exp l := by
  have hu := u64_pos
  have hm0 : 0 ≤ m := (abs_nonneg _).trans h
  have hq := Real.exp_pos (-m)
  have h1 := ((exp_near h).rd R hq).le (mul_pos u1 hq)
    (mul_le_one₀ (by linarith) hq.le (Real.exp_le_one_iff.mpr (by linarith)))
  rw [abs_of_pos (Real.exp_pos l)] at h1
  refine h1.trans (mul_le_mul_of_nonneg_right ?_ (Real.exp_pos l).le)
  have e : 1 / ((1 - u64) * Real.exp (-m)) = 1 / (1 - u64) ^ 1 * Real.exp m := by
    rw [pow_one, Real.exp_neg, one_div, one_div, mul_inv, inv_inv]
  have h2 := inv_pow_le (k := 1) (by norm_num)
  have h3 : Real.exp m ≤ 1 + 16 / 15 * m := by
    have := Real.exp_bound_div_one_sub_of_interval hm0 (by linarith : m < 1)
    refine this.trans ?_
    rw [div_le_iff₀ (by linarith)]
    nlinarith
  have h4 := mul_le_mul h2 h3 (Real.exp_pos m).le (by positivity)
  rw [e]
  push_cast at h4
  have h5 : u64 * m ≤ 1 / 1000 * m := mul_le_mul_of_nonneg_right (by unfold u64; norm_num) hm0
  nlinarith

theorem log_sq {s : ℝ} (hs : 0 < s) : Real.exp (2 * Real.log s) = s ^ 2 := by
  rw [two_mul, Real.exp_add, Real.exp_log hs, sq]

/-- C134. An object constructed with the computed rate has the decay factor `slope` up to a multiple of the last digit that depends on
the logarithm of the slope only. -/
theorem ou_factor_back (R : Rounding fl) {s dt : ℝ} (hs : 0 < s) (hdt : 0 < dt) (hL : |Real.log s| * u64 ≤ 1 / 256) :
    |ouFactorR fl (ouRateR fl s dt) dt - s| ≤ (2 + 5 * |Real.log s|) * u64 * s := by
  have hu := u64_pos
  have h1 := ((rate_near R s dt).neg.mul (Upto.refl dt) (pow_pos u1 2) one_pos).rd R (mul_pos (pow_pos u1 2) one_pos)
  have e1 : -(-Real.log s / dt) * dt = Real.log s := by
    field_simp
  rw [e1] at h1
  have h2 := (h1.mono (q' := (1 - u64) ^ 3) (le_of_eq (by ring)) (pow_pos u1 3)).pow_le (by norm_num)
  push_cast at h2
  have h3 := exp_bound_fl R h2 (by nlinarith)
  rw [Real.exp_log hs] at h3
  have h0 : 0 ≤ |Real.log s| * u64 * s := by positivity
  unfold ouFactorR
  linarith

/-- The relative error of the term `intercept`. -/
noncomputable def meanLoss (s : ℝ) : ℝ := (2 + 5 * |Real.log s|) * u64 * s / |1 - s|

/-- The relative error of the residual deviation. -/
noncomputable def scaleLoss (s : ℝ) : ℝ := (2 + 11 * |Real.log s|) * u64 * s ^ 2 / |1 - s ^ 2|

theorem inv_le {k : ℕ} {g : ℝ} (hk : k ≤ 7) (h0 : 0 ≤ g) (h : g ≤ 1 / 4) : 1 / ((1 - u64) ^ k * (1 - g)) - 1 ≤ 3 / 2 * (k + 1) * u64 + 4 / 3 * g := by
  have hu := u64_pos
  have h1 := inv_pow_le (k := k) (by omega)
  have h2 : 1 / (1 - g) ≤ 1 + 4 / 3 * g := by
    rw [div_le_iff₀ (by linarith)]
    nlinarith
  have h3 := mul_le_mul h1 h2 (by apply div_nonneg <;> linarith) (by positivity)
  rw [one_div_mul_one_div] at h3
  have h4 : ((k : ℝ) + 1) * u64 * g ≤ (k + 1) * u64 * (1 / 4) := mul_le_mul_of_nonneg_left h (by positivity)
  have h5 : 0 ≤ ((k : ℝ) + 1) * u64 := by positivity
  nlinarith

/-- C134. And the constant of the recursion is the intercept up to the digits that `1 - slope` loses. -/
theorem ou_mean_back (R : Rounding fl) {s b dt : ℝ} (hs : 0 < s) (hs1 : s ≠ 1) (hdt : 0 < dt) (hL : |Real.log s| * u64 ≤ 1 / 256)
    (hl : meanLoss s ≤ 1 / 4) :
    |ouMeanR fl (ouLevelR fl s b) (ouFactorR fl (ouRateR fl s dt) dt) - b| ≤ (15 / 2 * u64 + 4 / 3 * meanLoss s) * |b| := by
  have hu := u64_pos
  have hne : 1 - s ≠ 0 := sub_ne_zero.mpr (Ne.symm hs1)
  have h0 : 0 ≤ meanLoss s := by unfold meanLoss; positivity
  have h1 := ou_factor_back R hs hdt hL
  set f := ouFactorR fl (ouRateR fl s dt) dt
  have e : meanLoss s * |1 - s| = (2 + 5 * |Real.log s|) * u64 * s := div_mul_cancel₀ _ (abs_pos.mpr hne).ne'
  have h2 : Upto (1 - meanLoss s) (1 - f) (1 - s) := by
    refine Upto.of_abs hne ?_ (by linarith)
    rw [e, show 1 - f - (1 - s) = -(f - s) by ring, abs_neg]
    exact h1
  have hp : 0 < 1 - meanLoss s := by linarith
  have h3 := ((level_near R s b).mul (h2.rd R hp) (pow_pos u1 2) (Upto.pos_rd hp)).rd R (mul_pos (pow_pos u1 2) (Upto.pos_rd hp))
  rw [div_mul_cancel₀ _ hne] at h3
  have hq : 0 < (1 - u64) ^ 4 * (1 - meanLoss s) := mul_pos (pow_pos u1 4) hp
  have h4 := (h3.mono (q' := (1 - u64) ^ 4 * (1 - meanLoss s)) (le_of_eq (by ring)) hq).le hq
    (mul_le_one₀ (pow_le_one₀ u1.le (by linarith)) hp.le (by linarith))
  refine h4.trans (mul_le_mul_of_nonneg_right ?_ (abs_nonneg b))
  have := inv_le (k := 4) (by norm_num) h0 hl
  push_cast at this
  linarith

/-- The sign of the squared volatility. -/
theorem volSq_nonneg (R : Rounding fl) {s σ dt : ℝ} (hs : 0 < s) (hdt : 0 < dt) : 0 ≤ 2 * ouRateR fl s dt * σ ^ 2 / (1 - s ^ 2) := by
  obtain ⟨θ, h1, h2, -⟩ := rate_near R s dt
  have hθ : 0 ≤ θ := (pow_pos u1 2).le.trans h2
  rw [h1]
  rcases le_total s 1 with h | h
  · have h3 := Real.log_nonpos hs.le h
    have h4 : 0 ≤ -Real.log s / dt := div_nonneg (by linarith) hdt.le
    have h5 : 0 ≤ 1 - s ^ 2 := by nlinarith
    positivity
  · have h3 := Real.log_nonneg h
    have h4 : 0 ≤ Real.log s / dt := div_nonneg h3 hdt.le
    have h5 : 1 - s ^ 2 ≤ 0 := by nlinarith
    apply div_nonneg_of_nonpos _ h5
    have : 2 * (-Real.log s / dt * θ) * σ ^ 2 = -(2 * (Real.log s / dt * θ) * σ ^ 2) := by ring
    rw [this]
    have : 0 ≤ 2 * (Real.log s / dt * θ) * σ ^ 2 := by positivity
    linarith

theorem rate_ne (R : Rounding fl) {s dt : ℝ} (hs : 0 < s) (hs1 : s ≠ 1) (hdt : 0 < dt) : ouRateR fl s dt ≠ 0 := by
  obtain ⟨θ, h1, h2, -⟩ := rate_near R s dt
  have hθ : 0 < θ := (pow_pos u1 2).trans_le h2
  rw [h1]
  have : Real.log s ≠ 0 := Real.log_ne_zero_of_pos_of_ne_one hs hs1
  exact mul_ne_zero (div_ne_zero (neg_ne_zero.mpr this) hdt.ne') hθ.ne'

/-- C134. And the noise has the deviation of the residuals up to the digits that `1 - slope²` loses. -/
theorem ou_scale_back (R : Rounding fl) {s σ dt : ℝ} (hs : 0 < s) (hs1 : s ≠ 1) (hdt : 0 < dt) (hL : |Real.log s| * u64 ≤ 1 / 256)
    (hl : scaleLoss s ≤ 1 / 4) :
    |ouScaleR fl (ouVolR fl s (ouRateR fl s dt) σ) (ouRateR fl s dt) dt - (|σ|)| ≤ (12 * u64 + 4 / 3 * scaleLoss s) * |σ| := by
  have hu := u64_pos
  have hsq : s ^ 2 ≠ 1 := by
    intro h
    rcases (sq_eq_sq_iff_eq_or_eq_neg.mp (h.trans (one_pow 2).symm)) with h | h
    · exact hs1 h
    · linarith
  have hne : 1 - s ^ 2 ≠ 0 := sub_ne_zero.mpr (Ne.symm hsq)
  have h0 : 0 ≤ scaleLoss s := by unfold scaleLoss; positivity
  have hg0 := loss_nonneg s
  have hg : ouLoss s ≤ scaleLoss s := by
    unfold ouLoss scaleLoss
    apply div_le_div_of_nonneg_right _ (abs_nonneg _)
    have : 0 ≤ |Real.log s| * u64 * s ^ 2 := by positivity
    have : 0 ≤ u64 * s ^ 2 := by positivity
    linarith
  set r := ouRateR fl s dt with hr
  have hr0 := rate_ne R hs hs1 hdt
  have hX := volSq_nonneg R (σ := σ) hs hdt
  rw [← hr] at hX hr0
  -- the decay of the variance
  have h1 := (((((Upto.refl (-2)).mul (rate_near R s dt) one_pos (pow_pos u1 2)).rd R (mul_pos one_pos (pow_pos u1 2))).mul (Upto.refl dt)
    (Upto.pos_rd (mul_pos one_pos (pow_pos u1 2))) one_pos).rd R (mul_pos (Upto.pos_rd (mul_pos one_pos (pow_pos u1 2))) one_pos))
  have e1 : -2 * (-Real.log s / dt) * dt = 2 * Real.log s := by
    field_simp
  rw [e1, ← hr] at h1
  have h2 := (h1.mono (q' := (1 - u64) ^ 4) (le_of_eq (by ring)) (pow_pos u1 4)).pow_le (by norm_num)
  push_cast at h2
  rw [abs_mul, abs_two] at h2
  have h3 := exp_bound_fl R h2 (by nlinarith)
  rw [log_sq hs] at h3
  set f := fl (Real.exp (fl (fl (-2 * r) * dt))) with hf
  have e : scaleLoss s * |1 - s ^ 2| = (2 + 11 * |Real.log s|) * u64 * s ^ 2 := div_mul_cancel₀ _ (abs_pos.mpr hne).ne'
  have h4 : Upto (1 - scaleLoss s) (1 - f) (1 - s ^ 2) := by
    refine Upto.of_abs hne ?_ (by linarith)
    rw [e, show 1 - f - (1 - s ^ 2) = -(f - s ^ 2) by ring, abs_neg]
    refine h3.trans (le_of_eq ?_)
    ring
  have hp : 0 < 1 - scaleLoss s := by linarith
  have hp' : 0 < 1 - ouLoss s := by linarith
  -- the variance per time
  have v1 := volSq_near R (σ := σ) hsq (loss_abs R hsq) (by linarith) one_pos (Upto.refl r)
  have q1 : 0 < (1 - u64) ^ 5 * (1 - ouLoss s) * 1 := mul_pos (mul_pos (pow_pos u1 5) hp') one_pos
  have v2 := (v1.sqrt q1).rd R (Real.sqrt_pos.mpr q1)
  have q2 := Upto.pos_rd (Real.sqrt_pos.mpr q1)
  have q3 := mul_pos q2 q2
  have v3 : Upto (((1 - u64) * Real.sqrt ((1 - u64) ^ 5 * (1 - ouLoss s) * 1)) * ((1 - u64) * Real.sqrt ((1 - u64) ^ 5 * (1 - ouLoss s) * 1)))
      (ouVolR fl s r σ ^ 2) (2 * r * σ ^ 2 / (1 - s ^ 2)) := by
    have := v2.mul v2 q2 q2
    rw [Real.mul_self_sqrt hX] at this
    rw [sq (ouVolR fl s r σ)]
    exact this
  have v4 := ((v3.rd R q3).div (((Upto.refl 2).mul (Upto.refl r) one_pos one_pos).rd R (mul_pos one_pos one_pos)) (Upto.pos_rd q3)
    (Upto.pos_rd (mul_pos one_pos one_pos))).rd R (mul_pos (Upto.pos_rd q3) (Upto.pos_rd (mul_pos one_pos one_pos)))
  have q4 := Upto.pos_rd (mul_pos (Upto.pos_rd q3) (Upto.pos_rd (mul_pos (one_pos : (0 : ℝ) < 1) one_pos)))
  have v5 := (v4.mul (h4.rd R hp) q4 (Upto.pos_rd hp)).rd R (mul_pos q4 (Upto.pos_rd hp))
  have q5 := Upto.pos_rd (mul_pos q4 (Upto.pos_rd hp))
  have e5 : 2 * r * σ ^ 2 / (1 - s ^ 2) / (2 * r) * (1 - s ^ 2) = σ ^ 2 := by
    field_simp
  rw [e5] at v5
  have v6 := v5.mono (q' := (1 - u64) ^ (2 * 6) * (1 - scaleLoss s) ^ 2) (by
    have hss := Real.mul_self_sqrt q1.le
    have h7 : (1 - scaleLoss s) ^ 2 ≤ (1 - ouLoss s) * (1 - scaleLoss s) := by
      rw [sq]
      exact mul_le_mul_of_nonneg_right (by linarith) hp.le
    have h8 := mul_le_mul_of_nonneg_left h7 (pow_pos u1 12).le
    refine h8.trans (le_of_eq ?_)
    linear_combination (-(1 - u64) ^ 7 * (1 - scaleLoss s)) * hss) (mul_pos (pow_pos u1 _) (pow_pos hp 2))
  have q6 : 0 < (1 - u64) ^ (2 * 6) * (1 - scaleLoss s) ^ 2 := mul_pos (pow_pos u1 _) (pow_pos hp 2)
  have v7 := (v6.sqrt q6).rd R (Real.sqrt_pos.mpr q6)
  rw [sqrt_pow, Real.sqrt_sq hp.le, Real.sqrt_sq_eq_abs] at v7
  have q7 : 0 < (1 - u64) ^ 7 * (1 - scaleLoss s) := mul_pos (pow_pos u1 7) hp
  have v8 := (v7.mono (q' := (1 - u64) ^ 7 * (1 - scaleLoss s)) (le_of_eq (by ring)) q7).le q7
    (mul_le_one₀ (pow_le_one₀ u1.le (by linarith)) hp.le (by linarith))
  rw [abs_abs] at v8
  refine v8.trans (mul_le_mul_of_nonneg_right ?_ (abs_nonneg σ))
  have := inv_le (k := 7) (by norm_num) h0 hl
  push_cast at this
  linarith

end Verif.Sim
