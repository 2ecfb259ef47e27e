import Verif.Props.SimLaw
import Mathlib.Algebra.Field.GeomSum
import Mathlib.Analysis.SpecialFunctions.Trigonometric.DerivHyp

/-!
# The distribution of simulated Ornstein-Uhlenbeck paths (C79)
-/

namespace Verif.Sim

open MeasureTheory ProbabilityTheory

variable {Ω : Type*} [MeasurableSpace Ω] {P : Measure Ω} {z : Ω → Nat → ℝ} {po : OUParams} {μ θ x0 : List ℝ} {dt : ℝ} {s n : Nat}
  {a : Ω → Arr}

/-- The standard deviation of one step. -/
noncomputable def ouScale (vol θ dt : ℝ) : ℝ := Real.sqrt (vol ^ 2 / (2 * θ) * (1 - Real.exp (-2 * θ * dt)))

theorem ou_closed {z : Nat → ℝ} {a : Arr} (hμ : po.mean = .row μ) (hθ : po.mrr = .row θ)
    (h : ouSample po x0 dt s n z = .ok a) {q j : Nat} (hq : q < n) (hj : j < μ.length) {t : Nat} (ht : t ≤ s) :
    path a μ.length q j t = bentry μ j + (start x0 μ.length q j - bentry μ j) * Real.exp (-(bentry θ j) * (t * dt)) +
      ∑ u ∈ Finset.range t, Real.exp (-(bentry θ j) * dt) ^ (t - 1 - u) * ouScale (bentry po.vol j) (bentry θ j) dt *
        shock po.L μ.length z (u * n + q) j := by
  obtain ⟨-, -, -, -, h0, hstep⟩ := ou_inv hμ hθ h
  induction t with
  | zero =>
    unfold path start
    rw [h0 _ (by
      have := Nat.mul_le_mul_right μ.length (Nat.succ_le_of_lt hq)
      rw [Nat.succ_mul] at this
      rw [Nat.mul_comm μ.length n]
      omega)]
    simp
  | succ t ih =>
    have e : ∀ u ∈ Finset.range t, Real.exp (-(bentry θ j) * dt) ^ (t + 1 - 1 - u) = Real.exp (-(bentry θ j) * dt) ^ (t - 1 - u) *
        Real.exp (-(bentry θ j) * dt) := fun u hu => by
      rw [← pow_succ]
      congr 1
      have := Finset.mem_range.mp hu
      omega
    have e3 : ∑ u ∈ Finset.range t, Real.exp (-(bentry θ j) * dt) ^ (t + 1 - 1 - u) *
        ouScale (bentry po.vol j) (bentry θ j) dt * shock po.L μ.length z (u * n + q) j =
        (∑ u ∈ Finset.range t, Real.exp (-(bentry θ j) * dt) ^ (t - 1 - u) * ouScale (bentry po.vol j) (bentry θ j) dt *
        shock po.L μ.length z (u * n + q) j) * Real.exp (-(bentry θ j) * dt) := by
      rw [Finset.sum_mul]
      exact Finset.sum_congr rfl fun u hu => by rw [e u hu]; ring
    have e2 : Real.exp (-(bentry θ j) * ((t + 1 : ℕ) * dt)) = Real.exp (-(bentry θ j) * (t * dt)) * Real.exp (-(bentry θ j) * dt) := by
      rw [← Real.exp_add]
      congr 1
      push_cast
      ring
    rw [hstep t q j (by omega) hq hj, ih (by omega), Finset.sum_range_succ, e3, e2, Nat.add_sub_cancel, Nat.sub_self, pow_zero,
      one_mul]
    unfold ouScale
    ring

/-- How much too large the code's covariance between variates with the rates `θ` and `θ'` is. -/
noncomputable def ouExcess (θ θ' dt : ℝ) : ℝ :=
  ouScale 1 θ dt * ouScale 1 θ' dt * (θ + θ') / (1 - Real.exp (-((θ + θ') * dt)))

theorem ouScale_vol (σ r dt : ℝ) : ouScale σ r dt = |σ| * ouScale 1 r dt := by
  unfold ouScale
  rw [← Real.sqrt_sq_eq_abs, ← Real.sqrt_mul (sq_nonneg σ)]
  congr 1
  ring

theorem ou_sum {f g : ℝ} (hfg : f * g ≠ 1) (t t' : Nat) :
    ∑ u ∈ Finset.range (min t t'), f ^ (t - 1 - u) * g ^ (t' - 1 - u) =
      (f ^ (t - min t t') * g ^ (t' - min t t') - f ^ t * g ^ t') / (1 - f * g) := by
  have hne : 1 - f * g ≠ 0 := sub_ne_zero.mpr (Ne.symm hfg)
  obtain ⟨m, hm⟩ : ∃ m, min t t' = m := ⟨_, rfl⟩
  obtain ⟨c, rfl⟩ : ∃ c, t = m + c := Nat.exists_eq_add_of_le (hm ▸ min_le_left _ _)
  obtain ⟨d, rfl⟩ : ∃ d, t' = m + d := Nat.exists_eq_add_of_le (hm ▸ min_le_right _ _)
  rw [hm, ← Finset.sum_range_reflect, eq_div_iff hne, Nat.add_sub_cancel_left, Nat.add_sub_cancel_left]
  have e : ∀ u ∈ Finset.range m, f ^ (m + c - 1 - (m - 1 - u)) * g ^ (m + d - 1 - (m - 1 - u)) = f ^ c * g ^ d * (f * g) ^ u := by
    intro u hu
    have := Finset.mem_range.mp hu
    rw [show m + c - 1 - (m - 1 - u) = c + u by omega, show m + d - 1 - (m - 1 - u) = d + u by omega, mul_pow]
    ring
  rw [Finset.sum_congr rfl e, ← Finset.mul_sum, mul_assoc, geom_sum_mul_neg, mul_pow]
  ring

theorem sinh_ratio {d m : ℝ} (hd : 0 < d) (hm : d < m) : Real.sinh d * m < Real.sinh m * d := by
  have hc : StrictConvexOn ℝ (Set.Ici 0) Real.sinh := by
    refine strictConvexOn_of_deriv2_pos (convex_Ici 0) Real.continuous_sinh.continuousOn fun x hx => ?_
    rw [interior_Ici] at hx
    simpa [Real.deriv_sinh, Real.deriv_cosh] using hx
  have hmp : 0 < m := hd.trans hm
  have := hc.2 (Set.mem_Ici.mpr le_rfl) (Set.mem_Ici.mpr hmp.le) hmp.ne
    (show 0 < 1 - d / m by rw [sub_pos, div_lt_one hmp]; exact hm) (show 0 < d / m by positivity) (by ring)
  simp only [smul_eq_mul, mul_zero, zero_add, Real.sinh_zero, div_mul_cancel₀ _ hmp.ne'] at this
  rw [div_mul_eq_mul_div, lt_div_iff₀ hmp] at this
  linarith

theorem sinh_sq_ratio {d m : ℝ} (hd : d ≠ 0) (hm : |d| < m) : Real.sinh d ^ 2 * m ^ 2 < Real.sinh m ^ 2 * d ^ 2 := by
  have h := sinh_ratio (abs_pos.mpr hd) hm
  have hs : 0 < Real.sinh |d| := Real.sinh_pos_iff.mpr (abs_pos.mpr hd)
  have hmp : 0 < m := (abs_nonneg d).trans_lt hm
  have := mul_self_lt_mul_self (by positivity) h
  have e : Real.sinh |d| ^ 2 = Real.sinh d ^ 2 := by
    rcases abs_choice d with h | h <;> rw [h]
    rw [Real.sinh_neg, neg_sq]
  have e' : |d| ^ 2 = d ^ 2 := sq_abs d
  nlinarith

theorem one_sub_exp (a : ℝ) : 1 - Real.exp (-2 * a) = 2 * Real.exp (-a) * Real.sinh a := by
  rw [Real.sinh_eq]
  have h1 : Real.exp (-2 * a) = Real.exp (-a) * Real.exp (-a) := by rw [← Real.exp_add]; congr 1; ring
  have h2 : Real.exp (-a) * Real.exp a = 1 := by rw [← Real.exp_add]; simp
  linear_combination -h1 - h2

/-- The square of the excess in terms of the half sum and the half difference of the rates. -/
theorem ouExcess_sq {θ θ' dt : ℝ} (hθ : 0 < θ) (hθ' : 0 < θ') (hdt : 0 < dt) :
    0 < ouExcess θ θ' dt ∧ ouExcess θ θ' dt ^ 2 =
      (1 - Real.sinh ((θ - θ') / 2 * dt) ^ 2 / Real.sinh ((θ + θ') / 2 * dt) ^ 2) * ((θ + θ') ^ 2 / (4 * θ * θ')) := by
  have key : ∀ {r : ℝ}, 0 < r → 0 < 1 / (2 * r) * (1 - Real.exp (-2 * r * dt)) := fun {r} hr => by
    have : Real.exp (-2 * r * dt) < 1 := by
      rw [Real.exp_lt_one_iff]
      nlinarith [mul_pos hr hdt]
    have : 0 < 1 - Real.exp (-2 * r * dt) := by linarith
    positivity
  have hden : 0 < 1 - Real.exp (-((θ + θ') * dt)) := by
    rw [sub_pos, Real.exp_lt_one_iff]
    have := mul_pos (add_pos hθ hθ') hdt
    linarith
  have hm : 0 < Real.sinh ((θ + θ') / 2 * dt) := Real.sinh_pos_iff.mpr (by positivity)
  constructor
  · have h1 : 0 < ouScale 1 θ dt := Real.sqrt_pos.mpr (by simpa using key hθ)
    have h2 : 0 < ouScale 1 θ' dt := Real.sqrt_pos.mpr (by simpa using key hθ')
    unfold ouExcess
    positivity
  · unfold ouExcess ouScale
    rw [div_pow, mul_pow, mul_pow, Real.sq_sqrt (by simpa using (key hθ).le), Real.sq_sqrt (by simpa using (key hθ').le)]
    have e1 : 1 - Real.exp (-2 * θ * dt) = 2 * Real.exp (-(θ * dt)) * Real.sinh (θ * dt) := by
      rw [← one_sub_exp]; congr 2; ring
    have e2 : 1 - Real.exp (-2 * θ' * dt) = 2 * Real.exp (-(θ' * dt)) * Real.sinh (θ' * dt) := by
      rw [← one_sub_exp]; congr 2; ring
    have e3 : 1 - Real.exp (-((θ + θ') * dt)) = 2 * Real.exp (-((θ + θ') / 2 * dt)) * Real.sinh ((θ + θ') / 2 * dt) := by
      rw [← one_sub_exp]; congr 2; ring
    have e4 : Real.exp (-(θ * dt)) * Real.exp (-(θ' * dt)) = Real.exp (-((θ + θ') / 2 * dt)) ^ 2 := by
      rw [← Real.exp_add, sq, ← Real.exp_add]; congr 1; ring
    have e5 : Real.sinh (θ * dt) * Real.sinh (θ' * dt) =
        Real.sinh ((θ + θ') / 2 * dt) ^ 2 - Real.sinh ((θ - θ') / 2 * dt) ^ 2 := by
      have a1 : θ * dt = (θ + θ') / 2 * dt + (θ - θ') / 2 * dt := by ring
      have a2 : θ' * dt = (θ + θ') / 2 * dt - (θ - θ') / 2 * dt := by ring
      conv_lhs => rw [a1, a2]
      rw [Real.sinh_add, Real.sinh_sub]
      have c1 := Real.cosh_sq ((θ + θ') / 2 * dt)
      have c2 := Real.cosh_sq ((θ - θ') / 2 * dt)
      linear_combination Real.sinh ((θ + θ') / 2 * dt) ^ 2 * c2 - Real.sinh ((θ - θ') / 2 * dt) ^ 2 * c1
    rw [e1, e2, e3]
    have hE := Real.exp_pos (-((θ + θ') / 2 * dt))
    clear e1 e2 e3
    generalize Real.exp (-(θ * dt)) = A at *
    generalize Real.exp (-(θ' * dt)) = B at *
    generalize Real.exp (-((θ + θ') / 2 * dt)) = E at *
    generalize Real.sinh (θ * dt) = S at *
    generalize Real.sinh (θ' * dt) = S' at *
    generalize Real.sinh ((θ + θ') / 2 * dt) = M at *
    generalize Real.sinh ((θ - θ') / 2 * dt) = D at *
    rw [div_eq_iff (by positivity)]
    field_simp
    linear_combination (4 * S * S') * e4 + (4 * E ^ 2) * e5

theorem ouExcess_self {r dt : ℝ} (hr : 0 < r) (hdt : 0 < dt) : ouExcess r r dt = 1 := by
  obtain ⟨h1, h2⟩ := ouExcess_sq hr hr hdt
  have : ouExcess r r dt ^ 2 = 1 := by
    rw [h2]
    simp
    field_simp
    norm_num
  nlinarith

/-- Variates with different rates: the excess is more than one, and grows when the step is doubled. -/
theorem ouExcess_gt {r r' dt : ℝ} (hr : 0 < r) (hr' : 0 < r') (hne : r ≠ r') (hdt : 0 < dt) :
    1 < ouExcess r r' dt ∧ ouExcess r r' dt < ouExcess r r' (2 * dt) := by
  obtain ⟨h1, h2⟩ := ouExcess_sq hr hr' hdt
  obtain ⟨k1, k2⟩ := ouExcess_sq hr hr' (dt := 2 * dt) (by positivity)
  have hd : (r - r') / 2 * dt ≠ 0 := mul_ne_zero (div_ne_zero (sub_ne_zero.mpr hne) two_ne_zero) hdt.ne'
  have hlt : |(r - r') / 2 * dt| < (r + r') / 2 * dt := by
    rw [abs_mul, abs_of_pos hdt, mul_lt_mul_iff_left₀ hdt, abs_lt]
    constructor <;> linarith
  have hm : 0 < Real.sinh ((r + r') / 2 * dt) := Real.sinh_pos_iff.mpr (by positivity)
  have hs := sinh_sq_ratio hd hlt
  have hr4 : 0 < 4 * r * r' := by positivity
  constructor
  · have : 1 < ouExcess r r' dt ^ 2 := by
      rw [h2, ← mul_div_assoc, lt_div_iff₀ hr4, one_mul, one_sub_div (by positivity), div_mul_eq_mul_div, lt_div_iff₀ (by positivity)]
      have hdt2 : 0 < dt ^ 2 := by positivity
      have : 0 < (Real.sinh ((r + r') / 2 * dt) ^ 2 * ((r - r') / 2 * dt) ^ 2 -
        Real.sinh ((r - r') / 2 * dt) ^ 2 * ((r + r') / 2 * dt) ^ 2) := by linarith
      have e : Real.sinh ((r + r') / 2 * dt) ^ 2 * ((r - r') / 2 * dt) ^ 2 -
          Real.sinh ((r - r') / 2 * dt) ^ 2 * ((r + r') / 2 * dt) ^ 2 =
          dt ^ 2 / 4 * (Real.sinh ((r + r') / 2 * dt) ^ 2 * (r - r') ^ 2 - Real.sinh ((r - r') / 2 * dt) ^ 2 * (r + r') ^ 2) := by ring
      rw [e] at this
      have := pos_of_mul_pos_right this (by positivity)
      nlinarith
    nlinarith
  · refine lt_of_pow_lt_pow_left₀ 2 k1.le ?_
    rw [h2, k2]
    have e1 : Real.sinh ((r - r') / 2 * (2 * dt)) = 2 * Real.sinh ((r - r') / 2 * dt) * Real.cosh ((r - r') / 2 * dt) := by
      rw [← Real.sinh_two_mul]; congr 1; ring
    have e2 : Real.sinh ((r + r') / 2 * (2 * dt)) = 2 * Real.sinh ((r + r') / 2 * dt) * Real.cosh ((r + r') / 2 * dt) := by
      rw [← Real.sinh_two_mul]; congr 1; ring
    rw [e1, e2]
    have hc : Real.cosh ((r - r') / 2 * dt) < Real.cosh ((r + r') / 2 * dt) := by
      rw [Real.cosh_lt_cosh]
      exact hlt.trans_le (le_abs_self _)
    have hcp := Real.cosh_pos ((r - r') / 2 * dt)
    have hcp' := Real.cosh_pos ((r + r') / 2 * dt)
    have hsd : 0 < Real.sinh ((r - r') / 2 * dt) ^ 2 := by
      have : Real.sinh ((r - r') / 2 * dt) ≠ 0 := fun h => hd (Real.sinh_eq_zero.mp h)
      positivity
    have hc2 : Real.cosh ((r - r') / 2 * dt) ^ 2 < Real.cosh ((r + r') / 2 * dt) ^ 2 := by nlinarith
    refine mul_lt_mul_of_pos_right (sub_lt_sub_left ?_ _) (by positivity)
    rw [div_lt_div_iff₀ (by positivity) (by positivity)]
    have := mul_lt_mul_of_pos_left hc2 (mul_pos hsd (pow_pos hm 2))
    nlinarith

theorem exp_pow (r dt : ℝ) (k : Nat) : Real.exp (-r * dt) ^ k = Real.exp (-(r * (k * dt))) := by
  rw [← Real.exp_nat_mul]
  congr 1
  ring

theorem ou_cov_eq {ρ σ σ' r r' dt : ℝ} (hr : 0 < r) (hr' : 0 < r') (hdt : 0 < dt) (t t' : Nat) :
    ρ * ∑ u ∈ Finset.range (min t t'), Real.exp (-r * dt) ^ (t - 1 - u) * ouScale σ r dt *
      (Real.exp (-r' * dt) ^ (t' - 1 - u) * ouScale σ' r' dt) =
    ouExcess r r' dt * ouCov ρ |σ| |σ'| r r' (t * dt) (t' * dt) := by
  have hs := mul_pos (add_pos hr hr') hdt
  have hlt : Real.exp (-((r + r') * dt)) < 1 := by
    rw [Real.exp_lt_one_iff]; linarith
  have e : Real.exp (-r * dt) * Real.exp (-r' * dt) = Real.exp (-((r + r') * dt)) := by
    rw [← Real.exp_add]; congr 1; ring
  have hne : Real.exp (-r * dt) * Real.exp (-r' * dt) ≠ 1 := by rw [e]; exact hlt.ne
  have h1 : ∑ u ∈ Finset.range (min t t'), Real.exp (-r * dt) ^ (t - 1 - u) * ouScale σ r dt *
      (Real.exp (-r' * dt) ^ (t' - 1 - u) * ouScale σ' r' dt) = ouScale σ r dt * ouScale σ' r' dt *
      ∑ u ∈ Finset.range (min t t'), Real.exp (-r * dt) ^ (t - 1 - u) * Real.exp (-r' * dt) ^ (t' - 1 - u) := by
    rw [Finset.mul_sum]
    exact Finset.sum_congr rfl fun u _ => by ring
  have hmin : min (t * dt) (t' * dt) = (min t t' : ℕ) * dt := by
    rcases le_total t t' with hl | hl
    · rw [min_eq_left hl, min_eq_left (by gcongr)]
    · rw [min_eq_right hl, min_eq_right (by gcongr)]
  have c1 : ((t - min t t' : ℕ) : ℝ) = t - (min t t' : ℕ) := Nat.cast_sub (min_le_left _ _)
  have c2 : ((t' - min t t' : ℕ) : ℝ) = t' - (min t t' : ℕ) := Nat.cast_sub (min_le_right _ _)
  rw [h1, ou_sum hne, e, ouScale_vol σ, ouScale_vol σ', exp_pow, exp_pow, exp_pow, exp_pow, ← Real.exp_add, ← Real.exp_add, c1, c2]
  unfold ouExcess ouCov
  rw [hmin]
  have a1 : -(r * ((t - (min t t' : ℕ)) * dt)) + -(r' * ((t' - (min t t' : ℕ)) * dt)) =
    -(r * (t * dt - (min t t' : ℕ) * dt) + r' * (t' * dt - (min t t' : ℕ) * dt)) := by ring
  have a2 : -(r * (t * dt)) + -(r' * (t' * dt)) = -(r * (t * dt) + r' * (t' * dt)) := by ring
  rw [a1, a2]
  have hd : 1 - Real.exp (-((r + r') * dt)) ≠ 0 := (sub_pos.mpr hlt).ne'
  have hrr : r + r' ≠ 0 := (add_pos hr hr').ne'
  field_simp

/-- C79. The distribution of the sampled paths of `OrnsteinUhlenbeck` for positive rates: jointly Gaussian, means
`mean + (x0 - mean) exp(-mrr t dt)`, covariance zero between paths, and within a path that of correlated Ornstein-Uhlenbeck
processes times `ouExcess`. -/
theorem ou_law (hz : Draws P z) (hμ : po.mean = .row μ) (hθ : po.mrr = .row θ) (hpos : ∀ r ∈ θ, 0 < r) (hdt : 0 < dt)
    (h : ∀ ω, ouSample po x0 dt s n (z ω) = .ok (a ω)) :
    IsGaussianProcess (value (n := n) (s := s) μ.length a) P ∧
    (∀ τ : Idx n μ.length s, ∫ ω, value μ.length a τ ω ∂P =
      bentry μ τ.2.1 + (start x0 μ.length τ.1 τ.2.1 - bentry μ τ.2.1) * Real.exp (-(bentry θ τ.2.1) * (τ.2.2 * dt))) ∧
    ∀ τ τ' : Idx n μ.length s, cov[value μ.length a τ, value μ.length a τ'; P] = if τ.1 = τ'.1 then
      ouExcess (bentry θ τ.2.1) (bentry θ τ'.2.1) dt * ouCov (corOf po.L μ.length τ.2.1 τ'.2.1) |bentry po.vol τ.2.1|
        |bentry po.vol τ'.2.1| (bentry θ τ.2.1) (bentry θ τ'.2.1) (τ.2.2 * dt) (τ'.2.2 * dt) else 0 := by
  obtain ⟨h1, h2, h3⟩ := driven hz po.L (T := Idx n μ.length s) (fun τ => τ.1) (fun τ => τ.2.1) (fun τ => τ.2.2)
    (fun τ => bentry μ τ.2.1 + (start x0 μ.length τ.1 τ.2.1 - bentry μ τ.2.1) * Real.exp (-(bentry θ τ.2.1) * (τ.2.2 * dt)))
    (fun τ u => Real.exp (-(bentry θ τ.2.1) * dt) ^ ((τ.2.2 : ℕ) - 1 - u) * ouScale (bentry po.vol τ.2.1) (bentry θ τ.2.1) dt)
    (Y := value (n := n) (s := s) μ.length a) fun τ ω => ou_closed hμ hθ (h ω) τ.1.2 τ.2.1.2 (by have := τ.2.2.2; omega)
  refine ⟨h1, h2, fun τ τ' => ?_⟩
  have hP : IsProbabilityMeasure P := StdNormal.prob hz
  obtain ⟨ω⟩ : Nonempty Ω := nonempty_of_isProbabilityMeasure P
  obtain ⟨-, -, hl, -⟩ := ou_inv hμ hθ (h ω)
  have hb : ∀ j : Fin μ.length, 0 < bentry θ j := fun j => bentry_pos (v := μ.length) (by tauto) j.2 hpos
  rw [h3]
  split_ifs with hq
  · exact ou_cov_eq (hb _) (hb _) hdt _ _
  · rfl

theorem ou_rates_pos (hz : Draws P z) (hμ : po.mean = .row μ) (hθ : po.mrr = .row θ) (hpos : ∀ r ∈ θ, 0 < r)
    (h : ∀ ω, ouSample po x0 dt s n (z ω) = .ok (a ω)) {j : Nat} (hj : j < μ.length) : 0 < bentry θ j := by
  have hP : IsProbabilityMeasure P := StdNormal.prob hz
  obtain ⟨ω⟩ : Nonempty Ω := nonempty_of_isProbabilityMeasure P
  obtain ⟨-, -, hl, -⟩ := ou_inv hμ hθ (h ω)
  exact bentry_pos (v := μ.length) (by tauto) hj hpos

/-- C79. With one common rate the sample has exactly the distribution of (correlated) Ornstein-Uhlenbeck processes at the times
`0, dt, 2 dt, …`. -/
theorem ou_exact (hz : Draws P z) (hμ : po.mean = .row μ) (hθ : po.mrr = .row θ) (hpos : ∀ r ∈ θ, 0 < r) (hdt : 0 < dt)
    (h : ∀ ω, ouSample po x0 dt s n (z ω) = .ok (a ω)) (heq : ∀ i j : Fin μ.length, bentry θ i = bentry θ j) :
    OUGrid P (value (n := n) (s := s) μ.length a) dt (fun q j => start x0 μ.length q j) (fun j => bentry μ j) (fun j => bentry θ j)
      (fun j => |bentry po.vol j|) fun i j => corOf po.L μ.length i j := by
  obtain ⟨h1, h2, h3⟩ := ou_law hz hμ hθ hpos hdt h
  refine ⟨h1, h2, fun τ τ' => ?_⟩
  have := heq τ'.2.1 τ.2.1
  rw [h3, this, ouExcess_self (ou_rates_pos hz hμ hθ hpos h τ.2.1.2) hdt, one_mul]

theorem ou_var {c σ r T : ℝ} : ouCov c |σ| |σ| r r T T = c * (σ ^ 2 / (2 * r) * (1 - Real.exp (-2 * r * T))) := by
  unfold ouCov
  rw [min_self, sub_self, mul_zero, add_zero, neg_zero, Real.exp_zero, mul_assoc c, abs_mul_abs_self,
    show -(r * T + r * T) = -2 * r * T by ring, ← two_mul]
  ring

/-- C79. Every value is normal with the mean and variance of the Ornstein-Uhlenbeck process from `x0`, for any rates: mean
`mean + (x0 - mean) exp(-mrr T)`, variance `vol²/(2 mrr) (1 - exp(-2 mrr T))` with `T = t dt`. -/
theorem ou_marginal (hz : Draws P z) (hμ : po.mean = .row μ) (hθ : po.mrr = .row θ) (hpos : ∀ r ∈ θ, 0 < r) (hdt : 0 < dt)
    (h : ∀ ω, ouSample po x0 dt s n (z ω) = .ok (a ω)) {q j t : Nat} (hq : q < n) (hj : j < μ.length) (ht : t ≤ s) :
    HasLaw (fun ω => path (a ω) μ.length q j t)
      (gaussianReal (bentry μ j + (start x0 μ.length q j - bentry μ j) * Real.exp (-(bentry θ j) * (t * dt)))
        (corOf po.L μ.length j j * (bentry po.vol j ^ 2 / (2 * bentry θ j) *
          (1 - Real.exp (-2 * bentry θ j * (t * dt))))).toNNReal) P := by
  obtain ⟨h1, h2, h3⟩ := ou_law hz hμ hθ hpos hdt h
  have hg := h1.hasGaussianLaw_eval (⟨q, hq⟩, ⟨j, hj⟩, ⟨t, by omega⟩)
  refine ⟨hg.aemeasurable, ?_⟩
  refine (hg.map_eq_gaussianReal).trans ?_
  rw [h2, ← covariance_self hg.aemeasurable, h3, if_pos rfl, ouExcess_self (ou_rates_pos hz hμ hθ hpos h hj) hdt, one_mul, ou_var]

/-- C79. The paths are independent of each other. -/
theorem ou_paths_independent (hz : Draws P z) (hμ : po.mean = .row μ) (hθ : po.mrr = .row θ) (hpos : ∀ r ∈ θ, 0 < r)
    (hdt : 0 < dt) (h : ∀ ω, ouSample po x0 dt s n (z ω) = .ok (a ω)) :
    iIndepFun (fun (q : Fin n) ω (τ : Fin μ.length × Fin (s + 1)) => path (a ω) μ.length q τ.1 τ.2) P := by
  obtain ⟨h1, -, h3⟩ := ou_law hz hμ hθ hpos hdt h
  refine IsGaussianProcess.iIndepFun_of_covariance_eq_zero (T := Fin n) (S := fun _ => Fin μ.length × Fin (s + 1))
    (X := fun q τ => value (n := n) μ.length a (q, τ)) ?_ (fun q τ => (h1.aemeasurable _)) fun q q' hq τ τ' => ?_
  · exact h1.comp_right fun y : (_ : Fin n) × (Fin μ.length × Fin (s + 1)) => ((y.1, y.2) : Idx n μ.length s)
  · exact (h3 _ _).trans (if_neg hq)

/-- C79. The law does not depend on the step size when the variates have one common rate. -/
theorem ou_refine {Ω' : Type*} [MeasurableSpace Ω'] {Q : Measure Ω'} {z' : Ω' → Nat → ℝ} {a' : Ω' → Arr} {k : Nat} (hk : 0 < k)
    (hz : Draws P z) (hz' : Draws Q z') (hμ : po.mean = .row μ) (hθ : po.mrr = .row θ) (hpos : ∀ r ∈ θ, 0 < r) (hdt : 0 < dt)
    (heq : ∀ i j : Fin μ.length, bentry θ i = bentry θ j)
    (h : ∀ ω, ouSample po x0 (k * dt) s n (z ω) = .ok (a ω)) (h' : ∀ ω, ouSample po x0 dt (s * k : ℕ) n (z' ω) = .ok (a' ω)) :
    SameLaw (fun (τ : Idx n μ.length s) ω => path (a ω) μ.length τ.1 τ.2.1 τ.2.2) P
      (fun (τ : Idx n μ.length s) ω => path (a' ω) μ.length τ.1 τ.2.1 (τ.2.2 * k)) Q := by
  have h1 := ou_exact hz hμ hθ hpos (by positivity) h heq
  have h2 := ou_exact hz' hμ hθ hpos hdt h' heq
  let e : Idx n μ.length s → Idx n μ.length (s * k) := fun τ => (τ.1, τ.2.1, ⟨τ.2.2 * k, by
    have := Nat.mul_le_mul_right k (Nat.le_of_lt_succ τ.2.2.2); omega⟩)
  refine sameLaw_of_moments h1.gaussian (h2.gaussian.comp_right e) (fun τ => ?_) fun τ τ' => ?_
  · refine (h1.mean τ).trans (Eq.trans ?_ (h2.mean (e τ)).symm)
    simp only [e]
    push_cast
    congr 4
    ring
  · refine (h1.cov τ τ').trans (Eq.trans ?_ (h2.cov (e τ) (e τ')).symm)
    simp only [e]
    push_cast
    rw [mul_assoc, mul_assoc]

theorem ouCov_pos {σ σ' r r' T T' : ℝ} (hσ : 0 < σ) (hσ' : 0 < σ') (hr : 0 < r) (hr' : 0 < r') (hT : 0 < T) (hT' : 0 < T') (ρ : ℝ) :
    ∃ c, 0 < c ∧ ouCov ρ σ σ' r r' T T' = ρ * c := by
  refine ⟨σ * σ' * ((Real.exp (-(r * (T - min T T') + r' * (T' - min T T'))) - Real.exp (-(r * T + r' * T'))) / (r + r')), ?_,
    by unfold ouCov; ring⟩
  refine mul_pos (mul_pos hσ hσ') (div_pos (sub_pos.mpr (Real.exp_lt_exp.mpr ?_)) (add_pos hr hr'))
  have := lt_min hT hT'
  nlinarith [mul_pos hr this, mul_pos hr' this]

/-- C79, negative part. Correlated variates with different rates: the covariance of the sample is strictly larger in absolute value
than that of the processes it is meant to sample (the code correlates the noise of the steps, whose standard deviations differ
in how they discount within the step). -/
theorem ou_cross_too_large (hz : Draws P z) (hμ : po.mean = .row μ) (hθ : po.mrr = .row θ) (hpos : ∀ r ∈ θ, 0 < r) (hdt : 0 < dt)
    (h : ∀ ω, ouSample po x0 dt s n (z ω) = .ok (a ω)) {q i j t t' : Nat} (hq : q < n) (hi : i < μ.length) (hj : j < μ.length)
    (ht : t ≤ s) (ht' : t' ≤ s) (ht0 : 0 < t) (ht0' : 0 < t') (hne : bentry θ i ≠ bentry θ j)
    (hc : corOf po.L μ.length i j ≠ 0) (hvi : bentry po.vol i ≠ 0) (hvj : bentry po.vol j ≠ 0) :
    |ouCov (corOf po.L μ.length i j) |bentry po.vol i| |bentry po.vol j| (bentry θ i) (bentry θ j) (t * dt) (t' * dt)| <
      |cov[fun ω => path (a ω) μ.length q i t, fun ω => path (a ω) μ.length q j t'; P]| := by
  obtain ⟨-, -, h3⟩ := ou_law hz hμ hθ hpos hdt h
  have ri := ou_rates_pos hz hμ hθ hpos h hi
  have rj := ou_rates_pos hz hμ hθ hpos h hj
  have e := h3 (⟨q, hq⟩, ⟨i, hi⟩, ⟨t, by omega⟩) (⟨q, hq⟩, ⟨j, hj⟩, ⟨t', by omega⟩)
  rw [if_pos rfl] at e
  have hlt := (ouExcess_gt ri rj hne hdt).1
  obtain ⟨c, hc0, hcv⟩ := ouCov_pos (abs_pos.mpr hvi) (abs_pos.mpr hvj) ri rj (T := t * dt) (T' := t' * dt) (by positivity)
    (by positivity) (corOf po.L μ.length i j)
  refine lt_of_lt_of_eq ?_ (congrArg abs e).symm
  simp only [hcv, abs_mul]
  rw [abs_of_pos (by linarith : 0 < ouExcess (bentry θ i) (bentry θ j) dt)]
  have : 0 < |corOf po.L μ.length i j| * |c| := by
    have := abs_pos.mpr hc
    have := abs_pos.mpr hc0.ne'
    positivity
  nlinarith

/-- C79, negative part. So the law of the sample at fixed times depends on the step size: halving the step changes it. -/
theorem ou_not_refine {Ω' : Type*} [MeasurableSpace Ω'] {Q : Measure Ω'} {z' : Ω' → Nat → ℝ} {a' : Ω' → Arr}
    (hz : Draws P z) (hz' : Draws Q z') (hμ : po.mean = .row μ) (hθ : po.mrr = .row θ) (hpos : ∀ r ∈ θ, 0 < r) (hdt : 0 < dt)
    (h : ∀ ω, ouSample po x0 (2 * dt) s n (z ω) = .ok (a ω)) (h' : ∀ ω, ouSample po x0 dt (s * 2 : ℕ) n (z' ω) = .ok (a' ω))
    (hs : 0 < s) (hn : 0 < n) {i j : Nat} (hi : i < μ.length) (hj : j < μ.length) (hne : bentry θ i ≠ bentry θ j)
    (hc : corOf po.L μ.length i j ≠ 0) (hvi : bentry po.vol i ≠ 0) (hvj : bentry po.vol j ≠ 0) :
    ¬ SameLaw (fun (τ : Idx n μ.length s) ω => path (a ω) μ.length τ.1 τ.2.1 τ.2.2) P
      (fun (τ : Idx n μ.length s) ω => path (a' ω) μ.length τ.1 τ.2.1 (τ.2.2 * 2)) Q := by
  intro hsl
  obtain ⟨g1, -, c1⟩ := ou_law hz hμ hθ hpos (by positivity) h
  obtain ⟨g2, -, c2⟩ := ou_law hz' hμ hθ hpos hdt h'
  have ri := ou_rates_pos hz hμ hθ hpos h hi
  have rj := ou_rates_pos hz hμ hθ hpos h hj
  let e : Idx n μ.length s → Idx n μ.length (s * 2) := fun τ => (τ.1, τ.2.1, ⟨τ.2.2 * 2, by
    have := Nat.mul_le_mul_right 2 (Nat.le_of_lt_succ τ.2.2.2); omega⟩)
  have hcov := hsl.cov (fun τ => g1.aemeasurable τ) (fun τ => g2.aemeasurable (e τ))
    (⟨0, hn⟩, ⟨i, hi⟩, ⟨1, by omega⟩) (⟨0, hn⟩, ⟨j, hj⟩, ⟨1, by omega⟩)
  have d1 := c1 (⟨0, hn⟩, ⟨i, hi⟩, ⟨1, by omega⟩) (⟨0, hn⟩, ⟨j, hj⟩, ⟨1, by omega⟩)
  have d2 := c2 (e (⟨0, hn⟩, ⟨i, hi⟩, ⟨1, by omega⟩)) (e (⟨0, hn⟩, ⟨j, hj⟩, ⟨1, by omega⟩))
  rw [if_pos rfl] at d1 d2
  have hh := d1.symm.trans (hcov.trans d2)
  have hlt := (ouExcess_gt ri rj hne hdt).2
  have hT : (((1 : ℕ) : ℝ) * (2 * dt)) = ((1 * 2 : ℕ) : ℝ) * dt := by push_cast; ring
  obtain ⟨c, hc0, hcv⟩ := ouCov_pos (abs_pos.mpr hvi) (abs_pos.mpr hvj) ri rj (T := ((1 * 2 : ℕ) : ℝ) * dt)
    (T' := ((1 * 2 : ℕ) : ℝ) * dt) (by positivity) (by positivity) (corOf po.L μ.length i j)
  simp only [e] at hh
  rw [hT, hcv] at hh
  have := mul_right_cancel₀ (mul_ne_zero hc hc0.ne') hh
  exact hlt.ne' this

theorem ouCov_markov {ρ σ σ' r r' : ℝ} {S T T' : ℝ} (h1 : S ≤ T) (h2 : T ≤ T') :
    ouCov ρ σ σ' r r' S T' = ouCov ρ σ σ' r r' S T * Real.exp (-r' * (T' - T)) := by
  unfold ouCov
  rw [min_eq_left (h1.trans h2), min_eq_left h1]
  have e1 : Real.exp (-(r * (S - S) + r' * (T' - S))) = Real.exp (-(r * (S - S) + r' * (T - S))) * Real.exp (-r' * (T' - T)) := by
    rw [← Real.exp_add]; congr 1; ring
  have e2 : Real.exp (-(r * S + r' * T')) = Real.exp (-(r * S + r' * T)) * Real.exp (-r' * (T' - T)) := by
    rw [← Real.exp_add]; congr 1; ring
  rw [e1, e2]
  ring

/-- C79. Forecast: given all rows up to `t`, the expected value of a later row is `mean + (X_t - mean) exp(-mrr (t' - t) dt)`, and
the forecast error is independent of the past; for any rates. -/
theorem ou_forecast (hz : Draws P z) (hm : Measurable z) (hμ : po.mean = .row μ) (hθ : po.mrr = .row θ) (hpos : ∀ r ∈ θ, 0 < r)
    (hdt : 0 < dt) (h : ∀ ω, ouSample po x0 dt s n (z ω) = .ok (a ω)) (q : Fin n) (j : Fin μ.length) {t t' : Fin (s + 1)}
    (ht : t ≤ t') :
    IndepFun (fun ω (τ : {τ : Idx n μ.length s // τ.2.2 ≤ t}) => value μ.length a τ.1 ω)
      (fun ω => value μ.length a (q, j, t') ω -
        Real.exp (-(bentry θ j) * ((t' - t : ℕ) * dt)) * value μ.length a (q, j, t) ω) P ∧
    P[value μ.length a (q, j, t') | history (value (n := n) (s := s) μ.length a) t] =ᵐ[P]
      fun ω => bentry μ j + (value μ.length a (q, j, t) ω - bentry μ j) * Real.exp (-(bentry θ j) * ((t' - t : ℕ) * dt)) := by
  obtain ⟨h1, h2, h3⟩ := ou_law hz hμ hθ hpos hdt h
  have hP := h1.isProbabilityMeasure
  have hL : ∀ τ : Idx n μ.length s, MemLp (value μ.length a τ) 2 P := fun τ => (h1.hasGaussianLaw_eval τ).memLp_two
  have hi : ∀ τ : Idx n μ.length s, Integrable (value μ.length a τ) P := fun τ => (hL τ).integrable (by norm_num)
  have hX : ∀ τ : Idx n μ.length s, Measurable (value μ.length a τ) := fun τ =>
    measurable_of_closed hm (r := fun u => u * n + τ.1) (j := τ.2.1) fun ω =>
      ou_closed hμ hθ (h ω) τ.1.2 τ.2.1.2 (by have := τ.2.2.2; omega)
  have htt : ((t' - t : ℕ) : ℝ) = t' - t := Nat.cast_sub (Fin.le_def.mp ht)
  generalize hF : Real.exp (-(bentry θ j) * ((t' - t : ℕ) * dt)) = F
  have hind : IndepFun (fun ω (τ : {τ : Idx n μ.length s // τ.2.2 ≤ t}) => value μ.length a τ.1 ω)
      (fun ω (_ : Unit) => value μ.length a (q, j, t') ω - F * value μ.length a (q, j, t) ω) P := by
    refine IsGaussianProcess.indepFun_of_covariance_eq_zero
      (X := fun (τ : {τ : Idx n μ.length s // τ.2.2 ≤ t}) ω => value μ.length a τ.1 ω)
      (Y := fun (_ : Unit) ω => value μ.length a (q, j, t') ω - F * value μ.length a (q, j, t) ω) ?_ (fun τ => h1.aemeasurable _)
      (fun _ => ((hX _).sub ((hX _).const_mul _)).aemeasurable) fun τ _ => ?_
    · classical
      refine h1.of_isGaussianProcess fun y => ?_
      rcases y with τ | τ
      · exact ⟨{τ.1}, ContinuousLinearMap.proj ⟨τ.1, by simp⟩, fun ω => rfl⟩
      · exact ⟨{(q, j, t'), (q, j, t)}, ContinuousLinearMap.proj ⟨(q, j, t'), by simp⟩ -
          F • ContinuousLinearMap.proj ⟨(q, j, t), by simp⟩, fun ω => rfl⟩
    · rw [covariance_fun_sub_right (hL _) (hL _) ((hL _).const_mul F), covariance_const_mul_right, h3, h3]
      simp only
      split_ifs with hq
      · have s1 : ((τ.1.2.2 : ℕ) : ℝ) * dt ≤ t * dt := by
          gcongr
          exact τ.2
        have s2 : ((t : ℕ) : ℝ) * dt ≤ t' * dt := by
          gcongr
          exact ht
        rw [ouCov_markov s1 s2, ← hF, htt, sub_mul]
        ring
      · simp
  have hψ : Measurable fun f : Unit → ℝ => f () := measurable_pi_apply _
  have hind2 := hind.comp measurable_id hψ
  refine ⟨hind2, ?_⟩
  have hf := condExp_indep_eq (f := fun ω => value μ.length a (q, j, t') ω - F * value μ.length a (q, j, t) ω)
    (m₁ := MeasurableSpace.comap (fun ω => value μ.length a (q, j, t') ω - F * value μ.length a (q, j, t) ω) inferInstance)
    ((hX _).sub ((hX _).const_mul _)).comap_le (history_le hX t) (comap_measurable _).stronglyMeasurable
    ((IndepFun_iff_Indep _ _ _).mp hind2).symm
  have hmt := ((history_adapted (value (n := n) (s := s) μ.length a) (τ := (q, j, t)) le_rfl).const_mul F).stronglyMeasurable
  have hsplit : value μ.length a (q, j, t') = (fun ω => F * value μ.length a (q, j, t) ω) +
      fun ω => value μ.length a (q, j, t') ω - F * value μ.length a (q, j, t) ω := by
    funext ω; simp
  rw [hsplit]
  refine (condExp_add ((hi _).const_mul _) ((hi _).sub ((hi _).const_mul _)) _).trans ?_
  rw [condExp_of_stronglyMeasurable (history_le hX t) hmt ((hi _).const_mul _)]
  have hmean : ∫ ω, (value μ.length a (q, j, t') ω - F * value μ.length a (q, j, t) ω) ∂P = bentry μ j - F * bentry μ j := by
    rw [integral_sub (hi _) ((hi _).const_mul _), integral_const_mul, h2, h2]
    have : Real.exp (-bentry θ j * (t' * dt)) = F * Real.exp (-bentry θ j * (t * dt)) := by
      rw [← hF, ← Real.exp_add, htt]
      congr 1
      ring
    simp only
    rw [this]
    ring
  filter_upwards [hf] with ω hω
  rw [Pi.add_apply]
  refine (congrArg (F * value μ.length a (q, j, t) ω + ·) (hω.trans hmean)).trans ?_
  ring

/-- C79. When sampling an Ornstein-Uhlenbeck object succeeds: at least one variate, one rate or (for a single path, or no steps) one
per variate, one volatility or one per variate, a factor of matching size, a non-empty start row whose length divides the number of
columns. -/
theorem ou_succeeds_iff {z : Nat → ℝ} (hμ : po.mean = .row μ) (hθ : po.mrr = .row θ) :
    (∃ a, ouSample po x0 dt s n z = .ok a) ↔
      0 < μ.length ∧ (θ.length = 1 ∨ θ.length = μ.length ∧ (n = 1 ∨ s = 0)) ∧ (po.vol.length = 1 ∨ po.vol.length = μ.length) ∧
      (∀ l ∈ po.L, l.rows = μ.length ∧ l.cols = μ.length) ∧ 0 < x0.length ∧ x0.length ∣ μ.length * n := by
  unfold ouSample
  rw [hμ, hθ]
  simp only [OUAttr.toRow, OUAttr.shape1]
  constructor
  · rintro ⟨a, h⟩
    have h0 := h
    obtain ⟨mt, hmt, h⟩ := bind_inv h
    obtain ⟨sc, hsc, h⟩ := bind_inv h
    obtain ⟨v, hv, h⟩ := bind_inv h
    cases hv
    obtain ⟨b, hb, h⟩ := bind_inv h
    obtain ⟨-, -, ⟨-, -, -, w1, w2⟩, ⟨i1, i2⟩, -, -⟩ := increments_ok hb
    simp only [Int.toNat_natCast] at *
    have hout : ouSample po x0 dt s n z = .ok a := by
      unfold ouSample
      rw [hμ, hθ]
      exact h0
    obtain ⟨-, g1, g2, g3, -⟩ := ou_inv hμ hθ hout
    refine ⟨g1, ?_, g3, w1, w2⟩
    rcases g2 with g2 | ⟨g2, g4⟩
    · exact Or.inl g2
    · by_cases hs : s = 0
      · exact Or.inr ⟨g2, Or.inr hs⟩
      · rw [if_neg (by omega)] at h
        obtain ⟨f, hf, -⟩ := bind_inv h
        obtain ⟨hl, -⟩ := bcastTo_ok.mp hf
        rw [List.length_map, i2] at hl
        rcases hl with hl | hl
        · right
          refine ⟨g2, Or.inl ?_⟩
          have : μ.length * n = μ.length * 1 := by omega
          exact Nat.eq_of_mul_eq_mul_left g1 this
        · exact Or.inl hl
  · rintro ⟨h1, h2, h3, h4, h5⟩
    obtain ⟨mt, hmt⟩ := bzip_eq (fun m f => m * (1 - f)) (l := μ) (m := θ.map fun r => Real.exp (-r * dt))
      (by rw [List.length_map]; omega)
    obtain ⟨sc, hsc⟩ := bzip_eq (fun v r => Real.sqrt (v ^ 2 / (2 * r) * (1 - Real.exp (-2 * r * dt)))) (l := po.vol) (m := θ)
      (by omega)
    obtain ⟨-, m2, -⟩ := bzip_ok hmt
    obtain ⟨-, s2, -⟩ := bzip_ok hsc
    rw [List.length_map] at m2
    obtain ⟨b, hb⟩ := increments_eq s z (v := μ.length) (loc := mt) (scale := sc) (L := po.L) (x0 := x0) (p := n)
      ⟨h1, by split_ifs at m2 <;> omega, by split_ifs at s2 <;> omega, h4, h5⟩
    obtain ⟨-, -, -, ⟨i1, i2⟩, -⟩ := increments_ok hb
    simp only [Int.toNat_natCast] at i1 i2
    rw [hmt]
    simp only [bind, Except.bind, hsc, hb]
    split_ifs with hr
    · exact ⟨_, rfl⟩
    · have : bcastTo (θ.map fun r => Real.exp (-r * dt)) b.cols = .ok (bentry (θ.map fun r => Real.exp (-r * dt))) := by
        refine bcastTo_ok.mpr ⟨?_, rfl⟩
        rw [List.length_map, i2]
        rcases h2 with h2 | ⟨h2, rfl | rfl⟩
        · exact Or.inr h2
        · left; omega
        · omega
      rw [this]
      exact ⟨_, rfl⟩

/-- The hypotheses can be met: many paths of two correlated variates with one rate, and one path of two correlated variates with
different rates. -/
example : ∃ (Ω : Type) (_ : MeasurableSpace Ω) (P : Measure Ω) (z : Ω → Nat → ℝ) (a b c : Ω → Arr), Draws P z ∧ Measurable z ∧
    (∀ ω, ouSample ⟨.row [1, 2], .row [3], [1 / 2], some (Arr.ofList 2 2 [1, 0, 3 / 5, 4 / 5])⟩ [0, 1] (1 / 4) 5 3 (z ω) = .ok (a ω)) ∧
    (∀ ω, ouSample ⟨.row [1, 2], .row [3, 4], [1 / 2], some (Arr.ofList 2 2 [1, 0, 3 / 5, 4 / 5])⟩ [0, 1] (2 * (1 / 4)) 5 1 (z ω) =
      .ok (b ω)) ∧
    (∀ ω, ouSample ⟨.row [1, 2], .row [3, 4], [1 / 2], some (Arr.ofList 2 2 [1, 0, 3 / 5, 4 / 5])⟩ [0, 1] (1 / 4) 10 1 (z ω) =
      .ok (c ω)) ∧
    bentry [3, 4] 0 ≠ bentry [3, 4] 1 ∧ corOf (some (Arr.ofList 2 2 [1, 0, 3 / 5, 4 / 5])) 2 0 1 ≠ 0 := by
  obtain ⟨Ω, m, P, z, hz, hm⟩ := draws_exist
  have hL : ∀ l ∈ (some (Arr.ofList 2 2 [1, 0, 3 / 5, 4 / 5]) : Option Arr), l.rows = 2 ∧ l.cols = 2 := by
    intro l hl
    cases hl
    exact ⟨rfl, rfl⟩
  choose a ha using fun ω => (ou_succeeds_iff (po := ⟨.row [1, 2], .row [3], [1 / 2], some (Arr.ofList 2 2 [1, 0, 3 / 5, 4 / 5])⟩)
    (s := 5) (n := 3) (x0 := [0, 1]) (dt := 1 / 4) (z := z ω) rfl rfl).mpr ⟨by simp, by simp, by simp, hL, by simp, by simp⟩
  choose b hb using fun ω => (ou_succeeds_iff (po := ⟨.row [1, 2], .row [3, 4], [1 / 2], some (Arr.ofList 2 2 [1, 0, 3 / 5, 4 / 5])⟩)
    (s := 5) (n := 1) (x0 := [0, 1]) (dt := 2 * (1 / 4)) (z := z ω) rfl rfl).mpr ⟨by simp, by simp, by simp, hL, by simp, by simp⟩
  choose c hc using fun ω => (ou_succeeds_iff (po := ⟨.row [1, 2], .row [3, 4], [1 / 2], some (Arr.ofList 2 2 [1, 0, 3 / 5, 4 / 5])⟩)
    (s := 10) (n := 1) (x0 := [0, 1]) (dt := 1 / 4) (z := z ω) rfl rfl).mpr ⟨by simp, by simp, by simp, hL, by simp, by simp⟩
  refine ⟨Ω, m, P, z, a, b, c, hz, hm, ha, hb, hc, by norm_num [bentry], ?_⟩
  norm_num [corOf, Arr.ofList, Arr.get, Finset.sum_range_succ]

end Verif.Sim
