import Verif.Props.LikRound
import Verif.Props.OUFitRound
import Verif.Props.SimLikMore
import Verif.Lemmas.Chol

/-!
# C135: the likelihood of an Ornstein-Uhlenbeck path in floats

The standard deviation contains `1 - exp(-2 mrr dt)`, which loses digits for small `mrr dt`. The number of roundings therefore contains
two counts: `K`, at least `6 mrr dt`, for the exponents, and `J`, at least `8 (K + 1) / (exp(2 mrr dt) - 1)`, for this difference.
-/

namespace Verif.Sim

open Verif Round Finset Cov

variable {fl : ℝ → ℝ} {dt r : ℝ} {ord : List ℝ → SumTree} {n K J : Nat}

theorem exp_pow_near {K : Nat} {a l : ℝ} (h : |a - l| ≤ K * u64) : Upto ((1 - u64) ^ K) (Real.exp a) (Real.exp l) := by
  refine (exp_near h).mono ?_ (pow_pos u1 K)
  rw [show -((K : ℝ) * u64) = K * -u64 by ring, Real.exp_nat_mul]
  exact pow_le_pow_left₀ u1.le (by linarith [Real.add_one_le_exp (-u64)]) K

theorem factor_upto (R : Rounding fl) (hr : 0 < r) (hdt : 0 < dt) (hK : 6 * (r * dt) ≤ K) :
    Upto ((1 - u64) ^ (K + 1)) (ouFactorR fl r dt) (Real.exp (-r * dt)) := by
  have ha : 0 < r * dt := mul_pos hr hdt
  have h1 : |fl (-r * dt) - -r * dt| ≤ K * u64 := by
    have := R.rel (-r * dt)
    rw [show |(-r * dt)| = r * dt by rw [neg_mul, abs_neg, abs_of_pos ha]] at this
    nlinarith [u64_pos]
  exact ((exp_pow_near h1).rd R (pow_pos u1 K)).mono (le_of_eq (by ring)) (pow_pos u1 _)

theorem factor2_upto (R : Rounding fl) (hr : 0 < r) (hdt : 0 < dt) (hK : 6 * (r * dt) ≤ K) :
    Upto ((1 - u64) ^ (K + 1)) (fl (Real.exp (fl (fl (-2 * r) * dt)))) (Real.exp (-2 * r * dt)) := by
  have ha : 0 < r * dt := mul_pos hr hdt
  have h0 := (((Upto.refl (-2 * r)).rd R one_pos).mul (Upto.refl dt) (Upto.pos_rd one_pos) one_pos).rd R (mul_pos (Upto.pos_rd one_pos) one_pos)
  have h2 := (h0.mono (q' := (1 - u64) ^ 2) (le_of_eq (by ring)) (pow_pos u1 2)).pow_le (by norm_num)
  have h1 : |fl (fl (-2 * r) * dt) - -2 * r * dt| ≤ K * u64 := by
    refine h2.trans ?_
    rw [show |(-2 * r * dt)| = 2 * (r * dt) by rw [show -2 * r * dt = -(2 * (r * dt)) by ring, abs_neg, abs_of_pos (by positivity)]]
    push_cast
    nlinarith [u64_pos]
  exact ((exp_pow_near h1).rd R (pow_pos u1 K)).mono (le_of_eq (by ring)) (pow_pos u1 _)

/-- The difference `1 - exp(-2 mrr dt)`. -/
theorem gap_upto (R : Rounding fl) (hr : 0 < r) (hdt : 0 < dt) (hK : 6 * (r * dt) ≤ K) (hKu : ((2 * K + 2 : ℕ) : ℝ) * u64 ≤ 1 / 64)
    (hJ : 8 * (K + 1) ≤ J * (Real.exp (2 * (r * dt)) - 1)) (hJu : J * u64 ≤ 1) :
    Upto ((1 - u64) ^ J) (1 - fl (Real.exp (fl (fl (-2 * r) * dt)))) (1 - Real.exp (-2 * r * dt)) := by
  have hu := u64_pos
  have ha : 0 < r * dt := mul_pos hr hdt
  have hG0 := Real.exp_pos (-2 * r * dt)
  have hG1 : Real.exp (-2 * r * dt) < 1 := by rw [Real.exp_lt_one_iff]; nlinarith
  have hc := ((factor2_upto R hr hdt hK).close).2
  rw [show 2 * (K + 1) = 2 * K + 2 by ring, abs_of_pos hG0] at hc
  have hg := Round.grow_le hKu
  unfold grow at hg
  have hJ' : 8 * (K + 1) * Real.exp (-2 * r * dt) ≤ J * (1 - Real.exp (-2 * r * dt)) := by
    have := mul_le_mul_of_nonneg_right hJ hG0.le
    have e : Real.exp (2 * (r * dt)) * Real.exp (-2 * r * dt) = 1 := by
      rw [← Real.exp_add, show 2 * (r * dt) + -2 * r * dt = 0 by ring, Real.exp_zero]
    calc _ ≤ _ := this
      _ = _ := by rw [mul_assoc, sub_mul, e, one_mul]
  set G := Real.exp (-2 * r * dt) with hGd
  have hd : |1 - fl (Real.exp (fl (fl (-2 * r) * dt))) - (1 - G)| ≤ J * u64 / 2 * |1 - G| := by
    rw [show 1 - fl (Real.exp (fl (fl (-2 * r) * dt))) - (1 - G) = -(fl (Real.exp (fl (fl (-2 * r) * dt))) - G) by ring, abs_neg,
      abs_of_pos (by linarith : 0 < 1 - G)]
    refine hc.trans ?_
    have h1 : ((1 + u64) ^ (2 * K + 2) - 1) * G ≤ 2 * ((2 * K + 2) * u64) * G := by
      refine mul_le_mul_of_nonneg_right (hg.trans ?_) hG0.le
      push_cast
      have : (0 : ℝ) ≤ (2 * K + 2) * u64 := by positivity
      linarith
    nlinarith
  refine (Upto.of_abs (by linarith) hd (by linarith)).mono ?_ (pow_pos u1 J)
  have h2 : (1 - u64) ^ J * (1 + J * u64) ≤ 1 := by
    have b := one_add_mul_le_pow (show (-2 : ℝ) ≤ u64 by linarith) J
    refine (mul_le_mul_of_nonneg_left b (pow_nonneg u1.le J)).trans ?_
    rw [← mul_pow]
    exact pow_le_one₀ (mul_nonneg u1.le (by linarith)) (by nlinarith)
  have h3 : (0 : ℝ) ≤ J * u64 := by positivity
  have h4 : 1 ≤ (1 - J * u64 / 2) * (1 + J * u64) := by nlinarith
  exact le_of_mul_le_mul_right (h2.trans h4) (by linarith)

/-- The conditional standard deviation. -/
noncomputable def ouSd (r vol dt : ℝ) : ℝ := Real.sqrt (vol ^ 2 / (2 * r) * (1 - Real.exp (-2 * r * dt)))

theorem ouScale_upto (R : Rounding fl) {vol : ℝ} (hr : 0 < r) (hdt : 0 < dt) (hK : 6 * (r * dt) ≤ K)
    (hKu : ((2 * K + 2 : ℕ) : ℝ) * u64 ≤ 1 / 64) (hJ : 8 * (K + 1) ≤ J * (Real.exp (2 * (r * dt)) - 1)) (hJu : J * u64 ≤ 1) :
    Upto ((1 - u64) ^ (J + 6)) (ouScaleR fl vol r dt) (ouSd r vol dt) := by
  have hp := fun k : Nat => pow_pos u1 k
  have h1 := (((Upto.refl (vol ^ 2)).rd R one_pos).div ((Upto.refl (2 * r)).rd R one_pos) (Upto.pos_rd one_pos) (Upto.pos_rd one_pos)).rd R
    (mul_pos (Upto.pos_rd one_pos) (Upto.pos_rd one_pos))
  have h2 := h1.mono (q' := (1 - u64) ^ 3) (le_of_eq (by ring)) (hp 3)
  have h3 := (gap_upto R hr hdt hK hKu hJ hJu).rd R (hp J)
  have h4 := (h2.mul h3 (hp 3) (Upto.pos_rd (hp J))).rd R (mul_pos (hp 3) (Upto.pos_rd (hp J)))
  have h5 := (h4.mono (q' := (1 - u64) ^ (J + 5)) (le_of_eq (by ring)) (hp _)).sqrt (hp _)
  have h6 : (1 - u64) ^ (J + 5) ≤ Real.sqrt ((1 - u64) ^ (J + 5)) :=
    Real.le_sqrt_of_sq_le (by
      have : (1 - u64) ^ (J + 5) ≤ 1 := pow_le_one₀ u1.le (by linarith [u64_pos])
      nlinarith [hp (J + 5)])
  exact ((h5.mono h6 (hp _)).rd R (hp _)).mono (le_of_eq (by ring)) (hp _)

theorem ouSd_pos {vol : ℝ} (hr : 0 < r) (hdt : 0 < dt) (hv : 0 < vol) : 0 < ouSd r vol dt :=
  ou_std_pos hv.ne' hr.ne' hdt

/-- C135. The negative log-likelihood of an Ornstein-Uhlenbeck path: the computed value against the sum of the normal log-densities of
`x[t+1]` around `mean + (x[t] - mean) exp(-mrr dt)`. -/
theorem ou_nll_round (R : Rounding fl) (ho : IsSum ord) (hn : 1 ≤ n) {mean vol : ℝ} (hr : 0 < r) (hdt : 0 < dt) (hv : 0 < vol)
    (hK : 6 * (r * dt) ≤ K) (hKu : ((2 * K + 2 : ℕ) : ℝ) * u64 ≤ 1 / 64)
    (hJ : 8 * (K + 1) ≤ J * (Real.exp (2 * (r * dt)) - 1)) (hJu : J * u64 ≤ 1) (x : Nat → ℝ) :
    |ouNllR fl ord mean r vol dt ((List.range (n + 1)).map x) -
        -∑ t ∈ range n, normLogpdf (mean + (x t - mean) * Real.exp (-r * dt)) (ouSd r vol dt) (x (t + 1))| ≤
      ((1 + u64) ^ (n + 4 * K + 4 * J + 39) - 1) *
        ∑ t ∈ range n, pdfSize (|x (t + 1)| + Real.exp (-r * dt) * |x t| + |mean| * (1 + Real.exp (-r * dt))) (ouSd r vol dt) := by
  unfold ouNllR
  have hS := ouSd_pos hr hdt hv
  have hF := (factor_upto R hr hdt hK).close
  have hF0 := Real.exp_pos (-r * dt)
  rw [abs_of_pos hF0] at hF
  dsimp only
  rw [zipWith_range (fun a b => fl (b - fl (ouFactorR fl r dt * a)))]
  have hm := ((Close.refl mean).mul (((Close.refl (1 : ℝ)).mono (m := 2 * (K + 1)) (by omega)).sub hF |>.rd R)).rd R
  rw [abs_one] at hm
  have h := (nll_close R ho hn (k := 2 * K + 4) (f := fun t => fl (x (t + 1) - fl (ouFactorR fl r dt * x t)))
    (A := fun t => x (t + 1) - Real.exp (-r * dt) * x t) (p := fun t => |x (t + 1)| + Real.exp (-r * dt) * |x t|)
    (fun t _ => ((((Close.refl (x (t + 1))).mono (m := 2 * K + 3) (by omega)).sub
      (((hF.mul (Close.refl (x t))).rd R).mono (m := 2 * K + 3) (by omega))).rd R).mono (by omega))
    (hm.mono (m := 2 * K + 4) (by omega)) hS (ouScale_upto R hr hdt hK hKu hJ hJu) (by omega)).2
  rw [show 2 * (2 * K + 4) + 4 * (J + 6) + 7 + n = n + 4 * K + 4 * J + 39 by ring] at h
  have e : nllCol (mean * (1 - Real.exp (-r * dt))) (ouSd r vol dt) ((List.range n).map fun t => x (t + 1) - Real.exp (-r * dt) * x t) =
      -∑ t ∈ range n, normLogpdf (mean + (x t - mean) * Real.exp (-r * dt)) (ouSd r vol dt) (x (t + 1)) := by
    unfold nllCol
    rw [List.map_map, sum_map_range]
    congr 1
    refine sum_congr rfl fun t _ => ?_
    simp only [Function.comp]
    rw [normLogpdf_std hS, normLogpdf_std hS]
    congr 4
    ring
  rw [← e]
  exact h

/-- C135. The same against the likelihood of the model of the code for the object `OrnsteinUhlenbeck(mean, mrr, vol)`. -/
theorem ou_nll_full_round (R : Rounding fl) (ho : IsSum ord) (hn : 1 ≤ n) {mean vol : ℝ} (hr : 0 < r) (hdt : 0 < dt) (hv : 0 < vol)
    (hK : 6 * (r * dt) ≤ K) (hKu : ((2 * K + 2 : ℕ) : ℝ) * u64 ≤ 1 / 64)
    (hJ : 8 * (K + 1) ≤ J * (Real.exp (2 * (r * dt)) - 1)) (hJu : J * u64 ≤ 1) {x : Arr} (hx : x.cols = 1) (hrows : x.rows = n + 1)
    (eigh : (d : Nat) → Mat d → List (Pair d)) {p : OUParams} (hμ : p.mean.toRow = [mean]) (hθ : p.mrr.toRow = [r]) (hσ : p.vol = [vol]) :
    ∃ L, ouNllFull eigh p none x dt = .ok (.fin L) ∧ |ouNllR fl ord mean r vol dt (x.col 0) - L| ≤
      ((1 + u64) ^ (n + 4 * K + 4 * J + 39) - 1) *
        ∑ t ∈ range n, pdfSize (|x.get (t + 1) 0| + Real.exp (-r * dt) * |x.get t 0| + |mean| * (1 + Real.exp (-r * dt))) (ouSd r vol dt) := by
  refine ⟨_, ou_nll_one hμ hθ hσ hr.ne' hv.ne' hdt hx, ?_⟩
  rw [hrows, Nat.add_sub_cancel, show x.col 0 = (List.range (n + 1)).map fun t => x.get t 0 by unfold Arr.col; rw [hrows]]
  exact ou_nll_round R ho hn hr hdt hv hK hKu hJ hJu fun t => x.get t 0

/-- C135. Without rounding it is the exact likelihood. -/
theorem ouNllR_id (ho : IsSum ord) (hn : 1 ≤ n) {mean vol : ℝ} (hr : 0 < r) (hdt : 0 < dt) (hv : 0 < vol) (x : Nat → ℝ) :
    ouNllR id ord mean r vol dt ((List.range (n + 1)).map x) =
      -∑ t ∈ range n, normLogpdf (mean + (x t - mean) * Real.exp (-r * dt)) (ouSd r vol dt) (x (t + 1)) := by
  have hS := ouSd_pos hr hdt hv
  unfold ouNllR
  dsimp only
  rw [zipWith_range (fun a b => id (b - id (ouFactorR id r dt * a)))]
  rw [show ouScaleR id vol r dt = ouSd r vol dt from rfl, nllColR_id ho hS (by simp; omega)]
  unfold nllCol
  rw [List.map_map, sum_map_range]
  congr 1
  refine sum_congr rfl fun t _ => ?_
  simp only [Function.comp]
  rw [normLogpdf_std hS, normLogpdf_std hS]
  unfold ouMeanR ouFactorR
  simp only [id]
  congr 4
  ring

theorem ou_size {mean vol : ℝ} (hr : 0 < r) (hdt : 0 < dt) (hv : 0 < vol) (x : Nat → ℝ) :
    |-∑ t ∈ range n, normLogpdf (mean + (x t - mean) * Real.exp (-r * dt)) (ouSd r vol dt) (x (t + 1))| ≤
      ∑ t ∈ range n, pdfSize (|x (t + 1)| + Real.exp (-r * dt) * |x t| + |mean| * (1 + Real.exp (-r * dt))) (ouSd r vol dt) := by
  have hS := ouSd_pos hr hdt hv
  have hF := Real.exp_pos (-r * dt)
  have h := nll_size (n := n) (M := mean * (1 - Real.exp (-r * dt))) (q := |mean| * (1 + Real.exp (-r * dt))) hS (by
      rw [abs_mul]
      refine mul_le_mul_of_nonneg_left ((abs_sub _ _).trans ?_) (abs_nonneg mean)
      rw [abs_one, abs_of_pos hF]) (A := fun t => x (t + 1) - Real.exp (-r * dt) * x t) (p := fun t => |x (t + 1)| + Real.exp (-r * dt) * |x t|) (by
      intro t
      refine (abs_sub _ _).trans ?_
      rw [abs_mul, abs_of_pos hF])
  unfold nllCol at h
  rw [List.map_map, sum_map_range] at h
  refine le_of_eq_of_le ?_ h
  congr 2
  refine sum_congr rfl fun t _ => ?_
  simp only [Function.comp]
  rw [normLogpdf_std hS, normLogpdf_std hS]
  congr 4
  ring

/-- C135. Any two models and any score: the computed scores have the order of the exact ones if those differ by more than the errors. -/
theorem score_choice (R : Rounding fl) {k k' N N' n' : Nat} {l L P l' L' P' : ℝ} (hL : |L| ≤ P) (h : |l - L| ≤ ((1 + u64) ^ N - 1) * P)
    (hL' : |L'| ≤ P') (h' : |l' - L'| ≤ ((1 + u64) ^ N' - 1) * P') (sc : Score)
    (hd : ((1 + u64) ^ (N + 4) - 1) * scoreSize k n P sc + ((1 + u64) ^ (N' + 4) - 1) * scoreSize k' n' P' sc <
      |scoreValue k n L sc - scoreValue k' n' L' sc|) :
    scoreValueR fl k n l sc < scoreValueR fl k' n' l' sc ↔ scoreValue k n L sc < scoreValue k' n' L' sc := by
  rcases lt_abs.mp hd with hd | hd
  · have := score_order R (k := k') (k' := k) (n := n') (n' := n) hL' h' hL h sc (by linarith)
    have h0 := (score_round R (k := k) (n := n) hL h sc)
    have h1 := (score_round R (k := k') (n := n') hL' h' sc)
    have := (abs_nonneg _).trans h0
    have := (abs_nonneg _).trans h1
    exact ⟨fun hc => by linarith, fun hc => by linarith⟩
  · have h0 := score_order R (k := k) (k' := k') (n := n) (n' := n') hL h hL' h' sc (by linarith)
    have h1 := (abs_nonneg _).trans (score_round R (k := k) (n := n) hL h sc)
    have h2 := (abs_nonneg _).trans (score_round R (k := k') (n := n') hL' h' sc)
    exact ⟨fun _ => by linarith, fun _ => h0⟩

/-- C135. Mean reversion or not: the score of a Brownian motion (two parameters) against that of an Ornstein-Uhlenbeck process (three). -/
theorem reversion_choice (R : Rounding fl) {ord' : List ℝ → SumTree} (ho : IsSum ord) (ho' : IsSum ord') (hn : 1 ≤ n) (hdt : 0 < dt)
    {d v mean vol : ℝ} (hv : 0 < v) (hr : 0 < r) (hvol : 0 < vol) (hK : 6 * (r * dt) ≤ K) (hKu : ((2 * K + 2 : ℕ) : ℝ) * u64 ≤ 1 / 64)
    (hJ : 8 * (K + 1) ≤ J * (Real.exp (2 * (r * dt)) - 1)) (hJu : J * u64 ≤ 1) (x : Nat → ℝ) (sc : Score) {P Q L : ℝ}
    (hP : P = ∑ t ∈ range n, pdfSize (|x (t + 1) - x t| + |d * dt|) (v * Real.sqrt dt))
    (hQ : Q = ∑ t ∈ range n, pdfSize (|x (t + 1)| + Real.exp (-r * dt) * |x t| + |mean| * (1 + Real.exp (-r * dt))) (ouSd r vol dt))
    (hL : L = -∑ t ∈ range n, normLogpdf (mean + (x t - mean) * Real.exp (-r * dt)) (ouSd r vol dt) (x (t + 1)))
    (hd : ((1 + u64) ^ (n + 21) - 1) * scoreSize 2 (n + 1) P sc + ((1 + u64) ^ (n + 4 * K + 4 * J + 43) - 1) * scoreSize 3 (n + 1) Q sc <
      |scoreValue 2 (n + 1) (bmNll d v dt ((List.range (n + 1)).map x)) sc - scoreValue 3 (n + 1) L sc|) :
    scoreValueR fl 2 (n + 1) (bmNllR fl ord d v dt ((List.range (n + 1)).map x)) sc <
        scoreValueR fl 3 (n + 1) (ouNllR fl ord' mean r vol dt ((List.range (n + 1)).map x)) sc ↔
      scoreValue 2 (n + 1) (bmNll d v dt ((List.range (n + 1)).map x)) sc < scoreValue 3 (n + 1) L sc := by
  have b1 := bm_nll_round R ho hn hdt (drift := d) hv x
  have s1 := bm_size (n := n) (drift := d) (mul_pos hv (Real.sqrt_pos.mpr hdt)) x
  have b2 := ou_nll_round (mean := mean) R ho' hn hr hdt hvol hK hKu hJ hJu x
  have s2 := ou_size (n := n) (mean := mean) hr hdt hvol x
  rw [← hP] at b1 s1
  rw [← hQ, ← hL] at b2 s2
  exact score_choice R s1 b1 s2 b2 sc hd

/-- Rate one, step one: `K = 6` and `J = 28` are large enough. -/
example (ho : IsSum ord) (hn : 1 ≤ n) {mean : ℝ} (x : Nat → ℝ) :
    |ouNllR b64 ord mean 1 1 1 ((List.range (n + 1)).map x) -
        -∑ t ∈ range n, normLogpdf (mean + (x t - mean) * Real.exp (-1 * 1)) (ouSd 1 1 1) (x (t + 1))| ≤
      ((1 + u64) ^ (n + 4 * 6 + 4 * 28 + 39) - 1) *
        ∑ t ∈ range n, pdfSize (|x (t + 1)| + Real.exp (-1 * 1) * |x t| + |mean| * (1 + Real.exp (-1 * 1))) (ouSd 1 1 1) := by
  refine ou_nll_round (K := 6) (J := 28) b64_rounding ho hn one_pos one_pos one_pos (by norm_num) (by unfold u64; norm_num) ?_
    (by unfold u64; norm_num) x
  have := Real.add_one_le_exp ((2 : ℝ) * (1 * 1))
  push_cast
  linarith

theorem unit_sd : ouSd 1 1 1 ≤ 1 ∧ |Real.log (ouSd 1 1 1)| ≤ 1 := by
  have hS := ouSd_pos (r := 1) (dt := 1) (vol := 1) one_pos one_pos one_pos
  have e2 := Real.add_one_le_exp (2 : ℝ)
  have hm : Real.exp (-2) ≤ 1 / 3 := by
    rw [Real.exp_neg, inv_eq_one_div]
    exact one_div_le_one_div_of_le (by norm_num) (by linarith)
  have h0 := Real.exp_pos (-2)
  have h1 : (1 : ℝ) / 2 ≤ ouSd 1 1 1 := Real.le_sqrt_of_sq_le (by norm_num; linarith)
  have h2 : ouSd 1 1 1 ≤ 1 := Real.sqrt_le_iff.mpr ⟨by norm_num, by norm_num; linarith⟩
  refine ⟨h2, ?_⟩
  have l1 := Real.one_sub_inv_le_log_of_pos hS
  have l2 := Real.log_le_sub_one_of_pos hS
  have l3 : (ouSd 1 1 1)⁻¹ ≤ 2 := by
    rw [inv_le_comm₀ hS two_pos]
    linarith
  rw [abs_le]
  constructor <;> linarith

/-- A price that stays at zero: a Brownian motion with drift ten does not get the smaller computed AIC. -/
example {ord' : List ℝ → SumTree} (ho : IsSum ord) (ho' : IsSum ord') :
    ¬ scoreValueR b64 2 2 (bmNllR b64 ord 10 1 1 ((List.range 2).map fun _ => 0)) .aic <
      scoreValueR b64 3 2 (ouNllR b64 ord' 0 1 1 1 ((List.range 2).map fun _ => 0)) .aic := by
  obtain ⟨c0, c1⟩ := logC_bounds
  obtain ⟨s1, s2⟩ := unit_sd
  have s3 := abs_le.mp s2
  have hS := ouSd_pos (r := 1) (dt := 1) (vol := 1) one_pos one_pos one_pos
  have e1 : bmNll 10 1 1 ((List.range (1 + 1)).map fun _ => 0) = 50 + logC := by
    unfold bmNll nllCol
    rw [diffs_range]
    simp [normLogpdf_std]
    norm_num
    ring
  have e2 : -∑ t ∈ range 1, normLogpdf (0 + ((fun _ => 0 : ℕ → ℝ) t - 0) * Real.exp (-1 * 1)) (ouSd 1 1 1) ((fun _ => 0 : ℕ → ℝ) (t + 1)) =
      logC + Real.log (ouSd 1 1 1) := by
    simp [normLogpdf_std hS]
    ring
  refine (reversion_choice b64_rounding ho ho' (n := 1) (K := 6) (J := 28) le_rfl one_pos one_pos one_pos one_pos (by norm_num)
    (by unfold u64; norm_num) ?_ (by unfold u64; norm_num) (fun _ => 0) .aic rfl rfl rfl ?_).not.mpr ?_
  · have := Real.add_one_le_exp ((2 : ℝ) * (1 * 1))
    push_cast
    linarith
  · rw [e1, e2]
    have q1 : (∑ t ∈ range 1, pdfSize (|(fun _ => 0 : ℕ → ℝ) (t + 1) - (fun _ => 0 : ℕ → ℝ) t| + |(10 : ℝ) * 1|) (1 * Real.sqrt 1)) = 52 + logC := by
      simp [pdfSize, abs_of_nonneg c0]
      norm_num
      ring
    have q2 : (∑ t ∈ range 1, pdfSize (|(fun _ => 0 : ℕ → ℝ) (t + 1)| + Real.exp (-1 * 1) * |(fun _ => 0 : ℕ → ℝ) t| + |(0 : ℝ)| * (1 + Real.exp (-1 * 1)))
        (ouSd 1 1 1)) = 2 + logC + |Real.log (ouSd 1 1 1)| := by
      simp [pdfSize, abs_of_nonneg c0]
      ring
    rw [q1, q2]
    unfold scoreValue scoreSize
    refine lt_of_lt_of_le ?_ (le_abs_self _)
    have u1 : (1 + u64) ^ (1 + 21) - 1 ≤ 1 / 1000 := by unfold u64; norm_num
    have u2 : (1 + u64) ^ (1 + 4 * 6 + 4 * 28 + 43) - 1 ≤ 1 / 1000 := by unfold u64; norm_num
    have m1 := mul_le_mul_of_nonneg_right u1 (show 0 ≤ 2 * ((2 : ℕ) : ℝ) + 2 * (52 + logC) * ((1 + 1 : ℕ) : ℝ) by positivity)
    have m2 := mul_le_mul_of_nonneg_right u2 (show 0 ≤ 2 * ((3 : ℕ) : ℝ) + 2 * (2 + logC + |Real.log (ouSd 1 1 1)|) * ((1 + 1 : ℕ) : ℝ) by positivity)
    push_cast at *
    linarith [s3.2]
  · rw [e1, e2]
    unfold scoreValue
    push_cast
    linarith [s3.2]

end Verif.Sim
