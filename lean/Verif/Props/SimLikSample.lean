import Verif.Props.SimLikMore
import Verif.Props.SimPaths

/-!
# The likelihood of simulated paths (C76)
-/

namespace Verif.Sim

open Verif.Cov Matrix

variable {eigh : (d : Nat) → Mat d → List (Pair d)} {d s : Nat} {mean std drift vol x0 : List ℝ} {c L dx a : Arr} {dt : ℝ}
  {z : Nat → ℝ}

/-- The log-density at `μ + B z` of the distribution with covariance `B Bᵀ`. -/
theorem logDensity_sample (μ z : Fin d → ℝ) {B : Mat d} (hB : B.det ≠ 0) :
    logDensity μ (B * Bᵀ) (μ + B.mulVec z) = -(1 / 2) * (d * Real.log (2 * Real.pi) + 2 * Real.log |B.det| + dotProduct z z) := by
  unfold logDensity
  have hu : IsUnit B.det := isUnit_iff_ne_zero.mpr hB
  have hut : IsUnit Bᵀ.det := by rwa [det_transpose]
  have h1 : (B * Bᵀ).det = B.det ^ 2 := by rw [det_mul, det_transpose]; ring
  have h2 : Real.log (B.det ^ 2) = 2 * Real.log |B.det| := by rw [Real.log_pow, Real.log_abs]; norm_num
  have h3 : μ + B.mulVec z - μ = B.mulVec z := by simp
  have h4 : dotProduct (B.mulVec z) ((B * Bᵀ)⁻¹.mulVec (B.mulVec z)) = dotProduct z z := by
    rw [Matrix.mul_inv_rev, mulVec_mulVec, Matrix.mul_assoc, nonsing_inv_mul _ hu, Matrix.mul_one]
    rw [← Matrix.vecMul_transpose, ← dotProduct_mulVec, mulVec_mulVec, mul_nonsing_inv _ hut, one_mulVec]
  rw [h1, h2, h3, h4]

/-- The likelihood of data `mean + B ζ`. -/
theorem nll_of_shocks (he : EighAll eigh) (hm : mean.length = d) (hs : std.length = d) (hd : 0 < d) (hc : SymArr d c)
    (hx : dx.cols = d) {B : Mat d} (hB : B.det ≠ 0) (hcov : covOf d (fun k => std.getD k 0) c = B * Bᵀ) (ζ : Nat → Fin d → ℝ)
    (hdx : ∀ t < dx.rows, ∀ k : Fin d, dx.get t k = mean.getD k 0 + B.mulVec (ζ t) k) :
    gaussNll eigh mean std (some c) dx = .ok (.fin ((∑ t ∈ Finset.range dx.rows, dotProduct (ζ t) (ζ t)) / 2 +
      dx.rows * (d * Real.log (2 * Real.pi) / 2 + Real.log |B.det|))) := by
  have hp : (B * Bᵀ).PosDef := by
    have := (PosDef.one (n := Fin d) (R := ℝ)).mul_mul_conjTranspose_same (B := B)
      (vecMul_injective_of_isUnit ((isUnit_iff_isUnit_det B).mpr (isUnit_iff_ne_zero.mpr hB)))
    simpa [conjTranspose_eq_transpose_of_trivial] using this
  have h := (mvnNll_eq (mean := mean) he hm hs hd hc hx).1 (by rw [hcov]; exact hp)
  refine Eq.trans h ?_
  congr 2
  rw [hcov, ← Finset.sum_neg_distrib, Finset.sum_div, ← nsmul_eq_mul, ← Finset.card_range dx.rows, ← Finset.sum_const,
    Finset.card_range, ← Finset.sum_add_distrib]
  refine Finset.sum_congr rfl fun t ht => ?_
  have e : (fun k : Fin d => dx.get t k) = (fun k : Fin d => mean.getD k 0) + B.mulVec (ζ t) :=
    funext fun k => hdx t (Finset.mem_range.mp ht) k
  rw [e, logDensity_sample _ _ hB]
  ring

/-- The matrix of the shocks. -/
noncomputable def shockMat (d : Nat) (s : Nat → ℝ) (L : Arr) : Mat d := diagonal (fun k : Fin d => s k) * corMat d L

/-- The array `c` is `L Lᵀ`. -/
structure CholOf (d : Nat) (L c : Arr) : Prop where
  rows : c.rows = d
  cols : c.cols = d
  entries : ∀ i < d, ∀ j < d, c.get i j = ∑ k ∈ Finset.range d, L.get i k * L.get j k

theorem CholOf.sym (h : CholOf d L c) : SymArr d c := ⟨h.rows, h.cols, fun i hi j hj => by
  rw [h.entries i hi j hj, h.entries j hj i hi]
  exact Finset.sum_congr rfl fun k _ => by ring⟩

theorem CholOf.cov (h : CholOf d L c) (s : Nat → ℝ) : covOf d s c = shockMat d s L * (shockMat d s L)ᵀ := by
  ext i j
  unfold covOf shockMat
  rw [h.entries i i.2 j j.2, mul_apply, Finset.mul_sum, Finset.sum_range]
  refine Finset.sum_congr rfl fun k _ => ?_
  rw [transpose_apply, diagonal_mul, diagonal_mul]
  unfold corMat
  ring

theorem shockMat_mulVec (s : Nat → ℝ) (ζ : Fin d → ℝ) (k : Fin d) :
    (shockMat d s L).mulVec ζ k = s k * ∑ m : Fin d, L.get k m * ζ m := by
  show ∑ m, shockMat d s L k m * ζ m = _
  rw [Finset.mul_sum]
  refine Finset.sum_congr rfl fun m _ => ?_
  unfold shockMat
  rw [diagonal_mul]
  unfold corMat
  ring

theorem shockMat_det (s : Nat → ℝ) : (shockMat d s L).det = (∏ k ∈ Finset.range d, s k) * (corMat d L).det := by
  unfold shockMat
  rw [det_mul, det_diagonal, Finset.prod_range]

theorem log_shockMat_det {s : Nat → ℝ} (hs : ∀ k < d, s k ≠ 0) (hL : (corMat d L).det ≠ 0) :
    (shockMat d s L).det ≠ 0 ∧ Real.log |(shockMat d s L).det| = (∑ k ∈ Finset.range d, Real.log |s k|) + Real.log |(corMat d L).det| := by
  have hp : ∏ k ∈ Finset.range d, s k ≠ 0 := Finset.prod_ne_zero_iff.mpr fun k hk => hs k (Finset.mem_range.mp hk)
  rw [shockMat_det]
  refine ⟨mul_ne_zero hp hL, ?_⟩
  rw [abs_mul, Real.log_mul (abs_ne_zero.mpr hp) (abs_ne_zero.mpr hL), Finset.abs_prod, Real.log_prod]
  intro k hk
  exact abs_ne_zero.mpr (hs k (Finset.mem_range.mp hk))

/-- The draws of step `t` for `d` variates. -/
def draws (d : Nat) (z : Nat → ℝ) : Nat → Fin d → ℝ := fun t k => z (t * d + k)

theorem draws_dot (t : Nat) : dotProduct (draws d z t) (draws d z t) = ∑ k ∈ Finset.range d, z (t * d + k) ^ 2 := by
  unfold dotProduct draws
  rw [Finset.sum_range]
  exact Finset.sum_congr rfl fun k _ => by ring

theorem getD_map_mul (l : List ℝ) (q : ℝ) (k : Nat) : (l.map (· * q)).getD k 0 = l.getD k 0 * q := by
  simp only [List.getD_eq_getElem?_getD, List.getElem?_map]
  cases l[k]? <;> simp

theorem bentry_eq {l : List ℝ} {k : Nat} (hl : l.length = d) (hk : k < d) : bentry l k = l.getD k 0 := by
  unfold bentry
  split
  · rw [show k = 0 by omega]
  · rfl

/-- C76. The likelihood of a simulated Brownian path, with correlations `L Lᵀ`: half the sum of the squared draws plus a
constant for every step. It depends on the draws, the volatilities and the correlations, but neither on the drift nor on the
start. -/
theorem bm_nll_of_sample (he : EighAll eigh) (hl : drift.length = d) (hv : vol.length = d) (hvol : ∀ k < d, vol.getD k 0 ≠ 0)
    (hdt : 0 < dt) (hL : (corMat d L).det ≠ 0) (hc : CholOf d L c)
    (h : bmSample ⟨drift, vol, some L⟩ x0 dt s 1 z = .ok a) :
    bmNllFull eigh drift vol (some c) a dt = .ok (.fin ((∑ t ∈ Finset.range s, ∑ k ∈ Finset.range d, z (t * d + k) ^ 2) / 2 +
      s * (d * Real.log (2 * Real.pi) / 2 + ((∑ k ∈ Finset.range d, Real.log |vol.getD k 0 * Real.sqrt dt|) +
        Real.log |(corMat d L).det|)))) := by
  have hd : 0 < d := by
    obtain ⟨-, -, h3, -⟩ := (bm_succeeds_iff _ _).mp ⟨a, h⟩
    show 0 < d
    rw [← hl]
    exact h3
  obtain ⟨⟨hr, hcols⟩, -, hinc⟩ := bm_increments (n := 1) h
  simp only [mul_one, hl] at hcols hinc
  have hsq := Real.sqrt_pos.mpr hdt
  obtain ⟨hdet, hlog⟩ := log_shockMat_det (s := fun k => vol.getD k 0 * Real.sqrt dt)
    (fun k hk => mul_ne_zero (hvol k hk) hsq.ne') hL
  have hg := nll_of_shocks (mean := drift.map (· * dt)) (std := vol.map (· * Real.sqrt dt)) (c := c) (dx := diffRows a) he
    (by simpa using hl) (by simpa using hv) hd hc.sym hcols hdet
    (by simp only [getD_map_mul]; exact hc.cov _) (draws d z) (by
      intro t ht k
      rw [getD_map_mul, shockMat_mulVec]
      have hi := hinc t 0 k one_pos k.2
      unfold path at hi
      rw [zero_mul, zero_add, bentry_eq hl k.2, bentry_eq hv k.2] at hi
      have hg : (diffRows a).get t k = a.get (t + 1) k - a.get t k := by
        unfold diffRows Arr.get
        simp only
        congr 2
        ring
      rw [hg, hi]
      unfold shock draws
      simp only [Finset.sum_range, add_zero]
      ring)
  refine Eq.trans hg ?_
  have hrow : (diffRows a).rows = s := by show a.rows - 1 = s; omega
  rw [hrow, hlog]
  simp only [draws_dot]

/-- C76. The same without correlations. -/
theorem bm_nll_of_sample_none (hl : drift.length = d) (hv : vol.length = d)
    (hvol : ∀ k < d, 0 < vol.getD k 0) (hdt : 0 < dt) (h : bmSample ⟨drift, vol, none⟩ x0 dt s 1 z = .ok a) :
    bmNllFull eigh drift vol none a dt = .ok (.fin ((∑ t ∈ Finset.range s, ∑ k ∈ Finset.range d, z (t * d + k) ^ 2) / 2 +
      s * (d * Real.log (2 * Real.pi) / 2 + ∑ k ∈ Finset.range d, Real.log (vol.getD k 0 * Real.sqrt dt)))) := by
  have hd : 0 < d := by
    obtain ⟨-, -, h3, -⟩ := (bm_succeeds_iff _ _).mp ⟨a, h⟩
    show 0 < d
    rw [← hl]
    exact h3
  obtain ⟨⟨hr, hcols⟩, -, hinc⟩ := bm_increments (n := 1) h
  simp only [mul_one, hl] at hcols hinc
  have hsq := Real.sqrt_pos.mpr hdt
  have hg := normNll_eq (mean := drift.map (· * dt)) (std := vol.map (· * Real.sqrt dt)) (dx := diffRows a)
    (by simpa using hl) (by simpa using hv) hcols (fun k hk => by rw [getD_map_mul]; exact mul_pos (hvol k hk) hsq)
  refine Eq.trans hg ?_
  have hrow : (diffRows a).rows = s := by show a.rows - 1 = s; omega
  rw [hrow]
  congr 2
  rw [← Finset.sum_neg_distrib, Finset.sum_div, ← nsmul_eq_mul]
  conv_rhs => rw [← Finset.card_range s, ← Finset.sum_const, Finset.card_range, ← Finset.sum_add_distrib]
  refine Finset.sum_congr rfl fun t ht => ?_
  rw [Finset.sum_div, ← Finset.sum_neg_distrib]
  have hdl : (d : ℝ) * Real.log (2 * Real.pi) / 2 = ∑ _k ∈ Finset.range d, Real.log (2 * Real.pi) / 2 := by
    rw [Finset.sum_const, Finset.card_range, nsmul_eq_mul]; ring
  rw [hdl, ← Finset.sum_add_distrib, ← Finset.sum_add_distrib]
  refine Finset.sum_congr rfl fun k hk => ?_
  have hk := Finset.mem_range.mp hk
  rw [getD_map_mul, getD_map_mul]
  have hi := hinc t 0 k one_pos hk
  unfold path at hi
  rw [zero_mul, zero_add, bentry_eq hl hk, bentry_eq hv hk] at hi
  have hg : (diffRows a).get t k = a.get (t + 1) k - a.get t k := by
    unfold diffRows Arr.get
    simp only
    congr 2
    ring
  rw [hg, hi]
  unfold shock normLogpdf
  have h1 := (hvol k hk).ne'
  have h2 := hsq.ne'
  simp only [add_zero]
  field_simp
  ring

/-- C76 (defect). The likelihood of a simulated geometric path: the mean of the increments is taken without the factor `dt`, so
every draw is shifted by `(dt - 1) u`, where `u` solves `vol_j sqrt(dt) (L u)_j = drift_j - vol_j² / 2`. The value is the
right one for every drift only if `dt = 1`. -/
theorem gbm_nll_of_sample (he : EighAll eigh) (hl : drift.length = d) (hv : vol.length = d) (hvol : ∀ k < d, vol.getD k 0 ≠ 0)
    (hdt : 0 < dt) (hL : (corMat d L).det ≠ 0) (hc : CholOf d L c) (hx : ∀ y ∈ x0, 0 < y)
    (h : gbmSample ⟨drift, vol, some L⟩ x0 dt s 1 z = .ok a) (u : Nat → ℝ)
    (hu : ∀ j < d, vol.getD j 0 * Real.sqrt dt * ∑ k ∈ Finset.range d, L.get j k * u k =
      drift.getD j 0 - vol.getD j 0 ^ 2 / 2) :
    gbmNllFull eigh drift vol (some c) a dt = .ok (.fin
      ((∑ t ∈ Finset.range s, ∑ k ∈ Finset.range d, (z (t * d + k) + (dt - 1) * u k) ^ 2) / 2 +
      s * (d * Real.log (2 * Real.pi) / 2 + ((∑ k ∈ Finset.range d, Real.log |vol.getD k 0 * Real.sqrt dt|) +
        Real.log |(corMat d L).det|)))) := by
  obtain ⟨⟨hr, hcols⟩, -, hpos, hinc⟩ := gbm_paths (n := 1) h hx
  simp only [mul_one, hl] at hcols hinc
  have hd : 0 < d := by
    obtain ⟨loc, b, -, hb, -, -⟩ := gbm_inv (n := 1) h
    have := (increments_ok hb).2.2.1.pos
    simpa [hl] using this
  have hsq := Real.sqrt_pos.mpr hdt
  obtain ⟨hdet, hlog⟩ := log_shockMat_det (s := fun k => vol.getD k 0 * Real.sqrt dt)
    (fun k hk => mul_ne_zero (hvol k hk) hsq.ne') hL
  have hz : bzip (fun d v => d - 0.5 * v ^ 2) drift vol = .ok (List.zipWith (fun d v => d - 0.5 * v ^ 2) drift vol) := by
    unfold bzip
    rw [if_pos (by rw [hl, hv])]
  have hm : ∀ k < d, (List.zipWith (fun d v => d - 0.5 * v ^ 2) drift vol).getD k 0 = drift.getD k 0 - vol.getD k 0 ^ 2 / 2 := by
    intro k hk
    rw [List.getD_eq_getElem _ _ (by simp; omega), List.getElem_zipWith, List.getD_eq_getElem _ _ (by omega),
      List.getD_eq_getElem _ _ (by omega)]
    ring
  have hg := nll_of_shocks (mean := List.zipWith (fun d v => d - 0.5 * v ^ 2) drift vol) (std := vol.map (· * Real.sqrt dt))
    (c := c) (dx := logRatioRows a) he (by simp [hl, hv]) (by simpa using hv) hd hc.sym hcols hdet
    (by simp only [getD_map_mul]; exact hc.cov _) (fun t k => z (t * d + k) + (dt - 1) * u k) (by
      intro t ht k
      rw [hm k k.2, shockMat_mulVec]
      have hi := hinc t 0 k one_pos k.2
      unfold path at hi
      rw [zero_mul, zero_add, bentry_eq hl k.2, bentry_eq hv k.2] at hi
      have hg : (logRatioRows a).get t k = Real.log (a.get (t + 1) k) - Real.log (a.get t k) := by
        have : (logRatioRows a).get t k = Real.log (a.get (t + 1) k / a.get t k) := by
          unfold logRatioRows Arr.get
          simp only
          congr 3
          ring
        rw [this, Real.log_div (hpos _ _).ne' (hpos _ _).ne']
      rw [hg, hi]
      have hk := hu k k.2
      rw [Finset.sum_range] at hk
      have e : ∑ m : Fin d, L.get k m * (z (t * d + m) + (dt - 1) * u m) =
          (∑ m : Fin d, L.get k m * z (t * d + m)) + (dt - 1) * ∑ m : Fin d, L.get k m * u m := by
        rw [Finset.mul_sum, ← Finset.sum_add_distrib]
        exact Finset.sum_congr rfl fun _ _ => by ring
      rw [e]
      unfold shock
      simp only [Finset.sum_range, add_zero]
      rw [← hk]
      ring)
  unfold gbmNllFull
  rw [hz]
  refine Eq.trans hg ?_
  have hrow : (logRatioRows a).rows = s := by show a.rows - 1 = s; omega
  rw [hrow, hlog]
  congr 4
  refine Finset.sum_congr rfl fun t _ => ?_
  unfold dotProduct
  rw [Finset.sum_range]
  exact Finset.sum_congr rfl fun k _ => by ring

/-- C76. The likelihood of a simulated Ornstein-Uhlenbeck path: half the sum of the squared draws plus a constant for every
step, with the conditional standard deviation of the process. It depends neither on the mean nor on the start. -/
theorem ou_nll_of_sample {μ θ : List ℝ} (he : EighAll eigh) (hl : μ.length = d) (ht : θ.length = d) (hv : vol.length = d)
    (hvol : ∀ k < d, vol.getD k 0 ≠ 0) (hθ : ∀ r ∈ θ, 0 < r) (hd : 0 < d)
    (hdt : 0 < dt) (hL : (corMat d L).det ≠ 0) (hc : CholOf d L c)
    (h : ouSample ⟨.row μ, .row θ, vol, some L⟩ x0 dt s 1 z = .ok a) :
    ouNllFull eigh ⟨.row μ, .row θ, vol, some L⟩ (some c) a dt = .ok (.fin
      ((∑ t ∈ Finset.range s, ∑ k ∈ Finset.range d, z (t * d + k) ^ 2) / 2 +
      s * (d * Real.log (2 * Real.pi) / 2 + ((∑ k ∈ Finset.range d, Real.log
          (Real.sqrt (vol.getD k 0 ^ 2 / (2 * θ.getD k 0) * (1 - Real.exp (-2 * θ.getD k 0 * dt))))) +
        Real.log |(corMat d L).det|)))) := by
  obtain ⟨⟨hr, hcols⟩, -, hinc⟩ := ou_recursion (n := 1) rfl rfl hθ h
  simp only [mul_one, hl] at hcols hinc
  have hθ' : ∀ k < d, 0 < θ.getD k 0 := fun k hk => by
    rw [List.getD_eq_getElem _ _ (by omega)]
    exact hθ _ (List.getElem_mem _)
  have hz1 : bzip (fun m f => m * (1 - f)) μ (θ.map fun r => Real.exp (-r * dt)) =
      .ok (List.zipWith (fun m f => m * (1 - f)) μ (θ.map fun r => Real.exp (-r * dt))) := by
    unfold bzip
    rw [if_pos (by rw [hl, List.length_map, ht])]
  have hz2 : bzip (fun v r => Real.sqrt (v ^ 2 / (2 * r) * (1 - Real.exp (-2 * r * dt)))) vol θ =
      .ok (List.zipWith (fun v r => Real.sqrt (v ^ 2 / (2 * r) * (1 - Real.exp (-2 * r * dt)))) vol θ) := by
    unfold bzip
    rw [if_pos (by rw [hv, ht])]
  have hf : ∀ k < d, (θ.map fun r => Real.exp (-r * dt)).getD k 0 = Real.exp (-(θ.getD k 0) * dt) := fun k hk => by
    rw [List.getD_eq_getElem _ _ (by simp; omega), List.getElem_map, List.getD_eq_getElem _ _ (by omega)]
  have hm : ∀ k < d, (List.zipWith (fun m f => m * (1 - f)) μ (θ.map fun r => Real.exp (-r * dt))).getD k 0 =
      μ.getD k 0 * (1 - Real.exp (-(θ.getD k 0) * dt)) := fun k hk => by
    rw [List.getD_eq_getElem _ _ (by simp; omega), List.getElem_zipWith, List.getElem_map,
      List.getD_eq_getElem _ _ (by omega), List.getD_eq_getElem _ _ (by omega)]
  have hs : ∀ k < d, (List.zipWith (fun v r => Real.sqrt (v ^ 2 / (2 * r) * (1 - Real.exp (-2 * r * dt)))) vol θ).getD k 0 =
      Real.sqrt (vol.getD k 0 ^ 2 / (2 * θ.getD k 0) * (1 - Real.exp (-2 * θ.getD k 0 * dt))) := fun k hk => by
    rw [List.getD_eq_getElem _ _ (by simp; omega), List.getElem_zipWith,
      List.getD_eq_getElem _ _ (by omega), List.getD_eq_getElem _ _ (by omega)]
  set S := List.zipWith (fun v r => Real.sqrt (v ^ 2 / (2 * r) * (1 - Real.exp (-2 * r * dt)))) vol θ with hSdef
  set M := List.zipWith (fun m f => m * (1 - f)) μ (θ.map fun r => Real.exp (-r * dt)) with hMdef
  set F := θ.map fun r => Real.exp (-r * dt) with hFdef
  have hFl : F.length = d := by rw [hFdef, List.length_map, ht]
  have hbd : bdim d d = .ok d := by unfold bdim; rw [if_pos rfl]
  have hspos : ∀ k < d, 0 < S.getD k 0 := fun k hk => by
    rw [hs k hk]
    exact ou_std_pos (hvol k hk) (hθ' k hk).ne' hdt
  have hrows : ouRows F a = .ok ⟨a.rows - 1, d, fun k =>
      bcol a (k / d + 1) (k % d) - bentry F (k % d) * bcol a (k / d) (k % d)⟩ := by
    unfold ouRows
    rw [hcols, hFl]
    show (bdim d d >>= _) = _
    rw [hbd]
    show (bdim d d >>= _) = _
    rw [hbd]
    rfl
  obtain ⟨hdet, hlog⟩ := log_shockMat_det (s := fun k => S.getD k 0) (fun k hk => (hspos k hk).ne') hL
  have hg := nll_of_shocks (mean := M) (std := S) (c := c) (dx := ⟨a.rows - 1, d, fun k =>
      bcol a (k / d + 1) (k % d) - bentry F (k % d) * bcol a (k / d) (k % d)⟩) he
    (by rw [hMdef, List.length_zipWith]; omega) (by rw [hSdef, List.length_zipWith]; omega) hd hc.sym rfl hdet
    (hc.cov _) (draws d z) (by
      intro t ht k
      have ht : t < s := by simp only at ht; omega
      rw [hm k k.2, shockMat_mulVec]
      have hi := hinc t 0 k ht one_pos k.2
      unfold path at hi
      rw [zero_mul, zero_add, bentry_eq hl k.2, bentry_eq ‹θ.length = d› k.2, bentry_eq hv k.2] at hi
      have hkm : (t * d + k) % d = k := by rw [add_comm, Nat.add_mul_mod_self_right, Nat.mod_eq_of_lt k.2]
      have hkd : (t * d + k) / d = t := by
        rw [add_comm, Nat.add_mul_div_right _ _ hd, Nat.div_eq_of_lt k.2, zero_add]
      have hbc : ∀ i, bcol a i k = a.get i k := fun i => by
        unfold bcol
        split
        · rename_i h1
          rw [show (k : Nat) = 0 by have := k.2; omega]
        · rfl
      show bcol a ((t * d + k) / d + 1) ((t * d + k) % d) - bentry F ((t * d + k) % d) * bcol a ((t * d + k) / d) ((t * d + k) % d) = _
      rw [hkm, hkd, hbc, hbc, bentry_eq hFl k.2, hf k k.2, hi, hs k k.2]
      unfold shock draws
      simp only [Finset.sum_range, add_zero]
      ring)
  unfold ouNllFull
  show (bzip (fun m f => m * (1 - f)) μ F >>= _) = _
  rw [hz1]
  show (bzip (fun v r => Real.sqrt (v ^ 2 / (2 * r) * (1 - Real.exp (-2 * r * dt)))) vol θ >>= _) = _
  rw [hz2]
  show (ouRows F a >>= _) = _
  rw [hrows]
  show (if (0 : ℝ) ∈ θ then _ else _) = _
  rw [if_neg (fun h0 => lt_irrefl _ (hθ 0 h0))]
  refine Eq.trans hg ?_
  have hrow : a.rows - 1 = s := by omega
  simp only [hrow]
  rw [hlog]
  simp only [draws_dot]
  congr 6
  refine Finset.sum_congr rfl fun k hk => ?_
  rw [abs_of_pos (hspos k (Finset.mem_range.mp hk)), hs k (Finset.mem_range.mp hk)]

/-- C76. The same without correlations. -/
theorem ou_nll_of_sample_none {μ θ : List ℝ} (hl : μ.length = d) (ht : θ.length = d) (hv : vol.length = d)
    (hvol : ∀ k < d, vol.getD k 0 ≠ 0) (hθ : ∀ r ∈ θ, 0 < r) (hd : 0 < d)
    (hdt : 0 < dt)
    (h : ouSample ⟨.row μ, .row θ, vol, none⟩ x0 dt s 1 z = .ok a) :
    ouNllFull eigh ⟨.row μ, .row θ, vol, none⟩ none a dt = .ok (.fin
      ((∑ t ∈ Finset.range s, ∑ k ∈ Finset.range d, z (t * d + k) ^ 2) / 2 +
      s * (d * Real.log (2 * Real.pi) / 2 + ∑ k ∈ Finset.range d, Real.log
          (Real.sqrt (vol.getD k 0 ^ 2 / (2 * θ.getD k 0) * (1 - Real.exp (-2 * θ.getD k 0 * dt)))))))  := by
  obtain ⟨⟨hr, hcols⟩, -, hinc⟩ := ou_recursion (n := 1) rfl rfl hθ h
  simp only [mul_one, hl] at hcols hinc
  have hθ' : ∀ k < d, 0 < θ.getD k 0 := fun k hk => by
    rw [List.getD_eq_getElem _ _ (by omega)]
    exact hθ _ (List.getElem_mem _)
  have hz1 : bzip (fun m f => m * (1 - f)) μ (θ.map fun r => Real.exp (-r * dt)) =
      .ok (List.zipWith (fun m f => m * (1 - f)) μ (θ.map fun r => Real.exp (-r * dt))) := by
    unfold bzip
    rw [if_pos (by rw [hl, List.length_map, ht])]
  have hz2 : bzip (fun v r => Real.sqrt (v ^ 2 / (2 * r) * (1 - Real.exp (-2 * r * dt)))) vol θ =
      .ok (List.zipWith (fun v r => Real.sqrt (v ^ 2 / (2 * r) * (1 - Real.exp (-2 * r * dt)))) vol θ) := by
    unfold bzip
    rw [if_pos (by rw [hv, ht])]
  have hf : ∀ k < d, (θ.map fun r => Real.exp (-r * dt)).getD k 0 = Real.exp (-(θ.getD k 0) * dt) := fun k hk => by
    rw [List.getD_eq_getElem _ _ (by simp; omega), List.getElem_map, List.getD_eq_getElem _ _ (by omega)]
  have hm : ∀ k < d, (List.zipWith (fun m f => m * (1 - f)) μ (θ.map fun r => Real.exp (-r * dt))).getD k 0 =
      μ.getD k 0 * (1 - Real.exp (-(θ.getD k 0) * dt)) := fun k hk => by
    rw [List.getD_eq_getElem _ _ (by simp; omega), List.getElem_zipWith, List.getElem_map,
      List.getD_eq_getElem _ _ (by omega), List.getD_eq_getElem _ _ (by omega)]
  have hs : ∀ k < d, (List.zipWith (fun v r => Real.sqrt (v ^ 2 / (2 * r) * (1 - Real.exp (-2 * r * dt)))) vol θ).getD k 0 =
      Real.sqrt (vol.getD k 0 ^ 2 / (2 * θ.getD k 0) * (1 - Real.exp (-2 * θ.getD k 0 * dt))) := fun k hk => by
    rw [List.getD_eq_getElem _ _ (by simp; omega), List.getElem_zipWith,
      List.getD_eq_getElem _ _ (by omega), List.getD_eq_getElem _ _ (by omega)]
  set S := List.zipWith (fun v r => Real.sqrt (v ^ 2 / (2 * r) * (1 - Real.exp (-2 * r * dt)))) vol θ with hSdef
  set M := List.zipWith (fun m f => m * (1 - f)) μ (θ.map fun r => Real.exp (-r * dt)) with hMdef
  set F := θ.map fun r => Real.exp (-r * dt) with hFdef
  have hFl : F.length = d := by rw [hFdef, List.length_map, ht]
  have hbd : bdim d d = .ok d := by unfold bdim; rw [if_pos rfl]
  have hspos : ∀ k < d, 0 < S.getD k 0 := fun k hk => by
    rw [hs k hk]
    exact ou_std_pos (hvol k hk) (hθ' k hk).ne' hdt
  have hrows : ouRows F a = .ok ⟨a.rows - 1, d, fun k =>
      bcol a (k / d + 1) (k % d) - bentry F (k % d) * bcol a (k / d) (k % d)⟩ := by
    unfold ouRows
    rw [hcols, hFl]
    show (bdim d d >>= _) = _
    rw [hbd]
    show (bdim d d >>= _) = _
    rw [hbd]
    rfl
  have hg := normNll_eq (d := d) (mean := M) (std := S) (dx := ⟨a.rows - 1, d, fun k =>
      bcol a (k / d + 1) (k % d) - bentry F (k % d) * bcol a (k / d) (k % d)⟩)
    (by rw [hMdef, List.length_zipWith]; omega) (by rw [hSdef, List.length_zipWith]; omega) rfl hspos
  unfold ouNllFull
  show (bzip (fun m f => m * (1 - f)) μ F >>= _) = _
  rw [hz1]
  show (bzip (fun v r => Real.sqrt (v ^ 2 / (2 * r) * (1 - Real.exp (-2 * r * dt)))) vol θ >>= _) = _
  rw [hz2]
  show (ouRows F a >>= _) = _
  rw [hrows]
  show (if (0 : ℝ) ∈ θ then _ else _) = _
  rw [if_neg (fun h0 => lt_irrefl _ (hθ 0 h0))]
  refine Eq.trans hg ?_
  have hrow : a.rows - 1 = s := by omega
  simp only [hrow]
  congr 2
  rw [← Finset.sum_neg_distrib, Finset.sum_div, ← nsmul_eq_mul]
  conv_rhs => rw [← Finset.card_range s, ← Finset.sum_const, Finset.card_range, ← Finset.sum_add_distrib]
  refine Finset.sum_congr rfl fun t ht => ?_
  have ht := Finset.mem_range.mp ht
  rw [Finset.sum_div, ← Finset.sum_neg_distrib]
  have hdl : (d : ℝ) * Real.log (2 * Real.pi) / 2 = ∑ _k ∈ Finset.range d, Real.log (2 * Real.pi) / 2 := by
    rw [Finset.sum_const, Finset.card_range, nsmul_eq_mul]; ring
  rw [hdl, ← Finset.sum_add_distrib, ← Finset.sum_add_distrib]
  refine Finset.sum_congr rfl fun k hk => ?_
  have hk := Finset.mem_range.mp hk
  have hi := hinc t 0 k ht one_pos hk
  unfold path at hi
  rw [zero_mul, zero_add, bentry_eq hl hk, bentry_eq ‹θ.length = d› hk, bentry_eq hv hk] at hi
  have hkm : (t * d + k) % d = k := by rw [add_comm, Nat.add_mul_mod_self_right, Nat.mod_eq_of_lt hk]
  have hkd : (t * d + k) / d = t := by
    rw [add_comm, Nat.add_mul_div_right _ _ hd, Nat.div_eq_of_lt hk, zero_add]
  have hbc : ∀ i, bcol a i k = a.get i k := fun i => by
    unfold bcol
    split
    · rename_i h1
      rw [show (k : Nat) = 0 by omega]
    · rfl
  have hx : Arr.get ⟨s, d, fun k => bcol a (k / d + 1) (k % d) - bentry F (k % d) * bcol a (k / d) (k % d)⟩ t k =
      M.getD k 0 + S.getD k 0 * z (t * d + k) := by
    show bcol a ((t * d + k) / d + 1) ((t * d + k) % d) - bentry F ((t * d + k) % d) * bcol a ((t * d + k) / d) ((t * d + k) % d) = _
    rw [hkm, hkd, hbc, hbc, bentry_eq hFl hk, hf k hk, hi, hm k hk, hs k hk]
    unfold shock
    simp only [add_zero]
    ring
  rw [hx, ← hs k hk]
  have h1 := (hspos k hk).ne'
  unfold normLogpdf
  field_simp
  ring

/-! ### Examples -/

noncomputable def demoFactor : Arr := Arr.ofList 2 2 [1, 0, 0.6, 0.8]
noncomputable def demoProd : Arr := Arr.ofList 2 2 [1, 0.6, 0.6, 1]

theorem demo_chol : CholOf 2 demoFactor demoProd := by
  refine ⟨rfl, rfl, fun i hi j hj => ?_⟩
  interval_cases i <;> interval_cases j <;>
    simp [demoFactor, demoProd, Arr.ofList, Arr.get, Finset.sum_range_succ] <;> norm_num

theorem demo_det : (corMat 2 demoFactor).det ≠ 0 := by
  rw [det_fin_two]
  simp [corMat, demoFactor, Arr.ofList, Arr.get]
  norm_num

theorem demo_vol (k : Nat) (hk : k < 2) : ([0.3, 0.4] : List ℝ).getD k 0 ≠ 0 := by
  interval_cases k <;> norm_num

/-- Two correlated variates, three steps of a quarter: the likelihood of the sample is finite, for all draws. -/
example (z : Nat → ℝ) : ∃ a eigh r, bmSample ⟨[0.1, 0.2], [0.3, 0.4], some demoFactor⟩ [5, 6] 0.25 (3 : Nat) 1 z = .ok a ∧
    EighAll eigh ∧ bmNllFull eigh [0.1, 0.2] [0.3, 0.4] (some demoProd) a 0.25 = .ok (.fin r) := by
  obtain ⟨eigh, he⟩ := eighAll_exists
  obtain ⟨a, ha⟩ : ∃ a, bmSample ⟨[0.1, 0.2], [0.3, 0.4], some demoFactor⟩ [5, 6] 0.25 (3 : Nat) 1 z = .ok a := by
    rw [bm_succeeds_iff]
    refine ⟨by norm_num, by norm_num, by norm_num, Or.inl rfl, ?_, by norm_num, by norm_num⟩
    simp only [Option.mem_some_iff]
    rintro l rfl
    exact ⟨rfl, rfl⟩
  exact ⟨a, eigh, _, ha, he, bm_nll_of_sample he rfl rfl demo_vol (by norm_num) demo_det demo_chol ha⟩

/-- One variate: the draws of a geometric path with `dt = 1/4` are shifted, here by `-3/4 (drift - vol²/2) / (vol / 2)`. -/
example (z : Nat → ℝ) : ∃ a eigh r, gbmSample ⟨[0.1], [0.4], some (Arr.ofList 1 1 [1])⟩ [5] 0.25 (3 : Nat) 1 z = .ok a ∧
    EighAll eigh ∧ gbmNllFull eigh [0.1] [0.4] (some (Arr.ofList 1 1 [1])) a 0.25 =
      .ok (.fin ((∑ t ∈ Finset.range 3, ∑ k ∈ Finset.range 1, (z (t * 1 + k) + (0.25 - 1) * 0.1) ^ 2) / 2 + r)) := by
  obtain ⟨eigh, he⟩ := eighAll_exists
  obtain ⟨a, ha⟩ : ∃ a, gbmSample ⟨[0.1], [0.4], some (Arr.ofList 1 1 [1])⟩ [5] 0.25 (3 : Nat) 1 z = .ok a := by
    rw [gbm_succeeds_iff, bm_succeeds_iff]
    refine ⟨by norm_num, by norm_num, by norm_num, Or.inl rfl, ?_, by norm_num, by norm_num⟩
    simp only [Option.mem_some_iff]
    rintro l rfl
    exact ⟨rfl, rfl⟩
  have hs : Real.sqrt (0.25 : ℝ) = 0.5 := by
    rw [show (0.25 : ℝ) = 0.5 ^ 2 by norm_num, Real.sqrt_sq (by norm_num)]
  refine ⟨a, eigh, _, ha, he, gbm_nll_of_sample (d := 1) (c := Arr.ofList 1 1 [1]) he rfl rfl (fun k hk => by interval_cases k; norm_num)
    (by norm_num) ?_ ⟨rfl, rfl, fun i hi j hj => ?_⟩ (by norm_num) ha (fun _ => 0.1) fun j hj => ?_⟩
  · simp [corMat, Arr.ofList, Arr.get]
  · interval_cases i
    interval_cases j
    simp [Arr.ofList, Arr.get]
  · interval_cases j
    rw [hs]
    simp [Arr.ofList, Arr.get]
    norm_num

example (z : Nat → ℝ) : ∃ a eigh r,
    ouSample ⟨.row [1, 2], .row [1, 2], [0.3, 0.4], some demoFactor⟩ [0] 0.5 (2 : Nat) 1 z = .ok a ∧
    EighAll eigh ∧
    ouNllFull eigh ⟨.row [1, 2], .row [1, 2], [0.3, 0.4], some demoFactor⟩ (some demoProd) a 0.5 = .ok (.fin r) := by
  obtain ⟨eigh, he⟩ := eighAll_exists
  obtain ⟨a, ha⟩ : ∃ a, ouSample ⟨.row [1, 2], .row [1, 2], [0.3, 0.4], some demoFactor⟩ [0] 0.5 (2 : Nat) 1 z = .ok a := by
    obtain ⟨b, hb⟩ := increments_eq 2 z (v := 2) (loc := [1 * (1 - Real.exp (-1 * 0.5)), 2 * (1 - Real.exp (-2 * 0.5))])
      (scale := [Real.sqrt (0.3 ^ 2 / (2 * 1) * (1 - Real.exp (-2 * 1 * 0.5))),
        Real.sqrt (0.4 ^ 2 / (2 * 2) * (1 - Real.exp (-2 * 2 * 0.5)))]) (L := some demoFactor) (x0 := [0]) (p := 1)
      ⟨by norm_num, Or.inl rfl, Or.inl rfl, by simp only [Option.mem_some_iff]; rintro l rfl; exact ⟨rfl, rfl⟩,
        by norm_num, by norm_num⟩
    obtain ⟨-, -, -, ⟨i1, i2⟩, -⟩ := increments_ok hb
    simp only [Int.toNat_natCast] at i1 i2
    unfold ouSample
    simp only [OUAttr.toRow, OUAttr.shape1, bzip, List.map_cons, List.map_nil, List.length_cons, List.length_nil,
      if_true, List.zipWith_cons_cons, List.zipWith_nil_right, bind, Except.bind, Nat.reduceAdd]
    rw [show ((1 : Int)) = ((1 : Nat) : Int) from rfl, hb]
    simp only
    rw [if_neg (by omega), (bcastTo_ok (f := bentry _)).mpr ⟨Or.inl (by rw [i2]; rfl), rfl⟩]
    exact ⟨_, rfl⟩
  exact ⟨a, eigh, _, ha, he, ou_nll_of_sample he rfl rfl rfl demo_vol (by norm_num) (by norm_num) (by norm_num) demo_det
    demo_chol ha⟩

end Verif.Sim
