import Verif.Props.MicroRound
import Verif.Props.MicroRoll

/-!
# C108: Roll's measure with rounding, flat markets, the exact functions and a negative variance
-/

namespace Verif.Roll

open Verif Ser Round Props.MicroVol Props.IndRolling

variable {fl : ℝ → ℝ}

/-! ### Without rounding -/

theorem rnd_id' : rnd id = id := by
  funext v
  exact rnd_id v

theorem mulR_id (x y : Ser) : mulR id x y = op2 (· * ·) x y := by simp only [mulR, rnd_id]
theorem divR_id (x y : Ser) : divR id x y = op2 (· / ·) x y := by simp only [divR, rnd_id]
theorem addR_id (x y : Ser) : addR id x y = op2 (· + ·) x y := by simp only [addR, rnd_id]
theorem subR_id (x y : Ser) : subR id x y = op2 (· - ·) x y := by simp only [subR, rnd_id]
theorem scaleR_id (k : ℝ) (x : Ser) : scaleR id k x = x.map fun v => .fin k * v := by simp only [scaleR, rnd_id]
theorem logRatioR_id (x y : Ser) : logRatioR id x y = logRatio x y := by simp only [logRatioR, logRatio, rnd_id]
theorem sqR_id : sqR id = sqF := by
  funext v
  simp only [sqR, sqF, rnd_id]
theorem pctChangeR_id (x : Ser) : pctChangeR id x = pctChange x := by simp only [pctChangeR, pctChange, divR_id, rnd_id]

theorem betaR_id (h l : Ser) (w : Int) : betaR id h l w = Micro.beta h l w := by
  unfold betaR Micro.beta
  have := sum_exact ((logRatio h l).map sqF) (le_refl 2)
  rw [Nat.cast_ofNat] at this
  rw [this, mean_exact, logRatioR_id, sqR_id]
  rfl

theorem gammaR_id (h l : Ser) : gammaR id h l = Micro.gamma h l := by
  unfold gammaR Micro.gamma
  simp only [logRatioR_id, sqR_id]

theorem alphaR_id (b g : Ser) : alphaR id b g = Micro.alpha b g := by
  unfold alphaR Micro.alpha
  simp only [subR_id, rnd_id, denR, id, Micro.den]

theorem sigmaR_id (b g : Ser) : sigmaR id b g = Micro.sigma b g := by
  unfold sigmaR Micro.sigma
  simp only [addR_id, rnd_id, denR, id, Micro.den]

/-- The windows of the prepared arguments of `cov`. -/
theorem win_mask (w : Nat) : ∀ (x y : Ser) (t : Nat), x.length = y.length → win w (op2 maskF x y) t = (win2 w x y t).map Prod.fst ∧
    win w (op2 maskF y x) t = (win2 w x y t).map Prod.snd ∧
    win w (op2 (· * ·) (op2 maskF x y) (op2 maskF y x)) t = (win2 w x y t).map (fun p => p.1 * p.2) := by
  intro x y t hl
  have e1 : op2 maskF x y = (x.zip y).map fun p => maskF p.1 p.2 := by
    induction x generalizing y with
    | nil => cases y with
      | nil => rfl
      | cons b y => simp at hl
    | cons a x ih => cases y with
      | nil => simp at hl
      | cons b y => simp only [op2, List.zip_cons_cons, List.map_cons, ih y (by simpa using hl)]
  have e2 : op2 maskF y x = (x.zip y).map fun p => maskF p.2 p.1 := by
    clear e1
    induction x generalizing y with
    | nil => cases y with
      | nil => rfl
      | cons b y => simp at hl
    | cons a x ih => cases y with
      | nil => simp at hl
      | cons b y => simp only [op2, List.zip_cons_cons, List.map_cons, ih y (by simpa using hl)]
  have e3 : op2 (· * ·) (op2 maskF x y) (op2 maskF y x) = (x.zip y).map fun p => maskF p.1 p.2 * maskF p.2 p.1 := by
    rw [e1, e2]
    induction x.zip y with
    | nil => rfl
    | cons a l ih => simp only [List.map_cons, op2, ih]
  rw [e3, e1, e2]
  unfold win win2
  rw [← List.map_take, ← List.map_drop, ← List.map_take, ← List.map_drop, ← List.map_take, ← List.map_drop, List.filterMap_map,
    List.filterMap_map, List.filterMap_map]
  simp only [List.map_filterMap]
  refine ⟨?_, ?_, ?_⟩ <;> (congr 1; funext p; obtain ⟨a, b⟩ := p; cases a <;> cases b <;> rfl)

theorem op2_map {α : Type} (f : XF → XF → XF) (g h : α → XF) (l : List α) : op2 f (l.map g) (l.map h) = l.map fun i => f (g i) (h i) := by
  induction l with
  | nil => rfl
  | cons a l ih => simp only [List.map_cons, op2, ih]

theorem cov_exact (w : Int) (x y : Ser) (hl : x.length = y.length) : rollingCovR id w x y = rollingCov w x y := by
  unfold rollingCovR rollingCov
  simp only [mean_exact, Ind.rollingMean, rolling]
  by_cases hw : w < 0
  · simp only [if_pos hw]
    rfl
  simp only [if_neg hw]
  have l1 : (op2 maskF x y).length = x.length := by rw [op2_length, hl, max_self]
  have l2 : (op2 maskF y x).length = x.length := by rw [op2_length, hl, max_self]
  have l3 : (mulR id (op2 maskF x y) (op2 maskF y x)).length = x.length := by rw [mulR, op2_length, l1, l2, max_self]
  have l4 : (x.zip y).length = x.length := by rw [List.length_zip, hl, min_self]
  rw [l1, l2, l3, l4]
  change Except.ok _ = Except.ok _
  congr 1
  simp only [subR_id, mulR_id, op2_map, List.map_map, rnd_id]
  refine List.map_congr_left fun t _ => ?_
  obtain ⟨w1, w2, w3⟩ := win_mask w.toNat x y t hl
  have hwn : ((w.toNat : ℕ) : ℝ) = w := by
    have : ((w.toNat : ℕ) : ℤ) = w := Int.toNat_of_nonneg (not_lt.mp hw)
    exact_mod_cast this
  have hlen : (win2 w.toNat x y t).length ≤ w.toNat := by
    unfold win2
    refine (List.length_filterMap_le _ _).trans ?_
    simp
    omega
  simp only [Function.comp_apply, rollAt, w1, w2, w3, List.length_map]
  by_cases h : w.toNat ≤ (win2 w.toNat x y t).length
  · have he := le_antisymm h hlen
    simp only [if_pos h]
    by_cases h0 : (win2 w.toNat x y t) = []
    · rw [if_neg (by simp [h0]), h0]
      simp [meanF]
    · have hp : 0 < (win2 w.toNat x y t).length := List.length_pos_iff.mpr h0
      rw [if_pos ⟨h, hp⟩]
      unfold meanF covF
      simp only [List.map_eq_nil_iff, if_neg h0, List.length_map, ← he, hwn]
      rfl
  · simp only [if_neg h]
    rw [if_neg fun hc => h hc.1]
    simp

/-- C108. Without rounding the rounded functions are those of `Model/Micro`. -/
theorem micro_round_id (h l o c v b s : Ser) (w : Int) (F : XF → XF) :
    closeCloseR id c w = Micro.closeClose c w ∧ highLowR id h l w = Micro.highLow h l w ∧
    garmanKlassR id h l o c w = Micro.garmanKlass h l o c w ∧ rogersSatchellR id h l o c w = Micro.rogersSatchell h l o c w ∧
    yangZhangR id h l o c w = Micro.yangZhang h l o c w ∧ corwinSchultzR id h l w = Micro.corwinSchultz h l w ∧
    beckerParkinsonR id h l w = Micro.beckerParkinson h l w ∧ rollMeasureR id c w = Micro.rollMeasure c w ∧
    rollImpactR id c v w = Micro.rollImpact c v w ∧ vpinR id v b w = Micro.vpin v b w ∧
    estimateBuyVolumeR id F c v s = Micro.estimateBuyVolume F c v s ∧ kyleR id c v w = Micro.kyle c v w ∧
    amihudR id c v w = Micro.amihud c v w ∧ hasbrouckR id c v w = Micro.hasbrouck c v w := by
  have rs : rogersSatchellR id h l o c w = Micro.rogersSatchell h l o c w := by
    unfold rogersSatchellR Micro.rogersSatchell
    rw [mean_exact, addR_id, mulR_id, mulR_id]
    simp only [logRatioR_id]
    rfl
  have rm : rollMeasureR id c w = Micro.rollMeasure c w := by
    unfold rollMeasureR Micro.rollMeasure
    simp only [rnd_id, diffR_id]
    rw [cov_exact _ _ _ (shift_length _ _).symm]
  refine ⟨?_, ?_, ?_, rs, ?_, ?_, ?_, rm, ?_, ?_, ?_, ?_, ?_, ?_⟩
  · unfold closeCloseR Micro.closeClose
    rw [var_exact, divR_id]
  · unfold highLowR Micro.highLow
    simp only [mean_exact, logRatioR_id, sqR_id, rnd_id, parkR, id]
    rfl
  · unfold garmanKlassR Micro.garmanKlass
    simp only [mean_exact, logRatioR_id, sqR_id, scaleR_id, subR_id, gkR, id, List.map_map]
    rfl
  · unfold yangZhangR Micro.yangZhang
    simp only [rs, mean_exact, logRatioR_id, sqR_id, scaleR_id, addR_id, id]
    rfl
  · unfold corwinSchultzR Micro.corwinSchultz
    have : spreadOfR id = Micro.spreadOf := by
      funext a
      simp only [spreadOfR, Micro.spreadOf, rnd_id]
    simp only [betaR_id, gammaR_id, alphaR_id, this]
  · unfold beckerParkinsonR Micro.beckerParkinson
    simp only [betaR_id, gammaR_id, sigmaR_id]
  · unfold rollImpactR Micro.rollImpact
    simp only [rm, divR_id, mulR_id]
  · unfold vpinR Micro.vpin imbalanceR
    rw [mean_exact, subR_id, subR_id, divR_id]
    rfl
  · unfold estimateBuyVolumeR Micro.estimateBuyVolume
    rw [divR_id, diffR_id, mulR_id]
  · unfold kyleR Micro.kyle
    rw [mean_exact, divR_id, diffR_id, mulR_id]
    rfl
  · unfold amihudR Micro.amihud
    rw [mean_exact, divR_id, pctChangeR_id, mulR_id]
    rfl
  · unfold hasbrouckR Micro.hasbrouck
    simp only [mean_exact, divR_id, logRatioR_id, mulR_id, rnd_id]
    rfl

/-! ### Roll's measure and Becker-Parkinson -/

/-- A window of equal values has exactly this mean. -/
theorem mean_flat {x u : Ser} {k : ℝ} {w t : Nat} (hw : 1 ≤ w) (hu : rollingMeanR fl x w = .ok u) (hx : Obs x (fun _ => k) w t) :
    u[t]? = some (.fin k) := by
  have ht : t < x.length := (List.getElem?_eq_some_iff.1 (hx.2 t (by simp; omega))).1
  have hwin := Props.IndRolling.win_eq hw hx
  obtain ⟨m1, m2⟩ := mean_nan_iff hu ht
  rcases m2 with h | ⟨r, h⟩
  · rcases m1.mp h with h0 | h0
    · omega
    · rw [Int.toNat_natCast, hwin] at h0
      simp at h0
  · obtain ⟨c1, -⟩ := mean_sign hu h
    rw [h, c1 k]
    intro v hv
    rw [Int.toNat_natCast, hwin] at hv
    obtain ⟨j, -, rfl⟩ := List.mem_map.1 hv
    rfl

theorem mask_cases (a b : XF) : (maskF a b = .nan ∧ maskF b a = .nan) ∨ ∃ r s, maskF a b = .fin r ∧ maskF b a = .fin s := by
  cases a <;> cases b <;> simp [maskF]

/-- A rolling covariance is NaN or a number. -/
theorem cov_cases (R : Rounding fl) {x y u : Ser} {w : Int} (hl : x.length = y.length) (hu : rollingCovR fl w x y = .ok u) :
    ∀ v ∈ u, v = .nan ∨ ∃ r, v = .fin r := by
  obtain ⟨mxy, h1, h'⟩ := bind_ok hu
  obtain ⟨mx, h2, h'⟩ := bind_ok h'
  obtain ⟨my, h3, h'⟩ := bind_ok h'
  cases h'
  have l1 : (op2 maskF x y).length = x.length := by rw [op2_length, hl, max_self]
  have l2 : (op2 maskF y x).length = x.length := by rw [op2_length, hl, max_self]
  have l3 : (mulR fl (op2 maskF x y) (op2 maskF y x)).length = x.length := by rw [mulR, op2_length, l1, l2, max_self]
  have k1 := mean_len h1
  have k2 := mean_len h2
  have k3 := mean_len h3
  intro v hv
  obtain ⟨d, hd, rfl⟩ := List.mem_map.1 hv
  obtain ⟨t, ht⟩ := List.mem_iff_getElem?.1 hd
  obtain ⟨a, m, ha, hm, rfl⟩ := op2_get_inv (by rw [mulR, op2_length, k1, k2, k3, l1, l2, l3, max_self]) ht
  obtain ⟨p, q, hp, hq, rfl⟩ := op2_get_inv (by rw [k2, k3, l1, l2]) hm
  have hlt : t < x.length := by
    rw [← l3, ← k1]
    exact (List.getElem?_eq_some_iff.1 ha).1
  have c1 := (mean_nan_iff h1 (by rw [l3]; exact hlt)).2
  have c2 := (mean_nan_iff h2 (by rw [l1]; exact hlt)).2
  have c3 := (mean_nan_iff h3 (by rw [l2]; exact hlt)).2
  rw [ha] at c1
  rw [hp] at c2
  rw [hq] at c3
  rcases c1 with c1 | ⟨a', c1⟩ <;> cases c1
  · left; simp [rnd]
  rcases c2 with c2 | ⟨p', c2⟩ <;> cases c2
  · left; simp [rnd]
  rcases c3 with c3 | ⟨q', c3⟩ <;> cases c3
  · left; simp [rnd]
  by_cases hw : w = 1
  · subst hw
    left
    have hX : ∃ a b, x[t]? = some a ∧ y[t]? = some b :=
      ⟨_, _, List.getElem?_eq_getElem hlt, List.getElem?_eq_getElem (by omega)⟩
    obtain ⟨xa, yb, hxa, hyb⟩ := hX
    have o1 := op2_get maskF hxa hyb
    have o2 := op2_get maskF hyb hxa
    have o3 := op2_get (fun a b => rnd fl (a * b)) o1 o2
    have single : ∀ (z : Ser) (k : ℝ), z[t]? = some (.fin k) → Obs z (fun _ => k) 1 t := fun z k hz =>
      ⟨by omega, fun i hi => by rw [Finset.mem_Ico] at hi; rw [show i = t by omega]; exact hz⟩
    rcases mask_cases xa yb with ⟨n1, n2⟩ | ⟨r, s, n1, n2⟩
    · rw [n1] at o1
      have := (mean_nan_iff h2 (by rw [l1]; exact hlt)).1.mpr (.inr ?_)
      · rw [hp] at this
        cases this
      · rw [show (1 : Int).toNat = 1 from rfl, win_one (by rw [l1]; exact hlt)]
        unfold num at_
        rw [List.getD_eq_getElem?_getD, o1]
        simp
    · rw [n1] at o1 o3
      rw [n2] at o2 o3
      have e1 := mean_flat (w := 1) le_rfl h1 (single _ (fl (r * s)) o3)
      have e2 := mean_flat (w := 1) le_rfl h2 (single _ _ o1)
      have e3 := mean_flat (w := 1) le_rfl h3 (single _ _ o2)
      rw [ha] at e1
      rw [hp] at e2
      rw [hq] at e3
      simp only [Option.some.injEq, XF.fin.injEq] at e1 e2 e3
      rw [e1, e2, e3]
      have hz : rnd fl (XF.fin (fl (r * s)) - rnd fl (XF.fin r * XF.fin s)) = .fin 0 := by simp [rnd, R.zero]
      have hi : rnd fl (XF.fin ((1 : Int) : ℝ) / .fin (((1 : Int) : ℝ) - 1)) = .pinf := by
        rw [Int.cast_one, sub_self]
        simp [XF.div, XF.infSign, rnd, HDiv.hDiv, Div.div]
      rw [hz, hi]
      simp [XF.mul, XF.infSign, rnd, HMul.hMul, Mul.mul]
  · right
    have : (w : ℝ) - 1 ≠ 0 := by
      intro h
      apply hw
      have : (w : ℝ) = 1 := by linarith
      exact_mod_cast this
    rw [XF.div_fin this]
    simp [rnd]

/-- C108. Roll's measure is NaN or not negative, for all data. -/
theorem roll_round (R : Rounding fl) {c u : Ser} {w : Int} (hu : rollMeasureR fl c w = .ok u) : NonNeg u := by
  obtain ⟨v, hv, h'⟩ := bind_ok hu
  cases h'
  intro z hz
  obtain ⟨a, ha, rfl⟩ := List.mem_map.1 hz
  rcases cov_cases R (shift_length _ _).symm hv a ha with rfl | ⟨r, rfl⟩
  · left; simp [rnd]
  · right
    rw [XF.abs_fin, XF.sqrt_fin (abs_nonneg _)]
    exact ⟨fl (2 * fl (Real.sqrt |r|)), rfl, R.nonneg (mul_nonneg (by norm_num) (R.nonneg (Real.sqrt_nonneg _)))⟩

/-- C108. Becker-Parkinson volatilities are never negative. -/
theorem beckerParkinson_round {h l u : Ser} {w : Int} (hu : beckerParkinsonR fl h l w = .ok u) :
    ∀ v ∈ u, v ≠ .ninf ∧ ∀ r, v = .fin r → 0 ≤ r := by
  obtain ⟨b, hb, h'⟩ := bind_ok hu
  obtain ⟨g, hg, h'⟩ := bind_ok h'
  cases h'
  intro v hv
  obtain ⟨z, -, rfl⟩ := List.mem_map.1 hv
  unfold Micro.clamp
  split
  · exact ⟨by simp, by rintro r ⟨⟩; exact le_rfl⟩
  · rename_i h
    refine ⟨?_, ?_⟩
    · rintro rfl
      exact h (by simp [XF.lt])
    · rintro r rfl
      exact not_lt.mp fun hr => h (by simpa [XF.lt] using hr)

/-! ### Markets that do not move -/

theorem obs_ratio (R : Rounding fl) {x y : Ser} {P : Nat → ℝ} {w t : Nat} (hx : Obs x P w t) (hy : Obs y P w t)
    (hp : ∀ i ∈ Finset.Ico (t + 1 - w) (t + 1), 0 < P i) : Obs (logRatioR fl x y) (fun _ => 0) w t := by
  refine ⟨hx.1, fun i hi => ?_⟩
  unfold logRatioR
  rw [List.getElem?_map, op2_get _ (hx.2 i hi) (hy.2 i hi), XF.div_fin (hp i hi).ne', div_self (hp i hi).ne']
  simp only [Option.map_some, rnd, R.one]
  rw [XF.log_fin one_pos, Real.log_one]
  simp only [R.zero]

theorem obs_sqR (R : Rounding fl) {x : Ser} {w t : Nat} (hx : Obs x (fun _ => 0) w t) : Obs (x.map (sqR fl)) (fun _ => 0) w t := by
  refine ⟨hx.1, fun i hi => ?_⟩
  rw [List.getElem?_map, hx.2 i hi]
  simp [sqR, rnd, R.zero]

theorem obs_mulR (R : Rounding fl) {x y : Ser} {w t : Nat} (hx : Obs x (fun _ => 0) w t) (hy : Obs y (fun _ => 0) w t) :
    Obs (mulR fl x y) (fun _ => 0) w t := by
  refine ⟨hx.1, fun i hi => ?_⟩
  rw [mulR, op2_get _ (hx.2 i hi) (hy.2 i hi)]
  simp [rnd, R.zero]

theorem obs_addR (R : Rounding fl) {x y : Ser} {w t : Nat} (hx : Obs x (fun _ => 0) w t) (hy : Obs y (fun _ => 0) w t) :
    Obs (addR fl x y) (fun _ => 0) w t := by
  refine ⟨hx.1, fun i hi => ?_⟩
  rw [addR, op2_get _ (hx.2 i hi) (hy.2 i hi)]
  simp [rnd, R.zero]

theorem obs_scaleR (R : Rounding fl) {x : Ser} (k : ℝ) {w t : Nat} (hx : Obs x (fun _ => 0) w t) : Obs (scaleR fl k x) (fun _ => 0) w t := by
  refine ⟨hx.1, fun i hi => ?_⟩
  rw [scaleR, List.getElem?_map, hx.2 i hi]
  simp [rnd, R.zero]

/-- C108. Where the bars of a window do not move, Parkinson, Garman-Klass and Rogers-Satchell are exactly 0, whatever happened before
the window. -/
theorem flat_bars (R : Rounding fl) {h l o c : Ser} {P : Nat → ℝ} {w t : Nat} (hw : 1 ≤ w) (hh : Obs h P w t) (hl : Obs l P w t)
    (ho : Obs o P w t) (hc : Obs c P w t) (hp : ∀ i ∈ Finset.Ico (t + 1 - w) (t + 1), 0 < P i) :
    (∀ u, highLowR fl h l w = .ok u → u[t]? = some (.fin 0)) ∧ (∀ u, garmanKlassR fl h l o c w = .ok u → u[t]? = some (.fin 0)) ∧
    ∀ u, rogersSatchellR fl h l o c w = .ok u → u[t]? = some (.fin 0) := by
  refine ⟨fun u hu => ?_, fun u hu => ?_, fun u hu => ?_⟩
  · obtain ⟨m, hm, h'⟩ := bind_ok hu
    cases h'
    have hp : 0 < parkR fl := R.pos (mul_pos (by norm_num) (R.pos (Real.log_pos (by norm_num))))
    rw [List.getElem?_map, mean_flat hw hm (obs_sqR R (obs_ratio R hh hl ‹_›)), Option.map_some, XF.div_fin hp.ne', zero_div]
    simp [rnd, R.zero]
  · obtain ⟨a, ha, h'⟩ := bind_ok hu
    obtain ⟨b, hb, h'⟩ := bind_ok h'
    cases h'
    have e1 := mean_flat hw ha (obs_scaleR R _ (obs_sqR R (obs_ratio R hh hl hp)))
    have e2 := mean_flat hw hb (obs_scaleR R _ (obs_sqR R (obs_ratio R hc ho hp)))
    rw [subR, op2_get _ e1 e2]
    simp [rnd, R.zero]
  · exact mean_flat hw hu (obs_addR R (obs_mulR R (obs_ratio R hh hc hp) (obs_ratio R hh ho hp))
      (obs_mulR R (obs_ratio R hl hc hp) (obs_ratio R hl ho hp)))

theorem diff_flat (R : Rounding fl) {x : Ser} {k : ℝ} {w t : Nat} (hx : Obs x (fun _ => k) (w + 1) t) :
    Obs (diffR fl x) (fun _ => 0) w t := by
  refine ⟨by have := hx.1; omega, fun i hi => ?_⟩
  rw [diffR, op2_get _ ((obs_sub hx (Nat.le_succ w)).2 i hi) ((obs_shift hx).2 i hi)]
  simp [rnd, R.zero]

theorem denR_pos (R : Rounding fl) : 0 < denR fl := by
  have h1 : Real.sqrt 2 ≤ 1.42 := Real.sqrt_le_iff.mpr ⟨by norm_num, by norm_num⟩
  have h2 := (abs_le.mp (R.rel (Real.sqrt 2))).2
  rw [abs_of_nonneg (Real.sqrt_nonneg 2)] at h2
  have h3 : fl (Real.sqrt 2) < 3 / 2 := by
    have : u64 * Real.sqrt 2 ≤ 1 / 100 := by
      calc u64 * Real.sqrt 2 ≤ u64 * 1.42 := mul_le_mul_of_nonneg_left h1 u64_pos.le
        _ ≤ 1 / 100 := by norm_num [u64]
    linarith
  refine R.pos ?_
  rw [R.two, R.idem]
  linarith

theorem sum_flat (R : Rounding fl) {x : Ser} {w t : Nat} (hw : 2 ≤ w) (hx : Obs x (fun _ => 0) w t) :
    (rollingSumR fl x w)[t]? = some (.fin 0) := by
  have ht : t < x.length := (List.getElem?_eq_some_iff.1 (hx.2 t (by simp; omega))).1
  have hwin := win_eq (by omega) hx
  have hz : ∀ v ∈ win w x t, v = 0 := by
    intro v hv
    rw [hwin] at hv
    obtain ⟨j, -, rfl⟩ := List.mem_map.1 hv
    rfl
  have hlen : (win w x t).length = w := by rw [hwin]; simp
  have hc := meanSt_cnt (fl := fl) hw x ht
  unfold rollingSumR
  rw [List.getElem?_map, List.getElem?_range ht, Option.map_some]
  rcases calcSum_spec (fl := fl) hc (win_prefix _ _ _) hlen.ge (by omega) with ⟨c, h1, e⟩ | ⟨hne, -⟩
  · have hmem : ∃ v, v ∈ win w x t := List.exists_mem_of_length_pos (by omega)
    obtain ⟨v, hv⟩ := hmem
    rw [e, ← h1 v hv, hz v hv, zero_mul, R.zero]
  · exact absurd ⟨0, hz⟩ hne

/-- C108. Where the price does not move, the close-to-close variance, Roll's measure and the Corwin-Schultz spread are exactly 0. -/
theorem flat_prices (R : Rounding fl) {h l c : Ser} {p : ℝ} {w t : Nat} (hw : 2 ≤ w) (hp : 0 < p) (hc : Obs c (fun _ => p) (w + 2) t)
    (hh : Obs h (fun _ => p) (w + 1) t) (hl : Obs l (fun _ => p) (w + 1) t) :
    (∀ u, closeCloseR fl c w = .ok u → u[t]? = some (.fin 0)) ∧ (∀ u, rollMeasureR fl c w = .ok u → u[t]? = some (.fin 0)) ∧
    ∀ u, corwinSchultzR fl h l w = .ok u → u[t]? = some (.fin 0) := by
  have ht : t < c.length := (List.getElem?_eq_some_iff.1 (hc.2 t (by simp))).1
  refine ⟨fun u hu => ?_, fun u hu => ?_, fun u hu => ?_⟩
  · have hd : Obs (divR fl c (shift 1 c)) (fun _ => 1) w t := by
      refine ⟨by have := hc.1; omega, fun i hi => ?_⟩
      rw [divR, op2_get _ ((obs_sub hc (by omega : w ≤ w + 2)).2 i hi) ((obs_shift (obs_sub hc (by omega : w + 1 ≤ w + 2))).2 i hi),
        XF.div_fin hp.ne', div_self hp.ne']
      simp [rnd, R.one]
    have hwin := win_eq (by omega) hd
    have hlt : t < (divR fl c (shift 1 c)).length := (List.getElem?_eq_some_iff.1 (hd.2 t (by simp; omega))).1
    obtain ⟨r, hr, hr0⟩ := (var_shape hu hlt).2 (by
      rw [Int.toNat_natCast, hwin]
      simp
      omega)
    rw [hr, hr0 ⟨1, fun v hv => ?_⟩]
    rw [Int.toNat_natCast, hwin] at hv
    obtain ⟨j, -, rfl⟩ := List.mem_map.1 hv
    rfl
  · obtain ⟨v, hv, h'⟩ := bind_ok hu
    cases h'
    obtain ⟨mxy, h1, h'⟩ := bind_ok hv
    obtain ⟨mx, h2, h'⟩ := bind_ok h'
    obtain ⟨my, h3, h'⟩ := bind_ok h'
    cases h'
    have hlog : Obs (c.map fun v => rnd fl v.log) (fun _ => fl (Real.log p)) (w + 2) t :=
      ⟨hc.1, fun i hi => by rw [List.getElem?_map, hc.2 i hi, Option.map_some, XF.log_fin hp]; rfl⟩
    have hd : Obs (diffR fl (c.map fun v => rnd fl v.log)) (fun _ => 0) (w + 1) t := diff_flat R hlog
    have hs := obs_shift hd
    have hd' := obs_sub hd (Nat.le_succ w)
    have m1 : Obs (op2 maskF (diffR fl (c.map fun v => rnd fl v.log)) (shift 1 (diffR fl (c.map fun v => rnd fl v.log)))) (fun _ => 0) w t :=
      ⟨hd'.1, fun i hi => by rw [op2_get _ (hd'.2 i hi) (hs.2 i hi)]; rfl⟩
    have m2 : Obs (op2 maskF (shift 1 (diffR fl (c.map fun v => rnd fl v.log))) (diffR fl (c.map fun v => rnd fl v.log))) (fun _ => 0) w t :=
      ⟨hd'.1, fun i hi => by rw [op2_get _ (hs.2 i hi) (hd'.2 i hi)]; rfl⟩
    have e1 := mean_flat (by omega) h1 (obs_mulR R m1 m2)
    have e2 := mean_flat (by omega) h2 m1
    have e3 := mean_flat (by omega) h3 m2
    have e4 : (mulR fl mx my)[t]? = some (.fin 0) := by
      rw [mulR, op2_get _ e2 e3]
      simp [rnd, R.zero]
    have hwr : ((w : Int) : ℝ) - 1 ≠ 0 := by
      have : (2 : ℝ) ≤ w := by exact_mod_cast hw
      push_cast
      linarith
    rw [List.getElem?_map, List.getElem?_map, subR, op2_get _ e1 e4, XF.div_fin hwr]
    simp [rnd, R.zero, XF.sqrt_fin]
  · obtain ⟨b, hb, h'⟩ := bind_ok hu
    obtain ⟨g, hg, h'⟩ := bind_ok h'
    cases h'
    have hsq : Obs ((logRatioR fl h l).map (sqR fl)) (fun _ => 0) (w + 1) t := obs_sqR R (obs_ratio R hh hl fun _ _ => hp)
    have h1 := hh.1
    have hbs : Obs (rollingSumR fl ((logRatioR fl h l).map (sqR fl)) 2) (fun _ => 0) w t := by
      refine ⟨by omega, fun i hi => sum_flat R le_rfl ⟨by rw [Finset.mem_Ico] at hi; omega, fun j hj => hsq.2 j ?_⟩⟩
      rw [Finset.mem_Ico] at hi hj ⊢
      omega
    have eb := mean_flat (by omega) hb hbs
    obtain ⟨h2, hh2, h'⟩ := bind_ok hg
    obtain ⟨l2, hl2, h'⟩ := bind_ok h'
    cases h'
    obtain ⟨M, hM, hMg⟩ := max_spec (w := 2) (by omega) hh2 (obs_sub hh (by omega))
    obtain ⟨m, hm, hmg⟩ := min_spec (w := 2) (by omega) hl2 (obs_sub hl (by omega))
    obtain ⟨_, _, eM⟩ := hMg.1
    obtain ⟨_, _, em⟩ := hmg.1
    dsimp only at eM em
    rw [← eM] at hM
    rw [← em] at hm
    have eg : ((logRatioR fl h2 l2).map (sqR fl))[t]? = some (.fin 0) := by
      unfold logRatioR
      rw [List.getElem?_map, List.getElem?_map, op2_get _ hM hm, XF.div_fin hp.ne', div_self hp.ne']
      simp only [Option.map_some, rnd, R.one]
      rw [XF.log_fin one_pos, Real.log_one]
      simp [sqR, rnd, R.zero]
    have hden : 0 < denR fl := denR_pos R
    have f1 : (b.map fun b => rnd fl (rnd fl (.fin (fl (fl (Real.sqrt 2) - 1)) * rnd fl b.sqrt) / .fin (denR fl)))[t]? = some (.fin 0) := by
      rw [List.getElem?_map, eb, Option.map_some, XF.sqrt_fin le_rfl, Real.sqrt_zero]
      simp only [rnd, R.zero, XF.mul_fin, mul_zero]
      rw [XF.div_fin hden.ne', zero_div]
      simp only [R.zero]
    have f2 : ((List.map (sqR fl) (logRatioR fl h2 l2)).map fun g => -(rnd fl (rnd fl (g / .fin (denR fl))).sqrt))[t]? = some (.fin 0) := by
      rw [List.getElem?_map, eg, Option.map_some, XF.div_fin hden.ne', zero_div]
      simp only [rnd, R.zero]
      rw [XF.sqrt_fin le_rfl, Real.sqrt_zero]
      simp [R.zero]
    unfold alphaR
    rw [List.getElem?_map, List.getElem?_map, subR, op2_get _ f1 f2]
    simp only [Option.map_some, XF.sub_fin, sub_self, rnd, R.zero, Props.MicroSpread.clamp_fin, max_self]
    have h2 := R.two 1
    rw [mul_one, R.one, mul_one] at h2
    have h3 : fl (1 + 1) = 2 := by rw [one_add_one_eq_two, h2]
    unfold spreadOfR
    simp only [XF.exp, Real.exp_zero, rnd, R.one, XF.sub_fin, XF.add_fin, XF.mul_fin, sub_self, R.zero, mul_zero, h3]
    rw [XF.div_fin two_ne_zero, zero_div]
    simp only [R.zero]

/-! ### A negative variance -/

/-- A wrong first price, 1 instead of about 134 million. -/
def badClose : Ser := [.fin 1, .fin 134217728, .fin 134217728, .fin 134217728, .fin 268435456]

theorem bad_ratio : divR b64 badClose (shift 1 badClose) = .nan :: badTick := by
  have h1 : b64 134217728 = 134217728 := b64_fix 1 27 (by norm_num) (by norm_num) (by norm_num)
  have h2 : b64 1 = 1 := b64_fix 1 0 (by norm_num) (by norm_num) (by norm_num)
  have h3 : b64 2 = 2 := b64_fix 1 1 (by norm_num) (by norm_num) (by norm_num)
  have hs : shift 1 badClose = [.nan, .fin 1, .fin 134217728, .fin 134217728, .fin 134217728] := by
    simp [shift, badClose, List.range_succ]
  rw [hs]
  simp only [divR, badClose, op2, badTick, List.cons.injEq]
  refine ⟨by simp [rnd], ?_, ?_, ?_, ?_, rfl⟩ <;> (rw [XF.div_fin (by norm_num)]; norm_num [rnd]; assumption)

theorem bad_step1' : (⟨0, 0, 0, 0, 0, 0, .nan⟩ : VarSt).add b64 (.fin 134217728) = (⟨1, 134217728, 0, 0, 0, 1, .fin 134217728⟩ : VarSt) := by
  have h0 : b64 (0 - 0) = 0 := b64_z (by norm_num)
  have h1 : b64 (134217728 - 0) = 134217728 := b64_fix 1 27 (by norm_num) (by norm_num) (by norm_num)
  have h4 : b64 (134217728 / ((0 + 1 : Nat) : ℝ)) = 134217728 := b64_fix 1 27 (by norm_num) (by norm_num) (by norm_num)
  have h5 : b64 (0 + 134217728) = 134217728 := b64_fix 1 27 (by norm_num) (by norm_num) (by norm_num)
  have h7 : b64 (134217728 - 134217728) = 0 := b64_z (by norm_num)
  have h8 : b64 (134217728 * 0) = 0 := b64_z (by norm_num)
  have h9 : b64 (0 + 0) = 0 := b64_z (by norm_num)
  have h10 : b64 (134217728 + 0) = 134217728 := b64_fix 1 27 (by norm_num) (by norm_num) (by norm_num)
  rw [VarSt.add_val h0 h1 h1 h4 h5 h1 h7 h8 h9 h10 h7]
  simp

/-- Finding of C108: `get_close_close_volatility` can be negative. -/
theorem negative_volatility : ∃ u r, closeCloseR b64 badClose 3 = .ok u ∧ u[4]? = some (.fin r) ∧ r < 0 := by
  have e0 : varSt b64 3 (.nan :: badTick) 0 = (⟨0, 0, 0, 0, 0, 0, .nan⟩ : VarSt) := rfl
  have e1 : varSt b64 3 (.nan :: badTick) 1 = (varSt b64 3 (.nan :: badTick) 0).add b64 (.fin 134217728) := by rw [varSt]; rfl
  have e2 : varSt b64 3 (.nan :: badTick) 2 = (varSt b64 3 (.nan :: badTick) 1).add b64 (.fin 1) := by rw [varSt]; rfl
  have e3 : varSt b64 3 (.nan :: badTick) 3 = (varSt b64 3 (.nan :: badTick) 2).add b64 (.fin 1) := by rw [varSt]; rfl
  have e4 : varSt b64 3 (.nan :: badTick) 4 = ((varSt b64 3 (.nan :: badTick) 3).remove b64 (.fin 134217728)).add b64 (.fin 2) := by
    rw [varSt]; rfl
  refine ⟨_, -3002399729210709 / 4503599627370496, rfl, ?_, by norm_num⟩
  rw [bad_ratio, List.getElem?_map, List.getElem?_range (by simp [badTick]), Option.map_some, if_neg (by norm_num),
    show (3 : Int).toNat = 3 from rfl, e4, e3, e2, e1, e0, bad_step1', bad_step2, bad_step3, bad_step4, bad_step5]
  unfold VarSt.calc
  simp only
  rw [if_pos (by norm_num), if_neg (by norm_num)]
  congr 2
  exact b64_fix (-3002399729210709) (-52) (by norm_num) (by norm_num) (by norm_num)

/-! ### Concrete cases -/

theorem b64_nat (n : ℕ) (h : n ≤ 1000) : b64 n = n :=
  b64_rounding.int n (by
    rw [abs_of_nonneg (by positivity)]
    have : (n : ℤ) ≤ 1000 := by exact_mod_cast h
    linarith)

theorem trades_case : Trades b64 [.fin 4, .fin 6, .fin 6] [.fin 3, .fin 6, .fin 0] := by
  have h0 : b64 0 = 0 := b64_zero
  have h3 : b64 3 = 3 := by simpa using b64_nat 3 (by norm_num)
  have h4 : b64 4 = 4 := by simpa using b64_nat 4 (by norm_num)
  have h6 : b64 6 = 6 := by simpa using b64_nat 6 (by norm_num)
  refine ⟨rfl, fun i V B hV hB => ?_⟩
  match i with
  | 0 => simp at hV hB; subst hV hB; exact ⟨h4, h3, by norm_num, by norm_num⟩
  | 1 => simp at hV hB; subst hV hB; exact ⟨h6, h6, by norm_num, by norm_num⟩
  | 2 => simp at hV hB; subst hV hB; exact ⟨h6, h0, by norm_num, by norm_num⟩
  | n + 3 => simp at hV

/-- One-sided trades after a mixed bar: VPIN is exactly 1. -/
example : ∃ u, vpinR b64 [.fin 4, .fin 6, .fin 6] [.fin 3, .fin 6, .fin 0] 2 = .ok u ∧ (u[2]? = some .nan ∨ u[2]? = some (.fin 1)) := by
  obtain ⟨u, hu⟩ : ∃ u, vpinR b64 [.fin 4, .fin 6, .fin 6] [.fin 3, .fin 6, .fin 0] 2 = .ok u := ⟨_, rfl⟩
  have hl : 2 < u.length := by
    rw [mean_len hu]
    simp [imbalanceR, divR, subR, op2_length]
  refine ⟨u, hu, ?_⟩
  rcases vpin_round b64_rounding trades_case hu (List.getElem?_eq_getElem hl) with h | ⟨r, h, -, -, h1, -⟩
  · left; rw [List.getElem?_eq_getElem hl, h]
  · right
    rw [List.getElem?_eq_getElem hl, h, h1]
    intro i V B i1 i2 hV hB
    have : i = 1 ∨ i = 2 := by
      have : (2 : Int).toNat = 2 := rfl
      omega
    rcases this with rfl | rfl
    · simp at hV hB
      subst hV hB
      exact .inr rfl
    · simp at hV hB
      subst hV hB
      exact .inl rfl

/-- A bar that moves and two that do not. -/
example : ∃ u, rogersSatchellR b64 [.fin 9, .fin 3, .fin 5] [.fin 2, .fin 3, .fin 5] [.fin 4, .fin 3, .fin 5] [.fin 8, .fin 3, .fin 5] (2 : Nat) = .ok u ∧
    u[2]? = some (.fin 0) := by
  obtain ⟨u, hu⟩ : ∃ u, rogersSatchellR b64 [.fin 9, .fin 3, .fin 5] [.fin 2, .fin 3, .fin 5] [.fin 4, .fin 3, .fin 5] [.fin 8, .fin 3, .fin 5]
    (2 : Nat) = .ok u := ⟨_, rfl⟩
  have ob : ∀ a : XF, Obs [a, .fin 3, .fin 5] (fun i => if i = 1 then 3 else 5) 2 2 := fun a => by
    refine ⟨by norm_num, fun i hi => ?_⟩
    rw [Finset.mem_Ico] at hi
    have : i = 1 ∨ i = 2 := by omega
    rcases this with rfl | rfl <;> simp
  refine ⟨u, hu, (flat_bars b64_rounding (by norm_num) (ob _) (ob _) (ob _) (ob _) fun i _ => ?_).2.2 u hu⟩
  split <;> norm_num

/-- Prices that stop moving. -/
example : ∃ u, rollMeasureR b64 [.fin 3, .fin 7, .fin 7, .fin 7, .fin 7] (2 : Nat) = .ok u ∧ u[4]? = some (.fin 0) := by
  obtain ⟨u, hu⟩ : ∃ u, rollMeasureR b64 [.fin 3, .fin 7, .fin 7, .fin 7, .fin 7] (2 : Nat) = .ok u := ⟨_, rfl⟩
  have ob : Obs [.fin 3, .fin 7, .fin 7, .fin 7, .fin 7] (fun _ => (7 : ℝ)) (2 + 2) 4 := by
    refine ⟨by norm_num, fun i hi => ?_⟩
    rw [Finset.mem_Ico] at hi
    have : i = 1 ∨ i = 2 ∨ i = 3 ∨ i = 4 := by omega
    rcases this with rfl | rfl | rfl | rfl <;> simp
  exact ⟨u, hu, (flat_prices b64_rounding (le_refl 2) (by norm_num) ob (obs_sub ob (by norm_num)) (obs_sub ob (by norm_num))).2.1 u hu⟩

/-- Kyle's lambda with positive volumes. -/
example : ∃ u, kyleR b64 [.fin 3, .fin 7, .fin 5] [.fin 2, .fin 4, .fin 1] 2 = .ok u ∧ NonNeg u := by
  obtain ⟨u, hu⟩ : ∃ u, kyleR b64 [.fin 3, .fin 7, .fin 5] [.fin 2, .fin 4, .fin 1] 2 = .ok u := ⟨_, rfl⟩
  refine ⟨u, hu, kyle_round b64_rounding (by rfl) (fun i V hV => ?_) hu⟩
  match i with
  | 0 => simp at hV; subst hV; norm_num
  | 1 => simp at hV; subst hV; norm_num
  | 2 => simp at hV; subst hV; norm_num
  | n + 3 => simp at hV

/-- Bars as in the market. -/
example : ∃ u, yangZhangR b64 [.fin 9, .fin 6] [.fin 2, .fin 3] [.fin 4, .fin 3] [.fin 8, .fin 5] 2 = .ok u ∧ NonNeg u := by
  obtain ⟨k, hk, -⟩ := yzCoeffR_range b64_rounding (le_refl 2)
  obtain ⟨u, hu⟩ : ∃ u, yangZhangR b64 [.fin 9, .fin 6] [.fin 2, .fin 3] [.fin 4, .fin 3] [.fin 8, .fin 5] 2 = .ok u := by
    unfold yangZhangR
    rw [hk]
    exact ⟨_, rfl⟩
  have hB : Bars [.fin 9, .fin 6] [.fin 2, .fin 3] [.fin 4, .fin 3] [.fin 8, .fin 5] := by
    refine ⟨rfl, rfl, rfl, fun i H L O C hH hL hO hC => ?_⟩
    match i with
    | 0 => simp at hH hL hO hC; subst hH hL hO hC; norm_num
    | 1 => simp at hH hL hO hC; subst hH hL hO hC; norm_num
    | n + 2 => simp at hH
  exact ⟨u, hu, yangZhang_round b64_rounding (by norm_num) hB hu⟩

end Verif.Roll
