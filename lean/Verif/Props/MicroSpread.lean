import Verif.Props.MicroVol
import Mathlib.Analysis.Real.Pi.Bounds

/-!
# C56: Corwin-Schultz spread and Becker-Parkinson volatility
-/

namespace Verif.Props.MicroSpread

open Verif Ser Micro Finset IndRolling MicroVol

theorem sqrt_two_gt : 1 < Real.sqrt 2 := by
  rw [Real.lt_sqrt] <;> norm_num

theorem den_eq : den = (Real.sqrt 2 - 1) ^ 2 := by
  have : Real.sqrt 2 ^ 2 = 2 := Real.sq_sqrt (by norm_num)
  rw [den]
  ring_nf
  rw [this]
  ring

theorem den_pos : 0 < den := by
  rw [den_eq]
  have := sqrt_two_gt
  exact pow_pos (by linarith) 2

/-! ## The two ingredients -/

theorem rolling_sum_obs {x u : Ser} {w : Nat} (hw : 1 ≤ w) (hu : rolling w sumF x = .ok u) {t : Nat} {a : XF}
    (ha : u[t]? = some a) :
    a = .nan ∨ ∃ y, Obs x y w t ∧ a = .fin (∑ i ∈ Ico (t + 1 - w) (t + 1), y i) := by
  have ht : t < x.length := by
    rw [← rolling_length hu]
    exact (List.getElem?_eq_some_iff.1 ha).1
  by_cases h : ∃ y, Obs x y w t
  · obtain ⟨y, hy⟩ := h
    right
    rw [rolling_get hu ht, Int.toNat_natCast, rollAt_obs hw hy, sumF, sum_window' _ hy.1] at ha
    exact ⟨y, hy, (Option.some.inj ha).symm⟩
  · left
    have := rolling_nan hu ht fun y hy => h ⟨y, hy⟩
    rw [ha] at this
    exact Option.some.inj this

theorem sum_spec {x u : Ser} {w : Nat} (hw : 1 ≤ w) (hu : rolling w sumF x = .ok u) {t : Nat} {y : Nat → ℝ}
    (h : Obs x y w t) : u[t]? = some (.fin (∑ i ∈ Ico (t + 1 - w) (t + 1), y i)) := by
  have ht : t < x.length := (List.getElem?_eq_some_iff.1 (h.2 t (by rw [mem_Ico]; omega))).1
  rw [rolling_get hu ht, Int.toNat_natCast, rollAt_obs hw h, sumF, sum_window' _ h.1]

/-- Where `beta` is a number, it is non-negative and the last two bars have non-zero highs and lows. -/
theorem beta_cases {h l u : Ser} {w : Int} (hl : h.length = l.length) (hu : beta h l w = .ok u) {t : Nat} {a : XF}
    (ha : u[t]? = some a) :
    a = .nan ∨ ((∃ r, a = .fin r ∧ 0 ≤ r) ∧ ∃ H L : Nat → ℝ, Obs h H 2 t ∧ Obs l L 2 t ∧
      ∀ i ∈ Ico (t - 1) (t + 1), H i ≠ 0 ∧ L i ≠ 0) := by
  obtain ⟨s, hs, hm⟩ := bind_ok hu
  have hs0 : ∀ (i : Nat) (b : XF), s[i]? = some b → b = .nan ∨ ∃ y, Obs ((logRatio h l).map sqF) y 2 i ∧
      b = .fin (∑ j ∈ Ico (i + 1 - 2) (i + 1), y j) := fun i b hb => rolling_sum_obs (w := 2) (by omega) hs hb
  have hy0 : ∀ (y : Nat → ℝ) (i : Nat), Obs ((logRatio h l).map sqF) y 2 i →
      ∀ j ∈ Ico (i + 1 - 2) (i + 1), 0 ≤ y j ∧ ∃ H L, h[j]? = some (.fin H) ∧ l[j]? = some (.fin L) ∧ H ≠ 0 ∧ L ≠ 0 := by
    intro y i hy j hj
    have e := hy.2 j hj
    rw [List.getElem?_map] at e
    obtain ⟨v, hv, hr⟩ := Option.map_eq_some_iff.1 e
    obtain ⟨g, rfl, hg⟩ := XF.sqF_eq_fin hr
    obtain ⟨H, L, hH, hL, hL0, hpos, -⟩ := logRatio_get_inv hl hv
    refine ⟨by rw [hg]; exact sq_nonneg g, H, L, hH, hL, ?_, hL0⟩
    rintro rfl
    rw [zero_div] at hpos
    exact lt_irrefl _ hpos
  have hfine : ∀ v ∈ s, ∀ r, v = .fin r → 0 ≤ r := by
    rintro v hv r rfl
    obtain ⟨i, hi⟩ := List.mem_iff_getElem?.1 hv
    rcases hs0 i _ hi with h0 | ⟨y, hy, hb⟩
    · cases h0
    · rw [XF.fin.inj hb]
      exact Finset.sum_nonneg fun j hj => (hy0 y i hy j hj).1
  rcases rolling_mean_cases hm ha with rfl | ⟨z, hw, hz, rfl⟩
  · exact .inl rfl
  · right
    refine ⟨⟨_, rfl, ?_⟩, ?_⟩
    · rcases IndRsi.rolling_fine hfine hm ha with h0 | ⟨r, hr, h0⟩
      · cases h0
      · rw [XF.fin.inj hr]; exact h0
    · have e := hz.2 t (by rw [mem_Ico]; omega)
      rcases hs0 t _ e with h0 | ⟨y, hy, -⟩
      · cases h0
      · have hb := hy.1
        have hidx : Ico (t + 1 - 2) (t + 1) = Ico (t - 1) (t + 1) := by congr 1
        choose H L hH hL hH0 hL0 using fun j (hj : j ∈ Ico (t + 1 - 2) (t + 1)) => (hy0 y t hy j hj).2
        classical
        refine ⟨fun j => if hj : j ∈ Ico (t + 1 - 2) (t + 1) then H j hj else 0,
          fun j => if hj : j ∈ Ico (t + 1 - 2) (t + 1) then L j hj else 0, ⟨hb, fun i hi => ?_⟩, ⟨hb, fun i hi => ?_⟩,
          fun i hi => ?_⟩
        · dsimp only; rw [dif_pos hi]; exact hH i hi
        · dsimp only; rw [dif_pos hi]; exact hL i hi
        · rw [← hidx] at hi
          dsimp only
          rw [dif_pos hi, dif_pos hi]
          exact ⟨hH0 i hi, hL0 i hi⟩

/-- `gamma` is NaN or a non-negative number wherever the last two bars have non-zero highs and lows. -/
theorem gamma_cases {h l u : Ser} (hu : gamma h l = .ok u) {t : Nat} {H L : Nat → ℝ} (hh : Obs h H 2 t)
    (hl : Obs l L 2 t) (h0 : ∀ i ∈ Ico (t - 1) (t + 1), H i ≠ 0 ∧ L i ≠ 0) :
    ∃ a, u[t]? = some a ∧ (a = .nan ∨ ∃ r, a = .fin r ∧ 0 ≤ r) := by
  obtain ⟨h2, hh2, h'⟩ := bind_ok hu
  obtain ⟨l2, hl2, h'⟩ := bind_ok h'
  cases h'
  obtain ⟨M, hM, hMg⟩ := max_spec (w := 2) (by omega) hh2 hh
  obtain ⟨m, hm, hmg⟩ := min_spec (w := 2) (by omega) hl2 hl
  have hM0 : M ≠ 0 := by
    obtain ⟨i, hi, rfl⟩ := hMg.1
    exact (h0 i (by rw [mem_Ico]; rw [Set.mem_Ico] at hi; omega)).1
  have hm0 : m ≠ 0 := by
    obtain ⟨i, hi, rfl⟩ := hmg.1
    exact (h0 i (by rw [mem_Ico]; rw [Set.mem_Ico] at hi; omega)).2
  rw [List.getElem?_map, logRatio, List.getElem?_map, op2_get _ hM hm]
  refine ⟨_, rfl, ?_⟩
  rw [XF.div_fin hm0]
  simp only [XF.log]
  by_cases hp : 0 < M / m
  · rw [if_pos hp, XF.sqF_fin]
    exact .inr ⟨_, rfl, sq_nonneg _⟩
  · rw [if_neg hp, if_neg (div_ne_zero hM0 hm0)]
    exact .inl rfl

/-- The specification of the ingredients: `beta` is the rolling mean of the sums of squared log ranges of two adjacent bars,
`gamma` the squared log range over the last two bars. -/
theorem beta_spec {h l u : Ser} {H L : Nat → ℝ} {w t : Nat} (hw : 1 ≤ w) (hu : beta h l w = .ok u)
    (hh : Obs h H (w + 1) t) (hl : Obs l L (w + 1) t) (hpos : ∀ i ∈ Ico (t - w) (t + 1), 0 < H i ∧ 0 < L i) :
    u[t]? = some (.fin (meanOf (fun i => Real.log (H (i - 1) / L (i - 1)) ^ 2 + Real.log (H i / L i) ^ 2) w t)) := by
  obtain ⟨s, hs, hm⟩ := bind_ok hu
  have hb := hh.1
  refine mean_spec hw hm ⟨by omega, fun i hi => ?_⟩
  rw [mem_Ico] at hi
  obtain ⟨j, rfl⟩ : ∃ j, i = j + 1 := ⟨i - 1, by omega⟩
  have ho : Obs ((logRatio h l).map sqF) (fun i => Real.log (H i / L i) ^ 2) 2 (j + 1) := by
    refine ⟨by omega, fun m hm' => ?_⟩
    rw [mem_Ico] at hm'
    have hmem : m ∈ Ico (t + 1 - (w + 1)) (t + 1) := by rw [mem_Ico]; omega
    have hp := hpos m (by rw [mem_Ico]; omega)
    rw [List.getElem?_map, logRatio_get (hh.2 m hmem) (hl.2 m hmem) hp.1 hp.2, Option.map_some, XF.sqF_fin]
  have e := sum_spec (w := 2) (by omega) hs ho
  rw [e]
  rw [show j + 1 + 1 - 2 = j by omega, Finset.sum_Ico_succ_top (by omega), Finset.sum_Ico_succ_top (by omega)]
  simp

theorem gamma_spec {h l u : Ser} {H L : Nat → ℝ} {t : Nat} (hu : gamma h l = .ok u) (hh : Obs h H 2 t)
    (hl : Obs l L 2 t) (hpos : ∀ i ∈ Ico (t - 1) (t + 1), 0 < H i ∧ 0 < L i) :
    u[t]? = some (.fin (Real.log (max (H (t - 1)) (H t) / min (L (t - 1)) (L t)) ^ 2)) := by
  obtain ⟨h2, hh2, h'⟩ := bind_ok hu
  obtain ⟨l2, hl2, h'⟩ := bind_ok h'
  cases h'
  have hb := hh.1
  obtain ⟨M, hM, hMg⟩ := max_spec (w := 2) (by omega) hh2 hh
  obtain ⟨m, hm, hmg⟩ := min_spec (w := 2) (by omega) hl2 hl
  have hset : Set.Ico (t + 1 - 2) (t + 1) = {t - 1, t} := by
    ext i
    simp only [Set.mem_Ico, Set.mem_insert_iff, Set.mem_singleton_iff]
    omega
  rw [hset] at hMg hmg
  have eM : M = max (H (t - 1)) (H t) := by
    apply hMg.unique
    constructor
    · rcases le_total (H (t - 1)) (H t) with hle | hle
      · exact ⟨t, by simp, (max_eq_right hle).symm⟩
      · exact ⟨t - 1, by simp, (max_eq_left hle).symm⟩
    · rintro _ ⟨i, hi, rfl⟩
      rcases hi with rfl | rfl
      · exact le_max_left _ _
      · exact le_max_right _ _
  have em : m = min (L (t - 1)) (L t) := by
    apply hmg.unique
    constructor
    · rcases le_total (L (t - 1)) (L t) with hle | hle
      · exact ⟨t - 1, by simp, (min_eq_left hle).symm⟩
      · exact ⟨t, by simp, (min_eq_right hle).symm⟩
    · rintro _ ⟨i, hi, rfl⟩
      rcases hi with rfl | rfl
      · exact min_le_left _ _
      · exact min_le_right _ _
  have hp1 := hpos (t - 1) (by rw [mem_Ico]; omega)
  have hp2 := hpos t (by rw [mem_Ico]; omega)
  rw [List.getElem?_map, logRatio_get hM hm (by rw [eM]; exact lt_max_of_lt_left hp1.1)
    (by rw [em]; exact lt_min hp1.2 hp2.2), Option.map_some, XF.sqF_fin, eM, em]

theorem clamp_nan : clamp .nan = .nan := by rw [clamp, if_neg (XF.nan_lt _)]

theorem clamp_fin (r : ℝ) : clamp (.fin r) = .fin (max 0 r) := by
  by_cases h : r < 0
  · have h' : XF.lt (.fin r) (.fin 0) := h
    rw [clamp, if_pos h', max_eq_left h.le]
  · have h' : ¬ XF.lt (.fin r) (.fin 0) := h
    rw [clamp, if_neg h', max_eq_right (not_lt.1 h)]

theorem beta_length {h l b : Ser} {w : Int} (hl : h.length = l.length) (hb : beta h l w = .ok b) :
    b.length = h.length := by
  obtain ⟨s, hs, hm⟩ := bind_ok hb
  rw [rolling_length hm, rolling_length hs, List.length_map, logRatio_length hl]

theorem gamma_length {h l g : Ser} (hl : h.length = l.length) (hg : gamma h l = .ok g) : g.length = h.length := by
  obtain ⟨h2, hh2, h''⟩ := bind_ok hg
  obtain ⟨l2, hl2, h''⟩ := bind_ok h''
  cases h''
  rw [List.length_map, logRatio_length (by rw [rolling_length hh2, rolling_length hl2, hl]), rolling_length hh2]

/-! ## Corwin-Schultz -/

theorem spreadOf_fin (a : ℝ) : spreadOf (.fin a) = .fin (2 * (Real.exp a - 1) / (Real.exp a + 1)) := by
  have : Real.exp a + 1 ≠ 0 := by positivity
  show (.fin 2 * (.fin (Real.exp a) - .fin 1) / (.fin (Real.exp a) + .fin 1) : XF) = _
  rw [XF.sub_fin, XF.mul_fin, XF.add_fin, XF.div_fin this]

/-- The link function on the numbers: strictly increasing, 0 at 0, below 2. -/
noncomputable def link (a : ℝ) : ℝ := 2 * (Real.exp a - 1) / (Real.exp a + 1)

theorem link_zero : link 0 = 0 := by simp [link]

theorem link_eq (a : ℝ) : link a = 2 - 4 / (Real.exp a + 1) := by
  have : Real.exp a + 1 ≠ 0 := by positivity
  rw [link]
  field_simp
  ring

theorem link_strictMono : StrictMono link := by
  intro a b hab
  rw [link_eq, link_eq]
  have h1 := Real.exp_lt_exp.2 hab
  have h0 : 0 < Real.exp a + 1 := by positivity
  have : 4 / (Real.exp b + 1) < 4 / (Real.exp a + 1) := by
    apply div_lt_div_of_pos_left <;> linarith
  linarith

theorem link_lt (a : ℝ) : link a < 2 := by
  rw [link_eq]
  have : 0 < 4 / (Real.exp a + 1) := by positivity
  linarith

/-- The value that is clamped is never negative. -/
theorem alpha_value {b g : ℝ} (hb : 0 ≤ b) (hg : 0 ≤ g) :
    (.fin (Real.sqrt 2 - 1) * (XF.fin b).sqrt / .fin den - -(XF.fin g / .fin den).sqrt : XF) =
      .fin ((Real.sqrt b + Real.sqrt g) / (Real.sqrt 2 - 1)) := by
  have hd := den_pos
  have hs : 0 < Real.sqrt 2 - 1 := by linarith [sqrt_two_gt]
  rw [XF.sqrt_fin hb, XF.mul_fin, XF.div_fin hd.ne', XF.div_fin hd.ne', XF.sqrt_fin (div_nonneg hg hd.le), XF.neg_fin,
    XF.sub_fin, Real.sqrt_div hg, den_eq, Real.sqrt_sq hs.le]
  congr 1
  field_simp
  ring

/-- `alpha` before the assignment `alpha[alpha < 0] = 0`. -/
noncomputable def alphaRaw (beta gamma : Ser) : Ser :=
  op2 (· - ·) (beta.map fun b => .fin (Real.sqrt 2 - 1) * b.sqrt / .fin den)
    (gamma.map fun g => -(g / .fin den).sqrt)

theorem alphaRaw_cases {h l b g : Ser} {w : Int} (hl : h.length = l.length) (hb : beta h l w = .ok b)
    (hg : gamma h l = .ok g) {t : Nat} {v : XF} (hv : (alphaRaw b g)[t]? = some v) :
    v = .nan ∨ ∃ r, v = .fin r ∧ 0 ≤ r := by
  obtain ⟨p, q, hp, hq, rfl⟩ := op2_get_inv
    (by rw [List.length_map, List.length_map, beta_length hl hb, gamma_length hl hg]) hv
  rw [List.getElem?_map] at hp hq
  obtain ⟨p', hp', rfl⟩ := Option.map_eq_some_iff.1 hp
  obtain ⟨q', hq', rfl⟩ := Option.map_eq_some_iff.1 hq
  rcases beta_cases hl hb hp' with rfl | ⟨⟨r, rfl, hr⟩, H, L, hH, hL, h0⟩
  · left
    simp
  · obtain ⟨q'', hq'', hc⟩ := gamma_cases hg hH hL h0
    rw [hq'] at hq''
    cases hq''
    rcases hc with rfl | ⟨s, rfl, hs⟩
    · left
      simp
    · right
      rw [alpha_value hr hs]
      exact ⟨_, rfl, div_nonneg (by positivity) (by linarith [sqrt_two_gt])⟩

/-- The assignment `alpha[alpha < 0] = 0` never changes anything, whatever the data. -/
theorem clamp_dead {h l b g : Ser} {w : Int} (hl : h.length = l.length) (hb : beta h l w = .ok b)
    (hg : gamma h l = .ok g) : alpha b g = alphaRaw b g := by
  show (alphaRaw b g).map clamp = _
  conv_rhs => rw [← List.map_id (alphaRaw b g)]
  refine List.map_congr_left fun v hv => ?_
  obtain ⟨t, ht⟩ := List.mem_iff_getElem?.1 hv
  rcases alphaRaw_cases hl hb hg ht with rfl | ⟨r, rfl, hr⟩
  · exact clamp_nan
  · rw [clamp_fin, max_eq_right hr]; rfl

/-- The Corwin-Schultz function returns NaN or a number in [0, 2), for all data. -/
theorem corwinSchultz_range {h l u : Ser} {w : Int} (hl : h.length = l.length) (hu : corwinSchultz h l w = .ok u)
    {t : Nat} {a : XF} (ha : u[t]? = some a) : a = .nan ∨ ∃ r, a = .fin r ∧ 0 ≤ r ∧ r < 2 := by
  obtain ⟨b, hb, h'⟩ := bind_ok hu
  obtain ⟨g, hg, h'⟩ := bind_ok h'
  cases h'
  rw [clamp_dead hl hb hg, List.getElem?_map] at ha
  obtain ⟨v, hv, rfl⟩ := Option.map_eq_some_iff.1 ha
  rcases alphaRaw_cases hl hb hg hv with rfl | ⟨r, rfl, hr⟩
  · left
    simp [spreadOf, XF.exp]
  · right
    rw [spreadOf_fin]
    refine ⟨_, rfl, ?_, link_lt _⟩
    have := link_strictMono.monotone hr
    rwa [link_zero] at this

/-- The `alpha` of Corwin and Schultz: `(sqrt(2 beta) - sqrt(beta)) / (3 - 2 sqrt 2) - sqrt(gamma / (3 - 2 sqrt 2))`,
replaced by zero if negative. -/
noncomputable def alphaRef (b g : ℝ) : ℝ :=
  max 0 ((Real.sqrt (2 * b) - Real.sqrt b) / (3 - 2 * Real.sqrt 2) - Real.sqrt (g / (3 - 2 * Real.sqrt 2)))

theorem alphaRef_eq {b g : ℝ} (_hb : 0 ≤ b) (hg : 0 ≤ g) :
    alphaRef b g = max 0 ((Real.sqrt b - Real.sqrt g) / (Real.sqrt 2 - 1)) := by
  have hs : 0 < Real.sqrt 2 - 1 := by linarith [sqrt_two_gt]
  have hd := den_eq
  rw [den] at hd
  rw [alphaRef, hd, Real.sqrt_div hg, Real.sqrt_sq hs.le, Real.sqrt_mul (by norm_num)]
  congr 1
  field_simp

/-- What the function computes on positive prices, and how far it is from the estimator of Corwin and Schultz (the second
term of `alpha` is added instead of subtracted): it is at least as large, and larger unless `gamma` is zero. -/
theorem corwinSchultz_spec {h l u : Ser} {H L : Nat → ℝ} {w t : Nat} (hw : 1 ≤ w) (hu : corwinSchultz h l w = .ok u)
    (hh : Obs h H (w + 1) t) (hl : Obs l L (w + 1) t) (hpos : ∀ i ∈ Ico (t - w) (t + 1), 0 < H i ∧ 0 < L i) :
    ∃ b g, b = meanOf (fun i => Real.log (H (i - 1) / L (i - 1)) ^ 2 + Real.log (H i / L i) ^ 2) w t ∧
      g = Real.log (max (H (t - 1)) (H t) / min (L (t - 1)) (L t)) ^ 2 ∧
      u[t]? = some (.fin (link ((Real.sqrt b + Real.sqrt g) / (Real.sqrt 2 - 1)))) ∧
      link (alphaRef b g) ≤ link ((Real.sqrt b + Real.sqrt g) / (Real.sqrt 2 - 1)) ∧
      (g ≠ 0 → link (alphaRef b g) < link ((Real.sqrt b + Real.sqrt g) / (Real.sqrt 2 - 1))) := by
  obtain ⟨b, hb, h'⟩ := bind_ok hu
  obtain ⟨g, hg, h'⟩ := bind_ok h'
  cases h'
  have hbd := hh.1
  have eb := beta_spec hw hb hh hl hpos
  have eg := gamma_spec hg (obs_sub hh (by omega)) (obs_sub hl (by omega)) fun i hi =>
    hpos i (by rw [mem_Ico] at hi ⊢; omega)
  refine ⟨_, _, rfl, rfl, ?_⟩
  have b0 : 0 ≤ meanOf (fun i => Real.log (H (i - 1) / L (i - 1)) ^ 2 + Real.log (H i / L i) ^ 2) w t :=
    meanOf_nonneg fun i _ => by positivity
  have g0 := sq_nonneg (Real.log (max (H (t - 1)) (H t) / min (L (t - 1)) (L t)))
  generalize meanOf (fun i => Real.log (H (i - 1) / L (i - 1)) ^ 2 + Real.log (H i / L i) ^ 2) w t = β at eb b0 ⊢
  generalize Real.log (max (H (t - 1)) (H t) / min (L (t - 1)) (L t)) ^ 2 = γ at eg g0 ⊢
  have hs : 0 < Real.sqrt 2 - 1 := by linarith [sqrt_two_gt]
  have h1 : 0 ≤ (Real.sqrt β + Real.sqrt γ) / (Real.sqrt 2 - 1) := div_nonneg (by positivity) hs.le
  refine ⟨?_, ?_, fun hγ => ?_⟩
  · have e1 : (b.map fun b => XF.fin (Real.sqrt 2 - 1) * b.sqrt / .fin den)[t]? =
        some (.fin (Real.sqrt 2 - 1) * (XF.fin β).sqrt / .fin den) := by rw [List.getElem?_map, eb]; rfl
    have e2 : (g.map fun g => -(g / XF.fin den).sqrt)[t]? = some (-(XF.fin γ / .fin den).sqrt) := by
      rw [List.getElem?_map, eg]; rfl
    rw [List.getElem?_map, alpha, List.getElem?_map, op2_get _ e1 e2, alpha_value b0 g0]
    simp only [Option.map_some]
    rw [clamp_fin, max_eq_right h1, spreadOf_fin]
    rfl
  · apply link_strictMono.monotone
    rw [alphaRef_eq b0 g0]
    apply max_le h1
    apply div_le_div_of_nonneg_right _ hs.le
    linarith [Real.sqrt_nonneg γ]
  · apply link_strictMono
    have hg1 : 0 < Real.sqrt γ := Real.sqrt_pos.2 (lt_of_le_of_ne g0 (Ne.symm hγ))
    rw [alphaRef_eq b0 g0]
    apply max_lt
    · exact div_pos (by have := Real.sqrt_nonneg β; linarith) hs
    · apply div_lt_div_of_pos_right _ hs
      linarith

/-- On bars that are all alike (high `H`, low `L`) the estimator should give the spread `2 (H - L) / (H + L)`; the function
gives the value for the ratio `(H/L)^(3 + 2 sqrt 2)`. -/
theorem corwinSchultz_constant {h l u : Ser} {H L : ℝ} {w t : Nat} (hw : 1 ≤ w) (hu : corwinSchultz h l w = .ok u)
    (hh : Obs h (fun _ => H) (w + 1) t) (hl : Obs l (fun _ => L) (w + 1) t) (hL : 0 < L) (hLH : L ≤ H) :
    u[t]? = some (.fin (link ((3 + 2 * Real.sqrt 2) * Real.log (H / L)))) ∧
      link (alphaRef (2 * Real.log (H / L) ^ 2) (Real.log (H / L) ^ 2)) = 2 * (H - L) / (H + L) := by
  have hH : 0 < H := hL.trans_le hLH
  obtain ⟨b, g, hb, hg, hu', -⟩ := corwinSchultz_spec hw hu hh hl fun i _ => ⟨hH, hL⟩
  have hw0 : (0 : ℝ) < w := by exact_mod_cast hw
  have hbd := hh.1
  have hb' : b = 2 * Real.log (H / L) ^ 2 := by
    rw [hb, meanOf, Finset.sum_const, nsmul_eq_mul, Nat.card_Ico, show t + 1 - (t + 1 - w) = w by omega]
    field_simp
    ring
  have hg' : g = Real.log (H / L) ^ 2 := by rw [hg, max_self, min_self]
  have hr : 0 ≤ Real.log (H / L) := Real.log_nonneg (by rw [le_div_iff₀ hL]; linarith)
  have hs : 0 < Real.sqrt 2 - 1 := by linarith [sqrt_two_gt]
  have hs2 : Real.sqrt 2 ^ 2 = 2 := Real.sq_sqrt (by norm_num)
  have e1 : Real.sqrt (2 * Real.log (H / L) ^ 2) = Real.sqrt 2 * Real.log (H / L) := by
    rw [Real.sqrt_mul (by norm_num), Real.sqrt_sq hr]
  constructor
  · rw [hu', hb', hg', e1, Real.sqrt_sq hr]
    congr 3
    rw [div_eq_iff hs.ne']
    linear_combination (-2 * Real.log (H / L)) * hs2
  · rw [alphaRef_eq (by positivity) (sq_nonneg _), e1, Real.sqrt_sq hr]
    have e2 : (Real.sqrt 2 * Real.log (H / L) - Real.log (H / L)) / (Real.sqrt 2 - 1) = Real.log (H / L) := by
      field_simp
    rw [e2, max_eq_right hr, link, Real.exp_log (div_pos hH hL)]
    field_simp

/-! ## Becker-Parkinson -/

theorem k2_pos : 0 < Real.sqrt (8 / Real.pi) := Real.sqrt_pos.2 (by have := Real.pi_pos; positivity)

theorem sigma_value {b g : ℝ} (hb : 0 ≤ b) (hg : 0 ≤ g) :
    (.fin (1 / Real.sqrt 2 - 1) * (XF.fin b).sqrt / .fin (Real.sqrt (8 / Real.pi) * den) +
        (XF.fin g / .fin (Real.sqrt (8 / Real.pi) ^ 2 * den)).sqrt : XF) =
      .fin ((Real.sqrt g - Real.sqrt (b / 2)) / (Real.sqrt (8 / Real.pi) * (Real.sqrt 2 - 1))) := by
  have hd := den_pos
  have hk := k2_pos
  have hs : 0 < Real.sqrt 2 - 1 := by linarith [sqrt_two_gt]
  have h2 : 0 < Real.sqrt 2 := by linarith [sqrt_two_gt]
  have hs2 : Real.sqrt 2 ^ 2 = 2 := Real.sq_sqrt (by norm_num)
  have e : Real.sqrt (g / (Real.sqrt (8 / Real.pi) ^ 2 * den)) =
      Real.sqrt g / (Real.sqrt (8 / Real.pi) * (Real.sqrt 2 - 1)) := by
    rw [Real.sqrt_div hg, den_eq, ← mul_pow, Real.sqrt_sq (by positivity)]
  rw [XF.sqrt_fin hb, XF.mul_fin, XF.div_fin (by positivity), XF.div_fin (by positivity),
    XF.sqrt_fin (div_nonneg hg (by positivity)), XF.add_fin, e, den_eq, Real.sqrt_div hb]
  congr 1
  field_simp
  ring

/-- NaN or non-negative, for all data (here the clamp is needed). -/
theorem beckerParkinson_nonneg {h l u : Ser} {w : Int} (hl : h.length = l.length)
    (hu : beckerParkinson h l w = .ok u) : NonNeg u := by
  apply nonneg_of
  intro t a ha
  obtain ⟨b, hb, h'⟩ := bind_ok hu
  obtain ⟨g, hg, h'⟩ := bind_ok h'
  cases h'
  rw [sigma, List.getElem?_map] at ha
  obtain ⟨v', hv', rfl⟩ := Option.map_eq_some_iff.1 ha
  obtain ⟨p, q, hp, hq, rfl⟩ := op2_get_inv
    (by rw [List.length_map, List.length_map, beta_length hl hb, gamma_length hl hg]) hv'
  rw [List.getElem?_map] at hp hq
  obtain ⟨p', hp', rfl⟩ := Option.map_eq_some_iff.1 hp
  obtain ⟨q', hq', rfl⟩ := Option.map_eq_some_iff.1 hq
  rcases beta_cases hl hb hp' with rfl | ⟨⟨r, rfl, hr⟩, H, L, hH, hL, h0⟩
  · left
    simpa using clamp_nan
  · obtain ⟨q'', hq'', hc⟩ := gamma_cases hg hH hL h0
    rw [hq'] at hq''
    cases hq''
    rcases hc with rfl | ⟨s, rfl, hs⟩
    · left
      simpa using clamp_nan
    · right
      rw [sigma_value hr hs, clamp_fin]
      exact ⟨_, rfl, le_max_left _ _⟩

/-- What it computes: positive exactly when the two-bar range exceeds the root mean square one-bar range. -/
theorem beckerParkinson_spec {h l u : Ser} {H L : Nat → ℝ} {w t : Nat} (hw : 1 ≤ w)
    (hu : beckerParkinson h l w = .ok u) (hh : Obs h H (w + 1) t) (hl : Obs l L (w + 1) t)
    (hpos : ∀ i ∈ Ico (t - w) (t + 1), 0 < H i ∧ 0 < L i) :
    u[t]? = some (.fin (max 0 ((|Real.log (max (H (t - 1)) (H t) / min (L (t - 1)) (L t))| -
      Real.sqrt (meanOf (fun i => Real.log (H (i - 1) / L (i - 1)) ^ 2 + Real.log (H i / L i) ^ 2) w t / 2)) /
        (Real.sqrt (8 / Real.pi) * (Real.sqrt 2 - 1))))) := by
  obtain ⟨b, hb, h'⟩ := bind_ok hu
  obtain ⟨g, hg, h'⟩ := bind_ok h'
  cases h'
  have hbd := hh.1
  have eb := beta_spec hw hb hh hl hpos
  have eg := gamma_spec hg (obs_sub hh (by omega)) (obs_sub hl (by omega)) fun i hi =>
    hpos i (by rw [mem_Ico] at hi ⊢; omega)
  have b0 : 0 ≤ meanOf (fun i => Real.log (H (i - 1) / L (i - 1)) ^ 2 + Real.log (H i / L i) ^ 2) w t :=
    meanOf_nonneg fun i _ => by positivity
  generalize meanOf (fun i => Real.log (H (i - 1) / L (i - 1)) ^ 2 + Real.log (H i / L i) ^ 2) w t = β at eb b0 ⊢
  generalize Real.log (max (H (t - 1)) (H t) / min (L (t - 1)) (L t)) = ρ at eg ⊢
  have e1 : (b.map fun b => XF.fin (1 / Real.sqrt 2 - 1) * b.sqrt / .fin (Real.sqrt (8 / Real.pi) * den))[t]? =
      some (.fin (1 / Real.sqrt 2 - 1) * (XF.fin β).sqrt / .fin (Real.sqrt (8 / Real.pi) * den)) := by
    rw [List.getElem?_map, eb]; rfl
  have e2 : (g.map fun g => (g / XF.fin (Real.sqrt (8 / Real.pi) ^ 2 * den)).sqrt)[t]? =
      some ((XF.fin (ρ ^ 2) / .fin (Real.sqrt (8 / Real.pi) ^ 2 * den)).sqrt) := by rw [List.getElem?_map, eg]; rfl
  rw [sigma, List.getElem?_map, op2_get _ e1 e2, sigma_value b0 (sq_nonneg ρ), Real.sqrt_sq_eq_abs]
  rw [Option.map_some, clamp_fin]

/-- Bars that are all alike have no volatility in this sense. -/
theorem beckerParkinson_constant {h l u : Ser} {H L : ℝ} {w t : Nat} (hw : 1 ≤ w) (hu : beckerParkinson h l w = .ok u)
    (hh : Obs h (fun _ => H) (w + 1) t) (hl : Obs l (fun _ => L) (w + 1) t) (hL : 0 < L) (hH : 0 < H) :
    u[t]? = some (.fin 0) := by
  rw [beckerParkinson_spec hw hu hh hl fun i _ => ⟨hH, hL⟩]
  have hw0 : (0 : ℝ) < w := by exact_mod_cast hw
  have hbd := hh.1
  have hb' : meanOf (fun _ => Real.log (H / L) ^ 2 + Real.log (H / L) ^ 2) w t = 2 * Real.log (H / L) ^ 2 := by
    rw [meanOf, Finset.sum_const, nsmul_eq_mul, Nat.card_Ico, show t + 1 - (t + 1 - w) = w by omega]
    field_simp
    ring
  rw [hb', max_self, min_self, mul_div_cancel_left₀ _ two_ne_zero, Real.sqrt_sq_eq_abs, sub_self, zero_div, max_self]

/-! ## Units -/

theorem real?_mul {k : ℝ} (hk : 0 < k) (v : XF) : (v * .fin k).real? = v.real?.map (· * k) := by
  have hp : XF.infSign k = .pinf := by rw [XF.infSign, if_pos hk]
  have hn : XF.infSign (-k) = .ninf := by
    rw [XF.infSign, if_neg (by linarith), if_pos (by linarith)]
  cases v with
  | nan => simp
  | fin r => rfl
  | pinf => show (XF.infSign k).real? = _; rw [hp]; rfl
  | ninf => show (XF.infSign (-k)).real? = _; rw [hn]; rfl

theorem win_scale {k : ℝ} (hk : 0 < k) (w : Nat) (x : Ser) (t : Nat) :
    win w (scale k x) t = (win w x t).map (· * k) := by
  rw [win, scale, ← List.map_take, ← List.map_drop, List.filterMap_map, win, List.map_filterMap]
  congr 1
  funext v
  exact real?_mul hk v

theorem rolling_scale {k : ℝ} (hk : 0 < k) {f : List ℝ → XF} (hf : ∀ v, f (v.map (· * k)) = f v * .fin k) (w : Int)
    (x : Ser) : rolling w f (scale k x) = (rolling w f x).map (scale k) := by
  by_cases hw : w < 0
  · rw [rolling_err hw, rolling_err hw]
    rfl
  · rw [rolling_ok (by omega), rolling_ok (by omega)]
    show Except.ok _ = Except.ok _
    congr 1
    rw [scale, scale, List.map_map, show (x.map (· * XF.fin k)).length = x.length from List.length_map _]
    refine List.map_congr_left fun t _ => ?_
    have := win_scale hk w.toNat x t
    rw [scale] at this
    simp only [rollAt, Function.comp, this, List.length_map]
    split
    · exact hf _
    · simp

theorem foldl_scale {k : ℝ} (op : ℝ → ℝ → ℝ) (hop : ∀ a b, op (a * k) (b * k) = op a b * k) (a : ℝ) (l : List ℝ) :
    (l.map (· * k)).foldl op (a * k) = l.foldl op a * k := by
  induction l generalizing a with
  | nil => rfl
  | cons b l ih => simp only [List.map_cons, List.foldl_cons, hop, ih]

theorem maxF_scale {k : ℝ} (hk : 0 < k) (v : List ℝ) : maxF (v.map (· * k)) = maxF v * .fin k := by
  cases v with
  | nil => simp [maxF]
  | cons a l =>
    simp only [maxF, List.map_cons]
    rw [foldl_scale max (fun a b => (max_mul_of_nonneg a b hk.le).symm)]
    rfl

theorem minF_scale {k : ℝ} (hk : 0 < k) (v : List ℝ) : minF (v.map (· * k)) = minF v * .fin k := by
  cases v with
  | nil => simp [minF]
  | cons a l =>
    simp only [minF, List.map_cons]
    rw [foldl_scale min (fun a b => (min_mul_of_nonneg a b hk.le).symm)]
    rfl

theorem gamma_scale {k : ℝ} (hk : 0 < k) (h l : Ser) : gamma (scale k h) (scale k l) = gamma h l := by
  rw [gamma, rolling_scale hk (maxF_scale hk), rolling_scale hk (minF_scale hk), gamma, rolling_ok (by decide),
    rolling_ok (by decide)]
  show Except.ok _ = Except.ok _
  rw [logRatio_scale hk]

/-- Quoting the prices in another unit changes neither estimate. -/
theorem spread_scale {k : ℝ} (hk : 0 < k) (h l : Ser) (w : Int) :
    corwinSchultz (scale k h) (scale k l) w = corwinSchultz h l w ∧
      beckerParkinson (scale k h) (scale k l) w = beckerParkinson h l w := by
  have hb : beta (scale k h) (scale k l) w = beta h l w := by simp only [beta, logRatio_scale hk]
  constructor
  · rw [corwinSchultz, hb, gamma_scale hk, corwinSchultz]
  · rw [beckerParkinson, hb, gamma_scale hk, beckerParkinson]

/-- Concrete case: two bars with high 2 and low 1. The spread should be 2/3; the function takes the ratio `2^(3 + 2 sqrt 2)` instead of 2. -/
example : ∃ u, corwinSchultz [.fin 2, .fin 2] [.fin 1, .fin 1] 1 = .ok u ∧
    u[1]? = some (.fin (link ((3 + 2 * Real.sqrt 2) * Real.log (2 / 1)))) ∧
    link (alphaRef (2 * Real.log (2 / 1) ^ 2) (Real.log (2 / 1) ^ 2)) = 2 / 3 := by
  obtain ⟨u, hu⟩ : ∃ u, corwinSchultz [.fin 2, .fin 2] [.fin 1, .fin 1] 1 = .ok u := by
    rw [corwinSchultz, beta, rolling_ok (by decide)]
    exact ⟨_, rfl⟩
  have key := corwinSchultz_constant (w := 1) (t := 1) (H := 2) (L := 1) le_rfl hu
    ⟨by omega, fun i hi => by
      rw [mem_Ico] at hi
      match i with
      | 0 => rfl
      | 1 => rfl
      | i + 2 => omega⟩
    ⟨by omega, fun i hi => by
      rw [mem_Ico] at hi
      match i with
      | 0 => rfl
      | 1 => rfl
      | i + 2 => omega⟩ one_pos one_le_two
  refine ⟨u, hu, key.1, ?_⟩
  rw [key.2]
  norm_num

end Verif.Props.MicroSpread
