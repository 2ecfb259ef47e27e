import Verif.Props.MicroSpread

/-!
# C57, C58: VPIN, bulk volume classification and the price-impact lambdas
-/

namespace Verif.Props.MicroTrade

open Verif Ser Micro Finset IndRolling MicroVol

/-! ## VPIN -/

/-- With `0 <= buy <= volume` VPIN is NaN or in [0, 1]. -/
theorem vpin_range {v b u : Ser} {w : Int} (hl : v.length = b.length)
    (hv : ∀ (i : Nat) (V B : ℝ), v[i]? = some (.fin V) → b[i]? = some (.fin B) → 0 ≤ B ∧ B ≤ V)
    (hu : vpin v b w = .ok u) {t : Nat} {a : XF} (ha : u[t]? = some a) :
    a = .nan ∨ ∃ r, a = .fin r ∧ 0 ≤ r ∧ r ≤ 1 := by
  rcases rolling_mean_cases hu ha with rfl | ⟨y, hw, hy, rfl⟩
  · exact .inl rfl
  · right
    have key : ∀ i ∈ Ico (t + 1 - w.toNat) (t + 1), 0 ≤ y i ∧ y i ≤ 1 := by
      intro i hi
      obtain ⟨p, q, hp, hq, hpq⟩ := op2_get_inv (by simp [op2_length, hl]) (hy.2 i hi)
      rw [List.getElem?_map] at hp
      obtain ⟨s, hs, rfl⟩ := Option.map_eq_some_iff.1 hp
      obtain ⟨x, hx, hdiv⟩ := XF.div_eq_fin hpq.symm
      obtain ⟨d, rfl, rfl⟩ := XF.abs_eq_fin hx
      obtain ⟨b', s', hb', hs', hd⟩ := op2_get_inv (by simp [op2_length, hl]) hs
      obtain ⟨B, S, rfl, rfl, rfl⟩ := XF.sub_eq_fin hd.symm
      obtain ⟨v', b'', hv', hb'', hd'⟩ := op2_get_inv hl hs'
      obtain ⟨V, B', rfl, rfl, rfl⟩ := XF.sub_eq_fin hd'.symm
      rw [hb'] at hb''
      cases hb''
      rw [hv'] at hq
      cases hq
      obtain ⟨h0, h1⟩ := hv i V B hv' hb'
      rcases hdiv with ⟨V', hV', hne, hr⟩ | ⟨hinf, -⟩
      · cases hV'
        have hV : 0 < V := lt_of_le_of_ne (h0.trans h1) (Ne.symm hne)
        rw [hr]
        refine ⟨by positivity, ?_⟩
        rw [div_le_one hV, abs_le]
        constructor <;> linarith
      · rcases hinf with h | h <;> cases h
    refine ⟨_, rfl, meanOf_nonneg fun i hi => (key i hi).1, ?_⟩
    have hb := hy.1
    have := meanOf_mono (z := fun _ => 1) fun i hi => (key i hi).2
    refine this.trans ?_
    have hw0 : (0 : ℝ) < w.toNat := by exact_mod_cast hw
    rw [meanOf, Finset.sum_const, nsmul_eq_mul, Nat.card_Ico,
      show t + 1 - (t + 1 - w.toNat) = w.toNat by omega, mul_one, div_self hw0.ne']

/-- The formula: the mean of `|buy - sell| / volume` with `sell = volume - buy`. -/
theorem vpin_spec {v b u : Ser} {V B : Nat → ℝ} {w t : Nat} (hw : 1 ≤ w) (hu : vpin v b w = .ok u)
    (hv : Obs v V w t) (hb : Obs b B w t) (hne : ∀ i ∈ Ico (t + 1 - w) (t + 1), V i ≠ 0) :
    u[t]? = some (.fin (meanOf (fun i => |B i - (V i - B i)| / V i) w t)) := by
  refine mean_spec hw hu (obs_op2 (y := fun i => |B i - (V i - B i)|) (obs_map
    (y := fun i => B i - (V i - B i)) (obs_op2 (q := fun i => V i - B i) hb
      (obs_op2 hv hb fun i _ => XF.sub_fin _ _) fun i _ => XF.sub_fin _ _) fun i _ => rfl) hv fun i hi =>
      XF.div_fin (hne i hi))

/-- A bar without volume makes VPIN NaN as long as it is in the window. -/
theorem vpin_zero_volume {v b u : Ser} {w t i : Nat} {B : ℝ} (hl : v.length = b.length) (hu : vpin v b w = .ok u)
    (ht : t < v.length) (hi : i ∈ Ico (t + 1 - w) (t + 1)) (hv : v[i]? = some (.fin 0)) (hb : b[i]? = some (.fin B)) :
    u[t]? = some .nan := by
  refine rolling_nan hu (by simpa [op2_length, hl] using hl ▸ ht) fun y hy => ?_
  have h := hy.2 i hi
  have e1 := op2_get (· - ·) hv hb
  have e2 := op2_get (· - ·) hb e1
  rw [op2_get _ (show ((op2 (· - ·) b (op2 (· - ·) v b)).map XF.abs)[i]? = _ by rw [List.getElem?_map, e2]; rfl) hv] at h
  simp only [XF.sub_fin, XF.abs_fin] at h
  exact absurd (Option.some.inj h) (by
    show XF.div _ _ ≠ _
    simp only [XF.div, if_true]
    exact XF.infSign_ne_fin _ _)

/-! ## Bulk volume classification -/

/-- What is used of `scipy.stats.t.cdf(·, df=0.25)`: a distribution function that is symmetric about zero. -/
structure Cdf (F : XF → XF) : Prop where
  nan : F .nan = .nan
  pinf : F .pinf = .fin 1
  ninf : F .ninf = .fin 0
  range : ∀ x, ∃ p, F (.fin x) = .fin p ∧ 0 < p ∧ p < 1
  mono : ∀ x y p q, x ≤ y → F (.fin x) = .fin p → F (.fin y) = .fin q → p ≤ q
  symm : ∀ x p, F (.fin x) = .fin p → F (.fin (-x)) = .fin (1 - p)

/-- Such a function exists. -/
theorem cdf_exists : ∃ F, Cdf F := by
  refine ⟨fun v => match v with
    | .nan => .nan
    | .pinf => .fin 1
    | .ninf => .fin 0
    | .fin x => .fin (Real.exp x / (Real.exp x + 1)), rfl, rfl, rfl, fun x => ⟨_, rfl, by positivity, ?_⟩, ?_, ?_⟩
  · rw [div_lt_one (by positivity)]; linarith
  · rintro x y p q hxy h1 h2
    cases h1
    cases h2
    have := Real.exp_le_exp.2 hxy
    rw [div_le_div_iff₀ (by positivity) (by positivity)]
    nlinarith [Real.exp_pos x, Real.exp_pos y]
  · rintro x p h
    cases h
    simp only [XF.fin.injEq, Real.exp_neg]
    have := Real.exp_pos x
    field_simp
    ring

variable {F : XF → XF}

theorem cdf_half (hF : Cdf F) : F (.fin 0) = .fin (1 / 2) := by
  obtain ⟨p, hp, -, -⟩ := hF.range 0
  have := hF.symm 0 p hp
  rw [neg_zero, hp] at this
  have h := XF.fin.inj this
  rw [hp]
  congr 1
  linarith

/-- The classification at position `t`: NaN or between zero and the volume. -/
theorem buy_range (hF : Cdf F) {c v s : Ser} {t : Nat} {V : ℝ} (hc : c.length = s.length) (hs : v.length = s.length)
    (hv : v[t]? = some (.fin V)) (h0 : 0 ≤ V) :
    ∃ a, (estimateBuyVolume F c v s)[t]? = some a ∧ (a = .nan ∨ ∃ r, a = .fin r ∧ 0 ≤ r ∧ r ≤ V) := by
  have ht : t < v.length := (List.getElem?_eq_some_iff.1 hv).1
  have hlen : ((op2 (· / ·) (diff 1 c) s).map F).length = v.length := by
    simp [op2_length, diff_length, hc, hs]
  have hlt : t < (op2 (· / ·) (diff 1 c) s).length := by
    rw [← List.length_map (f := F), hlen]; exact ht
  obtain ⟨z, hz⟩ : ∃ z, (op2 (· / ·) (diff 1 c) s)[t]? = some z := ⟨_, List.getElem?_eq_getElem hlt⟩
  have e : ((op2 (· / ·) (diff 1 c) s).map F)[t]? = some (F z) := by
    rw [List.getElem?_map, hz]; rfl
  rw [estimateBuyVolume, op2_get _ hv e]
  refine ⟨_, rfl, ?_⟩
  cases z with
  | nan => left; rw [hF.nan]; simp
  | pinf => right; rw [hF.pinf, XF.mul_fin]; exact ⟨V, by rw [mul_one], h0, le_rfl⟩
  | ninf => right; rw [hF.ninf, XF.mul_fin]; exact ⟨0, by rw [mul_zero], le_rfl, h0⟩
  | fin x =>
    obtain ⟨p, hp, h1, h2⟩ := hF.range x
    right
    rw [hp, XF.mul_fin]
    exact ⟨_, rfl, mul_nonneg h0 h1.le, by nlinarith⟩

theorem diff_get {c : Ser} {t : Nat} {P Q : ℝ} (hp : c[t + 1]? = some (.fin P)) (hq : c[t]? = some (.fin Q)) :
    (diff 1 c)[t + 1]? = some (.fin (P - Q)) := by
  have := shift_one_get c (List.getElem?_eq_some_iff.1 hp).1
  simp only [hq, Option.getD_some] at this
  rw [diff, op2_get _ hp this]
  exact congrArg some (XF.sub_fin _ _)

/-- The direction: with a positive deviation, a rise makes at least half of the volume buys, a fall at most half, no change
exactly half; with deviation zero a move is all buys or all sells, and no change gives NaN. -/
theorem buy_direction (hF : Cdf F) {c v s : Ser} {t : Nat} {V P Q S : ℝ} (hp : c[t + 1]? = some (.fin P))
    (hq : c[t]? = some (.fin Q)) (hv : v[t + 1]? = some (.fin V)) (hs : s[t + 1]? = some (.fin S)) (h0 : 0 ≤ V) :
    (0 < S → ∃ r, (estimateBuyVolume F c v s)[t + 1]? = some (.fin r) ∧ (Q ≤ P → V / 2 ≤ r) ∧ (P ≤ Q → r ≤ V / 2)) ∧
      (S = 0 → (estimateBuyVolume F c v s)[t + 1]? =
        some (open Classical in if Q < P then .fin V else if P < Q then .fin 0 else .nan)) := by
  have hz := op2_get (· / ·) (diff_get hp hq) hs
  have e : ((op2 (· / ·) (diff 1 c) s).map F)[t + 1]? = some (F (.fin (P - Q) / .fin S)) := by
    rw [List.getElem?_map, hz]; rfl
  constructor
  · intro hS
    obtain ⟨p, hp', h1, h2⟩ := hF.range ((P - Q) / S)
    rw [estimateBuyVolume, op2_get _ hv e, XF.div_fin hS.ne', hp', XF.mul_fin]
    refine ⟨_, rfl, fun h => ?_, fun h => ?_⟩
    · have := hF.mono 0 ((P - Q) / S) (1 / 2) p (div_nonneg (by linarith) hS.le) (cdf_half hF) hp'
      nlinarith
    · have := hF.mono ((P - Q) / S) 0 p (1 / 2) (div_nonpos_of_nonpos_of_nonneg (by linarith) hS.le) hp' (cdf_half hF)
      nlinarith
  · rintro rfl
    rw [estimateBuyVolume, op2_get _ hv e]
    have ed : (XF.fin (P - Q) / .fin 0 : XF) = XF.infSign (P - Q) := by
      show XF.div _ _ = _
      simp only [XF.div, if_true]
    rw [ed, XF.infSign]
    by_cases h1 : Q < P
    · rw [if_pos h1, if_pos (by linarith), hF.pinf, XF.mul_fin, mul_one]
    · rw [if_neg h1, if_neg (by linarith)]
      by_cases h2 : P < Q
      · rw [if_pos h2, if_pos (by linarith), hF.ninf, XF.mul_fin, mul_zero]
      · rw [if_neg h2, if_neg (by linarith), hF.nan, XF.mul_nan]

/-- The first bar is never classified. -/
theorem buy_first (hF : Cdf F) {c v s : Ser} (hc : c.length = s.length) (hs : v.length = s.length)
    (hne : v ≠ []) : (estimateBuyVolume F c v s)[0]? = some .nan := by
  have hv0 : 0 < v.length := List.length_pos_iff.2 hne
  have hc0 : 0 < c.length := by omega
  have hs0 : 0 < s.length := by omega
  have hd : (diff 1 c)[0]? = some .nan := by
    rw [diff, op2_get _ (List.getElem?_eq_getElem hc0) (shift_one_get c hc0)]
    simp
  have e : ((op2 (· / ·) (diff 1 c) s).map F)[0]? = some .nan := by
    rw [List.getElem?_map, op2_get _ hd (List.getElem?_eq_getElem hs0)]
    simp [hF.nan]
  rw [estimateBuyVolume, op2_get _ (List.getElem?_eq_getElem hv0) e]
  simp

/-- VPIN of the estimated buy volumes: the volumes cancel, only the price moves count. -/
theorem vpin_of_estimate (hF : Cdf F) {c v s u : Ser} {V P S : Nat → ℝ} {w t : Nat} (hw : 1 ≤ w)
    (hu : vpin v (estimateBuyVolume F c v s) w = .ok u) (hv : Obs v V w t) (hs : Obs s S w t) (hc : Obs c P (w + 1) t)
    (hV : ∀ i ∈ Ico (t + 1 - w) (t + 1), 0 < V i) (hS : ∀ i ∈ Ico (t + 1 - w) (t + 1), S i ≠ 0) :
    ∃ p : Nat → ℝ, (∀ i ∈ Ico (t + 1 - w) (t + 1), F (.fin ((P i - P (i - 1)) / S i)) = .fin (p i)) ∧
      u[t]? = some (.fin (meanOf (fun i => |2 * p i - 1|) w t)) := by
  choose p hp using fun i => hF.range ((P i - P (i - 1)) / S i)
  refine ⟨p, fun i _ => (hp i).1, ?_⟩
  have hd : Obs (diff 1 c) (fun i => P i - P (i - 1)) w t :=
    obs_op2 (obs_sub hc (Nat.le_succ w)) (obs_shift hc) fun i _ => XF.sub_fin _ _
  have hb : Obs (estimateBuyVolume F c v s) (fun i => V i * p i) w t :=
    obs_op2 hv (obs_map (k := p) (obs_op2 (k := fun i => (P i - P (i - 1)) / S i) hd hs fun i hi => XF.div_fin (hS i hi))
      fun i _ => (hp i).1) fun i _ => rfl
  rw [vpin_spec hw hu hv hb fun i hi => (hV i hi).ne']
  congr 2
  apply meanOf_congr
  intro i hi
  have h0 := hV i hi
  have : V i * p i - (V i - V i * p i) = V i * (2 * p i - 1) := by ring
  rw [this, abs_mul, abs_of_pos h0]
  field_simp

/-! ## Kyle's lambda -/

theorem sign_fin_pos {x : ℝ} (h : 0 < x) : (XF.fin x).sign = .fin 1 := by simp only [XF.sign]; rw [if_pos h]
theorem sign_fin_neg {x : ℝ} (h : x < 0) : (XF.fin x).sign = .fin (-1) := by
  simp only [XF.sign]; rw [if_neg (by linarith), if_pos h]
theorem sign_fin_zero : (XF.fin 0).sign = .fin 0 := by simp only [XF.sign]; rw [if_neg (by simp), if_neg (by simp)]

/-- The quotient `d / (sign(d) * v)`, when it is a number. -/
theorem signed_quotient {d v : XF} {r : ℝ} (h : d / (d.sign * v) = .fin r) :
    ∃ x, d = .fin x ∧ x ≠ 0 ∧ ((∃ y, v = .fin y ∧ y ≠ 0 ∧ r = |x| / y) ∨ r = 0) := by
  obtain ⟨x, rfl, hc⟩ := XF.div_eq_fin h
  refine ⟨x, rfl, ?_⟩
  rcases lt_trichotomy x 0 with hx | rfl | hx
  · refine ⟨hx.ne, ?_⟩
    rcases hc with ⟨y, hy, hy0, hr⟩ | ⟨-, hr⟩
    · rw [sign_fin_neg hx] at hy
      obtain ⟨a, b, ha, rfl, hab⟩ := XF.mul_eq_fin hy
      cases ha
      refine .inl ⟨b, rfl, ?_, ?_⟩
      · rintro rfl
        exact hy0 (by rw [hab]; ring)
      · rw [hr, hab, abs_of_neg hx, neg_one_mul, div_neg, neg_div]
    · exact .inr hr
  · exfalso
    rcases hc with ⟨y, hy, hy0, hr⟩ | ⟨hi, -⟩
    · rw [sign_fin_zero] at hy
      obtain ⟨a, b, ha, rfl, hab⟩ := XF.mul_eq_fin hy
      cases ha
      exact hy0 (by rw [hab]; ring)
    · rw [sign_fin_zero] at hi
      cases v with
      | nan => rcases hi with h | h <;> simp at h
      | fin y => rcases hi with h | h <;> simp at h
      | pinf =>
        rcases hi with h | h <;> (change XF.infSign 0 = _ at h; simp [XF.infSign] at h)
      | ninf =>
        rcases hi with h | h <;> (change XF.infSign (-0) = _ at h; simp [XF.infSign] at h)
  · refine ⟨hx.ne', ?_⟩
    rcases hc with ⟨y, hy, hy0, hr⟩ | ⟨-, hr⟩
    · rw [sign_fin_pos hx] at hy
      obtain ⟨a, b, ha, rfl, hab⟩ := XF.mul_eq_fin hy
      cases ha
      rw [one_mul] at hab
      subst hab
      exact .inl ⟨y, rfl, hy0, by rw [hr, abs_of_pos hx]⟩
    · exact .inr hr

theorem signed_quotient_fin {x y : ℝ} (hx : x ≠ 0) (hy : y ≠ 0) :
    (XF.fin x / ((XF.fin x).sign * .fin y) : XF) = .fin (|x| / y) := by
  rcases lt_or_gt_of_ne hx with h | h
  · rw [sign_fin_neg h, XF.mul_fin, XF.div_fin (by simpa using hy), abs_of_neg h]
    congr 1
    rw [neg_one_mul, div_neg, neg_div]
  · rw [sign_fin_pos h, XF.mul_fin, one_mul, XF.div_fin hy, abs_of_pos h]

/-- Kyle's lambda is NaN or non-negative when volumes are not negative. -/
theorem kyle_nonneg {c v u : Ser} {w : Int} (hl : c.length = v.length)
    (hv : ∀ (i : Nat) (V : ℝ), v[i]? = some (.fin V) → 0 ≤ V) (hu : kyle c v w = .ok u) : NonNeg u := by
  apply nonneg_of
  intro t a ha
  refine IndRsi.rolling_fine ?_ hu ha
  rintro z hz r rfl
  obtain ⟨i, hi⟩ := List.mem_iff_getElem?.1 hz
  obtain ⟨p, q, hp, hq, hpq⟩ := op2_get_inv (by simp [op2_length, diff_length, hl]) hi
  obtain ⟨p', q', hp', hq', rfl⟩ := op2_get_inv (by simp [diff_length, hl]) hq
  rw [List.getElem?_map, hp] at hp'
  cases hp'
  obtain ⟨x, rfl, -, ⟨y, rfl, -, rfl⟩ | rfl⟩ := signed_quotient hpq.symm
  · exact div_nonneg (abs_nonneg _) (hv i y hq')
  · exact le_rfl

/-- The formula, for a price that moves on every bar of the window. -/
theorem kyle_spec {c v u : Ser} {P V : Nat → ℝ} {w t : Nat} (hw : 1 ≤ w) (hu : kyle c v w = .ok u)
    (hc : Obs c P (w + 1) t) (hv : Obs v V w t) (hP : ∀ i ∈ Ico (t + 1 - w) (t + 1), P i ≠ P (i - 1))
    (hV : ∀ i ∈ Ico (t + 1 - w) (t + 1), V i ≠ 0) :
    u[t]? = some (.fin (meanOf (fun i => |P i - P (i - 1)| / V i) w t)) := by
  have hd : Obs (diff 1 c) (fun i => P i - P (i - 1)) w t :=
    obs_op2 (obs_sub hc (Nat.le_succ w)) (obs_shift hc) fun i _ => XF.sub_fin _ _
  refine mean_spec hw hu ⟨hd.1, fun i hi => ?_⟩
  have e1 := hd.2 i hi
  have e2 := hv.2 i hi
  have e3 : ((diff 1 c).map XF.sign)[i]? = some ((XF.fin (P i - P (i - 1))).sign) := by
    rw [List.getElem?_map, e1]; rfl
  rw [op2_get _ e1 (op2_get _ e3 e2), signed_quotient_fin (sub_ne_zero.2 (hP i hi)) (hV i hi)]

/-- One bar without a price change makes Kyle's lambda NaN as long as it is in the window. -/
theorem kyle_no_change {c v u : Ser} {w t i : Nat} {P : ℝ} (hl : c.length = v.length) (hu : kyle c v w = .ok u)
    (ht : t < c.length) (hi : i + 1 ∈ Ico (t + 1 - w) (t + 1)) (h1 : c[i]? = some (.fin P))
    (h2 : c[i + 1]? = some (.fin P)) : u[t]? = some .nan := by
  refine rolling_nan hu (by simpa [op2_length, diff_length, hl] using hl ▸ ht) fun y hy => ?_
  have h := hy.2 (i + 1) hi
  have hv : i + 1 < v.length := by rw [← hl]; exact (List.getElem?_eq_some_iff.1 h2).1
  have e1 := diff_get h2 h1
  have e3 : ((diff 1 c).map XF.sign)[i + 1]? = some ((XF.fin (P - P)).sign) := by
    rw [List.getElem?_map, e1]; rfl
  rw [op2_get _ e1 (op2_get _ e3 (List.getElem?_eq_getElem hv))] at h
  obtain ⟨x, hx, hne, -⟩ := signed_quotient (Option.some.inj h)
  exact hne (by rw [← XF.fin.inj hx, sub_self])

/-! ## Hasbrouck's lambda -/

/-- NaN or non-negative, for all data. -/
theorem hasbrouck_nonneg {c v u : Ser} {w : Int} (hl : c.length = v.length) (hu : hasbrouck c v w = .ok u) :
    NonNeg u := by
  apply nonneg_of
  intro t a ha
  refine IndRsi.rolling_fine ?_ hu ha
  rintro z hz r rfl
  obtain ⟨i, hi⟩ := List.mem_iff_getElem?.1 hz
  have ll : (logRatio c (shift 1 c)).length = c.length := logRatio_length (shift_length 1 c).symm
  obtain ⟨p, q, hp, hq, hpq⟩ := op2_get_inv (by simp [op2_length, ll, hl]) hi
  obtain ⟨p', q', hp', hq', rfl⟩ := op2_get_inv (by simp [op2_length, ll, hl]) hq
  rw [List.getElem?_map, hp] at hp'
  cases hp'
  obtain ⟨x, rfl, -, ⟨y, rfl, -, rfl⟩ | rfl⟩ := signed_quotient hpq.symm
  · rw [List.getElem?_map] at hq'
    obtain ⟨s, -, hs⟩ := Option.map_eq_some_iff.1 hq'
    obtain ⟨x', -, -, rfl⟩ := XF.sqrt_eq_fin hs
    exact div_nonneg (abs_nonneg _) (Real.sqrt_nonneg _)
  · exact le_rfl

/-- The formula, for positive prices that move on every bar and positive volumes. -/
theorem hasbrouck_spec {c v u : Ser} {P V : Nat → ℝ} {w t : Nat} (hw : 1 ≤ w) (hu : hasbrouck c v w = .ok u)
    (hc : Obs c P (w + 1) t) (hv : Obs v V w t) (hP : ∀ i ∈ Ico (t + 1 - w) (t + 1), P i ≠ P (i - 1))
    (hpos : ∀ i ∈ Ico (t - w) (t + 1), 0 < P i) (hV : ∀ i ∈ Ico (t + 1 - w) (t + 1), 0 < V i) :
    u[t]? = some (.fin (meanOf (fun i => |Real.log (P i / P (i - 1))| / Real.sqrt (V i * P i)) w t)) := by
  have hbd := hc.1
  have p1 : ∀ i ∈ Ico (t + 1 - w) (t + 1), 0 < P i := fun i hi => hpos i (by rw [mem_Ico] at hi ⊢; omega)
  have p2 : ∀ i ∈ Ico (t + 1 - w) (t + 1), 0 < P (i - 1) := fun i hi => hpos _ (by rw [mem_Ico] at hi ⊢; omega)
  have hd := obs_logRatio (obs_sub hc (Nat.le_succ w)) (obs_shift hc) p1 p2
  have hq : Obs ((op2 (· * ·) v c).map XF.sqrt) (fun i => Real.sqrt (V i * P i)) w t :=
    obs_map (y := fun i => V i * P i) (obs_op2 hv (obs_sub hc (Nat.le_succ w)) fun i _ => rfl) fun i hi =>
      XF.sqrt_fin (mul_pos (hV i hi) (p1 i hi)).le
  refine mean_spec hw hu ⟨hd.1, fun i hi => ?_⟩
  have e1 := hd.2 i hi
  have e3 : ((logRatio c (shift 1 c)).map XF.sign)[i]? = some ((XF.fin (Real.log (P i / P (i - 1)))).sign) := by
    rw [List.getElem?_map, e1]; rfl
  rw [op2_get _ e1 (op2_get _ e3 (hq.2 i hi)), signed_quotient_fin]
  · have q1 := p1 i hi
    have q2 := p2 i hi
    apply Real.log_ne_zero_of_pos_of_ne_one (div_pos q1 q2)
    intro h
    rw [div_eq_one_iff_eq q2.ne'] at h
    exact hP i hi h
  · exact (Real.sqrt_pos.2 (mul_pos (hV i hi) (p1 i hi))).ne'

/-! ## Amihud's lambda -/

theorem ffill_length (a : XF) (x : Ser) : (ffillGo a x).length = x.length := by
  induction x generalizing a with
  | nil => rfl
  | cons v x ih => cases v <;> simp [ffillGo, ih]

theorem ffill_get {x : Ser} {i : Nat} {v : XF} (a : XF) (h : x[i]? = some v) (hv : v ≠ .nan) :
    (ffillGo a x)[i]? = some v := by
  induction x generalizing a i with
  | nil => simp at h
  | cons b x ih =>
    cases i with
    | zero =>
      simp only [List.getElem?_cons_zero, Option.some.injEq] at h
      subst h
      cases b <;> simp_all [ffillGo]
    | succ i =>
      simp only [List.getElem?_cons_succ] at h
      cases b <;> simp [ffillGo, ih _ h]

/-- At a missing value the last value is repeated. -/
theorem ffill_get_nan {x : Ser} {i : Nat} (a : XF) (h : x[i + 1]? = some .nan) :
    (ffillGo a x)[i + 1]? = (ffillGo a x)[i]? := by
  induction x generalizing a i with
  | nil => simp at h
  | cons b x ih =>
    simp only [List.getElem?_cons_succ] at h
    cases i with
    | zero =>
      cases x with
      | nil => simp at h
      | cons b' x =>
        simp only [List.getElem?_cons_zero, Option.some.injEq] at h
        subst h
        cases b <;> simp [ffillGo]
    | succ i => cases b <;> simp [ffillGo, ih _ h]

theorem pctChange_length (x : Ser) : (pctChange x).length = x.length := by
  simp [pctChange, op2_length, ffill_length, shift_length]

/-- NaN or non-negative when `volume * price` is not negative. -/
theorem amihud_nonneg {c v u : Ser} {w : Int} (hl : c.length = v.length)
    (hv : ∀ (i : Nat) (P V : ℝ), c[i]? = some (.fin P) → v[i]? = some (.fin V) → 0 ≤ V * P)
    (hu : amihud c v w = .ok u) : NonNeg u := by
  apply nonneg_of
  intro t a ha
  refine IndRsi.rolling_fine ?_ hu ha
  rintro z hz r rfl
  obtain ⟨i, hi⟩ := List.mem_iff_getElem?.1 hz
  obtain ⟨p, q, hp, hq, hpq⟩ := op2_get_inv (by simp [op2_length, pctChange_length, hl]) hi
  rw [List.getElem?_map] at hp
  obtain ⟨s, -, rfl⟩ := Option.map_eq_some_iff.1 hp
  obtain ⟨x, hx, hc⟩ := XF.div_eq_fin hpq.symm
  obtain ⟨d, -, rfl⟩ := XF.abs_eq_fin hx
  rcases hc with ⟨y, rfl, -, rfl⟩ | ⟨-, rfl⟩
  · obtain ⟨v', c', hv', hc', hy⟩ := op2_get_inv hl.symm hq
    obtain ⟨V, P, rfl, rfl, rfl⟩ := XF.mul_eq_fin hy.symm
    exact div_nonneg (abs_nonneg _) (hv i P V hc' hv')
  · exact le_rfl

/-- The formula: the mean of `|P_i / P_{i-1} - 1| / (V_i P_i)`. -/
theorem amihud_spec {c v u : Ser} {P V : Nat → ℝ} {w t : Nat} (hw : 1 ≤ w) (hu : amihud c v w = .ok u)
    (hc : Obs c P (w + 1) t) (hv : Obs v V w t) (hP : ∀ i ∈ Ico (t - w) (t + 1), P i ≠ 0)
    (hV : ∀ i ∈ Ico (t + 1 - w) (t + 1), V i ≠ 0) :
    u[t]? = some (.fin (meanOf (fun i => |P i / P (i - 1) - 1| / (V i * P i)) w t)) := by
  have hbd := hc.1
  have hf : Obs (ffillGo .nan c) P (w + 1) t := ⟨hc.1, fun i hi => ffill_get _ (hc.2 i hi) (by simp)⟩
  have hp : Obs (pctChange c) (fun i => P i / P (i - 1) - 1) w t :=
    obs_map (y := fun i => P i / P (i - 1)) (obs_op2 (obs_sub hf (Nat.le_succ w)) (obs_shift hf) fun i hi =>
      XF.div_fin (hP _ (by rw [mem_Ico] at hi ⊢; omega))) fun i _ => XF.sub_fin _ _
  refine mean_spec hw hu (obs_op2 (y := fun i => |P i / P (i - 1) - 1|) (q := fun i => V i * P i)
    (obs_map hp fun i _ => rfl) (obs_op2 hv (obs_sub hc (Nat.le_succ w)) fun i _ => rfl) fun i hi => XF.div_fin ?_)
  exact mul_ne_zero (hV i hi) (hP i (by rw [mem_Ico] at hi ⊢; omega))

/-- Across a gap the return is taken from the last known price: one missing close between `P` and `Q`. -/
theorem pctChange_gap {c : Ser} {i : Nat} {P Q : ℝ} (h1 : c[i]? = some (.fin P)) (h2 : c[i + 1]? = some .nan)
    (h3 : c[i + 2]? = some (.fin Q)) (hP : P ≠ 0) : (pctChange c)[i + 2]? = some (.fin (Q / P - 1)) := by
  have f1 := ffill_get .nan h1 (by simp)
  have f2 : (ffillGo .nan c)[i + 1]? = some (.fin P) := by rw [ffill_get_nan _ h2, f1]
  have f3 := ffill_get .nan h3 (by simp)
  have hs := shift_one_get (ffillGo .nan c) (List.getElem?_eq_some_iff.1 f3).1
  simp only [f2, Option.getD_some] at hs
  rw [pctChange, List.getElem?_map, op2_get _ f3 hs]
  simp [hP]

/-! ## Units -/

theorem obs_scale {x : Ser} {y : Nat → ℝ} {w t : Nat} (k : ℝ) (h : Obs x y w t) : Obs (scale k x) (fun i => k * y i) w t :=
  obs_map h fun i _ => by rw [XF.mul_fin, mul_comm]

/-- Kyle's lambda: prices in another unit (factor `k`) and volumes in another unit (factor `m`) multiply it by `k / m`. -/
theorem kyle_units {c v u u' : Ser} {P V : Nat → ℝ} {w t : Nat} {k m : ℝ} (hw : 1 ≤ w) (hk : 0 < k) (hm : 0 < m)
    (hu : kyle c v w = .ok u) (hu' : kyle (scale k c) (scale m v) w = .ok u')
    (hc : Obs c P (w + 1) t) (hv : Obs v V w t) (hP : ∀ i ∈ Ico (t + 1 - w) (t + 1), P i ≠ P (i - 1))
    (hV : ∀ i ∈ Ico (t + 1 - w) (t + 1), V i ≠ 0) :
    ∃ r, u[t]? = some (.fin r) ∧ u'[t]? = some (.fin (k / m * r)) := by
  refine ⟨_, kyle_spec hw hu hc hv hP hV, ?_⟩
  rw [kyle_spec hw hu' (obs_scale k hc) (obs_scale m hv)
    (fun i hi h => hP i hi (mul_left_cancel₀ hk.ne' h)) fun i hi => mul_ne_zero hm.ne' (hV i hi), ← meanOf_smul]
  congr 2
  refine meanOf_congr fun i _ => ?_
  rw [← mul_sub, abs_mul, abs_of_pos hk, mul_div_mul_comm]

/-- Amihud's lambda: the factor is `1 / (k m)`. -/
theorem amihud_units {c v u u' : Ser} {P V : Nat → ℝ} {w t : Nat} {k m : ℝ} (hw : 1 ≤ w) (hk : 0 < k) (hm : 0 < m)
    (hu : amihud c v w = .ok u) (hu' : amihud (scale k c) (scale m v) w = .ok u')
    (hc : Obs c P (w + 1) t) (hv : Obs v V w t) (hP : ∀ i ∈ Ico (t - w) (t + 1), P i ≠ 0)
    (hV : ∀ i ∈ Ico (t + 1 - w) (t + 1), V i ≠ 0) :
    ∃ r, u[t]? = some (.fin r) ∧ u'[t]? = some (.fin (1 / (k * m) * r)) := by
  refine ⟨_, amihud_spec hw hu hc hv hP hV, ?_⟩
  rw [amihud_spec hw hu' (obs_scale k hc) (obs_scale m hv)
    (fun i hi => mul_ne_zero hk.ne' (hP i hi)) fun i hi => mul_ne_zero hm.ne' (hV i hi), ← meanOf_smul]
  congr 2
  refine meanOf_congr fun i _ => ?_
  rw [mul_div_mul_left _ _ hk.ne', show m * V i * (k * P i) = (k * m) * (V i * P i) by ring, one_div, ← div_eq_inv_mul,
    div_div, mul_comm (V i * P i)]

/-- Hasbrouck's lambda: the factor is `1 / sqrt (k m)`. -/
theorem hasbrouck_units {c v u u' : Ser} {P V : Nat → ℝ} {w t : Nat} {k m : ℝ} (hw : 1 ≤ w) (hk : 0 < k) (hm : 0 < m)
    (hu : hasbrouck c v w = .ok u) (hu' : hasbrouck (scale k c) (scale m v) w = .ok u')
    (hc : Obs c P (w + 1) t) (hv : Obs v V w t) (hP : ∀ i ∈ Ico (t + 1 - w) (t + 1), P i ≠ P (i - 1))
    (hpos : ∀ i ∈ Ico (t - w) (t + 1), 0 < P i) (hV : ∀ i ∈ Ico (t + 1 - w) (t + 1), 0 < V i) :
    ∃ r, u[t]? = some (.fin r) ∧ u'[t]? = some (.fin (1 / Real.sqrt (k * m) * r)) := by
  refine ⟨_, hasbrouck_spec hw hu hc hv hP hpos hV, ?_⟩
  rw [hasbrouck_spec hw hu' (obs_scale k hc) (obs_scale m hv)
    (fun i hi h => hP i hi (mul_left_cancel₀ hk.ne' h)) (fun i hi => mul_pos hk (hpos i hi))
    fun i hi => mul_pos hm (hV i hi), ← meanOf_smul]
  congr 2
  refine meanOf_congr fun i _ => ?_
  rw [mul_div_mul_left _ _ hk.ne', show m * V i * (k * P i) = (k * m) * (V i * P i) by ring,
    Real.sqrt_mul (mul_pos hk hm).le, one_div, ← div_eq_inv_mul, div_div, mul_comm (Real.sqrt (V i * P i))]

/-- Concrete case: prices 1, 2, 2 and volume 1: Kyle's lambda with window 1 is 1, then NaN. -/
example : ∃ u, kyle [.fin 1, .fin 2, .fin 2] [.fin 1, .fin 1, .fin 1] 1 = .ok u ∧ u[1]? = some (.fin 1) ∧
    u[2]? = some .nan := by
  refine ⟨_, rolling_ok (by decide) _ _, ?_, ?_⟩
  · have := kyle_spec (w := 1) (t := 1) (P := fun i => if i = 0 then 1 else 2) (V := fun _ => 1) le_rfl
      (rolling_ok (by decide) _ _) (c := [.fin 1, .fin 2, .fin 2]) (v := [.fin 1, .fin 1, .fin 1])
      ⟨by omega, fun i hi => by
        rw [mem_Ico] at hi
        match i with
        | 0 => rfl
        | 1 => rfl
        | i + 2 => omega⟩ ⟨by omega, by simp⟩ (by simp) (by simp)
    refine this.trans ?_
    simp [meanOf]
    norm_num
  · exact kyle_no_change (c := [.fin 1, .fin 2, .fin 2]) (v := [.fin 1, .fin 1, .fin 1]) (w := 1) (t := 2) (i := 1)
      (P := 2) rfl (rolling_ok (by decide) _ _) (by simp) (by simp) rfl rfl

end Verif.Props.MicroTrade
