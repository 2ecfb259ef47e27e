import Verif.Lemmas.Labelled
import Verif.Props.MicroCausal
import Verif.Props.IndCausal

/-!
# C94: labels

Indicators and microstructure features as functions of labelled series (`Respects`, `Spec/Labelled.lean`).
-/

namespace Verif.LSer

open Verif

/-! ### Methods -/

theorem Method.map (f : XF → XF) : Method (·.map f) := ⟨fun _ => by simp, fun x t => Ser.map_take' f x t⟩

theorem Method.shift : Method (Ser.shift 1) := ⟨Ser.shift_length 1, fun x t => Ser.shift_take (by decide) x t⟩

theorem Method.diff : Method (Ser.diff 1) := ⟨Ser.diff_length 1, fun x t => Ser.diff_take (by decide) x t⟩

theorem Method.pct : Method Ser.pctChange := ⟨Props.MicroTrade.pctChange_length, fun x t =>
  (Props.MicroCausal.CausalP.pct (Props.MicroCausal.proj (n := 1) 0)).cut (fun _ => x) t⟩

theorem Method.ewmMean (α : ℝ) (p : Int) : Method (Ser.ewmMean α p) := ⟨Ser.ewmMean_length α p, Ser.ewmMean_take α p⟩

/-- The result of a function that does not raise. -/
def value (F : Ser → Py Ser) (x : Ser) : Ser := match F x with
  | .ok u => u
  | .error _ => []

variable {F : Ser → Py Ser}

theorem value_eq (hF : ∀ x, ∃ u, F x = .ok u) (x : Ser) : F x = .ok (value F x) := by
  obtain ⟨u, hu⟩ := hF x
  rw [value, hu]

theorem Method.value (hF : ∀ x, ∃ u, F x = .ok u) (h : Props.IndCausal.Causal F) : Method (value F) :=
  ⟨fun x => h.length x _ (value_eq hF x), fun x t => by
    have := h.cut x _ t (value_eq hF x)
    rw [value_eq hF] at this
    exact Except.ok.inj this⟩

theorem liftPy_value {ι : Type} (hF : ∀ x, ∃ u, F x = .ok u) (a : LSer ι) : liftPy F a = .ok (lift (value F) a) := by
  rw [liftPy, value_eq hF]
  rfl

/-- `x.rolling(w).agg()` for `0 ≤ w`. -/
noncomputable abbrev roll (w : Int) (f : List ℝ → XF) : Ser → Ser := value (Ser.rolling w f)

theorem roll_ok {w : Int} (hw : 0 ≤ w) (f : List ℝ → XF) (x : Ser) : Ser.rolling w f x = .ok (roll w f x) :=
  value_eq (fun x => ⟨_, Ser.rolling_ok hw f x⟩) x

theorem liftPy_roll {ι : Type} {w : Int} (hw : 0 ≤ w) (f : List ℝ → XF) (a : LSer ι) : liftPy (Ser.rolling w f) a = .ok (lift (roll w f) a) :=
  liftPy_value (fun x => ⟨_, Ser.rolling_ok hw f x⟩) a

theorem liftPy_roll_err {ι : Type} {w : Int} (hw : w < 0) (f : List ℝ → XF) (a : LSer ι) : liftPy (Ser.rolling w f) a = .error .valueError := by
  rw [liftPy, Ser.rolling_err hw]
  rfl

theorem Method.roll {w : Int} (hw : 0 ≤ w) (f : List ℝ → XF) : Method (roll w f) :=
  Method.value (fun x => ⟨_, Ser.rolling_ok hw f x⟩) (Props.IndCausal.rolling_causal w f)

/-! ### Expressions -/

/-- A function of labelled series without an error case, and the same function of unlabelled ones. -/
structure Pure (n : Nat) (G : ∀ κ : Type, [LinearOrder κ] → (Fin n → LSer κ) → LSer κ) (g : (Fin n → Ser) → Ser) : Prop where
  length : ∀ (xs : Fin n → Ser) m, (∀ k, (xs k).length = m) → (g xs).length = m
  same : ∀ {κ : Type} [LinearOrder κ] (i : List κ) (xs : Fin n → Ser), (∀ k, (xs k).length = i.length) →
    G κ (fun k => lab i (xs k)) = lab i (g xs)
  arrays : ∀ xs : Fin n → Ser, G Nat (fun k => arr (xs k)) = arr (g xs)
  relabel : ∀ {κ μ : Type} [LinearOrder κ] [LinearOrder μ] (φ : κ → μ), StrictMono φ → ∀ as : Fin n → LSer κ,
    G μ (fun k => (as k).relabel φ) = (G κ as).relabel φ
  sorted : ∀ {κ : Type} [LinearOrder κ] (as : Fin n → LSer κ), (∀ k, (as k).Sorted) → (G κ as).Sorted
  times : ∀ {κ : Type} [LinearOrder κ] (as : Fin n → LSer κ), (∀ k, (as k).Sorted) → ∀ l ∈ (G κ as).idx, ∃ k, l ∈ (as k).idx
  causal : ∀ {κ : Type} [LinearOrder κ] (as : Fin n → LSer κ), (∀ k, (as k).Sorted) → ∀ l,
    G κ (fun k => (as k).upto l) = (G κ as).upto l

variable {n : Nat} {G H : ∀ κ : Type, [LinearOrder κ] → (Fin n → LSer κ) → LSer κ} {g h : (Fin n → Ser) → Ser}

theorem Pure.proj (k : Fin n) : Pure n (fun _ _ as => as k) (fun xs => xs k) :=
  ⟨fun _ _ h => h k, fun _ _ _ => rfl, fun _ => rfl, fun _ _ _ => rfl, fun _ h => h k, fun _ _ _ hl => ⟨k, hl⟩, fun _ _ _ => rfl⟩

theorem Pure.lift {m : Ser → Ser} (hG : Pure n G g) (hm : Method m) : Pure n (fun κ _ as => LSer.lift m (G κ as)) (fun xs => m (g xs)) := by
  refine ⟨fun xs k hk => by rw [hm.length, hG.length xs k hk], fun i xs hx => ?_, fun xs => ?_, fun φ hφ as => ?_, fun as ha => ?_,
    fun as ha l hl => ?_, fun as ha l => ?_⟩
  · rw [hG.same i xs hx, lift_lab (hG.length xs _ hx)]
  · rw [hG.arrays, lift_arr hm]
  · rw [hG.relabel φ hφ, lift_relabel]
  · rw [Sorted, hm.idx_lift]
    exact hG.sorted as ha
  · rw [hm.idx_lift] at hl
    exact hG.times as ha l hl
  · rw [hG.causal as ha, hm.upto (hG.sorted as ha)]

/-- An operation that is NaN as soon as one operand is. -/
def Absorbs (f : XF → XF → XF) : Prop := (∀ a, f a .nan = .nan) ∧ ∀ b, f .nan b = .nan

theorem absorbs_add : Absorbs (· + ·) := ⟨fun a => by cases a <;> rfl, fun a => by cases a <;> rfl⟩
theorem absorbs_sub : Absorbs (· - ·) := ⟨fun a => by cases a <;> rfl, fun a => by cases a <;> rfl⟩
theorem absorbs_mul : Absorbs (· * ·) := ⟨fun a => by cases a <;> rfl, fun a => by cases a <;> rfl⟩
theorem absorbs_div : Absorbs (· / ·) := ⟨fun a => by cases a <;> rfl, fun a => by cases a <;> rfl⟩

theorem Pure.op2 {f : XF → XF → XF} (hf : Absorbs f) (hG : Pure n G g) (hH : Pure n H h) :
    Pure n (fun κ _ as => LSer.op2 f (G κ as) (H κ as)) (fun xs => Ser.op2 f (g xs) (h xs)) := by
  refine ⟨fun xs k hk => ?_, fun i xs hx => ?_, fun xs => ?_, fun φ hφ as => ?_, fun as ha => ?_, fun as ha l hl => ?_, fun as ha l => ?_⟩
  · rw [Ser.op2_length, hG.length xs k hk, hH.length xs k hk, max_self]
  · rw [hG.same i xs hx, hH.same i xs hx, op2_lab f (hG.length xs _ hx) (hH.length xs _ hx)]
  · rw [hG.arrays, hH.arrays, op2_arr hf.1 hf.2]
  · rw [hG.relabel φ hφ, hH.relabel φ hφ, op2_relabel f hφ]
  · exact (hG.sorted as ha).op2 f (hH.sorted as ha)
  · rcases (mem_idx_op2 f (hG.sorted as ha) (hH.sorted as ha)).mp hl with hl | hl
    · exact hG.times as ha l hl
    · exact hH.times as ha l hl
  · rw [hG.causal as ha, hH.causal as ha, op2_upto f (hG.sorted as ha) (hH.sorted as ha)]

theorem Pure.logRatio (hG : Pure n G g) (hH : Pure n H h) :
    Pure n (fun κ _ as => LSer.logRatio (G κ as) (H κ as)) (fun xs => Ser.logRatio (g xs) (h xs)) :=
  (hG.op2 absorbs_div hH).lift (.map XF.log)

theorem Respects.ok {F : ∀ κ : Type, [LinearOrder κ] → (Fin n → LSer κ) → Py (LSer κ)} {f : (Fin n → Ser) → Py Ser} (hG : Pure n G g)
    (hF : ∀ (κ : Type) [LinearOrder κ] (as : Fin n → LSer κ), F κ as = .ok (G κ as)) (hf : ∀ xs, f xs = .ok (g xs)) : Respects n F f := by
  refine ⟨fun i xs hx => ⟨?_, fun u hu => ?_⟩, fun xs => ?_, fun φ hφ as => ?_, fun as ha u hu => ?_, fun as ha l => ?_⟩
  · rw [hF, hf, hG.same i xs hx]
    rfl
  · rw [hf] at hu
    cases hu
    exact hG.length xs _ hx
  · rw [hF, hf, hG.arrays]
    rfl
  · rw [hF, hF, hG.relabel φ hφ]
    rfl
  · rw [hF] at hu
    cases hu
    exact ⟨hG.sorted as ha, hG.times as ha⟩
  · rw [hF, hF, hG.causal as ha]
    rfl

theorem Respects.err {F : ∀ κ : Type, [LinearOrder κ] → (Fin n → LSer κ) → Py (LSer κ)} {f : (Fin n → Ser) → Py Ser} {e : PyErr}
    (hF : ∀ (κ : Type) [LinearOrder κ] (as : Fin n → LSer κ), F κ as = .error e) (hf : ∀ xs, f xs = .error e) : Respects n F f := by
  refine ⟨fun i xs hx => ⟨by rw [hF, hf]; rfl, fun u hu => ?_⟩, fun xs => by rw [hF, hf]; rfl, fun φ hφ as => by rw [hF, hF]; rfl,
    fun as ha u hu => ?_, fun as ha l => by rw [hF, hF]; rfl⟩
  · rw [hf] at hu
    cases hu
  · rw [hF] at hu
    cases hu

/-! ### Microstructure -/

theorem highLow_respects (w : Int) : Respects 2 (fun _ _ as => highLow (as 0) (as 1) w) (fun xs => Micro.highLow (xs 0) (xs 1) w) := by
  by_cases hw : 0 ≤ w
  · exact .ok (((((Pure.proj 0).logRatio (.proj 1)).lift (.map Ser.sqF)).lift (.roll hw Ser.meanF)).lift (.map (· / .fin (4 * Real.log 2))))
      (fun _ _ _ => by rw [highLow, liftPy_roll hw]; rfl) (fun _ => by rw [Micro.highLow, roll_ok hw]; rfl)
  · exact .err (e := .valueError) (fun _ _ _ => by rw [highLow, liftPy_roll_err (by omega)]; rfl)
      (fun _ => by rw [Micro.highLow, Ser.rolling_err (by omega)]; rfl)

theorem garmanKlass_respects (w : Int) : Respects 4 (fun _ _ as => garmanKlass (as 0) (as 1) (as 2) (as 3) w)
    (fun xs => Micro.garmanKlass (xs 0) (xs 1) (xs 2) (xs 3) w) := by
  by_cases hw : 0 ≤ w
  · exact .ok ((((((Pure.proj 0).logRatio (.proj 1)).lift (.map fun v => .fin (1 / 2) * Ser.sqF v)).lift (.roll hw Ser.meanF))).op2 absorbs_sub
      ((((Pure.proj 3).logRatio (.proj 2)).lift (.map fun v => .fin (2 * Real.log 2 - 1) * Ser.sqF v)).lift (.roll hw Ser.meanF)))
      (fun _ _ _ => by simp only [garmanKlass, liftPy_roll hw]; rfl) (fun _ => by simp only [Micro.garmanKlass, roll_ok hw]; rfl)
  · exact .err (e := .valueError) (fun _ _ _ => by simp only [garmanKlass, liftPy_roll_err (not_le.mp hw)]; rfl)
      (fun _ => by simp only [Micro.garmanKlass, Ser.rolling_err (not_le.mp hw)]; rfl)

theorem rogersSatchell_pure : Pure 4
    (fun _ _ as => op2 (· + ·) (op2 (· * ·) (logRatio (as 0) (as 3)) (logRatio (as 0) (as 2))) (op2 (· * ·) (logRatio (as 1) (as 3)) (logRatio (as 1) (as 2))))
    (fun xs => Ser.op2 (· + ·) (Ser.op2 (· * ·) (Ser.logRatio (xs 0) (xs 3)) (Ser.logRatio (xs 0) (xs 2)))
      (Ser.op2 (· * ·) (Ser.logRatio (xs 1) (xs 3)) (Ser.logRatio (xs 1) (xs 2)))) :=
  (((Pure.proj 0).logRatio (.proj 3)).op2 absorbs_mul ((Pure.proj 0).logRatio (.proj 2))).op2 absorbs_add
    (((Pure.proj 1).logRatio (.proj 3)).op2 absorbs_mul ((Pure.proj 1).logRatio (.proj 2)))

theorem rogersSatchell_respects (w : Int) : Respects 4 (fun _ _ as => rogersSatchell (as 0) (as 1) (as 2) (as 3) w)
    (fun xs => Micro.rogersSatchell (xs 0) (xs 1) (xs 2) (xs 3) w) := by
  by_cases hw : 0 ≤ w
  · exact .ok (rogersSatchell_pure.lift (.roll hw Ser.meanF)) (fun _ _ _ => liftPy_roll hw _ _) (fun _ => roll_ok hw _ _)
  · exact .err (e := .valueError) (fun _ _ _ => liftPy_roll_err (not_le.mp hw) _ _) (fun _ => Ser.rolling_err (not_le.mp hw) _ _)

theorem yangZhang_respects (w : Int) : Respects 4 (fun _ _ as => yangZhang (as 0) (as 1) (as 2) (as 3) w)
    (fun xs => Micro.yangZhang (xs 0) (xs 1) (xs 2) (xs 3) w) := by
  by_cases h1 : w = 1
  · exact .err (e := .zeroDivisionError) (fun _ _ _ => by simp only [yangZhang, Micro.yzCoeff, if_pos h1]; rfl)
      (fun _ => by simp only [Micro.yangZhang, Micro.yzCoeff, if_pos h1]; rfl)
  by_cases hw : 0 ≤ w
  · exact .ok (((((((Pure.proj 2).logRatio ((Pure.proj 3).lift .shift)).lift (.map Ser.sqF)).lift (.roll hw Ser.meanF))).op2 absorbs_add
      (((((Pure.proj 3).logRatio ((Pure.proj 2).lift .shift)).lift (.map Ser.sqF)).lift (.roll hw Ser.meanF)).lift
        (.map (.fin (0.34 / (1.34 + ((w : ℝ) + 1) / ((w : ℝ) - 1))) * ·)))).op2 absorbs_add
      ((rogersSatchell_pure.lift (.roll hw Ser.meanF)).lift (.map (.fin (1 - 0.34 / (1.34 + ((w : ℝ) + 1) / ((w : ℝ) - 1))) * ·))))
      (fun _ _ _ => by simp only [yangZhang, rogersSatchell, Micro.yzCoeff, if_neg h1, liftPy_roll hw]; rfl)
      (fun _ => by simp only [Micro.yangZhang, Micro.rogersSatchell, Micro.yzCoeff, if_neg h1, roll_ok hw]; rfl)
  · exact .err (e := .valueError) (fun _ _ _ => by simp only [yangZhang, Micro.yzCoeff, if_neg h1, liftPy_roll_err (not_le.mp hw)]; rfl)
      (fun _ => by simp only [Micro.yangZhang, Micro.yzCoeff, if_neg h1, Ser.rolling_err (not_le.mp hw)]; rfl)

theorem gamma_pure : Pure 2 (fun _ _ as => lift (·.map Ser.sqF) (logRatio (lift (roll 2 Ser.maxF) (as 0)) (lift (roll 2 Ser.minF) (as 1))))
    (fun xs => (Ser.logRatio (roll 2 Ser.maxF (xs 0)) (roll 2 Ser.minF (xs 1))).map Ser.sqF) :=
  (((Pure.proj 0).lift (.roll (by decide) Ser.maxF)).logRatio ((Pure.proj 1).lift (.roll (by decide) Ser.minF))).lift (.map Ser.sqF)

theorem beta_pure {w : Int} (hw : 0 ≤ w) : Pure 2
    (fun _ _ as => lift (roll w Ser.meanF) (lift (roll 2 Ser.sumF) (lift (·.map Ser.sqF) (logRatio (as 0) (as 1)))))
    (fun xs => roll w Ser.meanF (roll 2 Ser.sumF ((Ser.logRatio (xs 0) (xs 1)).map Ser.sqF))) :=
  ((((Pure.proj 0).logRatio (.proj 1)).lift (.map Ser.sqF)).lift (.roll (by decide) Ser.sumF)).lift (.roll hw Ser.meanF)

theorem beckerParkinson_respects (w : Int) : Respects 2 (fun _ _ as => beckerParkinson (as 0) (as 1) w)
    (fun xs => Micro.beckerParkinson (xs 0) (xs 1) w) := by
  have h2 : (0 : Int) ≤ 2 := by decide
  by_cases hw : 0 ≤ w
  · exact .ok ((((beta_pure hw).lift (.map fun b => .fin (1 / Real.sqrt 2 - 1) * b.sqrt / .fin (Real.sqrt (8 / Real.pi) * Micro.den))).op2 absorbs_add
      (gamma_pure.lift (.map fun g => (g / .fin (Real.sqrt (8 / Real.pi) ^ 2 * Micro.den)).sqrt))).lift (.map Micro.clamp))
      (fun _ _ _ => by simp only [beckerParkinson, beta, gamma, liftPy_roll hw, liftPy_roll h2]; rfl)
      (fun _ => by simp only [Micro.beckerParkinson, Micro.beta, Micro.gamma, roll_ok hw, roll_ok h2]; rfl)
  · exact .err (e := .valueError) (fun _ _ _ => by simp only [beckerParkinson, beta, liftPy_roll_err (not_le.mp hw), liftPy_roll h2]; rfl)
      (fun _ => by simp only [Micro.beckerParkinson, Micro.beta, Ser.rolling_err (not_le.mp hw), roll_ok h2]; rfl)

theorem corwinSchultz_respects (w : Int) : Respects 2 (fun _ _ as => corwinSchultz (as 0) (as 1) w)
    (fun xs => Micro.corwinSchultz (xs 0) (xs 1) w) := by
  have h2 : (0 : Int) ≤ 2 := by decide
  by_cases hw : 0 ≤ w
  · exact .ok (((((beta_pure hw).lift (.map fun b => .fin (Real.sqrt 2 - 1) * b.sqrt / .fin Micro.den)).op2 absorbs_sub
      (gamma_pure.lift (.map fun g => -(g / .fin Micro.den).sqrt))).lift (.map Micro.clamp)).lift (.map Micro.spreadOf))
      (fun _ _ _ => by simp only [corwinSchultz, beta, gamma, liftPy_roll hw, liftPy_roll h2]; rfl)
      (fun _ => by simp only [Micro.corwinSchultz, Micro.beta, Micro.gamma, roll_ok hw, roll_ok h2]; rfl)
  · exact .err (e := .valueError) (fun _ _ _ => by simp only [corwinSchultz, beta, liftPy_roll_err (not_le.mp hw), liftPy_roll h2]; rfl)
      (fun _ => by simp only [Micro.corwinSchultz, Micro.beta, Ser.rolling_err (not_le.mp hw), roll_ok h2]; rfl)

theorem rollImpact_respects (w : Int) : Respects 2 (fun _ _ as => rollImpact (as 0) (as 1) w) (fun xs => Micro.rollImpact (xs 0) (xs 1) w) := by
  by_cases hw : 0 ≤ w
  · have ht : ∀ x, ∃ u, Micro.rollMeasure x w = .ok u := fun x => by
      rw [Micro.rollMeasure, Ser.rollingCov, if_neg (by omega)]
      exact ⟨_, rfl⟩
    have hc : Props.IndCausal.Causal (Micro.rollMeasure · w) :=
      ⟨fun x u hu => (Props.MicroCausal.rollMeasure_causal w).length (fun _ => x) u _ (fun _ => rfl) hu,
        fun x u t hu => (Props.MicroCausal.rollMeasure_causal w).cut (fun _ => x) u t hu⟩
    exact .ok (((Pure.proj 0).lift (.value ht hc)).op2 absorbs_div ((Pure.proj 1).op2 absorbs_mul (.proj 0)))
      (fun _ _ _ => by rw [rollImpact, liftPy_value ht]; rfl) (fun xs => by
        rw [Micro.rollImpact, value_eq ht (xs 0)]
        rfl)
  · have he : ∀ x, Micro.rollMeasure x w = .error .valueError := fun x => by
      rw [Micro.rollMeasure, Ser.rollingCov, if_pos (by omega)]
      rfl
    exact .err (e := .valueError) (fun _ _ _ => by rw [rollImpact, liftPy, he]; rfl) (fun _ => by rw [Micro.rollImpact, he]; rfl)

theorem vpin_respects (w : Int) : Respects 2 (fun _ _ as => vpin (as 0) (as 1) w) (fun xs => Micro.vpin (xs 0) (xs 1) w) := by
  by_cases hw : 0 ≤ w
  · exact .ok (((((Pure.proj 1).op2 absorbs_sub ((Pure.proj 0).op2 absorbs_sub (.proj 1))).lift (.map XF.abs)).op2 absorbs_div (.proj 0)).lift
      (.roll hw Ser.meanF)) (fun _ _ _ => liftPy_roll hw _ _) (fun _ => roll_ok hw _ _)
  · exact .err (e := .valueError) (fun _ _ _ => liftPy_roll_err (not_le.mp hw) _ _) (fun _ => Ser.rolling_err (not_le.mp hw) _ _)

theorem kyle_respects (w : Int) : Respects 2 (fun _ _ as => kyle (as 0) (as 1) w) (fun xs => Micro.kyle (xs 0) (xs 1) w) := by
  by_cases hw : 0 ≤ w
  · exact .ok ((((Pure.proj 0).lift .diff).op2 absorbs_div ((((Pure.proj 0).lift .diff).lift (.map XF.sign)).op2 absorbs_mul (.proj 1))).lift
      (.roll hw Ser.meanF)) (fun _ _ _ => liftPy_roll hw _ _) (fun _ => roll_ok hw _ _)
  · exact .err (e := .valueError) (fun _ _ _ => liftPy_roll_err (not_le.mp hw) _ _) (fun _ => Ser.rolling_err (not_le.mp hw) _ _)

theorem amihud_respects (w : Int) : Respects 2 (fun _ _ as => amihud (as 0) (as 1) w) (fun xs => Micro.amihud (xs 0) (xs 1) w) := by
  by_cases hw : 0 ≤ w
  · exact .ok (((((Pure.proj 0).lift .pct).lift (.map XF.abs)).op2 absorbs_div ((Pure.proj 1).op2 absorbs_mul (.proj 0))).lift
      (.roll hw Ser.meanF)) (fun _ _ _ => liftPy_roll hw _ _) (fun _ => roll_ok hw _ _)
  · exact .err (e := .valueError) (fun _ _ _ => liftPy_roll_err (not_le.mp hw) _ _) (fun _ => Ser.rolling_err (not_le.mp hw) _ _)

theorem hasbrouck_respects (w : Int) : Respects 2 (fun _ _ as => hasbrouck (as 0) (as 1) w) (fun xs => Micro.hasbrouck (xs 0) (xs 1) w) := by
  have hd := (Pure.proj (n := 2) 0).logRatio ((Pure.proj 0).lift .shift)
  by_cases hw : 0 ≤ w
  · exact .ok ((hd.op2 absorbs_div ((hd.lift (.map XF.sign)).op2 absorbs_mul (((Pure.proj 1).op2 absorbs_mul (.proj 0)).lift (.map XF.sqrt)))).lift
      (.roll hw Ser.meanF)) (fun _ _ _ => liftPy_roll hw _ _) (fun _ => roll_ok hw _ _)
  · exact .err (e := .valueError) (fun _ _ _ => liftPy_roll_err (not_le.mp hw) _ _) (fun _ => Ser.rolling_err (not_le.mp hw) _ _)

/-! ### Bands -/

theorem bands_respect (m : ℝ) :
    Respects 3 (fun _ _ as => .ok (Bands.upper ⟨as 0, as 1, as 2, m⟩)) (fun xs => .ok (Ind.Bands.upper ⟨xs 0, xs 1, xs 2, m⟩)) ∧
    Respects 3 (fun _ _ as => .ok (Bands.lower ⟨as 0, as 1, as 2, m⟩)) (fun xs => .ok (Ind.Bands.lower ⟨xs 0, xs 1, xs 2, m⟩)) ∧
    Respects 3 (fun _ _ as => .ok (Bands.bandwidth ⟨as 0, as 1, as 2, m⟩)) (fun xs => .ok (Ind.Bands.bandwidth ⟨xs 0, xs 1, xs 2, m⟩)) ∧
    Respects 3 (fun _ _ as => .ok (Bands.percentB ⟨as 0, as 1, as 2, m⟩)) (fun xs => .ok (Ind.Bands.percentB ⟨xs 0, xs 1, xs 2, m⟩)) := by
  have hs := (Pure.proj (n := 3) 2).lift (.map (· * .fin m))
  have hw := (Pure.proj (n := 3) 2).lift (.map fun s => .fin 2 * s * .fin m)
  have hl := (Pure.proj 1).op2 absorbs_sub hs
  exact ⟨.ok ((Pure.proj 1).op2 absorbs_add hs) (fun _ _ _ => rfl) fun _ => rfl, .ok hl (fun _ _ _ => rfl) fun _ => rfl,
    .ok (hw.op2 absorbs_div (.proj 1)) (fun _ _ _ => rfl) fun _ => rfl,
    .ok (((Pure.proj 0).op2 absorbs_sub hl).op2 absorbs_div hw) (fun _ _ _ => rfl) fun _ => rfl⟩

end Verif.LSer
