import Verif.Props.RollVar
import Verif.Props.RollSpike
import Verif.Props.EwmErr
import Verif.Props.RoundSum
import Verif.Props.IndRsi
import Verif.Props.IndRolling

/-!
# C107: indicators with rounding
-/

namespace Verif.Roll

open Verif Ser Round

variable {fl : ℝ → ℝ}

/-! ### Agreement with the exact functions -/

theorem rnd_id (v : XF) : rnd id v = v := by cases v <;> rfl

theorem diffR_id (x : Ser) : diffR id x = diff 1 x := by
  unfold diffR diff
  congr 1
  funext a b
  exact rnd_id _

theorem ewmGoR_id {f : ℝ} (hf : 0 ≤ f) (p : Nat) : ∀ (x : Ser) (s : Option (ℝ × ℝ)) (n : Nat), (∀ m w, s = some (m, w) → 0 ≤ w) →
    ewmGoR id f p s n x = ewmGo (1 - f) p s n x := by
  intro x
  induction x with
  | nil => intro s n _; cases s <;> rfl
  | cons v x ih =>
    intro s n hs
    cases s with
    | none =>
      rw [ewmGoR, ewmGo]
      cases v.real? with
      | none => simp only [ih none n (by simp)]
      | some c =>
        dsimp only
        rw [ih (some (c, 1)) (n + 1) (by simp)]
    | some s =>
      obtain ⟨m, w⟩ := s
      have hw := hs m w rfl
      have ha : 0 ≤ w * f := mul_nonneg hw hf
      rw [ewmGoR, ewmGo, sub_sub_cancel]
      cases v.real? with
      | none =>
        dsimp only [id]
        rw [ih (some (m, w * f)) n (by rintro _ _ ⟨⟩; exact ha)]
      | some c =>
        have e : (if m = c then m else (w * f * m + c) / (w * f + 1)) = (w * f * m + c) / (w * f + 1) := by
          split
          · rename_i h
            subst h
            have : w * f + 1 ≠ 0 := by linarith
            field_simp
          · rfl
        dsimp only [id]
        rw [e, ih (some ((w * f * m + c) / (w * f + 1), w * f + 1)) (n + 1) (by rintro _ _ ⟨⟩; linarith)]

/-- C107. Without rounding these are the functions of the exact model. -/
theorem ind_round_id (x : Ser) (w : Int) (k s : ℝ) : rsiR id x w = Ind.rsi x w ∧ bollingerR id x w k = Ind.bollinger x w k ∧
    donchianR id x w = Ind.donchian x w ∧ emaR id x s = Ind.ewmMean x s ∧ ewmRsiR id x s = Ind.ewmRsi x s ∧
    ∀ s', macdR id x s s' = Ind.macd x s s' := by
  have hg : gainsR id x = Ind.gains x := by unfold gainsR Ind.gains; rw [diffR_id]
  have hl : lossesR id x = Ind.losses x := by unfold lossesR Ind.losses; rw [diffR_id]
  have hm : ∀ y, rollingMeanR id y w = rolling w meanF y := fun y => mean_exact y w
  have hr := round_sum_id_agrees.2.2.1
  have hf : ∀ s : ℝ, spanFactorR id s = (spanAlpha s).map fun α => 1 - α := by
    intro s
    unfold spanFactorR spanAlpha
    split
    · rfl
    · rename_i hs
      have : s + 1 ≠ 0 := by linarith
      show Except.ok _ = Except.ok _
      congr 2
      dsimp only [id]
      rw [show 1 + (s - 1) / 2 = (s + 1) / 2 by ring, one_div_div]
  have he : ∀ α : ℝ, α ≤ 1 → ∀ y, ewmMeanR id (1 - α) 0 y = Ser.ewmMean α 0 y := by
    intro α hα y
    unfold ewmMeanR Ser.ewmMean
    rw [ewmGoR_id (by linarith) _ _ _ _ (by simp), sub_sub_cancel]
  have hα1 : ∀ s α : ℝ, spanAlpha s = .ok α → α ≤ 1 := by
    intro s α h
    unfold spanAlpha at h
    split at h
    · cases h
    · cases h
      exact (div_le_one (by linarith)).mpr (by linarith)
  have hema : ∀ s : ℝ, emaR id x s = Ind.ewmMean x s := by
    intro s
    unfold emaR Ind.ewmMean
    rw [hf]
    cases hs : spanAlpha s with
    | error e => rfl
    | ok α =>
      show Except.ok _ = Except.ok _
      rw [he α (hα1 s α hs)]
  refine ⟨?_, ?_, ?_, hema s, ?_, ?_⟩
  · unfold rsiR Ind.rsi
    rw [hg, hl, hm, hm]
    simp only [hr]
  · unfold bollingerR Ind.bollinger
    rw [mean_exact, std_exact]
  · unfold donchianR Ind.donchian
    simp only [rnd_id]
  · unfold ewmRsiR Ind.ewmRsi
    rw [hf, hg, hl]
    cases hs : spanAlpha s with
    | error e => rfl
    | ok α =>
      show Except.ok _ = Except.ok _
      rw [he α (hα1 s α hs), he α (hα1 s α hs), hr]
  · intro s'
    unfold macdR Ind.macd
    rw [hema, hema]
    simp only [rnd_id]

/-! ### The relative strength index -/

/-- NaN or a float that is not negative. -/
def FineR (fl : ℝ → ℝ) (v : XF) : Prop := v = .nan ∨ ∃ r, v = .fin r ∧ 0 ≤ r ∧ fl r = r

/-- The index as a function of the averages. -/
noncomputable def rsiVal (fl : ℝ → ℝ) (a b : XF) : XF := rnd fl (.fin 100 * rnd fl (a / rnd fl (a + b)))

theorem rsiOfR_get {up down : Ser} (hl : up.length = down.length) {t : Nat} {v : XF} (h : (rsiOfR fl up down)[t]? = some v) :
    ∃ a b, up[t]? = some a ∧ down[t]? = some b ∧ v = rsiVal fl a b := by
  rw [rsiOfR, List.getElem?_map] at h
  obtain ⟨w, hw, rfl⟩ := Option.map_eq_some_iff.1 h
  obtain ⟨a, c, ha, hc, rfl⟩ := op2_get_inv (by rw [op2_length, ← hl, max_self]) hw
  obtain ⟨a', b, ha', hb, rfl⟩ := op2_get_inv hl hc
  rw [ha] at ha'
  cases ha'
  exact ⟨a, b, ha, hb, rfl⟩

theorem rsiVal_spec (R : Rounding fl) {a b : XF} (ha : FineR fl a) (hb : FineR fl b) :
    (rsiVal fl a b = .nan ∧ (a = .nan ∨ b = .nan ∨ a = .fin 0 ∧ b = .fin 0)) ∨
    ∃ p q r, a = .fin p ∧ b = .fin q ∧ rsiVal fl a b = .fin r ∧ 0 < p + q ∧ 0 ≤ r ∧ r ≤ 100 ∧ (q = 0 → r = 100) ∧ (p = 0 → r = 0) := by
  rcases ha with rfl | ⟨p, rfl, hp, hpf⟩
  · exact .inl ⟨by simp [rsiVal, rnd], .inl rfl⟩
  rcases hb with rfl | ⟨q, rfl, hq, hqf⟩
  · exact .inl ⟨by simp [rsiVal, rnd], .inr (.inl rfl)⟩
  by_cases h0 : p + q = 0
  · have h1 : p = 0 := by linarith
    have h2 : q = 0 := by linarith
    subst h1 h2
    refine .inl ⟨?_, .inr (.inr ⟨rfl, rfl⟩)⟩
    simp only [rsiVal, XF.add_fin, add_zero, rnd, R.zero, XF.zero_div_zero, XF.mul_nan]
  · have hpq : 0 < p + q := lt_of_le_of_ne (by linarith) (Ne.symm h0)
    have hs := R.pos hpq
    have hle : p ≤ fl (p + q) := hpf.symm.le.trans (R.mono (by linarith))
    have h100 : fl 100 = 100 := by simpa using R.int 100 (by norm_num)
    have q0 : 0 ≤ fl (p / fl (p + q)) := R.nonneg (div_nonneg hp hs.le)
    have q1 : fl (p / fl (p + q)) ≤ 1 := R.le_one ((div_le_one hs).mpr hle)
    refine .inr ⟨p, q, fl (100 * fl (p / fl (p + q))), rfl, rfl, ?_, hpq, R.nonneg (by linarith), (R.mono (by linarith)).trans h100.le, ?_, ?_⟩
    · simp only [rsiVal, XF.add_fin, rnd, XF.div_fin hs.ne', XF.mul_fin]
    · rintro rfl
      rw [add_zero] at hs ⊢
      rw [hpf] at hs ⊢
      rw [div_self hs.ne', R.one, mul_one, h100]
    · rintro rfl
      rw [zero_div, R.zero, mul_zero, R.zero]

theorem diffR_length (x : Ser) : (diffR fl x).length = x.length := by
  rw [diffR, op2_length, shift_length, max_self]

theorem gainsR_length (x : Ser) : (gainsR fl x).length = x.length := by
  rw [gainsR, whereZero_length _ rfl, diffR_length]

theorem lossesR_length (x : Ser) : (lossesR fl x).length = x.length := by
  rw [lossesR, whereZero_length _ (by simp), List.length_map, diffR_length]

theorem rnd_fin {v : XF} {r : ℝ} (h : rnd fl v = .fin r) : ∃ s, v = .fin s ∧ r = fl s := by
  cases v with
  | fin s => exact ⟨s, rfl, by simpa [rnd] using h.symm⟩
  | _ => cases h

/-- An entry of the gains and losses. -/
theorem moves_get {x : Ser} {t : Nat} (ht : t < x.length) : ∃ d, (diffR fl x)[t]? = some d ∧ (∀ r, d = .fin r → ∃ s, r = fl s) ∧
    (gainsR fl x)[t]? = some (open Classical in if XF.lt (.fin 0) d then d else .fin 0) ∧
    (lossesR fl x)[t]? = some (open Classical in if XF.lt d (.fin 0) then -d else .fin 0) := by
  have hd : t < (diffR fl x).length := by rwa [diffR_length]
  have e := List.getElem?_eq_getElem hd
  refine ⟨_, e, ?_, by rw [gainsR, whereZero, op2_get _ e e], ?_⟩
  · intro r hr
    obtain ⟨a, b, -, -, h⟩ := op2_get_inv (by rw [shift_length]) e
    rw [hr] at h
    obtain ⟨s, -, hs⟩ := rnd_fin h.symm
    exact ⟨s, hs⟩
  · have e2 : ((diffR fl x).map (- ·))[t]? = some (-(diffR fl x)[t]) := by rw [List.getElem?_map, e]; rfl
    rw [lossesR, whereZero, op2_get _ e e2]

/-- Gains and losses are floats that are not negative. -/
theorem moves_fine (R : Rounding fl) {x : Ser} {v : XF} (h : v ∈ gainsR fl x ∨ v ∈ lossesR fl x) {r : ℝ} (hr : v = .fin r) :
    0 ≤ r ∧ fl r = r := by
  subst hr
  have key : ∃ d : XF, (∀ r, d = .fin r → ∃ s, r = fl s) ∧ (.fin r = (open Classical in if XF.lt (.fin 0) d then d else .fin 0) ∨
      .fin r = (open Classical in if XF.lt d (.fin 0) then -d else XF.fin 0)) := by
    rcases h with h | h
    · obtain ⟨i, hi⟩ := List.mem_iff_getElem?.1 h
      have hlt := (List.getElem?_eq_some_iff.1 hi).1
      rw [gainsR_length] at hlt
      obtain ⟨d, -, hf, hg, -⟩ := moves_get (fl := fl) hlt
      rw [hg] at hi
      exact ⟨d, hf, .inl (Option.some.inj hi).symm⟩
    · obtain ⟨i, hi⟩ := List.mem_iff_getElem?.1 h
      have hlt := (List.getElem?_eq_some_iff.1 hi).1
      rw [lossesR_length] at hlt
      obtain ⟨d, -, hf, -, hl⟩ := moves_get (fl := fl) hlt
      rw [hl] at hi
      exact ⟨d, hf, .inr (Option.some.inj hi).symm⟩
  obtain ⟨d, hf, h | h⟩ := key
  · split at h
    · rename_i hlt
      rw [← h] at hlt
      obtain ⟨s, rfl⟩ := hf r h.symm
      exact ⟨le_of_lt hlt, R.idem s⟩
    · cases h
      exact ⟨le_rfl, R.zero⟩
  · split at h
    · rename_i hlt
      cases d with
      | fin e =>
        obtain ⟨s, rfl⟩ := hf e rfl
        rw [XF.neg_fin] at h
        cases h
        have hlt : fl s < 0 := hlt
        exact ⟨by linarith, by rw [R.neg, R.idem]⟩
      | nan => cases h
      | pinf => cases h
      | ninf => cases h
    · cases h
      exact ⟨le_rfl, R.zero⟩

/-- Rolling means of floats are floats. -/
theorem mean_float (R : Rounding fl) {x u : Ser} {w : Int} (h : rollingMeanR fl x w = .ok u) {t : Nat} {r : ℝ}
    (hr : u[t]? = some (.fin r)) (hx : ∀ v ∈ win w.toNat x t, fl v = v) : fl r = r := by
  have ht : t < x.length := by
    have hl : u.length = x.length := by
      unfold rollingMeanR at h
      split at h
      · cases h
      · cases h
        simp
    rw [← hl]
    exact (List.getElem?_eq_some_iff.1 hr).1
  obtain ⟨hw, -, he⟩ := mean_get h ht
  rw [he] at hr
  by_cases h0 : w = 0
  · simp [h0] at hr
  rw [if_neg h0, Option.some.injEq] at hr
  by_cases h1 : w = 1
  · subst h1
    rw [show (1 : Int).toNat = 1 from rfl, calc_one] at hr
    rw [show (1 : Int).toNat = 1 from rfl, win_one ht] at hx
    unfold num at hx
    cases hv : (at_ x t).real? with
    | none => rw [hv] at hr; cases hr
    | some v =>
      rw [hv] at hr hx
      cases hr
      exact hx r (by simp)
  · have hc := meanSt_cnt (fl := fl) (show 2 ≤ w.toNat by omega) x ht
    have hl : w.toNat ≤ (win w.toNat x t).length := by
      by_contra hcon
      unfold MeanSt.calc at hr
      rw [hc.nobs, if_neg (by omega)] at hr
      cases hr
    have hpos : 0 < (win w.toNat x t).length := by omega
    obtain ⟨a, ha⟩ := List.exists_mem_of_length_pos hpos
    rcases calc_spec (fl := fl) hc (win_prefix _ _ _) hl hpos with ⟨c, h1, e⟩ | ⟨hne, r', e, h2⟩
    · rw [e] at hr
      cases hr
      rw [← h1 a ha]
      exact hx a ha
    · rw [e] at hr
      cases hr
      rcases h2 with ⟨rfl, -⟩ | ⟨rfl, -⟩
      · exact R.idem _
      · exact R.zero

theorem mean_len {x u : Ser} {w : Int} (h : rollingMeanR fl x w = .ok u) : u.length = x.length := by
  unfold rollingMeanR at h
  split at h
  · cases h
  · cases h
    simp

theorem mean_fine (R : Rounding fl) {x u : Ser} {w : Int} (h : rollingMeanR fl x w = .ok u)
    (hx : ∀ v ∈ x, ∀ r, v = .fin r → 0 ≤ r ∧ fl r = r) {t : Nat} {v : XF} (hv : u[t]? = some v) : FineR fl v := by
  have ht : t < x.length := by rw [← mean_len h]; exact (List.getElem?_eq_some_iff.1 hv).1
  have hw : ∀ r ∈ win w.toNat x t, 0 ≤ r ∧ fl r = r := fun r hr => by
    obtain ⟨i, -, -, hi⟩ := win_mem hr
    exact hx _ (List.mem_of_getElem? hi) r rfl
  rcases (mean_nan_iff h ht).2 with e | ⟨r, e⟩
  · rw [e] at hv
    cases hv
    exact .inl rfl
  · rw [e] at hv
    cases hv
    exact .inr ⟨r, rfl, (mean_sign h e).2.1 fun r hr => (hw r hr).1, mean_float R h e fun r hr => (hw r hr).2⟩

/-- Exponential averages of floats that are not negative. -/
theorem ewm_fine (R : Rounding fl) {f : ℝ} (hf : 0 ≤ f) (p : Nat) : ∀ (x : Ser) (s : Option (ℝ × ℝ)) (n : Nat),
    (∀ v ∈ x, ∀ r, v = .fin r → 0 ≤ r ∧ fl r = r) → (∀ m w, s = some (m, w) → 0 ≤ w ∧ 0 ≤ m ∧ fl m = m) →
    ∀ v ∈ ewmGoR fl f p s n x, FineR fl v := by
  intro x
  induction x with
  | nil => intro s n _ _ v hv; cases s <;> simp [ewmGoR] at hv
  | cons a x ih =>
    intro s n hx hs v hv
    have hx' : ∀ v ∈ x, ∀ r, v = .fin r → 0 ≤ r ∧ fl r = r := fun v hv => hx v (by simp [hv])
    cases s with
    | none =>
      rw [ewmGoR] at hv
      cases har : a.real? with
      | none =>
        rw [har] at hv
        rcases List.mem_cons.1 hv with h | h
        · exact .inl h
        · exact ih none n hx' (by simp) v h
      | some c =>
        have hc := hx a (by simp) c (XF.real?_eq_some.1 har)
        rw [har] at hv
        rcases List.mem_cons.1 hv with h | h
        · split at h
          · exact .inr ⟨c, h, hc.1, hc.2⟩
          · exact .inl h
        · exact ih _ _ hx' (by rintro _ _ ⟨⟩; exact ⟨one_pos.le, hc.1, hc.2⟩) v h
    | some s =>
      obtain ⟨m, w⟩ := s
      obtain ⟨hw, hm, hmf⟩ := hs m w rfl
      have ha0 : 0 ≤ fl (w * f) := R.nonneg (mul_nonneg hw hf)
      rw [ewmGoR] at hv
      cases har : a.real? with
      | none =>
        rw [har] at hv
        rcases List.mem_cons.1 hv with h | h
        · split at h
          · exact .inr ⟨m, h, hm, hmf⟩
          · exact .inl h
        · exact ih _ _ hx' (by rintro _ _ ⟨⟩; exact ⟨ha0, hm, hmf⟩) v h
      | some c =>
        have hc := hx a (by simp) c (XF.real?_eq_some.1 har)
        rw [har] at hv
        dsimp only at hv
        have hnew : 0 ≤ (open Classical in if m = c then m else fl (fl (fl (fl (w * f) * m) + c) / fl (fl (w * f) + 1))) ∧
            fl (open Classical in if m = c then m else fl (fl (fl (fl (w * f) * m) + c) / fl (fl (w * f) + 1))) =
              (open Classical in if m = c then m else fl (fl (fl (fl (w * f) * m) + c) / fl (fl (w * f) + 1))) := by
          split
          · exact ⟨hm, hmf⟩
          · exact ⟨R.nonneg (div_nonneg (R.nonneg (add_nonneg (R.nonneg (mul_nonneg ha0 hm)) hc.1)) (R.nonneg (by linarith))), R.idem _⟩
        rcases List.mem_cons.1 hv with h | h
        · split at h
          · exact .inr ⟨_, h, hnew.1, hnew.2⟩
          · exact .inl h
        · exact ih _ _ hx' (by rintro _ _ ⟨⟩; exact ⟨R.nonneg (by linarith), hnew.1, hnew.2⟩) v h

/-- C107. Both strength indices computed with rounding are NaN or lie between 0 and 100, for any series of floats. -/
theorem rsi_rounded (R : Rounding fl) {x u : Ser} {t : Nat} {v : XF} (hu : (∃ p, rsiR fl x p = .ok u) ∨ ∃ p, ewmRsiR fl x p = .ok u)
    (hv : u[t]? = some v) : v = .nan ∨ ∃ r, v = .fin r ∧ 0 ≤ r ∧ r ≤ 100 := by
  have key : ∃ a b, FineR fl a ∧ FineR fl b ∧ v = rsiVal fl a b := by
    rcases hu with ⟨p, hu⟩ | ⟨p, hu⟩
    · obtain ⟨up, hup, hu⟩ := bind_ok hu
      obtain ⟨down, hdown, hu⟩ := bind_ok hu
      cases hu
      obtain ⟨a, b, ha, hb, rfl⟩ := rsiOfR_get (by rw [mean_len hup, mean_len hdown, gainsR_length, lossesR_length]) hv
      exact ⟨a, b, mean_fine R hup (fun v hv r hr => moves_fine R (.inl hv) hr) ha,
        mean_fine R hdown (fun v hv r hr => moves_fine R (.inr hv) hr) hb, rfl⟩
    · obtain ⟨g, hg, hu⟩ := bind_ok hu
      cases hu
      obtain ⟨-, hg0, -⟩ := factor_err R hg
      obtain ⟨a, b, ha, hb, rfl⟩ := rsiOfR_get (by
        unfold ewmMeanR
        rw [ewmGoR_length, ewmGoR_length, gainsR_length, lossesR_length]) hv
      exact ⟨a, b, ewm_fine R hg0 _ _ _ _ (fun v hv r hr => moves_fine R (.inl hv) hr) (by simp) _ (List.mem_of_getElem? ha),
        ewm_fine R hg0 _ _ _ _ (fun v hv r hr => moves_fine R (.inr hv) hr) (by simp) _ (List.mem_of_getElem? hb), rfl⟩
  obtain ⟨a, b, ha, hb, rfl⟩ := key
  rcases rsiVal_spec R ha hb with ⟨h, -⟩ | ⟨p, q, r, -, -, h, -, h1, h2, -⟩
  · exact .inl h
  · exact .inr ⟨r, h, h1, h2⟩

/-! ### Windows without falls or rises -/

theorem mem_win {w : Nat} {x : Ser} {t i : Nat} {r : ℝ} (h1 : i ≤ t) (h2 : t < i + w) (hi : x[i]? = some (.fin r)) : r ∈ win w x t := by
  rw [win, List.mem_filterMap]
  refine ⟨.fin r, ?_, rfl⟩
  rw [List.mem_iff_getElem?]
  refine ⟨i - (t + 1 - w), ?_⟩
  rw [List.getElem?_drop, List.getElem?_take, if_pos (by omega), ← hi]
  congr 1
  omega

/-- The moves of a series of numbers. -/
theorem moves_num {ys : List ℝ} {i : Nat} (hi : i < ys.length) :
    ∃ g l, (gainsR fl (ys.map .fin))[i]? = some (.fin g) ∧ (lossesR fl (ys.map .fin))[i]? = some (.fin l) ∧
      g = (if i = 0 then 0 else max (fl (ys.getD i 0 - ys.getD (i - 1) 0)) 0) ∧
      l = (if i = 0 then 0 else max (-fl (ys.getD i 0 - ys.getD (i - 1) 0)) 0) := by
  obtain ⟨d, hd, -, hg, hl⟩ := moves_get (fl := fl) (x := ys.map .fin) (t := i) (by simpa using hi)
  rw [hg, hl]
  rw [diffR, op2_get _ (List.getElem?_eq_getElem (by simpa using hi)) (shift_one_get _ (by simpa using hi))] at hd
  cases i with
  | zero =>
    simp only [Option.some.injEq] at hd
    subst hd
    refine ⟨0, 0, ?_, ?_, rfl, rfl⟩
    · simp [rnd, XF.lt_nan]
    · simp [rnd, XF.nan_lt]
  | succ i =>
    have e : d = .fin (fl (ys.getD (i + 1) 0 - ys.getD i 0)) := by
      have h1 : i < ys.length := by omega
      simpa [rnd, List.getD_eq_getElem?_getD, hi, h1] using hd.symm
    subst e
    simp only [Nat.succ_ne_zero, if_false, Nat.add_sub_cancel]
    refine ⟨_, _, ?_, ?_, rfl, rfl⟩
    · simp only [XF.lt_fin]
      split
      · rw [max_eq_left (by linarith)]
      · rw [max_eq_right (by linarith)]
    · simp only [XF.lt_fin, XF.neg_fin]
      split
      · rw [max_eq_left (by linarith)]
      · rw [max_eq_right (by linarith)]

theorem rsiR_get {x u : Ser} {p : Int} (h : rsiR fl x p = .ok u) {t : Nat} (ht : t < x.length) : ∃ up down a b,
    rollingMeanR fl (gainsR fl x) p = .ok up ∧ rollingMeanR fl (lossesR fl x) p = .ok down ∧ up[t]? = some a ∧ down[t]? = some b ∧
    u[t]? = some (rsiVal fl a b) := by
  obtain ⟨up, hup, hu⟩ := bind_ok h
  obtain ⟨down, hdown, hu⟩ := bind_ok hu
  cases hu
  have hl : up.length = down.length := by rw [mean_len hup, mean_len hdown, gainsR_length, lossesR_length]
  have hlen : t < (rsiOfR fl up down).length := by
    rw [rsiOfR, List.length_map, op2_length, op2_length, ← hl, max_self, max_self, mean_len hup, gainsR_length]
    exact ht
  obtain ⟨a, b, ha, hb, hv⟩ := rsiOfR_get hl (List.getElem?_eq_getElem hlen)
  exact ⟨up, down, a, b, hup, hdown, ha, hb, by rw [← hv]; exact List.getElem?_eq_getElem hlen⟩

/-- C107. With rounding, a window without falls has index 100 or none, a window without rises 0 or none, and one without moves none. -/
theorem rsi_one_way (R : Rounding fl) {ys : List ℝ} {u : Ser} {p t : Nat} (hu : rsiR fl (ys.map .fin) p = .ok u) (ht : t < ys.length) :
    ((∀ i, t < i + p → 1 ≤ i → i ≤ t → ys.getD (i - 1) 0 ≤ ys.getD i 0) → u[t]? = some .nan ∨ u[t]? = some (.fin 100)) ∧
    ((∀ i, t < i + p → 1 ≤ i → i ≤ t → ys.getD i 0 ≤ ys.getD (i - 1) 0) → u[t]? = some .nan ∨ u[t]? = some (.fin 0)) ∧
    ((∀ i, t < i + p → 1 ≤ i → i ≤ t → ys.getD i 0 = ys.getD (i - 1) 0) → u[t]? = some .nan) := by
  obtain ⟨up, down, a, b, hup, hdown, ha, hb, hut⟩ := rsiR_get hu (t := t) (by simpa using ht)
  have fa := mean_fine R hup (fun v hv r hr => moves_fine R (.inl hv) hr) ha
  have fb := mean_fine R hdown (fun v hv r hr => moves_fine R (.inr hv) hr) hb
  have hb0 : (∀ i, t < i + p → 1 ≤ i → i ≤ t → ys.getD (i - 1) 0 ≤ ys.getD i 0) → ∀ q, b = .fin q → q = 0 := by
    intro hmono q hq
    subst hq
    refine (mean_sign hdown hb).1 0 fun v hv => ?_
    obtain ⟨i, h1, h2, hi⟩ := win_mem hv
    rw [Int.toNat_natCast] at h2
    obtain ⟨g, l, -, hl, -, el⟩ := moves_num (fl := fl) (ys := ys) (i := i) (by omega)
    rw [hl] at hi
    cases hi
    rw [el]
    split
    · rfl
    · have := R.nonneg (x := ys.getD i 0 - ys.getD (i - 1) 0) (by linarith [hmono i h2 (by omega) h1])
      exact max_eq_right (by linarith)
  have ha0 : (∀ i, t < i + p → 1 ≤ i → i ≤ t → ys.getD i 0 ≤ ys.getD (i - 1) 0) → ∀ q, a = .fin q → q = 0 := by
    intro hmono q hq
    subst hq
    refine (mean_sign hup ha).1 0 fun v hv => ?_
    obtain ⟨i, h1, h2, hi⟩ := win_mem hv
    rw [Int.toNat_natCast] at h2
    obtain ⟨g, l, hg, -, eg, -⟩ := moves_num (fl := fl) (ys := ys) (i := i) (by omega)
    rw [hg] at hi
    cases hi
    rw [eg]
    split
    · rfl
    · have := (R.mono (show ys.getD i 0 - ys.getD (i - 1) 0 ≤ 0 by linarith [hmono i h2 (by omega) h1])).trans R.zero.le
      exact max_eq_right this
  rw [hut]
  rcases rsiVal_spec R fa fb with ⟨h, -⟩ | ⟨q1, q2, r, rfl, rfl, h, hpos, -, -, e1, e2⟩
  · rw [h]
    exact ⟨fun _ => .inl rfl, fun _ => .inl rfl, fun _ => rfl⟩
  · rw [h]
    refine ⟨fun hm => .inr ?_, fun hm => .inr ?_, fun hm => ?_⟩
    · rw [e1 (hb0 hm _ rfl)]
    · rw [e2 (ha0 hm _ rfl)]
    · have h1 := hb0 (fun i h1 h2 h3 => (hm i h1 h2 h3).ge) _ rfl
      have h2 := ha0 (fun i h1 h2 h3 => (hm i h1 h2 h3).le) _ rfl
      linarith

/-! ### Prices in ticks -/

theorem sum_pos_iff {l : List ℝ} (h : ∀ v ∈ l, 0 ≤ v) : 0 < l.sum ↔ ∃ v ∈ l, v ≠ 0 := by
  constructor
  · intro hs
    by_contra hcon
    push Not at hcon
    have : l.sum = 0 := List.sum_eq_zero hcon
    linarith
  · rintro ⟨v, hv, h0⟩
    have := List.single_le_sum h v hv
    exact lt_of_lt_of_le (lt_of_le_of_ne (h v hv) (Ne.symm h0)) this

/-- Rolling means of whole numbers between 0 and `2 B`. -/
theorem tick_mean (R : Rounding fl) {x u : Ser} {y : Nat → ℝ} {p t : Nat} {B : ℝ} (hp : 1 ≤ p) (h : rollingMeanR fl x p = .ok u)
    (ht : t < x.length) (hpt : p ≤ t + 1) (hx : ∀ i ≤ t, x[i]? = some (.fin (y i))) (hy : ∀ i ≤ t, (∃ k : ℤ, y i = k) ∧ 0 ≤ y i ∧ y i ≤ 2 * B)
    (hB : 2 * p * B ≤ 2 ^ 53) : ∃ r, u[t]? = some (.fin r) ∧ 0 ≤ r ∧ fl r = r ∧ (r = 0 ↔ ∀ i, t < i + p → i ≤ t → y i = 0) := by
  have hmem : ∀ s ≤ t, ∀ v ∈ win (p : Int).toNat x s, ∃ i ≤ t, t < i + p + (t - s) ∧ v = y i := by
    intro s hs v hv
    obtain ⟨i, h1, h2, hi⟩ := win_mem hv
    rw [Int.toNat_natCast] at h2
    rw [hx i (by omega)] at hi
    cases hi
    exact ⟨i, by omega, by omega, rfl⟩
  have key := mean_whole R h ht
    (fun s hs v hv => by
      obtain ⟨i, hi, -, rfl⟩ := hmem s hs v hv
      exact (hy i hi).1)
    (fun s hs => by
      have h1 : ((win (p : Int).toNat x s).map abs).sum ≤ ((win (p : Int).toNat x s).map abs).length • (2 * B) := by
        refine List.sum_le_card_nsmul _ _ fun v hv => ?_
        obtain ⟨a, ha, rfl⟩ := List.mem_map.1 hv
        obtain ⟨i, hi, -, rfl⟩ := hmem s hs a ha
        rw [abs_of_nonneg (hy i hi).2.1]
        exact (hy i hi).2.2
      have h2 : (win (p : Int).toNat x s).length ≤ p := win_length_le _ _ _
      have h3 : 0 ≤ 2 * B := by
        obtain ⟨-, h4, h5⟩ := hy 0 (by omega)
        linarith
      rw [List.length_map, nsmul_eq_mul] at h1
      have h4 : ((win (p : Int).toNat x s).length : ℝ) * (2 * B) ≤ p * (2 * B) :=
        mul_le_mul_of_nonneg_right (by exact_mod_cast h2) h3
      linarith)
  have hobs : Props.IndRolling.Obs x y p t := ⟨hpt, fun i hi => hx i (by rw [Finset.mem_Ico] at hi; omega)⟩
  have hwl : (win p x t).length = p := by rw [Props.IndRolling.win_eq hp hobs]; simp
  rw [Int.toNat_natCast] at key
  unfold rollAt at key
  rw [if_pos hwl.ge] at key
  dsimp only at key
  rw [if_neg (fun h0 => by rw [h0] at hwl; simp at hwl; omega), hwl] at key
  have hp0 : (0 : ℝ) < p := by exact_mod_cast hp
  have hnn : ∀ v ∈ win p x t, 0 ≤ v := fun v hv => by
    obtain ⟨i, hi, -, rfl⟩ := hmem t le_rfl v hv
    exact (hy i hi).2.1
  have hs0 : 0 ≤ (win p x t).sum := List.sum_nonneg hnn
  refine ⟨_, key, R.nonneg (div_nonneg hs0 hp0.le), R.idem _, ?_⟩
  rw [R.eq_zero, div_eq_zero_iff, or_iff_left hp0.ne']
  constructor
  · intro h0 i h1 h2
    by_contra hne
    have := (sum_pos_iff hnn).2 ⟨y i, mem_win h2 h1 (hx i h2), hne⟩
    linarith
  · intro h0
    refine List.sum_eq_zero fun v hv => ?_
    obtain ⟨i, hi, h2, rfl⟩ := hmem t le_rfl v hv
    exact h0 i (by omega) hi

/-- C107. Prices in whole ticks, at most `B` with `2 p B ≤ 2 ^ 53`: with rounding the index is missing exactly without moves in the
window, exactly 100 if the price only rose and exactly 0 if it only fell. -/
theorem rsi_ticks (R : Rounding fl) {ys : List ℝ} {u : Ser} {p t : Nat} {B : ℝ} (hp : 1 ≤ p) (hu : rsiR fl (ys.map .fin) p = .ok u)
    (ht : t < ys.length) (hpt : p ≤ t + 1) (hint : ∀ y ∈ ys, (∃ k : ℤ, y = k) ∧ |y| ≤ B) (hB : 2 * p * B ≤ 2 ^ 53) :
    (u[t]? = some .nan ↔ ∀ i, t < i + p → 1 ≤ i → i ≤ t → ys.getD i 0 = ys.getD (i - 1) 0) ∧
    ((∀ i, t < i + p → 1 ≤ i → i ≤ t → ys.getD (i - 1) 0 ≤ ys.getD i 0) →
      (∃ i, t < i + p ∧ 1 ≤ i ∧ i ≤ t ∧ ys.getD (i - 1) 0 < ys.getD i 0) → u[t]? = some (.fin 100)) ∧
    ((∀ i, t < i + p → 1 ≤ i → i ≤ t → ys.getD i 0 ≤ ys.getD (i - 1) 0) →
      (∃ i, t < i + p ∧ 1 ≤ i ∧ i ≤ t ∧ ys.getD i 0 < ys.getD (i - 1) 0) → u[t]? = some (.fin 0)) := by
  obtain ⟨h100, h0, hnan⟩ := rsi_one_way R hu ht
  have main : u[t]? = some .nan → ∀ i, t < i + p → 1 ≤ i → i ≤ t → ys.getD i 0 = ys.getD (i - 1) 0 := by
    intro hn
    obtain ⟨up, down, a, b, hup, hdown, ha, hb, hut⟩ := rsiR_get hu (t := t) (by simpa using ht)
    have hyi : ∀ i ≤ t, (∃ k : ℤ, ys.getD i 0 = k) ∧ |ys.getD i 0| ≤ B := by
      intro i hi
      have : ys.getD i 0 ∈ ys := by
        rw [List.getD_eq_getElem?_getD, List.getElem?_eq_getElem (by omega)]
        exact List.getElem_mem _
      exact hint _ this
    have hp1 : (1 : ℝ) ≤ p := by exact_mod_cast hp
    have hB0 : 0 ≤ B := (abs_nonneg _).trans (hyi 0 (by omega)).2
    have hB1 : 2 * B ≤ 2 ^ 53 := by nlinarith
    have hdiff : ∀ i ≤ t, 1 ≤ i → (∃ k : ℤ, ys.getD i 0 - ys.getD (i - 1) 0 = k) ∧ |ys.getD i 0 - ys.getD (i - 1) 0| ≤ 2 * B ∧
        fl (ys.getD i 0 - ys.getD (i - 1) 0) = ys.getD i 0 - ys.getD (i - 1) 0 := by
      intro i hi h1
      obtain ⟨⟨k, hk⟩, hkB⟩ := hyi i hi
      obtain ⟨⟨l, hl⟩, hlB⟩ := hyi (i - 1) (by omega)
      have hab : |ys.getD i 0 - ys.getD (i - 1) 0| ≤ 2 * B := by
        calc _ ≤ |ys.getD i 0| + |ys.getD (i - 1) 0| := abs_sub _ _
          _ ≤ _ := by linarith
      have e : ys.getD i 0 - ys.getD (i - 1) 0 = ((k - l : ℤ) : ℝ) := by rw [hk, hl]; push_cast; ring
      refine ⟨⟨k - l, e⟩, hab, ?_⟩
      rw [e] at hab ⊢
      refine R.int _ ?_
      have h2 : |((k - l : ℤ) : ℝ)| ≤ 2 ^ 53 := hab.trans hB1
      exact_mod_cast h2
    -- gains
    obtain ⟨r, hr, hr0, -, hrz⟩ := tick_mean R (y := fun i => if i = 0 then 0 else max (ys.getD i 0 - ys.getD (i - 1) 0) 0) hp hup
      (by rw [gainsR_length]; simpa using ht) hpt
      (fun i hi => by
        obtain ⟨g, l, hg, -, eg, -⟩ := moves_num (fl := fl) (ys := ys) (i := i) (by omega)
        rw [hg, eg]
        split
        · rfl
        · rw [(hdiff i hi (by omega)).2.2])
      (fun i hi => by
        split
        · exact ⟨⟨0, by simp⟩, le_rfl, by linarith⟩
        · obtain ⟨⟨k, hk⟩, hab, -⟩ := hdiff i hi (by omega)
          refine ⟨?_, le_max_right _ _, max_le ((le_abs_self _).trans hab) (by linarith)⟩
          rw [hk]
          exact ⟨max k 0, by push_cast; rfl⟩) hB
    obtain ⟨q, hq, hq0, -, hqz⟩ := tick_mean R (y := fun i => if i = 0 then 0 else max (-(ys.getD i 0 - ys.getD (i - 1) 0)) 0) hp hdown
      (by rw [lossesR_length]; simpa using ht) hpt
      (fun i hi => by
        obtain ⟨g, l, -, hl, -, el⟩ := moves_num (fl := fl) (ys := ys) (i := i) (by omega)
        rw [hl, el]
        split
        · rfl
        · rw [(hdiff i hi (by omega)).2.2])
      (fun i hi => by
        split
        · exact ⟨⟨0, by simp⟩, le_rfl, by linarith⟩
        · obtain ⟨⟨k, hk⟩, hab, -⟩ := hdiff i hi (by omega)
          refine ⟨?_, le_max_right _ _, max_le ((neg_le_abs _).trans hab) (by linarith)⟩
          rw [hk]
          exact ⟨max (-k) 0, by push_cast; rfl⟩) hB
    rw [hr] at ha
    rw [hq] at hb
    cases ha
    cases hb
    have fa := mean_fine R hup (fun v hv r hr => moves_fine R (.inl hv) hr) hr
    have fb := mean_fine R hdown (fun v hv r hr => moves_fine R (.inr hv) hr) hq
    rw [hut, Option.some.injEq] at hn
    rcases rsiVal_spec R fa fb with ⟨-, h | h | ⟨h1, h2⟩⟩ | ⟨_, _, _, _, _, h, -⟩
    · cases h
    · cases h
    · cases h1
      cases h2
      intro i h1 h2 h3
      have e1 := hrz.1 rfl i h1 h3
      have e2 := hqz.1 rfl i h1 h3
      rw [if_neg (by omega)] at e1 e2
      have := (le_max_left _ _).trans e1.le
      have := (le_max_left _ _).trans e2.le
      linarith
    · rw [h] at hn
      cases hn
  refine ⟨⟨main, hnan⟩, fun hm hr => ?_, fun hm hr => ?_⟩
  · rcases h100 hm with h | h
    · obtain ⟨i, h1, h2, h3, h4⟩ := hr
      exact absurd (main h i h1 h2 h3) h4.ne'
    · exact h
  · rcases h0 hm with h | h
    · obtain ⟨i, h1, h2, h3, h4⟩ := hr
      exact absurd (main h i h1 h2 h3) h4.ne
    · exact h

/-! ### Bands -/

/-- C107. Bollinger bands with rounding: missing together, exactly where the window has fewer numbers than its length (or length below
two); elsewhere in order, and equal to the price on windows of equal prices. -/
theorem bollinger_rounded (R : Rounding fl) {x : Ser} {b : Ind.Bands} {w : Int} {k : ℝ} (hb : bollingerR fl x w k = .ok b) (hk : 0 ≤ k)
    (hx : ∀ v ∈ x, ∀ r, v = .fin r → fl r = r) {t : Nat} (ht : t < x.length) :
    ((w ≤ 1 ∨ (win w.toNat x t).length < w.toNat) → (lowerR fl b)[t]? = some .nan ∧ (upperR fl b)[t]? = some .nan) ∧
    (¬ (w ≤ 1 ∨ (win w.toNat x t).length < w.toNat) → ∃ lo m up, (lowerR fl b)[t]? = some (.fin lo) ∧ b.middle[t]? = some (.fin m) ∧
      (upperR fl b)[t]? = some (.fin up) ∧ lo ≤ m ∧ m ≤ up ∧ ∀ c, (∀ v ∈ win w.toNat x t, v = c) → lo = c ∧ m = c ∧ up = c) := by
  obtain ⟨m, hm, hb⟩ := bind_ok hb
  obtain ⟨s, hs, hb⟩ := bind_ok hb
  cases hb
  obtain ⟨s1, s2⟩ := std_shape R hs ht
  obtain ⟨m1, m2⟩ := mean_nan_iff hm ht
  have hs' : ∀ v, s[t]? = some v → (s.map fun s => rnd fl (s * .fin k))[t]? = some (rnd fl (v * .fin k)) := fun v hv => by
    rw [List.getElem?_map, hv]; rfl
  have hwin : ∀ v ∈ win w.toNat x t, fl v = v := fun v hv => by
    obtain ⟨i, -, -, hi⟩ := win_mem hv
    exact hx _ (List.mem_of_getElem? hi) v rfl
  constructor
  · intro h
    have e := hs' _ (s1 h)
    obtain ⟨v, hv⟩ : ∃ v, m[t]? = some v := by
      rcases m2 with h | ⟨r, h⟩
      · exact ⟨_, h⟩
      · exact ⟨_, h⟩
    unfold lowerR upperR
    rw [op2_get _ hv e, op2_get _ hv e]
    simp [rnd]
  · intro h
    obtain ⟨r, hr, hr0, hrc⟩ := s2 h
    have e := hs' _ hr
    have hne : m[t]? ≠ some .nan := by
      rw [Ne, m1]
      push Not at h ⊢
      exact ⟨by omega, h.2⟩
    obtain ⟨a, ha⟩ := m2.resolve_left hne
    have haf := mean_float R hm ha hwin
    unfold lowerR upperR
    rw [op2_get _ ha e, op2_get _ ha e]
    have hw0 : 0 ≤ fl (r * k) := R.nonneg (mul_nonneg hr0 hk)
    refine ⟨fl (a - fl (r * k)), a, fl (a + fl (r * k)), by simp [rnd], ha, by simp [rnd], ?_, ?_, fun c hc => ?_⟩
    · exact (R.mono (by linarith)).trans haf.le
    · exact haf.symm.le.trans (R.mono (by linarith))
    · have h1 := (mean_sign hm ha).1 c hc
      subst h1
      rw [hrc ⟨_, hc⟩, zero_mul, R.zero, sub_zero, add_zero, haf]
      exact ⟨rfl, rfl, rfl⟩

/-- C107. Donchian bands with rounding: in order, and within `2.1` units of the sum of the sizes of the highest and the lowest price in
the window. -/
theorem donchian_rounded (R : Rounding fl) {x : Ser} {y : Nat → ℝ} {w t : Nat} {b : Ind.Bands} (hw : 1 ≤ w) (hb : donchianR fl x w = .ok b)
    (h : Props.IndRolling.Obs x y w t) : ∃ M l lo m up, IsGreatest (y '' Set.Ico (t + 1 - w) (t + 1)) M ∧
      IsLeast (y '' Set.Ico (t + 1 - w) (t + 1)) l ∧ (lowerR fl b)[t]? = some (.fin lo) ∧ b.middle[t]? = some (.fin m) ∧
      (upperR fl b)[t]? = some (.fin up) ∧ lo ≤ m ∧ m ≤ up ∧ |up - M| ≤ 2.1 * u64 * (|M| + |l|) ∧ |lo - l| ≤ 2.1 * u64 * (|M| + |l|) := by
  obtain ⟨ub, hub, h'⟩ := bind_ok hb
  obtain ⟨lb, hlb, h'⟩ := bind_ok h'
  cases h'
  obtain ⟨M, hM, hMg⟩ := Props.IndRolling.max_spec hw hub h
  obtain ⟨l, hl, hlg⟩ := Props.IndRolling.min_spec hw hlb h
  have hlM : l ≤ M := by
    obtain ⟨i, hi, e⟩ := hMg.1
    exact hlg.2 ⟨i, hi, e⟩
  have hu := u64_pos
  have hmid : ((op2 (fun a b => rnd fl (a + b)) ub lb).map fun v => rnd fl (v / .fin 2))[t]? = some (.fin (fl (M + l) / 2)) := by
    rw [List.getElem?_map, op2_get _ hM hl]
    simp [rnd, R.half, R.idem]
  have hhalf : ((op2 (fun a b => rnd fl (a - b)) ub lb).map fun v => rnd fl (v / .fin 2))[t]? = some (.fin (fl (M - l) / 2)) := by
    rw [List.getElem?_map, op2_get _ hM hl]
    simp [rnd, R.half, R.idem]
  have hs : (((op2 (fun a b => rnd fl (a - b)) ub lb).map fun v => rnd fl (v / .fin 2)).map fun s => rnd fl (s * .fin 1))[t]? =
      some (.fin (fl (M - l) / 2)) := by
    rw [List.getElem?_map, hhalf]
    simp [rnd, R.half, R.idem]
  refine ⟨M, l, fl (fl (M + l) / 2 - fl (M - l) / 2), fl (M + l) / 2, fl (fl (M + l) / 2 + fl (M - l) / 2), hMg, hlg, ?_, hmid, ?_, ?_, ?_, ?_, ?_⟩
  · unfold lowerR
    rw [op2_get _ hmid hs]
    simp [rnd]
  · unfold upperR
    rw [op2_get _ hmid hs]
    simp [rnd]
  all_goals
    have hd0 : 0 ≤ fl (M - l) := R.nonneg (by linarith)
    have hf : fl (fl (M + l) / 2) = fl (M + l) / 2 := by rw [R.half, R.idem]
  · exact (R.mono (by linarith)).trans hf.le
  · exact hf.symm.le.trans (R.mono (by linarith))
  all_goals
    have e1 := R.rel (M + l)
    have e2 := R.rel (M - l)
    have a1 := abs_add_le M l
    have a2 := abs_sub M l
    have e1' := e1.trans (mul_le_mul_of_nonneg_left a1 hu.le)
    have e2' := e2.trans (mul_le_mul_of_nonneg_left a2 hu.le)
    have b1 := abs_le.mp e1'
    have b2 := abs_le.mp e2'
    have hS : 0 ≤ |M| + |l| := by positivity
    have huS : u64 * (|M| + |l|) ≤ 1 / 1000 * (|M| + |l|) := mul_le_mul_of_nonneg_right u64_small hS
    have huuS : u64 * (u64 * (|M| + |l|)) ≤ 1 / 1000 * (u64 * (|M| + |l|)) := mul_le_mul_of_nonneg_right u64_small (mul_nonneg hu.le hS)
  · have h1 : |fl (M + l) / 2 + fl (M - l) / 2 - M| ≤ u64 * (|M| + |l|) := abs_le.mpr ⟨by linarith, by linarith⟩
    have h2 : |fl (M + l) / 2 + fl (M - l) / 2| ≤ |M| + |l| + u64 * (|M| + |l|) := by
      calc _ = |(fl (M + l) / 2 + fl (M - l) / 2 - M) + M| := by ring_nf
        _ ≤ _ := abs_add_le _ _
        _ ≤ _ := by linarith [abs_nonneg l]
    have h3 := (R.rel (fl (M + l) / 2 + fl (M - l) / 2)).trans (mul_le_mul_of_nonneg_left h2 hu.le)
    calc _ = |(fl (fl (M + l) / 2 + fl (M - l) / 2) - (fl (M + l) / 2 + fl (M - l) / 2)) + (fl (M + l) / 2 + fl (M - l) / 2 - M)| := by ring_nf
      _ ≤ _ := abs_add_le _ _
      _ ≤ _ := by nlinarith
  · have h1 : |fl (M + l) / 2 - fl (M - l) / 2 - l| ≤ u64 * (|M| + |l|) := abs_le.mpr ⟨by linarith, by linarith⟩
    have h2 : |fl (M + l) / 2 - fl (M - l) / 2| ≤ |M| + |l| + u64 * (|M| + |l|) := by
      calc _ = |(fl (M + l) / 2 - fl (M - l) / 2 - l) + l| := by ring_nf
        _ ≤ _ := abs_add_le _ _
        _ ≤ _ := by linarith [abs_nonneg M]
    have h3 := (R.rel (fl (M + l) / 2 - fl (M - l) / 2)).trans (mul_le_mul_of_nonneg_left h2 hu.le)
    calc _ = |(fl (fl (M + l) / 2 - fl (M - l) / 2) - (fl (M + l) / 2 - fl (M - l) / 2)) + (fl (M + l) / 2 - fl (M - l) / 2 - l)| := by ring_nf
      _ ≤ _ := abs_add_le _ _
      _ ≤ _ := by nlinarith

/-- Two adjacent prices. -/
noncomputable def twoPrices : Ser := [.fin (2 ^ 53 - 2), .fin (2 ^ 53 - 1)]

/-- Finding of C107: with 64-bit numbers the last price can lie above the upper Donchian band of a window that contains it. -/
theorem donchian_outside : ∃ b, donchianR b64 twoPrices 2 = .ok b ∧ twoPrices[1]? = some (.fin (2 ^ 53 - 1)) ∧
    (upperR b64 b)[1]? = some (.fin (2 ^ 53 - 2)) := by
  obtain ⟨b, hb⟩ : ∃ b, donchianR b64 twoPrices 2 = .ok b := ⟨_, rfl⟩
  refine ⟨b, hb, rfl, ?_⟩
  have hobs : Props.IndRolling.Obs twoPrices (fun i => if i = 0 then 2 ^ 53 - 2 else 2 ^ 53 - 1) 2 1 := by
    refine ⟨by norm_num, fun i hi => ?_⟩
    rw [Finset.mem_Ico] at hi
    have : i < 2 := hi.2
    interval_cases i <;> rfl
  obtain ⟨ub, hub, h'⟩ := bind_ok hb
  obtain ⟨lb, hlb, h'⟩ := bind_ok h'
  cases h'
  obtain ⟨M, hM, ⟨i, hi, hMi⟩, hMg⟩ := Props.IndRolling.max_spec (w := 2) (by norm_num) hub hobs
  obtain ⟨l, hl, ⟨j, hj, hlj⟩, hlg⟩ := Props.IndRolling.min_spec (w := 2) (by norm_num) hlb hobs
  have h0 := hlg ⟨0, by simp, rfl⟩
  have h1 := hMg ⟨1, by simp, rfl⟩
  simp only [if_true, one_ne_zero, if_false] at h0 h1 hMi hlj
  obtain rfl : M = 2 ^ 53 - 1 := by
    split at hMi <;> linarith
  obtain rfl : l = 2 ^ 53 - 2 := by
    split at hlj <;> linarith
  have e1 : b64 (2 ^ 53 - 1 + (2 ^ 53 - 2)) = 2 ^ 54 - 4 :=
    b64_even (2 ^ 53 - 2) 1 (by norm_num) (by norm_num) (by norm_num) (by norm_num) (by decide)
  have e2 : b64 (2 ^ 53 - 1 - (2 ^ 53 - 2)) = 1 := b64_fix 1 0 (by norm_num) (by norm_num) (by norm_num)
  have e3 : b64 ((2 ^ 54 - 4) / 2) = 2 ^ 53 - 2 := b64_fix (2 ^ 53 - 2) 0 (by norm_num) (by norm_num) (by norm_num)
  have e4 : b64 (1 / 2) = 1 / 2 := b64_fix 1 (-1) (by norm_num) (by norm_num) (by norm_num)
  have e5 : b64 (2 ^ 53 - 2 + 1 / 2) = 2 ^ 53 - 2 :=
    b64_even (2 ^ 53 - 2) 0 (by norm_num) (by norm_num) (by norm_num) (by norm_num) (by decide)
  have hmid : ((op2 (fun a b => rnd b64 (a + b)) ub lb).map fun v => rnd b64 (v / .fin 2))[1]? = some (.fin (2 ^ 53 - 2)) := by
    rw [List.getElem?_map, op2_get _ hM hl]
    simp [rnd, e1, e3]
  have hs : (((op2 (fun a b => rnd b64 (a - b)) ub lb).map fun v => rnd b64 (v / .fin 2)).map fun s => rnd b64 (s * .fin 1))[1]? =
      some (.fin (1 / 2)) := by
    rw [List.getElem?_map, List.getElem?_map, op2_get _ hM hl]
    have f1 : rnd b64 (XF.fin (2 ^ 53 - 1) - XF.fin (2 ^ 53 - 2)) = .fin 1 := by
      have g : ∀ a b : ℝ, rnd b64 (XF.fin a - XF.fin b) = .fin (b64 (a - b)) := fun a b => by simp [rnd]
      rw [g, e2]
    have f2 : rnd b64 (XF.fin 1 / .fin 2) = .fin (1 / 2) := by
      simpa [rnd] using e4
    have f3 : rnd b64 (XF.fin (1 / 2) * .fin 1) = .fin (1 / 2) := by
      simpa [rnd] using e4
    rw [f1, Option.map_some, f2, Option.map_some, f3]
  unfold upperR
  rw [op2_get _ hmid hs]
  change some (XF.fin (b64 (2 ^ 53 - 2 + 1 / 2))) = _
  rw [e5]

/-! ### Exponential averages -/

theorem ewm_const (f : ℝ) (p : Nat) {c : ℝ} : ∀ (x : Ser) (s : Option (ℝ × ℝ)) (n t : Nat),
    (∀ v ∈ x.take (t + 1), ∀ r, v = .fin r → r = c) → (∀ m w, s = some (m, w) → m = c) →
    ∀ v, (ewmGoR fl f p s n x)[t]? = some v → v = .nan ∨ v = .fin c := by
  intro x
  induction x with
  | nil => intro s n t _ _ v hv; cases s <;> simp [ewmGoR] at hv
  | cons a x ih =>
    intro s n t hx hs v hv
    have step : ∀ (o : XF) (s' : Option (ℝ × ℝ)) (n' : Nat), (o :: ewmGoR fl f p s' n' x)[t]? = some v → (o = .nan ∨ o = .fin c) →
        (∀ m w, s' = some (m, w) → m = c) → v = .nan ∨ v = .fin c := by
      intro o s' n' h ho hs'
      cases t with
      | zero =>
        rw [List.getElem?_cons_zero, Option.some.injEq] at h
        rwa [← h]
      | succ t =>
        rw [List.getElem?_cons_succ] at h
        exact ih s' n' t (fun v hv => hx v (by rw [List.take_succ_cons]; exact List.mem_cons_of_mem _ hv)) hs' v h
    have ha : ∀ r, a.real? = some r → r = c := fun r hr => hx a (by simp) r (XF.real?_eq_some.1 hr)
    cases s with
    | none =>
      rw [ewmGoR] at hv
      cases har : a.real? with
      | none =>
        rw [har] at hv
        exact step _ _ _ hv (.inl rfl) (by simp)
      | some r =>
        rw [har] at hv
        obtain rfl := ha r har
        refine step _ _ _ hv ?_ (by rintro _ _ ⟨⟩; rfl)
        split
        · exact .inr rfl
        · exact .inl rfl
    | some mw =>
      obtain ⟨m, w⟩ := mw
      obtain rfl := hs m w rfl
      rw [ewmGoR] at hv
      cases har : a.real? with
      | none =>
        rw [har] at hv
        refine step _ _ _ hv ?_ (by rintro _ _ ⟨⟩; rfl)
        split
        · exact .inr rfl
        · exact .inl rfl
      | some r =>
        rw [har] at hv
        obtain rfl := ha r har
        dsimp only at hv
        rw [if_pos rfl] at hv
        refine step _ _ _ hv ?_ (by rintro _ _ ⟨⟩; rfl)
        split
        · exact .inr rfl
        · exact .inl rfl

/-- C107. While all prices so far are equal, the rounded average is exactly that price and MACD is exactly 0. -/
theorem flat_exact (R : Rounding fl) {x : Ser} {c : ℝ} {t : Nat} (hx : ∀ v ∈ x.take (t + 1), ∀ r, v = .fin r → r = c) :
    (∀ s u v, emaR fl x s = .ok u → u[t]? = some v → v = .nan ∨ v = .fin c) ∧
    ∀ a b u v, macdR fl x a b = .ok u → u[t]? = some v → v = .nan ∨ v = .fin 0 := by
  have h1 : ∀ s u v, emaR fl x s = .ok u → u[t]? = some v → v = .nan ∨ v = .fin c := by
    intro s u v h hv
    obtain ⟨f, -, h⟩ := bind_ok h
    cases h
    exact ewm_const f _ x none 0 t hx (by simp) v hv
  refine ⟨h1, fun a b u v h hv => ?_⟩
  obtain ⟨p, hp, h⟩ := bind_ok h
  obtain ⟨q, hq, h⟩ := bind_ok h
  cases h
  have hlen : p.length = q.length := by
    obtain ⟨_, -, h⟩ := bind_ok hp
    cases h
    obtain ⟨_, -, h⟩ := bind_ok hq
    cases h
    rw [ewmMeanR, ewmMeanR, ewmGoR_length, ewmGoR_length]
  obtain ⟨v1, v2, hv1, hv2, rfl⟩ := op2_get_inv hlen hv
  rcases h1 a p v1 hp hv1 with rfl | rfl
  · left; rfl
  · rcases h1 b q v2 hq hv2 with rfl | rfl
    · left; rfl
    · right
      simp [rnd, R.zero]

/-! ### Concrete cases -/

example : ∃ u, rsiR b64 (([3, 5, 6] : List ℝ).map .fin) (2 : Nat) = .ok u ∧ u[2]? = some (.fin 100) := by
  obtain ⟨u, hu⟩ : ∃ u, rsiR b64 (([3, 5, 6] : List ℝ).map .fin) (2 : Nat) = .ok u := ⟨_, rfl⟩
  refine ⟨u, hu, (rsi_ticks b64_rounding (B := 6) (by norm_num) hu (t := 2) (by norm_num) (by norm_num) ?_ (by norm_num)).2.1 ?_
    ⟨2, by norm_num, by norm_num, le_rfl, by norm_num⟩⟩
  · intro y hy
    simp only [List.mem_cons, List.not_mem_nil, or_false] at hy
    rcases hy with rfl | rfl | rfl
    · exact ⟨⟨3, by norm_num⟩, by norm_num⟩
    · exact ⟨⟨5, by norm_num⟩, by norm_num⟩
    · exact ⟨⟨6, by norm_num⟩, by norm_num⟩
  · intro i h1 h2 h3
    interval_cases i <;> norm_num

example : ∃ u, emaR b64 [.fin 1, .fin 2, .nan, .fin 4] 3 = .ok u ∧ ∃ a, u[3]? = some (.fin a) ∧
    |a - 37 / 11| ≤ 114 * (u64 * ((3 + 1) / 2 + 1)) * 4 := by
  obtain ⟨u, hu⟩ : ∃ u, emaR b64 [.fin 1, .fin 2, .nan, .fin 4] 3 = .ok u := by
    unfold emaR spanFactorR
    rw [if_neg (by norm_num)]
    exact ⟨_, rfl⟩
  refine ⟨u, hu, ?_⟩
  have hm : miss (([.fin 1, .fin 2, .nan, .fin 4] : Ser).take (3 + 1)) = 1 := by simp [miss, XF.real?]
  obtain ⟨e, he, h⟩ := ema_error b64_rounding hu (A := 4) (.inr (by norm_num)) (by norm_num) (t := 3) (by norm_num)
    (by
      intro v hv c hc
      subst hc
      simp at hv
      rcases hv with rfl | rfl | rfl <;> norm_num)
    (by
      rw [hm]
      unfold u64
      norm_num)
  obtain ⟨α, hα, he⟩ := bind_ok he
  cases he
  have hα' : α = 1 / 2 := by
    unfold spanAlpha at hα
    rw [if_neg (by norm_num)] at hα
    cases hα
    norm_num
  subst hα'
  have hv : (Ser.ewmMean (1 / 2) 0 [.fin 1, .fin 2, .nan, .fin 4])[3]? = some (.fin (37 / 11)) := by
    norm_num [Ser.ewmMean, ewmGo, XF.real?]
  rw [hv, hm] at h
  rcases h with ⟨-, h⟩ | ⟨a, b, h1, h2, h3⟩
  · cases h
  · cases h2
    exact ⟨a, h1, by exact_mod_cast h3⟩

example : ∃ b lo m up, bollingerR b64 [.fin 1, .fin 3, .fin 3] 2 2 = .ok b ∧ (lowerR b64 b)[2]? = some (.fin lo) ∧
    b.middle[2]? = some (.fin m) ∧ (upperR b64 b)[2]? = some (.fin up) ∧ lo = 3 ∧ m = 3 ∧ up = 3 := by
  obtain ⟨b, hb⟩ : ∃ b, bollingerR b64 [.fin 1, .fin 3, .fin 3] 2 2 = .ok b := ⟨_, rfl⟩
  have hw : win 2 [.fin 1, .fin 3, .fin 3] 2 = [3, 3] := by simp [win]
  obtain ⟨lo, m, up, h1, h2, h3, -, -, h4⟩ := (bollinger_rounded b64_rounding hb (by norm_num)
    (by
      intro v hv r hr
      subst hr
      simp at hv
      rcases hv with rfl | rfl
      · exact_mod_cast b64_rounding.int 1 (by norm_num)
      · exact_mod_cast b64_rounding.int 3 (by norm_num))
    (t := 2) (by norm_num)).2 (by
      rw [show (2 : Int).toNat = 2 from rfl, hw]
      norm_num)
  exact ⟨b, lo, m, up, hb, h1, h2, h3, h4 3 (by
    rw [show (2 : Int).toNat = 2 from rfl, hw]
    simp)⟩

example : ∃ u v, macdR b64 [.fin 7, .nan, .fin 7, .fin 9] 3 5 = .ok u ∧ u[2]? = some v ∧ (v = .nan ∨ v = .fin 0) := by
  obtain ⟨u, hu⟩ : ∃ u, macdR b64 [.fin 7, .nan, .fin 7, .fin 9] 3 5 = .ok u := by
    unfold macdR emaR spanFactorR
    rw [if_neg (by norm_num), if_neg (by norm_num)]
    exact ⟨_, rfl⟩
  have hl : u.length = 4 := by
    obtain ⟨p, hp, h⟩ := bind_ok hu
    obtain ⟨q, hq, h⟩ := bind_ok h
    cases h
    obtain ⟨_, -, h⟩ := bind_ok hp
    cases h
    obtain ⟨_, -, h⟩ := bind_ok hq
    cases h
    rw [op2_length, ewmMeanR, ewmMeanR, ewmGoR_length, ewmGoR_length]
    rfl
  refine ⟨u, u[2], hu, List.getElem?_eq_getElem (by omega), (flat_exact b64_rounding (t := 2) (c := 7) ?_).2 3 5 u _ hu
    (List.getElem?_eq_getElem (by omega))⟩
  intro v hv r hr
  subst hr
  simpa using hv

end Verif.Roll
