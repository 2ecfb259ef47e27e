import Verif.Props.IndRsi
import Mathlib.Algebra.Order.Chebyshev

/-!
# C52: Bollinger, Keltner and Donchian bands
-/

namespace Verif.Props.IndBands

open Verif Ser Ind Finset

/-- The outputs of a bands object where mean and width are numbers. -/
theorem bands_at {b : Bands} {t : Nat} {m s : ℝ} (hm : b.mean[t]? = some (.fin m)) (hs : b.std[t]? = some (.fin s)) :
    b.upper[t]? = some (.fin (m + s * b.mult)) ∧ b.lower[t]? = some (.fin (m - s * b.mult)) ∧
      b.middle[t]? = some (.fin m) ∧ b.width[t]? = some (.fin (2 * s * b.mult)) := by
  have hh : b.halfWidth[t]? = some (.fin (s * b.mult)) := by
    rw [Bands.halfWidth, List.getElem?_map, hs]
    rfl
  refine ⟨?_, ?_, hm, ?_⟩
  · rw [Bands.upper, op2_get _ hm hh]; rfl
  · rw [Bands.lower, op2_get _ hm hh, XF.sub_fin]
  · rw [Bands.width, List.getElem?_map, hs]; rfl

/-- Lower, middle and upper band at `t`: the outer bands are both NaN or all three are numbers in order. -/
def Ordered (b : Bands) (t : Nat) : Prop :=
  (b.upper[t]? = some .nan ∧ b.lower[t]? = some .nan) ∨
    ∃ l m u, b.lower[t]? = some (.fin l) ∧ b.middle[t]? = some (.fin m) ∧ b.upper[t]? = some (.fin u) ∧ l ≤ m ∧ m ≤ u

theorem ordered_of {b : Bands} {t : Nat} (hk : 0 ≤ b.mult) {a c : XF} (hm : b.mean[t]? = some a)
    (ha : a = .nan ∨ ∃ r, a = .fin r) (hs : b.std[t]? = some c) (hc : IndRsi.Fine c) : Ordered b t := by
  have hh : b.halfWidth[t]? = some (c * .fin b.mult) := by
    rw [Bands.halfWidth, List.getElem?_map, hs]
    rfl
  rcases ha with rfl | ⟨m, rfl⟩
  · left
    rw [Bands.upper, op2_get _ hm hh, Bands.lower, op2_get _ hm hh]
    simp
  · rcases hc with rfl | ⟨s, rfl, hs0⟩
    · left
      rw [Bands.upper, op2_get _ hm hh, Bands.lower, op2_get _ hm hh]
      simp
    · right
      obtain ⟨h1, h2, h3, -⟩ := bands_at hm hs
      have := mul_nonneg hs0 hk
      exact ⟨_, _, _, h2, h3, h1, by linarith, by linarith⟩

/-- Rolling aggregations are NaN or numbers. -/
theorem rolling_kind {x u : Ser} {w : Int} {f : List ℝ → XF} (hf : ∀ v, f v = .nan ∨ ∃ r, f v = .fin r)
    (hu : rolling w f x = .ok u) {t : Nat} {a : XF} (ha : u[t]? = some a) : a = .nan ∨ ∃ r, a = .fin r := by
  have ht : t < x.length := by
    rw [← rolling_length hu]
    exact (List.getElem?_eq_some_iff.1 ha).1
  rw [rolling_get hu ht] at ha
  cases ha
  rw [rollAt]
  split
  · exact hf _
  · exact .inl rfl

theorem meanF_kind (v : List ℝ) : meanF v = .nan ∨ ∃ r, meanF v = .fin r := by
  rw [meanF]; split
  · exact .inl rfl
  · exact .inr ⟨_, rfl⟩

theorem stdF_fine (v : List ℝ) : IndRsi.Fine (stdF v) := by
  rw [stdF, varF]
  split
  · exact .inl rfl
  · rename_i h
    right
    have : (0 : ℝ) ≤ ssd v / ((v.length : ℝ) - 1) := by
      refine div_nonneg (ssd_nonneg v) ?_
      have : (2 : ℝ) ≤ v.length := by exact_mod_cast (by omega : 2 ≤ v.length)
      linarith
    exact ⟨_, XF.sqrt_fin this, Real.sqrt_nonneg _⟩

theorem rolling_std_fine {x u : Ser} {w : Int} (hu : rolling w stdF x = .ok u) {t : Nat} {a : XF}
    (ha : u[t]? = some a) : IndRsi.Fine a := by
  have ht : t < x.length := by
    rw [← rolling_length hu]
    exact (List.getElem?_eq_some_iff.1 ha).1
  rw [rolling_get hu ht] at ha
  cases ha
  rw [rollAt]
  split
  · exact stdF_fine _
  · exact .inl rfl

/-- Bollinger bands with a non-negative multiplier are ordered. -/
theorem bollinger_ordered {ts : Ser} {w : Int} {k : ℝ} {b : Bands} {t : Nat} (hb : bollinger ts w k = .ok b)
    (hk : 0 ≤ k) (ht : t < ts.length) : Ordered b t := by
  obtain ⟨m, hm, h⟩ := bind_ok hb
  obtain ⟨s, hs, h⟩ := bind_ok h
  cases h
  have h1 := List.getElem?_eq_getElem (show t < m.length by rw [rolling_length hm]; exact ht)
  have h2 := List.getElem?_eq_getElem (show t < s.length by rw [rolling_length hs]; exact ht)
  exact ordered_of hk h1 (rolling_kind meanF_kind hm h1) h2 (rolling_std_fine hs h2)

theorem ewm_kind {x u : Ser} {span : ℝ} (hu : Ind.ewmMean x span = .ok u) {t : Nat} {a : XF} (ha : u[t]? = some a) :
    a = .nan ∨ ∃ r, a = .fin r := by
  have ht : t < x.length := by
    rw [← (IndCausal.ewmMean_causal span).length _ _ hu]
    exact (List.getElem?_eq_some_iff.1 ha).1
  rcases IndEwm.ewm_mean_range hu ht with ⟨h, -⟩ | ⟨m, h, -⟩
  · rw [h] at ha; cases ha; exact .inl rfl
  · rw [h] at ha; cases ha; exact .inr ⟨m, rfl⟩

theorem ewm_std_fine {x u : Ser} {span : ℝ} (hu : Ind.ewmStd x span = .ok u) {t : Nat} {a : XF}
    (ha : u[t]? = some a) : IndRsi.Fine a := by
  have hs : 1 ≤ span := (IndCausal.ok_iff x [] [] [] 0 span 1 1 meanF).2.2.2.1.1 ⟨u, hu⟩
  have ht : t < x.length := by
    rw [← (IndCausal.ewmStd_causal span).length _ _ hu]
    exact (List.getElem?_eq_some_iff.1 ha).1
  obtain ⟨-, ha0, ha1, hdec⟩ := IndEwm.alpha_of_span hs
  rw [IndEwm.ewmStd_eq hs] at hu
  cases hu
  rw [ewmStd_get _ _ ht] at ha
  cases ha
  rcases varSt_inv ha1 (x.take (t + 1)) with ⟨-, h2⟩ | ⟨m, w, h1, h2, h3, h4, h5, h7, h6⟩
  · rw [h2]; exact .inl rfl
  · rw [varOut, h2]
    dsimp only
    split
    · rename_i hp
      have : 0 ≤ (varSt (2 / (span + 1)) (x.take (t + 1))).sw ^ 2 /
          ((varSt (2 / (span + 1)) (x.take (t + 1))).sw ^ 2 - (varSt (2 / (span + 1)) (x.take (t + 1))).sw2) *
          (varSt (2 / (span + 1)) (x.take (t + 1))).cov := by positivity
      exact .inr ⟨_, XF.sqrt_fin this, Real.sqrt_nonneg _⟩
    · exact .inl rfl

/-- Exponentially weighted Bollinger bands with a non-negative multiplier are ordered. -/
theorem ewmBollinger_ordered {ts : Ser} {w k : ℝ} {b : Bands} {t : Nat} (hb : ewmBollinger ts w k = .ok b)
    (hk : 0 ≤ k) (ht : t < ts.length) : Ordered b t := by
  obtain ⟨m, hm, h⟩ := bind_ok hb
  obtain ⟨s, hs, h⟩ := bind_ok h
  cases h
  have h1 := List.getElem?_eq_getElem
    (show t < m.length by rw [(IndCausal.ewmMean_causal w).length _ _ hm]; exact ht)
  have h2 := List.getElem?_eq_getElem
    (show t < s.length by rw [(IndCausal.ewmStd_causal w).length _ _ hs]; exact ht)
  exact ordered_of hk h1 (ewm_kind hm h1) h2 (ewm_std_fine hs h2)

/-! ## True range and Keltner channels -/

theorem maxSkip_mem (a b : XF) : maxSkip a b = a ∨ maxSkip a b = b := by
  cases a <;> cases b <;> first | exact .inl rfl | exact .inr rfl | skip
  all_goals rw [maxSkip] <;> first | (split <;> first | exact .inl rfl | exact .inr rfl) | simp

theorem maxSkip_fin (a b : ℝ) : maxSkip (.fin a) (.fin b) = .fin (max a b) := by
  show (open Classical in if XF.lt (.fin a) (.fin b) then XF.fin b else .fin a) = _
  split
  · rename_i h
    have h' : a < b := h
    rw [max_eq_right h'.le]
  · rename_i h
    have h' : ¬ a < b := h
    rw [max_eq_left (not_lt.1 h')]

theorem maxSkip_nan (a : XF) : maxSkip a .nan = a := by cases a <;> rfl

/-- The true range: `max(high - low, |high - previous close|, |low - previous close|)`, on the first bar `high - low`. -/
theorem trueRange_spec {hi lo cl : Ser} {h l : ℝ} {t : Nat} (hl : cl.length = hi.length)
    (hh : hi[t]? = some (.fin h)) (hlo : lo[t]? = some (.fin l)) :
    (t = 0 → (trueRange hi lo cl)[t]? = some (.fin (h - l))) ∧
      (∀ c, 1 ≤ t → cl[t - 1]? = some (.fin c) →
        (trueRange hi lo cl)[t]? = some (.fin (max (max (h - l) |h - c|) |l - c|))) := by
  have ht : t < cl.length := by rw [hl]; exact (List.getElem?_eq_some_iff.1 hh).1
  have hs := shift_one_get cl ht
  constructor
  · rintro rfl
    have e2 := op2_get (· - ·) hh hs
    have e3 := op2_get (· - ·) hlo hs
    have f2 : ((op2 (· - ·) hi (shift 1 cl)).map XF.abs)[0]? = some .nan := by
      rw [List.getElem?_map, e2]; simp
    have f3 : ((op2 (· - ·) lo (shift 1 cl)).map XF.abs)[0]? = some .nan := by
      rw [List.getElem?_map, e3]; simp
    rw [trueRange, op2_get _ (op2_get _ (op2_get _ hh hlo) f2) f3]
    simp [maxSkip_nan]
  · intro c ht1 hc
    obtain ⟨s, rfl⟩ : ∃ s, t = s + 1 := ⟨t - 1, by omega⟩
    have hc' : cl[s]? = some (.fin c) := hc
    simp only [hc', Option.getD_some] at hs
    have f2 : ((op2 (· - ·) hi (shift 1 cl)).map XF.abs)[s + 1]? = some (.fin |h - c|) := by
      rw [List.getElem?_map, op2_get (· - ·) hh hs]; simp
    have f3 : ((op2 (· - ·) lo (shift 1 cl)).map XF.abs)[s + 1]? = some (.fin |l - c|) := by
      rw [List.getElem?_map, op2_get (· - ·) hlo hs]; simp
    rw [trueRange, op2_get _ (op2_get _ (op2_get _ hh hlo) f2) f3]
    simp [maxSkip_fin]

theorem abs_fin_nonneg {v : XF} {r : ℝ} (h : v.abs = .fin r) : 0 ≤ r := by
  cases v <;> simp [XF.abs] at h
  rw [← h]
  exact abs_nonneg _

theorem sub_eq_fin {a b : XF} {r : ℝ} (h : a - b = .fin r) : ∃ x y, a = .fin x ∧ b = .fin y ∧ r = x - y := by
  cases a <;> cases b <;> first | (cases h; done) | skip
  rename_i x y
  rw [XF.sub_fin] at h
  exact ⟨x, y, rfl, rfl, (XF.fin.inj h).symm⟩

/-- With `low <= high` on every bar the finite true ranges are non-negative. -/
theorem trueRange_nonneg {hi lo cl : Ser} (h1 : hi.length = lo.length) (h2 : lo.length = cl.length)
    (hord : ∀ (i : Nat) (a b : ℝ), hi[i]? = some (.fin a) → lo[i]? = some (.fin b) → b ≤ a) :
    ∀ v ∈ trueRange hi lo cl, ∀ r, v = .fin r → 0 ≤ r := by
  rintro v hv r rfl
  obtain ⟨t, ht⟩ := List.mem_iff_getElem?.1 hv
  rw [trueRange] at ht
  obtain ⟨a, b, ha, hb, hab⟩ := op2_get_inv (by simp [op2_length, shift_length, h1, h2]) ht
  obtain ⟨c, d, hc, hd, hcd⟩ := op2_get_inv (by simp [op2_length, shift_length, h1, h2]) ha
  have habs : ∀ {z : Ser} {w : XF}, (z.map XF.abs)[t]? = some w → ∀ r, w = .fin r → 0 ≤ r := by
    intro z w hz r hr
    rw [List.getElem?_map] at hz
    obtain ⟨w', -, rfl⟩ := Option.map_eq_some_iff.1 hz
    exact abs_fin_nonneg hr
  have htr1 : ∀ r, c = .fin r → 0 ≤ r := by
    rintro r rfl
    obtain ⟨x, y, hx, hy, he⟩ := op2_get_inv h1 hc
    obtain ⟨x', y', rfl, rfl, rfl⟩ := sub_eq_fin he.symm
    linarith [hord t x' y' hx hy]
  rcases maxSkip_mem a b with h | h
  · rcases maxSkip_mem c d with h' | h'
    · exact htr1 r (by rw [← h', ← hcd, ← h, ← hab])
    · exact habs hd r (by rw [← h', ← hcd, ← h, ← hab])
  · exact habs hb r (by rw [← h, ← hab])

theorem atr_fine {hi lo cl u : Ser} {w : ℝ} (h1 : hi.length = lo.length) (h2 : lo.length = cl.length)
    (hord : ∀ (i : Nat) (a b : ℝ), hi[i]? = some (.fin a) → lo[i]? = some (.fin b) → b ≤ a)
    (hu : averageTrueRange hi lo cl w = .ok u) {t : Nat} {a : XF} (ha : u[t]? = some a) : IndRsi.Fine a := by
  obtain ⟨α, hα, h⟩ := bind_ok hu
  cases h
  have hα1 : α ≤ 1 := by
    rw [invAlpha] at hα
    split at hα
    · cases hα
    · split at hα
      · cases hα
      · rename_i hn
        cases hα
        rw [not_or, not_lt] at hn
        exact hn.2
  have ht : t < (trueRange hi lo cl).length := by
    have := (List.getElem?_eq_some_iff.1 ha).1
    rwa [Ser.ewmMean_length] at this
  rw [ewmMean_get _ _ _ ht] at ha
  cases ha
  rcases hst : ewmSt α ((trueRange hi lo cl).take (t + 1)) with _ | ⟨m, w'⟩
  · exact .inl rfl
  · rw [ewmOut]
    split
    · refine .inr ⟨m, rfl, ?_⟩
      obtain ⟨B, hB⟩ : ∃ B : ℝ, ∀ r, XF.fin r ∈ (trueRange hi lo cl).take (t + 1) → r ≤ B := by
        have key : ∀ l : Ser, ∃ B : ℝ, ∀ r, XF.fin r ∈ l → r ≤ B := by
          intro l
          induction l with
          | nil => exact ⟨0, by simp⟩
          | cons v l ih =>
            obtain ⟨B, hB⟩ := ih
            rcases v with _ | _ | _ | r0
            · exact ⟨B, by simpa using hB⟩
            · exact ⟨B, by simpa using hB⟩
            · exact ⟨B, by simpa using hB⟩
            · refine ⟨max r0 B, fun r hr => ?_⟩
              rcases List.mem_cons.1 hr with h | h
              · rw [XF.fin.inj h]; exact le_max_left _ _
              · exact (hB r h).trans (le_max_right _ _)
        exact key _
      exact (ewmSt_bounds hα1 hst fun r hr =>
        ⟨trueRange_nonneg h1 h2 hord _ (List.mem_of_mem_take hr) r rfl, hB r hr⟩).1
    · exact .inl rfl

/-- The average true range is NaN or non-negative when `low <= high`; Keltner channels with a non-negative multiplier are
then ordered. -/
theorem keltner_ordered {hi lo cl : Ser} {wa w k : ℝ} {b : Bands} {t : Nat} (h1 : hi.length = lo.length)
    (h2 : lo.length = cl.length)
    (hord : ∀ (i : Nat) (a b : ℝ), hi[i]? = some (.fin a) → lo[i]? = some (.fin b) → b ≤ a)
    (hb : keltner hi lo cl wa w k = .ok b) (hk : 0 ≤ k) (ht : t < cl.length) :
    (∃ c, b.std[t]? = some c ∧ IndRsi.Fine c) ∧ Ordered b t := by
  obtain ⟨m, hm, h⟩ := bind_ok hb
  obtain ⟨s, hs, h⟩ := bind_ok h
  cases h
  have e1 := List.getElem?_eq_getElem
    (show t < m.length by rw [(IndCausal.ewmMean_causal w).length _ _ hm]; exact ht)
  have e2 := List.getElem?_eq_getElem
    (show t < s.length by
      have := (IndCausal.averageTrueRange_causal wa).length _ _ _ _ h1 h2 hs
      rw [this, h1, h2]
      exact ht)
  exact ⟨⟨_, e2, atr_fine h1 h2 hord hs e2⟩, ordered_of hk e1 (ewm_kind hm e1) e2 (atr_fine h1 h2 hord hs e2)⟩

/-- Without `low <= high` the channels can be inverted: one bar with high 0, low 1 and close 0. -/
theorem keltner_inverted : ∃ b, keltner [.fin 0] [.fin 1] [.fin 0] 10 20 2 = .ok b ∧ b.upper[0]? = some (.fin (-2)) ∧
    b.lower[0]? = some (.fin 2) := by
  have hm : Ind.ewmMean [.fin 0] 20 = .ok [.fin 0] := by
    rw [IndEwm.ewmMean_eq (by norm_num)]
    simp [Ser.ewmMean, ewmGo]
  have hs : averageTrueRange [.fin 0] [.fin 1] [.fin 0] 10 = .ok [.fin (-1)] := by
    have ha : invAlpha 10 = .ok (1 / 10) := by
      rw [invAlpha, if_neg (by norm_num), if_neg (by norm_num)]
    have htr : trueRange [.fin 0] [.fin 1] [.fin 0] = [.fin (-1)] := by
      simp [trueRange, op2, shift, List.range_succ, maxSkip_nan]
    rw [averageTrueRange, ha, htr]
    show Except.ok (Ser.ewmMean (1 / 10) 0 [.fin (-1)]) = _
    simp [Ser.ewmMean, ewmGo]
  refine ⟨⟨[.fin 0], [.fin 0], [.fin (-1)], 2⟩, by rw [keltner, hm]; show (averageTrueRange _ _ _ _ >>= _) = _; rw [hs]; rfl,
    ?_, ?_⟩
  · have := (bands_at (b := ⟨[.fin 0], [.fin 0], [.fin (-1)], 2⟩) (t := 0) (m := 0) (s := -1) rfl rfl).1
    rw [this]; norm_num
  · have := (bands_at (b := ⟨[.fin 0], [.fin 0], [.fin (-1)], 2⟩) (t := 0) (m := 0) (s := -1) rfl rfl).2.1
    rw [this]; norm_num

/-! ## Donchian channels -/

/-- Where the window is observed the Donchian channel is exactly the rolling maximum and minimum, with their midpoint in the
middle; it is ordered, and `%b` lies in [0, 1] (NaN when the window is flat). -/
theorem donchian_spec {ts : Ser} {y : Nat → ℝ} {w t : Nat} {b : Bands} (hw : 1 ≤ w) (hb : donchian ts w = .ok b)
    (h : IndRolling.Obs ts y w t) :
    ∃ M l, IsGreatest (y '' Set.Ico (t + 1 - w) (t + 1)) M ∧ IsLeast (y '' Set.Ico (t + 1 - w) (t + 1)) l ∧
      b.upper[t]? = some (.fin M) ∧ b.lower[t]? = some (.fin l) ∧ b.middle[t]? = some (.fin ((M + l) / 2)) ∧ l ≤ M ∧
      b.percentB[t]? = some (open Classical in if M = l then .nan else .fin ((y t - l) / (M - l))) ∧
      l ≤ y t ∧ y t ≤ M := by
  obtain ⟨ub, hub, h'⟩ := bind_ok hb
  obtain ⟨lb, hlb, h'⟩ := bind_ok h'
  cases h'
  obtain ⟨M, hM, hMg⟩ := IndRolling.max_spec hw hub h
  obtain ⟨l, hl, hlg⟩ := IndRolling.min_spec hw hlb h
  have hmid : ((op2 (· + ·) ub lb).map (· / .fin 2))[t]? = some (.fin ((M + l) / 2)) := by
    rw [List.getElem?_map, op2_get _ hM hl]
    simp
  have hhalf : ((op2 (· - ·) ub lb).map (· / .fin 2))[t]? = some (.fin ((M - l) / 2)) := by
    rw [List.getElem?_map, op2_get _ hM hl]
    simp
  obtain ⟨e1, e2, e3, e4⟩ := bands_at (b := ⟨ts, (op2 (· + ·) ub lb).map (· / .fin 2),
    (op2 (· - ·) ub lb).map (· / .fin 2), 1⟩) hmid hhalf
  have hyt : y t ∈ y '' Set.Ico (t + 1 - w) (t + 1) := ⟨t, ⟨by omega, by omega⟩, rfl⟩
  have hts : ts[t]? = some (.fin (y t)) := h.2 t (by rw [mem_Ico]; omega)
  have hly := hlg.2 hyt
  have hyM := hMg.2 hyt
  refine ⟨M, l, hMg, hlg, ?_, ?_, e3, hly.trans hyM, ?_, hly, hyM⟩
  · rw [e1]; ring_nf
  · rw [e2]; ring_nf
  · rw [Bands.percentB, op2_get _ (op2_get _ hts e2) e4]
    simp only [XF.sub_fin]
    by_cases hMl : M = l
    · have hyl : y t = l := le_antisymm (hMl ▸ hyM) hly
      rw [if_pos hMl, hyl, hMl]
      have z1 : (l - ((l + l) / 2 - (l - l) / 2 * 1)) = 0 := by ring
      have z2 : (2 * ((l - l) / 2) * 1 : ℝ) = 0 := by ring
      rw [z1, z2, XF.zero_div_zero]
    · have hne : (2 * ((M - l) / 2) * 1 : ℝ) ≠ 0 := by
        have : M - l ≠ 0 := sub_ne_zero.2 hMl
        intro h0
        apply this
        linarith
      rw [if_neg hMl, XF.div_fin hne]
      congr 2
      have e : (2 * ((M - l) / 2) * 1 : ℝ) = M - l := by ring
      rw [e]
      congr 1
      ring

/-! ## Percent b and bandwidth -/

/-- With a width that is not zero, `%b` locates the series between the bands: `ts = lower + %b * (upper - lower)`. In
particular it is 0 on the lower band, 1 on the upper band and 1/2 in the middle. -/
theorem percentB_spec {b : Bands} {t : Nat} {x m s : ℝ} (hx : b.ts[t]? = some (.fin x))
    (hm : b.mean[t]? = some (.fin m)) (hs : b.std[t]? = some (.fin s)) (hne : s * b.mult ≠ 0) :
    ∃ p l u, b.percentB[t]? = some (.fin p) ∧ b.lower[t]? = some (.fin l) ∧ b.upper[t]? = some (.fin u) ∧
      x = l + p * (u - l) ∧ (p = 0 ↔ x = l) ∧ (p = 1 ↔ x = u) ∧ (p = 1 / 2 ↔ x = m) := by
  obtain ⟨e1, e2, e3, e4⟩ := bands_at hm hs
  have hne' : 2 * s * b.mult ≠ 0 := by
    intro h
    apply hne
    linarith
  refine ⟨(x - (m - s * b.mult)) / (2 * s * b.mult), _, _, ?_, e2, e1, ?_, ?_, ?_, ?_⟩
  · rw [Bands.percentB, op2_get _ (op2_get _ hx e2) e4]
    simp only [XF.sub_fin]
    rw [XF.div_fin hne']
  · have : m + s * b.mult - (m - s * b.mult) = 2 * s * b.mult := by ring
    rw [this, div_mul_cancel₀ _ hne']
    ring
  · rw [div_eq_zero_iff]
    constructor
    · rintro (h | h)
      · linarith
      · exact absurd h hne'
    · intro h
      left
      linarith
  · rw [div_eq_one_iff_eq hne']
    constructor <;> intro h <;> linarith
  · rw [div_eq_div_iff hne' two_ne_zero]
    constructor <;> intro h <;> linarith

/-- The bandwidth is the distance between the bands relative to the middle. -/
theorem bandwidth_spec {b : Bands} {t : Nat} {m s : ℝ} (hm : b.mean[t]? = some (.fin m))
    (hs : b.std[t]? = some (.fin s)) (hne : m ≠ 0) :
    ∃ l u, b.lower[t]? = some (.fin l) ∧ b.upper[t]? = some (.fin u) ∧
      b.bandwidth[t]? = some (.fin ((u - l) / m)) := by
  obtain ⟨e1, e2, e3, e4⟩ := bands_at hm hs
  refine ⟨_, _, e2, e1, ?_⟩
  rw [Bands.bandwidth, op2_get _ e4 e3, XF.div_fin hne]
  congr 3
  ring

/-- Samuelson's inequality: the last of `w` numbers is at most `(w-1)/sqrt w` sample standard deviations from their mean. -/
theorem samuelson (y : Nat → ℝ) {w t : Nat} (hw : 2 ≤ w) (ht : w ≤ t + 1) :
    (y t - IndRolling.meanOf y w t) ^ 2 ≤ ((w - 1) ^ 2 / w) * IndRolling.stdOf y w t ^ 2 := by
  have hw2 : (2 : ℝ) ≤ w := by exact_mod_cast hw
  have hw0 : (0 : ℝ) < w := by linarith
  have hw1 : (0 : ℝ) < (w : ℝ) - 1 := by linarith
  set m := IndRolling.meanOf y w t with hm
  have hcard : ((Ico (t + 1 - w) (t + 1)).card : ℝ) = w := by
    rw [Nat.card_Ico]
    congr 1
    omega
  have hsum0 : ∑ i ∈ Ico (t + 1 - w) (t + 1), (y i - m) = 0 := by
    rw [Finset.sum_sub_distrib, Finset.sum_const, nsmul_eq_mul, hcard, hm, IndRolling.meanOf]
    field_simp
    ring
  have hsplit : Ico (t + 1 - w) (t + 1) = insert t (Ico (t + 1 - w) t) := by
    ext i
    simp only [mem_Ico, mem_insert]
    omega
  have hnot : t ∉ Ico (t + 1 - w) t := by simp
  have hcard' : ((Ico (t + 1 - w) t).card : ℝ) = w - 1 := by
    rw [Nat.card_Ico, show t - (t + 1 - w) = w - 1 by omega, Nat.cast_sub (by omega)]
    simp
  have hS : ∑ i ∈ Ico (t + 1 - w) (t + 1), (y i - m) ^ 2 =
      (y t - m) ^ 2 + ∑ i ∈ Ico (t + 1 - w) t, (y i - m) ^ 2 := by rw [hsplit, Finset.sum_insert hnot]
  have h0 : (y t - m) + ∑ i ∈ Ico (t + 1 - w) t, (y i - m) = 0 := by
    rw [hsplit, Finset.sum_insert hnot] at hsum0
    exact hsum0
  have hcs : (∑ i ∈ Ico (t + 1 - w) t, (y i - m)) ^ 2 ≤ (w - 1) * ∑ i ∈ Ico (t + 1 - w) t, (y i - m) ^ 2 := by
    have := sq_sum_le_card_mul_sum_sq (s := Ico (t + 1 - w) t) (f := fun i => y i - m)
    rwa [hcard'] at this
  have hsq : (y t - m) ^ 2 ≤ (w - 1) * ∑ i ∈ Ico (t + 1 - w) t, (y i - m) ^ 2 := by
    have e : y t - m = -∑ i ∈ Ico (t + 1 - w) t, (y i - m) := by linarith
    rw [e, neg_sq]
    exact hcs
  have hstd : IndRolling.stdOf y w t ^ 2 =
      (∑ i ∈ Ico (t + 1 - w) (t + 1), (y i - m) ^ 2) / (w - 1) := by
    rw [IndRolling.stdOf, Real.sq_sqrt]
    exact div_nonneg (Finset.sum_nonneg fun i _ => sq_nonneg _) hw1.le
  rw [hstd, hS, div_mul_div_comm, le_div_iff₀ (by positivity)]
  nlinarith

/-- Bollinger `%b` is confined by the window alone: it is within `(w-1) / (2 k sqrt w)` of 1/2. -/
theorem bollinger_percentB {ts : Ser} {y : Nat → ℝ} {w t : Nat} {k : ℝ} {b : Bands} (hw : 2 ≤ w) (hk : 0 < k)
    (hb : bollinger ts w k = .ok b) (h : IndRolling.Obs ts y w t) :
    (IndRolling.stdOf y w t = 0 ∧ b.percentB[t]? = some .nan) ∨
      ∃ p, b.percentB[t]? = some (.fin p) ∧ |p - 1 / 2| ≤ (w - 1) / (2 * k * Real.sqrt w) := by
  obtain ⟨m, hm, h'⟩ := bind_ok hb
  obtain ⟨s, hs, h'⟩ := bind_ok h'
  cases h'
  have hm' := IndRolling.mean_spec (by omega) hm h
  have hs' := IndRolling.std_spec hw hs h
  have hts : ts[t]? = some (.fin (y t)) := h.2 t (by rw [mem_Ico]; omega)
  obtain ⟨e1, e2, e3, e4⟩ := bands_at (b := ⟨ts, m, s, k⟩) hm' hs'
  have hsam := samuelson y hw h.1
  have hs0 : 0 ≤ IndRolling.stdOf y w t := Real.sqrt_nonneg _
  have hw2 : (2 : ℝ) ≤ w := by exact_mod_cast hw
  by_cases hz : IndRolling.stdOf y w t = 0
  · left
    refine ⟨hz, ?_⟩
    rw [hz] at hsam e2 e4
    have hyt : y t = IndRolling.meanOf y w t := by
      have h0 : (y t - IndRolling.meanOf y w t) ^ 2 ≤ 0 := by simpa using hsam
      have : y t - IndRolling.meanOf y w t = 0 := pow_eq_zero_iff two_ne_zero |>.1 (le_antisymm h0 (sq_nonneg _))
      linarith
    rw [Bands.percentB, op2_get _ (op2_get _ hts e2) e4, hyt]
    simp [XF.zero_div_zero]
  · right
    have hpos : 0 < IndRolling.stdOf y w t := lt_of_le_of_ne hs0 (Ne.symm hz)
    have hne : 2 * IndRolling.stdOf y w t * k ≠ 0 := by positivity
    refine ⟨(y t - (IndRolling.meanOf y w t - IndRolling.stdOf y w t * k)) / (2 * IndRolling.stdOf y w t * k), ?_, ?_⟩
    · rw [Bands.percentB, op2_get _ (op2_get _ hts e2) e4]
      simp only [XF.sub_fin]
      rw [XF.div_fin hne]
    · have e : (y t - (IndRolling.meanOf y w t - IndRolling.stdOf y w t * k)) / (2 * IndRolling.stdOf y w t * k) - 1 / 2 =
          (y t - IndRolling.meanOf y w t) / (2 * IndRolling.stdOf y w t * k) := by
        field_simp
        ring
      have hsw : 0 < Real.sqrt w := Real.sqrt_pos.2 (by linarith)
      have habs : |y t - IndRolling.meanOf y w t| ≤ (w - 1) / Real.sqrt w * IndRolling.stdOf y w t := by
        apply abs_le_of_sq_le_sq _ (by have : (0 : ℝ) ≤ w - 1 := by linarith
                                       positivity)
        rw [mul_pow, div_pow, Real.sq_sqrt (by linarith)]
        exact hsam
      rw [e, abs_div, abs_of_pos (show 0 < 2 * IndRolling.stdOf y w t * k by positivity),
        div_le_div_iff₀ (by positivity) (by positivity)]
      calc |y t - IndRolling.meanOf y w t| * (2 * k * Real.sqrt w)
          ≤ ((w - 1) / Real.sqrt w * IndRolling.stdOf y w t) * (2 * k * Real.sqrt w) := by
            apply mul_le_mul_of_nonneg_right habs
            positivity
        _ = (w - 1) * (2 * IndRolling.stdOf y w t * k) := by field_simp

/-- Concrete case: Donchian channel of `1, 3, 2` with window 2. -/
example : ∃ b, donchian [.fin 1, .fin 3, .fin 2] 2 = .ok b ∧ Ordered b 0 := by
  obtain ⟨b, hb⟩ := (IndCausal.ok_iff [.fin 1, .fin 3, .fin 2] [] [] [] 2 1 1 1 meanF).2.2.2.2.2.2.2.2.1.2 (by decide)
  refine ⟨b, hb, .inl ?_⟩
  obtain ⟨ub, hub, h'⟩ := bind_ok hb
  obtain ⟨lb, hlb, h'⟩ := bind_ok h'
  cases h'
  have h1 := IndRolling.rolling_nan (w := 2) (t := 0) hub (by simp) fun y hy => by have := hy.1; omega
  have h2 := IndRolling.rolling_nan (w := 2) (t := 0) hlb (by simp) fun y hy => by have := hy.1; omega
  have e1 : ((op2 (· + ·) ub lb).map (· / .fin 2))[0]? = some .nan := by
    rw [List.getElem?_map, op2_get _ h1 h2]; simp
  have e2 : (((op2 (· - ·) ub lb).map (· / .fin 2)).map (· * .fin 1))[0]? = some .nan := by
    rw [List.getElem?_map, List.getElem?_map, op2_get _ h1 h2]; simp
  exact ⟨by rw [Bands.upper, Bands.halfWidth, op2_get _ e1 e2]; simp,
    by rw [Bands.lower, Bands.halfWidth, op2_get _ e1 e2]; simp⟩

end Verif.Props.IndBands
