import Verif.Model.Indicators
import Verif.Lemmas.Series

/-!
# C49: indicators never look ahead

`Causal F`: the output is as long as the input, and cutting the input at `t` cuts the output at `t`.
-/

namespace Verif.Props.IndCausal

open Verif Ser Ind

/-- A function of one series never looks ahead. -/
structure Causal (F : Ser → Py Ser) : Prop where
  length : ∀ x u, F x = .ok u → u.length = x.length
  cut : ∀ x u t, F x = .ok u → F (x.take t) = .ok (u.take t)

/-- A function of three series of one length never looks ahead. -/
structure Causal3 (F : Ser → Ser → Ser → Py Ser) : Prop where
  length : ∀ x y z u, x.length = y.length → y.length = z.length → F x y z = .ok u → u.length = x.length
  cut : ∀ x y z u t, F x y z = .ok u → F (x.take t) (y.take t) (z.take t) = .ok (u.take t)

/-- What it means: two series that agree on the first `t` values give outputs that agree on the first `t` values. -/
theorem Causal.agree {F : Ser → Py Ser} (h : Causal F) {x y u v : Ser} {t : Nat} (hxy : x.take t = y.take t)
    (hx : F x = .ok u) (hy : F y = .ok v) : u.take t = v.take t := by
  have h1 := h.cut x u t hx
  rw [hxy, h.cut y v t hy] at h1
  exact (Except.ok.inj h1).symm

/-- … and appending later values never changes earlier outputs. -/
theorem Causal.append {F : Ser → Py Ser} (h : Causal F) {x z u : Ser} (hx : F (x ++ z) = .ok u) :
    F x = .ok (u.take x.length) := by
  have := h.cut (x ++ z) u x.length hx
  rwa [List.take_left] at this

theorem rolling_causal (w : Int) (f : List ℝ → XF) : Causal (rolling w f) :=
  ⟨fun _ _ h => rolling_length h, fun _ _ t h => rolling_take h t⟩

/-- Rolling mean, standard deviation, maximum and minimum. -/
theorem rolling_indicators_causal (w : Int) :
    Causal (fun x => rollingMean x w) ∧ Causal (fun x => rollingStd x w) ∧
      Causal (fun x => rollingMax x w) ∧ Causal (fun x => rollingMin x w) :=
  ⟨rolling_causal _ _, rolling_causal _ _, rolling_causal _ _, rolling_causal _ _⟩

theorem ewmMean_causal (span : ℝ) : Causal (fun x => Ind.ewmMean x span) := by
  refine ⟨fun x u h => ?_, fun x u t h => ?_⟩
  · obtain ⟨a, _, h⟩ := bind_ok h
    cases h
    exact Ser.ewmMean_length _ _ _
  · obtain ⟨a, ha, h⟩ := bind_ok h
    cases h
    simp only [Ind.ewmMean, ha, Ser.ewmMean_take]
    rfl

theorem ewmStd_causal (span : ℝ) : Causal (fun x => Ind.ewmStd x span) := by
  refine ⟨fun x u h => ?_, fun x u t h => ?_⟩
  · obtain ⟨a, _, h⟩ := bind_ok h
    cases h
    exact Ser.ewmStd_length _ _
  · obtain ⟨a, ha, h⟩ := bind_ok h
    cases h
    simp only [Ind.ewmStd, ha, Ser.ewmStd_take]
    rfl

theorem ewmMom_causal (span : ℝ) (p : Int) : Causal (fun x => ewmMom x span p) := by
  refine ⟨fun x u h => ?_, fun x u t h => ?_⟩
  · obtain ⟨a, _, h⟩ := bind_ok h
    cases h
    rw [Ser.ewmMean_length, diff_length]
  · obtain ⟨a, ha, h⟩ := bind_ok h
    cases h
    simp only [ewmMom, ha, diff_take (show (0 : Int) ≤ 1 by decide), Ser.ewmMean_take]
    rfl

theorem rollingMom_causal {w : Int} (hw : 0 ≤ w) : Causal (fun x => .ok (rollingMom x w)) := by
  refine ⟨fun x u h => ?_, fun x u t h => ?_⟩
  · cases h
    simp [rollingMom, diff_length]
  · cases h
    simp only [rollingMom, diff_take hw, map_take']

/-- With a negative window the momentum looks ahead: nothing rejects it. -/
theorem rollingMom_looks_ahead : ¬ Causal (fun x => .ok (rollingMom x (-1))) := by
  intro h
  have := h.cut [.fin 0, .fin 1] _ 1 rfl
  simp [rollingMom, diff, op2, shift, List.range_succ] at this

theorem macd_causal (fast slow : ℝ) : Causal (fun x => macd x fast slow) := by
  refine ⟨fun x u h => ?_, fun x u t h => ?_⟩
  · obtain ⟨a, ha, h⟩ := bind_ok h
    obtain ⟨b, hb, h⟩ := bind_ok h
    cases h
    rw [op2_length, (ewmMean_causal fast).length _ _ ha, (ewmMean_causal slow).length _ _ hb, max_self]
  · obtain ⟨a, ha, h⟩ := bind_ok h
    obtain ⟨b, hb, h⟩ := bind_ok h
    cases h
    have h1 : Ind.ewmMean (x.take t) fast = .ok (a.take t) := (ewmMean_causal fast).cut _ _ t ha
    have h2 : Ind.ewmMean (x.take t) slow = .ok (b.take t) := (ewmMean_causal slow).cut _ _ t hb
    simp only [macd, h1, h2, ← op2_take]
    rfl

theorem macdSignal_causal (fast slow signal : ℝ) : Causal (fun x => macdSignal x fast slow signal) := by
  refine ⟨fun x u h => ?_, fun x u t h => ?_⟩
  · obtain ⟨a, ha, h⟩ := bind_ok h
    obtain ⟨b, hb, h⟩ := bind_ok h
    cases h
    rw [op2_length, (ewmMean_causal signal).length _ _ hb, (macd_causal fast slow).length _ _ ha, max_self]
  · obtain ⟨a, ha, h⟩ := bind_ok h
    obtain ⟨b, hb, h⟩ := bind_ok h
    cases h
    have h1 : macd (x.take t) fast slow = .ok (a.take t) := (macd_causal fast slow).cut _ _ t ha
    have h2 : Ind.ewmMean (a.take t) signal = .ok (b.take t) := (ewmMean_causal signal).cut _ _ t hb
    simp only [macdSignal, h1, ← op2_take]
    show (Ind.ewmMean (a.take t) signal >>= _) = _
    rw [h2]
    rfl

theorem gains_length (x : Ser) : (gains x).length = x.length := by
  rw [gains, whereZero_length _ rfl, diff_length]

theorem losses_length (x : Ser) : (losses x).length = x.length := by
  rw [losses, whereZero_length _ (by simp), List.length_map, diff_length]

theorem gains_take (x : Ser) (t : Nat) : gains (x.take t) = (gains x).take t := by
  rw [gains, diff_take (by decide), whereZero_take, gains]

theorem losses_take (x : Ser) (t : Nat) : losses (x.take t) = (losses x).take t := by
  rw [losses, diff_take (by decide), map_take', whereZero_take, losses]

theorem rsiOf_length {x y : Ser} (h : x.length = y.length) : (rsiOf x y).length = x.length := by
  simp [rsiOf, op2_length, h]

theorem rsiOf_take (x y : Ser) (t : Nat) : rsiOf (x.take t) (y.take t) = (rsiOf x y).take t := by
  simp only [rsiOf, op2_take, map_take']

theorem rsi_causal (period : Int) : Causal (fun x => rsi x period) := by
  refine ⟨fun x u h => ?_, fun x u t h => ?_⟩
  · obtain ⟨a, ha, h⟩ := bind_ok h
    obtain ⟨b, hb, h⟩ := bind_ok h
    cases h
    have h1 := rolling_length ha
    have h2 := rolling_length hb
    rw [gains_length] at h1
    rw [losses_length] at h2
    rw [rsiOf_length (h1.trans h2.symm), h1]
  · obtain ⟨a, ha, h⟩ := bind_ok h
    obtain ⟨b, hb, h⟩ := bind_ok h
    cases h
    have h1 := rolling_take ha t
    have h2 := rolling_take hb t
    simp only [rsi, gains_take, losses_take, h1, ← rsiOf_take]
    show (rolling period meanF ((losses x).take t) >>= _) = _
    rw [h2]
    rfl

theorem ewmRsi_causal (period : ℝ) : Causal (fun x => ewmRsi x period) := by
  refine ⟨fun x u h => ?_, fun x u t h => ?_⟩
  · obtain ⟨a, ha, h⟩ := bind_ok h
    cases h
    rw [rsiOf_length (by simp only [Ser.ewmMean_length, gains_length, losses_length]), Ser.ewmMean_length,
      gains_length]
  · obtain ⟨a, ha, h⟩ := bind_ok h
    cases h
    simp only [ewmRsi, ha, gains_take, losses_take, Ser.ewmMean_take, ← rsiOf_take]
    rfl

theorem trueRange_take (h l c : Ser) (t : Nat) :
    trueRange (h.take t) (l.take t) (c.take t) = (trueRange h l c).take t := by
  simp only [trueRange, shift_take (show (0 : Int) ≤ 1 by decide), op2_take, map_take']

theorem trueRange_length {h l c : Ser} (h1 : h.length = l.length) (h2 : l.length = c.length) :
    (trueRange h l c).length = h.length := by
  simp [trueRange, op2_length, shift_length, h1, h2]

theorem averageTrueRange_causal (w : ℝ) : Causal3 (fun h l c => averageTrueRange h l c w) := by
  refine ⟨fun x y z u h1 h2 h => ?_, fun x y z u t h => ?_⟩
  · obtain ⟨a, ha, h⟩ := bind_ok h
    cases h
    rw [Ser.ewmMean_length, trueRange_length h1 h2]
  · obtain ⟨a, ha, h⟩ := bind_ok h
    cases h
    simp only [averageTrueRange, ha, trueRange_take, Ser.ewmMean_take]
    rfl

/-- Bands built from the first `t` values. -/
def cutBands (b : Bands) (t : Nat) : Bands := ⟨b.ts.take t, b.mean.take t, b.std.take t, b.mult⟩

/-- The five outputs of a bands object whose inputs are cut are the cut outputs. -/
theorem bands_cut (b : Bands) (t : Nat) :
    (cutBands b t).upper = b.upper.take t ∧ (cutBands b t).lower = b.lower.take t ∧
      (cutBands b t).middle = b.middle.take t ∧ (cutBands b t).bandwidth = b.bandwidth.take t ∧
      (cutBands b t).percentB = b.percentB.take t := by
  simp only [cutBands, Bands.upper, Bands.lower, Bands.middle, Bands.bandwidth, Bands.percentB, Bands.halfWidth,
    Bands.width, map_take', op2_take, and_self]

theorem bollinger_cut {ts : Ser} {w : Int} {m : ℝ} {b : Bands} (h : bollinger ts w m = .ok b) (t : Nat) :
    bollinger (ts.take t) w m = .ok (cutBands b t) := by
  obtain ⟨a, ha, h⟩ := bind_ok h
  obtain ⟨s, hs, h⟩ := bind_ok h
  cases h
  have h1 : rollingMean (ts.take t) w = .ok (a.take t) := rolling_take ha t
  have h2 : rollingStd (ts.take t) w = .ok (s.take t) := rolling_take hs t
  simp only [bollinger, h1, h2]
  rfl

theorem ewmBollinger_cut {ts : Ser} {w : ℝ} {m : ℝ} {b : Bands} (h : ewmBollinger ts w m = .ok b) (t : Nat) :
    ewmBollinger (ts.take t) w m = .ok (cutBands b t) := by
  obtain ⟨a, ha, h⟩ := bind_ok h
  obtain ⟨s, hs, h⟩ := bind_ok h
  cases h
  have h1 : Ind.ewmMean (ts.take t) w = .ok (a.take t) := (ewmMean_causal w).cut _ _ t ha
  have h2 : Ind.ewmStd (ts.take t) w = .ok (s.take t) := (ewmStd_causal w).cut _ _ t hs
  simp only [ewmBollinger, h1, h2]
  rfl

theorem keltner_cut {hi lo cl : Ser} {wa w m : ℝ} {b : Bands} (h : keltner hi lo cl wa w m = .ok b) (t : Nat) :
    keltner (hi.take t) (lo.take t) (cl.take t) wa w m = .ok (cutBands b t) := by
  obtain ⟨a, ha, h⟩ := bind_ok h
  obtain ⟨s, hs, h⟩ := bind_ok h
  cases h
  have h1 : Ind.ewmMean (cl.take t) w = .ok (a.take t) := (ewmMean_causal w).cut _ _ t ha
  have h2 : averageTrueRange (hi.take t) (lo.take t) (cl.take t) wa = .ok (s.take t) :=
    (averageTrueRange_causal wa).cut _ _ _ _ t hs
  simp only [keltner, h1, h2]
  rfl

theorem donchian_cut {ts : Ser} {w : Int} {b : Bands} (h : donchian ts w = .ok b) (t : Nat) :
    donchian (ts.take t) w = .ok (cutBands b t) := by
  obtain ⟨a, ha, h⟩ := bind_ok h
  obtain ⟨s, hs, h⟩ := bind_ok h
  cases h
  have h1 : rollingMax (ts.take t) w = .ok (a.take t) := rolling_take ha t
  have h2 : rollingMin (ts.take t) w = .ok (s.take t) := rolling_take hs t
  simp only [donchian, h1, h2, cutBands, ← op2_take, ← map_take']
  rfl

/-- The outputs of all four bands have the length of the series. -/
theorem bands_length {b : Bands} {n : Nat} (h1 : b.ts.length = n) (h2 : b.mean.length = n) (h3 : b.std.length = n) :
    b.upper.length = n ∧ b.lower.length = n ∧ b.middle.length = n ∧ b.bandwidth.length = n ∧
      b.percentB.length = n := by
  simp [Bands.upper, Bands.lower, Bands.middle, Bands.bandwidth, Bands.percentB, Bands.halfWidth, Bands.width,
    op2_length, h1, h2, h3]

theorem bollinger_length {ts : Ser} {w : Int} {m : ℝ} {b : Bands} (h : bollinger ts w m = .ok b) :
    b.ts.length = ts.length ∧ b.mean.length = ts.length ∧ b.std.length = ts.length := by
  obtain ⟨a, ha, h⟩ := bind_ok h
  obtain ⟨s, hs, h⟩ := bind_ok h
  cases h
  exact ⟨rfl, rolling_length ha, rolling_length hs⟩

theorem ewmBollinger_length {ts : Ser} {w m : ℝ} {b : Bands} (h : ewmBollinger ts w m = .ok b) :
    b.ts.length = ts.length ∧ b.mean.length = ts.length ∧ b.std.length = ts.length := by
  obtain ⟨a, ha, h⟩ := bind_ok h
  obtain ⟨s, hs, h⟩ := bind_ok h
  cases h
  exact ⟨rfl, (ewmMean_causal w).length _ _ ha, (ewmStd_causal w).length _ _ hs⟩

theorem keltner_length {hi lo cl : Ser} {wa w m : ℝ} {b : Bands} (h1 : hi.length = lo.length)
    (h2 : lo.length = cl.length) (h : keltner hi lo cl wa w m = .ok b) :
    b.ts.length = cl.length ∧ b.mean.length = cl.length ∧ b.std.length = cl.length := by
  obtain ⟨a, ha, h⟩ := bind_ok h
  obtain ⟨s, hs, h⟩ := bind_ok h
  cases h
  exact ⟨rfl, (ewmMean_causal w).length _ _ ha,
    ((averageTrueRange_causal wa).length _ _ _ _ h1 h2 hs).trans (h1.trans h2)⟩

theorem donchian_length {ts : Ser} {w : Int} {b : Bands} (h : donchian ts w = .ok b) :
    b.ts.length = ts.length ∧ b.mean.length = ts.length ∧ b.std.length = ts.length := by
  obtain ⟨a, ha, h⟩ := bind_ok h
  obtain ⟨s, hs, h⟩ := bind_ok h
  cases h
  have h1 : a.length = ts.length := rolling_length ha
  have h2 : s.length = ts.length := rolling_length hs
  exact ⟨rfl, by simp [op2_length, h1, h2], by simp [op2_length, h1, h2]⟩

/-- When the calls succeed: rolling windows must not be negative, spans at least one, the range window at least one. -/
theorem ok_iff (ts hi lo cl : Ser) (w : Int) (s a m : ℝ) (f : List ℝ → XF) :
    ((∃ u, rolling w f ts = .ok u) ↔ 0 ≤ w) ∧ ((∃ u, rsi ts w = .ok u) ↔ 0 ≤ w) ∧
      ((∃ u, Ind.ewmMean ts s = .ok u) ↔ 1 ≤ s) ∧ ((∃ u, Ind.ewmStd ts s = .ok u) ↔ 1 ≤ s) ∧
      ((∃ u, ewmRsi ts s = .ok u) ↔ 1 ≤ s) ∧ ((∃ u, macd ts s a = .ok u) ↔ 1 ≤ s ∧ 1 ≤ a) ∧
      ((∃ u, averageTrueRange hi lo cl a = .ok u) ↔ 1 ≤ a) ∧
      ((∃ b, bollinger ts w m = .ok b) ↔ 0 ≤ w) ∧ ((∃ b, donchian ts w = .ok b) ↔ 0 ≤ w) ∧
      ((∃ b, keltner hi lo cl a s m = .ok b) ↔ 1 ≤ s ∧ 1 ≤ a) := by
  have hs : ∀ s : ℝ, (∃ α, spanAlpha s = .ok α) ↔ 1 ≤ s := by
    intro s
    rw [spanAlpha]
    by_cases h : s < 1
    · rw [if_pos h]
      exact ⟨fun ⟨_, h⟩ => (nomatch h), fun h' => absurd h (not_lt.2 h')⟩
    · rw [if_neg h]
      exact ⟨fun _ => not_lt.1 h, fun _ => ⟨_, rfl⟩⟩
  have hi' : (∃ α, invAlpha a = .ok α) ↔ 1 ≤ a := by
    rw [invAlpha]
    by_cases h0 : a = 0
    · rw [if_pos h0, h0]
      exact ⟨fun ⟨_, h⟩ => (nomatch h), fun h => by norm_num at h⟩
    · rw [if_neg h0]
      by_cases h : 1 ≤ a
      · have hp : 0 < a := by linarith
        have : ¬ (1 / a ≤ 0 ∨ 1 < 1 / a) := by
          rw [not_or, not_le, not_lt]
          exact ⟨by positivity, by rw [div_le_one hp]; exact h⟩
        rw [if_neg this]
        exact ⟨fun _ => h, fun _ => ⟨_, rfl⟩⟩
      · have : 1 / a ≤ 0 ∨ 1 < 1 / a := by
          by_cases hp : 0 < a
          · right
            rw [lt_div_iff₀ hp]
            linarith [not_le.1 h]
          · left
            exact div_nonpos_of_nonneg_of_nonpos zero_le_one (not_lt.1 hp)
        rw [if_pos this]
        exact ⟨fun ⟨_, h⟩ => (nomatch h), fun h' => absurd h' h⟩
  have hr : ∀ (f : List ℝ → XF) (x : Ser), (∃ u, rolling w f x = .ok u) ↔ 0 ≤ w := by
    intro f x
    exact ⟨fun ⟨_, h⟩ => (rolling_inv h).1, fun h => ⟨_, rolling_ok h f x⟩⟩
  have hm : ∀ (x : Ser) (s : ℝ), (∃ u, Ind.ewmMean x s = .ok u) ↔ 1 ≤ s := by
    intro x s
    rw [← hs]
    exact ⟨fun ⟨_, h⟩ => (bind_ok h).imp fun _ h => h.1, fun ⟨α, h⟩ => ⟨_, by rw [Ind.ewmMean, h]; rfl⟩⟩
  have ha : (∃ u, averageTrueRange hi lo cl a = .ok u) ↔ 1 ≤ a := by
    rw [← hi']
    exact ⟨fun ⟨_, h⟩ => (bind_ok h).imp fun _ h => h.1, fun ⟨α, h⟩ => ⟨_, by rw [averageTrueRange, h]; rfl⟩⟩
  refine ⟨hr f ts, ?_, hm ts s, ?_, ?_, ?_, ha, ?_, ?_, ?_⟩
  · refine ⟨fun ⟨_, h⟩ => (hr meanF (gains ts)).1 ((bind_ok h).imp fun _ h => h.1), fun h => ?_⟩
    obtain ⟨u, hu⟩ := (hr meanF (gains ts)).2 h
    obtain ⟨v, hv⟩ := (hr meanF (losses ts)).2 h
    exact ⟨rsiOf u v, by rw [rsi, hu]; show (rolling w meanF (losses ts) >>= _) = _; rw [hv]; rfl⟩
  · rw [← hs]
    exact ⟨fun ⟨_, h⟩ => (bind_ok h).imp fun _ h => h.1, fun ⟨α, h⟩ => ⟨_, by rw [Ind.ewmStd, h]; rfl⟩⟩
  · rw [← hs]
    exact ⟨fun ⟨_, h⟩ => (bind_ok h).imp fun _ h => h.1, fun ⟨α, h⟩ => ⟨_, by rw [ewmRsi, h]; rfl⟩⟩
  · constructor
    · rintro ⟨u, h⟩
      obtain ⟨x, hx, h⟩ := bind_ok h
      obtain ⟨y, hy, h⟩ := bind_ok h
      exact ⟨(hm ts s).1 ⟨x, hx⟩, (hm ts a).1 ⟨y, hy⟩⟩
    · rintro ⟨h1, h2⟩
      obtain ⟨x, hx⟩ := (hm ts s).2 h1
      obtain ⟨y, hy⟩ := (hm ts a).2 h2
      exact ⟨_, by rw [macd, hx]; show (Ind.ewmMean ts a >>= _) = _; rw [hy]; rfl⟩
  · refine ⟨fun ⟨_, h⟩ => (hr meanF ts).1 ((bind_ok h).imp fun _ h => h.1), fun h => ?_⟩
    obtain ⟨x, hx⟩ := (hr meanF ts).2 h
    obtain ⟨y, hy⟩ := (hr stdF ts).2 h
    exact ⟨⟨ts, x, y, m⟩, by rw [bollinger, rollingMean, hx]; show (rolling w stdF ts >>= _) = _; rw [hy]; rfl⟩
  · refine ⟨fun ⟨_, h⟩ => (hr maxF ts).1 ((bind_ok h).imp fun _ h => h.1), fun h => ?_⟩
    obtain ⟨x, hx⟩ := (hr maxF ts).2 h
    obtain ⟨y, hy⟩ := (hr minF ts).2 h
    exact ⟨_, by rw [donchian, rollingMax, hx]; show (rolling w minF ts >>= _) = _; rw [hy]; rfl⟩
  · constructor
    · rintro ⟨u, h⟩
      obtain ⟨x, hx, h⟩ := bind_ok h
      obtain ⟨y, hy, h⟩ := bind_ok h
      exact ⟨(hm cl s).1 ⟨x, hx⟩, ha.1 ⟨y, hy⟩⟩
    · rintro ⟨h1, h2⟩
      obtain ⟨x, hx⟩ := (hm cl s).2 h1
      obtain ⟨y, hy⟩ := ha.2 h2
      exact ⟨_, by rw [keltner, hx]; show (averageTrueRange hi lo cl a >>= _) = _; rw [hy]; rfl⟩

/-- Concrete case: the exponentially weighted mean of `1, 3` with span 1 (no memory) and its cut. -/
example : ∃ u, Ind.ewmMean [.fin 1, .fin 3] 1 = .ok u ∧ Ind.ewmMean [.fin 1] 1 = .ok (u.take 1) :=
  have ⟨u, hu⟩ := ((ok_iff [.fin 1, .fin 3] [] [] [] 1 1 1 1 meanF).2.2.1).2 le_rfl
  ⟨u, hu, (ewmMean_causal 1).cut _ _ 1 hu⟩

end Verif.Props.IndCausal
