import Verif.Props.RollMean

/-!
# C106: the error of rolling means
-/

namespace Verif.Roll

open Verif Ser Round

variable {fl : ℝ → ℝ}

/-- One compensated addition: what the sum loses is kept in the compensation up to two units of the summand. -/
theorem kahan_step (R : Rounding fl) {s c z A : ℝ} (hz : |z| ≤ A) (hs : |s| ≤ 2 * A) (hc : |c| ≤ 5 * u64 * A) :
    let y := fl (z - c)
    let t := fl (s + y)
    let c' := fl (fl (t - s) - y)
    |c'| ≤ 5 * u64 * A ∧ |(t - c') - (s - c + z)| ≤ 2.01 * u64 * |z| + 20 * u64 ^ 2 * A := by
  intro y t c'
  have hu : 0 < u64 := by unfold u64; positivity
  have hus : u64 ≤ 1 / 1000 := by unfold u64; norm_num
  have hA : 0 ≤ A := (abs_nonneg z).trans hz
  have d2 : |y - (z - c)| ≤ u64 * |z - c| := R.rel _
  have d1 : |t - (s + y)| ≤ u64 * |s + y| := R.rel _
  have d3 : |fl (t - s) - (t - s)| ≤ u64 * |t - s| := R.rel _
  have d4 : |c' - (fl (t - s) - y)| ≤ u64 * |fl (t - s) - y| := R.rel _
  set δ2 := y - (z - c) with h2
  set δ1 := t - (s + y) with h1
  set q := fl (t - s)
  set δ3 := q - (t - s) with h3
  set δ4 := c' - (q - y) with h4
  have ec : c' = δ1 + δ3 + δ4 := by rw [h4, h3, h1]; ring
  have et : (t - c') - (s - c + z) = δ2 - δ3 - δ4 := by rw [h4, h3, h2]; ring
  have ey : |y| ≤ |z| + |c| + |δ2| := by
    have : y = z - c + δ2 := by rw [h2]; ring
    rw [this]
    exact (abs_add_le _ _).trans (by linarith [abs_sub z c])
  have b2 : |z - c| ≤ |z| + |c| := abs_sub z c
  have b1 : |s + y| ≤ |s| + |y| := abs_add_le _ _
  have b3 : |t - s| ≤ |y| + |δ1| := by
    have : t - s = y + δ1 := by rw [h1]; ring
    rw [this]
    exact abs_add_le _ _
  have b4 : |q - y| ≤ |δ1| + |δ3| := by
    have : q - y = δ1 + δ3 := by rw [h3, h1]; ring
    rw [this]
    exact abs_add_le _ _
  clear_value δ1 δ2 δ3 δ4
  set p := u64 * A with hp
  set r := u64 * p with hr
  have hp0 : 0 ≤ p := by positivity
  have hr0 : 0 ≤ r := by positivity
  have hrp : r ≤ p / 1000 := by rw [hr]; nlinarith
  have hZ0 := abs_nonneg z
  have hUZ : 0 ≤ u64 * |z| := by positivity
  have uz : u64 * |z| ≤ p := by rw [hp]; gcongr
  have uc : u64 * |c| ≤ 5 * r := by
    have : u64 * |c| ≤ u64 * (5 * u64 * A) := by gcongr
    rw [hr, hp]
    linarith
  have hc' : |c| ≤ 5 * p := by rw [hp]; linarith
  have us : u64 * |s| ≤ 2 * p := by
    have : u64 * |s| ≤ u64 * (2 * A) := by gcongr
    rw [hp]
    linarith
  have f2 : |δ2| ≤ u64 * |z| + 5 * r := by
    have : u64 * |z - c| ≤ u64 * (|z| + |c|) := by gcongr
    linarith
  have uy : u64 * |y| ≤ 1.001 * (u64 * |z|) + 5.01 * r := by
    have g1 : u64 * |y| ≤ u64 * (|z| + |c| + |δ2|) := by gcongr
    have g2 : u64 * |δ2| ≤ 1 / 1000 * |δ2| := by gcongr
    linarith
  have f1 : |δ1| ≤ 3.01 * p := by
    have : u64 * |s + y| ≤ u64 * (|s| + |y|) := by gcongr
    linarith
  have u1 : u64 * |δ1| ≤ 3.01 * r := by
    have : u64 * |δ1| ≤ u64 * (3.01 * p) := by gcongr
    rw [hr]
    linarith
  have f3 : |δ3| ≤ 1.001 * (u64 * |z|) + 8.02 * r := by
    have : u64 * |t - s| ≤ u64 * (|y| + |δ1|) := by gcongr
    linarith
  have u3 : u64 * |δ3| ≤ 1.02 * r := by
    have : u64 * |δ3| ≤ u64 * (1.02 * p) := by
      gcongr
      linarith
    rw [hr]
    linarith
  have f4 : |δ4| ≤ 4.03 * r := by
    have : u64 * |q - y| ≤ u64 * (|δ1| + |δ3|) := by gcongr
    linarith
  have e20 : 20 * u64 ^ 2 * A = 20 * r := by rw [hr, hp]; ring
  constructor
  · rw [ec]
    have := (abs_add_le (δ1 + δ3) δ4).trans (add_le_add_left (abs_add_le δ1 δ3) _)
    have e5 : 5 * u64 * A = 5 * p := by rw [hp]; ring
    rw [e5]
    linarith
  · rw [et, e20]
    have := (abs_sub (δ2 - δ3) δ4).trans (add_le_add_left (abs_sub δ2 δ3) _)
    linarith

/-- The sum of the absolute values. -/
noncomputable def absSum (l : List ℝ) : ℝ := (l.map abs).sum

theorem absSum_append (l m : List ℝ) : absSum (l ++ m) = absSum l + absSum m := by simp [absSum]

theorem absSum_nonneg (l : List ℝ) : 0 ≤ absSum l := List.sum_nonneg fun a ha => by
  obtain ⟨b, -, rfl⟩ := List.mem_map.mp ha
  exact abs_nonneg b

theorem abs_sum_le (l : List ℝ) : |l.sum| ≤ absSum l := by
  induction l with
  | nil => simp [absSum]
  | cons a l ih =>
    have : absSum (a :: l) = |a| + absSum l := by simp [absSum]
    rw [List.sum_cons, this]
    exact (abs_add_le _ _).trans (by linarith)

/-- The error after steps with summands of the absolute sum `B`. -/
structure Acc (A : ℝ) (st : MeanSt) (W : List ℝ) (B k : ℝ) : Prop where
  ca : |st.ca| ≤ 5 * u64 * A
  cr : |st.cr| ≤ 5 * u64 * A
  err : |st.sum - st.ca - st.cr - W.sum| ≤ 2.01 * u64 * B + 20 * u64 ^ 2 * A * k

theorem Acc.mono {A : ℝ} {st : MeanSt} {W : List ℝ} {B k k' : ℝ} (h : Acc A st W B k) (hA : 0 ≤ A) (hk : k ≤ k') : Acc A st W B k' :=
  ⟨h.ca, h.cr, h.err.trans (by gcongr)⟩

theorem Acc.sum_le {A : ℝ} {st : MeanSt} {W : List ℝ} {B k : ℝ} (h : Acc A st W B k) (hA : 0 ≤ A) (hW : absSum W ≤ A)
    (hB : B ≤ 2 * A) (hk : k * u64 ≤ 1 / 50) : |st.sum - W.sum| ≤ 15 * u64 * A ∧ |st.sum| ≤ 2 * A := by
  have hu : 0 < u64 := by unfold u64; positivity
  have hus : u64 ≤ 1 / 1000 := by unfold u64; norm_num
  have hp : 0 ≤ u64 * A := by positivity
  have h1 : 2.01 * u64 * B ≤ 4.02 * (u64 * A) := by nlinarith
  have h2 : 20 * u64 ^ 2 * A * k ≤ 0.4 * (u64 * A) := by
    have : 20 * u64 ^ 2 * A * k = 20 * (u64 * A) * (k * u64) := by ring
    rw [this]
    nlinarith
  have h3 : |st.sum - W.sum| ≤ 15 * u64 * A := by
    have e : st.sum - W.sum = (st.sum - st.ca - st.cr - W.sum) + (st.ca + st.cr) := by ring
    rw [e]
    have := (abs_add_le (st.sum - st.ca - st.cr - W.sum) (st.ca + st.cr)).trans (add_le_add_right (abs_add_le st.ca st.cr) _)
    have a := h.ca
    have b := h.cr
    have c := h.err
    linarith
  refine ⟨h3, ?_⟩
  have e : st.sum = (st.sum - W.sum) + W.sum := by ring
  rw [e]
  have := abs_add_le (st.sum - W.sum) W.sum
  have h4 := (abs_sum_le W).trans hW
  have h5 : 15 * u64 * A ≤ 15 / 1000 * A := by nlinarith
  linarith

theorem Acc.add (R : Rounding fl) {A : ℝ} {st : MeanSt} {W : List ℝ} {B k : ℝ} (h : Acc A st W B k) {v : XF}
    (hW : absSum (W ++ v.real?.toList) ≤ A) (hB : B + absSum v.real?.toList ≤ 2 * A) (hk : k * u64 ≤ 1 / 50) :
    Acc A (st.add fl v) (W ++ v.real?.toList) (B + absSum v.real?.toList) (k + 1) := by
  have hA : 0 ≤ A := (absSum_nonneg _).trans hW
  rw [absSum_append] at hW
  have hv0 := absSum_nonneg v.real?.toList
  have hw0 := absSum_nonneg W
  have hs := (h.sum_le hA (by linarith) (by linarith) hk).2
  unfold MeanSt.add
  cases hv : v.real? with
  | none =>
    have := h.mono hA (show k ≤ k + 1 by linarith)
    simpa [absSum] using this
  | some a =>
    rw [hv] at hW hB
    have ha : absSum (some a).toList = |a| := by simp [absSum]
    rw [ha] at hW hB ⊢
    have key := kahan_step R (z := a) (by linarith) hs h.ca
    dsimp only at key ⊢
    refine ⟨key.1, h.cr, ?_⟩
    dsimp only
    have e : fl (st.sum + fl (a - st.ca)) - fl (fl (fl (st.sum + fl (a - st.ca)) - st.sum) - fl (a - st.ca)) - st.cr -
        (W ++ (some a).toList).sum =
        ((fl (st.sum + fl (a - st.ca)) - fl (fl (fl (st.sum + fl (a - st.ca)) - st.sum) - fl (a - st.ca))) -
          (st.sum - st.ca + a)) + (st.sum - st.ca - st.cr - W.sum) := by
      rw [Option.toList_some, List.sum_append, List.sum_singleton]
      ring
    rw [e]
    refine (abs_add_le _ _).trans ?_
    have := h.err
    linarith [key.2]

theorem Acc.remove (R : Rounding fl) {A : ℝ} {st : MeanSt} {K : List ℝ} {B k : ℝ} {v : XF}
    (h : Acc A st (v.real?.toList ++ K) B k) (hW : absSum (v.real?.toList ++ K) ≤ A) (hB : B + absSum v.real?.toList ≤ 2 * A)
    (hk : k * u64 ≤ 1 / 50) : Acc A (st.remove fl v) K (B + absSum v.real?.toList) (k + 1) := by
  have hA : 0 ≤ A := (absSum_nonneg _).trans hW
  have hv0 := absSum_nonneg v.real?.toList
  have hw0 := absSum_nonneg K
  have hs := (h.sum_le hA hW (by linarith) hk).2
  rw [absSum_append] at hW
  unfold MeanSt.remove
  cases hv : v.real? with
  | none =>
    rw [hv] at h
    have := h.mono hA (show k ≤ k + 1 by linarith)
    simpa [absSum] using this
  | some a =>
    rw [hv] at hW hB h
    have ha : absSum (some a).toList = |a| := by simp [absSum]
    rw [ha] at hW hB ⊢
    have key := kahan_step R (z := -a) (by rw [abs_neg]; linarith) hs h.cr
    dsimp only at key ⊢
    refine ⟨h.ca, key.1, ?_⟩
    dsimp only
    have e : fl (st.sum + fl (-a - st.cr)) - st.ca - fl (fl (fl (st.sum + fl (-a - st.cr)) - st.sum) - fl (-a - st.cr)) - K.sum =
        ((fl (st.sum + fl (-a - st.cr)) - fl (fl (fl (st.sum + fl (-a - st.cr)) - st.sum) - fl (-a - st.cr))) -
          (st.sum - st.cr + -a)) + (st.sum - st.ca - st.cr - ((some a).toList ++ K).sum) := by
      rw [Option.toList_some, List.sum_append, List.sum_singleton]
      ring
    rw [e]
    refine (abs_add_le _ _).trans ?_
    have h1 := h.err
    have h2 := key.2
    rw [abs_neg] at h2
    linarith

theorem absSum_suffix {W L : List ℝ} (h : W <:+ L) : absSum W ≤ absSum L := by
  obtain ⟨p, rfl⟩ := h
  rw [absSum_append]
  linarith [absSum_nonneg p]

theorem meanSt_acc (R : Rounding fl) {w : Nat} (hw : 2 ≤ w) (x : Ser) {A : ℝ} : ∀ {t : Nat}, t < x.length → absSum (hist x t) ≤ A →
    (t + 1) * u64 ≤ 1 / 100 →
    Acc A (meanSt fl w x t) (win w x t) (2 * absSum (hist x t) - absSum (win w x t)) (2 * (t + 1)) := by
  have hu : 0 < u64 := by unfold u64; positivity
  intro t
  induction t with
  | zero =>
    intro ht hA hT
    have hA0 : 0 ≤ A := (absSum_nonneg _).trans hA
    have hf : Acc A (MeanSt.fresh (at_ x 0)) [] 0 0 := by
      refine ⟨?_, ?_, ?_⟩
      · simp only [MeanSt.fresh, abs_zero]; positivity
      · simp only [MeanSt.fresh, abs_zero]; positivity
      · simp [MeanSt.fresh]
    rw [hist_zero ht] at hA ⊢
    rw [win_zero (by omega) ht]
    have h0 := absSum_nonneg (num x 0)
    have := hf.add R (v := at_ x 0) (by simpa [num] using hA)
      (by rw [zero_add]; change absSum (num x 0) ≤ 2 * A; linarith) (by norm_num)
    rw [List.nil_append, zero_add] at this
    change Acc A (meanSt fl w x 0) (num x 0) (absSum (num x 0)) (0 + 1) at this
    have e : 2 * absSum (num x 0) - absSum (num x 0) = absSum (num x 0) := by ring
    rw [e]
    exact this.mono hA0 (by norm_num)
  | succ t ih =>
    intro ht hA hT
    have hA0 : 0 ≤ A := (absSum_nonneg _).trans hA
    rw [hist_step ht, absSum_append] at hA
    have n0 := absSum_nonneg (num x (t + 1))
    have hT' : ((t : ℝ) + 1) * u64 ≤ 1 / 100 := by
      push_cast at hT
      nlinarith
    have ih := ih (by omega) (by linarith) hT'
    obtain ⟨keep, h1, h2⟩ := win_step (show 1 ≤ w by omega) ht
    have hsuf := absSum_suffix (win_suffix w x t)
    have hsuf' := absSum_suffix (win_suffix w x (t + 1))
    rw [h1, hist_step ht, absSum_append, absSum_append] at hsuf' ⊢
    rw [meanSt, if_neg (by omega)]
    have k0 := absSum_nonneg keep
    have hk2 : (2 * ((t : ℝ) + 1)) * u64 ≤ 1 / 50 := by linarith
    have hk3 : (2 * ((t : ℝ) + 1) + 1) * u64 ≤ 1 / 50 := by push_cast at hT; nlinarith
    have mid : ∃ B, B = 2 * absSum (hist x t) - absSum keep ∧
        Acc A (if w ≤ t + 1 then (meanSt fl w x t).remove fl (at_ x (t + 1 - w)) else meanSt fl w x t) keep B
          (2 * (t + 1) + 1) := by
      by_cases hwt : w ≤ t + 1
      · rw [if_pos hwt] at h2 ⊢
        rw [h2, absSum_append] at ih hsuf
        have m0 := absSum_nonneg (num x (t + 1 - w))
        refine ⟨_, ?_, ih.remove R (v := at_ x (t + 1 - w)) ?_ ?_ hk2⟩
        · change 2 * absSum (hist x t) - (absSum (num x (t + 1 - w)) + absSum keep) + absSum (num x (t + 1 - w)) = _
          ring
        · change absSum (num x (t + 1 - w) ++ keep) ≤ A
          rw [absSum_append]
          linarith
        · change 2 * absSum (hist x t) - (absSum (num x (t + 1 - w)) + absSum keep) + absSum (num x (t + 1 - w)) ≤ 2 * A
          linarith
      · rw [if_neg hwt] at h2 ⊢
        rw [List.nil_append] at h2
        rw [h2] at ih
        exact ⟨_, rfl, ih.mono hA0 (by linarith)⟩
    obtain ⟨B, hB, mid⟩ := mid
    have := mid.add R (v := at_ x (t + 1)) (by change absSum (keep ++ num x (t + 1)) ≤ A; rw [absSum_append]; linarith)
      (by change B + absSum (num x (t + 1)) ≤ 2 * A; rw [hB]; linarith) hk3
    change Acc A _ (keep ++ num x (t + 1)) (B + absSum (num x (t + 1))) _ at this
    have e : 2 * (absSum (hist x t) + absSum (num x (t + 1))) - (absSum keep + absSum (num x (t + 1))) =
        B + absSum (num x (t + 1)) := by rw [hB]; ring
    rw [e]
    refine this.mono hA0 ?_
    push_cast
    linarith

/-- C106. The rolling mean differs from the mean of its window by at most 20 units of the sum of all absolute values so far,
divided by the length of the window. -/
theorem mean_error (R : Rounding fl) {x u : Ser} {w : Int} (h : rollingMeanR fl x w = .ok u) {t : Nat} {r : ℝ}
    (hr : u[t]? = some (.fin r)) (hT : ((t : ℝ) + 1) * u64 ≤ 1 / 100) :
    |r - (win w.toNat x t).sum / (win w.toNat x t).length| ≤ 20 * u64 * absSum (hist x t) / (win w.toNat x t).length := by
  have hu : 0 < u64 := by unfold u64; positivity
  have hus : u64 ≤ 1 / 1000 := by unfold u64; norm_num
  obtain ⟨hconst, hpos, hneg⟩ := mean_sign h hr
  have ht : t < x.length := by
    have hl : u.length = x.length := by
      unfold rollingMeanR at h
      split at h
      · cases h
      · cases h
        simp
    rw [← hl]
    exact (List.getElem?_eq_some_iff.1 hr).1
  obtain ⟨hw, -, he⟩ := mean_get h ht
  have hn := (mean_nan_iff h ht).1
  rw [hr] at hn
  have hn' : ¬ (w = 0 ∨ (win w.toNat x t).length < w.toNat) := fun hc => by
    have := hn.mpr hc
    simp at this
  push Not at hn'
  obtain ⟨h0, hl⟩ := hn'
  set W := win w.toNat x t with hW
  have hWpos : 0 < W.length := by omega
  have hlen : (0 : ℝ) < W.length := by exact_mod_cast hWpos
  have hA0 := absSum_nonneg (hist x t)
  by_cases hc : ∃ c, ∀ v ∈ W, v = c
  · obtain ⟨c, hc⟩ := hc
    have hrep : W = List.replicate W.length c := List.eq_replicate_iff.mpr ⟨rfl, hc⟩
    have hsum : W.sum = W.length * c := by
      conv_lhs => rw [hrep]
      rw [List.sum_replicate, nsmul_eq_mul]
    rw [hconst c hc, hsum, mul_div_cancel_left₀ _ hlen.ne', sub_self, abs_zero]
    positivity
  · have hw2 : 2 ≤ w.toNat := by
      by_contra hcon
      have hw1 : w.toNat = 1 := by omega
      have := win_length_le w.toNat x t
      rw [← hW] at this
      obtain ⟨a, ha⟩ := List.length_eq_one_iff.mp (show W.length = 1 by omega)
      exact hc ⟨a, by rw [ha]; simp⟩
    rw [if_neg h0] at he
    rw [hr, Option.some.injEq] at he
    have hcnt := meanSt_cnt (fl := fl) hw2 x ht
    have hacc := meanSt_acc R hw2 x ht le_rfl hT
    have hle := absSum_suffix (win_suffix w.toNat x t)
    obtain ⟨s1, s2⟩ := hacc.sum_le hA0 hle (by linarith [absSum_nonneg W]) (by linarith)
    set s := (meanSt fl w.toNat x t).sum
    set A := absSum (hist x t)
    have hd := R.rel (s / W.length)
    have base : |fl (s / W.length) - W.sum / W.length| ≤ 20 * u64 * A / W.length := by
      have e : fl (s / W.length) - W.sum / W.length = (fl (s / W.length) - s / W.length) + (s - W.sum) / W.length := by ring
      rw [e]
      refine (abs_add_le _ _).trans ?_
      rw [abs_div, abs_of_pos hlen] at hd
      rw [abs_div (s - W.sum), abs_of_pos hlen]
      have g1 : u64 * (|s| / W.length) ≤ u64 * (2 * A / W.length) := by gcongr
      have g2 : |s - W.sum| / W.length ≤ 15 * u64 * A / W.length := by gcongr
      have g3 : u64 * (2 * A / W.length) + 15 * u64 * A / W.length = 17 * (u64 * A) / W.length := by ring
      have g4 : 17 * (u64 * A) / W.length ≤ 20 * u64 * A / W.length := by
        refine div_le_div_of_nonneg_right ?_ hlen.le
        nlinarith [mul_nonneg hu.le hA0]
      linarith
    rcases calc_spec (fl := fl) hcnt (win_prefix _ _ _) hl hWpos with ⟨c, h1, -⟩ | ⟨-, r', e, h2⟩
    · exact absurd ⟨c, h1⟩ hc
    · rw [e] at he
      cases he
      rcases h2 with ⟨h2, -⟩ | ⟨h2, h3⟩
      · rw [h2]
        exact base
      · refine le_trans ?_ base
        rw [h2]
        rcases h3 with ⟨h3, h4⟩ | ⟨h3, h4⟩
        · have : 0 ≤ W.sum / W.length := div_nonneg (List.sum_nonneg h3) hlen.le
          rw [zero_sub, abs_neg, abs_of_nonneg this, abs_of_neg (by linarith)]
          linarith
        · have : W.sum / W.length ≤ 0 := div_nonpos_of_nonpos_of_nonneg (sum_nonpos_of fun v hv => (h3 v hv).le) hlen.le
          rw [zero_sub, abs_neg, abs_of_nonpos this, abs_of_pos (by linarith)]
          linarith

end Verif.Roll
