import Verif.Model.MicroR
import Verif.Props.IndRound
import Verif.Props.MicroTrade
import Verif.Props.MicroSpread

/-!
# C108: microstructure features with rounding
-/

namespace Verif.Roll

open Verif Ser Round Props.MicroVol

variable {fl : ℝ → ℝ}

/-! ### Rolling sums -/

/-- The value of a state whose window is full and has the values `W`. -/
theorem calcSum_spec {st : MeanSt} {W M : List ℝ} {p : XF} (h : Cnt st W M p) (hsuf : W.reverse <+: M) {w : Nat} (hw : w ≤ W.length)
    (h0 : 0 < W.length) :
    (∃ c, (∀ v ∈ W, v = c) ∧ st.calcSum fl w = .fin (fl (c * W.length))) ∨
    ((¬ ∃ c, ∀ v ∈ W, v = c) ∧ st.calcSum fl w = .fin st.sum) := by
  rcases calc_spec (fl := fl) h hsuf hw h0 with ⟨c, hc, e⟩ | ⟨hne, r, e, -⟩
  · left
    refine ⟨c, hc, ?_⟩
    have hM : W.reverse = M.take W.length := by
      have := List.prefix_iff_eq_take.mp hsuf
      rwa [List.length_reverse] at this
    have hlen : W.length ≤ M.length := by
      have := hsuf.length_le
      rwa [List.length_reverse] at this
    cases M with
    | nil => simp only [List.length_nil] at hlen; omega
    | cons b l =>
      have hmem : ∀ v, v ∈ W ↔ v ∈ (b :: l).take W.length := fun v => by rw [← hM, List.mem_reverse]
      have hb : b ∈ W := by
        rw [hmem]
        cases hW : W.length with
        | zero => omega
        | succ k => simp
      have hs : W.length ≤ run (b :: l) := le_run b l _ hlen fun a ha => by rw [hc a ((hmem a).mpr ha), hc b hb]
      unfold MeanSt.calcSum
      rw [h.nobs, h.same, h.prev, if_pos hw, if_pos hs, ← hc b hb]
      simp [rnd]
  · right
    refine ⟨hne, ?_⟩
    have hs : ¬ W.length ≤ st.same := by
      intro hs
      have hM : W.reverse = M.take W.length := by
        have := List.prefix_iff_eq_take.mp hsuf
        rwa [List.length_reverse] at this
      have hlen : W.length ≤ M.length := by
        have := hsuf.length_le
        rwa [List.length_reverse] at this
      rw [h.same] at hs
      cases M with
      | nil => simp only [List.length_nil] at hlen; omega
      | cons b l =>
        refine hne ⟨b, fun v hv => run_spec b l _ hs v ?_⟩
        rw [← hM, List.mem_reverse]
        exact hv
    unfold MeanSt.calcSum
    rw [h.nobs, if_pos hw, if_neg hs]

/-- C108. In exact arithmetic the running algorithm of pandas computes the sum of every window. -/
theorem sum_exact (x : Ser) {w : Nat} (hw : 2 ≤ w) : rolling (w : Int) sumF x = .ok (rollingSumR id x w) := by
  unfold rolling rollingSumR
  rw [if_neg (by omega)]
  congr 1
  refine List.map_congr_left fun t ht => ?_
  have ht := List.mem_range.mp ht
  rw [Int.toNat_natCast]
  have hc := meanSt_cnt (fl := id) hw x ht
  have he := meanSt_ex (fl := id) hw x ht fun s _ M _ => ⟨rfl, rfl⟩
  unfold rollAt
  split
  · rename_i hl
    rcases calcSum_spec (fl := id) hc (win_prefix _ _ _) hl (by omega) with ⟨c, h1, e⟩ | ⟨-, e⟩
    · rw [e]
      unfold sumF
      congr 1
      have hrep : win w x t = List.replicate (win w x t).length c := List.eq_replicate_iff.mpr ⟨rfl, h1⟩
      conv_lhs => rw [hrep]
      rw [List.sum_replicate, nsmul_eq_mul, mul_comm]
      rfl
    · rw [e, he.sum]
      rfl
  · rename_i hl
    unfold MeanSt.calcSum
    rw [hc.nobs, if_neg hl]

/-- Squares that are not negative. -/
noncomputable def smallSeries : Ser := [.fin 1, .fin (5 / 2 ^ 56), .fin 1, .fin 0, .fin (1 / 2 ^ 104)]

theorem small_step1 : (⟨0, 0, 0, 0, 0, 0, .fin 1⟩ : MeanSt).add b64 (.fin 1) = (⟨1, 1, 0, 0, 0, 1, .fin 1⟩ : MeanSt) := by
  have h1 : b64 (1 - 0) = 1 := b64_fix 1 0 (by norm_num) (by norm_num) (by norm_num)
  have h2 : b64 (0 + 1) = 1 := b64_fix 1 0 (by norm_num) (by norm_num) (by norm_num)
  have h4 : b64 (1 - 1) = 0 := b64_z (by norm_num)
  rw [MeanSt.add_val (by norm_num) h1 h2 h1 h4]
  norm_num

theorem small_step2 : (⟨1, 1, 0, 0, 0, 1, .fin 1⟩ : MeanSt).add b64 (.fin (5 / 2 ^ 56)) =
    (⟨2, 1, -(5 / 2 ^ 56), 0, 0, 1, .fin (5 / 2 ^ 56)⟩ : MeanSt) := by
  have h1 : b64 (5 / 2 ^ 56 - 0) = 5 / 2 ^ 56 := b64_fix 5 (-56) (by norm_num) (by norm_num) (by norm_num)
  have h2 : b64 (1 + 5 / 2 ^ 56) = 1 := b64_near (2 ^ 52) (-52) (by norm_num) (by norm_num) (by norm_num) (by norm_num) (by norm_num)
  have h3 : b64 (1 - 1) = 0 := b64_z (by norm_num)
  have h4 : b64 (0 - 5 / 2 ^ 56) = -(5 / 2 ^ 56) := b64_fix (-5) (-56) (by norm_num) (by norm_num) (by norm_num)
  rw [MeanSt.add_val (by norm_num) h1 h2 h3 h4]
  norm_num

theorem small_step3 : (⟨2, 1, -(5 / 2 ^ 56), 0, 0, 1, .fin (5 / 2 ^ 56)⟩ : MeanSt).remove b64 (.fin 1) =
    (⟨1, 0, -(5 / 2 ^ 56), 0, 0, 1, .fin (5 / 2 ^ 56)⟩ : MeanSt) := by
  have h1 : b64 (-1 - 0) = -1 := b64_fix (-1) 0 (by norm_num) (by norm_num) (by norm_num)
  have h2 : b64 (1 + -1) = 0 := b64_z (by norm_num)
  have h3 : b64 (0 - 1) = -1 := b64_fix (-1) 0 (by norm_num) (by norm_num) (by norm_num)
  have h4 : b64 (-1 - -1) = 0 := b64_z (by norm_num)
  exact MeanSt.remove_val (by norm_num) h1 h2 h3 h4

theorem small_step4 : (⟨1, 0, -(5 / 2 ^ 56), 0, 0, 1, .fin (5 / 2 ^ 56)⟩ : MeanSt).add b64 (.fin 1) =
    (⟨2, 1, 0, 0, 0, 1, .fin 1⟩ : MeanSt) := by
  have h1 : b64 (1 - -(5 / 2 ^ 56)) = 1 := b64_near (2 ^ 52) (-52) (by norm_num) (by norm_num) (by norm_num) (by norm_num) (by norm_num)
  have h2 : b64 (0 + 1) = 1 := b64_fix 1 0 (by norm_num) (by norm_num) (by norm_num)
  have h3 : b64 (1 - 0) = 1 := b64_fix 1 0 (by norm_num) (by norm_num) (by norm_num)
  have h4 : b64 (1 - 1) = 0 := b64_z (by norm_num)
  rw [MeanSt.add_val (by norm_num) h1 h2 h3 h4]
  norm_num

theorem small_step5 : (⟨2, 1, 0, 0, 0, 1, .fin 1⟩ : MeanSt).remove b64 (.fin (5 / 2 ^ 56)) =
    (⟨1, 1 - 1 / 2 ^ 53, 0, -(3 / 2 ^ 56), 0, 1, .fin 1⟩ : MeanSt) := by
  have h1 : b64 (-(5 / 2 ^ 56) - 0) = -(5 / 2 ^ 56) := b64_fix (-5) (-56) (by norm_num) (by norm_num) (by norm_num)
  have h2 : b64 (1 + -(5 / 2 ^ 56)) = 1 - 1 / 2 ^ 53 := b64_near (2 ^ 53 - 1) (-53) (by norm_num) (by norm_num) (by norm_num) (by norm_num) (by norm_num)
  have h3 : b64 (1 - 1 / 2 ^ 53 - 1) = -(1 / 2 ^ 53) := b64_fix (-1) (-53) (by norm_num) (by norm_num) (by norm_num)
  have h4 : b64 (-(1 / 2 ^ 53) - -(5 / 2 ^ 56)) = -(3 / 2 ^ 56) := b64_fix (-3) (-56) (by norm_num) (by norm_num) (by norm_num)
  exact MeanSt.remove_val (by norm_num) h1 h2 h3 h4

theorem small_step6 : (⟨1, 1 - 1 / 2 ^ 53, 0, -(3 / 2 ^ 56), 0, 1, .fin 1⟩ : MeanSt).add b64 (.fin 0) =
    (⟨2, 1 - 1 / 2 ^ 53, 0, -(3 / 2 ^ 56), 0, 1, .fin 0⟩ : MeanSt) := by
  have h1 : b64 (0 - 0) = 0 := b64_z (by norm_num)
  have h2 : b64 (1 - 1 / 2 ^ 53 + 0) = 1 - 1 / 2 ^ 53 := b64_fix (2 ^ 53 - 1) (-53) (by norm_num) (by norm_num) (by norm_num)
  have h3 : b64 (1 - 1 / 2 ^ 53 - (1 - 1 / 2 ^ 53)) = 0 := b64_z (by norm_num)
  rw [MeanSt.add_val (by norm_num) h1 h2 h3 h1]
  norm_num

theorem small_step7 : (⟨2, 1 - 1 / 2 ^ 53, 0, -(3 / 2 ^ 56), 0, 1, .fin 0⟩ : MeanSt).remove b64 (.fin 1) =
    (⟨1, -(1 / 2 ^ 53), 0, 0, 0, 1, .fin 0⟩ : MeanSt) := by
  have h1 : b64 (-1 - -(3 / 2 ^ 56)) = -1 :=
    b64_negv (b64_near (2 ^ 53) (-53) (by norm_num) (by norm_num) (by norm_num) (by norm_num) (by norm_num))
  have h2 : b64 (1 - 1 / 2 ^ 53 + -1) = -(1 / 2 ^ 53) := b64_fix (-1) (-53) (by norm_num) (by norm_num) (by norm_num)
  have h3 : b64 (-(1 / 2 ^ 53) - (1 - 1 / 2 ^ 53)) = -1 := b64_fix (-1) 0 (by norm_num) (by norm_num) (by norm_num)
  have h4 : b64 (-1 - -1) = 0 := b64_z (by norm_num)
  exact MeanSt.remove_val (by norm_num) h1 h2 h3 h4

theorem small_step8 : (⟨1, -(1 / 2 ^ 53), 0, 0, 0, 1, .fin 0⟩ : MeanSt).add b64 (.fin (1 / 2 ^ 104)) =
    (⟨2, -((2 ^ 51 - 1) / 2 ^ 104), 0, 0, 0, 1, .fin (1 / 2 ^ 104)⟩ : MeanSt) := by
  have h1 : b64 (1 / 2 ^ 104 - 0) = 1 / 2 ^ 104 := b64_fix 1 (-104) (by norm_num) (by norm_num) (by norm_num)
  have h2 : b64 (-(1 / 2 ^ 53) + 1 / 2 ^ 104) = -((2 ^ 51 - 1) / 2 ^ 104) := b64_fix (-(2 ^ 51 - 1)) (-104) (by norm_num) (by norm_num) (by norm_num)
  have h3 : b64 (-((2 ^ 51 - 1) / 2 ^ 104) - -(1 / 2 ^ 53)) = 1 / 2 ^ 104 := b64_fix 1 (-104) (by norm_num) (by norm_num) (by norm_num)
  have h4 : b64 (1 / 2 ^ 104 - 1 / 2 ^ 104) = 0 := b64_z (by norm_num)
  rw [MeanSt.add_val (by norm_num) h1 h2 h3 h4]
  norm_num

/-- Finding of C108: with 64-bit numbers a rolling sum of two squares, as in `_get_beta`, can be negative. -/
theorem negative_sum : ∃ r, (rollingSumR b64 smallSeries 2)[4]? = some (.fin r) ∧ r < 0 ∧ ∀ v ∈ smallSeries, ∃ q, v = .fin q ∧ 0 ≤ q := by
  have e0 : meanSt b64 2 smallSeries 0 = (⟨0, 0, 0, 0, 0, 0, .fin 1⟩ : MeanSt).add b64 (.fin 1) := rfl
  have e1 : meanSt b64 2 smallSeries 1 = (meanSt b64 2 smallSeries 0).add b64 (.fin (5 / 2 ^ 56)) := by rw [meanSt]; rfl
  have e2 : meanSt b64 2 smallSeries 2 = ((meanSt b64 2 smallSeries 1).remove b64 (.fin 1)).add b64 (.fin 1) := by rw [meanSt]; rfl
  have e3 : meanSt b64 2 smallSeries 3 = ((meanSt b64 2 smallSeries 2).remove b64 (.fin (5 / 2 ^ 56))).add b64 (.fin 0) := by rw [meanSt]; rfl
  have e4 : meanSt b64 2 smallSeries 4 = ((meanSt b64 2 smallSeries 3).remove b64 (.fin 1)).add b64 (.fin (1 / 2 ^ 104)) := by rw [meanSt]; rfl
  refine ⟨-((2 ^ 51 - 1) / 2 ^ 104), ?_, by norm_num, ?_⟩
  · unfold rollingSumR
    rw [List.getElem?_map, List.getElem?_range (by simp [smallSeries]), Option.map_some, e4, e3, e2, e1, e0, small_step1, small_step2,
      small_step3, small_step4, small_step5, small_step6, small_step7, small_step8]
    unfold MeanSt.calcSum
    simp
  · intro v hv
    simp only [smallSeries, List.mem_cons, List.not_mem_nil, or_false] at hv
    rcases hv with rfl | rfl | rfl | rfl | rfl <;> exact ⟨_, rfl, by norm_num⟩

/-! ### Signs -/

theorem mean_nonneg {x u : Ser} {w : Int} (h : rollingMeanR fl x w = .ok u) (hx : ∀ v ∈ x, ∀ r, v = .fin r → 0 ≤ r) : NonNeg u := by
  apply nonneg_of
  intro t a ha
  have ht : t < x.length := by
    rw [← mean_len h]
    exact (List.getElem?_eq_some_iff.1 ha).1
  rcases (mean_nan_iff h ht).2 with h1 | ⟨r, h1⟩
  · rw [h1] at ha
    cases ha
    exact .inl rfl
  · rw [h1] at ha
    cases ha
    refine .inr ⟨r, rfl, (mean_sign h h1).2.1 fun v hv => ?_⟩
    obtain ⟨i, -, -, hi⟩ := win_mem hv
    exact hx _ (List.mem_of_getElem? hi) v rfl

theorem sqR_nonneg (R : Rounding fl) (x : Ser) : ∀ v ∈ x.map (sqR fl), ∀ r, v = .fin r → 0 ≤ r := by
  rintro v hv r rfl
  obtain ⟨a, -, ha⟩ := List.mem_map.1 hv
  obtain ⟨s, hs, rfl⟩ := rnd_fin ha
  obtain ⟨y, hy, rfl⟩ := XF.sqF_eq_fin hs
  exact R.nonneg (sq_nonneg y)

theorem logRatioR_length {x y : Ser} (h : x.length = y.length) : (logRatioR fl x y).length = x.length := by
  simp [logRatioR, op2_length, h]

/-- Where a rounded log ratio is a number. -/
theorem logRatioR_get_inv (R : Rounding fl) {x y : Ser} (hl : x.length = y.length) {t : Nat} {r : ℝ} (h : (logRatioR fl x y)[t]? = some (.fin r)) :
    ∃ a b, x[t]? = some (.fin a) ∧ y[t]? = some (.fin b) ∧ b ≠ 0 ∧ 0 < fl (a / b) ∧ r = fl (Real.log (fl (a / b))) := by
  rw [logRatioR, List.getElem?_map] at h
  obtain ⟨v, hv, hr⟩ := Option.map_eq_some_iff.1 h
  obtain ⟨s, hs, rfl⟩ := rnd_fin hr
  obtain ⟨q, rfl, hq, rfl⟩ := XF.log_eq_fin hs
  obtain ⟨a, b, ha, hb, hab⟩ := op2_get_inv hl hv
  obtain ⟨q', hq', rfl⟩ := rnd_fin hab.symm
  obtain ⟨a', rfl, ⟨b', rfl, hb0, rfl⟩ | ⟨-, rfl⟩⟩ := XF.div_eq_fin hq'
  · exact ⟨a', b', ha, hb, hb0, hq, rfl⟩
  · rw [R.zero] at hq
    exact absurd hq (lt_irrefl 0)

theorem log_up (R : Rounding fl) {a b : ℝ} (hb : 0 < b) (h : b ≤ a) : 0 ≤ fl (Real.log (fl (a / b))) := by
  have h1 : (1 : ℝ) ≤ fl (a / b) := by
    rw [← R.one]
    exact R.mono ((one_le_div hb).2 h)
  exact R.nonneg (Real.log_nonneg h1)

theorem log_down (R : Rounding fl) {a b : ℝ} (ha : 0 < a) (h : a ≤ b) : fl (Real.log (fl (a / b))) ≤ 0 := by
  have hb := ha.trans_le h
  have h1 : fl (a / b) ≤ 1 := by
    conv_rhs => rw [← R.one]
    exact R.mono ((div_le_one hb).2 h)
  have h2 : Real.log (fl (a / b)) ≤ 0 := Real.log_nonpos (R.nonneg (by positivity)) h1
  exact (R.mono h2).trans R.zero.le

theorem fineR_div (R : Rounding fl) {a : XF} {k : ℝ} (hk : 0 < k) (h : Props.IndRsi.Fine a) : Props.IndRsi.Fine (rnd fl (a / .fin k)) := by
  rcases h with rfl | ⟨r, rfl, hr⟩
  · exact .inl (by simp [rnd])
  · refine .inr ⟨fl (r / k), ?_, R.nonneg (div_nonneg hr hk.le)⟩
    rw [XF.div_fin hk.ne']
    rfl

theorem fineR_mul (R : Rounding fl) {a : XF} {k : ℝ} (hk : 0 ≤ k) (h : Props.IndRsi.Fine a) : Props.IndRsi.Fine (rnd fl (.fin k * a)) := by
  rcases h with rfl | ⟨r, rfl, hr⟩
  · exact .inl (by simp [rnd])
  · exact .inr ⟨fl (k * r), rfl, R.nonneg (mul_nonneg hk hr)⟩

theorem fineR_add (R : Rounding fl) {a b : XF} (h : Props.IndRsi.Fine a) (h' : Props.IndRsi.Fine b) : Props.IndRsi.Fine (rnd fl (a + b)) := by
  rcases h with rfl | ⟨r, rfl, hr⟩
  · exact .inl (by simp [rnd])
  · rcases h' with rfl | ⟨s, rfl, hs⟩
    · exact .inl (by simp [rnd])
    · exact .inr ⟨fl (r + s), rfl, R.nonneg (add_nonneg hr hs)⟩

/-- C108. The Parkinson volatility is NaN or not negative, whatever the prices. -/
theorem highLow_round (R : Rounding fl) {h l u : Ser} {w : Int} (hu : highLowR fl h l w = .ok u) : NonNeg u := by
  obtain ⟨m, hm, h'⟩ := bind_ok hu
  cases h'
  have hp : 0 < parkR fl := R.pos (mul_pos (by norm_num) (R.pos (Real.log_pos (by norm_num))))
  intro v hv
  obtain ⟨a, ha, rfl⟩ := List.mem_map.1 hv
  exact fineR_div R hp (mean_nonneg hm (sqR_nonneg R _) a ha)

/-- C108. The Rogers-Satchell volatility of bars whose open and close lie between low and high is NaN or not negative. -/
theorem rogersSatchell_round (R : Rounding fl) {h l o c u : Ser} {w : Int} (hb : Bars h l o c) (hu : rogersSatchellR fl h l o c w = .ok u) :
    NonNeg u := by
  refine mean_nonneg hu ?_
  rintro v hv r rfl
  obtain ⟨i, hi⟩ := List.mem_iff_getElem?.1 hv
  have l1 : (logRatioR fl h c).length = h.length := logRatioR_length (by rw [hb.hl, hb.lo, hb.oc])
  have l2 : (logRatioR fl h o).length = h.length := logRatioR_length (by rw [hb.hl, hb.lo])
  have l3 : (logRatioR fl l c).length = l.length := logRatioR_length (by rw [hb.lo, hb.oc])
  have l4 : (logRatioR fl l o).length = l.length := logRatioR_length hb.lo
  obtain ⟨p, q, hp, hq, hpq⟩ := op2_get_inv (by simp [mulR, op2_length, l1, l2, l3, l4, hb.hl]) hi
  obtain ⟨s, hs, rfl⟩ := rnd_fin hpq.symm
  obtain ⟨x, y, rfl, rfl, rfl⟩ := XF.add_eq_fin hs
  obtain ⟨a1, a2, ha1, ha2, h12⟩ := op2_get_inv (by rw [l1, l2]) hp
  obtain ⟨a3, a4, ha3, ha4, h34⟩ := op2_get_inv (by rw [l3, l4]) hq
  obtain ⟨s1, hs1, rfl⟩ := rnd_fin h12.symm
  obtain ⟨s2, hs2, rfl⟩ := rnd_fin h34.symm
  obtain ⟨r1, r2, rfl, rfl, rfl⟩ := XF.mul_eq_fin hs1
  obtain ⟨r3, r4, rfl, rfl, rfl⟩ := XF.mul_eq_fin hs2
  obtain ⟨H, C, hH, hC, -, -, rfl⟩ := logRatioR_get_inv R (by rw [hb.hl, hb.lo, hb.oc]) ha1
  obtain ⟨H', O, hH', hO, -, -, rfl⟩ := logRatioR_get_inv R (by rw [hb.hl, hb.lo]) ha2
  obtain ⟨L, C', hL, hC', -, -, rfl⟩ := logRatioR_get_inv R (by rw [hb.lo, hb.oc]) ha3
  obtain ⟨L', O', hL', hO', -, -, rfl⟩ := logRatioR_get_inv R hb.lo ha4
  rw [hH] at hH'
  rw [hC] at hC'
  rw [hO] at hO'
  rw [hL] at hL'
  cases hH'
  cases hC'
  cases hO'
  cases hL'
  obtain ⟨f1, f2, f3, f4, f5⟩ := hb.valid i H L O C hH hL hO hC
  refine R.nonneg (add_nonneg (R.nonneg (mul_nonneg (log_up R (by linarith) f5) (log_up R (by linarith) f4))) (R.nonneg ?_))
  exact mul_nonneg_of_nonpos_of_nonpos (log_down R f1 f3) (log_down R f1 f2)

/-- The rounded weight of the open-to-close part. -/
theorem yzCoeffR_range (R : Rounding fl) {w : Int} (hw : 2 ≤ w) : ∃ k, yzCoeffR fl w = .ok k ∧ 0 ≤ k ∧ k ≤ 1 := by
  refine ⟨_, by rw [yzCoeffR, if_neg (by omega)], ?_⟩
  have h2 : (2 : ℝ) ≤ w := by exact_mod_cast hw
  have h1 : 0 ≤ ((w : ℝ) + 1) / ((w : ℝ) - 1) := div_nonneg (by linarith) (by linarith)
  have h3 : 0 < fl 1.34 := R.pos (by norm_num)
  have h4 : fl 1.34 ≤ fl (fl 1.34 + fl (((w : ℝ) + 1) / ((w : ℝ) - 1))) := by
    conv_lhs => rw [← R.idem]
    exact R.mono (by linarith [R.nonneg h1])
  have h5 : fl 0.34 ≤ fl 1.34 := R.mono (by norm_num)
  have h6 : 0 ≤ fl 0.34 := R.nonneg (by norm_num)
  exact ⟨R.nonneg (div_nonneg h6 (by linarith)), R.le_one ((div_le_one (by linarith)).2 (by linarith))⟩

/-- C108. The Yang-Zhang volatility of such bars is NaN or not negative. -/
theorem yangZhang_round (R : Rounding fl) {h l o c u : Ser} {w : Int} (hw : 2 ≤ w) (hb : Bars h l o c)
    (hu : yangZhangR fl h l o c w = .ok u) : NonNeg u := by
  obtain ⟨k, hk, h'⟩ := bind_ok hu
  obtain ⟨a, ha, h'⟩ := bind_ok h'
  obtain ⟨b, hb', h'⟩ := bind_ok h'
  obtain ⟨r, hr, h'⟩ := bind_ok h'
  cases h'
  obtain ⟨k', hk', h0, h1⟩ := yzCoeffR_range R hw
  rw [hk] at hk'
  cases hk'
  have lo : (logRatioR fl o (shift 1 c)).length = o.length := logRatioR_length (by rw [shift_length, hb.oc])
  have lc : (logRatioR fl c (shift 1 o)).length = c.length := logRatioR_length (by rw [shift_length, hb.oc])
  have l1 : (logRatioR fl h c).length = h.length := logRatioR_length (by rw [hb.hl, hb.lo, hb.oc])
  have l2 : (logRatioR fl h o).length = h.length := logRatioR_length (by rw [hb.hl, hb.lo])
  have l3 : (logRatioR fl l c).length = l.length := logRatioR_length (by rw [hb.lo, hb.oc])
  have l4 : (logRatioR fl l o).length = l.length := logRatioR_length hb.lo
  have ea : a.length = o.length := by rw [mean_len ha, List.length_map, lo]
  have eb : b.length = o.length := by rw [mean_len hb', List.length_map, lc, hb.oc]
  have er : r.length = o.length := by
    rw [mean_len hr]
    simp [addR, mulR, op2_length, l1, l2, l3, l4, hb.hl, hb.lo]
  apply nonneg_of
  intro t v hv
  obtain ⟨p, q, hp, hq, rfl⟩ := op2_get_inv (by simp [addR, scaleR, op2_length, ea, eb, er]) hv
  obtain ⟨p1, p2, hp1, hp2, rfl⟩ := op2_get_inv (by simp [scaleR, ea, eb]) hp
  unfold scaleR at hp2 hq
  rw [List.getElem?_map] at hp2 hq
  obtain ⟨b0, hb0, rfl⟩ := Option.map_eq_some_iff.1 hp2
  obtain ⟨r0, hr0, rfl⟩ := Option.map_eq_some_iff.1 hq
  have f1 := mean_nonneg ha (sqR_nonneg R _) p1 (List.mem_of_getElem? hp1)
  have f2 := mean_nonneg hb' (sqR_nonneg R _) b0 (List.mem_of_getElem? hb0)
  have f3 := rogersSatchell_round R hb hr r0 (List.mem_of_getElem? hr0)
  exact fineR_add R (fineR_add R f1 (fineR_mul R h0 f2)) (fineR_mul R (R.nonneg (by linarith)) f3)

/-! ### Price impact -/

theorem sign_mul_rnd (R : Rounding fl) (d v : XF) : rnd fl (d.sign * v) = d.sign * rnd fl v := by
  have key : ∀ s : ℝ, (s = 1 ∨ s = -1 ∨ s = 0) → rnd fl (.fin s * v) = .fin s * rnd fl v := by
    intro s hs
    cases v with
    | nan => rfl
    | pinf =>
      change rnd fl (XF.infSign s) = XF.infSign s
      rcases hs with rfl | rfl | rfl <;> norm_num [XF.infSign, rnd]
    | ninf =>
      change rnd fl (XF.infSign (-s)) = XF.infSign (-s)
      rcases hs with rfl | rfl | rfl <;> norm_num [XF.infSign, rnd]
    | fin y =>
      change XF.fin (fl (s * y)) = XF.fin (s * fl y)
      rcases hs with rfl | rfl | rfl
      · rw [one_mul, one_mul]
      · rw [neg_one_mul, neg_one_mul, R.neg]
      · rw [zero_mul, zero_mul, R.zero]
  cases d with
  | nan => change rnd fl (XF.nan * v) = XF.nan * _; simp [rnd]
  | pinf => exact key 1 (.inl rfl)
  | ninf => exact key (-1) (.inr (.inl rfl))
  | fin x =>
    simp only [XF.sign]
    split
    · exact key 1 (.inl rfl)
    · split
      · exact key (-1) (.inr (.inl rfl))
      · exact key 0 (.inr (.inr rfl))

/-- C108. Kyle's lambda is NaN or not negative when volumes are not negative. -/
theorem kyle_round (R : Rounding fl) {c v u : Ser} {w : Int} (hl : c.length = v.length)
    (hv : ∀ (i : Nat) (V : ℝ), v[i]? = some (.fin V) → 0 ≤ V) (hu : kyleR fl c v w = .ok u) : NonNeg u := by
  refine mean_nonneg hu ?_
  rintro z hz r rfl
  obtain ⟨i, hi⟩ := List.mem_iff_getElem?.1 hz
  obtain ⟨p, q, hp, hq, hpq⟩ := op2_get_inv (by simp [mulR, op2_length, diffR_length, hl]) hi
  obtain ⟨p', q', hp', hq', rfl⟩ := op2_get_inv (by simp [diffR_length, hl]) hq
  rw [List.getElem?_map, hp] at hp'
  cases hp'
  obtain ⟨s, hs, rfl⟩ := rnd_fin hpq.symm
  rw [sign_mul_rnd R] at hs
  obtain ⟨x, rfl, -, ⟨y, hy, -, rfl⟩ | rfl⟩ := Props.MicroTrade.signed_quotient hs
  · obtain ⟨V, rfl, rfl⟩ := rnd_fin hy
    exact R.nonneg (div_nonneg (abs_nonneg _) (R.nonneg (hv i V hq')))
  · exact R.nonneg le_rfl

/-- C108. Hasbrouck's lambda is NaN or not negative, for all data. -/
theorem hasbrouck_round (R : Rounding fl) {c v u : Ser} {w : Int} (hl : c.length = v.length) (hu : hasbrouckR fl c v w = .ok u) :
    NonNeg u := by
  refine mean_nonneg hu ?_
  rintro z hz r rfl
  obtain ⟨i, hi⟩ := List.mem_iff_getElem?.1 hz
  have ll : (logRatioR fl c (shift 1 c)).length = c.length := logRatioR_length (shift_length 1 c).symm
  obtain ⟨p, q, hp, hq, hpq⟩ := op2_get_inv (by simp [mulR, op2_length, ll, hl]) hi
  obtain ⟨p', q', hp', hq', rfl⟩ := op2_get_inv (by simp [mulR, op2_length, ll, hl]) hq
  rw [List.getElem?_map, hp] at hp'
  cases hp'
  obtain ⟨s, hs, rfl⟩ := rnd_fin hpq.symm
  rw [sign_mul_rnd R] at hs
  obtain ⟨x, rfl, -, ⟨y, hy, -, rfl⟩ | rfl⟩ := Props.MicroTrade.signed_quotient hs
  · obtain ⟨V, rfl, rfl⟩ := rnd_fin hy
    rw [List.getElem?_map] at hq'
    obtain ⟨s, -, hs⟩ := Option.map_eq_some_iff.1 hq'
    obtain ⟨x', hx', rfl⟩ := rnd_fin hs
    obtain ⟨x'', -, -, rfl⟩ := XF.sqrt_eq_fin hx'
    exact R.nonneg (div_nonneg (abs_nonneg _) (R.nonneg (R.nonneg (Real.sqrt_nonneg _))))
  · exact R.nonneg le_rfl

theorem pctChangeR_length (c : Ser) : (pctChangeR fl c).length = (pctChange c).length := by
  simp [pctChangeR, pctChange, divR, op2_length]

/-- C108. Amihud's lambda is NaN or not negative when volumes and prices are not negative. -/
theorem amihud_round (R : Rounding fl) {c v u : Ser} {w : Int} (hl : c.length = v.length)
    (hv : ∀ (i : Nat) (P V : ℝ), c[i]? = some (.fin P) → v[i]? = some (.fin V) → 0 ≤ V * P) (hu : amihudR fl c v w = .ok u) : NonNeg u := by
  refine mean_nonneg hu ?_
  rintro z hz r rfl
  obtain ⟨i, hi⟩ := List.mem_iff_getElem?.1 hz
  obtain ⟨p, q, hp, hq, hpq⟩ := op2_get_inv (by simp [mulR, op2_length, pctChangeR_length, Props.MicroTrade.pctChange_length, hl]) hi
  rw [List.getElem?_map] at hp
  obtain ⟨s, -, rfl⟩ := Option.map_eq_some_iff.1 hp
  obtain ⟨s', hs', rfl⟩ := rnd_fin hpq.symm
  obtain ⟨x, hx, hc⟩ := XF.div_eq_fin hs'
  obtain ⟨d, -, rfl⟩ := XF.abs_eq_fin hx
  rcases hc with ⟨y, rfl, -, rfl⟩ | ⟨-, rfl⟩
  · obtain ⟨v', c', hv', hc', hy⟩ := op2_get_inv hl.symm hq
    obtain ⟨y', hy', rfl⟩ := rnd_fin hy.symm
    obtain ⟨V, P, rfl, rfl, rfl⟩ := XF.mul_eq_fin hy'
    exact R.nonneg (div_nonneg (abs_nonneg _) (R.nonneg (hv i P V hc' hv')))
  · exact R.nonneg le_rfl

/-! ### VPIN -/

/-- Volumes and buy volumes are floats, `0 ≤ buy ≤ volume`. -/
structure Trades (fl : ℝ → ℝ) (v b : Ser) : Prop where
  len : v.length = b.length
  ok : ∀ (i : Nat) (V B : ℝ), v[i]? = some (.fin V) → b[i]? = some (.fin B) → fl V = V ∧ fl B = B ∧ 0 ≤ B ∧ B ≤ V

/-- One bar of VPIN. -/
theorem imbalance_get (R : Rounding fl) {v b : Ser} (h : Trades fl v b) {i : Nat} {r : ℝ} (hi : (imbalanceR fl v b)[i]? = some (.fin r)) :
    ∃ V B, v[i]? = some (.fin V) ∧ b[i]? = some (.fin B) ∧ 0 < V ∧ 0 ≤ r ∧ r ≤ 1 ∧ (B = 0 ∨ B = V → r = 1) ∧ (2 * B = V → r = 0) := by
  unfold imbalanceR at hi
  obtain ⟨p, q, hp, hq, hpq⟩ := op2_get_inv (by simp [subR, op2_length, h.len]) hi
  rw [List.getElem?_map] at hp
  obtain ⟨p', hp', rfl⟩ := Option.map_eq_some_iff.1 hp
  obtain ⟨b0, s, hb0, hs, rfl⟩ := op2_get_inv (by simp [subR, op2_length, h.len]) hp'
  obtain ⟨v1, b1, hv1, hb1, rfl⟩ := op2_get_inv h.len hs
  rw [hq] at hv1
  cases hv1
  rw [hb0] at hb1
  cases hb1
  obtain ⟨r0, hr0, rfl⟩ := rnd_fin hpq.symm
  obtain ⟨x, hx, hc⟩ := XF.div_eq_fin hr0
  obtain ⟨x', hx', rfl⟩ := XF.abs_eq_fin hx
  obtain ⟨d, hd, rfl⟩ := rnd_fin hx'
  obtain ⟨B, S, rfl, hS, rfl⟩ := XF.sub_eq_fin hd
  obtain ⟨S', hS', rfl⟩ := rnd_fin hS
  obtain ⟨V, B', rfl, hB', rfl⟩ := XF.sub_eq_fin hS'
  cases hB'
  obtain ⟨fV, fB, h0, h1⟩ := h.ok i V B hq hb0
  rcases hc with ⟨y, hy, hy0, rfl⟩ | ⟨h | h, -⟩
  swap
  · cases h
  swap
  · cases h
  cases hy
  have hV : 0 < V := lt_of_le_of_ne (h0.trans h1) (Ne.symm hy0)
  have s0 : 0 ≤ fl (V - B) := R.nonneg (by linarith)
  have s1 : fl (V - B) ≤ V := (R.mono (by linarith)).trans fV.le
  have d1 : fl (B - fl (V - B)) ≤ V := (R.mono (by linarith)).trans fV.le
  have d2 : -V ≤ fl (B - fl (V - B)) := by
    have : fl (-V) ≤ fl (B - fl (V - B)) := R.mono (by linarith)
    rwa [R.neg, fV] at this
  refine ⟨V, B, hq, hb0, hV, R.nonneg (div_nonneg (abs_nonneg _) hV.le), R.le_one ((div_le_one hV).2 (abs_le.mpr ⟨d2, d1⟩)), ?_, ?_⟩
  · rintro (rfl | rfl)
    · rw [sub_zero, fV, zero_sub, R.neg, fV, abs_neg, abs_of_pos hV, div_self hV.ne', R.one]
    · rw [sub_self, R.zero, sub_zero, fB, abs_of_pos hV, div_self hV.ne', R.one]
  · rintro rfl
    rw [show 2 * B - B = B by ring, fB, sub_self, R.zero, abs_zero, zero_div, R.zero]

/-- C108. VPIN is NaN or between 0 and 1 up to the error of the rolling mean; it is exactly 1 if all trades in the window were on one
side and exactly 0 if they were balanced. -/
theorem vpin_round (R : Rounding fl) {v b u : Ser} {w : Int} (h : Trades fl v b) (hu : vpinR fl v b w = .ok u) {t : Nat} {a : XF}
    (ha : u[t]? = some a) : a = .nan ∨ ∃ r, a = .fin r ∧ 0 ≤ r ∧
      (((t : ℝ) + 1) * u64 ≤ 1 / 100 → r ≤ 1 + 20 * u64 * (t + 1) / w) ∧
      ((∀ (i : Nat) (V B : ℝ), t < i + w.toNat → i ≤ t → v[i]? = some (.fin V) → b[i]? = some (.fin B) → B = 0 ∨ B = V) → r = 1) ∧
      ((∀ (i : Nat) (V B : ℝ), t < i + w.toNat → i ≤ t → v[i]? = some (.fin V) → b[i]? = some (.fin B) → 2 * B = V) → r = 0) := by
  have ht : t < (imbalanceR fl v b).length := by
    rw [← mean_len hu]
    exact (List.getElem?_eq_some_iff.1 ha).1
  obtain ⟨m1, m2⟩ := mean_nan_iff hu ht
  rcases m2 with h1 | ⟨r, h1⟩
  · rw [h1] at ha
    cases ha
    exact .inl rfl
  rw [h1] at ha
  cases ha
  right
  have hbar : ∀ x ∈ win w.toNat (imbalanceR fl v b) t, ∃ i V B, t < i + w.toNat ∧ i ≤ t ∧ v[i]? = some (.fin V) ∧ b[i]? = some (.fin B) ∧
      0 ≤ x ∧ x ≤ 1 ∧ (B = 0 ∨ B = V → x = 1) ∧ (2 * B = V → x = 0) := by
    intro x hx
    obtain ⟨i, i1, i2, hi⟩ := win_mem hx
    obtain ⟨V, B, hV, hB, -, h0, h1, h2, h3⟩ := imbalance_get R h hi
    exact ⟨i, V, B, by omega, by omega, hV, hB, h0, h1, h2, h3⟩
  obtain ⟨c1, c2, -⟩ := mean_sign hu h1
  refine ⟨r, rfl, c2 fun x hx => ?_, fun hT => ?_, fun hc => c1 1 fun x hx => ?_, fun hc => c1 0 fun x hx => ?_⟩
  · obtain ⟨i, V, B, -, -, -, -, h0, -⟩ := hbar x hx
    exact h0
  · have key := mean_error R hu h1 hT
    have hn : ¬ (w = 0 ∨ (win w.toNat (imbalanceR fl v b) t).length < w.toNat) := fun hc => by
      rw [m1.mpr hc] at h1
      cases h1
    push Not at hn
    have hw0 : 0 ≤ w := (mean_get hu ht).1
    have hlen : (win w.toNat (imbalanceR fl v b) t).length = w.toNat := le_antisymm (win_length_le _ _ _) hn.2
    have hwr : ((w.toNat : ℕ) : ℝ) = w := by
      have : ((w.toNat : ℕ) : ℤ) = w := Int.toNat_of_nonneg hw0
      exact_mod_cast this
    have hwp : (0 : ℝ) < w := by exact_mod_cast (show 0 < w by omega)
    rw [hlen, hwr] at key
    have hsum : (win w.toNat (imbalanceR fl v b) t).sum ≤ w := by
      have := List.sum_le_card_nsmul (win w.toNat (imbalanceR fl v b) t) 1 fun x hx => by
        obtain ⟨i, V, B, -, -, -, -, -, h1, -⟩ := hbar x hx
        exact h1
      rw [hlen, nsmul_eq_mul, mul_one, hwr] at this
      exact this
    have hhist : absSum (hist (imbalanceR fl v b) t) ≤ t + 1 := by
      have := List.sum_le_card_nsmul ((hist (imbalanceR fl v b) t).map abs) 1 fun x hx => by
        obtain ⟨y, hy, rfl⟩ := List.mem_map.1 hx
        unfold hist at hy
        obtain ⟨z, hz, hy⟩ := List.mem_filterMap.1 hy
        rw [XF.real?_eq_some] at hy
        subst hy
        obtain ⟨i, hi⟩ := List.mem_iff_getElem?.1 (List.mem_of_mem_take hz)
        obtain ⟨V, B, -, -, -, h0, h1, -⟩ := imbalance_get R h hi
        rw [abs_of_nonneg h0]
        exact h1
      rw [nsmul_eq_mul, mul_one, List.length_map] at this
      have hl : (hist (imbalanceR fl v b) t).length ≤ t + 1 := by
        unfold hist
        exact (List.length_filterMap_le _ _).trans (by simp)
      have hl' : ((hist (imbalanceR fl v b) t).length : ℝ) ≤ t + 1 := by exact_mod_cast hl
      exact this.trans hl'
    have hu64 := u64_pos
    have k1 : (win w.toNat (imbalanceR fl v b) t).sum / w ≤ 1 := (div_le_one hwp).2 hsum
    have k2 : 20 * u64 * absSum (hist (imbalanceR fl v b) t) / w ≤ 20 * u64 * (t + 1) / w := by gcongr
    linarith [(abs_le.mp key).2]
  · obtain ⟨i, V, B, i1, i2, hV, hB, -, -, h2, -⟩ := hbar x hx
    exact h2 (hc i V B i1 i2 hV hB)
  · obtain ⟨i, V, B, i1, i2, hV, hB, -, -, -, h3⟩ := hbar x hx
    exact h3 (hc i V B i1 i2 hV hB)

/-- C108. Estimated buy volumes lie between 0 and the volume. -/
theorem buy_round (R : Rounding fl) {F : XF → XF} (hF : ∀ x p, F x = .fin p → 0 ≤ p ∧ p ≤ 1) (hn : ∀ x, F x = .nan ∨ ∃ p, F x = .fin p)
    {c v s : Ser} {t : Nat} {V : ℝ} (hc : c.length = s.length) (hs : v.length = s.length) (hv : v[t]? = some (.fin V)) (h0 : 0 ≤ V)
    (hV : fl V = V) : ∃ a, (estimateBuyVolumeR fl F c v s)[t]? = some a ∧ (a = .nan ∨ ∃ r, a = .fin r ∧ 0 ≤ r ∧ r ≤ V) := by
  have ht : t < v.length := (List.getElem?_eq_some_iff.1 hv).1
  have hlt : t < (divR fl (diffR fl c) s).length := by
    simp only [divR, op2_length, diffR_length]
    omega
  have he : ((divR fl (diffR fl c) s).map F)[t]? = some (F (divR fl (diffR fl c) s)[t]) := by
    rw [List.getElem?_map, List.getElem?_eq_getElem hlt]
    rfl
  refine ⟨_, op2_get _ hv he, ?_⟩
  rcases hn (divR fl (diffR fl c) s)[t] with h | ⟨p, h⟩
  · left
    rw [h]
    simp [rnd]
  · right
    obtain ⟨p0, p1⟩ := hF _ p h
    rw [h]
    refine ⟨fl (V * p), rfl, R.nonneg (mul_nonneg h0 p0), ?_⟩
    exact (R.mono (mul_le_of_le_one_right h0 p1)).trans hV.le

/-! ### Corwin-Schultz -/

theorem spreadR_range (R : Rounding fl) {a : ℝ} (ha : 0 ≤ a) : ∃ r, spreadOfR fl (.fin a) = .fin r ∧ 0 ≤ r ∧ r ≤ 2 := by
  have h1 : (1 : ℝ) ≤ fl (Real.exp a) := by
    rw [← R.one]
    exact R.mono (Real.one_le_exp ha)
  set e := fl (Real.exp a) with he
  have h2 : 0 ≤ fl (e - 1) := R.nonneg (by linarith)
  have h3 : 0 < fl (e + 1) := R.pos (by linarith)
  have h4 : fl (2 * fl (e - 1)) = 2 * fl (e - 1) := by rw [R.two, R.idem]
  have h5 : fl (e - 1) ≤ fl (e + 1) := R.mono (by linarith)
  refine ⟨fl (2 * fl (e - 1) / fl (e + 1)), ?_, R.nonneg (div_nonneg (by linarith) h3.le), ?_⟩
  · unfold spreadOfR
    simp only [XF.exp, rnd, XF.sub_fin, XF.add_fin, XF.mul_fin]
    rw [← he, h4, XF.div_fin h3.ne']
  · have : fl (2 * fl (e - 1) / fl (e + 1)) ≤ fl 2 := R.mono (by rw [div_le_iff₀ h3]; linarith)
    refine this.trans ?_
    have := R.two 1
    rw [mul_one, R.one, mul_one] at this
    exact this.le

/-- C108. The Corwin-Schultz spread is NaN or between 0 and 2, whatever the prices. -/
theorem corwinSchultz_round (R : Rounding fl) {h l u : Ser} {w : Int} (hu : corwinSchultzR fl h l w = .ok u) :
    ∀ v ∈ u, v = .nan ∨ ∃ r, v = .fin r ∧ 0 ≤ r ∧ r ≤ 2 := by
  obtain ⟨b, hb, h'⟩ := bind_ok hu
  obtain ⟨g, hg, h'⟩ := bind_ok h'
  cases h'
  intro v hv
  obtain ⟨a, ha, rfl⟩ := List.mem_map.1 hv
  obtain ⟨z, hz, rfl⟩ := List.mem_map.1 ha
  cases z with
  | nan =>
    left
    rw [Props.MicroSpread.clamp_nan]
    simp [spreadOfR, XF.exp, rnd]
  | fin r =>
    right
    rw [Props.MicroSpread.clamp_fin]
    exact spreadR_range R (le_max_left _ _)
  | pinf =>
    left
    have : Micro.clamp .pinf = .pinf := by
      unfold Micro.clamp
      rw [if_neg (by simp [XF.lt])]
    rw [this]
    have e1 : rnd fl (XF.exp .pinf) = .pinf := rfl
    have e2 : (XF.pinf : XF) - .fin 1 = .pinf := rfl
    have e3 : (XF.pinf : XF) + .fin 1 = .pinf := rfl
    have e4 : (XF.fin 2 : XF) * .pinf = .pinf := by
      change XF.infSign 2 = .pinf
      rw [XF.infSign, if_pos (by norm_num)]
    have e5 : rnd fl .pinf = .pinf := rfl
    unfold spreadOfR
    rw [e1, e2, e3, e5, e4, e5]
    rfl
  | ninf =>
    right
    have : Micro.clamp .ninf = .fin 0 := by
      unfold Micro.clamp
      rw [if_pos (by simp [XF.lt])]
    rw [this]
    exact spreadR_range R le_rfl

end Verif.Roll
