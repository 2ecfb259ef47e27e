import Verif.Props.IndCausal
import Verif.Lemmas.Ewm
import Mathlib.Tactic.NormNum

/-!
# C53: exponentially weighted means, standard deviations and MACD

Specification: with `q = (span - 1) / (span + 1)` the value `i` steps back has weight `q ^ i`; missing values have no
weight but the weights of older values still decay over them.
-/

namespace Verif.Props.IndEwm

open Verif Ser Ind Finset

/-- The number at position `i`, if there is one. -/
def num (x : Ser) (i : Nat) : Option ℝ := (x[i]?).bind XF.real?

/-- The decay factor of a span. -/
noncomputable def decay (span : ℝ) : ℝ := (span - 1) / (span + 1)

/-- The weighted sum of `g` over the numbers up to position `t`. -/
noncomputable def wsumTo (q : ℝ) (g : ℝ → ℝ) (x : Ser) (t : Nat) : ℝ :=
  ∑ i ∈ range (t + 1), q ^ (t - i) * ((num x i).map g).getD 0

/-- The weighted mean of the numbers up to position `t`. -/
noncomputable def wmean (q : ℝ) (x : Ser) (t : Nat) : ℝ := wsumTo q (fun r => r) x t / wsumTo q (fun _ => 1) x t

/-- The unbiased weighted variance of the numbers up to position `t`. -/
noncomputable def wvar (q : ℝ) (x : Ser) (t : Nat) : ℝ :=
  wsumTo q (fun _ => 1) x t * wsumTo q (fun r => (r - wmean q x t) ^ 2) x t /
    (wsumTo q (fun _ => 1) x t ^ 2 - wsumTo (q ^ 2) (fun _ => 1) x t)

/-- How many numbers there are up to position `t`. -/
def count (x : Ser) (t : Nat) : Nat := ((range (t + 1)).filter fun i => (num x i).isSome).card

theorem wsum_take (q : ℝ) (g : ℝ → ℝ) {x : Ser} {t : Nat} (ht : t < x.length) :
    wsum q g (x.take (t + 1)) = wsumTo q g x t := by
  have hl : (x.take (t + 1)).length = t + 1 := by simp; omega
  rw [wsum, hl, wsumTo]
  apply Finset.sum_congr rfl
  intro i hi
  have := Finset.mem_range.1 hi
  rw [List.getElem?_take, if_pos this, Nat.add_sub_cancel, num]

theorem nobs_take {x : Ser} {t : Nat} (ht : t < x.length) : nobs (x.take (t + 1)) = count x t := by
  have key : ∀ (n : Nat), n ≤ x.length → nobs (x.take n) = ((range n).filter fun i => (num x i).isSome).card := by
    intro n
    induction n with
    | zero => intro _; simp [nobs]
    | succ n ih =>
      intro hn
      have e : x.take (n + 1) = x.take n ++ [x[n]] := by
        rw [List.take_add_one, List.getElem?_eq_getElem (by omega)]
        rfl
      rw [e, nobs_append, ih (by omega), Finset.range_add_one, Finset.filter_insert]
      have hnum : num x n = x[n].real? := by
        rw [num, List.getElem?_eq_getElem (by omega)]
        rfl
      rcases hv : x[n].real? with _ | r
      · simp [hnum, hv]
      · rw [if_neg (by simp), if_pos (by simp [hnum, hv]), Finset.card_insert_of_notMem (by simp)]
  exact key (t + 1) ht

theorem alpha_of_span {span : ℝ} (h : 1 ≤ span) :
    spanAlpha span = .ok (2 / (span + 1)) ∧ 0 < 2 / (span + 1) ∧ 2 / (span + 1) ≤ 1 ∧
      1 - 2 / (span + 1) = decay span := by
  have hp : 0 < span + 1 := by linarith
  refine ⟨by rw [spanAlpha, if_neg (not_lt.2 h)], by positivity, ?_, ?_⟩
  · rw [div_le_one hp]; linarith
  · rw [decay]; field_simp; ring

theorem decay_nonneg {span : ℝ} (h : 1 ≤ span) : 0 ≤ decay span := by
  rw [decay]
  exact div_nonneg (by linarith) (by linarith)

theorem decay_pos {span : ℝ} (h : 1 < span) : 0 < decay span := by
  rw [decay]
  exact div_pos (by linarith) (by linarith)

theorem decay_lt_one {span : ℝ} (h : 1 ≤ span) : decay span < 1 := by
  rw [decay, div_lt_one (by linarith)]
  linarith

theorem ewmMean_eq {span : ℝ} (h : 1 ≤ span) (x : Ser) :
    Ind.ewmMean x span = .ok (Ser.ewmMean (2 / (span + 1)) 0 x) := by
  rw [Ind.ewmMean, (alpha_of_span h).1]
  rfl

/-- With a number somewhere up to `t` (and either memory or a number at `t` itself) the exponentially weighted mean is
the weighted mean with weights `q ^ (t - i)`. -/
theorem ewm_mean_formula {x u : Ser} {span : ℝ} {t : Nat} (hs : 1 ≤ span) (hu : Ind.ewmMean x span = .ok u)
    (ht : t < x.length) (hobs : ∃ i ≤ t, (num x i).isSome) (hl : 1 < span ∨ (num x t).isSome) :
    u[t]? = some (.fin (wmean (decay span) x t)) := by
  obtain ⟨-, ha0, ha1, hdec⟩ := alpha_of_span hs
  rw [ewmMean_eq hs] at hu
  cases hu
  rw [ewmMean_get _ _ _ ht, nobs_take ht]
  have hc : 1 ≤ count x t := by
    obtain ⟨i, hi, h⟩ := hobs
    exact Finset.card_pos.2 ⟨i, Finset.mem_filter.2 ⟨Finset.mem_range.2 (by omega), h⟩⟩
  rcases hst : ewmSt (2 / (span + 1)) (x.take (t + 1)) with _ | ⟨m, w⟩
  · rw [ewmSt_none_iff, nobs_take ht] at hst
    omega
  · have h1 := ewmSt_weight hst
    have h2 := ewmSt_mean ha1 hst
    rw [wsum_take _ _ ht, hdec] at h1 h2
    have hw : w ≠ 0 := by
      rcases hl with hl | hl
      · refine (ewmSt_weight_pos ?_ hst).ne'
        rw [div_lt_one (by linarith)]
        linarith
      · rw [h1, wsumTo, Finset.sum_range_succ]
        obtain ⟨r, hr⟩ := Option.isSome_iff_exists.1 hl
        rw [hr]
        have : 0 ≤ ∑ i ∈ range t, decay span ^ (t - i) * ((num x i).map fun _ => (1 : ℝ)).getD 0 := by
          apply Finset.sum_nonneg
          intro i _
          refine mul_nonneg (pow_nonneg (decay_nonneg hs) _) ?_
          rcases num x i with _ | r <;> simp
        have e : decay span ^ (t - t) * ((some r).map fun _ => (1 : ℝ)).getD 0 = 1 := by simp
        rw [e]
        linarith
    show some (if (max (0 : Int) 1).toNat ≤ count x t then XF.fin m else .nan) = _
    rw [if_pos (by simpa using hc), wmean, ← h1, eq_div_of_mul_eq hw h2]
    rfl

/-- Without any number up to `t` it is NaN. -/
theorem ewm_mean_nan {x u : Ser} {span : ℝ} {t : Nat} (hu : Ind.ewmMean x span = .ok u)
    (ht : t < x.length) (hobs : ∀ i ≤ t, num x i = none) : u[t]? = some .nan := by
  have hs : 1 ≤ span := (IndCausal.ok_iff x [] [] [] 0 span 1 1 meanF).2.2.1.1 ⟨u, hu⟩
  rw [ewmMean_eq hs] at hu
  cases hu
  rw [ewmMean_get _ _ _ ht]
  have : ewmSt (2 / (span + 1)) (x.take (t + 1)) = none := by
    rw [ewmSt_none_iff, nobs_take ht, count, Finset.card_eq_zero, Finset.filter_eq_empty_iff]
    intro i hi
    rw [hobs i (by have := Finset.mem_range.1 hi; omega)]
    simp
  rw [this]
  rfl

/-- The exponentially weighted mean is NaN or lies between any bounds on the numbers seen so far (every span, every
series). -/
theorem ewm_mean_range {x u : Ser} {span : ℝ} {t : Nat} (hu : Ind.ewmMean x span = .ok u) (ht : t < x.length) :
    (u[t]? = some .nan ∧ ∀ i ≤ t, num x i = none) ∨
      ∃ m, u[t]? = some (.fin m) ∧
        ∀ lo hi, (∀ i ≤ t, ∀ r, num x i = some r → lo ≤ r ∧ r ≤ hi) → lo ≤ m ∧ m ≤ hi := by
  have hs : 1 ≤ span := (IndCausal.ok_iff x [] [] [] 0 span 1 1 meanF).2.2.1.1 ⟨u, hu⟩
  obtain ⟨-, ha0, ha1, hdec⟩ := alpha_of_span hs
  by_cases hno : ∀ i ≤ t, num x i = none
  · exact .inl ⟨ewm_mean_nan hu ht hno, hno⟩
  · right
    push Not at hno
    obtain ⟨i, hi, hne⟩ := hno
    rw [ewmMean_eq hs] at hu
    cases hu
    rw [ewmMean_get _ _ _ ht, nobs_take ht]
    have hc : 1 ≤ count x t :=
      Finset.card_pos.2 ⟨i, Finset.mem_filter.2 ⟨Finset.mem_range.2 (by omega), Option.isSome_iff_ne_none.2 hne⟩⟩
    rcases hst : ewmSt (2 / (span + 1)) (x.take (t + 1)) with _ | ⟨m, w⟩
    · rw [ewmSt_none_iff, nobs_take ht] at hst
      omega
    · refine ⟨m, ?_, fun lo hi hb => ewmSt_bounds ha1 hst fun r hr => ?_⟩
      · show some (if (max (0 : Int) 1).toNat ≤ count x t then XF.fin m else .nan) = _
        rw [if_pos (by simpa using hc)]
      · obtain ⟨j, hj⟩ := List.mem_iff_getElem?.1 hr
        rw [List.getElem?_take] at hj
        split at hj
        · refine hb j (by omega) r ?_
          rw [num, hj]
          rfl
        · cases hj

/-- On a constant series of numbers it is the constant. -/
theorem ewm_mean_const {c : ℝ} {n : Nat} {span : ℝ} {u : Ser} (hu : Ind.ewmMean (List.replicate n (.fin c)) span = .ok u) :
    u = List.replicate n (.fin c) := by
  have hlen := (IndCausal.ewmMean_causal span).length _ _ hu
  have hn : ∀ i, i < n → num (List.replicate n (.fin c)) i = some c := by
    intro i hi
    rw [num, List.getElem?_replicate, if_pos hi]
    rfl
  apply List.ext_getElem?
  intro t
  by_cases ht : t < n
  · rw [List.getElem?_replicate, if_pos ht]
    rcases ewm_mean_range hu (t := t) (by simpa using ht) with ⟨-, h⟩ | ⟨m, hm, h⟩
    · have := h 0 (by omega)
      rw [hn 0 (by omega)] at this
      cases this
    · have := h c c fun i hi r hr => by
        rw [hn i (by omega)] at hr
        cases hr
        exact ⟨le_rfl, le_rfl⟩
      rw [hm, le_antisymm this.2 this.1]
  · rw [List.getElem?_eq_none (by rw [hlen, List.length_replicate]; omega),
      List.getElem?_eq_none (by rw [List.length_replicate]; omega)]

/-- Rescaling and shifting the series rescales and shifts the mean. -/
theorem ewm_mean_affine {x u : Ser} {span : ℝ} (a b : ℝ) (hu : Ind.ewmMean x span = .ok u) :
    Ind.ewmMean (x.map (affX a b)) span = .ok (u.map (affX a b)) := by
  have hs : 1 ≤ span := (IndCausal.ok_iff x [] [] [] 0 span 1 1 meanF).2.2.1.1 ⟨u, hu⟩
  obtain ⟨-, ha0, ha1, hdec⟩ := alpha_of_span hs
  rw [ewmMean_eq hs] at hu ⊢
  cases hu
  congr 1
  apply List.ext_getElem?
  intro t
  by_cases ht : t < x.length
  · rw [ewmMean_get _ _ _ (by simpa using ht), List.getElem?_map, ewmMean_get _ _ _ ht, ← List.map_take,
      ewmSt_affine ha1, nobs_affine]
    rcases ewmSt (2 / (span + 1)) (x.take (t + 1)) with _ | ⟨m, w⟩
    · rfl
    · show some (if _ then XF.fin (a * m + b) else .nan) = some (affX a b (if _ then XF.fin m else .nan))
      split <;> rfl
  · rw [List.getElem?_eq_none (by rw [Ser.ewmMean_length]; simpa using ht),
      List.getElem?_eq_none (by rw [List.length_map, Ser.ewmMean_length]; omega)]

/-! ## Standard deviation -/

theorem wsumTo_sq_dev (q : ℝ) (x : Ser) (t : Nat) (m : ℝ) :
    wsumTo q (fun r => (r - m) ^ 2) x t =
      wsumTo q (fun r => r ^ 2) x t - 2 * m * wsumTo q (fun r => r) x t + m ^ 2 * wsumTo q (fun _ => 1) x t := by
  simp only [wsumTo, Finset.mul_sum]
  rw [← Finset.sum_sub_distrib, ← Finset.sum_add_distrib]
  apply Finset.sum_congr rfl
  intro i _
  rcases num x i with _ | r
  · simp
  · simp
    ring

/-- The correction of the weighted variance is positive exactly when there are two numbers to compare. -/
theorem correction_pos {x : Ser} {span : ℝ} {t : Nat} (hs : 1 < span) (ht : t < x.length) :
    0 < wsumTo (decay span) (fun _ => 1) x t ^ 2 - wsumTo (decay span ^ 2) (fun _ => 1) x t ↔ 2 ≤ count x t := by
  have hq := decay_pos hs
  have key : ∀ y : Ser, 0 ≤ wsum (decay span) (fun _ => 1) y ∧
      (0 < wsum (decay span) (fun _ => 1) y ↔ 1 ≤ nobs y) ∧
      0 ≤ wsum (decay span) (fun _ => 1) y ^ 2 - wsum (decay span ^ 2) (fun _ => 1) y ∧
      (0 < wsum (decay span) (fun _ => 1) y ^ 2 - wsum (decay span ^ 2) (fun _ => 1) y ↔ 2 ≤ nobs y) := by
    intro y
    induction y using List.reverseRecOn with
    | nil => simp [wsum_nil, nobs_nil]
    | append_singleton y v ih =>
      rw [wsum_append, wsum_append, nobs_append]
      obtain ⟨h1, h2, h3, h4⟩ := ih
      rcases hv : v.real? with _ | c
      · simp only [Option.map_none, Option.getD_none, add_zero, if_true]
        refine ⟨by positivity, ?_, ?_, ?_⟩
        · rw [← h2]
          exact ⟨fun h => (pos_iff_pos_of_mul_pos h).1 hq, fun h => by positivity⟩
        · rw [mul_pow, ← mul_sub]
          positivity
        · rw [mul_pow, ← mul_sub, ← h4]
          exact ⟨fun h => (pos_iff_pos_of_mul_pos h).1 (by positivity), fun h => by positivity⟩
      · simp only [Option.map_some, Option.getD_some]
        have e : (decay span * wsum (decay span) (fun _ => 1) y + 1) ^ 2 -
            (decay span ^ 2 * wsum (decay span ^ 2) (fun _ => 1) y + 1) =
            decay span ^ 2 * (wsum (decay span) (fun _ => 1) y ^ 2 - wsum (decay span ^ 2) (fun _ => 1) y) +
              2 * decay span * wsum (decay span) (fun _ => 1) y := by ring
        refine ⟨by positivity, ?_, ?_, ?_⟩
        · exact ⟨fun _ => by simp, fun _ => by positivity⟩
        · rw [e]; positivity
        · rw [e]
          simp only [reduceCtorEq, if_false]
          constructor
          · intro h
            by_contra hlt
            have hn : nobs y = 0 := by omega
            have z1 : wsum (decay span) (fun _ => 1) y = 0 :=
              le_antisymm (not_lt.1 fun hp => by have := h2.1 hp; omega) h1
            have z2 : wsum (decay span) (fun _ => 1) y ^ 2 - wsum (decay span ^ 2) (fun _ => 1) y = 0 :=
              le_antisymm (not_lt.1 fun hp => by have := h4.1 hp; omega) h3
            rw [z2, z1] at h
            simp at h
          · intro h
            have hp : 0 < wsum (decay span) (fun _ => 1) y := h2.2 (by omega)
            positivity
  have := (key (x.take (t + 1))).2.2.2
  rwa [wsum_take _ _ ht, wsum_take _ _ ht, nobs_take ht] at this

theorem ewmStd_eq {span : ℝ} (h : 1 ≤ span) (x : Ser) :
    Ind.ewmStd x span = .ok (Ser.ewmStd (2 / (span + 1)) x) := by
  rw [Ind.ewmStd, (alpha_of_span h).1]
  rfl

/-- With two numbers or more up to `t` the exponentially weighted standard deviation is the root of the unbiased
weighted variance; otherwise it is NaN. -/
theorem ewm_std_formula {x u : Ser} {span : ℝ} {t : Nat} (hs : 1 < span) (hu : Ind.ewmStd x span = .ok u)
    (ht : t < x.length) :
    (2 ≤ count x t → u[t]? = some (.fin (Real.sqrt (wvar (decay span) x t))) ∧ 0 ≤ wvar (decay span) x t) ∧
      (count x t < 2 → u[t]? = some .nan) := by
  obtain ⟨-, ha0, ha1, hdec⟩ := alpha_of_span hs.le
  rw [ewmStd_eq hs.le] at hu
  cases hu
  rw [ewmStd_get _ _ ht]
  rcases varSt_inv ha1 (x.take (t + 1)) with ⟨h1, h2⟩ | ⟨m, w, h1, h2, h3, h4, h5, h7, h6⟩
  · rw [ewmSt_none_iff, nobs_take ht] at h1
    refine ⟨fun h => by omega, fun _ => ?_⟩
    rw [h2]
    rfl
  · have hw := ewmSt_weight h1
    have hm := ewmSt_mean ha1 h1
    rw [wsum_take _ _ ht, hdec] at hw hm h6
    rw [wsum_take _ _ ht, hdec] at h5
    have hcor := correction_pos hs ht
    rw [← hw, ← h5] at hcor
    have hout : varOut (varSt (2 / (span + 1)) (x.take (t + 1))) =
        if 0 < w ^ 2 - (varSt (2 / (span + 1)) (x.take (t + 1))).sw2 then
          .fin (w ^ 2 / (w ^ 2 - (varSt (2 / (span + 1)) (x.take (t + 1))).sw2) *
            (varSt (2 / (span + 1)) (x.take (t + 1))).cov) else .nan := by
      rw [varOut, h2, h3]
    rw [hout]
    constructor
    · intro h
      have hpos := hcor.2 h
      rw [if_pos hpos]
      have hwp : 0 < w := by
        refine ewmSt_weight_pos ?_ h1
        rw [div_lt_one (by linarith)]
        linarith
      have hmean : wmean (decay span) x t = m := by
        rw [wmean, ← hw]
        exact (eq_div_of_mul_eq hwp.ne' hm).symm
      have hvar : wvar (decay span) x t = w ^ 2 / (w ^ 2 - (varSt (2 / (span + 1)) (x.take (t + 1))).sw2) *
          (varSt (2 / (span + 1)) (x.take (t + 1))).cov := by
        have hid : wsumTo (decay span) (fun r => r) x t = m * w := hm.symm
        rw [wvar, wsumTo_sq_dev, hmean, hid, ← hw, ← h5]
        have e : wsumTo (decay span) (fun r => r ^ 2) x t =
            (varSt (2 / (span + 1)) (x.take (t + 1))).cov * w + w * m ^ 2 := by rw [h6]; ring
        rw [e]
        field_simp
        ring
      have hnn : 0 ≤ w ^ 2 / (w ^ 2 - (varSt (2 / (span + 1)) (x.take (t + 1))).sw2) *
          (varSt (2 / (span + 1)) (x.take (t + 1))).cov := by positivity
      rw [hvar, XF.sqrt_fin hnn]
      exact ⟨rfl, hnn⟩
    · intro h
      rw [if_neg (fun hp => by have := hcor.1 hp; omega)]
      rfl

/-! ## MACD -/

theorem macd_inv {x u : Ser} {fast slow : ℝ} (h : macd x fast slow = .ok u) :
    ∃ a b, Ind.ewmMean x fast = .ok a ∧ Ind.ewmMean x slow = .ok b ∧ u = op2 (· - ·) a b ∧
      a.length = x.length ∧ b.length = x.length := by
  obtain ⟨a, ha, h⟩ := bind_ok h
  obtain ⟨b, hb, h⟩ := bind_ok h
  cases h
  exact ⟨a, b, ha, hb, rfl, (IndCausal.ewmMean_causal fast).length _ _ ha,
    (IndCausal.ewmMean_causal slow).length _ _ hb⟩

/-- MACD of a constant series is zero everywhere. -/
theorem macd_const {c : ℝ} {n : Nat} {fast slow : ℝ} {u : Ser}
    (hu : macd (List.replicate n (.fin c)) fast slow = .ok u) : u = List.replicate n (.fin 0) := by
  obtain ⟨a, b, ha, hb, rfl, -, -⟩ := macd_inv hu
  rw [ewm_mean_const ha, ewm_mean_const hb]
  clear hu ha hb
  induction n with
  | zero => rfl
  | succ n ih => simp [List.replicate_succ, op2, ih]

/-- … and so is the output of `macd_signal`. -/
theorem macdSignal_const {c : ℝ} {n : Nat} {fast slow signal : ℝ} {u : Ser}
    (hu : macdSignal (List.replicate n (.fin c)) fast slow signal = .ok u) : u = List.replicate n (.fin 0) := by
  obtain ⟨a, ha, h⟩ := bind_ok hu
  obtain ⟨b, hb, h⟩ := bind_ok h
  cases h
  rw [macd_const ha] at hb ⊢
  rw [ewm_mean_const hb]
  clear hu ha hb
  induction n with
  | zero => rfl
  | succ n ih => simp [List.replicate_succ, op2, ih]

/-- Slower decay gives more weight to older values: on values that never fall over time the weighted mean with the
smaller decay factor is the larger one. -/
theorem wmean_mono_decay {p q : ℝ} (hp : 0 ≤ p) (hpq : p ≤ q) {y : Nat → ℝ} {t : Nat}
    (hy : ∀ i j, i ≤ j → j ≤ t → y i ≤ y j) :
    (∑ i ∈ range (t + 1), q ^ (t - i) * y i) * (∑ i ∈ range (t + 1), p ^ (t - i)) ≤
      (∑ i ∈ range (t + 1), p ^ (t - i) * y i) * (∑ i ∈ range (t + 1), q ^ (t - i)) := by
  have hq : 0 ≤ q := hp.trans hpq
  set S := ∑ i ∈ range (t + 1), ∑ j ∈ range (t + 1), p ^ (t - i) * q ^ (t - j) * (y i - y j) with hS
  have hS2 : S = ∑ i ∈ range (t + 1), ∑ j ∈ range (t + 1), p ^ (t - j) * q ^ (t - i) * (y j - y i) := by
    rw [hS, Finset.sum_comm]
  have hpow : ∀ i j, i ≤ j → j ≤ t → p ^ (t - i) * q ^ (t - j) ≤ p ^ (t - j) * q ^ (t - i) := by
    intro i j hij hjt
    have e : t - i = (t - j) + (j - i) := by omega
    rw [e, pow_add, pow_add]
    have := pow_le_pow_left₀ hp hpq (j - i)
    have hx : 0 ≤ p ^ (t - j) * q ^ (t - j) := by positivity
    nlinarith
  have hpair : 0 ≤ S + S := by
    nth_rewrite 2 [hS2]
    rw [hS, ← Finset.sum_add_distrib]
    apply Finset.sum_nonneg
    intro i hi
    rw [← Finset.sum_add_distrib]
    apply Finset.sum_nonneg
    intro j hj
    have hi' := Finset.mem_range.1 hi
    have hj' := Finset.mem_range.1 hj
    have e : p ^ (t - i) * q ^ (t - j) * (y i - y j) + p ^ (t - j) * q ^ (t - i) * (y j - y i) =
        (p ^ (t - j) * q ^ (t - i) - p ^ (t - i) * q ^ (t - j)) * (y j - y i) := by ring
    rw [e]
    rcases le_total i j with h | h
    · exact mul_nonneg (sub_nonneg.2 (hpow i j h (by omega))) (sub_nonneg.2 (hy i j h (by omega)))
    · exact mul_nonneg_of_nonpos_of_nonpos (sub_nonpos.2 (hpow j i h (by omega)))
        (sub_nonpos.2 (hy j i h (by omega)))
  have hSe : S = (∑ i ∈ range (t + 1), p ^ (t - i) * y i) * (∑ i ∈ range (t + 1), q ^ (t - i)) -
      (∑ i ∈ range (t + 1), q ^ (t - i) * y i) * (∑ i ∈ range (t + 1), p ^ (t - i)) := by
    rw [hS, mul_comm (∑ i ∈ range (t + 1), q ^ (t - i) * y i), Finset.sum_mul_sum, Finset.sum_mul_sum,
      ← Finset.sum_sub_distrib]
    apply Finset.sum_congr rfl
    intro i _
    rw [← Finset.sum_sub_distrib]
    apply Finset.sum_congr rfl
    intro j _
    ring
  linarith

/-- … strictly, if the decay factors differ and the values have risen at all. -/
theorem wmean_strict_decay {p q : ℝ} (hp : 0 ≤ p) (hpq : p < q) {y : Nat → ℝ} {t : Nat}
    (hy : ∀ i j, i ≤ j → j ≤ t → y i ≤ y j) (h0 : y 0 < y t) :
    (∑ i ∈ range (t + 1), q ^ (t - i) * y i) * (∑ i ∈ range (t + 1), p ^ (t - i)) <
      (∑ i ∈ range (t + 1), p ^ (t - i) * y i) * (∑ i ∈ range (t + 1), q ^ (t - i)) := by
  have hq : 0 ≤ q := hp.trans hpq.le
  have ht : t ≠ 0 := fun h => by subst h; exact lt_irrefl _ h0
  set S := ∑ i ∈ range (t + 1), ∑ j ∈ range (t + 1), p ^ (t - i) * q ^ (t - j) * (y i - y j) with hS
  have hS2 : S = ∑ i ∈ range (t + 1), ∑ j ∈ range (t + 1), p ^ (t - j) * q ^ (t - i) * (y j - y i) := by
    rw [hS, Finset.sum_comm]
  have hpow : ∀ i j, i ≤ j → j ≤ t → p ^ (t - i) * q ^ (t - j) ≤ p ^ (t - j) * q ^ (t - i) := by
    intro i j hij hjt
    have e : t - i = (t - j) + (j - i) := by omega
    rw [e, pow_add, pow_add]
    have := pow_le_pow_left₀ hp hpq.le (j - i)
    have hx : 0 ≤ p ^ (t - j) * q ^ (t - j) := by positivity
    nlinarith
  have hterm : ∀ i j, i ≤ t → j ≤ t →
      0 ≤ p ^ (t - i) * q ^ (t - j) * (y i - y j) + p ^ (t - j) * q ^ (t - i) * (y j - y i) := by
    intro i j hi hj
    have e : p ^ (t - i) * q ^ (t - j) * (y i - y j) + p ^ (t - j) * q ^ (t - i) * (y j - y i) =
        (p ^ (t - j) * q ^ (t - i) - p ^ (t - i) * q ^ (t - j)) * (y j - y i) := by ring
    rw [e]
    rcases le_total i j with h | h
    · exact mul_nonneg (sub_nonneg.2 (hpow i j h hj)) (sub_nonneg.2 (hy i j h hj))
    · exact mul_nonneg_of_nonpos_of_nonpos (sub_nonpos.2 (hpow j i h hi))
        (sub_nonpos.2 (hy j i h hi))
  have hpair : 0 < S + S := by
    nth_rewrite 2 [hS2]
    rw [hS, ← Finset.sum_add_distrib]
    apply Finset.sum_pos'
    · intro i hi
      rw [← Finset.sum_add_distrib]
      exact Finset.sum_nonneg fun j hj => hterm i j (by have := Finset.mem_range.1 hi; omega)
        (by have := Finset.mem_range.1 hj; omega)
    · refine ⟨0, Finset.mem_range.2 (by omega), ?_⟩
      rw [← Finset.sum_add_distrib]
      refine Finset.sum_pos' (fun j hj => hterm 0 j (by omega) (by have := Finset.mem_range.1 hj; omega))
        ⟨t, Finset.mem_range.2 (by omega), ?_⟩
      have hlt := pow_lt_pow_left₀ hpq hp ht
      simp only [Nat.sub_zero, Nat.sub_self, pow_zero, mul_one, one_mul]
      nlinarith
  have hSe : S = (∑ i ∈ range (t + 1), p ^ (t - i) * y i) * (∑ i ∈ range (t + 1), q ^ (t - i)) -
      (∑ i ∈ range (t + 1), q ^ (t - i) * y i) * (∑ i ∈ range (t + 1), p ^ (t - i)) := by
    rw [hS, mul_comm (∑ i ∈ range (t + 1), q ^ (t - i) * y i), Finset.sum_mul_sum, Finset.sum_mul_sum,
      ← Finset.sum_sub_distrib]
    apply Finset.sum_congr rfl
    intro i _
    rw [← Finset.sum_sub_distrib]
    apply Finset.sum_congr rfl
    intro j _
    ring
  linarith

/-- MACD on a series of numbers is the difference of the two weighted means. -/
theorem macd_formula {ys : List ℝ} {u : Ser} {fast slow : ℝ} {t : Nat}
    (hu : macd (ys.map .fin) fast slow = .ok u) (ht : t < ys.length) :
    1 ≤ fast ∧ 1 ≤ slow ∧
    u[t]? = some (.fin ((∑ i ∈ range (t + 1), decay fast ^ (t - i) * ys.getD i 0) / (∑ i ∈ range (t + 1), decay fast ^ (t - i)) -
      (∑ i ∈ range (t + 1), decay slow ^ (t - i) * ys.getD i 0) / (∑ i ∈ range (t + 1), decay slow ^ (t - i)))) ∧
    ∀ s : ℝ, 1 ≤ s → 0 < ∑ i ∈ range (t + 1), decay s ^ (t - i) := by
  have hok := (IndCausal.ok_iff (ys.map .fin) [] [] [] 0 fast slow 1 meanF).2.2.2.2.2.1.1 ⟨u, hu⟩
  obtain ⟨a, b, ha, hb, rfl, hla, hlb⟩ := macd_inv hu
  have ht' : t < (ys.map XF.fin).length := by simpa using ht
  have hnum : ∀ i, i < ys.length → num (ys.map .fin) i = some (ys.getD i 0) := by
    intro i hi
    rw [num, List.getElem?_map, List.getElem?_eq_getElem hi, List.getD_eq_getElem?_getD, List.getElem?_eq_getElem hi]
    rfl
  have hsome : (num (ys.map .fin) t).isSome := by rw [hnum t ht]; rfl
  have h1 := ewm_mean_formula hok.1 ha ht' ⟨t, le_rfl, hsome⟩ (.inr hsome)
  have h2 := ewm_mean_formula hok.2 hb ht' ⟨t, le_rfl, hsome⟩ (.inr hsome)
  have hs1 : ∀ q : ℝ, wsumTo q (fun _ => 1) (ys.map .fin) t = ∑ i ∈ range (t + 1), q ^ (t - i) := by
    intro q
    apply Finset.sum_congr rfl
    intro i hi
    rw [hnum i (by have := Finset.mem_range.1 hi; omega)]
    simp
  have hs2 : ∀ q : ℝ, wsumTo q (fun r => r) (ys.map .fin) t = ∑ i ∈ range (t + 1), q ^ (t - i) * ys.getD i 0 := by
    intro q
    apply Finset.sum_congr rfl
    intro i hi
    rw [hnum i (by have := Finset.mem_range.1 hi; omega)]
    simp
  have hpos : ∀ s : ℝ, 1 ≤ s → 0 < ∑ i ∈ range (t + 1), decay s ^ (t - i) := by
    intro s hs
    rw [Finset.sum_range_succ, Nat.sub_self, pow_zero]
    have : 0 ≤ ∑ i ∈ range t, decay s ^ (t - i) :=
      Finset.sum_nonneg fun i _ => pow_nonneg (decay_nonneg hs) _
    linarith
  refine ⟨hok.1, hok.2, ?_, hpos⟩
  rw [op2_get _ h1 h2, XF.sub_fin, wmean, wmean, hs1, hs1, hs2, hs2]

/-- In a market that never falls (rises), MACD with `fast <= slow` is never negative (positive); with `fast < slow` it
is positive (negative) exactly if the price has changed since the start. -/
theorem macd_trend {ys : List ℝ} {u : Ser} {fast slow : ℝ} {t : Nat} (hfs : fast ≤ slow)
    (hu : macd (ys.map .fin) fast slow = .ok u) (ht : t < ys.length) :
    ∃ m, u[t]? = some (.fin m) ∧
      ((∀ i j (hij : i ≤ j) (hj : j < ys.length), ys[i] ≤ ys[j]) →
        0 ≤ m ∧ (fast < slow → (0 < m ↔ ys[0] < ys[t]))) ∧
      ((∀ i j (hij : i ≤ j) (hj : j < ys.length), ys[j] ≤ ys[i]) →
        m ≤ 0 ∧ (fast < slow → (m < 0 ↔ ys[t] < ys[0]))) := by
  obtain ⟨hf, hs, hval, hpos⟩ := macd_formula hu ht
  have hdec : decay fast ≤ decay slow := by
    rw [decay, decay, div_le_div_iff₀ (by linarith) (by linarith)]
    nlinarith
  have hdec' : fast < slow → decay fast < decay slow := by
    intro h
    rw [decay, decay, div_lt_div_iff₀ (by linarith) (by linarith)]
    nlinarith
  have hg : ∀ i (h : i < ys.length), ys.getD i 0 = ys[i] := by
    intro i h
    rw [List.getD_eq_getElem?_getD, List.getElem?_eq_getElem h, Option.getD_some]
  -- a constant history makes both means equal
  have hconst : ∀ s, 1 ≤ s → (∀ i, i ≤ t → ys.getD i 0 = ys.getD 0 0) →
      (∑ i ∈ range (t + 1), decay s ^ (t - i) * ys.getD i 0) / (∑ i ∈ range (t + 1), decay s ^ (t - i)) = ys.getD 0 0 := by
    intro s h1 hc
    rw [div_eq_iff (hpos s h1).ne', Finset.mul_sum]
    refine Finset.sum_congr rfl fun i hi => ?_
    rw [hc i (by have := Finset.mem_range.1 hi; omega), mul_comm]
  refine ⟨_, hval, fun hmono => ?_, fun hmono => ?_⟩
  · have hy : ∀ i j, i ≤ j → j ≤ t → ys.getD i 0 ≤ ys.getD j 0 := by
      intro i j hij hj
      rw [hg i (by omega), hg j (by omega)]
      exact hmono i j hij (by omega)
    refine ⟨?_, fun hlt => ⟨fun h => ?_, fun h => ?_⟩⟩
    · rw [sub_nonneg, div_le_div_iff₀ (hpos slow hs) (hpos fast hf)]
      exact wmean_mono_decay (decay_nonneg hf) hdec hy
    · by_contra hno
      have hc : ∀ i, i ≤ t → ys.getD i 0 = ys.getD 0 0 := by
        intro i hi
        refine le_antisymm ((hy i t hi le_rfl).trans ?_) (hy 0 i (Nat.zero_le _) hi)
        rw [hg t ht, hg 0 (by omega)]
        exact not_lt.1 hno
      rw [hconst fast hf hc, hconst slow hs hc] at h
      simp at h
    · rw [sub_pos, div_lt_div_iff₀ (hpos slow hs) (hpos fast hf)]
      refine wmean_strict_decay (decay_nonneg hf) (hdec' hlt) hy ?_
      rw [hg t ht, hg 0 (by omega)]
      exact h
  · have hy : ∀ i j, i ≤ j → j ≤ t → -ys.getD i 0 ≤ -ys.getD j 0 := by
      intro i j hij hj
      rw [hg i (by omega), hg j (by omega)]
      exact neg_le_neg (hmono i j hij (by omega))
    refine ⟨?_, fun hlt => ⟨fun h => ?_, fun h => ?_⟩⟩
    · rw [sub_nonpos, div_le_div_iff₀ (hpos fast hf) (hpos slow hs)]
      have := wmean_mono_decay (y := fun i => -ys.getD i 0) (t := t) (decay_nonneg hf) hdec hy
      simp only [mul_neg, Finset.sum_neg_distrib, neg_mul] at this
      linarith
    · by_contra hno
      have hc : ∀ i, i ≤ t → ys.getD i 0 = ys.getD 0 0 := by
        intro i hi
        have h1 := hy i t hi le_rfl
        have h2 := hy 0 i (Nat.zero_le _) hi
        have h3 : ys.getD 0 0 ≤ ys.getD t 0 := by
          rw [hg t ht, hg 0 (by omega)]
          exact not_lt.1 hno
        linarith
      rw [hconst fast hf hc, hconst slow hs hc] at h
      simp at h
    · rw [sub_neg, div_lt_div_iff₀ (hpos fast hf) (hpos slow hs)]
      have h0 : (fun i => -ys.getD i 0) 0 < (fun i => -ys.getD i 0) t := by
        show -ys.getD 0 0 < -ys.getD t 0
        rw [hg t ht, hg 0 (by omega)]
        exact neg_lt_neg h
      have := wmean_strict_decay (y := fun i => -ys.getD i 0) (t := t) (decay_nonneg hf) (hdec' hlt) hy h0
      simp only [mul_neg, Finset.sum_neg_distrib, neg_mul] at this
      linarith

/-- `macd_signal` does not return the signal line (the exponentially weighted mean of MACD) that its documentation
promises but MACD minus the signal line: with the default spans, prices `0, 1` separate the two. -/
theorem macdSignal_is_not_signal_line : ∃ line sig out : Ser, macd [.fin 0, .fin 1] 12 26 = .ok line ∧
    Ind.ewmMean line 9 = .ok sig ∧ macdSignal [.fin 0, .fin 1] 12 26 9 = .ok out ∧
    out = op2 (· - ·) line sig ∧ out ≠ sig := by
  have e : ∀ s : ℝ, 1 ≤ s → ∀ a b : ℝ, Ind.ewmMean [.fin a, .fin b] s =
      .ok [.fin a, .fin (((1 - 2 / (s + 1)) * a + b) / ((1 - 2 / (s + 1)) + 1))] := by
    intro s hs a b
    rw [ewmMean_eq hs]
    simp [Ser.ewmMean, ewmGo]
  have hline : macd [.fin 0, .fin 1] 12 26 = .ok [.fin 0, .fin (13 / 24 - 27 / 52)] := by
    rw [macd, e 12 (by norm_num), e 26 (by norm_num)]
    show Except.ok (op2 _ _ _) = _
    simp [op2]
    norm_num
  have hsig : Ind.ewmMean [.fin 0, .fin (13 / 24 - 27 / 52)] 9 = .ok [.fin 0, .fin ((13 / 24 - 27 / 52) * (5 / 9))] := by
    rw [e 9 (by norm_num)]
    norm_num
  have hout : macdSignal [.fin 0, .fin 1] 12 26 9 =
      .ok (op2 (· - ·) [.fin 0, .fin (13 / 24 - 27 / 52)] [.fin 0, .fin ((13 / 24 - 27 / 52) * (5 / 9))]) := by
    rw [macdSignal, hline]
    show (Ind.ewmMean [.fin 0, .fin (13 / 24 - 27 / 52)] 9 >>= _) = _
    rw [hsig]
    rfl
  refine ⟨_, _, _, hline, hsig, hout, rfl, ?_⟩
  simp [op2]
  norm_num

/-! ## Momentum -/

/-- `ewm_mom` is NaN until `max(min_periods, 1)` price changes have been seen. -/
theorem ewmMom_missing {x u : Ser} {span : ℝ} {p : Int} {t : Nat} (hu : ewmMom x span p = .ok u) (ht : t < x.length) :
    u[t]? = some .nan ↔ (count (diff 1 x) t : Int) < max p 1 := by
  obtain ⟨α, -, h⟩ := bind_ok hu
  cases h
  have ht' : t < (diff 1 x).length := by rwa [diff_length]
  rw [ewmMean_get _ _ _ ht', nobs_take ht']
  rcases hst : ewmSt α ((diff 1 x).take (t + 1)) with _ | ⟨m, w⟩
  · rw [ewmSt_none_iff, nobs_take ht'] at hst
    have : (count (diff 1 x) t : Int) < max p 1 := by rw [hst]; simp
    simp [ewmOut, this]
  · show some (if (max p 1).toNat ≤ count (diff 1 x) t then XF.fin m else .nan) = _ ↔ _
    by_cases h : (max p 1).toNat ≤ count (diff 1 x) t
    · rw [if_pos h]
      simp only [Option.some.injEq, reduceCtorEq, false_iff, not_lt]
      omega
    · rw [if_neg h]
      simp only [true_iff]
      omega

/-- Momentum over `k` steps of a series of numbers: NaN at the first `k` positions, the average change afterwards. -/
theorem rollingMom_spec {ys : List ℝ} {k t : Nat} (hk : 1 ≤ k) (ht : t < ys.length) :
    (rollingMom (ys.map .fin) k)[t]? =
      some (if h : k ≤ t then .fin ((ys[t] - ys[t - k]) / k) else .nan) := by
  have hk' : ((k : Int) : ℝ) ≠ 0 := by exact_mod_cast (by omega : k ≠ 0)
  have hx : (ys.map XF.fin)[t]? = some (.fin ys[t]) := by simp [ht]
  have hsh := shift_get (k : Int) (ys.map XF.fin) (t := t) (by simpa using ht)
  rw [rollingMom, List.getElem?_map, diff, op2_get _ hx hsh]
  by_cases h : k ≤ t
  · rw [dif_pos h, if_pos (by omega)]
    have e : ((t : Int) - k).toNat = t - k := by omega
    rw [e, List.getElem?_map, List.getElem?_eq_getElem (by omega)]
    simp only [Option.map_some, Option.getD_some, XF.sub_fin]
    rw [XF.div_fin hk']
    simp
  · rw [dif_neg h, if_neg (by omega)]
    simp

/-- Concrete case: span 3 (weights 1, 1/2, 1/4, …) on `4, 1`. -/
example : ∃ u, Ind.ewmMean [.fin 4, .fin 1] 3 = .ok u ∧ u[1]? = some (.fin 2) := by
  obtain ⟨u, hu⟩ := (IndCausal.ok_iff [.fin 4, .fin 1] [] [] [] 1 3 1 1 meanF).2.2.1.2 (by norm_num)
  refine ⟨u, hu, ?_⟩
  rw [ewm_mean_formula (t := 1) (by norm_num) hu (by simp) ⟨0, by simp, rfl⟩ (.inr rfl), wmean, wsumTo, wsumTo, decay]
  simp [Finset.sum_range_succ, num]
  norm_num

end Verif.Props.IndEwm
