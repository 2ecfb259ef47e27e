import Verif.Props.IndCausal
import Mathlib.Algebra.BigOperators.Intervals
import Mathlib.Algebra.BigOperators.Ring.Finset
import Mathlib.Algebra.Order.BigOperators.Group.Finset
import Mathlib.Tactic.FieldSimp

/-!
# C50: what the rolling indicators compute

`Obs x y w t`: the `w` values of `x` up to position `t` are the numbers `y (t+1-w), …, y t`. With it the rolling
statistics are the textbook formulas over that stretch of `y`; without it (too few values so far, or one of the last
`w` values missing or infinite) they are NaN.
-/

namespace Verif.Props.IndRolling

open Verif Ser Ind Finset

/-- The window of length `w` that ends at `t` lies inside the series and holds the numbers `y i`. -/
def Obs (x : Ser) (y : Nat → ℝ) (w t : Nat) : Prop :=
  w ≤ t + 1 ∧ ∀ i ∈ Ico (t + 1 - w) (t + 1), x[i]? = some (.fin (y i))

theorem seg_eq {x : Ser} {y : Nat → ℝ} {w t : Nat} (hw : 1 ≤ w) (h : Obs x y w t) :
    (x.take (t + 1)).drop (t + 1 - w) = ((List.range w).map fun j => y (t + 1 - w + j)).map .fin := by
  have ht : t < x.length :=
    (List.getElem?_eq_some_iff.1 (h.2 t (by simp; omega))).1
  apply List.ext_getElem?
  intro j
  by_cases hj : j < w
  · rw [List.getElem?_drop, List.getElem?_take, if_pos (by have := h.1; omega),
      h.2 _ (by rw [mem_Ico]; have := h.1; omega)]
    simp [List.getElem?_range hj]
  · rw [List.getElem?_eq_none, List.getElem?_eq_none]
    · simpa using hj
    · have := h.1
      simp
      omega

theorem win_eq {x : Ser} {y : Nat → ℝ} {w t : Nat} (hw : 1 ≤ w) (h : Obs x y w t) :
    win w x t = (List.range w).map fun j => y (t + 1 - w + j) := by
  rw [win, seg_eq hw h, List.filterMap_map]
  have : (XF.real? ∘ XF.fin) = some := rfl
  rw [this, List.filterMap_some]

theorem filterMap_full {l : Ser} (h : l.length ≤ (l.filterMap XF.real?).length) :
    l = (l.filterMap XF.real?).map .fin := by
  induction l with
  | nil => rfl
  | cons v l ih =>
    have hle := List.length_filterMap_le XF.real? l
    cases hv : v.real? with
    | none =>
      rw [List.filterMap_cons_none hv] at h
      simp only [List.length_cons] at h
      omega
    | some r =>
      rw [List.filterMap_cons_some hv] at h ⊢
      simp only [List.length_cons, Nat.add_le_add_iff_right] at h
      rw [List.map_cons, ← ih h, XF.real?_eq_some.1 hv]

/-- A full window is observed. -/
theorem obs_of_full {x : Ser} {w t : Nat} (h : w ≤ (win w x t).length) (ht : t < x.length) :
    ∃ y, Obs x y w t := by
  have hseg : ((x.take (t + 1)).drop (t + 1 - w)).length = t + 1 - (t + 1 - w) := by
    simp
    omega
  have hle := List.length_filterMap_le XF.real? ((x.take (t + 1)).drop (t + 1 - w))
  rw [← win] at hle
  have hwt : w ≤ t + 1 := by omega
  refine ⟨fun i => (win w x t).getD (i - (t + 1 - w)) 0, hwt, fun i hi => ?_⟩
  rw [mem_Ico] at hi
  have hfull := filterMap_full (l := (x.take (t + 1)).drop (t + 1 - w)) (by rw [← win]; omega)
  rw [← win] at hfull
  have h1 : ((x.take (t + 1)).drop (t + 1 - w))[i - (t + 1 - w)]? = x[i]? := by
    rw [List.getElem?_drop, List.getElem?_take, if_pos (by omega)]
    congr 1
    omega
  have hlt : i - (t + 1 - w) < (win w x t).length := by omega
  rw [← h1, hfull, List.getElem?_map]
  simp only [List.getD_eq_getElem?_getD, List.getElem?_eq_getElem hlt]
  rfl

theorem rollAt_obs {x : Ser} {y : Nat → ℝ} {w t : Nat} (hw : 1 ≤ w) (h : Obs x y w t) (f : List ℝ → XF) :
    rollAt w f x t = f ((List.range w).map fun j => y (t + 1 - w + j)) := by
  rw [rollAt, win_eq hw h, if_pos (by simp)]

/-- Too few values so far, or a missing or infinite value among the last `w`: NaN, whatever the statistic. -/
theorem rolling_nan {x u : Ser} {w t : Nat} {f : List ℝ → XF} (hu : rolling w f x = .ok u) (ht : t < x.length)
    (h : ∀ y, ¬ Obs x y w t) : u[t]? = some .nan := by
  rw [rolling_get hu ht, rollAt, if_neg]
  intro hle
  obtain ⟨y, hy⟩ := obs_of_full (w := w) (by simpa using hle) ht
  exact h y hy

theorem sum_range_list (f : Nat → ℝ) (n : Nat) : ((List.range n).map f).sum = ∑ i ∈ range n, f i := by
  induction n with
  | zero => rfl
  | succ n ih => rw [List.range_succ, List.map_append, List.sum_append, ih, Finset.sum_range_succ]; simp

theorem sum_window (y : Nat → ℝ) (g : ℝ → ℝ) {w t : Nat} (hw : w ≤ t + 1) :
    (((List.range w).map fun j => y (t + 1 - w + j)).map g).sum = ∑ i ∈ Ico (t + 1 - w) (t + 1), g (y i) := by
  rw [Finset.sum_Ico_eq_sum_range, show t + 1 - (t + 1 - w) = w by omega, List.map_map, sum_range_list]
  rfl

theorem sum_window' (y : Nat → ℝ) {w t : Nat} (hw : w ≤ t + 1) :
    ((List.range w).map fun j => y (t + 1 - w + j)).sum = ∑ i ∈ Ico (t + 1 - w) (t + 1), y i := by
  have := sum_window y id hw
  rwa [List.map_id] at this

/-- The mean of the `w` numbers up to position `t`. -/
noncomputable def meanOf (y : Nat → ℝ) (w t : Nat) : ℝ := (∑ i ∈ Ico (t + 1 - w) (t + 1), y i) / w

/-- The sample standard deviation of the `w` numbers up to position `t`. -/
noncomputable def stdOf (y : Nat → ℝ) (w t : Nat) : ℝ :=
  Real.sqrt ((∑ i ∈ Ico (t + 1 - w) (t + 1), (y i - meanOf y w t) ^ 2) / (w - 1))

/-- The rolling mean is the mean of the last `w` values. -/
theorem mean_spec {x u : Ser} {y : Nat → ℝ} {w t : Nat} (hw : 1 ≤ w) (hu : rollingMean x w = .ok u)
    (h : Obs x y w t) : u[t]? = some (.fin (meanOf y w t)) := by
  have ht : t < x.length := (List.getElem?_eq_some_iff.1 (h.2 t (by simp; omega))).1
  rw [rolling_get hu ht]
  rw [show ((w : Int)).toNat = w by simp, rollAt_obs hw h, meanF, if_neg (by simp; omega), sum_window' y h.1, meanOf]
  simp

/-- The rolling standard deviation is the sample standard deviation of the last `w >= 2` values. -/
theorem std_spec {x u : Ser} {y : Nat → ℝ} {w t : Nat} (hw : 2 ≤ w) (hu : rollingStd x w = .ok u)
    (h : Obs x y w t) : u[t]? = some (.fin (stdOf y w t)) := by
  have ht : t < x.length := (List.getElem?_eq_some_iff.1 (h.2 t (by simp; omega))).1
  rw [rolling_get hu ht]
  rw [show ((w : Int)).toNat = w by simp, rollAt_obs (by omega) h, stdF, varF, if_neg (by simp; omega), XF.sqrt_fin]
  · rw [ssd, sum_window' y h.1, sum_window y _ h.1, stdOf, meanOf]
    simp
  · refine div_nonneg (ssd_nonneg _) ?_
    have : (2 : ℝ) ≤ w := by exact_mod_cast hw
    simp
    linarith

/-- With a window of one value the rolling standard deviation is NaN throughout. -/
theorem std_window_one {x u : Ser} {t : Nat} (hu : rollingStd x 1 = .ok u) (ht : t < x.length) :
    u[t]? = some .nan := by
  rw [rolling_get hu ht, rollAt]
  split
  · rw [stdF, varF, if_pos (by simpa using win_length_le 1 x t)]
    rfl
  · rfl

/-- The rolling maximum is the largest of the last `w` values. -/
theorem max_spec {x u : Ser} {y : Nat → ℝ} {w t : Nat} (hw : 1 ≤ w) (hu : rollingMax x w = .ok u)
    (h : Obs x y w t) :
    ∃ m, u[t]? = some (.fin m) ∧ IsGreatest (y '' Set.Ico (t + 1 - w) (t + 1)) m := by
  have ht : t < x.length := (List.getElem?_eq_some_iff.1 (h.2 t (by simp; omega))).1
  rw [rolling_get hu ht]
  rw [show ((w : Int)).toNat = w by simp, rollAt_obs hw h]
  obtain ⟨m, hm, hmem, hle⟩ := maxF_spec (v := (List.range w).map fun j => y (t + 1 - w + j)) (by simp; omega)
  refine ⟨m, by rw [hm], ?_, ?_⟩
  · obtain ⟨j, hj, rfl⟩ := List.mem_map.1 hmem
    have := h.1
    exact ⟨_, ⟨by omega, by have := List.mem_range.1 hj; omega⟩, rfl⟩
  · rintro _ ⟨i, hi, rfl⟩
    refine hle _ (List.mem_map.2 ⟨i - (t + 1 - w), List.mem_range.2 ?_, ?_⟩)
    · have := hi.1; have := hi.2; have := h.1; omega
    · congr 1
      have := hi.1
      omega

/-- The rolling minimum is the smallest of the last `w` values. -/
theorem min_spec {x u : Ser} {y : Nat → ℝ} {w t : Nat} (hw : 1 ≤ w) (hu : rollingMin x w = .ok u)
    (h : Obs x y w t) :
    ∃ m, u[t]? = some (.fin m) ∧ IsLeast (y '' Set.Ico (t + 1 - w) (t + 1)) m := by
  have ht : t < x.length := (List.getElem?_eq_some_iff.1 (h.2 t (by simp; omega))).1
  rw [rolling_get hu ht]
  rw [show ((w : Int)).toNat = w by simp, rollAt_obs hw h]
  obtain ⟨m, hm, hmem, hle⟩ := minF_spec (v := (List.range w).map fun j => y (t + 1 - w + j)) (by simp; omega)
  refine ⟨m, by rw [hm], ?_, ?_⟩
  · obtain ⟨j, hj, rfl⟩ := List.mem_map.1 hmem
    have := h.1
    exact ⟨_, ⟨by omega, by have := List.mem_range.1 hj; omega⟩, rfl⟩
  · rintro _ ⟨i, hi, rfl⟩
    refine hle _ (List.mem_map.2 ⟨i - (t + 1 - w), List.mem_range.2 ?_, ?_⟩)
    · have := hi.1; have := hi.2; have := h.1; omega
    · congr 1
      have := hi.1
      omega

/-- On a series of numbers the rolling statistics are missing exactly at the first `w - 1` positions
(the standard deviation for `w >= 2`). -/
theorem leading_missing {ys : List ℝ} {w t : Nat} (hw : 1 ≤ w) (ht : t < ys.length) {m s M l : Ser}
    (hm : rollingMean (ys.map .fin) w = .ok m) (hs : rollingStd (ys.map .fin) w = .ok s)
    (hM : rollingMax (ys.map .fin) w = .ok M) (hl : rollingMin (ys.map .fin) w = .ok l) :
    (m[t]? = some .nan ↔ t + 1 < w) ∧ (M[t]? = some .nan ↔ t + 1 < w) ∧ (l[t]? = some .nan ↔ t + 1 < w) ∧
      (2 ≤ w → (s[t]? = some .nan ↔ t + 1 < w)) := by
  have hlen : t < (List.map XF.fin ys).length := by simpa using ht
  by_cases h : t + 1 < w
  · have hno : ∀ y, ¬ Obs (ys.map .fin) y w t := fun y hy => by have := hy.1; omega
    exact ⟨by simp [rolling_nan hm hlen hno, h], by simp [rolling_nan hM hlen hno, h],
      by simp [rolling_nan hl hlen hno, h], fun _ => by simp [rolling_nan hs hlen hno, h]⟩
  · have hy : Obs (ys.map .fin) (fun i => ys.getD i 0) w t := by
      refine ⟨by omega, fun i hi => ?_⟩
      rw [mem_Ico] at hi
      have : i < ys.length := by omega
      rw [List.getElem?_map, List.getElem?_eq_getElem this]
      simp [List.getD_eq_getElem?_getD, List.getElem?_eq_getElem this]
    obtain ⟨M', hM', -⟩ := max_spec hw hM hy
    obtain ⟨l', hl', -⟩ := min_spec hw hl hy
    refine ⟨by simp [mean_spec hw hm hy, h], by simp [hM', h], by simp [hl', h], fun h2 => ?_⟩
    simp [std_spec h2 hs hy, h]

/-- Whatever the series: where one of rolling mean, maximum and minimum is defined all are, and
minimum <= mean <= maximum; the standard deviation is NaN or non-negative. -/
theorem rolling_order {x m s M l : Ser} {w t : Nat} (hw : 1 ≤ w) (ht : t < x.length)
    (hm : rollingMean x w = .ok m) (hs : rollingStd x w = .ok s)
    (hM : rollingMax x w = .ok M) (hl : rollingMin x w = .ok l) :
    (m[t]? = some .nan ∧ M[t]? = some .nan ∧ l[t]? = some .nan ∧ s[t]? = some .nan) ∨
      ∃ a b c, l[t]? = some (.fin a) ∧ m[t]? = some (.fin b) ∧ M[t]? = some (.fin c) ∧ a ≤ b ∧ b ≤ c ∧
        ((w = 1 ∧ s[t]? = some .nan) ∨ ∃ d, s[t]? = some (.fin d) ∧ 0 ≤ d) := by
  by_cases h : ∃ y, Obs x y w t
  · obtain ⟨y, hy⟩ := h
    right
    obtain ⟨c, hc, hcG⟩ := max_spec hw hM hy
    obtain ⟨a, ha, haL⟩ := min_spec hw hl hy
    have hw' : (0 : ℝ) < w := by exact_mod_cast hw
    have hcard : ((Ico (t + 1 - w) (t + 1)).card : ℝ) = w := by
      rw [Nat.card_Ico]
      congr 1
      have := hy.1
      omega
    refine ⟨a, _, c, ha, mean_spec hw hm hy, hc, ?_, ?_, ?_⟩
    · rw [meanOf, le_div_iff₀ hw', mul_comm, ← hcard, ← nsmul_eq_mul]
      exact Finset.card_nsmul_le_sum _ _ _ fun i hi => haL.2 ⟨i, by simpa using hi, rfl⟩
    · rw [meanOf, div_le_iff₀ hw', mul_comm, ← hcard, ← nsmul_eq_mul]
      exact Finset.sum_le_card_nsmul _ _ _ fun i hi => hcG.2 ⟨i, by simpa using hi, rfl⟩
    · by_cases h1 : w = 1
      · subst h1
        exact .inl ⟨rfl, std_window_one hs ht⟩
      · exact .inr ⟨_, std_spec (by omega) hs hy, Real.sqrt_nonneg _⟩
  · have hno : ∀ y, ¬ Obs x y w t := fun y hy => h ⟨y, hy⟩
    exact .inl ⟨rolling_nan hm ht hno, rolling_nan hM ht hno, rolling_nan hl ht hno, rolling_nan hs ht hno⟩

/-- Rescaling and shifting the series rescales and shifts the mean and rescales the standard deviation. -/
theorem affine (y : Nat → ℝ) (a b : ℝ) {w t : Nat} (hw : 1 ≤ w) (ht : w ≤ t + 1) :
    meanOf (fun i => a * y i + b) w t = a * meanOf y w t + b ∧
      stdOf (fun i => a * y i + b) w t = |a| * stdOf y w t := by
  have hcard : ((Ico (t + 1 - w) (t + 1)).card : ℝ) = w := by
    rw [Nat.card_Ico]
    congr 1
    omega
  have hw' : (w : ℝ) ≠ 0 := by exact_mod_cast (by omega : w ≠ 0)
  have h1 : meanOf (fun i => a * y i + b) w t = a * meanOf y w t + b := by
    rw [meanOf, Finset.sum_add_distrib, ← Finset.mul_sum, Finset.sum_const, nsmul_eq_mul, hcard, meanOf]
    field_simp
  refine ⟨h1, ?_⟩
  have e : ∀ i ∈ Ico (t + 1 - w) (t + 1),
      (a * y i + b - meanOf (fun i => a * y i + b) w t) ^ 2 = a ^ 2 * (y i - meanOf y w t) ^ 2 := by
    intro i _
    rw [h1]
    ring
  rw [stdOf, Finset.sum_congr rfl e, ← Finset.mul_sum, mul_div_assoc, Real.sqrt_mul (sq_nonneg a), Real.sqrt_sq_eq_abs,
    stdOf]

/-- Concrete case: the mean of the last two of `1, 3, 8`. -/
example : ∃ u, rollingMean [.fin 1, .fin 3, .fin 8] 2 = .ok u ∧ u[2]? = some (.fin (11 / 2)) ∧ u[0]? = some .nan := by
  obtain ⟨u, hu⟩ : ∃ u, rollingMean [.fin 1, .fin 3, .fin 8] 2 = .ok u := ⟨_, rolling_ok (by decide) _ _⟩
  refine ⟨u, hu, ?_, ?_⟩
  · rw [mean_spec (w := 2) (y := fun i => if i = 1 then 3 else 8) (by decide) hu ⟨by decide, ?_⟩, meanOf]
    · rw [show Ico (2 + 1 - 2) (2 + 1) = {1, 2} from rfl]
      norm_num
    · intro i hi
      rw [mem_Ico] at hi
      rcases (by omega : i = 1 ∨ i = 2) with rfl | rfl <;> simp
  · exact (leading_missing (ys := [1, 3, 8]) (w := 2) (t := 0) (by decide) (by decide) hu (rolling_ok (by decide) _ _)
      (rolling_ok (by decide) _ _) (rolling_ok (by decide) _ _)).1.2 (by decide)

end Verif.Props.IndRolling
