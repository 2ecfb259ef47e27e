import Verif.Props.SimX
import Verif.Props.SimFit
import Verif.Props.SimOUFit

/-!
# C90: calibration on data with missing, infinite or non-positive values
-/

namespace Verif.Sim

variable {chol : Arr → Option Arr} {x : XArr} {dt : ℝ}

/-! ### Agreement with the model on real numbers -/

theorem columns_ofArr (x : Arr) : (XArr.ofArr x).columns = (columns x).map (List.map .fin) := by
  unfold XArr.columns columns
  rw [List.map_map]
  refine List.map_congr_left fun j _ => ?_
  unfold XArr.col Arr.col
  simp only [Function.comp, List.map_map]
  exact List.map_congr_left fun i _ => rfl

theorem diffsX_fin (l : List ℝ) : diffsX (l.map .fin) = (diffs l).map .fin := by
  induction l with
  | nil => rfl
  | cons a l ih =>
    cases l with
    | nil => rfl
    | cons b l =>
      simp only [List.map_cons, diffsX, diffs] at ih ⊢
      rw [ih]
      rfl

theorem logRatiosX_fin {l : List ℝ} (h : (∀ x ∈ l, 0 < x) ∨ ∀ x ∈ l, x < 0) : logRatiosX (l.map .fin) = (logRatios l).map .fin := by
  induction l with
  | nil => rfl
  | cons a l ih =>
    cases l with
    | nil => rfl
    | cons b l =>
      have ih' := ih (h.imp (fun g y hy => g y (List.mem_cons_of_mem _ hy)) (fun g y hy => g y (List.mem_cons_of_mem _ hy)))
      simp only [List.map_cons, logRatiosX, logRatios] at ih' ⊢
      rw [ih']
      congr 1
      have hab : a ≠ 0 ∧ 0 < b / a := by
        rcases h with h | h
        · exact ⟨(h a (by simp)).ne', div_pos (h b (by simp)) (h a (by simp))⟩
        · exact ⟨(h a (by simp)).ne, div_pos_of_neg_of_neg (h b (by simp)) (h a (by simp))⟩
      show XF.log (if a = 0 then XF.infSign b else .fin (b / a)) = _
      rw [if_neg hab.1, XF.log, if_pos hab.2]

/-- C90. On numbers the Brownian calibration on floats is the calibration of C22. -/
theorem bm_fitX_agrees (chol : Arr → Option Arr) (x : Arr) (hdt : 0 < dt) :
    bmFitX chol (XArr.ofArr x) dt = (bmFit chol x dt).map BMFit.toX := by
  unfold bmFitX bmFit
  rw [columns_ofArr, ← fitIncrementsX_fin chol _ hdt]
  simp only [List.map_map]
  congr 1
  exact List.map_congr_left fun l _ => diffsX_fin l

/-- C90. On positive numbers the geometric calibration on floats is the calibration of C23. -/
theorem gbm_fitX_agrees (chol : Arr → Option Arr) {x : Arr} (hdt : 0 < dt) (hpos : Positive x) :
    gbmFitX chol (XArr.ofArr x) dt = (gbmFit chol x dt).map BMFit.toX := by
  unfold gbmFitX gbmFit
  rw [columns_ofArr, ← fitIncrementsX_fin chol _ hdt]
  simp only [List.map_map]
  congr 1
  refine List.map_congr_left fun l hl => logRatiosX_fin (.inl fun y hy => ?_)
  obtain ⟨j, hj, rfl⟩ := List.mem_map.mp hl
  obtain ⟨i, hi, rfl⟩ := List.mem_map.mp hy
  exact hpos i (List.mem_range.mp hi) j (List.mem_range.mp hj)

/-! ### Which data give numbers -/

/-- Changes are numbers exactly when the data are. -/
theorem diffsX_iff {c : List XF} (hc : 2 ≤ c.length) : (∀ d ∈ diffsX c, Fin' d) ↔ ∀ y ∈ c, Fin' y := by
  induction c with
  | nil => simp at hc
  | cons a l ih =>
    cases l with
    | nil => simp at hc
    | cons b l =>
      rw [diffsX]
      simp only [List.mem_cons, forall_eq_or_imp]
      have hab : Fin' (b - a) ↔ Fin' a ∧ Fin' b := by
        constructor
        · rintro ⟨r, hr⟩
          obtain ⟨x, y, rfl, rfl, -⟩ := XF.sub_eq_fin hr
          exact ⟨⟨_, rfl⟩, ⟨_, rfl⟩⟩
        · rintro ⟨⟨x, rfl⟩, ⟨y, rfl⟩⟩
          exact ⟨y - x, by show XF.fin _ = XF.fin _; congr 1⟩
      rw [hab]
      cases l with
      | nil => simp [diffsX]
      | cons c l =>
        have := ih (by simp)
        simp only [List.mem_cons, forall_eq_or_imp] at this ⊢
        rw [this]
        tauto

/-- A number of given sign. -/
def PosX (y : XF) : Prop := ∃ r : ℝ, 0 < r ∧ y = .fin r
def NegX (y : XF) : Prop := ∃ r : ℝ, r < 0 ∧ y = .fin r

theorem log_ratio_iff {a b : XF} : Fin' ((b / a).log) ↔ (PosX a ∧ PosX b) ∨ (NegX a ∧ NegX b) := by
  constructor
  · rintro ⟨r, hr⟩
    obtain ⟨q, hq, hpos, -⟩ := XF.log_eq_fin hr
    obtain ⟨y, rfl, ⟨x, rfl, hx, rfl⟩ | ⟨-, rfl⟩⟩ := XF.div_eq_fin hq
    · rcases lt_or_gt_of_ne hx with h | h
      · exact .inr ⟨⟨x, h, rfl⟩, ⟨y, by by_contra hy; exact absurd hpos (not_lt.mpr (div_nonpos_of_nonneg_of_nonpos (not_lt.mp hy) h.le)), rfl⟩⟩
      · exact .inl ⟨⟨x, h, rfl⟩, ⟨y, by by_contra hy; exact absurd hpos (not_lt.mpr (div_nonpos_of_nonpos_of_nonneg (not_lt.mp hy) h.le)), rfl⟩⟩
    · exact absurd hpos (lt_irrefl _)
  · rintro (⟨⟨x, hx, rfl⟩, ⟨y, hy, rfl⟩⟩ | ⟨⟨x, hx, rfl⟩, ⟨y, hy, rfl⟩⟩)
    · refine ⟨Real.log (y / x), ?_⟩
      show XF.log (if x = 0 then XF.infSign y else .fin (y / x)) = _
      rw [if_neg hx.ne', XF.log, if_pos (div_pos hy hx)]
    · refine ⟨Real.log (y / x), ?_⟩
      show XF.log (if x = 0 then XF.infSign y else .fin (y / x)) = _
      rw [if_neg hx.ne, XF.log, if_pos (div_pos_of_neg_of_neg hy hx)]

theorem pos_neg {y : XF} (h : PosX y) (h' : NegX y) : False := by
  obtain ⟨r, hr, rfl⟩ := h
  obtain ⟨r', hr', h'⟩ := h'
  cases h'
  linarith

/-- Log ratios are numbers exactly when the data are all positive numbers or all negative numbers. -/
theorem logRatiosX_iff {c : List XF} (hc : 2 ≤ c.length) : (∀ d ∈ logRatiosX c, Fin' d) ↔ (∀ y ∈ c, PosX y) ∨ ∀ y ∈ c, NegX y := by
  induction c with
  | nil => simp at hc
  | cons a l ih =>
    cases l with
    | nil => simp at hc
    | cons b l =>
      rw [logRatiosX]
      simp only [List.mem_cons, forall_eq_or_imp]
      rw [log_ratio_iff]
      cases l with
      | nil => simp [logRatiosX]
      | cons c l =>
        have := ih (by simp)
        simp only [List.mem_cons, forall_eq_or_imp] at this ⊢
        rw [this]
        constructor
        · rintro ⟨⟨h1, h2⟩ | ⟨h1, h2⟩, ⟨h3, h4⟩ | ⟨h3, h4⟩⟩
          · exact .inl ⟨h1, h3, h4⟩
          · exact (pos_neg h2 h3).elim
          · exact (pos_neg h3 h2).elim
          · exact .inr ⟨h1, h3, h4⟩
        · rintro (⟨h1, h2, h3⟩ | ⟨h1, h2, h3⟩)
          · exact ⟨.inl ⟨h1, h2⟩, .inl ⟨h2, h3⟩⟩
          · exact ⟨.inr ⟨h1, h2⟩, .inr ⟨h2, h3⟩⟩

/-! ### One column -/

theorem xmean_not_fin {l : List XF} (h : ∃ y ∈ l, ¬ Fin' y) (dt : ℝ) : ¬ Fin' (xmean l / .fin dt) := by
  rintro ⟨r, hr⟩
  obtain ⟨m, hm, -⟩ := XF.div_eq_fin hr
  unfold xmean at hm
  obtain ⟨q, hq, -⟩ := XF.div_eq_fin hm
  obtain ⟨y, hy, hne⟩ := h
  exact hne ((foldl_finite hq).2 y hy)

theorem nan_div_fin (d : ℝ) : (XF.nan / .fin d : XF) = .nan := rfl

/-- The fit of one column of changes. -/
theorem fit_one_special {l : List XF} (h : ∃ y ∈ l, ¬ Fin' y) (dt : ℝ) :
    ∃ d, fitIncrementsX chol [l] dt = .ok ⟨[d], [.nan], none, none⟩ ∧ ¬ Fin' d ∧ (XF.nan ∈ l → d = .nan) := by
  refine ⟨xmean l / .fin dt, ?_, xmean_not_fin h dt, fun hn => ?_⟩
  · unfold fitIncrementsX
    simp only [List.map_cons, List.map_nil, List.length_cons, List.length_nil, xstd1_special h, nan_div_fin]
    rw [if_neg (by norm_num)]
  · unfold xmean
    rw [xsum_nan hn]
    rfl

theorem columns_one (hx : x.cols = 1) : x.columns = [x.col 0] := by
  unfold XArr.columns
  rw [hx]
  rfl

theorem length_col (x : XArr) (j : Nat) : (x.col j).length = x.rows := by simp [XArr.col]

theorem mem_col {x : XArr} {j : Nat} {y : XF} : y ∈ x.col j ↔ ∃ i < x.rows, x.get i j = y := by simp [XArr.col]

/-- `nan` in the data gives `nan` in the changes. -/
theorem diffsX_nan {c : List XF} (hc : 2 ≤ c.length) (h : XF.nan ∈ c) : XF.nan ∈ diffsX c := by
  induction c with
  | nil => simp at hc
  | cons a l ih =>
    cases l with
    | nil => simp at hc
    | cons b l =>
      rw [diffsX]
      simp only [List.mem_cons] at h ⊢
      rcases h with h | h | h
      · left
        rw [← h]
        cases b <;> rfl
      · left
        rw [← h]
        cases a <;> rfl
      · right
        cases l with
        | nil => cases h
        | cons c l => exact ih (by simp) (by simp only [List.mem_cons] at h ⊢; right; exact h)

/-- C90. One column with a missing or infinite value, anywhere: the calibration does not fail and does not skip it; the volatility is
`nan`, the drift is not a number, and it is `nan` if a value is missing. -/
theorem bm_fit_missing_one (hcols : x.cols = 1) (hrows : 2 ≤ x.rows) (h : ∃ i < x.rows, ¬ Fin' (x.get i 0)) :
    ∃ d, bmFitX chol x dt = .ok ⟨[d], [.nan], none, none⟩ ∧ ¬ Fin' d ∧ ((∃ i < x.rows, x.get i 0 = .nan) → d = .nan) := by
  have hl : 2 ≤ (x.col 0).length := by rw [length_col]; exact hrows
  have hs : ∃ y ∈ diffsX (x.col 0), ¬ Fin' y := by
    by_contra hcon
    push Not at hcon
    obtain ⟨i, hi, hne⟩ := h
    exact hne ((diffsX_iff hl).mp hcon _ (mem_col.mpr ⟨i, hi, rfl⟩))
  obtain ⟨d, h1, h2, h3⟩ := fit_one_special (chol := chol) hs dt
  refine ⟨d, ?_, h2, fun ⟨i, hi, e⟩ => h3 (diffsX_nan hl (mem_col.mpr ⟨i, hi, e⟩))⟩
  unfold bmFitX
  rw [columns_one hcols]
  exact h1

/-- The data of a column can be calibrated by a geometric Brownian motion: all positive or all negative numbers. -/
def Usable (x : XArr) (j : Nat) : Prop := (∀ i < x.rows, PosX (x.get i j)) ∨ ∀ i < x.rows, NegX (x.get i j)

theorem usable_iff {j : Nat} (hrows : 2 ≤ x.rows) : Usable x j ↔ ∀ d ∈ logRatiosX (x.col j), Fin' d := by
  rw [logRatiosX_iff (by rw [length_col]; exact hrows)]
  unfold Usable
  simp only [mem_col, forall_exists_index, and_imp, forall_apply_eq_imp_iff₂]

/-- C90. One column: the geometric calibration never raises. Its drift and volatility are numbers exactly when the values are all
positive or all negative; one zero, one sign change or one missing or infinite value makes the volatility `nan` and the drift not a
number. -/
theorem gbm_fit_one (hdt : 0 < dt) (hcols : x.cols = 1) (hrows : 3 ≤ x.rows) :
    ∃ d v, gbmFitX chol x dt = .ok ⟨[d], [v], none, none⟩ ∧ (Usable x 0 → Fin' d ∧ Fin' v) ∧ (¬ Usable x 0 → ¬ Fin' d ∧ v = .nan) := by
  by_cases hu : Usable x 0
  · have hf := (usable_iff (by omega)).mp hu
    obtain ⟨m, hm⟩ := all_fin hf
    have hlen : (logRatiosX (x.col 0)).length = x.rows - 1 := by
      have : ∀ c : List XF, (logRatiosX c).length = c.length - 1 := by
        intro c
        induction c with
        | nil => rfl
        | cons a l ih =>
          cases l with
          | nil => rfl
          | cons b l => rw [logRatiosX, List.length_cons, ih]; rfl
      rw [this, length_col]
    have hml : 2 ≤ m.length := by
      have := congrArg List.length hm
      rw [List.length_map, hlen] at this
      omega
    unfold gbmFitX
    rw [columns_one hcols, List.map_cons, List.map_nil, hm]
    have := fitIncrementsX_fin chol [m] hdt
    rw [List.map_cons, List.map_nil] at this
    rw [this]
    unfold fitIncrements
    simp only [List.length_cons, List.length_nil, List.map_cons, List.map_nil]
    rw [if_neg (by norm_num)]
    refine ⟨_, _, rfl, fun _ => ⟨?_, ?_⟩, fun h => absurd hu h⟩
    · unfold npMean
      rw [if_neg (by rintro rfl; simp at hml)]
      exact ⟨_, rfl⟩
    · rw [npStd1_some hml]
      exact ⟨_, rfl⟩
  · have hs : ∃ y ∈ logRatiosX (x.col 0), ¬ Fin' y := by
      by_contra hcon
      push Not at hcon
      exact hu ((usable_iff (by omega)).mpr hcon)
    obtain ⟨d, h1, h2, -⟩ := fit_one_special (chol := chol) hs dt
    refine ⟨d, .nan, ?_, fun h => absurd h hu, fun _ => ⟨h2, rfl⟩⟩
    unfold gbmFitX
    rw [columns_one hcols]
    exact h1

/-! ### Several columns -/

/-- The zero-variance test on a column of changes. -/
theorem vol_zero_iff {l : List XF} (hdt : 0 < dt) :
    XF.eq (xstd1 l / .fin (Real.sqrt dt)) (.fin 0) ↔ 2 ≤ l.length ∧ ∃ d : ℝ, ∀ y ∈ l, y = .fin d := by
  have hsq := (Real.sqrt_pos.mpr hdt).ne'
  by_cases hf : ∀ y ∈ l, Fin' y
  · obtain ⟨m, rfl⟩ := all_fin hf
    rw [xstd1_fin, optX_div hsq, List.length_map]
    by_cases hm : 2 ≤ m.length
    · rw [npStd1_some hm]
      show Real.sqrt (sqDev m / (m.length - 1)) / Real.sqrt dt = 0 ↔ _
      have h1 : (0 : ℝ) < m.length - 1 := by
        have : (2 : ℝ) ≤ m.length := by exact_mod_cast hm
        linarith
      rw [div_eq_zero_iff, or_iff_left hsq, Real.sqrt_eq_zero (div_nonneg (sqDev_nonneg m) h1.le), div_eq_zero_iff, or_iff_left h1.ne']
      constructor
      · intro h0
        refine ⟨hm, lmean m, fun y hy => ?_⟩
        obtain ⟨r, hr, rfl⟩ := List.mem_map.mp hy
        rw [sqDev_eq_zero.mp h0 r hr]
      · rintro ⟨-, d, hd⟩
        have hne : m ≠ [] := by rintro rfl; simp at hm
        rw [all_eq_of_sqDev hne]
        intro u hu w hw
        have h1 := hd _ (List.mem_map.mpr ⟨u, hu, rfl⟩)
        have h2 := hd _ (List.mem_map.mpr ⟨w, hw, rfl⟩)
        cases h1
        cases h2
        rfl
    · have : npStd1 m = none := by
        unfold npStd1
        rw [if_pos (by omega)]
      rw [this]
      constructor
      · intro h; exact h.elim
      · intro h; exact absurd h.1 hm
  · push Not at hf
    rw [xstd1_special hf]
    constructor
    · intro h; exact h.elim
    · rintro ⟨-, d, hd⟩
      obtain ⟨y, hy, hne⟩ := hf
      exact absurd ⟨d, hd y hy⟩ hne

open Classical in
/-- C90. Several columns, one of them with a missing or infinite value: the calibration raises. The error is the `ValueError` about
zero variance if some column moves by the same amount in every row, and otherwise the `LinAlgError` of the Cholesky factorisation: the
missing value itself is never named. -/
theorem bm_fit_missing_many (hdt : 0 < dt) (hcols : 1 < x.cols) (hrows : 3 ≤ x.rows)
    (h : ∃ j < x.cols, ∃ i < x.rows, ¬ Fin' (x.get i j)) :
    bmFitX chol x dt = .error (if ∃ j < x.cols, ∃ d : ℝ, ∀ i, i + 1 < x.rows → x.get (i + 1) j - x.get i j = .fin d then .valueError
      else .linAlgError) := by
  have hdf : ∀ j, diffsX (x.col j) = (List.range (x.rows - 1)).map fun i => x.get (i + 1) j - x.get i j := by
    intro j
    have : ∀ (n : Nat) (f : Nat → XF), diffsX ((List.range (n + 1)).map f) = (List.range n).map fun i => f (i + 1) - f i := by
      intro n
      induction n with
      | zero => intro f; rfl
      | succ n ih =>
        intro f
        rw [List.range_succ_eq_map, List.map_cons, List.map_map, List.range_succ_eq_map, List.map_cons, List.map_map, diffsX,
          List.map_cons, List.map_map]
        congr 1
        have := ih (f ∘ Nat.succ)
        rw [List.range_succ_eq_map, List.map_cons, List.map_map] at this
        exact this
    have e : x.rows = (x.rows - 1) + 1 := by omega
    unfold XArr.col
    rw [e, this]
    rw [← e]
  unfold bmFitX
  rw [fitIncrementsX_special]
  · have key : ∀ {p q : Prop} (_ : Decidable p) (_ : Decidable q), (p ↔ q) → (if p then PyErr.valueError else .linAlgError) =
        (if q then PyErr.valueError else .linAlgError) := fun _ _ h => if_congr h rfl rfl
    refine congrArg Except.error (key _ _ ?_)
    simp only [List.map_map, XArr.columns, List.mem_map, List.mem_range, exists_exists_and_eq_and, Function.comp]
    refine exists_congr fun j => and_congr_right fun hj => ?_
    rw [vol_zero_iff hdt, hdf, List.length_map, List.length_range, and_iff_right (by omega)]
    refine exists_congr fun d => ?_
    simp only [List.mem_map, List.mem_range, forall_exists_index, and_imp, forall_apply_eq_imp_iff₂]
    exact forall_congr' fun i => ⟨fun g hi => g (by omega), fun g hi => g (by omega)⟩
  · obtain ⟨j, hj, i, hi, hne⟩ := h
    refine ⟨diffsX (x.col j), List.mem_map.mpr ⟨x.col j, List.mem_map.mpr ⟨j, List.mem_range.mpr hj, rfl⟩, rfl⟩, ?_⟩
    by_contra hcon
    push Not at hcon
    exact hne ((diffsX_iff (by rw [length_col]; omega)).mp hcon _ (mem_col.mpr ⟨i, hi, rfl⟩))
  · simpa [XArr.columns] using hcols

/-- C90. Several columns, one of them not all positive and not all negative: the geometric calibration raises `LinAlgError`, or the
`ValueError` about zero variance if another column has constant growth. -/
theorem gbm_fit_bad_many (hdt : 0 < dt) (hcols : 1 < x.cols) (hrows : 3 ≤ x.rows) (h : ∃ j < x.cols, ¬ Usable x j) :
    gbmFitX chol x dt = .error .linAlgError ∨ gbmFitX chol x dt = .error .valueError ∧
      ∃ j < x.cols, ∃ d : ℝ, ∀ y ∈ logRatiosX (x.col j), y = .fin d := by
  unfold gbmFitX
  rw [fitIncrementsX_special]
  · split
    · rename_i hz
      refine .inr ⟨rfl, ?_⟩
      simp only [List.map_map, XArr.columns, List.mem_map, List.mem_range, exists_exists_and_eq_and, Function.comp] at hz
      obtain ⟨j, hj, e⟩ := hz
      rw [vol_zero_iff hdt] at e
      exact ⟨j, hj, e.2⟩
    · exact .inl rfl
  · obtain ⟨j, hj, hu⟩ := h
    refine ⟨logRatiosX (x.col j), List.mem_map.mpr ⟨x.col j, List.mem_map.mpr ⟨j, List.mem_range.mpr hj, rfl⟩, rfl⟩, ?_⟩
    by_contra hcon
    push Not at hcon
    exact hu ((usable_iff (by omega)).mpr hcon)
  · simpa [XArr.columns] using hcols

/-! ### Negative data -/

theorem neg_div_neg {a b : XF} (ha : a ≠ .fin 0) : (-b) / (-a) = b / a := by
  show XF.div (XF.neg b) (XF.neg a) = XF.div b a
  cases a with
  | fin r =>
    have hr : r ≠ 0 := fun e => ha (by rw [e])
    cases b with
    | fin q =>
      simp only [XF.neg, XF.div, if_neg hr, if_neg (neg_ne_zero.mpr hr), neg_div_neg_eq]
    | nan => rfl
    | pinf =>
      simp only [XF.neg, XF.div]
      rcases lt_or_gt_of_ne hr with h | h
      · rw [if_neg (by linarith), if_pos h]
      · rw [if_pos (by linarith), if_neg (by linarith)]
    | ninf =>
      simp only [XF.neg, XF.div]
      rcases lt_or_gt_of_ne hr with h | h
      · rw [if_neg (by linarith), if_pos h]
      · rw [if_pos (by linarith), if_neg (by linarith)]
  | nan => cases b <;> rfl
  | pinf => cases b <;> rfl
  | ninf => cases b <;> rfl

/-- C90. The geometric calibration does not see the sign: data without zeros and their negatives give the same fit. Prices that are
all negative are accepted without notice. -/
theorem gbm_fit_negate (h0 : ∀ i < x.rows, ∀ j < x.cols, x.get i j ≠ .fin 0) :
    gbmFitX chol (x.map (- ·)) dt = gbmFitX chol x dt := by
  unfold gbmFitX
  congr 1
  unfold XArr.columns
  rw [List.map_map, List.map_map]
  refine List.map_congr_left fun j hj => ?_
  have hj' : j < x.cols := List.mem_range.mp hj
  show logRatiosX ((x.map (- ·)).col j) = logRatiosX (x.col j)
  have e : (x.map (- ·)).col j = (x.col j).map (- ·) := by
    unfold XArr.col
    rw [List.map_map]
    rfl
  rw [e]
  have hne : ∀ y ∈ x.col j, y ≠ .fin 0 := by
    intro y hy
    obtain ⟨i, hi, rfl⟩ := mem_col.mp hy
    exact h0 i hi j hj'
  generalize x.col j = c at hne
  induction c with
  | nil => rfl
  | cons a l ih =>
    cases l with
    | nil => rfl
    | cons b l =>
      have ih' := ih fun y hy => hne y (List.mem_cons_of_mem _ hy)
      simp only [List.map_cons, logRatiosX] at ih' ⊢
      rw [ih', neg_div_neg (hne a (by simp))]

/-! ### What a fit with `nan` does next -/

/-- C90. Calibrating on one column with a missing or infinite value and then sampling: success, and every value after the first row is
`nan`. -/
theorem bm_fit_missing_sample (hcols : x.cols = 1) (hrows : 2 ≤ x.rows) (h : ∃ i < x.rows, ¬ Fin' (x.get i 0))
    (w : XF) (dt' : ℝ) (s n : Nat) (z : Nat → ℝ) : ∃ r a, bmFitX chol x dt = .ok r ∧ bmSampleX ⟨r.drift, r.vol, r.L⟩ [w] dt' s n z = .ok a ∧
      ∀ t q, q < n → a.get (t + 1) q = .nan := by
  obtain ⟨d, h1, -⟩ := bm_fit_missing_one (chol := chol) (dt := dt) hcols hrows h
  obtain ⟨a, ha⟩ := (bmX_succeeds_iff (p := ⟨[d], [.nan], none⟩) (x0 := [w]) (dt := dt') (z := z) s n).mpr
    ⟨by norm_num, .inl rfl, .inl rfl, by simp, by norm_num, by norm_num⟩
  refine ⟨_, a, h1, ha, fun t q hq => ?_⟩
  have := bm_nan_parameter (j := 0) ha hq (by norm_num) (.inr rfl) t
  simpa using this

/-- C90. The same for a geometric Brownian motion calibrated on a column with a zero, a sign change or a missing value. -/
theorem gbm_fit_bad_sample (hdt : 0 < dt) (hcols : x.cols = 1) (hrows : 3 ≤ x.rows) (h : ¬ Usable x 0)
    (w : XF) (dt' : ℝ) (s n : Nat) (z : Nat → ℝ) : ∃ r a, gbmFitX chol x dt = .ok r ∧
      gbmSampleX ⟨r.drift, r.vol, r.L⟩ [w] dt' s n z = .ok a ∧ ∀ t q, q < n → a.get (t + 1) q = .nan := by
  obtain ⟨d, v, h1, -, h2⟩ := gbm_fit_one (chol := chol) hdt hcols hrows
  obtain ⟨-, rfl⟩ := h2 h
  obtain ⟨a, ha⟩ := (gbmX_succeeds_iff (p := ⟨[d], [.nan], none⟩) (x0 := [w]) (dt := dt') (z := z) s n).mpr
    ⟨by norm_num, .inl rfl, .inl rfl, by simp, by norm_num, by norm_num⟩
  refine ⟨_, a, h1, ha, fun t q hq => ?_⟩
  have := gbm_nan_parameter (j := 0) ha hq (by norm_num) (.inr rfl) t
  simpa using this

/-! ### Ornstein–Uhlenbeck: a slope of one -/

theorem ouLine_pos (c : List ℝ) : 0 < (ouLine c).1 := by
  have htol : 0 < slopeTol := by unfold slopeTol; positivity
  unfold ouLine
  dsimp only
  split
  · exact htol
  · rename_i hle; exact htol.trans (not_le.mp hle)

/-- C90. For one column and a slope other than one, the calibration on floats is the calibration of C24. -/
theorem ou_fitX_agrees {x : Arr} (hdt : 0 < dt) (hcols : x.cols = 1) {r : OUFit} (hr : ouFit chol x dt = .ok r)
    (hne : (ouLine (x.col 0)).1 ≠ 1) : ouFitX (x.col 0) dt = ⟨.fin r.mean, .fin r.mrr, r.vol.map optX⟩ := by
  have hcol : columns x = [x.col 0] := by
    unfold columns
    rw [hcols]
    rfl
  unfold ouFit at hr
  simp only [hcol, hcols, List.map_cons, List.map_nil, List.getLast?_singleton, if_neg (lt_irrefl 1)] at hr
  cases hr
  have hp := ouLine_pos (x.col 0)
  unfold ouFitX ouFinish
  generalize (ouLine (x.col 0)).1 = sl at *
  have e1 : (-(XF.fin sl).log / XF.fin dt) = .fin (-Real.log sl / dt) := by
    show XF.div (XF.neg (if 0 < sl then _ else _)) _ = _
    rw [if_pos hp]
    show (if dt = 0 then _ else _) = _
    rw [if_neg hdt.ne']
  have e2 : XF.fin (ouLine (x.col 0)).2 / (.fin 1 - XF.fin sl) = .fin ((ouLine (x.col 0)).2 / (1 - sl)) := by
    show (if 1 + -sl = 0 then _ else XF.fin ((ouLine (x.col 0)).2 / (1 + -sl))) = _
    rw [if_neg (by intro h; apply hne; linarith), ← sub_eq_add_neg]
  simp only [e1, e2, List.map_cons, List.map_nil, xstd1_fin]
  congr 2
  cases npStd1 (ouResiduals (x.col 0)) with
  | none => rfl
  | some sd =>
    show XF.sqrt (if 1 + -sl ^ 2 = 0 then _ else XF.fin (2 * (-Real.log sl / dt) * (sd * sd) / (1 + -sl ^ 2))) = XF.fin _
    have hsq : 1 - sl ^ 2 ≠ 0 := by
      intro h
      have : (sl - 1) * (sl + 1) = 0 := by linarith
      rcases mul_eq_zero.mp this with h | h
      · exact hne (by linarith)
      · linarith
    rw [if_neg (by rw [← sub_eq_add_neg]; exact hsq), ← sub_eq_add_neg, ← sq, XF.sqrt, if_neg]
    rw [not_lt]
    rcases lt_or_gt_of_ne hne with h | h
    · refine div_nonneg (mul_nonneg (mul_nonneg (by norm_num) (div_nonneg ?_ hdt.le)) (sq_nonneg _)) (by nlinarith)
      have := Real.log_neg hp h
      linarith
    · refine div_nonneg_of_nonpos (mul_nonpos_of_nonpos_of_nonneg (mul_nonpos_of_nonneg_of_nonpos (by norm_num)
        (div_nonpos_of_nonpos_of_nonneg ?_ hdt.le)) (sq_nonneg _)) (by nlinarith)
      have := Real.log_pos h
      linarith

/-- C90. A fitted slope of one: the rate is zero, the volatility `nan` and the mean infinite with the sign of the intercept, `nan` if
that is zero. -/
theorem ou_fit_unit_slope {c : List ℝ} (h1 : (ouLine c).1 = 1) (hdt : 0 < dt) :
    ouFitX c dt = ⟨XF.infSign (ouLine c).2, .fin 0, [.nan]⟩ := by
  unfold ouFitX ouFinish
  rw [h1]
  have e0 : (-(XF.fin 1).log / XF.fin dt) = .fin 0 := by
    show XF.div (XF.neg (if (0 : ℝ) < 1 then _ else _)) _ = _
    rw [if_pos one_pos]
    show (if dt = 0 then _ else XF.fin (-Real.log 1 / dt)) = _
    rw [if_neg hdt.ne', Real.log_one, neg_zero, zero_div]
  have e1 : XF.fin (ouLine c).2 / (.fin 1 - XF.fin 1) = XF.infSign (ouLine c).2 := by
    show (if (1 : ℝ) + -1 = 0 then _ else _) = _
    rw [if_pos (by norm_num)]
  have e2 : (XF.fin 1 - XF.fin ((1 : ℝ) ^ 2)) = .fin 0 := by
    show XF.fin _ = XF.fin _
    norm_num
  simp only [e0, e1, e2, List.map_cons, List.map_nil]
  congr 2
  rw [xstd1_fin]
  cases npStd1 (ouResiduals c) with
  | none => rfl
  | some sd =>
    show XF.sqrt (if (0 : ℝ) = 0 then XF.infSign (2 * 0 * (sd * sd)) else _) = _
    rw [if_pos rfl, mul_zero, zero_mul]
    simp [XF.infSign, XF.sqrt]

/-- C90. Data on a straight line that is not flat, of any length from three rows on, have a fitted slope of one: the calibration returns
an infinite mean, a rate of zero and a volatility of `nan`, without an error. -/
theorem ou_fit_linear {a b : ℝ} (hb : b ≠ 0) {n : Nat} (hn : 2 ≤ n) (hdt : 0 < dt) :
    ouFitX ((List.range (n + 1)).map fun i : ℕ => a + b * i) dt = ⟨if 0 < b then .pinf else .ninf, .fin 0, [.nan]⟩ := by
  have hdev : sqDev ((List.range n).map fun i : ℕ => a + b * i) ≠ 0 := by
    intro hcon
    rw [all_eq_of_sqDev (by simp; omega)] at hcon
    have h1 := hcon (a + b * (0 : ℕ)) (List.mem_map.mpr ⟨0, by simp; omega, rfl⟩) (a + b * (1 : ℕ))
      (List.mem_map.mpr ⟨1, by simp; omega, rfl⟩)
    push_cast at h1
    exact hb (by linarith)
  have hy : ((List.range n).map fun i : ℕ => a + b * ((i + 1 : ℕ) : ℝ)) = ((List.range n).map fun i : ℕ => a + b * i).map fun y => b + 1 * y := by
    rw [List.map_map]
    apply List.map_congr_left
    intro i _
    simp only [Function.comp]
    push_cast
    ring
  have hline : ouLine ((List.range (n + 1)).map fun i : ℕ => a + b * i) = (1, b) := by
    unfold ouLine
    rw [tail_range_map, dropLast_range_map, hy, lstsqLine_exact hdev]
    exact if_neg (by unfold slopeTol; norm_num)
  rw [ou_fit_unit_slope (by rw [hline]) hdt, hline]
  congr 1
  unfold XF.infSign
  rcases lt_or_gt_of_ne hb with h | h
  · rw [if_neg (by linarith), if_pos h, if_neg (by linarith)]
  · rw [if_pos h, if_pos h]

/-- C90. A new model built from the parameters fitted at a slope of one (the fitted object itself cannot sample, C24): `nan` after the
first row. -/
theorem ou_fit_unit_sample {c : List ℝ} (h1 : (ouLine c).1 = 1) (hdt : 0 < dt) {w : XF} {dt' : ℝ} {s n : Nat} {z : Nat → ℝ} {a : XArr}
    (ha : ouSampleX ⟨[(ouFitX c dt).mean], [(ouFitX c dt).mrr], (ouFitX c dt).vol, none⟩ [w] dt' s n z = .ok a) :
    ∀ t < s, ∀ q < n, a.get (t + 1) q = .nan := by
  rw [ou_fit_unit_slope h1 hdt] at ha
  intro t ht q hq
  have := ou_zero_rate (j := 0) ha rfl rfl (.inl rfl) hq (by norm_num) ht
  simpa using this

/-! ### Concrete cases -/

/-- Five prices with one missing: no error, volatility `nan`. -/
example : ∃ d, bmFitX chol ⟨5, 1, fun k => if k = 2 then .nan else .fin k⟩ 1 = .ok ⟨[d], [.nan], none, none⟩ ∧ d = .nan := by
  obtain ⟨d, h1, -, h2⟩ := bm_fit_missing_one (chol := chol) (x := ⟨5, 1, fun k => if k = 2 then .nan else .fin k⟩) (dt := 1) rfl
    (by norm_num) ⟨2, by norm_num, by rintro ⟨r, hr⟩; cases hr⟩
  exact ⟨d, h1, h2 ⟨2, by norm_num, rfl⟩⟩

/-- Two columns, one with a missing value: the other column decides the error. -/
example : bmFitX chol ⟨4, 2, fun k => if k = 4 then .nan else if k = 6 then .fin 1 else .fin 0⟩ 1 = .error .valueError := by
  rw [bm_fit_missing_many one_pos (by norm_num) (by norm_num) ⟨0, by norm_num, 2, by norm_num, by rintro ⟨r, hr⟩; cases hr⟩, if_pos]
  refine ⟨1, by norm_num, 0, fun i hi => ?_⟩
  have : i = 0 ∨ i = 1 ∨ i = 2 := by change i + 1 < 4 at hi; omega
  rcases this with rfl | rfl | rfl <;>
    · show XF.fin (0 + -0) = XF.fin 0
      norm_num

/-- A price of zero: `nan`; the same prices without it give numbers. -/
example : ∃ d v d' v', gbmFitX chol ⟨4, 1, fun k => if k = 2 then .fin 0 else .fin (k + 1)⟩ 1 = .ok ⟨[d], [v], none, none⟩ ∧ v = .nan ∧
    gbmFitX chol ⟨4, 1, fun k => .fin (k + 1)⟩ 1 = .ok ⟨[d'], [v'], none, none⟩ ∧ Fin' d' ∧ Fin' v' := by
  obtain ⟨d, v, h1, -, h2⟩ := gbm_fit_one (chol := chol) (x := ⟨4, 1, fun k => if k = 2 then .fin 0 else .fin (k + 1)⟩) one_pos rfl (by norm_num)
  obtain ⟨d', v', g1, g2, -⟩ := gbm_fit_one (chol := chol) (x := ⟨4, 1, fun k => .fin (k + 1)⟩) one_pos rfl (by norm_num)
  refine ⟨d, v, d', v', h1, (h2 ?_).2, g1, g2 (.inl fun i _ => ⟨_, by positivity, rfl⟩)⟩
  rintro (h | h)
  · obtain ⟨r, hr, e⟩ := h 2 (by norm_num)
    cases e
    exact lt_irrefl _ hr
  · obtain ⟨r, hr, e⟩ := h 2 (by norm_num)
    cases e
    exact lt_irrefl _ hr

/-- The data `1, 2, 3, 4`. -/
example : ouFitX [1, 2, 3, 4] 1 = ⟨.pinf, .fin 0, [.nan]⟩ := by
  have := ou_fit_linear (a := 1) (b := 1) one_ne_zero (n := 3) (by norm_num) (dt := 1) one_pos
  rw [if_pos one_pos] at this
  rw [← this]
  norm_num [List.range_succ]

end Verif.Sim
