import Verif.Props.SimXLikOU

/-!
# C97: Ornstein–Uhlenbeck calibration of any number of columns on data with missing or infinite values
-/

namespace Verif.Sim

variable {lsq : List XF → List XF → Py (XF × XF)} {chol : Arr → Option Arr} {x : XArr} {dt : ℝ}

/-! ### Correlation matrices of special and of ordinary residuals -/

theorem xchol_special {dx : List (List XF)} (h : ∃ l ∈ dx, ∃ x ∈ l, ¬ Fin' x) : xchol chol dx = none := by
  unfold xchol
  rw [if_neg]
  intro hall
  obtain ⟨l, hl, hx⟩ := h
  obtain ⟨i, hi, rfl⟩ := List.getElem_of_mem hl
  refine hall i hi i hi ?_
  rw [xcor_nan (by rw [List.getD_eq_getElem _ _ hi]; exact xcross_special hx)]
  rfl

theorem xchol_zero {dx : List (List ℝ)} (h : ∃ l ∈ dx, sqDev l = 0) : xchol chol (dx.map (List.map .fin)) = none := by
  unfold xchol
  rw [if_neg]
  intro hall
  obtain ⟨l, hl, hz⟩ := h
  obtain ⟨i, hi, rfl⟩ := List.getElem_of_mem hl
  refine hall i (by simpa using hi) i (by simpa using hi) ?_
  rw [xcor_zero (by rw [List.getD_eq_getElem _ _ hi]; exact hz)]
  rfl

theorem xchol_fin {dx : List (List ℝ)} (h0 : dx.length ≠ 0) (hpos : ∀ l ∈ dx, sqDev l ≠ 0) :
    xchol chol (dx.map (List.map .fin)) = (chol (corrcoef dx)).map fun L => (corrcoef dx, L) := by
  have hgd : ∀ i < dx.length, sqDev (dx.getD i []) ≠ 0 := fun i hi => by
    rw [List.getD_eq_getElem _ _ hi]
    exact hpos _ (List.getElem_mem hi)
  have hA : (⟨dx.length, dx.length, fun k => ((xcor (dx.map (List.map .fin)) (k / dx.length) (k % dx.length)).real?).getD 0⟩ : Arr) =
      corrcoef dx := by
    unfold corrcoef
    congr 1
    funext k
    have hm := hgd (k % dx.length) (Nat.mod_lt _ (by omega))
    by_cases hi : k / dx.length < dx.length
    · rw [xcor_fin (hgd _ hi) hm]
      rfl
    · have hnil : dx.getD (k / dx.length) [] = [] := List.getD_eq_default _ _ (not_lt.mp hi)
      rw [xcor_zero (by rw [hnil]; rfl)]
      dsimp only
      rw [hnil]
      simp only [crossDev, List.zipWith_nil_left, List.sum_nil, zero_div, clip1_zero]
      rfl
  unfold xchol
  rw [if_pos]
  · simp only [List.length_map, hA]
  · intro i hi j hj
    simp only [List.length_map] at hi hj
    rw [xcor_fin (hgd _ hi) (hgd _ hj)]
    simp

theorem badColumn_iff (l : List ℝ) : badColumn l ↔ sqDev l = 0 := by
  unfold badColumn npStd1
  by_cases h : l.length ≤ 1
  · rw [if_pos h]
    exact ⟨fun _ => crossDev_le_one h, fun _ => .inr rfl⟩
  · rw [if_neg h]
    have h1 : (0 : ℝ) < l.length - 1 := by
      have : (2 : ℝ) ≤ l.length := by exact_mod_cast (by omega : 2 ≤ l.length)
      linarith
    have h2 : 0 ≤ sqDev l := by
      unfold sqDev
      refine List.sum_nonneg fun y hy => ?_
      obtain ⟨w, -, rfl⟩ := List.mem_map.mp hy
      positivity
    simp only [Option.some.injEq, reduceCtorEq, or_false]
    rw [Real.sqrt_eq_zero (div_nonneg h2 h1.le), div_eq_zero_iff]
    constructor
    · rintro (h | h)
      · exact h
      · linarith
    · exact .inl

/-! ### Lines and residuals -/

theorem ouLineX_fin (hl : Lstsq lsq) {c : List ℝ} (hc : 2 ≤ c.length) :
    ouLineX lsq (c.map .fin) = .ok (.fin (ouLine c).1, .fin (ouLine c).2) := by
  unfold ouLineX ouLine
  rw [← List.map_dropLast, ← List.map_tail, hl.num _ _ (by simp)]
  have hne : c.tail ≠ [] := by
    rw [← List.length_pos_iff, List.length_tail]
    omega
  simp only [bind, Except.bind]
  congr 1
  have hiff : (XF.lt (.fin (lstsqLine c.dropLast c.tail).1) (.fin slopeTol) ∨ XF.eq (.fin (lstsqLine c.dropLast c.tail).1) (.fin slopeTol)) ↔
      (lstsqLine c.dropLast c.tail).1 ≤ slopeTol := by
    rw [le_iff_lt_or_eq]
    rfl
  by_cases h : (lstsqLine c.dropLast c.tail).1 ≤ slopeTol
  · rw [if_pos (hiff.mpr h), if_pos h, xmean_fin hne]
  · rw [if_neg fun h' => h (hiff.mp h'), if_neg h]

theorem ouResidualsX_fin (c : List ℝ) :
    ouResidualsX (.fin (ouLine c).1, .fin (ouLine c).2) (c.map .fin) = (ouResiduals c).map .fin := by
  unfold ouResidualsX ouResiduals
  rw [← List.map_dropLast, ← List.map_tail, List.zipWith_map, List.map_zipWith]
  congr 1

theorem special_split {c : List XF} (hc : 2 ≤ c.length) (h : ∃ y ∈ c, ¬ Fin' y) :
    ∃ a, (a ∈ c.dropLast ∨ a ∈ c.tail) ∧ a.real? = none := by
  obtain ⟨y, hy, hne⟩ := h
  refine ⟨y, ?_, fin_of_real.mpr hne⟩
  cases c with
  | nil => cases hy
  | cons a l =>
    rcases List.mem_cons.mp hy with rfl | hy
    · left
      cases l with
      | nil => simp at hc
      | cons b l => simp
    · exact .inr hy

/-- A column with a special value: the solver fails, or slope, intercept and all residuals are `nan`. -/
theorem ouLineX_special (hl : Lstsq lsq) {c : List XF} (hc : 2 ≤ c.length) (h : ∃ y ∈ c, ¬ Fin' y) :
    ouLineX lsq c = .error .linAlgError ∨ ouLineX lsq c = .ok (.nan, .nan) := by
  unfold ouLineX
  rcases hl.special _ _ (special_split hc h) with e | e <;> rw [e]
  · exact .inl rfl
  · right
    simp only [bind, Except.bind]
    rw [if_neg]
    rintro (h | h) <;> exact h

theorem nan_residuals {c : List XF} : ∀ r ∈ ouResidualsX (.nan, .nan) c, r = .nan := by
  intro r hr
  unfold ouResidualsX at hr
  obtain ⟨i, hi, rfl⟩ := List.getElem_of_mem hr
  rw [List.getElem_zipWith]
  have : ∀ a b : XF, b - (XF.nan * a + .nan) = .nan := by
    intro a b
    cases a <;> cases b <;> rfl
  exact this _ _

theorem length_residuals (ab : XF × XF) (c : List XF) : (ouResidualsX ab c).length = c.length - 1 := by
  unfold ouResidualsX
  rw [List.length_zipWith, List.length_dropLast, List.length_tail]
  omega

/-- The loop over the columns: it can only fail in the solver; otherwise a column with a special value has `nan` residuals. -/
theorem ouLinesX_special (hl : Lstsq lsq) {cs : List (List XF)} (hc : ∀ c ∈ cs, 2 ≤ c.length) (h : ∃ c ∈ cs, ∃ y ∈ c, ¬ Fin' y) :
    ouLinesX lsq cs = .error .linAlgError ∨ ∃ r, ouLinesX lsq cs = .ok r ∧ r.2.length = cs.length ∧ ∃ l ∈ r.2, XF.nan ∈ l := by
  have gen : ∀ cs : List (List XF), (∀ c ∈ cs, 2 ≤ c.length) → (ouLinesX lsq cs = .error .linAlgError ∨
      ∃ r, ouLinesX lsq cs = .ok r ∧ r.2.length = cs.length) := by
    intro cs
    induction cs with
    | nil => exact fun _ => .inr ⟨_, rfl, rfl⟩
    | cons c cs ih =>
      intro hc
      unfold ouLinesX
      have h1 : ouLineX lsq c = .error .linAlgError ∨ ∃ ab, ouLineX lsq c = .ok ab := by
        by_cases hs : ∃ y ∈ c, ¬ Fin' y
        · rcases ouLineX_special hl (hc c (by simp)) hs with e | e
          · exact .inl e
          · exact .inr ⟨_, e⟩
        · push Not at hs
          obtain ⟨m, rfl⟩ := all_fin hs
          exact .inr ⟨_, ouLineX_fin hl (by simpa using hc (m.map .fin) (by simp))⟩
      rcases h1 with e | ⟨ab, e⟩ <;> rw [e]
      · exact .inl rfl
      · rcases ih fun c h => hc c (by simp [h]) with e' | ⟨r, e', hr⟩ <;> rw [e']
        · exact .inl rfl
        · exact .inr ⟨_, rfl, by simp [hr]⟩
  induction cs with
  | nil => obtain ⟨c, hc, -⟩ := h; cases hc
  | cons c cs ih =>
    obtain ⟨c', hc', hs⟩ := h
    rcases List.mem_cons.mp hc' with rfl | hc'
    · unfold ouLinesX
      rcases ouLineX_special hl (hc c' (by simp)) hs with e | e <;> rw [e]
      · exact .inl rfl
      · rcases gen cs fun c h => hc c (by simp [h]) with e' | ⟨r, e', hr⟩ <;> rw [e']
        · exact .inl rfl
        · refine .inr ⟨_, rfl, by simp [hr], ouResidualsX (.nan, .nan) c', by simp, ?_⟩
          have : ouResidualsX (.nan, .nan) c' ≠ [] := by
            rw [← List.length_pos_iff, length_residuals]
            have := hc c' (by simp)
            omega
          obtain ⟨y, hy⟩ := List.exists_mem_of_ne_nil _ this
          rwa [nan_residuals y hy] at hy
    · have ih' := ih (fun c h => hc c (by simp [h])) ⟨c', hc', hs⟩
      unfold ouLinesX
      rcases gen [c] (fun d hd => hc d (by simp at hd; simp [hd])) with e | ⟨r, e, -⟩
      · unfold ouLinesX ouLinesX at e
        cases h1 : ouLineX lsq c with
        | error e' => rw [h1] at e; cases e; exact .inl rfl
        | ok ab => rw [h1] at e; cases e
      · unfold ouLinesX ouLinesX at e
        cases h1 : ouLineX lsq c with
        | error e' => rw [h1] at e; cases e
        | ok ab =>
          rcases ih' with e' | ⟨r, e', hr, l, hl', hn⟩ <;> rw [e']
          · exact .inl rfl
          · exact .inr ⟨_, rfl, by simp [hr], l, by simp [hl'], hn⟩

/-! ### The calibration -/

/-- The volatility of the last step of the calibration, on numbers. -/
theorem ou_vol_fin {sl sd : ℝ} (hp : 0 < sl) (hne : sl ≠ 1) (hdt : 0 < dt) :
    ((XF.fin 2 * .fin (-Real.log sl / dt) * (.fin sd * .fin sd)) / (.fin 1 - .fin sl * .fin sl)).sqrt =
      XF.fin (Real.sqrt (2 * (-Real.log sl / dt) * sd ^ 2 / (1 - sl ^ 2))) := by
  show XF.sqrt (if 1 + -(sl * sl) = 0 then _ else XF.fin (2 * (-Real.log sl / dt) * (sd * sd) / (1 + -(sl * sl)))) = XF.fin _
  have hsq : 1 - sl ^ 2 ≠ 0 := by
    intro h
    have : (sl - 1) * (sl + 1) = 0 := by linarith
    rcases mul_eq_zero.mp this with h | h
    · exact hne (by linarith)
    · linarith
  rw [← sq, ← sq, if_neg (by rw [← sub_eq_add_neg]; exact hsq), ← sub_eq_add_neg, XF.sqrt, if_neg]
  rw [not_lt]
  rcases lt_or_gt_of_ne hne with h | h
  · refine div_nonneg (mul_nonneg (mul_nonneg (by norm_num) (div_nonneg ?_ hdt.le)) (sq_nonneg _)) (by nlinarith)
    have := Real.log_neg hp h
    linarith
  · refine div_nonneg_of_nonpos (mul_nonpos_of_nonpos_of_nonneg (mul_nonpos_of_nonneg_of_nonpos (by norm_num)
      (div_nonpos_of_nonpos_of_nonneg ?_ hdt.le)) (sq_nonneg _)) (by nlinarith)
    have := Real.log_pos h
    linarith

/-- C97. Several columns: one missing or infinite value anywhere and the calibration raises `LinAlgError`, whatever the solver does. -/
theorem ou_fit_missing_many (hl : Lstsq lsq) (hcols : 1 < x.cols) (hrows : 2 ≤ x.rows)
    (h : ∃ i < x.rows, ∃ j < x.cols, ¬ Fin' (x.get i j)) : ouFitFullX lsq chol x dt = .error .linAlgError := by
  unfold ouFitFullX
  rw [if_neg (by omega)]
  obtain ⟨i, hi, j, hj, hne⟩ := h
  have hlen : ∀ c ∈ x.columns, 2 ≤ c.length := by
    intro c hc
    obtain ⟨j, -, rfl⟩ := List.mem_map.mp hc
    rw [length_col]
    exact hrows
  rcases ouLinesX_special hl hlen ⟨x.col j, List.mem_map.mpr ⟨j, List.mem_range.mpr hj, rfl⟩, x.get i j, mem_col.mpr ⟨i, hi, rfl⟩, hne⟩ with
    e | ⟨r, e, hr, l, hl', hn⟩ <;> rw [e]
  · rfl
  · show (ouCorX chol r.2 >>= _) = _
    have : ouCorX chol r.2 = .error .linAlgError := by
      unfold ouCorX
      rw [if_pos (by rw [hr]; simpa [XArr.columns] using hcols), xchol_special ⟨l, hl', .nan, hn, nofun⟩]
    rw [this]
    rfl

/-- C97. One column with a missing or infinite value: the calibration raises `LinAlgError`, or mean, rate and volatility are all `nan`. -/
theorem ou_fit_missing_one (hl : Lstsq lsq) (hcols : x.cols = 1) (hrows : 2 ≤ x.rows) (h : ∃ i < x.rows, ¬ Fin' (x.get i 0)) :
    ouFitFullX lsq chol x dt = .error .linAlgError ∨ ouFitFullX lsq chol x dt = .ok (⟨.nan, .nan, [.nan]⟩, none, none) := by
  unfold ouFitFullX
  rw [if_neg (by omega), columns_one hcols]
  obtain ⟨i, hi, hne⟩ := h
  unfold ouLinesX
  rcases ouLineX_special hl (c := x.col 0) (by rw [length_col]; exact hrows) ⟨x.get i 0, mem_col.mpr ⟨i, hi, rfl⟩, hne⟩ with e | e <;> rw [e]
  · exact .inl rfl
  · right
    have hs : xstd1 (ouResidualsX (.nan, .nan) (x.col 0)) = .nan := by
      refine xstd1_special ?_
      have : ouResidualsX (.nan, .nan) (x.col 0) ≠ [] := by
        rw [← List.length_pos_iff, length_residuals, length_col]
        omega
      obtain ⟨y, hy⟩ := List.exists_mem_of_ne_nil _ this
      exact ⟨y, hy, by rw [nan_residuals y hy]; nofun⟩
    simp only [ouLinesX, bind, Except.bind, ouCorX, List.length_singleton, lt_irrefl, if_false, List.getLast?_singleton, List.map_cons,
      List.map_nil, hs]
    rfl

/-- C97. On numbers, for at least two rows and a last slope other than one, the calibration on floats is the calibration of C24. -/
theorem ou_fit_full_agrees (hl : Lstsq lsq) {x : Arr} (hdt : 0 < dt) (hrows : 2 ≤ x.rows)
    (hne : ∀ c ∈ (columns x).getLast?, (ouLine c).1 ≠ 1) :
    ouFitFullX lsq chol (XArr.ofArr x) dt =
      (ouFit chol x dt).map fun r => (⟨.fin r.mean, .fin r.mrr, r.vol.map optX⟩, r.cor, r.L) := by
  have hcols : (XArr.ofArr x).columns = (columns x).map (List.map .fin) := columns_ofArr x
  have hlen : ∀ c ∈ columns x, 2 ≤ c.length := by
    intro c hc
    obtain ⟨j, -, rfl⟩ := List.mem_map.mp hc
    simpa [Arr.col] using hrows
  have hlines : ∀ cs : List (List ℝ), (∀ c ∈ cs, 2 ≤ c.length) → ouLinesX lsq (cs.map (List.map .fin)) =
      .ok (cs.map fun c => (.fin (ouLine c).1, .fin (ouLine c).2), (cs.map ouResiduals).map (List.map .fin)) := by
    intro cs
    induction cs with
    | nil => exact fun _ => rfl
    | cons c cs ih =>
      intro hc
      rw [List.map_cons, ouLinesX, ouLineX_fin hl (hc c (by simp)), ih fun c h => hc c (by simp [h])]
      simp only [bind, Except.bind, ouResidualsX_fin, List.map_cons]
  unfold ouFitFullX
  rw [if_neg (show ¬ (XArr.ofArr x).rows = 0 from by show ¬ x.rows = 0; omega), hcols, hlines _ hlen]
  simp only [bind, Except.bind]
  have hfin : ∀ cor L : Option Arr, (match ((columns x).map fun c => (XF.fin (ouLine c).1, XF.fin (ouLine c).2)).getLast? with
      | none => (.error .unboundLocalError : Py (OUFitX × Option Arr × Option Arr))
      | some ab => .ok (⟨ab.2 / (.fin 1 - ab.1), -ab.1.log / .fin dt, (((columns x).map ouResiduals).map (List.map .fin)).map fun r =>
        ((.fin 2 * (-ab.1.log / .fin dt) * (xstd1 r * xstd1 r)) / (.fin 1 - ab.1 * ab.1)).sqrt⟩, cor, L)) =
      Except.map (fun r : OUFit => ((⟨.fin r.mean, .fin r.mrr, r.vol.map optX⟩ : OUFitX), r.cor, r.L))
        (match (columns x).getLast? with
        | none => .error .unboundLocalError
        | some c => .ok ⟨(ouLine c).2 / (1 - (ouLine c).1), -Real.log (ouLine c).1 / dt, ((columns x).map ouResiduals).map fun r =>
          (npStd1 r).map fun s => Real.sqrt ((2 * (-Real.log (ouLine c).1 / dt) * s ^ 2) / (1 - (ouLine c).1 ^ 2)), cor, L⟩) := by
    intro cor L
    rw [List.getLast?_map]
    cases hlast : (columns x).getLast? with
    | none => rfl
    | some c =>
      have hne := hne c hlast
      simp only [Option.map_some, Except.map, List.map_map]
      have hp := ouLine_pos c
      have e1 : (-(XF.fin (ouLine c).1).log / XF.fin dt) = .fin (-Real.log (ouLine c).1 / dt) := by
        show XF.div (XF.neg (if 0 < (ouLine c).1 then _ else _)) _ = _
        rw [if_pos hp]
        show (if dt = 0 then _ else _) = _
        rw [if_neg hdt.ne']
      have e2 : XF.fin (ouLine c).2 / (.fin 1 - XF.fin (ouLine c).1) = .fin ((ouLine c).2 / (1 - (ouLine c).1)) := by
        show (if 1 + -(ouLine c).1 = 0 then _ else XF.fin ((ouLine c).2 / (1 + -(ouLine c).1))) = _
        rw [if_neg (by intro h; apply hne; linarith), ← sub_eq_add_neg]
      simp only [e1, e2]
      congr 3
      refine List.map_congr_left fun d _ => ?_
      simp only [Function.comp_apply, xstd1_fin]
      cases npStd1 (ouResiduals d) with
      | none => rfl
      | some sd => exact ou_vol_fin hp hne hdt
  unfold ouFit
  have hlc : (columns x).length = x.cols := by simp [columns]
  by_cases h1 : 1 < x.cols
  · simp only [if_pos h1]
    by_cases hb : ∃ r ∈ (columns x).map ouResiduals, badColumn r
    · rw [if_pos hb, ouCorX, if_pos (by simpa [hlc] using h1), xchol_zero]
      · rfl
      · obtain ⟨r, hr, hbad⟩ := hb
        exact ⟨r, hr, (badColumn_iff r).mp hbad⟩
    · rw [if_neg hb, ouCorX, if_pos (by simpa [hlc] using h1), xchol_fin (by simp [hlc]; omega)
        fun l hl h => hb ⟨l, hl, (badColumn_iff l).mpr h⟩]
      cases chol (corrcoef ((columns x).map ouResiduals)) with
      | none => rfl
      | some L => exact hfin _ _
  · simp only [if_neg h1]
    rw [ouCorX, if_neg (by simpa [hlc] using h1)]
    exact hfin _ _

/-! ### Concrete cases -/

open Classical in
/-- A solver as described exists: here it returns `nan` on special values. -/
theorem lstsq_exists : ∃ lsq, Lstsq lsq := by
  refine ⟨fun x y => if ∃ a, (a ∈ x ∨ a ∈ y) ∧ a.real? = none then .ok (.nan, .nan) else
    .ok (.fin (lstsqLine (reals x) (reals y)).1, .fin (lstsqLine (reals x) (reals y)).2), ?_, ?_⟩
  · intro x y _
    rw [if_neg, reals_fin, reals_fin]
    rintro ⟨a, h, e⟩
    rcases h with h | h <;>
    · obtain ⟨r, -, rfl⟩ := List.mem_map.mp h
      cases e
  · intro x y h
    exact .inr (if_pos h)

/-- Four rows, one of two columns with a gap. -/
example (hl : Lstsq lsq) : ouFitFullX lsq chol ⟨4, 2, fun k => if k = 3 then .nan else .fin (k ^ 2)⟩ 1 = .error .linAlgError :=
  ou_fit_missing_many hl (by norm_num) (by norm_num) ⟨1, by norm_num, 1, by norm_num, by rintro ⟨r, hr⟩; cases hr⟩

/-- Four rows of one column with a gap. -/
example (hl : Lstsq lsq) : ouFitFullX lsq chol ⟨4, 1, fun k => if k = 3 then .nan else .fin (k ^ 2)⟩ 1 = .error .linAlgError ∨
    ouFitFullX lsq chol ⟨4, 1, fun k => if k = 3 then .nan else .fin (k ^ 2)⟩ 1 = .ok (⟨.nan, .nan, [.nan]⟩, none, none) :=
  ou_fit_missing_one hl rfl (by norm_num) ⟨3, by norm_num, by rintro ⟨r, hr⟩; cases hr⟩

/-- Brownian motion on four rows with a gap: the likelihood is `nan`, not an error. -/
example {eigh : (d : Nat) → Cov.Mat d → List (Cov.Pair d)} (he : EighAll eigh) :
    bmNllX eigh [.fin 0] [.fin 1] none ⟨4, 1, fun k => if k = 2 then .nan else .fin k⟩ 1 = .ok .nan := by
  have hok : ∃ v, bmNllX eigh [.fin 0] [.fin 1] none ⟨4, 1, fun k => if k = 2 then .nan else .fin k⟩ 1 = .ok v := ⟨_, rfl⟩
  obtain ⟨v, hv⟩ := hok
  rw [hv, (bm_nll_special (drift := [0]) (vol := [1]) he (by simp) (by simp) (by simp) one_pos (by norm_num) hv).2.1
    ⟨2, by norm_num, 0, by norm_num, rfl⟩]

/-- Geometric Brownian motion on four prices, one of them zero: the likelihood is `+inf`. -/
example {eigh : (d : Nat) → Cov.Mat d → List (Cov.Pair d)} (he : EighAll eigh) :
    gbmNllX eigh [.fin 0] [.fin 1] none ⟨4, 1, fun k => if k = 2 then .fin 0 else .fin 1⟩ 1 = .ok .pinf := by
  have hok : ∃ v, gbmNllX eigh [.fin 0] [.fin 1] none ⟨4, 1, fun k => if k = 2 then .fin 0 else .fin 1⟩ 1 = .ok v := ⟨_, rfl⟩
  obtain ⟨v, hv⟩ := hok
  rw [hv, (gbm_nll_special (drift := [0]) (vol := [1]) he (by simp) (by simp) (by simp) one_pos (by norm_num) hv).2.2 rfl]
  · intro i _ j _
    show ∃ r : ℝ, 0 ≤ r ∧ (if i * 1 + j = 2 then XF.fin 0 else .fin 1) = XF.fin r
    split
    · exact ⟨0, le_rfl, rfl⟩
    · exact ⟨1, zero_le_one, rfl⟩
  · intro i hi j hj
    have : i = 0 ∨ i = 1 ∨ i = 2 := by change i + 1 < 4 at hi; omega
    have : j = 0 := by change j < 1 at hj; omega
    subst this
    have h10 : XF.fin 1 ≠ XF.fin 0 := by intro h; injection h with h; norm_num at h
    rcases this with rfl | rfl | rfl
    · exact .inl h10
    · exact .inl h10
    · exact .inr h10
  · exact ⟨2, by norm_num, 0, by norm_num, rfl⟩

/-- An Ornstein–Uhlenbeck process with rate zero: the likelihood of ordinary numbers is `nan`. -/
example {eigh : (d : Nat) → Cov.Mat d → List (Cov.Pair d)} :
    ouNllX eigh [.fin 0] [.fin 0] [.fin 1] none ⟨4, 1, fun k => .fin k⟩ 1 = .ok .nan := by
  have hok : ∃ v, ouNllX eigh [.fin 0] [.fin 0] [.fin 1] none ⟨4, 1, fun k => .fin k⟩ 1 = .ok v := ⟨_, rfl⟩
  obtain ⟨v, hv⟩ := hok
  rw [hv, (ou_nll_zero_rate (by simp) (by simp) (by simp) (by norm_num) (by norm_num)).1 hv]

/-- The three models on two rows, the second missing. -/
example {eigh : (d : Nat) → Cov.Mat d → List (Cov.Pair d)} (he : EighAll eigh) : ∃ a b c,
    bmNllX eigh [.fin 0] [.fin 1] none ⟨2, 1, fun k => if k = 1 then .nan else .fin 1⟩ 1 = .ok a ∧
    gbmNllX eigh [.fin 0] [.fin 1] none ⟨2, 1, fun k => if k = 1 then .nan else .fin 1⟩ 1 = .ok b ∧
    ouNllX eigh [.fin 0] [.fin 1] [.fin 1] none ⟨2, 1, fun k => if k = 1 then .nan else .fin 1⟩ 1 = .ok c ∧
    ¬ XF.lt (aicX 2 2 a) (aicX 2 2 b) ∧ ¬ XF.lt (aicX 2 2 b) (aicX 2 2 a) ∧ ¬ XF.lt (aicX 2 2 a) (aicX 3 2 c) := by
  refine ⟨_, _, _, rfl, rfl, rfl, ?_⟩
  have := missing_no_ranking (d := [0]) (vol := [1]) (d' := [0]) (volg := [1]) (μ := [0]) (θ := [1]) (vol' := [1]) (cor := none)
    (corg := none) (cor' := none) (x := ⟨2, 1, fun k => if k = 1 then .nan else .fin 1⟩) (dt := 1) he (by simp) (by simp) (by simp) (by simp)
    (by simp) (by simp) (by simp) (by simp) (by simp) (by simp) (by simp) one_pos (by norm_num) ⟨1, by norm_num, 0, by norm_num, rfl⟩ rfl rfl rfl
  refine ⟨(this 2 2 2 _ (by simp) _ (by simp)).1, (this 2 2 2 _ (by simp) _ (by simp)).2, (this 2 3 2 _ (by simp) _ ?_).1⟩
  simp

end Verif.Sim
