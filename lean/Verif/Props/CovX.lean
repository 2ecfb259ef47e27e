import Verif.Spec.CovX
import Verif.Lemmas.SimX
import Verif.Lemmas.Cov
import Verif.Props.CovMP

/-!
# C98: covariance and correlation matrices with missing or infinite entries, and without regularisation
-/

namespace Verif.Cov

open Verif.Sim (xsum xmean xclip clip1 Fin' xsum_fin xsum_nan xmean_fin)

variable {n : Nat} {cov : XMat n} {reg : ℝ} {i j : Fin n}

/-! ### Conversion to correlations -/

theorem npMaximum_fin (a b : ℝ) : npMaximum (.fin a) (.fin b) = .fin (max a b) := by
  unfold npMaximum
  rw [if_neg (by rintro (h | h) <;> cases h)]
  by_cases h : XF.lt (.fin a) (.fin b)
  · rw [if_pos h, max_eq_right (show a < b from h).le]
  · rw [if_neg h, max_eq_left (not_lt.mp (show ¬ a < b from h))]

theorem npMaximum_nan_left (b : XF) : npMaximum .nan b = .nan := if_pos (.inl rfl)

theorem npMaximum_pinf (b : ℝ) : npMaximum .pinf (.fin b) = .pinf := by
  unfold npMaximum
  rw [if_neg (by rintro (h | h) <;> cases h), if_neg (show ¬ XF.lt .pinf (.fin b) from fun h => h)]

theorem npMaximum_ninf (b : ℝ) : npMaximum .ninf (.fin b) = .fin b := by
  unfold npMaximum
  rw [if_neg (by rintro (h | h) <;> cases h), if_pos (show XF.lt .ninf (.fin b) from trivial)]

/-- The deviation of an asset with a positive `cov_reg`, for every kind of variance. -/
theorem covStdX_cases (hr : 0 < reg) (i : Fin n) :
    (cov i i = .nan → covStdX cov (.fin reg) i = .nan) ∧ (cov i i = .pinf → covStdX cov (.fin reg) i = .pinf) ∧
    (cov i i ≠ .nan → cov i i ≠ .pinf → ∃ s : ℝ, 0 < s ∧ covStdX cov (.fin reg) i = .fin s) := by
  unfold covStdX
  refine ⟨fun h => ?_, fun h => ?_, fun h1 h2 => ?_⟩
  · rw [h, npMaximum_nan_left]; rfl
  · rw [h, npMaximum_pinf]; rfl
  · have key : ∀ v : ℝ, 0 < v → ∃ s : ℝ, 0 < s ∧ XF.sqrt (.fin v) = .fin s := fun v hv =>
      ⟨Real.sqrt v, Real.sqrt_pos.mpr hv, if_neg (not_lt.mpr hv.le)⟩
    cases h : cov i i with
    | nan => exact (h1 h).elim
    | pinf => exact (h2 h).elim
    | ninf => rw [npMaximum_ninf]; exact key _ hr
    | fin r => rw [npMaximum_fin]; exact key _ (lt_max_of_lt_right hr)

theorem xclip_nan {v : XF} : xclip v = .nan ↔ v = .nan := by
  cases v <;> simp [xclip]

/-- C98. On numbers with a positive `cov_reg` the conversion on floats is that of C34. -/
theorem covToCorX_agrees (C : Mat n) (hr : 0 < reg) :
    covToCorX (.ofMat C) (.fin reg) = (.ofMat (covToCor C reg).1, xvec (covToCor C reg).2) := by
  have hs : ∀ i, covStdX (.ofMat C) (.fin reg) i = .fin (covStd C reg i) := by
    intro i
    show XF.sqrt (npMaximum (.fin (C i i)) (.fin reg)) = _
    rw [npMaximum_fin]
    exact if_neg (not_lt.mpr (hr.le.trans (le_max_right _ _)))
  have hpos : ∀ i, 0 < covStd C reg i := fun i => Real.sqrt_pos.mpr (lt_max_of_lt_right hr)
  unfold covToCorX covToCor
  refine Prod.ext ?_ (funext hs)
  funext i j
  show xclip (.fin (C i j) / (covStdX _ _ i * covStdX _ _ j)) = _
  rw [hs, hs]
  show xclip (if covStd C reg i * covStd C reg j = 0 then _ else _) = _
  rw [if_neg (mul_pos (hpos i) (hpos j)).ne']
  rfl

/-- C98. Whatever the matrix and the floor, an entry of the result is `nan` or a number between -1 and 1. -/
theorem cor_range (cov : XMat n) (reg : XF) (i j : Fin n) :
    (covToCorX cov reg).1 i j = .nan ∨ ∃ r : ℝ, -1 ≤ r ∧ r ≤ 1 ∧ (covToCorX cov reg).1 i j = .fin r := by
  show xclip _ = _ ∨ ∃ r, _ ∧ _ ∧ xclip _ = _
  cases cov i j / (covStdX cov reg i * covStdX cov reg j) with
  | nan => exact .inl rfl
  | pinf => exact .inr ⟨1, by norm_num, le_rfl, rfl⟩
  | ninf => exact .inr ⟨-1, le_rfl, by norm_num, rfl⟩
  | fin r => exact .inr ⟨clip1 r, le_max_left _ _, max_le (by norm_num) (min_le_left _ _), rfl⟩

/-- C98. With a positive `cov_reg` a correlation is missing exactly if the covariance or one of the two variances is missing, or the
covariance and one of the two variances are infinite. Nothing else in the matrix matters. -/
theorem cor_missing_iff (hr : 0 < reg) : (covToCorX cov (.fin reg)).1 i j = .nan ↔
    cov i j = .nan ∨ cov i i = .nan ∨ cov j j = .nan ∨ (¬ Fin' (cov i j) ∧ (cov i i = .pinf ∨ cov j j = .pinf)) := by
  show xclip _ = _ ↔ _
  rw [xclip_nan]
  obtain ⟨a1, a2, a3⟩ := covStdX_cases (cov := cov) hr i
  obtain ⟨b1, b2, b3⟩ := covStdX_cases (cov := cov) hr j
  have hnan : ∀ a : XF, a / .nan = .nan := fun a => by cases a <;> rfl
  have hpp : (XF.pinf * XF.pinf : XF) = .pinf := rfl
  have hpf : ∀ s : ℝ, 0 < s → (XF.pinf * XF.fin s : XF) = .pinf := fun s hs => if_pos hs
  have hfp : ∀ s : ℝ, 0 < s → (XF.fin s * XF.pinf : XF) = .pinf := fun s hs => if_pos hs
  by_cases hi : cov i i = .nan
  · rw [a1 hi]
    have : (XF.nan * covStdX cov (.fin reg) j : XF) = .nan := by cases covStdX cov (.fin reg) j <;> rfl
    rw [this, hnan]
    simp [hi]
  by_cases hj : cov j j = .nan
  · rw [b1 hj]
    have : (covStdX cov (.fin reg) i * XF.nan : XF) = .nan := by cases covStdX cov (.fin reg) i <;> rfl
    rw [this, hnan]
    simp [hj]
  have hdiv : ∀ w : XF, (w / .pinf : XF) = .nan ↔ w = .nan ∨ ¬ Fin' w := by
    intro w
    cases w with
    | nan => exact ⟨fun _ => .inl rfl, fun _ => rfl⟩
    | pinf => exact ⟨fun _ => .inr (by rintro ⟨r, h⟩; cases h), fun _ => rfl⟩
    | ninf => exact ⟨fun _ => .inr (by rintro ⟨r, h⟩; cases h), fun _ => rfl⟩
    | fin r =>
      constructor
      · intro h; cases h
      · rintro (h | h)
        · cases h
        · exact (h ⟨r, rfl⟩).elim
  have hdf : ∀ (w : XF) (s : ℝ), 0 < s → ((w / .fin s : XF) = .nan ↔ w = .nan) := by
    intro w s hs
    cases w with
    | nan => exact ⟨fun _ => rfl, fun _ => rfl⟩
    | pinf =>
      show (if s < 0 then _ else _) = _ ↔ _
      rw [if_neg (not_lt.mpr hs.le)]
    | ninf =>
      show (if s < 0 then _ else _) = _ ↔ _
      rw [if_neg (not_lt.mpr hs.le)]
    | fin r =>
      show (if s = 0 then _ else _) = _ ↔ _
      rw [if_neg hs.ne']
      exact ⟨(by rintro ⟨⟩), (by rintro ⟨⟩)⟩
  by_cases hi' : cov i i = .pinf
  · have : (covStdX cov (.fin reg) i * covStdX cov (.fin reg) j : XF) = .pinf := by
      rw [a2 hi']
      by_cases hj' : cov j j = .pinf
      · rw [b2 hj', hpp]
      · obtain ⟨s, hs, e⟩ := b3 hj hj'
        rw [e, hpf s hs]
    rw [this, hdiv]
    simp [hi', hj]
  · obtain ⟨s, hs, e⟩ := a3 hi hi'
    by_cases hj' : cov j j = .pinf
    · rw [e, b2 hj', hfp s hs, hdiv]
      simp [hj', hi]
    · obtain ⟨t, ht, e'⟩ := b3 hj hj'
      rw [e, e']
      show (cov i j / .fin (s * t) : XF) = .nan ↔ _
      rw [hdf _ _ (mul_pos hs ht)]
      simp [hi, hj, hi', hj']

/-- C98. An infinite covariance of two assets with ordinary variances is turned into a correlation of plus or minus one. -/
theorem cor_infinite (hr : 0 < reg) (hi : Fin' (cov i i)) (hj : Fin' (cov j j)) :
    (cov i j = .pinf → (covToCorX cov (.fin reg)).1 i j = .fin 1) ∧ (cov i j = .ninf → (covToCorX cov (.fin reg)).1 i j = .fin (-1)) := by
  have aux : ∀ i, Fin' (cov i i) → ∃ s : ℝ, 0 < s ∧ covStdX cov (.fin reg) i = .fin s := by
    rintro i ⟨r, h⟩
    exact (covStdX_cases hr i).2.2 (by rw [h]; nofun) (by rw [h]; nofun)
  obtain ⟨s, hs, e⟩ := aux i hi
  obtain ⟨t, ht, e'⟩ := aux j hj
  have hst : ¬ s * t < 0 := not_lt.mpr (mul_pos hs ht).le
  constructor <;> intro h
  · show xclip (cov i j / _) = _
    rw [h, e, e']
    show xclip (if s * t < 0 then _ else _) = _
    rw [if_neg hst]
    rfl
  · show xclip (cov i j / _) = _
    rw [h, e, e']
    show xclip (if s * t < 0 then _ else _) = _
    rw [if_neg hst]
    rfl

/-! ### Without regularisation -/

theorem xf_mul_comm (a b : XF) : a * b = b * a := by
  cases a <;> cases b <;> first | rfl | (show XF.fin _ = XF.fin _; rw [mul_comm])

theorem covStdX_reg {C : Mat n} {reg : ℝ} (i : Fin n) : covStdX (.ofMat C) (.fin reg) i =
    if max (C i i) reg < 0 then .nan else .fin (Real.sqrt (max (C i i) reg)) := by
  show XF.sqrt (npMaximum (.fin (C i i)) (.fin reg)) = _
  rw [npMaximum_fin]
  rfl

/-- C98. `cov_reg = 0` and numbers: an asset whose variance is not positive has the correlation `nan` with every asset it does not
covary with, and plus or minus one with all others. -/
theorem cor_zero_reg {C : Mat n} (hi : C i i ≤ 0) :
    (C i j = 0 → (covToCorX (.ofMat C) (.fin 0)).1 i j = .nan) ∧
    (0 < C i j → (covToCorX (.ofMat C) (.fin 0)).1 i j = .fin 1) ∧ (C i j < 0 → (covToCorX (.ofMat C) (.fin 0)).1 i j = .fin (-1)) := by
  have hs : covStdX (.ofMat C) (.fin 0) i * covStdX (.ofMat C) (.fin 0) j = .fin 0 := by
    rw [covStdX_reg, covStdX_reg, if_neg (not_lt.mpr (le_max_right _ _)), if_neg (not_lt.mpr (le_max_right _ _)), max_eq_right hi,
      Real.sqrt_zero]
    show XF.fin (0 * _) = _
    rw [zero_mul]
  have h1 : (covToCorX (.ofMat C) (.fin 0)).1 i j = xclip (XF.infSign (C i j)) := by
    show xclip (.fin (C i j) / _) = _
    rw [hs]
    show xclip (if (0 : ℝ) = 0 then _ else _) = _
    rw [if_pos rfl]
  rw [h1]
  unfold XF.infSign
  refine ⟨fun h => ?_, fun h => ?_, fun h => ?_⟩
  · rw [h, if_neg (lt_irrefl _), if_neg (lt_irrefl _)]; rfl
  · rw [if_pos h]; rfl
  · rw [if_neg (not_lt.mpr h.le), if_pos h]; rfl

/-- C98. `cov_reg = 0` and a covariance matrix: a correlation is a number exactly if both variances are positive; the row and the column
of a constant asset, its diagonal entry included, are `nan`. -/
theorem cor_zero_reg_psd {C : Mat n} (hC : IsCov C) :
    Fin' ((covToCorX (.ofMat C) (.fin 0)).1 i j) ↔ 0 < C i i ∧ 0 < C j j := by
  have hdiag := hC.diag_nonneg
  have hzero : ∀ i j, C i i = 0 → C i j = 0 := by
    intro i j h
    have := hC.cs i j
    rw [h, zero_mul] at this
    exact pow_eq_zero_iff two_ne_zero |>.mp (le_antisymm this (sq_nonneg _))
  have hsymm : ∀ i j, C i j = C j i := fun i j => (hC.symm.apply i j).symm
  by_cases hi : 0 < C i i
  · by_cases hj : 0 < C j j
    · refine ⟨fun _ => ⟨hi, hj⟩, fun _ => ?_⟩
      show Fin' (xclip (.fin (C i j) / (covStdX _ _ i * covStdX _ _ j)))
      rw [covStdX_reg, covStdX_reg, if_neg (not_lt.mpr (le_max_right _ _)), if_neg (not_lt.mpr (le_max_right _ _)), max_eq_left hi.le,
        max_eq_left hj.le]
      show Fin' (xclip (if Real.sqrt (C i i) * Real.sqrt (C j j) = 0 then _ else _))
      rw [if_neg (mul_pos (Real.sqrt_pos.mpr hi) (Real.sqrt_pos.mpr hj)).ne']
      exact ⟨_, rfl⟩
    · refine ⟨fun h => ?_, fun h => (hj h.2).elim⟩
      have h0 : C j j = 0 := le_antisymm (not_lt.mp hj) (hdiag j)
      have hs : (covToCorX (.ofMat C) (.fin 0)).1 i j = (covToCorX (.ofMat C) (.fin 0)).1 j i := by
        show xclip (.fin (C i j) / (covStdX _ _ i * covStdX _ _ j)) = xclip (.fin (C j i) / (covStdX _ _ j * covStdX _ _ i))
        rw [hsymm i j, xf_mul_comm]
      rw [hs, (cor_zero_reg h0.le).1 (hzero j i h0)] at h
      obtain ⟨r, h⟩ := h
      cases h
  · refine ⟨fun h => ?_, fun h => (hi h.1).elim⟩
    have h0 : C i i = 0 := le_antisymm (not_lt.mp hi) (hdiag i)
    rw [(cor_zero_reg h0.le).1 (hzero i j h0)] at h
    obtain ⟨r, h⟩ := h
    cases h

/-! ### The fit -/

theorem npMaxX_fin {xs : List ℝ} (h : xs ≠ []) : npMaxX (xs.map .fin) = .fin (lmax xs) := by
  obtain ⟨a, l, rfl⟩ := List.exists_cons_of_ne_nil h
  show (l.map XF.fin).foldl npMaximum (.fin a) = .fin (l.foldl max a)
  clear h
  induction l generalizing a with
  | nil => rfl
  | cons b l ih => rw [List.map_cons, List.foldl_cons, List.foldl_cons, npMaximum_fin, ih]

theorem npMaxX_nan {xs : List XF} (h : XF.nan ∈ xs) : npMaxX xs = .nan := by
  have key : ∀ (l : List XF) (a : XF), a = .nan ∨ XF.nan ∈ l → l.foldl npMaximum a = .nan := by
    intro l
    induction l with
    | nil =>
      intro a h
      exact h.resolve_right (by simp)
    | cons b l ih =>
      intro a h
      rw [List.foldl_cons]
      apply ih
      rcases h with rfl | h
      · exact .inl (npMaximum_nan_left _)
      · rcases List.mem_cons.mp h with h | h
        · exact .inl (if_pos (.inr h.symm))
        · exact .inr h
  cases xs with
  | nil => simp at h
  | cons a l => exact key l a ((List.mem_cons.mp h).imp Eq.symm id)

/-- The density of a number. -/
theorem mpDensityX_fin {var : ℝ} (hv : 0 < var) (T N : Nat) (x : ℝ) :
    mpDensityX var T N (.fin x) = .fin (mpDensity var T N x) := by
  have h0 : 0 ≤ (mpSupport var T N).1 := by unfold mpSupport; positivity
  unfold mpDensityX mpDensity
  dsimp only
  by_cases h : (mpSupport var T N).1 < x ∧ x < (mpSupport var T N).2
  · rw [if_pos (show XF.lt (.fin _) (.fin x) ∧ XF.lt (.fin x) (.fin _) from h), if_pos h]
    have hx : 0 < x := h0.trans_lt h.1
    have hd : 2 * Real.pi * var * x ≠ 0 := by have := Real.pi_pos; positivity
    show (XF.fin (T / N) / XF.fin (2 * Real.pi * var * x)) * XF.sqrt (.fin (((mpSupport var T N).2 + -x) * (x + -(mpSupport var T N).1))) = _
    rw [XF.div_fin hd]
    have hs : ¬ ((mpSupport var T N).2 + -x) * (x + -(mpSupport var T N).1) < 0 :=
      not_lt.mpr (mul_nonneg (by linarith [h.2]) (by linarith [h.1]))
    show XF.fin _ * (if _ < (0 : ℝ) then XF.nan else _) = _
    rw [if_neg hs, ← sub_eq_add_neg, ← sub_eq_add_neg]
    rfl
  · rw [if_neg (show ¬ (XF.lt (.fin _) (.fin x) ∧ XF.lt (.fin x) (.fin _)) from h), if_neg h]

theorem mpDensityX_nan (var : ℝ) (T N : Nat) : mpDensityX var T N .nan = .fin 0 := by
  unfold mpDensityX
  exact if_neg (fun h => h.1)

/-- A missing eigenvalue makes every likelihood missing. -/
theorem mpLogLikX_nan {T N : Nat} {xs : List XF} (h : XF.nan ∈ xs) (var : ℝ) : mpLogLikX T N xs var = .nan := by
  unfold mpLogLikX
  refine xsum_nan (List.mem_map.mpr ⟨.nan, h, ?_⟩)
  rw [mpDensityX_nan, if_neg (show ¬ XF.lt (.fin 0) (.fin 0) from lt_irrefl (0 : ℝ)), npMaxX_nan h]
  rfl

theorem mpLoopX_nan {ll : ℝ → XF} (h : ∀ v, ll v = .nan) (st : XF × ℝ) (vs : List ℝ) : mpLoopX ll st vs = st := by
  induction vs generalizing st with
  | nil => rfl
  | cons v vs ih =>
    rw [mpLoopX, ih, h]
    refine if_neg ?_
    cases st.1 <;> exact fun h => h

/-- C98. With a missing eigenvalue the fitted variance is 0, not `nan` and not an error. -/
theorem mp_fit_missing {T N : Nat} (hT : 0 < T) (hN : 0 < N) {xs : List XF} (h : XF.nan ∈ xs) : mpFitX T N xs = .ok 0 := by
  unfold mpFitX
  rw [if_neg (by omega), if_neg (List.ne_nil_of_mem h), mpLoopX_nan (mpLogLikX_nan h)]

theorem mpLoopX_fin {ll : ℝ → XF} {l : ℝ → ℝ} (vs : List ℝ) (h : ∀ v ∈ vs, ll v = .fin (l v)) (st : ℝ × ℝ) :
    mpLoopX ll (.fin st.1, st.2) vs = (.fin (mpLoop l st vs).1, (mpLoop l st vs).2) := by
  induction vs generalizing st with
  | nil => rfl
  | cons v vs ih =>
    rw [mpLoopX, mpLoop, h v List.mem_cons_self, ← ih (fun u hu => h u (List.mem_cons_of_mem _ hu))]
    by_cases hlt : st.1 < l v
    · rw [if_pos (show XF.lt (.fin _) (.fin _) from hlt), if_pos hlt]
    · rw [if_neg (show ¬ XF.lt (.fin _) (.fin _) from hlt), if_neg hlt]

theorem mem_le_lmax {xs : List ℝ} {x : ℝ} (h : x ∈ xs) : x ≤ lmax xs := by
  have key : ∀ (l : List ℝ) (a : ℝ), a ≤ l.foldl max a ∧ ∀ x ∈ l, x ≤ l.foldl max a := by
    intro l
    induction l with
    | nil => exact fun a => ⟨le_rfl, by simp⟩
    | cons b l ih =>
      intro a
      obtain ⟨h1, h2⟩ := ih (max a b)
      rw [List.foldl_cons]
      refine ⟨(le_max_left _ _).trans h1, fun x hx => ?_⟩
      rcases List.mem_cons.mp hx with rfl | hx
      · exact (le_max_right _ _).trans h1
      · exact h2 x hx
  cases xs with
  | nil => simp at h
  | cons a l =>
    rcases List.mem_cons.mp h with rfl | h
    · exact (key l _).1
    · exact (key l a).2 x h

/-- The density vanishes at numbers that are not positive. -/
theorem mpDensity_nonpos {var : ℝ} (hv : 0 < var) (T N : Nat) {x : ℝ} (hx : x ≤ 0) : mpDensity var T N x = 0 := by
  have h0 : 0 ≤ (mpSupport var T N).1 := by unfold mpSupport; positivity
  unfold mpDensity
  exact if_neg fun h => absurd (h0.trans_lt h.1) (not_lt.mpr hx)

theorem grid_pos {v : ℝ} (h : v ∈ mpGrid) : 0 < v := lt_of_lt_of_le (by norm_num) (mpGrid_mem h).1

open Classical in
/-- C98. On numbers the fit on floats is that of C38; the two cases in which C38 writes the result down follow from `1 / 0` and the
logarithm of a negative number. -/
theorem mpFitX_agrees (T N : Nat) (xs : List ℝ) : mpFitX T N (xs.map .fin) = mpFit T N xs := by
  unfold mpFitX mpFit
  by_cases h0 : N = 0 ∨ T = 0
  · rw [if_pos h0, if_pos h0]
  rw [if_neg h0, if_neg h0]
  by_cases hx : xs = []
  · rw [if_pos hx, if_pos (by rw [hx]; rfl)]
  rw [if_neg hx, if_neg (by simpa using hx)]
  obtain ⟨a, ha⟩ := List.exists_mem_of_ne_nil xs hx
  have hll : ∀ v, mpLogLikX T N (xs.map .fin) v = xsum (xs.map fun x => (if XF.lt (.fin 0) (mpDensityX v T N (.fin x))
      then mpDensityX v T N (.fin x) else XF.fin 1 / XF.fin (lmax xs)).log) := by
    intro v
    unfold mpLogLikX
    rw [List.map_map, npMaxX_fin hx]
    rfl
  have hnp : lmax xs ≤ 0 → ∀ v ∈ mpGrid, mpLogLikX T N (xs.map .fin) v = xsum (xs.map fun _ => (XF.fin 1 / .fin (lmax xs)).log) := by
    intro hle v hv
    rw [hll]
    refine congrArg xsum (List.map_congr_left fun x hx' => ?_)
    rw [mpDensityX_fin (grid_pos hv), mpDensity_nonpos (grid_pos hv) T N ((mem_le_lmax hx').trans hle),
      if_neg (show ¬ XF.lt (.fin 0) (.fin 0) from lt_irrefl (0 : ℝ))]
  rcases lt_trichotomy (lmax xs) 0 with h | h | h
  · rw [if_pos h]
    have hnan : ∀ v ∈ mpGrid, mpLogLikX T N (xs.map .fin) v = .nan := by
      intro v hv
      rw [hnp h.le v hv]
      refine xsum_nan (List.mem_map.mpr ⟨a, ha, ?_⟩)
      rw [XF.div_fin h.ne]
      have hneg : 1 / lmax xs < 0 := one_div_neg.mpr h
      show (if 0 < 1 / lmax xs then _ else _) = _
      rw [if_neg (not_lt.mpr hneg.le), if_neg hneg.ne]
    refine congrArg Except.ok ?_
    have key : ∀ vs : List ℝ, (∀ v ∈ vs, mpLogLikX T N (xs.map .fin) v = .nan) → ∀ st,
        mpLoopX (mpLogLikX T N (xs.map .fin)) st vs = st := by
      intro vs
      induction vs with
      | nil => exact fun _ _ => rfl
      | cons v vs ih =>
        intro hv st
        rw [mpLoopX, ih (fun u hu => hv u (List.mem_cons_of_mem _ hu)), hv v List.mem_cons_self]
        refine if_neg ?_
        cases st.1 <;> exact fun h => h
    rw [key _ hnan]
  · rw [if_neg (by rw [h]; exact lt_irrefl _), if_pos h]
    have hinf : ∀ v ∈ mpGrid, mpLogLikX T N (xs.map .fin) v = .pinf := by
      intro v hv
      rw [hnp h.le v hv, h]
      have e : (XF.fin 1 / .fin 0 : XF).log = .pinf := by
        show XF.log (if (0 : ℝ) = 0 then XF.infSign 1 else _) = _
        rw [if_pos rfl]
        unfold XF.infSign
        rw [if_pos one_pos]
        rfl
      rw [e]
      have key : ∀ (l : List ℝ) (s : XF), s = .pinf ∨ (Fin' s ∧ l ≠ []) → (l.map fun _ => XF.pinf).foldl (· + ·) s = .pinf := by
        intro l
        induction l with
        | nil => exact fun s h => h.resolve_right fun h => h.2 rfl
        | cons b l ih =>
          intro s hs
          rw [List.map_cons, List.foldl_cons]
          apply ih
          rcases hs with rfl | ⟨⟨r, rfl⟩, -⟩
          · exact .inl rfl
          · exact .inl rfl
      exact key xs _ (.inr ⟨⟨0, rfl⟩, hx⟩)
    refine congrArg Except.ok ?_
    have hg : mpGrid = 0.01 :: mpGrid.tail := by
      unfold mpGrid
      rw [show (1000 : ℕ) = 999 + 1 from rfl, List.range_succ_eq_map]
      simp
    have hstay : ∀ vs : List ℝ, (∀ v ∈ vs, mpLogLikX T N (xs.map .fin) v = .pinf) → ∀ u,
        mpLoopX (mpLogLikX T N (xs.map .fin)) (.pinf, u) vs = (.pinf, u) := by
      intro vs
      induction vs with
      | nil => exact fun _ _ => rfl
      | cons v vs ih =>
        intro hv u
        rw [mpLoopX, hv v List.mem_cons_self, if_neg (show ¬ XF.lt .pinf .pinf from fun h => h),
          ih (fun u hu => hv u (List.mem_cons_of_mem _ hu))]
    have h1 : (0.01 : ℝ) ∈ mpGrid := by rw [hg]; exact List.mem_cons_self
    rw [hg, mpLoopX, hinf _ h1, if_pos (show XF.lt (.fin (-10 ^ 9)) .pinf from trivial), hstay _ fun v hv => hinf v (List.mem_of_mem_tail hv)]
  · rw [if_neg (not_lt.mpr h.le), if_neg h.ne']
    refine congrArg Except.ok ?_
    have := mpLoopX_fin (ll := mpLogLikX T N (xs.map .fin)) (l := mpLogLik T N xs) mpGrid ?_ (-10 ^ 9, 0)
    · rw [this]
    intro v hv
    rw [hll]
    unfold mpLogLik
    rw [← xsum_fin, List.map_map]
    refine congrArg xsum (List.map_congr_left fun x _ => ?_)
    rw [mpDensityX_fin (grid_pos hv), XF.div_fin h.ne']
    simp only [Function.comp_apply]
    by_cases hd : 0 < mpDensity v T N x
    · rw [if_pos (show XF.lt (.fin 0) (.fin _) from hd), if_pos hd]
      exact if_pos hd
    · rw [if_neg (show ¬ XF.lt (.fin 0) (.fin _) from hd), if_neg hd]
      exact if_pos (one_div_pos.mpr h)

end Verif.Cov
