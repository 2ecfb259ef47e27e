import Verif.Lemmas.Cov
import Verif.Lemmas.SimStats
import Mathlib.Tactic.FinCases
import Mathlib.Tactic.NormNum

/-!
# C34, C35: conversions between covariance, correlation and eigen decompositions
-/

namespace Verif.Cov

open Verif.Sim (clip1)

variable {n : Nat}

theorem clip1_of_abs {x : ℝ} (h : |x| ≤ 1) : clip1 x = x := by
  obtain ⟨h1, h2⟩ := abs_le.mp h
  unfold clip1
  rw [min_eq_right h2, max_eq_right h1]

theorem abs_clip1 (x : ℝ) : |clip1 x| ≤ 1 := by
  unfold clip1
  rw [abs_le]
  constructor
  · exact le_max_left _ _
  · exact max_le (by norm_num) (min_le_left _ _)

theorem covStd_pos (cov : Mat n) {reg : ℝ} (hr : 0 < reg) (i : Fin n) : 0 < covStd cov reg i :=
  Real.sqrt_pos.mpr (lt_of_lt_of_le hr (le_max_right _ _))

theorem covStd_sq (cov : Mat n) {reg : ℝ} (hr : 0 < reg) (i : Fin n) :
    covStd cov reg i ^ 2 = max (cov i i) reg := Real.sq_sqrt (le_trans hr.le (le_max_right _ _))

/-- No clipping happens for a covariance matrix. -/
theorem cov_ratio_abs {cov : Mat n} (h : IsCov cov) {reg : ℝ} (hr : 0 < reg) (i j : Fin n) :
    |cov i j / (covStd cov reg i * covStd cov reg j)| ≤ 1 := by
  have hp := mul_pos (covStd_pos cov hr i) (covStd_pos cov hr j)
  rw [abs_div, abs_of_pos hp, div_le_one hp]
  apply abs_le_of_sq_le_sq _ hp.le
  rw [mul_pow, covStd_sq cov hr, covStd_sq cov hr]
  exact (h.cs i j).trans (mul_le_mul (le_max_left _ _) (le_max_left _ _) (h.diag_nonneg j)
    (le_trans hr.le (le_max_right _ _)))

/-- C34. For every covariance matrix, of any size and with any variances, the conversion to correlations and back
restores the matrix exactly. -/
theorem cov_round_trip {cov : Mat n} (h : IsCov cov) {reg : ℝ} (hr : 0 < reg) :
    corToCov (covToCor cov reg).1 (covToCor cov reg).2 = cov := by
  ext i j
  simp only [corToCov, covToCor]
  rw [clip1_of_abs (cov_ratio_abs h hr i j), div_mul_cancel₀]
  exact (mul_pos (covStd_pos cov hr i) (covStd_pos cov hr j)).ne'

/-- C34. The result is symmetric, positive semidefinite and bounded by one in absolute value, with the diagonal
`variance / max(variance, reg)`. -/
theorem cov_to_cor_valid {cov : Mat n} (h : IsCov cov) {reg : ℝ} (hr : 0 < reg) :
    IsCov (covToCor cov reg).1 ∧ (∀ i j, |(covToCor cov reg).1 i j| ≤ 1) ∧
    ∀ i, (covToCor cov reg).1 i i = cov i i / max (cov i i) reg := by
  have e : ∀ i j, (covToCor cov reg).1 i j = cov i j / (covStd cov reg i * covStd cov reg j) := fun i j =>
    clip1_of_abs (cov_ratio_abs h hr i j)
  refine ⟨⟨?_, ?_⟩, fun i j => abs_clip1 _, fun i => ?_⟩
  · ext i j
    rw [Matrix.transpose_apply, e, e, mul_comm]
    have := congrFun (congrFun h.symm i) j
    rw [Matrix.transpose_apply] at this
    rw [this]
  · intro x
    have := h.psd fun i => x i / covStd cov reg i
    rw [quad_eq] at this ⊢
    refine this.trans_eq (Finset.sum_congr rfl fun i _ => Finset.sum_congr rfl fun j _ => ?_)
    rw [e]
    have h1 := (covStd_pos cov hr i).ne'
    have h2 := (covStd_pos cov hr j).ne'
    field_simp
  · rw [e, ← pow_two, covStd_sq cov hr]

/-- C34. The diagonal consists of ones exactly if no variance lies below the floor `cov_reg`, which bounds the
variance and not, as documented, the standard deviation. -/
theorem cov_to_cor_isCor_iff {cov : Mat n} (h : IsCov cov) {reg : ℝ} (hr : 0 < reg) :
    IsCor (covToCor cov reg).1 ↔ ∀ i, reg ≤ cov i i := by
  obtain ⟨h1, -, h3⟩ := cov_to_cor_valid h hr
  constructor
  · intro hc i
    have := hc.diag i
    have hm : 0 < max (cov i i) reg := lt_of_lt_of_le hr (le_max_right _ _)
    rw [h3, div_eq_one_iff_eq hm.ne'] at this
    rw [this]
    exact le_max_right _ _
  · intro hc
    refine ⟨h1.symm, h1.psd, fun i => ?_⟩
    rw [h3, max_eq_left (hc i), div_self]
    exact (lt_of_lt_of_le hr (hc i)).ne'

/-- C34. With the default floor, assets with a volatility of one percent keep a valid correlation matrix; an asset
with a volatility of one in 2000 has correlation 1/4 with itself. -/
theorem cov_floor_effect : (∀ cov : Mat 1, cov 0 0 = (1 / 100) ^ 2 → (covToCor cov covReg).1 0 0 = 1) ∧
    ∀ cov : Mat 1, cov 0 0 = (1 / 2000) ^ 2 → (covToCor cov covReg).1 0 0 = 1 / 4 := by
  have hr : 0 < covReg := by unfold covReg; norm_num
  have hcov : ∀ cov : Mat 1, 0 ≤ cov 0 0 → IsCov cov := by
    intro cov h0
    refine ⟨?_, fun x => ?_⟩
    · ext i j; fin_cases i; fin_cases j; rfl
    · rw [quad_eq]
      simp only [Fin.sum_univ_one]
      nlinarith [mul_nonneg h0 (mul_self_nonneg (x 0))]
  constructor <;> intro cov h
  · rw [(cov_to_cor_valid (hcov cov (by rw [h]; norm_num)) hr).2.2, h]
    unfold covReg
    norm_num
  · rw [(cov_to_cor_valid (hcov cov (by rw [h]; norm_num)) hr).2.2, h]
    unfold covReg
    norm_num

/-- C34. The opposite round trip: correlations in `[-1, 1]` with unit diagonal and volatilities not below the
square root of the floor are restored exactly. -/
theorem cor_round_trip {cor : Mat n} {std : Fin n → ℝ} {reg : ℝ} (hr : 0 < reg) (hd : ∀ i, cor i i = 1)
    (hb : ∀ i j, |cor i j| ≤ 1) (hs : ∀ i, 0 ≤ std i ∧ reg ≤ std i ^ 2) :
    covToCor (corToCov cor std) reg = (cor, std) := by
  have e : ∀ i, covStd (corToCov cor std) reg i = std i := by
    intro i
    unfold covStd corToCov
    rw [hd, one_mul, ← pow_two, max_eq_left (hs i).2, Real.sqrt_sq (hs i).1]
  have hp : ∀ i, std i ≠ 0 := by
    intro i h0
    have := (hs i).2
    rw [h0] at this
    norm_num at this
    linarith
  unfold covToCor
  refine Prod.ext ?_ (funext e)
  ext i j
  dsimp only
  rw [e, e]
  unfold corToCov
  rw [mul_div_cancel_right₀ _ (mul_ne_zero (hp i) (hp j)), clip1_of_abs (hb i j)]

/-- C34. Whatever the input, the converted values lie in `[-1, 1]`. -/
theorem cov_to_cor_range (cov : Mat n) (reg : ℝ) (i j : Fin n) : |(covToCor cov reg).1 i j| ≤ 1 := abs_clip1 _

/-- C34. A random covariance matrix is a covariance matrix whatever the draws. -/
theorem random_cov_valid (x : Matrix (Fin (2 * n)) (Fin n) ℝ) : IsCov (randomCov x) := by
  constructor
  · unfold randomCov Matrix.IsSymm
    rw [Matrix.transpose_mul, Matrix.transpose_transpose]
  · intro v
    unfold randomCov
    rw [← Matrix.mulVec_mulVec, Matrix.dotProduct_mulVec, Matrix.vecMul_transpose]
    exact Finset.sum_nonneg fun i _ => mul_self_nonneg _

/-- C34. A random correlation matrix is always symmetric, positive semidefinite and bounded by one. -/
theorem random_cor_valid (x : Matrix (Fin (2 * n)) (Fin n) ℝ) :
    IsCov (randomCor x) ∧ ∀ i j, |randomCor x i j| ≤ 1 := by
  have hr : 0 < covReg := by unfold covReg; norm_num
  obtain ⟨h1, h2, -⟩ := cov_to_cor_valid (random_cov_valid x) hr
  exact ⟨h1, h2⟩

/-! ### C35 -/

/-- C35. The rebuilt matrix is symmetric with ones on the diagonal and entries in `[-1, 1]`, for all lists of
eigenvalues and vectors. -/
theorem eig_to_cor_shape (ps : List (Pair n)) :
    (eigToCor ps).IsSymm ∧ (∀ i, eigToCor ps i i = 1) ∧ ∀ i j, |eigToCor ps i j| ≤ 1 := by
  refine ⟨?_, fun i => if_pos rfl, fun i j => ?_⟩
  · ext i j
    rw [Matrix.transpose_apply]
    unfold eigToCor
    by_cases h : i = j
    · subst h; rfl
    · rw [if_neg h, if_neg (Ne.symm h), eigSum_symm]
  · unfold eigToCor
    split
    · simp
    · exact abs_clip1 _

theorem IsCor.abs_le {C : Mat n} (h : IsCor C) (i j : Fin n) : |C i j| ≤ 1 := by
  have := h.isCov.cs i j
  rw [h.diag, h.diag, mul_one] at this
  exact abs_le_one_iff_mul_self_le_one.mpr (by rwa [← pow_two])

/-- If the spectral sum agrees with a correlation matrix off the diagonal, the rebuilt matrix is that matrix. -/
theorem eigToCor_of_offdiag {C : Mat n} (h : IsCor C) {ps : List (Pair n)}
    (ho : ∀ i j, i ≠ j → eigSum ps i j = C i j) : eigToCor ps = C := by
  ext i j
  unfold eigToCor
  by_cases hij : i = j
  · subst hij; rw [if_pos rfl, h.diag]
  · rw [if_neg hij, ho i j hij, clip1_of_abs (h.abs_le i j)]

/-- C35. With the complete eigen decomposition of a correlation matrix the rebuilt matrix is the original. -/
theorem eig_to_cor_inverse {C : Mat n} (h : IsCor C) {ps : List (Pair n)} (he : IsEigen C ps) (hl : ps.length = n) :
    eigToCor ps = C := eigToCor_of_offdiag h fun i j _ => by rw [eigSum_eq he hl]

/-- The positions applied to a list. -/
theorem takeIdx_keys {α : Type} (l : List α) (f : α → ℝ) (idx : List Nat) (h : ∀ i ∈ idx, i < l.length) :
    (takeIdx l idx).map f = idx.map fun i => (l.map f).getD i 0 := by
  induction idx with
  | nil => rfl
  | cons a idx ih =>
    have ha := h a (by simp)
    have e : takeIdx l (a :: idx) = l[a] :: takeIdx l idx := by
      unfold takeIdx
      rw [List.filterMap_cons_some (List.getElem?_eq_getElem ha)]
    rw [e, List.map_cons, List.map_cons, ih fun i hi => h i (by simp [hi])]
    simp [ha]

theorem takeIdx_range {α : Type} (l : List α) : takeIdx l (List.range l.length) = l := by
  induction l with
  | nil => rfl
  | cons a l ih =>
    unfold takeIdx at *
    rw [List.length_cons, List.range_succ_eq_map, List.filterMap_cons_some (b := a) (by simp), List.filterMap_map]
    congr 1

theorem takeIdx_perm {α : Type} (l : List α) {idx : List Nat} (h : idx.Perm (List.range l.length)) :
    (takeIdx l idx).Perm l := by
  have := h.filterMap fun i => l[i]?
  conv_rhs => rw [← takeIdx_range l]
  exact this

variable {eigh : Mat n → List (Pair n)} {argsort : List ℝ → List Nat}

/-- Sorting pairs in decreasing order of their eigenvalue. -/
theorem sort_desc (hs : ArgsortSpec argsort) (ps : List (Pair n)) :
    (takeIdx ps (argsort (ps.map (·.1))).reverse).Perm ps ∧
    Descending (takeIdx ps (argsort (ps.map (·.1))).reverse) := by
  obtain ⟨h1, h2⟩ := hs (ps.map (·.1))
  rw [List.length_map] at h1
  refine ⟨takeIdx_perm ps ((List.reverse_perm _).trans h1), ?_⟩
  unfold Descending
  rw [takeIdx_keys _ _ _ fun i hi => ?_]
  · rw [List.map_reverse, List.pairwise_reverse]
    exact h2
  · rw [List.mem_reverse] at hi
    exact List.mem_range.mp (h1.mem_iff.mp hi)

/-- C35. `_cor_to_eig` of a symmetric matrix returns all eigenvalues in decreasing order with orthonormal
eigenvectors. -/
theorem cor_to_eig_all (hE : EighSpec eigh) (hs : ArgsortSpec argsort) {C : Mat n} (hC : C.IsSymm) :
    IsEigen C (corToEig eigh argsort C true none) ∧ (corToEig eigh argsort C true none).length = n ∧
    Descending (corToEig eigh argsort C true none) := by
  obtain ⟨h1, h2, -⟩ := hE C hC
  have e : corToEig eigh argsort C true none = takeIdx (eigh C) (argsort ((eigh C).map (·.1))).reverse := by
    unfold corToEig
    simp
  obtain ⟨h3, h4⟩ := sort_desc hs (eigh C)
  rw [e]
  exact ⟨isEigen_perm h1 h3.symm, h3.length_eq.trans h2, h4⟩

/-- C35. With `k ≥ 1` the result consists of the `k` largest eigenvalues (all of them if there are fewer) in
decreasing order, sorted or not. -/
theorem cor_to_eig_top (hE : EighSpec eigh) (hs : ArgsortSpec argsort) {C : Mat n} (hC : C.IsSymm) {k : Nat}
    (hk : 1 ≤ k) (b : Bool) :
    ∃ rest, (corToEig eigh argsort C b (some k) ++ rest).Perm (eigh C) ∧
      IsEigen C (corToEig eigh argsort C b (some k)) ∧
      (corToEig eigh argsort C b (some k)).length = min k n ∧ Descending (corToEig eigh argsort C b (some k)) ∧
      ∀ p ∈ corToEig eigh argsort C b (some k), ∀ q ∈ rest, q.1 ≤ p.1 := by
  obtain ⟨h1, h2, -⟩ := hE C hC
  obtain ⟨hp, hsort⟩ := hs ((eigh C).map (·.1))
  rw [List.length_map, h2] at hp
  set as := argsort ((eigh C).map (·.1)) with has
  have hlen : as.length = n := by rw [hp.length_eq, List.length_range]
  set top := (as.drop (n - k)).reverse with htop
  have hmem : ∀ i ∈ as, i < (eigh C).length := fun i hi => by
    rw [h2]; exact List.mem_range.mp (hp.mem_iff.mp hi)
  have hmemT : ∀ i ∈ top, i < (eigh C).length := fun i hi =>
    hmem i (List.mem_of_mem_drop (List.mem_reverse.mp hi))
  have hmemR : ∀ i ∈ as.take (n - k), i < (eigh C).length := fun i hi => hmem i (List.mem_of_mem_take hi)
  -- the selection before the optional sort
  have hsel : ∀ b', corToEig eigh argsort C b' (some k) =
      if b' then takeIdx (takeIdx (eigh C) top) (argsort ((takeIdx (eigh C) top).map (·.1))).reverse
      else takeIdx (eigh C) top := by
    intro b'
    unfold corToEig
    have e1 : sliceFrom as (-(k : Int)) = as.drop (n - k) := by
      unfold sliceFrom
      rw [if_neg (by omega), hlen]
      congr 1
      omega
    have e2 : ¬ (k : Int) = 0 := by omega
    simp only [Option.getD_some]
    rw [if_neg e2, ← has, e1]
  have hdescT : Descending (takeIdx (eigh C) top) := by
    unfold Descending
    rw [takeIdx_keys _ _ _ hmemT, htop, List.map_reverse, List.pairwise_reverse]
    exact hsort.sublist ((List.drop_sublist _ _).map _)
  have hres : ∃ r, corToEig eigh argsort C b (some k) = r ∧ r.Perm (takeIdx (eigh C) top) ∧ Descending r := by
    refine ⟨_, hsel b, ?_⟩
    cases b with
    | true => exact sort_desc hs _
    | false => exact ⟨List.Perm.refl _, hdescT⟩
  obtain ⟨r, hr, hrp, hrd⟩ := hres
  rw [hr]
  have hperm : (takeIdx (eigh C) top ++ takeIdx (eigh C) (as.take (n - k))).Perm (eigh C) := by
    have : (takeIdx (eigh C) top ++ takeIdx (eigh C) (as.take (n - k))) = takeIdx (eigh C) (top ++ as.take (n - k)) := by
      unfold takeIdx; rw [List.filterMap_append]
    rw [this]
    apply takeIdx_perm
    rw [h2]
    refine List.Perm.trans ?_ hp
    rw [htop]
    refine ((List.reverse_perm _).append_right _).trans (List.perm_append_comm.trans ?_)
    rw [List.take_append_drop]
  refine ⟨takeIdx (eigh C) (as.take (n - k)), (hrp.append_right _).trans hperm, ?_, ?_, hrd, ?_⟩
  · have hfull := isEigen_perm h1 ((hrp.append_right _).trans hperm).symm
    refine ⟨⟨fun v hv => hfull.ortho.1 v (by rw [List.map_append]; exact List.mem_append_left _ hv), ?_⟩,
      fun p hpm => hfull.eig p (List.mem_append_left _ hpm)⟩
    have := hfull.ortho.2
    rw [List.map_append] at this
    exact (List.pairwise_append.mp this).1
  · rw [hrp.length_eq]
    have : (takeIdx (eigh C) top).length = top.length := by
      have := congrArg List.length (takeIdx_keys (eigh C) (·.1) top hmemT)
      simpa using this
    rw [this, htop, List.length_reverse, List.length_drop, hlen]
    omega
  · intro p hpm q hq
    have hpm' := hrp.mem_iff.mp hpm
    have hsp : (as.take (n - k) ++ as.drop (n - k)).map (fun i => ((eigh C).map (·.1)).getD i 0)
        |>.Pairwise (· ≤ ·) := by rw [List.take_append_drop]; exact hsort
    rw [List.map_append] at hsp
    refine (List.pairwise_append.mp hsp).2.2 q.1 ?_ p.1 ?_
    · rw [← takeIdx_keys _ _ _ hmemR]
      exact List.mem_map_of_mem hq
    · rw [← List.mem_reverse, ← List.map_reverse, ← htop, ← takeIdx_keys _ _ _ hmemT]
      exact List.mem_map_of_mem hpm'

/-- C35, limit. `k = 0` is treated like `None`: all eigenvalues are returned. -/
theorem cor_to_eig_zero (C : Mat n) (b : Bool) :
    corToEig eigh argsort C b (some 0) = corToEig eigh argsort C b none := rfl

/-- C35, limit. Setting the diagonal to one can destroy positive semidefiniteness even when the eigenvalues are
non-negative and sum to the size: a single factor with loadings (6, 3, 2)/7. -/
theorem eig_to_cor_not_psd : ∃ ps : List (Pair 3), OrthoList (ps.map (·.2)) ∧ (∀ p ∈ ps, 0 ≤ p.1) ∧
    (ps.map (·.1)).sum = 3 ∧ ¬ IsCor (eigToCor ps) := by
  refine ⟨[(3, ![6 / 7, 3 / 7, 2 / 7])], ⟨?_, by simp⟩, by simp, by simp, fun h => ?_⟩
  · intro v hv
    simp only [List.map_cons, List.map_nil, List.mem_singleton] at hv
    subst hv
    simp [dotProduct, Fin.sum_univ_three]
    norm_num
  · have := h.psd ![1, -1, -3 / 10]
    rw [quad_eq] at this
    simp only [Fin.sum_univ_three, eigToCor, eigSum, clip1] at this
    have h2 : ∀ a b c : ℝ, ![a, b, c] 2 = c := fun _ _ _ => rfl
    norm_num [Fin.ext_iff, h2] at this

end Verif.Cov
