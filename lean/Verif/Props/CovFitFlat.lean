import Verif.Props.CovFitLimit
import Mathlib.Analysis.Real.Pi.Bounds

/-!
# When the Marchenko–Pastur fit finds no noise (C127)

The Marchenko–Pastur density at `x` is at most `√q / (π x)`, where `q` is the number of time steps divided by the number of assets. An eigenvalue outside
the support has the likelihood `1 / max` in `_marchenko_pastur_fit` (`cov.py:280`). So eigenvalues that differ by less than the factor `π / √q` are more
likely as factors than as noise.
-/

namespace Verif.Cov

open Finset Filter Topology

variable {n : Nat} {eigh : Mat n → List (Pair n)} {argsort : List ℝ → List Nat} {svdU : List (Fin n → ℝ) → List (Fin n → ℝ)}

/-- **The bound of the density.** -/
theorem density_le {u : ℝ} (hu : 0 < u) {T N : Nat} (hT : 0 < T) (hN : 0 < N) {x : ℝ} (hx : 0 < x) :
    mpDensity u T N x ≤ Real.sqrt (T / N) / (Real.pi * x) := by
  have hT' : (0 : ℝ) < T := by exact_mod_cast hT
  have hN' : (0 : ℝ) < N := by exact_mod_cast hN
  set q : ℝ := T / N with hq
  have hq0 : 0 < q := by positivity
  have hs := Real.sqrt_pos.mpr hq0
  have hsq := Real.sq_sqrt hq0.le
  have hr : Real.sqrt (1 / q) = 1 / Real.sqrt q := by rw [Real.sqrt_div zero_le_one, Real.sqrt_one]
  have hpi := Real.pi_pos
  unfold mpDensity
  dsimp only
  split
  · have hle : Real.sqrt (((mpSupport u T N).2 - x) * (x - (mpSupport u T N).1)) ≤ 2 * u / Real.sqrt q := by
      refine Real.sqrt_le_iff.mpr ⟨by positivity, ?_⟩
      unfold mpSupport
      dsimp only
      rw [← hq, hr]
      have : 2 * u / Real.sqrt q = (u * (1 + 1 / Real.sqrt q) ^ 2 - u * (1 - 1 / Real.sqrt q) ^ 2) / 2 := by ring
      rw [this]
      nlinarith [sq_nonneg (u * (1 + 1 / Real.sqrt q) ^ 2 - x - (x - u * (1 - 1 / Real.sqrt q) ^ 2))]
    calc (T / N : ℝ) / (2 * Real.pi * u * x) * _ ≤ q / (2 * Real.pi * u * x) * (2 * u / Real.sqrt q) := mul_le_mul_of_nonneg_left hle (by positivity)
      _ = Real.sqrt q / (Real.pi * x) := by
        field_simp
        exact hsq.symm
  · positivity

theorem density_nonpos {u : ℝ} (hu : 0 < u) {T N : Nat} (hT : 0 < T) (hN : 0 < N) {x : ℝ} (hx : x ≤ 0) : mpDensity u T N x = 0 := by
  by_contra hne
  have := ((mp_density_sign hu hT hN x).1.mp (lt_of_le_of_ne (mp_density_sign hu hT hN x).2 (Ne.symm hne))).1
  linarith [(mp_support hu hT hN).1]

/-- The loop keeps the first value if no other one is more likely. -/
theorem mpLoop_first {ll : ℝ → ℝ} (st : ℝ × ℝ) (v : ℝ) (vs : List ℝ) (h : ∀ u ∈ vs, ll u ≤ ll v) (hc : st.1 < ll v) : mpLoop ll st (v :: vs) = (ll v, v) := by
  have stay : ∀ (vs : List ℝ), (∀ u ∈ vs, ll u ≤ ll v) → mpLoop ll (ll v, v) vs = (ll v, v) := fun vs => by
    induction vs with
    | nil => exact fun _ => rfl
    | cons a vs ih =>
      intro h
      rw [mpLoop, if_neg (not_lt.mpr (h a List.mem_cons_self))]
      exact ih fun u hu => h u (List.mem_cons_of_mem _ hu)
  rw [mpLoop, if_pos hc]
  exact stay vs h

/-- C127. **Eigenvalues that differ by less than the factor `π / √q`** (zeros aside) and are not in the support of the variance 0.01: the fit returns 0.01. -/
theorem fit_flat {T N : Nat} (hT : 0 < T) (hN : 0 < N) {xs : List ℝ} (hl : xs ≠ []) (h0 : 0 < lmax xs) (hlog : xs.length * Real.log (lmax xs) < 10 ^ 9)
    (hflat : ∀ x ∈ xs, x ≤ 0 ∨ Real.sqrt (T / N) * lmax xs ≤ Real.pi * x ∧ (mpSupport 0.01 T N).2 ≤ x) : mpFit T N xs = .ok 0.01 := by
  have hpi := Real.pi_pos
  have hle : ∀ u ∈ mpGrid, mpLogLik T N xs u ≤ -(xs.length * Real.log (lmax xs)) := fun u hu => by
    have hup : 0 < u := lt_of_lt_of_le (by norm_num) (grid_bounds hu).1
    unfold mpLogLik
    have e : -(xs.length * Real.log (lmax xs)) = (xs.map fun _ => -Real.log (lmax xs)).sum := by
      rw [List.map_const', List.sum_replicate, nsmul_eq_mul]
      ring
    rw [e]
    refine List.sum_le_sum fun x hx => ?_
    split
    · rename_i hp
      rcases hflat x hx with h | ⟨h, -⟩
      · exact absurd hp (by rw [density_nonpos hup hT hN h]; exact lt_irrefl _)
      · have hxp : 0 < x := lt_of_le_of_lt (mp_support hup hT hN).1 ((mp_density_sign hup hT hN x).1.mp hp).1
        rw [← Real.log_inv]
        refine Real.log_le_log hp ((density_le hup hT hN hxp).trans ?_)
        rw [inv_eq_one_div, div_le_div_iff₀ (by positivity) h0]
        linarith
    · rw [one_div, Real.log_inv]
  have heq : mpLogLik T N xs 0.01 = -(xs.length * Real.log (lmax xs)) := by
    unfold mpLogLik
    rw [List.map_congr_left (g := fun _ => -Real.log (lmax xs)), List.map_const', List.sum_replicate, nsmul_eq_mul]
    · ring
    · intro x hx
      have hz : mpDensity 0.01 T N x = 0 := by
        rcases hflat x hx with h | ⟨-, h⟩
        · exact density_nonpos (by norm_num) hT hN h
        · unfold mpDensity
          exact if_neg fun hc => absurd hc.2 (not_lt.mpr h)
      rw [hz, if_neg (lt_irrefl _), one_div, Real.log_inv]
  unfold mpFit
  rw [if_neg (by omega), if_neg hl, if_neg (by linarith), if_neg h0.ne']
  obtain ⟨vs, e⟩ := grid_cons
  rw [e] at hle ⊢
  rw [mpLoop_first _ _ _ (fun u hu => by rw [heq]; exact hle u (List.mem_cons_of_mem _ hu)) (by rw [heq]; dsimp only; linarith)]

/-! ### Correlation matrices -/

/-- The eigenvalues that are fitted: all, or the first `n - T` with fewer time steps than assets. -/
def fitList (lam : Fin n → ℝ) (T : Nat) : List ℝ := if T < n then (List.ofFn lam).take (n - T) else List.ofFn lam

/-- **The result for a given fitted variance.** -/
theorem fitted_value (hE : EighSpec eigh) (hs : ArgsortSpec argsort) {C : Mat n} (hC : IsCor C) {T : Nat} (hT : C.rank ≤ T) {lam : Fin n → ℝ} {v : Fin n → Fin n → ℝ}
    (h : Sys C lam v) {u : ℝ} (hfit : mpFit T n (fitList lam T) = .ok u) :
    ∃ r, corDenoise eigh argsort svdU T none (.square C) = .ok r ∧ r.2 = ⟨atLeast lam (mpSupport u T n).2, some (u, (mpSupport u T n).2)⟩ ∧
      Denoised C (atLeast lam (mpSupport u T n).2) r.1 := by
  have key : ∃ r, corDenoise eigh argsort svdU T none (.square C) = .ok r ∧ r.2 = ⟨atLeast lam (mpSupport u T n).2, some (u, (mpSupport u T n).2)⟩ := by
    obtain ⟨hev, hlen, hdesc⟩ := cor_to_eig_all hE hs hC.symm
    unfold corDenoise
    dsimp only
    generalize corToEig eigh argsort C true none = ps at *
    obtain rfl := Sys.lam_eq hC.symm (sys_of_list hev hlen hdesc) h
    have hl : (ps.map (·.1)).length = n := by rw [List.length_map, hlen]
    have hof : ps.map (·.1) = List.ofFn (lamOf ps hlen) := by
      refine List.ext_getElem (by rw [hl, List.length_ofFn]) fun q h1 h2 => ?_
      rw [List.getElem_map, List.getElem_ofFn]
      rfl
    have hz := (rank_le_iff h (lam_nonneg hC.isCov h) T).mp hT
    have htr : truncateEig (ps.map (·.1)) T = ps.map (·.1) := by
      unfold truncateEig
      split
      · rename_i hlt
        conv_rhs => rw [← List.take_append_drop T (ps.map (·.1))]
        congr 1
        symm
        rw [List.eq_replicate_iff, List.length_drop]
        refine ⟨rfl, fun x hx => ?_⟩
        obtain ⟨q, hq, rfl⟩ := List.mem_iff_getElem.mp hx
        rw [List.length_drop, List.length_map, hlen] at hq
        rw [List.getElem_drop, List.getElem_map]
        exact hz ⟨T + q, by omega⟩ (Nat.le_add_right _ _)
      · rfl
    unfold eigenValuesDenoise
    dsimp only
    rw [htr, hl]
    have hf : mpFit T n (if T < n then (ps.map (·.1)).take (n - T) else ps.map (·.1)) = .ok u := by
      rw [hof]
      exact hfit
    rw [hf]
    refine ⟨_, rfl, ?_⟩
    dsimp only
    congr 2
    rw [countP_fin _ hl]
    unfold atLeast
    congr 1
    ext a
    simp only [mem_filter, mem_univ, true_and, decide_eq_true_eq, List.getElem_map]
    rfl
  obtain ⟨r, hr, e⟩ := key
  refine ⟨r, hr, e, ?_⟩
  obtain ⟨m, hk, -, hD⟩ := denoised_fitted hE hs hC hT hr
  rw [e] at hk
  dsimp only at hk
  have : atLeast lam (mpSupport u T n).2 = m := by exact_mod_cast hk
  rw [this]
  exact hD

theorem lam_top {C : Mat n} (hC : IsCor C) {lam : Fin n → ℝ} {v : Fin n → Fin n → ℝ} (h : Sys C lam v) (hn : 0 < n) : 1 ≤ lam ⟨0, hn⟩ := by
  by_contra hc
  have e := sys_trace hC h
  have : ∑ a, lam a < ∑ _a : Fin n, (1 : ℝ) := sum_lt_sum_of_nonempty ⟨⟨0, hn⟩, mem_univ _⟩ fun a _ =>
    lt_of_le_of_lt (h.desc (Fin.le_def.mpr (Nat.zero_le _))) (not_le.mp hc)
  rw [e] at this
  simp at this

theorem fitList_get {lam : Fin n → ℝ} {T : Nat} {x : ℝ} (hx : x ∈ fitList lam T) : ∃ a : Fin n, (T < n → a < n - T) ∧ x = lam a := by
  unfold fitList at hx
  split at hx
  · obtain ⟨q, hq, rfl⟩ := List.mem_iff_getElem.mp hx
    rw [List.length_take, List.length_ofFn] at hq
    refine ⟨⟨q, by omega⟩, fun _ => by simp; omega, ?_⟩
    rw [List.getElem_take, List.getElem_ofFn]
  · rename_i hT
    obtain ⟨a, rfl⟩ := List.mem_ofFn.mp hx
    exact ⟨a, fun h => absurd h hT, rfl⟩

/-- The first eigenvalue is fitted, and it is the greatest. -/
theorem fitList_max {C : Mat n} {lam : Fin n → ℝ} {v : Fin n → Fin n → ℝ} (h : Sys C lam v) (hn : 0 < n) (T : Nat) :
    lam ⟨0, hn⟩ ∈ fitList lam T ∧ lmax (fitList lam T) = lam ⟨0, hn⟩ := by
  have hmem : lam ⟨0, hn⟩ ∈ fitList lam T := by
    unfold fitList
    split
    · refine List.mem_iff_getElem.mpr ⟨0, by rw [List.length_take, List.length_ofFn]; omega, ?_⟩
      rw [List.getElem_take, List.getElem_ofFn]
    · exact List.mem_ofFn.mpr ⟨_, rfl⟩
  refine ⟨hmem, le_antisymm (lmax_le (List.ne_nil_of_mem hmem) fun x hx => ?_) (lmax_ge hmem)⟩
  obtain ⟨a, -, rfl⟩ := fitList_get hx
  exact h.desc (Fin.le_def.mpr (Nat.zero_le _))

theorem fitList_length (lam : Fin n → ℝ) (T : Nat) : (fitList lam T).length = if T < n then n - T else n := by
  unfold fitList
  split <;> simp

/-- C127. **The fitted number of factors of a flat spectrum.** If the fitted eigenvalues (zeros aside) differ by less than the factor `π √(n / T)` and are above
the noise threshold of the variance 0.01, then 0.01 is the fitted variance and every eigenvalue above `0.01 (1 + √(n / T))²` a factor. -/
theorem flat_factors (hE : EighSpec eigh) (hs : ArgsortSpec argsort) {C : Mat n} (hC : IsCor C) (hn : 0 < n) {T : Nat} (hT0 : 0 < T) (hT : C.rank ≤ T)
    (hlog : ((if T < n then n - T else n : Nat) : ℝ) * Real.log n < 10 ^ 9) {lam : Fin n → ℝ} {v : Fin n → Fin n → ℝ} (h : Sys C lam v)
    (hflat : ∀ a : Fin n, (T < n → a < n - T) → lam a = 0 ∨ Real.sqrt (T / n) * lam ⟨0, hn⟩ ≤ Real.pi * lam a ∧ (mpSupport 0.01 T n).2 ≤ lam a) :
    ∃ r, corDenoise eigh argsort svdU T none (.square C) = .ok r ∧ r.2 = ⟨atLeast lam (mpSupport 0.01 T n).2, some (0.01, (mpSupport 0.01 T n).2)⟩ ∧
      Denoised C (atLeast lam (mpSupport 0.01 T n).2) r.1 := by
  obtain ⟨hm1, hm2⟩ := fitList_max h hn T
  have h1 := lam_top hC h hn
  refine fitted_value hE hs hC hT h (fit_flat hT0 hn (List.ne_nil_of_mem hm1) (by rw [hm2]; linarith) ?_ fun x hx => ?_)
  · rw [hm2, fitList_length]
    exact lt_of_le_of_lt (mul_le_mul_of_nonneg_left (Real.log_le_log (by linarith) (h.lam_le hC _).2) (Nat.cast_nonneg _)) hlog
  · obtain ⟨a, ha, rfl⟩ := fitList_get hx
    rw [hm2]
    exact (hflat a ha).imp_left fun e => e.le

/-- C127. **A flat spectrum is returned as it is**: at least as many time steps as assets, no eigenvalue below `0.01 (1 + √(n / T))²`, and the greatest at most
`π √(n / T)` times the smallest. -/
theorem flat_unchanged (hE : EighSpec eigh) (hs : ArgsortSpec argsort) {C : Mat n} (hC : IsCor C) (hn : 0 < n) {T : Nat} (hT : n ≤ T)
    (hlog : (n : ℝ) * Real.log n < 10 ^ 9) {lam : Fin n → ℝ} {v : Fin n → Fin n → ℝ} (h : Sys C lam v)
    (hflat : ∀ a, Real.sqrt (T / n) * lam ⟨0, hn⟩ ≤ Real.pi * lam a ∧ (mpSupport 0.01 T n).2 ≤ lam a) :
    ∃ r, corDenoise eigh argsort svdU T none (.square C) = .ok r ∧ r.2.k = n ∧ r.1 = C := by
  have hrank : C.rank ≤ T := le_trans (by simpa using Matrix.rank_le_card_height C) hT
  obtain ⟨r, hr, e, hD⟩ := flat_factors (svdU := svdU) hE hs hC hn (by omega) hrank (by rw [if_neg (by omega)]; exact hlog) h fun a _ => .inr (hflat a)
  have hall : atLeast lam (mpSupport 0.01 T n).2 = n := by
    unfold atLeast
    rw [filter_true_of_mem fun a _ => (hflat a).2]
    simp
  rw [hall] at hD e
  obtain ⟨l, w, hsys, d1, d2⟩ := hD
  refine ⟨r, hr, by rw [e], ?_⟩
  ext i j
  by_cases hij : i = j
  · rw [hij, d1, hC.diag]
  · rw [d2 i j hij, excess_all hsys]

/-- Eigenvalues are as close to one as the row sums of the other correlations are to zero. -/
theorem lam_near_one {C : Mat n} (hC : IsCor C) {lam : Fin n → ℝ} {v : Fin n → Fin n → ℝ} (h : Sys C lam v) {δ : ℝ}
    (hδ : ∀ i, (∑ j, if i = j then 0 else |C i j|) ≤ δ) (a : Fin n) : |lam a - 1| ≤ δ := by
  have hnorm : ∑ i, v a i * v a i = 1 := by
    have := h.ortho a a
    rwa [if_pos rfl] at this
  have hq : lam a - 1 = ∑ i, ∑ j, (if i = j then 0 else C i j) * (v a i * v a j) := by
    have e := h.quad_vec a
    have e2 : dotProduct (v a) (C.mulVec (v a)) = ∑ i, ∑ j, C i j * (v a i * v a j) := by
      unfold dotProduct Matrix.mulVec dotProduct
      refine sum_congr rfl fun i _ => ?_
      rw [mul_sum]
      exact sum_congr rfl fun j _ => by ring
    rw [← e, e2, ← hnorm, ← sum_sub_distrib]
    refine sum_congr rfl fun i _ => ?_
    have : v a i * v a i = ∑ j, if i = j then v a i * v a j else 0 := by rw [sum_ite_eq, if_pos (mem_univ _)]
    rw [this, ← sum_sub_distrib]
    refine sum_congr rfl fun j _ => ?_
    by_cases hij : i = j
    · rw [if_pos hij, if_pos hij, ← hij, hC.diag]
      ring
    · rw [if_neg hij, if_neg hij, sub_zero]
  set B : Fin n → Fin n → ℝ := fun i j => if i = j then 0 else |C i j| with hB
  have hBs : ∀ i j, B i j = B j i := fun i j => by
    dsimp only [B]
    have : C j i = C i j := by
      conv_lhs => rw [← hC.symm]
      rfl
    rw [this]
    exact if_congr eq_comm rfl rfl
  have hterm : ∀ i j, |(if i = j then 0 else C i j) * (v a i * v a j)| ≤ B i j * (v a i * v a i) / 2 + B i j * (v a j * v a j) / 2 := fun i j => by
    have e : |(if i = j then 0 else C i j)| = B i j := by
      dsimp only [B]
      split
      · exact abs_zero
      · rfl
    have hB0 : 0 ≤ B i j := e ▸ abs_nonneg _
    rw [abs_mul, e, abs_mul]
    have : |v a i| * |v a j| ≤ (v a i * v a i + v a j * v a j) / 2 := by
      have := sq_nonneg (|v a i| - |v a j|)
      have e1 := abs_mul_abs_self (v a i)
      have e2 := abs_mul_abs_self (v a j)
      nlinarith
    calc _ ≤ B i j * ((v a i * v a i + v a j * v a j) / 2) := mul_le_mul_of_nonneg_left this hB0
      _ = _ := by ring
  have hrow : ∑ i, ∑ j, B i j * (v a i * v a i) / 2 ≤ δ / 2 := by
    calc _ = ∑ i, (∑ j, B i j) * ((v a i * v a i) / 2) := sum_congr rfl fun i _ => by rw [sum_mul]; exact sum_congr rfl fun j _ => by ring
      _ ≤ ∑ i, δ * ((v a i * v a i) / 2) := sum_le_sum fun i _ => mul_le_mul_of_nonneg_right (hδ i) (div_nonneg (mul_self_nonneg _) (by norm_num))
      _ = δ / 2 := by rw [← mul_sum, ← sum_div, hnorm]; ring
  have hcol : ∑ i, ∑ j, B i j * (v a j * v a j) / 2 ≤ δ / 2 := by
    rw [sum_comm]
    refine le_trans (le_of_eq ?_) hrow
    exact sum_congr rfl fun i _ => sum_congr rfl fun j _ => by rw [hBs]
  rw [hq]
  calc _ ≤ ∑ i, ∑ j, (B i j * (v a i * v a i) / 2 + B i j * (v a j * v a j) / 2) :=
        (abs_sum_le_sum_abs _ _).trans (sum_le_sum fun i _ => (abs_sum_le_sum_abs _ _).trans (sum_le_sum fun j _ => hterm i j))
    _ = (∑ i, ∑ j, B i j * (v a i * v a i) / 2) + ∑ i, ∑ j, B i j * (v a j * v a j) / 2 := by simp only [sum_add_distrib]
    _ ≤ δ := by linarith

/-- C127. **Small correlations are returned as they are**: the other correlations in each row sum to at most `δ` in size, `√(T / n) (1 + δ) ≤ π (1 - δ)`. These are
the correlation matrices nearest to pure noise; up to nine observations per asset (`δ = 0` needs `T ≤ π² n`) they are taken for `n` factors. -/
theorem small_unchanged (hE : EighSpec eigh) (hs : ArgsortSpec argsort) {C : Mat n} (hC : IsCor C) (hn : 0 < n) {T : Nat} (hT : n ≤ T)
    (hlog : (n : ℝ) * Real.log n < 10 ^ 9) {δ : ℝ} (hδ : ∀ i, (∑ j, if i = j then 0 else |C i j|) ≤ δ) (hq : Real.sqrt (T / n) * (1 + δ) ≤ Real.pi * (1 - δ)) :
    ∃ r, corDenoise eigh argsort svdU T none (.square C) = .ok r ∧ r.2.k = n ∧ r.1 = C := by
  obtain ⟨lam, v, h⟩ : ∃ lam v, Sys C lam v := by
    obtain ⟨hev, hlen, hdesc⟩ := cor_to_eig_all hE hs hC.symm
    exact ⟨_, _, sys_of_list hev hlen hdesc⟩
  have hn' : (0 : ℝ) < n := by exact_mod_cast hn
  have hT' : (n : ℝ) ≤ T := by exact_mod_cast hT
  have hδ0 : 0 ≤ δ := le_trans (sum_nonneg fun j _ => by split; exacts [le_rfl, abs_nonneg _]) (hδ ⟨0, hn⟩)
  have hq1 : 1 ≤ Real.sqrt (T / n) := Real.one_le_sqrt.mpr ((one_le_div hn').mpr hT')
  have hpi := Real.pi_le_four
  have hpi3 := Real.pi_gt_three
  have hlow : 1 / 5 ≤ 1 - δ := by nlinarith
  have hthr : (mpSupport 0.01 T n).2 ≤ 0.04 := by
    unfold mpSupport
    dsimp only
    have hr : Real.sqrt (1 / ((T : ℝ) / n)) ≤ 1 := Real.sqrt_le_one.mpr (by
      rw [one_div_div, div_le_one (by linarith)]
      exact hT')
    have h0 := Real.sqrt_nonneg (1 / ((T : ℝ) / n))
    have : (1 + Real.sqrt (1 / ((T : ℝ) / n))) ^ 2 ≤ 2 ^ 2 := pow_le_pow_left₀ (by linarith) (by linarith) 2
    norm_num at this ⊢
    linarith
  refine flat_unchanged hE hs hC hn hT hlog h fun a => ?_
  have h0 := abs_le.mp (lam_near_one hC h hδ ⟨0, hn⟩)
  have ha := abs_le.mp (lam_near_one hC h hδ a)
  constructor
  · calc _ ≤ Real.sqrt (T / n) * (1 + δ) := mul_le_mul_of_nonneg_left (by linarith) (by linarith)
      _ ≤ _ := hq
      _ ≤ _ := mul_le_mul_of_nonneg_left (by linarith) (by linarith)
  · linarith

/-! ### One time step fewer than assets -/

theorem support_small {n : Nat} (hn : 2 ≤ n) : (mpSupport 0.01 (n - 1) n).2 ≤ 0.06 := by
  unfold mpSupport
  dsimp only
  have h1 : (0 : ℝ) < ((n - 1 : Nat) : ℝ) := by
    have : 0 < n - 1 := by omega
    exact_mod_cast this
  have h2 : (n : ℝ) ≤ 2 * ((n - 1 : Nat) : ℝ) := by
    have : n ≤ 2 * (n - 1) := by omega
    exact_mod_cast this
  have hr : Real.sqrt (1 / (((n - 1 : Nat) : ℝ) / n)) ≤ 1.42 := by
    refine Real.sqrt_le_iff.mpr ⟨by norm_num, ?_⟩
    rw [one_div_div, div_le_iff₀ h1]
    norm_num
    linarith
  have h0 := Real.sqrt_nonneg (1 / (((n - 1 : Nat) : ℝ) / n))
  have : (1 + Real.sqrt (1 / (((n - 1 : Nat) : ℝ) / n))) ^ 2 ≤ 2.42 ^ 2 := pow_le_pow_left₀ (by linarith) (by linarith) 2
  norm_num at this ⊢
  linarith

/-- The entries of a denoised matrix change by the spread of the eigenvalues that are treated as noise at most. -/
theorem denoised_entry {C D : Mat n} (hC : IsCor C) (hDs : D.IsSymm) (hD1 : ∀ i, D i i = 1) {c : ℝ} (h : ∀ x : Fin n → ℝ, |dotProduct x (D.mulVec x) - dotProduct x (C.mulVec x)| ≤ c * ∑ i, x i ^ 2)
    (i j : Fin n) (hij : i ≠ j) : |D i j - C i j| ≤ c := by
  have e := h (Pi.single i 1 + Pi.single j 1)
  have quad : ∀ M : Mat n, M.IsSymm → (∀ i, M i i = 1) → dotProduct (Pi.single i 1 + Pi.single j 1) (M.mulVec (Pi.single i 1 + Pi.single j 1)) = 2 + 2 * M i j := fun M hM h1 => by
    have hs : M j i = M i j := by
      conv_lhs => rw [← hM]
      rfl
    rw [Matrix.mulVec_add, add_dotProduct, dotProduct_add, dotProduct_add]
    simp only [Matrix.mulVec_single_one, single_one_dotProduct, Matrix.col_apply, h1, hs]
    ring
  have hnorm : ∑ a, (Pi.single i 1 + Pi.single j 1 : Fin n → ℝ) a ^ 2 = 2 := by
    have : ∀ a, (Pi.single i 1 + Pi.single j 1 : Fin n → ℝ) a ^ 2 = (if a = i then 1 else 0) + if a = j then 1 else 0 := fun a => by
      rw [Pi.add_apply, Pi.single_apply, Pi.single_apply]
      by_cases h1 : a = i
      · by_cases h2 : a = j
        · exact absurd (h1.symm.trans h2) hij
        · simp [h1, hij]
      · by_cases h2 : a = j
        · simp [h2, Ne.symm hij]
        · simp [h1, h2]
    rw [sum_congr rfl fun a _ => this a, sum_add_distrib]
    simp
    norm_num
  rw [quad D hDs hD1, quad C hC.symm hC.diag, hnorm] at e
  rw [abs_le] at e ⊢
  constructor <;> linarith

/-- C127. **Finding: with one time step fewer than assets nothing is denoised.** The fit looks at the greatest eigenvalue alone, returns the variance 0.01, and
the variance of every portfolio (of standardised assets) changes by at most 0.06 times its squared weights, whatever the correlations are. -/
theorem one_short (hE : EighSpec eigh) (hs : ArgsortSpec argsort) {C : Mat n} (hC : IsCor C) (hn : 2 ≤ n) (hrank : C.rank ≤ n - 1) (hlog : Real.log n < 10 ^ 9) :
    ∃ r, corDenoise eigh argsort svdU (n - 1) none (.square C) = .ok r ∧ r.2.fitted = some (0.01, (mpSupport 0.01 (n - 1) n).2) ∧
      (∀ x : Fin n → ℝ, |dotProduct x (r.1.mulVec x) - dotProduct x (C.mulVec x)| ≤ 0.06 * ∑ i, x i ^ 2) ∧ ∀ i j, |r.1 i j - C i j| ≤ 0.06 := by
  obtain ⟨lam, v, h⟩ : ∃ lam v, Sys C lam v := by
    obtain ⟨hev, hlen, hdesc⟩ := cor_to_eig_all hE hs hC.symm
    exact ⟨_, _, sys_of_list hev hlen hdesc⟩
  have hn0 : 0 < n := by omega
  have h1 := lam_top hC h hn0
  have hsup := support_small hn
  obtain ⟨r, hr, e, hD⟩ := flat_factors (svdU := svdU) hE hs hC hn0 (T := n - 1) (by omega) hrank (by
    rw [if_pos (by omega), show n - (n - 1) = 1 by omega, Nat.cast_one, one_mul]
    exact hlog) h fun a ha => by
      have ha' := ha (by omega)
      obtain rfl : a = ⟨0, hn0⟩ := Fin.ext (by simp; omega)
      refine .inr ⟨mul_le_mul_of_nonneg_right ?_ (by linarith), by linarith⟩
      refine le_trans (Real.sqrt_le_one.mpr ?_) (by linarith [Real.pi_gt_three])
      rw [div_le_one (by exact_mod_cast hn0)]
      exact_mod_cast Nat.sub_le n 1
  have hquad : ∀ x : Fin n → ℝ, |dotProduct x (r.1.mulVec x) - dotProduct x (C.mulVec x)| ≤ 0.06 * ∑ i, x i ^ 2 := fun x => by
    have hnn : 0 ≤ ∑ i, x i ^ 2 := sum_nonneg fun i _ => sq_nonneg _
    set m := atLeast lam (mpSupport 0.01 (n - 1) n).2 with hm
    rcases lt_or_ge m n with hlt | hge
    · refine (denoised_variance hC hlt hD h x).trans (mul_le_mul_of_nonneg_right ?_ hnn)
      have h0 := (h.lam_le hC ⟨n - 1, by omega⟩).1
      have hlam : lam ⟨m, hlt⟩ < (mpSupport 0.01 (n - 1) n).2 := by
        by_contra hc
        have : (univ.filter fun a : Fin n => a ≤ ⟨m, hlt⟩) ⊆ univ.filter fun a : Fin n => (mpSupport 0.01 (n - 1) n).2 ≤ lam a := fun a ha => by
          simp only [mem_filter, mem_univ, true_and] at ha ⊢
          exact (not_lt.mp hc).trans (h.desc ha)
        have hcard := card_le_card this
        have e1 : (univ.filter fun a : Fin n => a ≤ ⟨m, hlt⟩) = Iic ⟨m, hlt⟩ := by ext; simp
        rw [e1, Fin.card_Iic] at hcard
        have e2 : m = (univ.filter fun a : Fin n => (mpSupport 0.01 (n - 1) n).2 ≤ lam a).card := hm
        simp only at hcard
        omega
      linarith
    · have hmn : m = n := le_antisymm ((card_le_univ _).trans (by simp)) hge
      rw [hmn] at hD
      obtain ⟨l, w, hsys, d1, d2⟩ := hD
      have : r.1 = C := by
        ext i j
        by_cases hij : i = j
        · rw [hij, d1, hC.diag]
        · rw [d2 i j hij, excess_all hsys]
      rw [this, sub_self, abs_zero]
      positivity
  refine ⟨r, hr, by rw [e], hquad, fun i j => ?_⟩
  obtain ⟨l, w, hsys, d1, d2⟩ := hD
  by_cases hij : i = j
  · rw [hij, d1, hC.diag, sub_self, abs_zero]
    norm_num
  · refine denoised_entry hC ?_ d1 hquad i j hij
    ext a b
    rw [Matrix.transpose_apply]
    by_cases hab : a = b
    · rw [hab]
    · rw [d2 a b hab, d2 b a (Ne.symm hab)]
      unfold excess
      refine sum_congr rfl fun c _ => ?_
      rw [mul_comm (w c b)]

/-- The correlation matrix of `s` observations has a rank of at most `s`. -/
theorem sample_rank {s : Nat} (hs : 2 ≤ s) (x : Nat → Fin n → ℝ) : (covToCor (covOfSample s x) covReg).1.rank ≤ s := by
  set σ := covStd (covOfSample s x) covReg
  set Y : Matrix (Fin s) (Fin n) ℝ := fun t i => (x t i - Sim.mean s fun t => x t i) / σ i
  set Z : Matrix (Fin n) (Fin s) ℝ := fun i t => (x t i - Sim.mean s fun t => x t i) / σ i / (s - 1)
  have e : (covToCor (covOfSample s x) covReg).1 = Z * Y := by
    ext i j
    rw [Matrix.mul_apply]
    have h1 : (covToCor (covOfSample s x) covReg).1 i j = covOfSample s x i j / (σ i * σ j) := clip1_of_abs (cov_ratio_abs (covOfSample_isCov hs x) covReg_pos i j)
    rw [h1]
    unfold covOfSample Sim.scov
    rw [Finset.sum_range, Finset.sum_div, Finset.sum_div]
    refine sum_congr rfl fun t _ => ?_
    dsimp only [Y, Z]
    rw [div_div, div_div, div_mul_div_comm]
    congr 1
    ring
  rw [e]
  exact (Matrix.rank_mul_le_right Z Y).trans (by simpa using Matrix.rank_le_card_height Y)

/-- C127. **The same for data**: `n - 1` observations of `n` assets whose variances are above the floor. Whatever the data, the denoised covariances of two assets
differ from the sample covariances by at most 0.06 times the product of their standard deviations. -/
theorem one_short_sample (hE : EighSpec eigh) (hs : ArgsortSpec argsort) (hn : 3 ≤ n) (hlog : Real.log n < 10 ^ 9) (x : Nat → Fin n → ℝ)
    (hvar : ∀ i, covReg ≤ covOfSample (n - 1) x i i) :
    ∃ q, covDenoise eigh argsort svdU (n - 1) none (covOfSample (n - 1) x) = .ok q ∧
      ∀ i j, |q.1 i j - covOfSample (n - 1) x i j| ≤ 0.06 * (Real.sqrt (covOfSample (n - 1) x i i) * Real.sqrt (covOfSample (n - 1) x j j)) := by
  have hcov := covOfSample_isCov (s := n - 1) (by omega) x
  have hcor := (cov_to_cor_isCor_iff hcov covReg_pos).mpr hvar
  obtain ⟨r, hr, -, -, hij⟩ := one_short (svdU := svdU) hE hs hcor (by omega) (sample_rank (by omega) x) hlog
  unfold covDenoise
  rw [hr]
  refine ⟨_, rfl, fun i j => ?_⟩
  have hstd : ∀ i, (covToCor (covOfSample (n - 1) x) covReg).2 i = Real.sqrt (covOfSample (n - 1) x i i) := fun i => by
    unfold covToCor covStd
    dsimp only
    rw [max_eq_left (hvar i)]
  have e : covOfSample (n - 1) x i j = corToCov (covToCor (covOfSample (n - 1) x) covReg).1 (covToCor (covOfSample (n - 1) x) covReg).2 i j := by
    rw [cov_round_trip hcov covReg_pos]
  dsimp only
  rw [e]
  unfold corToCov
  rw [← sub_mul, hstd, hstd, abs_mul, abs_of_nonneg (by positivity : 0 ≤ Real.sqrt (covOfSample (n - 1) x i i) * Real.sqrt (covOfSample (n - 1) x j j))]
  exact mul_le_mul_of_nonneg_right (hij i j) (by positivity)

/-! ### Concrete cases -/

/-- Ten assets with the correlation 1/50 between any two. -/
noncomputable def smallCor : Mat 10 := fun i j => if i = j then 1 else 1 / 50

theorem smallCor_isCor : IsCor smallCor where
  symm := by
    ext i j
    exact if_congr eq_comm rfl rfl
  diag i := if_pos rfl
  psd x := by
    have : dotProduct x (smallCor.mulVec x) = 49 / 50 * ∑ i, x i ^ 2 + 1 / 50 * (∑ i, x i) ^ 2 := by
      unfold dotProduct Matrix.mulVec dotProduct smallCor
      have e : ∀ i, ∑ j, (if i = j then (1 : ℝ) else 1 / 50) * x j = 49 / 50 * x i + 1 / 50 * ∑ j, x j := fun i => by
        have : ∀ j, (if i = j then (1 : ℝ) else 1 / 50) * x j = (if i = j then 49 / 50 * x j else 0) + 1 / 50 * x j := fun j => by
          split <;> ring
        rw [sum_congr rfl fun j _ => this j, sum_add_distrib, sum_ite_eq, if_pos (mem_univ _), mul_sum]
      rw [sum_congr rfl fun i _ => by rw [e i]]
      obtain ⟨S, hSum⟩ : ∃ S, S = ∑ j, x j := ⟨_, rfl⟩
      rw [← hSum]
      have hS : ∀ i, x i * (49 / 50 * x i + 1 / 50 * S) = 49 / 50 * x i ^ 2 + (1 / 50 * S) * x i := fun i => by ring
      rw [sum_congr rfl fun i _ => hS i, sum_add_distrib, ← mul_sum, ← mul_sum, ← hSum]
      ring
    rw [this]
    positivity

/-- Forty observations of these assets: all ten eigenvalues count as factors. -/
example {eigh : Mat 10 → List (Pair 10)} {svdU : List (Fin 10 → ℝ) → List (Fin 10 → ℝ)} (hE : EighSpec eigh) (hs : ArgsortSpec argsort) :
    ∃ r, corDenoise eigh argsort svdU 40 none (.square smallCor) = .ok r ∧ r.2.k = 10 ∧ r.1 = smallCor := by
  refine small_unchanged hE hs smallCor_isCor (by norm_num) (by norm_num) ?_ (δ := 18 / 100) (fun i => ?_) ?_
  · have := Real.log_le_sub_one_of_pos (x := ((10 : Nat) : ℝ)) (by norm_num)
    norm_num at this ⊢
    linarith
  · have : ∀ j, (if i = j then 0 else |smallCor i j|) = 1 / 50 - if i = j then (1 : ℝ) / 50 else 0 := fun j => by
      unfold smallCor
      split <;> norm_num
    rw [sum_congr rfl fun j _ => this j, sum_sub_distrib, sum_ite_eq, if_pos (mem_univ _)]
    norm_num
  · have : Real.sqrt (((40 : Nat) : ℝ) / ((10 : Nat) : ℝ)) = 2 := by
      rw [show ((40 : Nat) : ℝ) / ((10 : Nat) : ℝ) = 2 ^ 2 by norm_num]
      exact Real.sqrt_sq (by norm_num)
    rw [this]
    linarith [Real.pi_gt_three]

/-- Three observations of four assets meet the hypotheses of `one_short_sample`. -/
example : ∀ i, covReg ≤ covOfSample (4 - 1) (fun t (i : Fin 4) => if t = (i : Nat) then (1 : ℝ) else (t : ℝ) * t) i i := by
  intro i
  unfold covOfSample Sim.scov Sim.mean covReg
  fin_cases i <;> norm_num [Finset.sum_range_succ]

end Verif.Cov
