import Verif.Props.CovLimit
import Verif.Props.CovMP
import Mathlib.Analysis.SpecialFunctions.Log.Basic

/-!
# The fitted number of factors in long samples (C125)

For a fixed number of assets the support of the Marchenko–Pastur density shrinks to a point as the sample gets longer, while the grid of
`_marchenko_pastur_fit` (`cov.py:277`) keeps its step of 3.99/999. Once no eigenvalue lies in the support of any grid value, all likelihoods are equal
and the first value, 0.01, is returned.
-/

namespace Verif.Cov

open Finset Filter Topology

variable {n : Nat} {eigh : Mat n → List (Pair n)} {argsort : List ℝ → List Nat} {svdU : List (Fin n → ℝ) → List (Fin n → ℝ)}

/-! ### A fit without eigenvalues inside any support -/

theorem lmax_ge {l : List ℝ} {x : ℝ} (h : x ∈ l) : x ≤ lmax l := by
  unfold lmax
  have key : ∀ (l : List ℝ) (a : ℝ), a ≤ l.foldl max a ∧ ∀ x ∈ l, x ≤ l.foldl max a := fun l => by
    induction l with
    | nil => exact fun a => ⟨le_rfl, fun x hx => absurd hx List.not_mem_nil⟩
    | cons b l ih =>
      intro a
      obtain ⟨h1, h2⟩ := ih (max a b)
      refine ⟨(le_max_left _ _).trans h1, fun x hx => ?_⟩
      rcases List.mem_cons.mp hx with rfl | hx
      · exact (le_max_right _ _).trans h1
      · exact h2 x hx
  cases l with
  | nil => exact absurd h List.not_mem_nil
  | cons b l =>
    rcases List.mem_cons.mp h with rfl | h
    · exact (key l x).1
    · exact (key l b).2 x h

theorem lmax_le {l : List ℝ} (hl : l ≠ []) {B : ℝ} (h : ∀ x ∈ l, x ≤ B) : lmax l ≤ B := by
  unfold lmax
  have key : ∀ (l : List ℝ) (a : ℝ), a ≤ B → (∀ x ∈ l, x ≤ B) → l.foldl max a ≤ B := fun l => by
    induction l with
    | nil => exact fun a ha _ => ha
    | cons b l ih => exact fun a ha hl => ih _ (max_le ha (hl b List.mem_cons_self)) fun x hx => hl x (List.mem_cons_of_mem _ hx)
  cases l with
  | nil => exact absurd rfl hl
  | cons b l => exact key l b (h b List.mem_cons_self) fun x hx => h x (List.mem_cons_of_mem _ hx)

theorem mpLoop_const {ll : ℝ → ℝ} {c : ℝ} (st : ℝ × ℝ) (v : ℝ) (vs : List ℝ) (h : ∀ u ∈ v :: vs, ll u = c) (hc : st.1 < c) : mpLoop ll st (v :: vs) = (c, v) := by
  have stay : ∀ (vs : List ℝ), (∀ u ∈ vs, ll u = c) → ∀ w, mpLoop ll (c, w) vs = (c, w) := fun vs => by
    induction vs with
    | nil => exact fun _ _ => rfl
    | cons a vs ih =>
      intro h w
      rw [mpLoop, h a List.mem_cons_self, if_neg (lt_irrefl c)]
      exact ih (fun u hu => h u (List.mem_cons_of_mem _ hu)) w
  rw [mpLoop, h v List.mem_cons_self, if_pos hc]
  exact stay vs (fun u hu => h u (List.mem_cons_of_mem _ hu)) v

theorem grid_cons : ∃ vs, mpGrid = 0.01 :: vs := by
  refine ⟨(List.range 999).map fun i : Nat => 0.01 + ((i + 1 : Nat) : ℝ) * (3.99 / 999), ?_⟩
  unfold mpGrid
  rw [show 1000 = 999 + 1 from rfl, List.range_succ_eq_map, List.map_cons, List.map_map]
  congr 1
  norm_num

/-- **If no eigenvalue lies inside a support of the grid, all variances are equally likely and the smallest, 0.01, is returned.** -/
theorem fit_outside {T N : Nat} (hT : 0 < T) (hN : 0 < N) {xs : List ℝ} (hl : xs ≠ []) (h1 : 1 ≤ lmax xs) (hlog : xs.length * Real.log (lmax xs) < 10 ^ 9)
    (hout : ∀ u ∈ mpGrid, ∀ x ∈ xs, ¬ ((mpSupport u T N).1 < x ∧ x < (mpSupport u T N).2)) : mpFit T N xs = .ok 0.01 := by
  have hll : ∀ u ∈ mpGrid, mpLogLik T N xs u = -(xs.length * Real.log (lmax xs)) := fun u hu => by
    unfold mpLogLik
    rw [List.map_congr_left (g := fun _ => -Real.log (lmax xs)), List.map_const', List.sum_replicate, nsmul_eq_mul]
    · ring
    · intro x hx
      have : mpDensity u T N x = 0 := by
        unfold mpDensity
        exact if_neg (hout u hu x hx)
      rw [this, if_neg (lt_irrefl _), one_div, Real.log_inv]
  unfold mpFit
  rw [if_neg (by omega), if_neg hl, if_neg (by linarith), if_neg (by linarith)]
  obtain ⟨vs, e⟩ := grid_cons
  rw [e] at hll ⊢
  rw [mpLoop_const _ _ _ hll (by dsimp only; linarith)]

/-! ### The number of factors -/

theorem countP_fin {α : Type} (p : α → Bool) : ∀ {l : List α} {N : Nat} (hl : l.length = N),
    l.countP p = (univ.filter fun a : Fin N => p (l[(a : Nat)]'(by rw [hl]; exact a.2))).card := by
  intro l N hl
  have h1 : ((l.countP p : Nat) : ℝ) = (l.map fun x => if p x then (1 : ℝ) else 0).sum := by
    clear hl
    induction l with
    | nil => simp
    | cons a l ih =>
      rw [List.countP_cons, List.map_cons, List.sum_cons, ← ih]
      by_cases h : p a <;> simp [h, add_comm]
  have h2 := sum_take_fin hl (fun x => if p x then (1 : ℝ) else 0) N
  rw [List.take_of_length_le hl.le] at h2
  rw [h2] at h1
  have h3 : (∑ a : Fin N, if (a : Nat) < N then (if p (l[(a : Nat)]'(by rw [hl]; exact a.2)) then (1 : ℝ) else 0) else 0) =
      ((univ.filter fun a : Fin N => p (l[(a : Nat)]'(by rw [hl]; exact a.2))).card : ℝ) := by
    rw [sum_congr rfl fun a _ => if_pos a.2, ← Finset.sum_filter, sum_const, nsmul_eq_mul, mul_one]
  rw [h3] at h1
  exact_mod_cast h1

/-- The number of eigenvalues of at least `c`. -/
noncomputable def atLeast (lam : Fin n → ℝ) (c : ℝ) : Nat := (univ.filter fun a => c ≤ lam a).card

/-- C125. **The fitted number of factors if no eigenvalue lies inside a support of the grid**: all eigenvalues above the threshold of the smallest variance. -/
theorem fitted_outside (hE : EighSpec eigh) (hs : ArgsortSpec argsort) {C : Mat n} (hC : IsCor C) {T : Nat} (hn : 0 < n) (hT : n ≤ T)
    (hlog : (n : ℝ) * Real.log n < 10 ^ 9) {lam : Fin n → ℝ} {v : Fin n → Fin n → ℝ} (h : Sys C lam v)
    (hout : ∀ u ∈ mpGrid, ∀ a, ¬ ((mpSupport u T n).1 < lam a ∧ lam a < (mpSupport u T n).2)) :
    ∃ r, corDenoise eigh argsort svdU T none (.square C) = .ok r ∧ r.2 = ⟨atLeast lam (mpSupport 0.01 T n).2, some (0.01, (mpSupport 0.01 T n).2)⟩ ∧
      Denoised C (atLeast lam (mpSupport 0.01 T n).2) r.1 := by
  have key : ∃ r, corDenoise eigh argsort svdU T none (.square C) = .ok r ∧ r.2 = ⟨atLeast lam (mpSupport 0.01 T n).2, some (0.01, (mpSupport 0.01 T n).2)⟩ := by
    obtain ⟨hev, hlen, hdesc⟩ := cor_to_eig_all hE hs hC.symm
    unfold corDenoise
    dsimp only
    generalize corToEig eigh argsort C true none = ps at *
    obtain rfl := Sys.lam_eq hC.symm (sys_of_list hev hlen hdesc) h
    have hl : (ps.map (·.1)).length = n := by rw [List.length_map, hlen]
    have htr : truncateEig (ps.map (·.1)) T = ps.map (·.1) := by
      unfold truncateEig
      rw [if_neg (by omega)]
    have hmem : ∀ x ∈ ps.map (·.1), ∃ a, x = lamOf ps hlen a := fun x hx => by
      obtain ⟨q, hq, rfl⟩ := List.mem_iff_getElem.mp hx
      exact ⟨⟨q, by omega⟩, by rw [List.getElem_map]; rfl⟩
    have hmem' : ∀ a, lamOf ps hlen a ∈ ps.map (·.1) := fun a => List.mem_map_of_mem (List.getElem_mem _)
    have hne : ps.map (·.1) ≠ [] := fun e => by
      rw [e] at hl
      simp at hl
      omega
    have h1 : 1 ≤ lmax (ps.map (·.1)) := by
      by_contra hc
      have e := sys_trace hC h
      have : ∑ a, lamOf ps hlen a < ∑ _a : Fin n, (1 : ℝ) := sum_lt_sum_of_nonempty ⟨⟨0, hn⟩, mem_univ _⟩ fun a _ =>
        lt_of_le_of_lt (lmax_ge (hmem' a)) (not_le.mp hc)
      rw [e] at this
      simp at this
    have h2 : lmax (ps.map (·.1)) ≤ n := lmax_le hne fun x hx => by
      obtain ⟨a, rfl⟩ := hmem x hx
      exact (h.lam_le hC a).2
    have hfit : mpFit T n (ps.map (·.1)) = .ok 0.01 := by
      refine fit_outside (by omega) hn hne h1 ?_ fun u hu x hx => ?_
      · rw [hl]
        exact lt_of_le_of_lt (mul_le_mul_of_nonneg_left (Real.log_le_log (by linarith) h2) (Nat.cast_nonneg n)) hlog
      · obtain ⟨a, rfl⟩ := hmem x hx
        exact hout u hu a
    unfold eigenValuesDenoise
    dsimp only
    rw [htr, hl, if_neg (by omega), hfit]
    refine ⟨_, rfl, ?_⟩
    dsimp only
    congr 2
    rw [countP_fin _ hl]
    unfold atLeast
    congr 1
    ext a
    simp only [mem_filter, mem_univ, true_and, decide_eq_true_eq, List.getElem_map]
    rfl
  obtain ⟨r, hr, e⟩ := key
  refine ⟨r, hr, e, ?_⟩
  have hrank : C.rank ≤ T := le_trans (by simpa using Matrix.rank_le_card_height C) hT
  obtain ⟨m, hk, -, hD⟩ := denoised_fitted hE hs hC hrank hr
  rw [e] at hk
  dsimp only at hk
  have : atLeast lam (mpSupport 0.01 T n).2 = m := by exact_mod_cast hk
  rw [this]
  exact hD

/-! ### Long samples -/

/-- Eigenvalues are continuous. -/
theorem Sys.lam_tendsto {Ct : Nat → Mat n} {C : Mat n} (hcor : ∀ t, IsCor (Ct t)) (hC : ∀ i j, Tendsto (fun t => Ct t i j) atTop (𝓝 (C i j)))
    {lt : Nat → Fin n → ℝ} {vt : Nat → Fin n → Fin n → ℝ} (st : ∀ t, Sys (Ct t) (lt t) (vt t)) {lam : Fin n → ℝ} {v : Fin n → Fin n → ℝ} (h : Sys C lam v) (a : Fin n) :
    Tendsto (fun t => lt t a) atTop (𝓝 (lam a)) := by
  have hsymm := (IsCov.limit (fun t => (hcor t).isCov) hC).symm
  refine tendsto_of_subseq_tendsto fun ns hns => ?_
  have hK : IsCompact ((Set.pi Set.univ fun _ : Fin n => Set.Icc (0 : ℝ) n) ×ˢ
      (Set.pi Set.univ fun _ : Fin n => Set.pi Set.univ fun _ : Fin n => Set.Icc (-1 : ℝ) 1)) :=
    (isCompact_univ_pi fun _ => isCompact_Icc).prod (isCompact_univ_pi fun _ => isCompact_univ_pi fun _ => isCompact_Icc)
  obtain ⟨⟨l1, v1⟩, -, φ, hφ, hlim⟩ := hK.tendsto_subseq (x := fun t => (lt (ns t), vt (ns t))) fun t =>
    ⟨fun a _ => (st (ns t)).lam_le (hcor _) a, fun a _ b _ => (st (ns t)).vec_abs a b⟩
  refine ⟨φ, ?_⟩
  have hl : ∀ a, Tendsto (fun t => lt (ns (φ t)) a) atTop (𝓝 (l1 a)) := fun a =>
    (tendsto_pi_nhds.mp ((continuous_fst.tendsto _).comp hlim)) a
  have hv : ∀ a b, Tendsto (fun t => vt (ns (φ t)) a b) atTop (𝓝 (v1 a b)) := fun a b =>
    (tendsto_pi_nhds.mp ((tendsto_pi_nhds.mp ((continuous_snd.tendsto _).comp hlim)) a)) b
  have hs1 : Sys C l1 v1 := Sys.limit (Ct := fun t => Ct (ns (φ t))) (fun a b => ((hC a b).comp hns).comp hφ.tendsto_atTop) hl hv fun t => st _
  rw [Sys.lam_eq hsymm h hs1]
  exact hl a

theorem grid_bounds {u : ℝ} (h : u ∈ mpGrid) : 0.01 ≤ u ∧ u ≤ 4 := by
  unfold mpGrid at h
  obtain ⟨i, hi, rfl⟩ := List.mem_map.mp h
  have h1 : (i : ℝ) ≤ 999 := by
    have := List.mem_range.mp hi
    exact_mod_cast (by omega : i ≤ 999)
  have h0 : (0 : ℝ) ≤ i := Nat.cast_nonneg i
  constructor
  · have : 0 ≤ (i : ℝ) * (3.99 / 999) := by positivity
    linarith
  · have : (i : ℝ) * (3.99 / 999) ≤ 999 * (3.99 / 999) := mul_le_mul_of_nonneg_right h1 (by norm_num)
    norm_num at this ⊢
    linarith

/-- The supports shrink to the variance. -/
theorem support_limit {Tt : Nat → Nat} (hT : Tendsto Tt atTop atTop) (hn : 0 < n) (u : ℝ) :
    Tendsto (fun t => (mpSupport u (Tt t) n).1) atTop (𝓝 u) ∧ Tendsto (fun t => (mpSupport u (Tt t) n).2) atTop (𝓝 u) := by
  have hq : Tendsto (fun t => Real.sqrt (1 / ((Tt t : ℝ) / n))) atTop (𝓝 0) := by
    have h1 : Tendsto (fun t => (Tt t : ℝ) / n) atTop atTop :=
      (tendsto_natCast_atTop_atTop.comp hT).atTop_div_const (by exact_mod_cast hn)
    have h2 : Tendsto (fun t => 1 / ((Tt t : ℝ) / n)) atTop (𝓝 0) := by
      simp only [one_div]
      exact tendsto_inv_atTop_zero.comp h1
    have := (Real.continuous_sqrt.tendsto 0).comp h2
    rwa [Real.sqrt_zero] at this
  constructor
  · have := ((tendsto_const_nhds (x := (1 : ℝ))).sub hq).pow 2 |>.const_mul u
    rwa [sub_zero, one_pow, mul_one] at this
  · have := ((tendsto_const_nhds (x := (1 : ℝ))).add hq).pow 2 |>.const_mul u
    rwa [add_zero, one_pow, mul_one] at this

/-- C125. **The fitted number of factors of long samples** is the number of eigenvalues above 0.01, if no eigenvalue of the limit is a point of the grid. -/
theorem fitted_eventually (hE : EighSpec eigh) (hs : ArgsortSpec argsort) {Ct : Nat → Mat n} {C : Mat n} (hcor : ∀ t, IsCor (Ct t))
    (hC : ∀ i j, Tendsto (fun t => Ct t i j) atTop (𝓝 (C i j))) (hn : 0 < n) (hlog : (n : ℝ) * Real.log n < 10 ^ 9) {Tt : Nat → Nat} (hT : Tendsto Tt atTop atTop)
    {lam : Fin n → ℝ} {v : Fin n → Fin n → ℝ} (h : Sys C lam v) (hoff : ∀ a, lam a ∉ mpGrid) :
    ∀ᶠ t in atTop, ∃ r, corDenoise eigh argsort svdU (Tt t) none (.square (Ct t)) = .ok r ∧ r.2.k = atLeast lam 0.01 ∧ Denoised (Ct t) (atLeast lam 0.01) r.1 := by
  have hex : ∀ t, ∃ l v, Sys (Ct t) l v := fun t => by
    obtain ⟨hev, hlen, hdesc⟩ := cor_to_eig_all hE hs (hcor t).symm
    exact ⟨_, _, sys_of_list hev hlen hdesc⟩
  choose lt vt st using hex
  have hlim := fun a => Sys.lam_tendsto hcor hC st h a
  have e1 : ∀ᶠ t in atTop, ∀ u ∈ mpGrid, ∀ a, ¬ ((mpSupport u (Tt t) n).1 < lt t a ∧ lt t a < (mpSupport u (Tt t) n).2) := by
    have : ∀ u ∈ (mpGrid.toFinset : Finset ℝ), ∀ᶠ t in atTop, ∀ a, ¬ ((mpSupport u (Tt t) n).1 < lt t a ∧ lt t a < (mpSupport u (Tt t) n).2) := fun u hu => by
      refine eventually_all.mpr fun a => ?_
      obtain ⟨s1, s2⟩ := support_limit hT hn u
      rcases lt_or_gt_of_ne (fun e : lam a = u => hoff a (e ▸ List.mem_toFinset.mp hu)) with hlt | hgt
      · filter_upwards [(hlim a).eventually_lt s1 hlt] with t ht
        exact fun h => lt_asymm ht h.1
      · filter_upwards [s2.eventually_lt (hlim a) hgt] with t ht
        exact fun h => lt_asymm ht h.2
    have := (Finset.eventually_all mpGrid.toFinset).mpr this
    filter_upwards [this] with t ht u hu
    exact ht u (List.mem_toFinset.mpr hu)
  have e2 : ∀ᶠ t in atTop, atLeast (lt t) (mpSupport 0.01 (Tt t) n).2 = atLeast lam 0.01 := by
    have : ∀ᶠ t in atTop, ∀ a, ((mpSupport 0.01 (Tt t) n).2 ≤ lt t a ↔ 0.01 ≤ lam a) := eventually_all.mpr fun a => by
      have hne : lam a ≠ 0.01 := fun e => hoff a (by
        obtain ⟨vs, hv⟩ := grid_cons
        rw [e, hv]
        exact List.mem_cons_self)
      obtain ⟨-, s2⟩ := support_limit hT hn 0.01
      rcases lt_or_gt_of_ne hne with hlt | hgt
      · filter_upwards [(hlim a).eventually_lt s2 hlt] with t ht
        exact iff_of_false (not_le.mpr ht) (not_le.mpr hlt)
      · filter_upwards [s2.eventually_lt (hlim a) hgt] with t ht
        exact iff_of_true ht.le hgt.le
    filter_upwards [this] with t ht
    unfold atLeast
    congr 1
    ext a
    simp only [mem_filter, mem_univ, true_and]
    exact ht a
  filter_upwards [e1, e2, hT.eventually_ge_atTop n] with t h1 h2 h3
  obtain ⟨r, hr, hi, hD⟩ := fitted_outside (svdU := svdU) hE hs (hcor t) hn h3 hlog (st t) h1
  rw [h2] at hi hD
  exact ⟨r, hr, by rw [hi], hD⟩

theorem off_clear {lam : Fin n → ℝ} (hd : Antitone lam) (hoff : ∀ a, lam a ∉ mpGrid) : Clear lam (atLeast lam 0.01) := by
  have hne : ∀ a, lam a ≠ 0.01 := fun a e => hoff a (by
    obtain ⟨vs, hv⟩ := grid_cons
    rw [e, hv]
    exact List.mem_cons_self)
  have e : atLeast lam 0.01 = (univ.filter fun a => 0.01 < lam a).card := by
    unfold atLeast
    congr 1
    ext a
    simp only [mem_filter, mem_univ, true_and]
    exact ⟨fun h => lt_of_le_of_ne h (hne a).symm, le_of_lt⟩
  intro a b ha hb hab
  rw [e, ← above_iff hd] at ha
  rw [e] at hb
  have := (not_congr (above_iff hd 0.01 b)).mpr (by omega)
  rw [← hab] at this
  exact absurd ha this

open MeasureTheory ProbabilityTheory

variable {Ω : Type*} [MeasurableSpace Ω] {P : Measure Ω}

/-- What is used of the samples. -/
theorem sample_cor {X : Nat → Ω → Fin n → ℝ} (h : Clust.Observations P n X) (hreg : ∀ i, covReg < Var[fun ω => X 0 ω i; P]) :
    ∀ᵐ ω ∂P, ∃ N, (∀ s, IsCor (covToCor (covOfSample (s + N) fun t => X t ω) covReg).1) ∧ (∀ s, IsCov (covOfSample (s + N) fun t => X t ω)) ∧
      (∀ i j, Tendsto (fun s => (covToCor (covOfSample (s + N) fun t => X t ω) covReg).1 i j) atTop (𝓝 ((covToCor (popCov P (X 0)) covReg).1 i j))) ∧
      ∀ i, Tendsto (fun s => covStd (covOfSample (s + N) fun t => X t ω) covReg i) atTop (𝓝 (covStd (popCov P (X 0)) covReg i)) := by
  have hP := h.iid.indep.isProbabilityMeasure
  filter_upwards [covOfSample_limit h] with ω hω
  have hev : ∀ᶠ s in atTop, ∀ i, covReg ≤ covOfSample s (fun t => X t ω) i i := eventually_all.mpr fun i => by
    have hr : covReg < popCov P (X 0) i i := by
      unfold popCov
      rw [covariance_self (h.sq i).aestronglyMeasurable.aemeasurable]
      exact hreg i
    exact ((hω i i).eventually (lt_mem_nhds hr)).mono fun t h => le_of_lt h
  obtain ⟨N, hN⟩ := eventually_atTop.mp hev
  have hcov : ∀ s, IsCov (covOfSample (s + (N + 2)) fun t => X t ω) := fun s => covOfSample_isCov (by omega) _
  exact ⟨N + 2, fun s => (cov_to_cor_isCor_iff (hcov s) covReg_pos).mpr (hN _ (by omega)), hcov,
    fun i j => (tendsto_add_atTop_iff_nat (N + 2)).mpr (cor_limit hω i j), fun i => (tendsto_add_atTop_iff_nat (N + 2)).mpr (std_limit hω covReg i)⟩

/-- C125. **Long samples with all population eigenvalues above 0.01 (and not on the grid): the fitted denoising does nothing.** All `n` eigenvalues
count as factors and the sample covariances are returned as they are. -/
theorem fitted_sample_unchanged (hE : EighSpec eigh) (hs : ArgsortSpec argsort) {X : Nat → Ω → Fin n → ℝ} (h : Clust.Observations P n X)
    (hreg : ∀ i, covReg < Var[fun ω => X 0 ω i; P]) (hn : 0 < n) (hlog : (n : ℝ) * Real.log n < 10 ^ 9)
    {lam : Fin n → ℝ} {v : Fin n → Fin n → ℝ} (hv : Sys (covToCor (popCov P (X 0)) covReg).1 lam v) (hoff : ∀ a, lam a ∉ mpGrid) (hbig : ∀ a, 0.01 ≤ lam a) :
    ∀ᵐ ω ∂P, ∀ᶠ s in atTop, ∃ q, covDenoise eigh argsort svdU s none (covOfSample s fun t => X t ω) = .ok q ∧ q.2.k = n ∧ q.1 = covOfSample s fun t => X t ω := by
  have hall : atLeast lam 0.01 = n := by
    unfold atLeast
    rw [filter_true_of_mem fun a _ => hbig a]
    simp
  filter_upwards [sample_cor h hreg] with ω hω
  obtain ⟨N, hcor, hcov, hlim, -⟩ := hω
  have := fitted_eventually (svdU := svdU) hE hs hcor hlim hn hlog (Tt := fun s => s + N) (tendsto_add_atTop_nat N) hv hoff
  rw [hall] at this
  obtain ⟨M, hM⟩ := eventually_atTop.mp this
  refine eventually_atTop.mpr ⟨M + N, fun s hsM => ?_⟩
  obtain ⟨u, rfl⟩ : ∃ u, s = u + N := ⟨s - N, by omega⟩
  obtain ⟨r, hr, hk, l, w, hsys, d1, d2⟩ := hM u (by omega)
  have e : r.1 = (covToCor (covOfSample (u + N) fun t => X t ω) covReg).1 := by
    ext i j
    by_cases hij : i = j
    · rw [hij, d1, (hcor u).diag]
    · rw [d2 i j hij, excess_all hsys]
  unfold covDenoise
  rw [hr]
  refine ⟨_, rfl, hk, ?_⟩
  dsimp only
  rw [e]
  exact cov_round_trip (hcov u) covReg_pos

/-- C125. **The limit of the fitted denoising in general** (no population eigenvalue on the grid): the population covariances denoised with as many factors
as there are eigenvalues above 0.01. -/
theorem fitted_sample_limit (hE : EighSpec eigh) (hs : ArgsortSpec argsort) {X : Nat → Ω → Fin n → ℝ} (h : Clust.Observations P n X)
    (hreg : ∀ i, covReg < Var[fun ω => X 0 ω i; P]) (hn : 0 < n) (hlog : (n : ℝ) * Real.log n < 10 ^ 9)
    {lam : Fin n → ℝ} {v : Fin n → Fin n → ℝ} (hv : Sys (covToCor (popCov P (X 0)) covReg).1 lam v) (hoff : ∀ a, lam a ∉ mpGrid)
    {D : Mat n} (hD : Denoised (covToCor (popCov P (X 0)) covReg).1 (atLeast lam 0.01) D) :
    ∀ᵐ ω ∂P, ∀ ε > 0, ∀ᶠ s in atTop, ∃ q, covDenoise eigh argsort svdU s none (covOfSample s fun t => X t ω) = .ok q ∧ q.2.k = atLeast lam 0.01 ∧
      ∀ i j, |q.1 i j - D i j * (√Var[fun ω => X 0 ω i; P] * √Var[fun ω => X 0 ω j; P])| < ε := by
  have hP := h.iid.indep.isProbabilityMeasure
  have hstd : ∀ i, covStd (popCov P (X 0)) covReg i = √Var[fun ω => X 0 ω i; P] := fun i => by
    unfold covStd popCov
    rw [covariance_self (h.sq i).aestronglyMeasurable.aemeasurable, max_eq_left (hreg i).le]
  filter_upwards [sample_cor h hreg] with ω hω ε hε
  obtain ⟨N, hcor, hcov, hlim, hsl⟩ := hω
  have hev := fitted_eventually (svdU := svdU) hE hs hcor hlim hn hlog (Tt := fun s => s + N) (tendsto_add_atTop_nat N) hv hoff
  obtain ⟨M, hM⟩ := eventually_atTop.mp hev
  choose r hr hk hden using fun t => hM (t + M) (Nat.le_add_left _ _)
  have key : ∀ i j, Tendsto (fun t => (r t).1 i j) atTop (𝓝 (D i j)) := fun i j =>
    denoised_tendsto (Ct := fun t => (covToCor (covOfSample (t + M + N) fun t => X t ω) covReg).1) (fun t => hcor (t + M))
      (fun i j => (tendsto_add_atTop_iff_nat M).mpr (hlim i j)) hden hD hv (off_clear hv.desc hoff) i j
  have key2 : ∀ i j, Tendsto (fun t => (r t).1 i j * (covStd (covOfSample (t + M + N) fun t => X t ω) covReg i * covStd (covOfSample (t + M + N) fun t => X t ω) covReg j)) atTop
      (𝓝 (D i j * (√Var[fun ω => X 0 ω i; P] * √Var[fun ω => X 0 ω j; P]))) := fun i j => by
    have h1 := (tendsto_add_atTop_iff_nat (f := fun s => covStd (covOfSample (s + N) fun t => X t ω) covReg i) M).mpr (hsl i)
    have h2 := (tendsto_add_atTop_iff_nat (f := fun s => covStd (covOfSample (s + N) fun t => X t ω) covReg j) M).mpr (hsl j)
    rw [hstd] at h1 h2
    exact (key i j).mul (h1.mul h2)
  have hclose : ∀ᶠ t in atTop, ∀ i j, |(r t).1 i j * (covStd (covOfSample (t + M + N) fun t => X t ω) covReg i * covStd (covOfSample (t + M + N) fun t => X t ω) covReg j) -
      D i j * (√Var[fun ω => X 0 ω i; P] * √Var[fun ω => X 0 ω j; P])| < ε := eventually_all.mpr fun i => eventually_all.mpr fun j => by
    have := (key2 i j).eventually (Metric.ball_mem_nhds _ hε)
    filter_upwards [this] with s hs
    exact lt_of_eq_of_lt (Real.dist_eq _ _).symm hs
  obtain ⟨K, hK⟩ := eventually_atTop.mp hclose
  refine eventually_atTop.mpr ⟨K + M + N, fun s hsK => ?_⟩
  obtain ⟨u, rfl⟩ : ∃ u, s = u + M + N := ⟨s - M - N, by omega⟩
  unfold covDenoise
  rw [hr u]
  exact ⟨_, rfl, hk u, fun i j => hK u (by omega) i j⟩

/-! ### Pure noise -/

theorem one_off_grid : (1 : ℝ) ∉ mpGrid := by
  intro h
  unfold mpGrid at h
  obtain ⟨i, -, e⟩ := List.mem_map.mp h
  have : (399 * i : ℝ) = 98901 := by
    norm_num at e
    linarith
  have : 399 * i = 98901 := by exact_mod_cast this
  omega

theorem one_sys : Sys (1 : Mat n) (fun _ => 1) fun a => Pi.single a 1 where
  ortho a b := by
    rw [dotProduct_single, mul_one, Pi.single_apply]
    exact if_congr eq_comm rfl rfl
  eig a := by rw [Matrix.one_mulVec, one_smul]
  desc _ _ _ := le_rfl

/-- C125. **Finding**: on uncorrelated assets, where there is nothing but noise, every sufficiently long sample is fitted with `n` factors: all eigenvalues
are taken for signal and nothing is denoised. -/
theorem noise_all_factors (hE : EighSpec eigh) (hs : ArgsortSpec argsort) {X : Nat → Ω → Fin n → ℝ} (h : Clust.Observations P n X)
    (hreg : ∀ i, covReg < Var[fun ω => X 0 ω i; P]) (hn : 0 < n) (hlog : (n : ℝ) * Real.log n < 10 ^ 9) (hun : ∀ i j, i ≠ j → cov[fun ω => X 0 ω i, fun ω => X 0 ω j; P] = 0) :
    ∀ᵐ ω ∂P, ∀ᶠ s in atTop, ∃ q, covDenoise eigh argsort svdU s none (covOfSample s fun t => X t ω) = .ok q ∧ q.2.k = n ∧ q.1 = covOfSample s fun t => X t ω := by
  have hP := h.iid.indep.isProbabilityMeasure
  have hcor : IsCor (covToCor (popCov P (X 0)) covReg).1 := (cov_to_cor_isCor_iff (popCov_isCov h) covReg_pos).mpr fun i => by
    unfold popCov
    rw [covariance_self (h.sq i).aestronglyMeasurable.aemeasurable]
    exact (hreg i).le
  have e : (covToCor (popCov P (X 0)) covReg).1 = 1 := by
    ext i j
    by_cases hij : i = j
    · rw [hij, hcor.diag, Matrix.one_apply_eq]
    · rw [Matrix.one_apply_ne hij]
      show Sim.clip1 (popCov P (X 0) i j / _) = 0
      rw [show popCov P (X 0) i j = 0 from hun i j hij, zero_div]
      unfold Sim.clip1
      norm_num
  exact fitted_sample_unchanged hE hs h hreg hn hlog (e ▸ one_sys) (fun _ => one_off_grid) fun _ => by norm_num

/-- A concrete case: three independent standard normal assets. -/
theorem three_noise : ∃ (Ω : Type) (_ : MeasurableSpace Ω) (P : Measure Ω) (X : Nat → Ω → Fin 3 → ℝ), Clust.Observations P 3 X ∧
    ∀ (eigh : Mat 3 → List (Pair 3)) (argsort : List ℝ → List Nat) (svdU : List (Fin 3 → ℝ) → List (Fin 3 → ℝ)), EighSpec eigh → ArgsortSpec argsort →
    ∀ᵐ ω ∂P, ∀ᶠ s in atTop, ∃ q, covDenoise eigh argsort svdU s none (covOfSample s fun t => X t ω) = .ok q ∧ q.2.k = 3 ∧ q.1 = covOfSample s fun t => X t ω := by
  have h1 : (1 : Mat 3) * (1 : Mat 3).transpose = 1 := by rw [Matrix.transpose_one, Matrix.one_mul]
  obtain ⟨Ω, mΩ, P, X, h, hX⟩ := loadings_exist (1 : Mat 3) fun i => by
    rw [h1, Matrix.one_apply_eq]
    exact one_ne_zero
  rw [h1] at hX
  have hP := h.iid.indep.isProbabilityMeasure
  refine ⟨Ω, mΩ, P, X, h, fun e a u he ha => noise_all_factors he ha h (fun i => ?_) (by norm_num) ?_ fun i j hij => ?_⟩
  · rw [← covariance_self (h.sq i).aestronglyMeasurable.aemeasurable]
    have := congrFun (congrFun hX i) i
    rw [Matrix.one_apply_eq] at this
    rw [show cov[fun ω => X 0 ω i, fun ω => X 0 ω i; P] = 1 from this]
    unfold covReg
    norm_num
  · have := Real.log_le_sub_one_of_pos (show (0 : ℝ) < 3 by norm_num)
    push_cast
    linarith
  · have := congrFun (congrFun hX i) j
    rwa [Matrix.one_apply_ne hij] at this

end Verif.Cov
