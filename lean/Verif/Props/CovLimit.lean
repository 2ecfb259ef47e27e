import Verif.Props.CovPair
import Verif.Props.ClustSample
import Verif.Lemmas.FitLaw
import Mathlib.Topology.Sequences
import Mathlib.Topology.Instances.Real.Lemmas
import Mathlib.Topology.Order.OrderClosed

/-!
# Denoising is continuous: what the denoised matrices of long samples tend to (C124)
-/

namespace Verif.Cov

open Finset Filter Topology

variable {n : Nat}

/-! ### The result is determined -/

theorem excess_unique {C : Mat n} (hs : C.IsSymm) {lam lam' : Fin n → ℝ} {v v' : Fin n → Fin n → ℝ} (h : Sys C lam v) (h' : Sys C lam' v') {m : Nat}
    (hc : Clear lam m) (i j : Fin n) : excess lam v m i j = excess lam' v' m i j := by
  classical
  obtain rfl := Sys.lam_eq hs h h'
  set f : ℝ → ℝ := fun x => if ∃ a : Fin n, (a : Nat) < m ∧ lam a = x then x - level lam m else 0
  have hf : ∀ a : Fin n, (if (a : Nat) < m then lam a - level lam m else 0) = f (lam a) := fun a => by
    dsimp only [f]
    by_cases ha : (a : Nat) < m
    · rw [if_pos ha, if_pos ⟨a, ha, rfl⟩]
    · rw [if_neg ha]
      split
      · rename_i hex
        obtain ⟨b, hb, e⟩ := hex
        have := hc b a hb (by omega) e
        rw [← e, this, sub_self]
      · rfl
  rw [excess_eq, excess_eq, sum_congr rfl fun a _ => by rw [hf a], h.same h' hs f i j]
  exact sum_congr rfl fun a _ => by rw [hf a]

/-- C124. **The denoised matrix does not depend on the choice of eigenvectors** if the eigenvalues are separated. -/
theorem denoised_unique {C D D' : Mat n} (hs : C.IsSymm) {m : Nat} {lam : Fin n → ℝ} {v : Fin n → Fin n → ℝ} (h : Sys C lam v) (hc : Clear lam m)
    (hD : Denoised C m D) (hD' : Denoised C m D') : D = D' := by
  obtain ⟨l1, v1, s1, d1, e1⟩ := hD
  obtain ⟨l2, v2, s2, d2, e2⟩ := hD'
  ext i j
  by_cases hij : i = j
  · rw [hij, d1, d2]
  · rw [e1 i j hij, e2 i j hij, ← excess_unique hs h s1 hc, ← excess_unique hs h s2 hc]

/-! ### Limits -/

/-- Limits of eigenvectors and eigenvalues are those of the limit. -/
theorem Sys.limit {Ct : Nat → Mat n} {C : Mat n} (hC : ∀ i j, Tendsto (fun t => Ct t i j) atTop (𝓝 (C i j))) {lt : Nat → Fin n → ℝ} {lam : Fin n → ℝ}
    (hl : ∀ a, Tendsto (fun t => lt t a) atTop (𝓝 (lam a))) {vt : Nat → Fin n → Fin n → ℝ} {v : Fin n → Fin n → ℝ}
    (hv : ∀ a i, Tendsto (fun t => vt t a i) atTop (𝓝 (v a i))) (h : ∀ t, Sys (Ct t) (lt t) (vt t)) : Sys C lam v where
  ortho a b := by
    have h1 : Tendsto (fun t => dotProduct (vt t a) (vt t b)) atTop (𝓝 (dotProduct (v a) (v b))) :=
      tendsto_finsetSum _ fun i _ => (hv a i).mul (hv b i)
    refine tendsto_nhds_unique h1 ?_
    rw [show (fun t => dotProduct (vt t a) (vt t b)) = fun _ => if a = b then (1 : ℝ) else 0 from funext fun t => (h t).ortho a b]
    exact tendsto_const_nhds
  eig a := by
    funext i
    have h1 : Tendsto (fun t => (Ct t).mulVec (vt t a) i) atTop (𝓝 (C.mulVec (v a) i)) := by
      simp only [Matrix.mulVec, dotProduct]
      exact tendsto_finsetSum _ fun j _ => (hC i j).mul (hv a j)
    refine tendsto_nhds_unique h1 ?_
    rw [show (fun t => (Ct t).mulVec (vt t a) i) = fun t => lt t a * vt t a i from funext fun t => by rw [(h t).eig a]; rfl]
    exact (hl a).mul (hv a i)
  desc a b hab := le_of_tendsto_of_tendsto' (hl b) (hl a) fun t => (h t).desc hab

theorem Sys.vec_abs {C : Mat n} {lam : Fin n → ℝ} {v : Fin n → Fin n → ℝ} (h : Sys C lam v) (a i : Fin n) : v a i ∈ Set.Icc (-1 : ℝ) 1 := by
  have e := h.ortho a a
  rw [if_pos rfl] at e
  have : v a i * v a i ≤ 1 := by
    rw [← e]
    exact single_le_sum (f := fun i => v a i * v a i) (fun j _ => mul_self_nonneg _) (mem_univ i)
  exact abs_le.mp (abs_le_one_iff_mul_self_le_one.mpr this)

theorem Sys.lam_le {C : Mat n} (hC : IsCor C) {lam : Fin n → ℝ} {v : Fin n → Fin n → ℝ} (h : Sys C lam v) (a : Fin n) : lam a ∈ Set.Icc (0 : ℝ) n :=
  ⟨lam_nonneg hC.isCov h a, by
    rw [← sys_trace hC h]
    exact single_le_sum (fun b _ => lam_nonneg hC.isCov h b) (mem_univ a)⟩

theorem excess_limit {lt : Nat → Fin n → ℝ} {lam : Fin n → ℝ} (hl : ∀ a, Tendsto (fun t => lt t a) atTop (𝓝 (lam a)))
    {vt : Nat → Fin n → Fin n → ℝ} {v : Fin n → Fin n → ℝ} (hv : ∀ a i, Tendsto (fun t => vt t a i) atTop (𝓝 (v a i))) (m : Nat) (i j : Fin n) :
    Tendsto (fun t => excess (lt t) (vt t) m i j) atTop (𝓝 (excess lam v m i j)) := by
  have hlev : Tendsto (fun t => level (lt t) m) atTop (𝓝 (level lam m)) := by
    refine Tendsto.div_const (tendsto_finsetSum _ fun a _ => ?_) _
    split
    · exact hl a
    · exact tendsto_const_nhds
  refine tendsto_finsetSum _ fun a _ => ?_
  split
  · exact ((hl a).sub hlev).mul ((hv a i).mul (hv a j))
  · exact tendsto_const_nhds

/-- C124. **Denoising is continuous** where the eigenvalues are separated. -/
theorem denoised_tendsto {Ct Dt : Nat → Mat n} {C D : Mat n} (hcor : ∀ t, IsCor (Ct t)) (hC : ∀ i j, Tendsto (fun t => Ct t i j) atTop (𝓝 (C i j)))
    {m : Nat} (ht : ∀ t, Denoised (Ct t) m (Dt t)) (hD : Denoised C m D) {lam : Fin n → ℝ} {v : Fin n → Fin n → ℝ} (h : Sys C lam v) (hc : Clear lam m)
    (i j : Fin n) : Tendsto (fun t => Dt t i j) atTop (𝓝 (D i j)) := by
  have hsymm : C.IsSymm := by
    ext a b
    rw [Matrix.transpose_apply]
    refine tendsto_nhds_unique (hC b a) ?_
    rw [show (fun t => Ct t b a) = fun t => Ct t a b from funext fun t => congrFun (congrFun (hcor t).symm a) b]
    exact hC a b
  obtain ⟨l0, v0, s0, d0, e0⟩ := hD
  choose lt vt st d1 e1 using ht
  by_cases hij : i = j
  · rw [hij, d0, show (fun t => Dt t j j) = fun _ => (1 : ℝ) from funext fun t => d1 t j]
    exact tendsto_const_nhds
  rw [e0 i j hij, show (fun t => Dt t i j) = fun t => excess (lt t) (vt t) m i j from funext fun t => e1 t i j hij]
  refine tendsto_of_subseq_tendsto fun ns hns => ?_
  have hK : IsCompact ((Set.pi Set.univ fun _ : Fin n => Set.Icc (0 : ℝ) n) ×ˢ
      (Set.pi Set.univ fun _ : Fin n => Set.pi Set.univ fun _ : Fin n => Set.Icc (-1 : ℝ) 1)) :=
    (isCompact_univ_pi fun _ => isCompact_Icc).prod (isCompact_univ_pi fun _ => isCompact_univ_pi fun _ => isCompact_Icc)
  obtain ⟨⟨l1, v1⟩, -, φ, hφ, hlim⟩ := hK.tendsto_subseq (x := fun t => (lt (ns t), vt (ns t))) fun t =>
    ⟨fun a _ => (st (ns t)).lam_le (hcor _) a, fun a _ b _ => (st (ns t)).vec_abs a b⟩
  refine ⟨φ, ?_⟩
  have hl : ∀ a, Tendsto (fun t => lt (ns (φ t)) a) atTop (𝓝 (l1 a)) := fun a =>
    (tendsto_pi_nhds.mp ((continuous_fst.tendsto _).comp hlim)) a
  have hv : ∀ a b, Tendsto (fun t => vt (ns (φ t)) a b) atTop (𝓝 (v1 a b)) := fun a b =>
    (tendsto_pi_nhds.mp ((tendsto_pi_nhds.mp ((continuous_snd.tendsto _).comp hlim)) a)) b
  have hs1 : Sys C l1 v1 := Sys.limit (Ct := fun t => Ct (ns (φ t))) (fun a b => ((hC a b).comp hns).comp hφ.tendsto_atTop) hl hv fun t => st _
  rw [← excess_unique hsymm h s0 hc, excess_unique hsymm h hs1 hc]
  exact excess_limit hl hv m i j

/-! ### Factor models with equal specific variances -/

/-- `C` has `m` factors and the same specific variance for all assets. -/
def EqualFactor (C : Mat n) (m : Nat) (σ : ℝ) : Prop := ∃ B : Fin m → Fin n → ℝ, ∀ i j, C i j = (∑ l, B l i * B l j) + if i = j then σ else 0

theorem equal_tail {C : Mat n} {m : Nat} {σ : ℝ} (hF : EqualFactor C m σ) {lam : Fin n → ℝ} {v : Fin n → Fin n → ℝ} (h : Sys C lam v) (a : Fin n) (ha : m ≤ a) :
    lam a = σ := by
  obtain ⟨B, hB⟩ := hF
  set M : Matrix (Fin m) (Fin n) ℝ := Matrix.of B
  have e : C = M.transpose * M + σ • (1 : Mat n) := by
    ext i j
    rw [hB, Matrix.add_apply, Matrix.mul_apply, Matrix.smul_apply, Matrix.one_apply]
    congr 1
    split <;> simp
  have hs : Sys (M.transpose * M) (fun a => lam a - σ) v := by
    refine ⟨h.ortho, fun a => ?_, fun a b hab => sub_le_sub_right (h.desc hab) _⟩
    have := h.eig a
    rw [e, Matrix.add_mulVec, Matrix.smul_mulVec, Matrix.one_mulVec] at this
    rw [sub_smul, ← this, add_sub_cancel_right]
  have h0 : ∀ a, 0 ≤ lam a - σ := fun a => by
    rw [← hs.quad_vec a, ← Matrix.mulVec_mulVec, Matrix.dotProduct_mulVec, Matrix.vecMul_transpose]
    exact sum_nonneg fun i _ => mul_self_nonneg _
  have hr : (M.transpose * M).rank ≤ m := by
    refine (Matrix.rank_mul_le_right _ _).trans ((Matrix.rank_le_height M))
  have := (rank_le_iff hs h0 m).mp hr a ha
  linarith

theorem equal_level {C : Mat n} {m : Nat} (hm : m < n) {σ : ℝ} (hF : EqualFactor C m σ) {lam : Fin n → ℝ} {v : Fin n → Fin n → ℝ} (h : Sys C lam v) : level lam m = σ :=
  le_antisymm (level_le hm fun a ha => (equal_tail hF h a ha).le) (le_level hm fun a ha => (equal_tail hF h a ha).ge)

theorem equal_clear {C : Mat n} {m : Nat} (hm : m < n) {σ : ℝ} (hF : EqualFactor C m σ) {lam : Fin n → ℝ} {v : Fin n → Fin n → ℝ} (h : Sys C lam v) : Clear lam m :=
  fun a b _ hb e => by rw [e, equal_tail hF h b hb, equal_level hm hF h]

/-- C124. **A factor model with equal specific variances is not changed** by denoising with its number of factors. -/
theorem denoised_equal {C D : Mat n} (hC : IsCor C) {m : Nat} (hm : m < n) {σ : ℝ} (hF : EqualFactor C m σ) (hD : Denoised C m D) : D = C := by
  obtain ⟨lam, v, h, d1, d2⟩ := hD
  ext i j
  by_cases hij : i = j
  · rw [hij, d1, hC.diag]
  · rw [d2 i j hij, excess_eq, equal_level hm hF h]
    have e1 : ∑ a, σ * (v a i * v a j) = 0 := by rw [← mul_sum, h.res, if_neg hij, mul_zero]
    have e2 : C i j = (∑ a, lam a * (v a i * v a j)) - ∑ a, σ * (v a i * v a j) := by rw [e1, sub_zero, h.spectral i j]
    rw [e2, ← sum_sub_distrib]
    refine sum_congr rfl fun a _ => ?_
    by_cases ha : (a : Nat) < m
    · rw [if_pos ha, sub_mul]
    · rw [if_neg ha, equal_tail hF h a (by omega), sub_self, zero_mul]

/-! ### The results of the code -/

variable {eigh : Mat n → List (Pair n)} {argsort : List ℝ → List Nat} {svdU : List (Fin n → ℝ) → List (Fin n → ℝ)}

theorem IsCov.limit {Ct : Nat → Mat n} {C : Mat n} (hcov : ∀ t, IsCov (Ct t)) (hC : ∀ i j, Tendsto (fun t => Ct t i j) atTop (𝓝 (C i j))) : IsCov C where
  symm := by
    ext a b
    rw [Matrix.transpose_apply]
    refine tendsto_nhds_unique (hC b a) ?_
    rw [show (fun t => Ct t b a) = fun t => Ct t a b from funext fun t => congrFun (congrFun (hcov t).symm a) b]
    exact hC a b
  psd x := by
    refine ge_of_tendsto' (f := fun t => dotProduct x ((Ct t).mulVec x)) (x := atTop) ?_ fun t => (hcov t).psd x
    simp only [quad_eq]
    exact tendsto_finsetSum _ fun i _ => tendsto_finsetSum _ fun j _ => ((hC i j).const_mul _).mul_const _

/-- C124. **`_cor_denoise` with a given number of factors is continuous** where the eigenvalues are separated. -/
theorem cor_denoise_continuous (hE : EighSpec eigh) (hs : ArgsortSpec argsort) (hV : SvdSpec svdU) {Ct : Nat → Mat n} {C : Mat n}
    (hcor : ∀ t, IsCor (Ct t)) (hC : ∀ i j, Tendsto (fun t => Ct t i j) atTop (𝓝 (C i j))) {k : Int} {Tt : Nat → Nat} {T : Nat} {rt : Nat → Mat n × Info} {r : Mat n × Info}
    (ht : ∀ t, corDenoise eigh argsort svdU (Tt t) (some k) (.square (Ct t)) = .ok (rt t)) (hr : corDenoise eigh argsort svdU T (some k) (.square C) = .ok r)
    {lam : Fin n → ℝ} {v : Fin n → Fin n → ℝ} (h : Sys C lam v) (hc : Clear lam (kept n k)) (i j : Fin n) :
    Tendsto (fun t => (rt t).1 i j) atTop (𝓝 (r.1 i j)) := by
  have h1 := IsCov.limit (fun t => (hcor t).isCov) hC
  have h2 : IsCor C := ⟨h1.symm, h1.psd, fun i => by
    refine tendsto_nhds_unique (hC i i) ?_
    rw [show (fun t => Ct t i i) = fun _ => (1 : ℝ) from funext fun t => (hcor t).diag i]
    exact tendsto_const_nhds⟩
  exact denoised_tendsto hcor hC (fun t => denoised_manual hE hs hV (hcor t) (ht t)) (denoised_manual hE hs hV h2 hr) h hc i j

theorem covReg_pos : 0 < covReg := by
  unfold covReg
  norm_num

theorem std_limit {St : Nat → Mat n} {S : Mat n} (hS : ∀ i j, Tendsto (fun t => St t i j) atTop (𝓝 (S i j))) (reg : ℝ) (i : Fin n) :
    Tendsto (fun t => covStd (St t) reg i) atTop (𝓝 (covStd S reg i)) :=
  (Real.continuous_sqrt.tendsto _).comp ((hS i i).max tendsto_const_nhds)

theorem cor_limit {St : Nat → Mat n} {S : Mat n} (hS : ∀ i j, Tendsto (fun t => St t i j) atTop (𝓝 (S i j))) (i j : Fin n) :
    Tendsto (fun t => (covToCor (St t) covReg).1 i j) atTop (𝓝 ((covToCor S covReg).1 i j)) := by
  have hp := mul_pos (covStd_pos S covReg_pos i) (covStd_pos S covReg_pos j)
  have h1 := (hS i j).div ((std_limit hS covReg i).mul (std_limit hS covReg j)) hp.ne'
  have hcont : Continuous Sim.clip1 := by
    unfold Sim.clip1
    fun_prop
  exact (hcont.tendsto _).comp h1

theorem covDenoise_inv {S : Mat n} {T : Nat} {k : Option Int} {r : Mat n × Info} (h : covDenoise eigh argsort svdU T k S = .ok r) :
    ∃ c, corDenoise eigh argsort svdU T k (.square (covToCor S covReg).1) = .ok c ∧ r = (corToCov c.1 (covToCor S covReg).2, c.2) := by
  unfold covDenoise at h
  obtain ⟨⟨cor, info⟩, hden, h⟩ := Sim.bind_inv h
  cases h
  exact ⟨_, hden, rfl⟩

/-- C124. **`_cov_denoise` with a given number of factors is continuous** where no variance is at the floor and the eigenvalues of the
correlation matrix are separated. -/
theorem cov_denoise_continuous (hE : EighSpec eigh) (hs : ArgsortSpec argsort) (hV : SvdSpec svdU) {St : Nat → Mat n} {S : Mat n}
    (hcov : ∀ t, IsCov (St t)) (hS : ∀ i j, Tendsto (fun t => St t i j) atTop (𝓝 (S i j))) (hreg : ∀ i, covReg < S i i) {k : Int} {Tt : Nat → Nat} {T : Nat}
    {rt : Nat → Mat n × Info} {r : Mat n × Info}
    (ht : ∀ t, covDenoise eigh argsort svdU (Tt t) (some k) (St t) = .ok (rt t)) (hr : covDenoise eigh argsort svdU T (some k) S = .ok r)
    {lam : Fin n → ℝ} {v : Fin n → Fin n → ℝ} (h : Sys (covToCor S covReg).1 lam v) (hc : Clear lam (kept n k)) (i j : Fin n) :
    Tendsto (fun t => (rt t).1 i j) atTop (𝓝 (r.1 i j)) := by
  obtain ⟨c, hcd, rfl⟩ := covDenoise_inv hr
  choose ct hct ert using fun t => covDenoise_inv (ht t)
  have hev : ∀ᶠ t in atTop, ∀ i, covReg ≤ St t i i := eventually_all.mpr fun i =>
    ((hS i i).eventually (lt_mem_nhds (hreg i))).mono fun t h => le_of_lt h
  obtain ⟨N, hN⟩ := eventually_atTop.mp hev
  rw [← tendsto_add_atTop_iff_nat N]
  have hlim : ∀ i j, Tendsto (fun t => (covToCor (St (t + N)) covReg).1 i j) atTop (𝓝 ((covToCor S covReg).1 i j)) := fun i j =>
    (tendsto_add_atTop_iff_nat N).mpr (cor_limit hS i j)
  have hcor : ∀ t, IsCor (covToCor (St (t + N)) covReg).1 := fun t =>
    (cov_to_cor_isCor_iff (hcov _) covReg_pos).mpr (hN _ (Nat.le_add_left _ _))
  have key := cor_denoise_continuous hE hs hV hcor hlim (fun t => hct (t + N)) hcd h hc i j
  have hstd : ∀ i, Tendsto (fun t => covStd (St (t + N)) covReg i) atTop (𝓝 (covStd S covReg i)) := fun i =>
    (tendsto_add_atTop_iff_nat N).mpr (std_limit hS covReg i)
  rw [show (fun t => (rt (t + N)).1 i j) = fun t => (ct (t + N)).1 i j * (covStd (St (t + N)) covReg i * covStd (St (t + N)) covReg j) from
    funext fun t => by rw [ert]; rfl]
  exact key.mul ((hstd i).mul (hstd j))

/-! ### Samples -/

open MeasureTheory ProbabilityTheory

/-- The sample covariances of the first `s` rows, divided by `s - 1` (`np.cov`). -/
noncomputable def covOfSample (s : Nat) (x : Nat → Fin n → ℝ) : Mat n := fun i j => Sim.scov s 1 (fun t => x t i) fun t => x t j

/-- The covariances of the entries of a random row. -/
noncomputable def popCov {Ω : Type*} [MeasurableSpace Ω] (P : Measure Ω) (x : Ω → Fin n → ℝ) : Mat n := fun i j => cov[fun ω => x ω i, fun ω => x ω j; P]

theorem covOfSample_isCov {s : Nat} (hs : 2 ≤ s) (x : Nat → Fin n → ℝ) : IsCov (covOfSample s x) where
  symm := by
    ext i j
    exact Sim.scov_comm _ _ _ _
  psd w := by
    rw [quad_eq]
    have e : ∑ i, ∑ j, w i * covOfSample s x i j * w j = Sim.scov s 1 (fun t => ∑ i, w i * x t i) fun t => ∑ i, w i * x t i := by
      rw [Sim.scov_sum_right univ s _ w fun i t => x t i]
      refine sum_congr rfl fun i _ => ?_
      rw [Sim.scov_comm, Sim.scov_sum_right univ s _ w fun i t => x t i, mul_sum]
      refine sum_congr rfl fun j _ => ?_
      unfold covOfSample
      ring
    rw [e]
    exact Sim.scov_self_nonneg hs _

variable {Ω : Type*} [MeasurableSpace Ω] {P : Measure Ω}

theorem covOfSample_limit {X : Nat → Ω → Fin n → ℝ} (h : Clust.Observations P n X) :
    ∀ᵐ ω ∂P, ∀ i j, Tendsto (fun s => covOfSample s (fun t => X t ω) i j) atTop (𝓝 (popCov P (X 0) i j)) := by
  have hP := h.iid.indep.isProbabilityMeasure
  refine ae_all_iff.mpr fun i => ae_all_iff.mpr fun j => ?_
  have := h.iid.scov (k := 1) one_pos (f := fun x => x 0 i) (g := fun x => x 0 j) (by fun_prop) (by fun_prop) (h.sq i) (h.sq j)
  simpa [covOfSample, popCov] using this

theorem popCov_isCov {X : Nat → Ω → Fin n → ℝ} (h : Clust.Observations P n X) : IsCov (popCov P (X 0)) := by
  have hP := h.iid.indep.isProbabilityMeasure
  obtain ⟨ω, hω⟩ := (covOfSample_limit h).exists
  exact IsCov.limit (Ct := fun s => covOfSample (s + 2) fun t => X t ω) (fun s => covOfSample_isCov (by omega) _) fun i j =>
    (tendsto_add_atTop_iff_nat 2).mpr (hω i j)

theorem cov_denoise_ok (hE : EighSpec eigh) (hs : ArgsortSpec argsort) {S : Mat n} (hS : IsCov S) (T : Nat) {k : Int} (hn : 0 < n) (hk : 1 ≤ k ∨ (-n < k ∧ k < 0)) :
    ∃ r, covDenoise eigh argsort svdU T (some k) S = .ok r := by
  obtain ⟨c, hc⟩ := (cor_denoise_manual_ok_iff (svdU := svdU) hE hs (cov_to_cor_valid hS covReg_pos).1.symm T k).1.mpr ⟨hn, hk⟩
  unfold covDenoise
  rw [hc]
  exact ⟨_, rfl⟩

/-- C124. **Denoised covariances of long samples** tend, with probability one, to the denoised covariances of the population. -/
theorem cov_denoise_sample (hE : EighSpec eigh) (hs : ArgsortSpec argsort) (hV : SvdSpec svdU) {X : Nat → Ω → Fin n → ℝ} (h : Clust.Observations P n X)
    (hreg : ∀ i, covReg < Var[fun ω => X 0 ω i; P]) (hn : 0 < n) {k : Int} (hk : 1 ≤ k ∨ (-n < k ∧ k < 0))
    {lam : Fin n → ℝ} {v : Fin n → Fin n → ℝ} (hv : Sys (covToCor (popCov P (X 0)) covReg).1 lam v) (hc : Clear lam (kept n k))
    {T : Nat} {r : Mat n × Info} (hr : covDenoise eigh argsort svdU T (some k) (popCov P (X 0)) = .ok r) :
    ∀ᵐ ω ∂P, ∀ ε > 0, ∀ᶠ s in atTop, ∃ q, covDenoise eigh argsort svdU s (some k) (covOfSample s fun t => X t ω) = .ok q ∧ ∀ i j, |q.1 i j - r.1 i j| < ε := by
  have hP := h.iid.indep.isProbabilityMeasure
  have hreg' : ∀ i, covReg < popCov P (X 0) i i := fun i => by
    unfold popCov
    rw [covariance_self]
    · exact hreg i
    · exact (h.sq i).aestronglyMeasurable.aemeasurable
  filter_upwards [covOfSample_limit h] with ω hω ε hε
  choose q hq using fun s : Nat => cov_denoise_ok (svdU := svdU) hE hs (covOfSample_isCov (s := s + 2) (by omega) fun t => X t ω) (s + 2) hn hk
  have key : ∀ i j, Tendsto (fun s => (q s).1 i j) atTop (𝓝 (r.1 i j)) := fun i j =>
    cov_denoise_continuous hE hs hV (fun s => covOfSample_isCov (by omega) _) (fun i j => (tendsto_add_atTop_iff_nat 2).mpr (hω i j)) hreg' hq hr hv hc i j
  have hev : ∀ᶠ s in atTop, ∀ i j, |(q s).1 i j - r.1 i j| < ε := eventually_all.mpr fun i => eventually_all.mpr fun j => by
    have := (key i j).eventually (Metric.ball_mem_nhds _ hε)
    filter_upwards [this] with s hs
    exact lt_of_eq_of_lt (Real.dist_eq _ _).symm hs
  obtain ⟨N, hN⟩ := eventually_atTop.mp hev
  refine eventually_atTop.mpr ⟨N + 2, fun s hsN => ?_⟩
  obtain ⟨u, rfl⟩ : ∃ u, s = u + 2 := ⟨s - 2, by omega⟩
  exact ⟨q u, hq u, hN u (by omega)⟩

/-- C124. **Consistency**: if the correlations of the population follow a factor model with equal specific variances, denoising with its number of
factors leads to the true covariances. -/
theorem cov_denoise_consistent (hE : EighSpec eigh) (hs : ArgsortSpec argsort) (hV : SvdSpec svdU) {X : Nat → Ω → Fin n → ℝ} (h : Clust.Observations P n X)
    (hreg : ∀ i, covReg < Var[fun ω => X 0 ω i; P]) {k : Int} (hk : 1 ≤ k ∨ (-n < k ∧ k < 0)) (hkn : kept n k < n)
    {σ : ℝ} (hF : EqualFactor (covToCor (popCov P (X 0)) covReg).1 (kept n k) σ) :
    ∀ᵐ ω ∂P, ∀ ε > 0, ∀ᶠ s in atTop, ∃ q, covDenoise eigh argsort svdU s (some k) (covOfSample s fun t => X t ω) = .ok q ∧
      ∀ i j, |q.1 i j - cov[fun ω => X 0 ω i, fun ω => X 0 ω j; P]| < ε := by
  have hn : 0 < n := by omega
  have hS := popCov_isCov h
  obtain ⟨r, hr⟩ := cov_denoise_ok (svdU := svdU) hE hs hS 0 hn hk
  obtain ⟨c, hc, e⟩ := covDenoise_inv hr
  have hcor : IsCor (covToCor (popCov P (X 0)) covReg).1 := (cov_to_cor_isCor_iff hS covReg_pos).mpr fun i => by
    unfold popCov
    rw [covariance_self (h.sq i).aestronglyMeasurable.aemeasurable]
    exact (hreg i).le
  have hD := denoised_manual hE hs hV hcor hc
  obtain ⟨lam, v, hv, -⟩ := id hD
  have e1 := denoised_equal hcor hkn hF hD
  have e2 : r.1 = popCov P (X 0) := by
    rw [e, e1]
    exact cov_round_trip hS covReg_pos
  have := cov_denoise_sample hE hs hV h hreg hn hk hv (equal_clear hkn hF hv) hr
  rw [e2] at this
  exact this

/-- C124. **Finding**: with a single correlated pair the denoised sample covariance of the pair does not tend to the true one but to
`n / (2 (n - 1))` of it, however much data there is. -/
theorem cov_denoise_pair {N : Nat} {eigh : Mat (N + 2) → List (Pair (N + 2))} {svdU : List (Fin (N + 2) → ℝ) → List (Fin (N + 2) → ℝ)}
    (hE : EighSpec eigh) (hs : ArgsortSpec argsort) (hV : SvdSpec svdU) {X : Nat → Ω → Fin (N + 2) → ℝ} (h : Clust.Observations P (N + 2) X)
    (hreg : ∀ i, covReg < Var[fun ω => X 0 ω i; P]) {ρ : ℝ} (h0 : 0 < ρ) (h1 : ρ ≤ 1) (hF : (covToCor (popCov P (X 0)) covReg).1 = pairCor N ρ) :
    ∀ᵐ ω ∂P, ∀ ε > 0, ∀ᶠ s in atTop, ∃ q, covDenoise eigh argsort svdU s (some 1) (covOfSample s fun t => X t ω) = .ok q ∧
      |q.1 0 1 - (N + 2) / (2 * (N + 1)) * cov[fun ω => X 0 ω 0, fun ω => X 0 ω 1; P]| < ε := by
  have hS := popCov_isCov h
  obtain ⟨r, hr⟩ := cov_denoise_ok (svdU := svdU) hE hs hS 0 (Nat.succ_pos _) (k := 1) (Or.inl le_rfl)
  obtain ⟨c, hc, e⟩ := covDenoise_inv hr
  rw [hF] at hc
  obtain ⟨c', hc', e'⟩ := denoise_pair hE hs hV h0 h1 0
  rw [hc] at hc'
  cases hc'
  have hk : kept (N + 2) 1 = 1 := by unfold kept; simp
  have hcor : IsCor (pairCor N ρ) := pair_isCor (abs_le.mpr ⟨by linarith, h1⟩)
  obtain ⟨lam, v, hv, -⟩ := denoised_manual hE hs hV hcor hc
  have key := cov_denoise_sample hE hs hV h hreg (Nat.succ_pos _) (k := 1) (Or.inl le_rfl) (hF ▸ hv) (hk ▸ pair_clear h0 hv) hr
  have e3 : r.1 0 1 = (N + 2) / (2 * (N + 1)) * cov[fun ω => X 0 ω 0, fun ω => X 0 ω 1; P] := by
    have back := congrFun (congrFun (cov_round_trip hS covReg_pos) 0) 1
    rw [show cov[fun ω => X 0 ω 0, fun ω => X 0 ω 1; P] = popCov P (X 0) 0 1 from rfl, ← back, e]
    unfold corToCov
    rw [hF, e']
    simp only [pairCor]
    simp
    ring
  filter_upwards [key] with ω hω ε hε
  filter_upwards [hω ε hε] with s hs
  obtain ⟨q, hq, hb⟩ := hs
  exact ⟨q, hq, e3 ▸ hb 0 1⟩

/-! ### Observations with given loadings on independent sources -/

/-- For all loadings there are normal observations with these covariances. -/
theorem loadings_exist {p : Nat} (A : Matrix (Fin n) (Fin p) ℝ) (hA : ∀ i, (A * A.transpose) i i ≠ 0) :
    ∃ (Ω : Type) (_ : MeasurableSpace Ω) (P : Measure Ω) (X : Nat → Ω → Fin n → ℝ), Clust.Observations P n X ∧ popCov P (X 0) = A * A.transpose := by
  obtain ⟨Ω, mΩ, P, Z, h0, h1, h2, -⟩ := exists_iid Nat (Measure.pi fun _ : Fin p => gaussianReal 0 1)
  have hx : Stat.IID P Z := ⟨h2, fun t => ⟨(h0 t).aemeasurable, (h0 0).aemeasurable, (h1 t).map_eq.trans (h1 0).map_eq.symm⟩⟩
  have hP := h2.isProbabilityMeasure
  have law : ∀ l, HasLaw (fun ω => Z 0 ω l) (gaussianReal 0 1) P := fun l =>
    ((measurePreserving_eval (fun _ : Fin p => gaussianReal 0 1) l).hasLaw).fun_comp (h1 0)
  have g2 : MemLp id 2 (gaussianReal 0 1) := memLp_id_gaussianReal 2
  have mem : ∀ l, MemLp (fun ω => Z 0 ω l) 2 P := fun l => by
    have := (law l).map_eq ▸ g2
    exact this.comp_of_map (law l).aemeasurable
  have cov : ∀ k l, cov[fun ω => Z 0 ω k, fun ω => Z 0 ω l; P] = if k = l then 1 else 0 := fun k l => by
    by_cases e : k = l
    · rw [if_pos e, e, covariance_self (mem l).aestronglyMeasurable.aemeasurable, (law l).variance_eq]
      simp
    · rw [if_neg e, (h1 0).covariance_fun_comp (f := fun x : Fin p → ℝ => x k) (g := fun x : Fin p → ℝ => x l)
        (measurable_pi_apply k).aemeasurable (measurable_pi_apply l).aemeasurable]
      have hi : iIndepFun (fun l (x : Fin p → ℝ) => id (x l)) (Measure.pi fun _ : Fin p => gaussianReal 0 1) := iIndepFun_pi fun _ => aemeasurable_id
      refine (hi.indepFun e).covariance_eq_zero ?_ ?_
      all_goals exact g2.comp_measurePreserving (measurePreserving_eval (fun _ : Fin p => gaussianReal 0 1) _)
  have main : ∀ i j, cov[fun ω => ∑ l, A i l * Z 0 ω l, fun ω => ∑ l, A j l * Z 0 ω l; P] = (A * A.transpose) i j := fun i j => by
    rw [covariance_fun_sum_fun_sum (fun l => (mem l).const_mul _) fun l => (mem l).const_mul _, Matrix.mul_apply]
    refine sum_congr rfl fun k _ => ?_
    simp only [covariance_const_mul_left, covariance_const_mul_right, cov]
    simp [mul_comm]
  have mem' : ∀ i, MemLp (fun ω => ∑ l, A i l * Z 0 ω l) 2 P := fun i => memLp_finsetSum _ fun l _ => (mem l).const_mul _
  refine ⟨Ω, mΩ, P, fun t ω i => ∑ l, A i l * Z t ω l, ⟨hx.comp (g := fun (x : Fin p → ℝ) i => ∑ l, A i l * x l) (by fun_prop), mem', fun i => ?_⟩, ?_⟩
  · rw [← covariance_self (mem' i).aestronglyMeasurable.aemeasurable, main]
    exact hA i
  · ext i j
    exact main i j

/-- A matrix with ones on the diagonal is its own correlation matrix. -/
theorem covToCor_self {C : Mat n} (hC : IsCor C) : (covToCor C covReg).1 = C := by
  have h1 : ∀ i, covStd C covReg i = 1 := fun i => by
    unfold covStd
    rw [hC.diag, max_eq_left, Real.sqrt_one]
    unfold covReg
    norm_num
  ext i j
  have := clip1_of_abs (cov_ratio_abs hC.isCov covReg_pos i j)
  show Sim.clip1 _ = _
  rw [this, h1, h1, mul_one, div_one]

/-- C124. A case of `cov_denoise_pair`: three assets, the first two with correlation 0.8: the denoised sample correlation tends to 0.6. -/
theorem three_assets : ∃ (Ω : Type) (_ : MeasurableSpace Ω) (P : Measure Ω) (X : Nat → Ω → Fin 3 → ℝ), Clust.Observations P 3 X ∧
    cov[fun ω => X 0 ω 0, fun ω => X 0 ω 1; P] = 8 / 10 ∧ ∀ (eigh : Mat 3 → List (Pair 3)) (argsort : List ℝ → List Nat) (svdU : List (Fin 3 → ℝ) → List (Fin 3 → ℝ)),
    EighSpec eigh → ArgsortSpec argsort → SvdSpec svdU → ∀ᵐ ω ∂P, ∀ ε > 0, ∀ᶠ s in atTop,
      ∃ q, covDenoise eigh argsort svdU s (some 1) (covOfSample s fun t => X t ω) = .ok q ∧ |q.1 0 1 - 6 / 10| < ε := by
  set A : Matrix (Fin 3) (Fin 3) ℝ := !![1, 0, 0; 8 / 10, 6 / 10, 0; 0, 0, 1]
  have hAA : A * A.transpose = pairCor 1 (8 / 10) := by
    ext i j
    fin_cases i <;> fin_cases j <;> (simp [A, pairCor, Matrix.mul_apply, Fin.sum_univ_succ]; try norm_num)
  have hcor : IsCor (pairCor 1 (8 / 10)) := pair_isCor (by rw [abs_le]; norm_num)
  obtain ⟨Ω, mΩ, P, X, h, hX⟩ := loadings_exist A fun i => by
    rw [hAA, hcor.diag]
    exact one_ne_zero
  rw [hAA] at hX
  have hP := h.iid.indep.isProbabilityMeasure
  have hc01 : cov[fun ω => X 0 ω 0, fun ω => X 0 ω 1; P] = 8 / 10 := by
    have := congrFun (congrFun hX 0) 1
    rw [show pairCor 1 (8 / 10) 0 1 = 8 / 10 by simp [pairCor]] at this
    exact this
  refine ⟨Ω, mΩ, P, X, h, hc01, fun e a u he ha hu => ?_⟩
  have key := cov_denoise_pair (N := 1) he ha hu h (fun i => ?_) (ρ := 8 / 10) (by norm_num) (by norm_num) (by rw [hX, covToCor_self hcor])
  · rw [hc01] at key
    convert key using 8
    norm_num
  · rw [← covariance_self (h.sq i).aestronglyMeasurable.aemeasurable]
    have := congrFun (congrFun hX i) i
    rw [hcor.diag] at this
    rw [show cov[fun ω => X 0 ω i, fun ω => X 0 ω i; P] = 1 from this]
    unfold covReg
    norm_num

/-- C124. A case of `cov_denoise_consistent`: three assets with all correlations 0.36. -/
theorem equal_assets : ∃ (Ω : Type) (_ : MeasurableSpace Ω) (P : Measure Ω) (X : Nat → Ω → Fin 3 → ℝ), Clust.Observations P 3 X ∧
    cov[fun ω => X 0 ω 0, fun ω => X 0 ω 1; P] = 36 / 100 ∧ ∀ (eigh : Mat 3 → List (Pair 3)) (argsort : List ℝ → List Nat) (svdU : List (Fin 3 → ℝ) → List (Fin 3 → ℝ)),
    EighSpec eigh → ArgsortSpec argsort → SvdSpec svdU → ∀ᵐ ω ∂P, ∀ ε > 0, ∀ᶠ s in atTop,
      ∃ q, covDenoise eigh argsort svdU s (some 1) (covOfSample s fun t => X t ω) = .ok q ∧ ∀ i j, |q.1 i j - cov[fun ω => X 0 ω i, fun ω => X 0 ω j; P]| < ε := by
  set A : Matrix (Fin 3) (Fin 4) ℝ := !![6 / 10, 8 / 10, 0, 0; 6 / 10, 0, 8 / 10, 0; 6 / 10, 0, 0, 8 / 10]
  have hAA : ∀ i j, (A * A.transpose) i j = 36 / 100 + if i = j then 64 / 100 else 0 := by
    intro i j
    fin_cases i <;> fin_cases j <;> simp [A, Matrix.mul_apply, Fin.sum_univ_succ] <;> norm_num
  have hdiag : ∀ i, (A * A.transpose) i i = 1 := fun i => by
    rw [hAA, if_pos rfl]
    norm_num
  obtain ⟨Ω, mΩ, P, X, h, hX⟩ := loadings_exist A fun i => by
    rw [hdiag]
    exact one_ne_zero
  have hP := h.iid.indep.isProbabilityMeasure
  have hcov := popCov_isCov h
  have hcor : IsCor (popCov P (X 0)) := ⟨hcov.symm, hcov.psd, fun i => by rw [hX, hdiag]⟩
  refine ⟨Ω, mΩ, P, X, h, ?_, fun e a u he ha hu => ?_⟩
  · have := congrFun (congrFun hX 0) 1
    rw [hAA, if_neg (by decide), add_zero] at this
    exact this
  refine cov_denoise_consistent he ha hu h (fun i => ?_) (Or.inl le_rfl) (by decide) (σ := 64 / 100) ⟨fun _ _ => 6 / 10, fun i j => ?_⟩
  · rw [← covariance_self (h.sq i).aestronglyMeasurable.aemeasurable, show cov[fun ω => X 0 ω i, fun ω => X 0 ω i; P] = 1 from hcor.diag i]
    unfold covReg
    norm_num
  · rw [covToCor_self hcor, hX, hAA]
    congr 1
    rw [sum_const, card_univ, Fintype.card_fin, show kept 3 1 = 1 by decide]
    norm_num

end Verif.Cov
