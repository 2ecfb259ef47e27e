import Verif.Spec.PopCorr
import Verif.Lemmas.Glivenko
import Verif.Lemmas.BlockLLN
import Verif.Lemmas.OUFitLaw
import Verif.Model.PandasCorr

/-!
# Ranks in long samples
-/

namespace Verif.Stat

open Verif.Sim MeasureTheory ProbabilityTheory Filter Topology Set

/-! ### The rank of a random variable in its law -/

section
variable {μ : Measure ℝ} [IsProbabilityMeasure μ]

theorem grade_mono : Monotone (grade μ) := fun a b h => by
  unfold grade
  have h1 := measureReal_mono (μ := μ) (Iio_subset_Iio h)
  have h2 := measureReal_mono (μ := μ) (Iic_subset_Iic.mpr h)
  linarith

theorem grade_mem (v : ℝ) : 0 ≤ grade μ v ∧ grade μ v ≤ 1 := by
  unfold grade
  have h1 : μ.real (Iio v) ≤ 1 := measureReal_le_one
  have h2 : μ.real (Iic v) ≤ 1 := measureReal_le_one
  have h3 : 0 ≤ μ.real (Iio v) := measureReal_nonneg
  have h4 : 0 ≤ μ.real (Iic v) := measureReal_nonneg
  constructor <;> linarith

omit [IsProbabilityMeasure μ] in
theorem exists_mem_inter {A E : Set ℝ} (hA : 0 < μ.real A) (hE : ∀ᵐ x ∂μ, x ∈ E) : ∃ x ∈ A, x ∈ E := by
  by_contra hn
  push Not at hn
  have : μ A = 0 := measure_mono_null (fun x hx => hn x hx) hE
  rw [measureReal_def, this] at hA
  simp at hA

/-- Only a constant has one rank. -/
theorem grade_const {c : ℝ} (h : ∀ᵐ x ∂μ, grade μ x = c) : ∃ q, μ.real {q} = 1 := by
  obtain ⟨q, h1, h2⟩ := exists_quantile (μ := μ) (c := 1 / 2) (by norm_num) (by norm_num)
  by_contra hno
  -- a lower set with a probability between zero and one
  obtain ⟨A, hA, hlow, p0, p1⟩ : ∃ A : Set ℝ, MeasurableSet A ∧ IsLowerSet A ∧ 0 < μ.real A ∧ μ.real A < 1 := by
    by_cases e1 : μ.real (Iic q) < 1
    · exact ⟨Iic q, measurableSet_Iic, isLowerSet_Iic q, by linarith, e1⟩
    · by_cases e2 : 0 < μ.real (Iio q)
      · exact ⟨Iio q, measurableSet_Iio, isLowerSet_Iio q, e2, by linarith⟩
      · refine absurd ⟨q, ?_⟩ hno
        have e3 : μ.real (Iic q) = μ.real (Iio q) + μ.real {q} := by
          rw [← Iio_union_right, measureReal_union (by simp) (measurableSet_singleton q)]
        have e4 : μ.real (Iic q) ≤ 1 := measureReal_le_one
        have e5 : 0 ≤ μ.real (Iio q) := measureReal_nonneg
        linarith
  have hin : ∀ x ∈ A, Iic x ⊆ A := fun x hx y hy => hlow hy hx
  have hout : ∀ x ∉ A, A ⊆ Iio x := fun x hx y hy => by
    by_contra hle
    exact hx (hlow (not_lt.mp hle) hy)
  obtain ⟨x, hx, hxc⟩ := exists_mem_inter (E := {x | grade μ x = c}) p0 h
  have pc : 0 < μ.real Aᶜ := by
    rw [measureReal_compl hA, probReal_univ]
    linarith
  obtain ⟨y, hy, hyc⟩ := exists_mem_inter (E := {x | grade μ x = c}) pc h
  have hcp : ∀ x ∈ A, grade μ x ≤ (μ.real (Iio x) + μ.real A) / 2 := fun x hx => by
    have := measureReal_mono (μ := μ) (hin x hx)
    unfold grade
    linarith
  have hc2 : μ.real A ≤ c := by
    rw [← (show grade μ y = c from hyc)]
    have h3 := measureReal_mono (μ := μ) (hout y hy)
    have h4 := measureReal_mono (μ := μ) (Iio_subset_Iic_self (a := y))
    unfold grade
    linarith
  obtain ⟨q', g1, g2⟩ := exists_quantile (μ := μ) (c := μ.real A / 2) (by linarith) (by linarith)
  obtain ⟨z, hz, hzc⟩ := exists_mem_inter (A := Iic q') (E := {x | grade μ x = c}) (by linarith) h
  have hzz : μ.real (Iio z) ≤ μ.real A / 2 := (measureReal_mono (Iio_subset_Iio hz)).trans g2
  by_cases hzA : z ∈ A
  · have := hcp z hzA
    rw [show grade μ z = c from hzc] at this
    linarith
  · have := measureReal_mono (μ := μ) (hout z hzA)
    linarith

end

/-! ### The ranks of a sample -/

/-- The rank of a value of a sample, divided by the length. -/
noncomputable def relRank (s : Nat) (f : Nat → ℝ) (t : Nat) : ℝ := (freqIn s f (Iio (f t)) + freqIn s f (Iic (f t))) / 2

open Classical in
theorem count_freq (s : Nat) (f : Nat → ℝ) (p : ℝ → Prop) [DecidablePred p] : (((List.range s).map f).countP fun w => decide (p w) : ℝ) = s * freqIn s f {w | p w} := by
  unfold freqIn Info.freq
  rcases Nat.eq_zero_or_pos s with rfl | hs
  · simp
  · rw [mul_div_cancel₀ _ (by positivity : (s : ℝ) ≠ 0)]
    clear hs
    induction s with
    | zero => simp
    | succ s ih =>
      rw [List.range_succ, List.map_append, List.countP_append, Finset.sum_range_succ, Nat.cast_add, ih]
      congr 1
      by_cases h : p (f s)
      · rw [if_pos (show f s ∈ {w | p w} from h)]
        simp [h]
      · rw [if_neg (show ¬ f s ∈ {w | p w} from h)]
        simp [h]

theorem rank_relRank {s : Nat} (f : Nat → ℝ) (t : Nat) : Dist.rank ((List.range s).map f) (f t) = 1 / 2 + s * relRank s f t := by
  classical
  unfold Dist.rank relRank
  rw [count_freq, count_freq]
  have h : freqIn s f (Iic (f t)) = freqIn s f (Iio (f t)) + freqIn s f {w | w = f t} := by
    unfold freqIn Info.freq
    rw [← add_div, ← Finset.sum_add_distrib]
    congr 1
    refine Finset.sum_congr rfl fun i _ => ?_
    rcases lt_trichotomy (f i) (f t) with e | e | e
    · rw [if_pos (show f i ∈ Iic (f t) from e.le), if_pos (show f i ∈ Iio (f t) from e), if_neg (show ¬ f i ∈ {w | w = f t} from e.ne), add_zero]
    · rw [if_pos (show f i ∈ Iic (f t) from e.le), if_neg (show ¬ f i ∈ Iio (f t) from e.not_lt), if_pos (show f i ∈ {w | w = f t} from e), zero_add]
    · rw [if_neg (show ¬ f i ∈ Iic (f t) from not_le.mpr e), if_neg (show ¬ f i ∈ Iio (f t) from not_lt.mpr e.le),
        if_neg (show ¬ f i ∈ {w | w = f t} from e.ne'), add_zero]
  rw [h]
  show (s : ℝ) * freqIn s f (Iio (f t)) + (s * freqIn s f {w | w = f t} + 1) / 2 = _
  ring

theorem mean_mem {s : Nat} (hs : 1 ≤ s) {f : Nat → ℝ} {a b : ℝ} (h : ∀ t < s, a ≤ f t ∧ f t ≤ b) : a ≤ mean s f ∧ mean s f ≤ b := by
  have s0 : (0 : ℝ) < s := by exact_mod_cast hs
  unfold mean
  rw [le_div_iff₀ s0, div_le_iff₀ s0]
  constructor
  · have := Finset.card_nsmul_le_sum (Finset.range s) f a fun t ht => (h t (Finset.mem_range.mp ht)).1
    rw [Finset.card_range, nsmul_eq_mul] at this
    linarith
  · have := Finset.sum_le_card_nsmul (Finset.range s) f b fun t ht => (h t (Finset.mem_range.mp ht)).2
    rw [Finset.card_range, nsmul_eq_mul] at this
    linarith

/-- A covariance with a small sequence is small. -/
theorem scov_small {s : Nat} (hs : 2 ≤ s) {d g : Nat → ℝ} {ε : ℝ} (hd : ∀ t < s, |d t| ≤ ε) (hg : ∀ t < s, 0 ≤ g t ∧ g t ≤ 1) : |scov s 1 d g| ≤ 4 * ε := by
  have s2 : (2 : ℝ) ≤ s := by exact_mod_cast hs
  have hε : 0 ≤ ε := (abs_nonneg _).trans (hd 0 (by omega))
  obtain ⟨m1, m2⟩ := mean_mem (by omega) fun t ht => abs_le.mp (hd t ht)
  obtain ⟨m3, m4⟩ := mean_mem (by omega) hg
  unfold scov
  rw [abs_div, abs_of_pos (by linarith : (0 : ℝ) < s - 1), div_le_iff₀ (by linarith)]
  refine (Finset.abs_sum_le_sum_abs _ _).trans ?_
  have : ∀ t ∈ Finset.range s, |(d t - mean s d) * (g t - mean s g)| ≤ 2 * ε := fun t ht => by
    have ht := Finset.mem_range.mp ht
    obtain ⟨a1, a2⟩ := abs_le.mp (hd t ht)
    obtain ⟨b1, b2⟩ := hg t ht
    rw [abs_mul, ← mul_one (2 * ε)]
    refine mul_le_mul ?_ ?_ (abs_nonneg _) (by linarith)
    · rw [abs_le]; constructor <;> linarith
    · rw [abs_le]; constructor <;> linarith
  refine (Finset.sum_le_card_nsmul _ _ _ this).trans ?_
  rw [Finset.card_range, nsmul_eq_mul]
  nlinarith

/-- Sequences that are uniformly close have close covariances. -/
theorem scov_close {s : Nat} (hs : 2 ≤ s) {f f' g g' : Nat → ℝ} {ε : ℝ} (hf : ∀ t < s, |f t - f' t| ≤ ε) (hg : ∀ t < s, |g t - g' t| ≤ ε)
    (h1 : ∀ t < s, 0 ≤ g t ∧ g t ≤ 1) (h2 : ∀ t < s, 0 ≤ f' t ∧ f' t ≤ 1) : |scov s 1 f g - scov s 1 f' g'| ≤ 8 * ε := by
  have s0 : s ≠ 0 := by omega
  have e1 : scov s 1 (fun t => f t - f' t) g = scov s 1 f g - scov s 1 f' g := by
    have := scov_lin_right s0 0 1 (-1) g f f'
    rw [scov_comm _ _ f g, scov_comm _ _ f' g, scov_comm]
    rw [show (fun t => f t - f' t) = fun t => 0 + 1 * f t + -1 * f' t from funext fun t => by ring, this]
    ring
  have e2 : scov s 1 (fun t => g t - g' t) f' = scov s 1 f' g - scov s 1 f' g' := by
    have := scov_lin_right s0 0 1 (-1) f' g g'
    rw [scov_comm]
    rw [show (fun t => g t - g' t) = fun t => 0 + 1 * g t + -1 * g' t from funext fun t => by ring, this]
    ring
  have a1 := scov_small hs hf h1
  have a2 := scov_small hs hg h2
  rw [e1] at a1
  rw [e2] at a2
  have := abs_add_le (scov s 1 f g - scov s 1 f' g) (scov s 1 f' g - scov s 1 f' g')
  rw [sub_add_sub_cancel] at this
  linarith

theorem freqIn_mem {s : Nat} (f : Nat → ℝ) (A : Set ℝ) : 0 ≤ freqIn s f A ∧ freqIn s f A ≤ 1 := by
  classical
  unfold freqIn Info.freq
  refine ⟨div_nonneg (Finset.sum_nonneg fun i _ => by split <;> norm_num) (Nat.cast_nonneg s), div_le_one_of_le₀ ?_ (Nat.cast_nonneg s)⟩
  have := Finset.sum_le_card_nsmul (Finset.range s) (fun i => if f i ∈ A then (1 : ℝ) else 0) 1 fun i _ => by split <;> norm_num
  rw [Finset.card_range, nsmul_eq_mul, mul_one] at this
  exact this

theorem relRank_mem (s : Nat) (f : Nat → ℝ) (t : Nat) : 0 ≤ relRank s f t ∧ relRank s f t ≤ 1 := by
  obtain ⟨h1, h2⟩ := freqIn_mem (s := s) f (Iio (f t))
  obtain ⟨h3, h4⟩ := freqIn_mem (s := s) f (Iic (f t))
  unfold relRank
  constructor <;> linarith

/-! ### Long samples -/

variable {Ω : Type*} [MeasurableSpace Ω] {P : Measure Ω}

/-- With probability one the ranks of all values tend uniformly to their ranks in the law. -/
theorem relRank_uniform {X : Nat → Ω → ℝ} (h : IID P X) :
    ∀ᵐ ω ∂P, ∀ ε > 0, ∀ᶠ s in atTop, ∀ t, |relRank s (fun t => X t ω) t - grade (P.map (X 0)) (X t ω)| ≤ ε := by
  have hP := h.indep.isProbabilityMeasure
  filter_upwards [glivenko h] with ω hω ε hε
  filter_upwards [hω ε hε] with s hs t
  have h1 := abs_le.mp (hs (X t ω) _ (.inr rfl))
  have h2 := abs_le.mp (hs (X t ω) _ (.inl rfl))
  unfold relRank grade
  rw [abs_le]
  constructor <;> linarith [h1.1, h1.2, h2.1, h2.2]

theorem grade_memLp [IsProbabilityMeasure P] {f : Ω → ℝ} (hf : AEMeasurable f P) : MemLp (fun ω => grade (P.map f) (f ω)) 2 P := by
  have hμ := Measure.isProbabilityMeasure_map hf
  refine MemLp.of_bound (grade_mono.measurable.comp_aemeasurable hf).aestronglyMeasurable 1 (ae_of_all _ fun ω => ?_)
  obtain ⟨h1, h2⟩ := grade_mem (μ := P.map f) (f ω)
  rw [Real.norm_eq_abs, abs_le]
  constructor <;> linarith

/-- The covariance of the ranks of two series. -/
theorem rank_scov {E : Type*} [MeasurableSpace E] {X : Nat → Ω → E} (h : IID P X) {f g : E → ℝ} (hf : Measurable f) (hg : Measurable g) :
    ∀ᵐ ω ∂P, Tendsto (fun s => scov s 1 (relRank s fun t => f (X t ω)) (relRank s fun t => g (X t ω))) atTop
      (𝓝 cov[fun ω => grade (P.map fun ω => f (X 0 ω)) (f (X 0 ω)), fun ω => grade (P.map fun ω => g (X 0 ω)) (g (X 0 ω)); P]) := by
  have hP := h.indep.isProbabilityMeasure
  have hX := h.comp hf
  have hY := h.comp hg
  have p1 := Measure.isProbabilityMeasure_map (hX.ae 0)
  have p2 := Measure.isProbabilityMeasure_map (hY.ae 0)
  have key := h.scov (k := 1) one_pos (f := fun x => grade (P.map fun ω => f (X 0 ω)) (f (x 0))) (g := fun x => grade (P.map fun ω => g (X 0 ω)) (g (x 0)))
    (grade_mono.measurable.comp (hf.comp (measurable_pi_apply 0))) (grade_mono.measurable.comp (hg.comp (measurable_pi_apply 0))) (grade_memLp (hX.ae 0)) (grade_memLp (hY.ae 0))
  filter_upwards [key, relRank_uniform hX, relRank_uniform hY] with ω h0 h1 h2
  simp only [Fin.val_zero, Fin.isValue, add_zero] at h0
  rw [Metric.tendsto_nhds] at h0 ⊢
  intro ε hε
  filter_upwards [h0 (ε / 2) (by linarith), h1 (ε / 32) (by linarith), h2 (ε / 32) (by linarith), eventually_ge_atTop 2] with s a0 a1 a2 hs
  rw [Real.dist_eq] at a0 ⊢
  have := scov_close hs (f' := fun t => grade (P.map fun ω => f (X 0 ω)) (f (X t ω))) (g' := fun t => grade (P.map fun ω => g (X 0 ω)) (g (X t ω)))
    (fun t _ => a1 t) (fun t _ => a2 t) (fun t _ => relRank_mem _ _ _) fun t _ => grade_mem _
  rw [abs_lt] at a0 ⊢
  rw [abs_le] at this
  constructor <;> linarith [a0.1, a0.2, this.1, this.2]

/-- The ranks of a series that is not constant vary. -/
theorem grade_var [IsProbabilityMeasure P] {f : Ω → ℝ} (hf : AEMeasurable f P) (hc : ∀ c, ¬ f =ᵐ[P] fun _ => c) : Var[fun ω => grade (P.map f) (f ω); P] ≠ 0 := by
  have hμ := Measure.isProbabilityMeasure_map hf
  intro h0
  have hm := grade_memLp hf
  have h1 := ae_eq_integral_of_variance_eq_zero hm h0
  have h2 : ∀ᵐ x ∂(P.map f), grade (P.map f) x = ∫ ω, grade (P.map f) (f ω) ∂P :=
    (ae_map_iff hf (grade_mono.measurable (measurableSet_singleton _))).mpr h1
  obtain ⟨q, hq⟩ := grade_const h2
  refine hc q ?_
  have h3 : ∀ᵐ x ∂(P.map f), x = q := by
    have : (P.map f).real {q}ᶜ = 0 := by rw [measureReal_compl (measurableSet_singleton q), hq, probReal_univ, sub_self]
    rwa [measureReal_eq_zero_iff] at this
  exact ae_of_ae_map hf h3

end Verif.Stat
