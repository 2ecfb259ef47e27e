import Verif.Props.InfoLawEx
import Mathlib.Probability.Distributions.Gaussian.Real

/-!
# C96: fixed bins and variables without an upper bound
-/

namespace Verif.Info

open MeasureTheory ProbabilityTheory Filter Topology Verif.Stat Verif.Ent

variable {Ω : Type*} [MeasurableSpace Ω] {P : Measure Ω} {X Y : Nat → Ω → ℝ} {B : Nat}

/-- A variable with a lower bound and no upper bound, for instance a price, a volume or an absolute return. -/
structure Skewed (P : Measure Ω) (V : Ω → ℝ) (a : ℝ) : Prop where
  ge : ∀ᵐ ω ∂P, a ≤ V ω
  large : ∀ K, P {ω | K < V ω} ≠ 0

/-- The first bin swallows everything below a given level. -/
theorem swallow {x : Nat → ℝ} {a : ℝ} (hB : 0 < B) (ha : ∀ t, a ≤ x t) (hl : ∀ K : ℝ, ∃ t, K < x t) (m : ℝ) :
    ∀ᶠ n in atTop, ∀ i < n, x i ≤ m → binOf B (firstR x n) (x i) = 0 := by
  have hBr : (0 : ℝ) < B := by exact_mod_cast hB
  obtain ⟨t, ht⟩ := hl (max (x 0) (x 0 + B * (m - a)))
  obtain ⟨t1, t2⟩ := max_lt_iff.mp ht
  filter_upwards [eventually_gt_atTop t] with n hn i hin him
  have m0 : x 0 ∈ firstR x n := mem_firstR (by omega)
  have mt : x t ∈ firstR x n := mem_firstR hn
  have hne : firstR x n ≠ [] := List.ne_nil_of_mem m0
  obtain ⟨l1, l2⟩ := lo_spec hne
  obtain ⟨u1, u2⟩ := hi_spec hne
  have e0 := l2 _ m0
  have et := u2 _ mt
  have hla : a ≤ lo (firstR x n) := by
    obtain ⟨i, hi⟩ := List.mem_ofFn.mp l1
    rw [← hi]
    exact ha i
  have ho : outer (firstR x n) = (lo (firstR x n), hi (firstR x n)) := by
    unfold outer
    rw [if_neg (by intro h; linarith)]
  have hb := bin_edges hB (mem_firstR hin) 0 (x := firstR x n)
  rw [ho] at hb
  dsimp only at hb
  rw [hb]
  refine ⟨hB, by simpa using l2 _ (mem_firstR hin), Or.inl ?_⟩
  have h1 : m - a < (hi (firstR x n) - lo (firstR x n)) / B := by
    rw [lt_div_iff₀ hBr]
    linarith
  push_cast
  linarith

theorem skewed_limit [IsProbabilityMeasure P] (h : IID P X) (hB : 0 < B) {a : ℝ} (hX : Skewed P (X 0) a) :
    ∀ᵐ ω ∂P, ∀ k, Tendsto (fun n => freq (fun i => binOf B (firstR (fun t => X t ω) n) (X i ω) = k) n) atTop
      (𝓝 (if k = 0 then 1 else 0)) := by
  have h1 := h.ae_all measurableSet_Ici hX.ge
  have h2 : ∀ᵐ ω ∂P, ∀ m : Nat, Tendsto (freq fun i => X i ω ∈ Set.Ioi (m : ℝ)) atTop (𝓝 (P.real {ω | X 0 ω ∈ Set.Ioi (m : ℝ)})) := by
    rw [ae_all_iff]
    exact fun m => freq_limit h measurableSet_Ioi
  have hd : Tendsto (fun m : Nat => P.real {ω | X 0 ω ∈ Set.Ioi (m : ℝ)}) atTop (𝓝 0) := by
    have hp : IsProbabilityMeasure (P.map (X 0)) := Measure.isProbabilityMeasure_map (h.ae 0)
    have ht := tendsto_measure_iInter_atTop (μ := P.map (X 0)) (s := fun m : Nat => Set.Ioi (m : ℝ))
      (fun m => measurableSet_Ioi.nullMeasurableSet) (fun m n hmn => Set.Ioi_subset_Ioi (by exact_mod_cast hmn))
      ⟨0, measure_ne_top _ _⟩
    have he : (⋂ m : Nat, Set.Ioi (m : ℝ)) = ∅ := by
      ext v
      simp only [Set.mem_iInter, Set.mem_Ioi, Set.mem_empty_iff_false, iff_false, not_forall, not_lt]
      exact exists_nat_ge v
    rw [he, measure_empty] at ht
    have := (ENNReal.tendsto_toReal ENNReal.zero_ne_top).comp ht
    refine this.congr fun m => ?_
    rw [Function.comp_apply, Function.comp_apply, Measure.map_apply_of_aemeasurable (h.ae 0) measurableSet_Ioi]
    rfl
  filter_upwards [h1, h2] with ω a1 a2
  have hl : ∀ K : ℝ, ∃ t, K < X t ω := by
    intro K
    obtain ⟨m, hm⟩ := exists_nat_ge K
    obtain ⟨t, ht⟩ := exists_of_freq (a2 m) (by
      rw [measureReal_def, ENNReal.toReal_ne_zero]
      exact ⟨hX.large m, measure_ne_top _ _⟩)
    exact ⟨t, lt_of_le_of_lt hm ht⟩
  have hone : Tendsto (freq fun _ => True) atTop (𝓝 1) := by
    refine tendsto_const_nhds.congr' ?_
    filter_upwards [eventually_gt_atTop 0] with n hn
    have hn' : (n : ℝ) ≠ 0 := by exact_mod_cast hn.ne'
    simp [freq, hn']
  have hzero : Tendsto (freq fun _ => False) atTop (𝓝 0) := by
    have : (freq fun _ => False) = fun _ => 0 := by
      funext n
      simp [freq]
    rw [this]
    exact tendsto_const_nhds
  intro k
  split_ifs with hk
  · refine freq_squeeze (A := fun _ => True) (D := fun (m : Nat) i => X i ω ∈ Set.Ioi (m : ℝ)) (fun m => ?_) a2 hd hone
    filter_upwards [swallow hB a1 hl m] with n hn i hi hD
    simp only [iff_true]
    rw [hk]
    exact hn i hi (not_lt.mp hD)
  · refine freq_squeeze (A := fun _ => False) (D := fun (m : Nat) i => X i ω ∈ Set.Ioi (m : ℝ)) (fun m => ?_) a2 hd hzero
    filter_upwards [swallow hB a1 hl m] with n hn i hi hD
    simp only [iff_false]
    rw [hn i hi (not_lt.mp hD)]
    exact fun h => hk h.symm

/-- The entropy of a long sample of such a variable vanishes. -/
theorem skewed_entropy [IsProbabilityMeasure P] (h : IID P X) (hB : 0 < B) {a : ℝ} (hX : Skewed P (X 0) a) :
    ∀ᵐ ω ∂P, Tendsto (fun n => H (lab B fun i : Fin n => X i ω)) atTop (𝓝 0) := by
  filter_upwards [skewed_limit h hB hX] with ω hω
  have e : ∀ n, H (lab B fun i : Fin n => X i ω) =
      ∑ k ∈ Finset.range B, Real.negMulLog (freq (fun i => binOf B (firstR (fun t => X t ω) n) (X i ω) = k) n) := by
    intro n
    rw [H_sum (lab B fun i : Fin n => X i ω) (s := Finset.range B) fun i => Finset.mem_range.mpr (binOf_lt hB _ _)]
    refine Finset.sum_congr rfl fun k _ => ?_
    rw [← cnt_freq]
    rfl
  have := tendsto_finsetSum (Finset.range B) fun k _ => (Real.continuous_negMulLog.tendsto _).comp (hω k)
  have hz : ∑ k ∈ Finset.range B, Real.negMulLog (if k = 0 then 1 else 0) = 0 := by
    refine Finset.sum_eq_zero fun k _ => ?_
    split_ifs <;> simp
  rw [hz] at this
  refine this.congr fun n => ?_
  rw [e]
  rfl

/-- C96. With a fixed number of bins, if one of the variables has no upper bound then mutual information tends to zero,
whatever the dependence of the two variables. -/
theorem mi_skewed [IsProbabilityMeasure P] (h : IID P fun t ω => (X t ω, Y t ω)) (hB : 0 < B) {a : ℝ} (hX : Skewed P (X 0) a) :
    ∀ᵐ ω ∂P, ∃ v : Nat → ℝ,
      (∀ n, 2 ≤ n → mutualInfo (some B) false (first (fun t => X t ω) n) (first (fun t => Y t ω) n) = .ok (.fin (v n))) ∧
      Tendsto v atTop (𝓝 0) := by
  filter_upwards [skewed_entropy (h.comp measurable_fst) hB hX] with ω h1
  refine ⟨_, fun n hn => (first_eq _ _ hn hB false).1, squeeze_zero (fun n => ?_) (fun n => ?_) h1⟩
  · have := H_pair_le (lab B fun i : Fin n => X i ω) (lab B fun i : Fin n => Y i ω)
    linarith
  · have := H_le_pair_right (lab B fun i : Fin n => X i ω) (lab B fun i : Fin n => Y i ω)
    linarith

/-- C96. If both have no upper bound then variation of information tends to zero as well: in the long run any two such
variables are reported to be equal. -/
theorem vi_skewed [IsProbabilityMeasure P] (h : IID P fun t ω => (X t ω, Y t ω)) (hB : 0 < B) {a a' : ℝ} (hX : Skewed P (X 0) a)
    (hY : Skewed P (Y 0) a') :
    ∀ᵐ ω ∂P, ∃ v : Nat → ℝ,
      (∀ n, 2 ≤ n → varInfo (some B) false (first (fun t => X t ω) n) (first (fun t => Y t ω) n) = .ok (.fin (v n))) ∧
      Tendsto v atTop (𝓝 0) := by
  filter_upwards [skewed_entropy (h.comp measurable_fst) hB hX, skewed_entropy (h.comp measurable_snd) hB hY] with ω h1 h2
  have h3 := h1.add h2
  rw [add_zero] at h3
  refine ⟨_, fun n hn => (first_eq _ _ hn hB false).2, squeeze_zero (fun n => ?_) (fun n => ?_) h3⟩
  · have q1 := H_le_pair_left (lab B fun i : Fin n => X i ω) (lab B fun i : Fin n => Y i ω)
    have q2 := H_le_pair_right (lab B fun i : Fin n => X i ω) (lab B fun i : Fin n => Y i ω)
    linarith
  · have := H_pair_le (lab B fun i : Fin n => X i ω) (lab B fun i : Fin n => Y i ω)
    linarith

/-- The exponential of a standard normal variable is such a variable, so that lognormal prices are. -/
theorem skewed_exp {V : Ω → ℝ} (hV : ∀ K, P {ω | K < V ω} ≠ 0) : Skewed P (fun ω => Real.exp (V ω)) 0 := by
  refine ⟨ae_of_all _ fun ω => (Real.exp_pos _).le, fun K h0 => hV (Real.log (max K 1)) (measure_mono_null (fun ω hω => ?_) h0)⟩
  have hω : Real.log (max K 1) < V ω := hω
  show K < Real.exp (V ω)
  have hp : (0 : ℝ) < max K 1 := lt_of_lt_of_le one_pos (le_max_right _ _)
  exact lt_of_le_of_lt (le_max_left _ _) ((Real.log_lt_iff_lt_exp hp).mp hω)

/-- C96. Concretely: a lognormal series and its own copy have mutual information zero in the limit, with any number of bins. -/
theorem lognormal_skewed (hB : 0 < B) :
    ∀ᵐ ω ∂Measure.infinitePi fun _ : Nat => gaussianReal 0 1, ∃ v : Nat → ℝ,
      (∀ n, 2 ≤ n → mutualInfo (some B) false (first (fun t => Real.exp (ω t)) n) (first (fun t => Real.exp (ω t)) n) =
        .ok (.fin (v n))) ∧ Tendsto v atTop (𝓝 0) := by
  set P := Measure.infinitePi fun _ : Nat => gaussianReal 0 1 with hP
  have h : IID P fun t ω => (Real.exp (ω t), Real.exp (ω t)) :=
    (draws_iid (gaussianReal 0 1)).comp (g := fun x : ℝ => (Real.exp x, Real.exp x)) (Real.measurable_exp.prodMk Real.measurable_exp)
  have hs : Skewed P (fun ω : Nat → ℝ => Real.exp (ω 0)) 0 := by
    refine skewed_exp (V := fun ω : Nat → ℝ => ω 0) fun K h0 => ?_
    have e := Measure.map_apply (measurable_pi_apply (X := fun _ : Nat => ℝ) 0) (measurableSet_Ioi (a := K)) (μ := P)
    rw [hP, Measure.infinitePi_map_eval] at e
    have hz : gaussianReal 0 1 (Set.Ioi K) = 0 := e.trans h0
    have := gaussianReal_absolutelyContinuous' 0 (v := 1) one_ne_zero hz
    simp at this
  exact mi_skewed (P := P) (X := fun t ω => Real.exp (ω t)) (Y := fun t ω => Real.exp (ω t)) h hB hs

end Verif.Info
