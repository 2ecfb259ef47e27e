import Verif.Lemmas.InfoLaw
import Mathlib.Probability.CDF

/-!
# Empirical distribution functions converge uniformly
-/

namespace Verif.Stat

open Verif.Sim MeasureTheory ProbabilityTheory Filter Topology Set

variable {μ : Measure ℝ} [IsProbabilityMeasure μ]

/-- A point at which the distribution function reaches the value `c`. -/
theorem exists_quantile {c : ℝ} (h0 : 0 < c) (h1 : c < 1) : ∃ q : ℝ, c ≤ μ.real (Iic q) ∧ μ.real (Iio q) ≤ c := by
  set F := cdf μ with hF
  have hne : ∃ x, c ≤ F x := ((tendsto_cdf_atTop μ).eventually (le_mem_nhds h1)).exists
  obtain ⟨b, hb⟩ : ∃ b, F b < c := ((tendsto_cdf_atBot μ).eventually (gt_mem_nhds h0)).exists
  have hbdd : BddBelow {x | c ≤ F x} := ⟨b, fun x hx => by
    by_contra hlt
    exact absurd (hx.trans (monotone_cdf μ (not_le.mp hlt).le)) (not_le.mpr hb)⟩
  refine ⟨sInf {x | c ≤ F x}, ?_, ?_⟩
  · rw [← cdf_eq_real]
    have hr := F.right_continuous (sInf {x | c ≤ F x})
    refine ge_of_tendsto (hr.tendsto.mono_left (nhdsWithin_mono _ Ioi_subset_Ici_self)) ?_
    filter_upwards [self_mem_nhdsWithin] with y hy
    obtain ⟨x, hx, hxy⟩ := (csInf_lt_iff hbdd hne).mp hy
    exact hx.trans (monotone_cdf μ hxy.le)
  · have hlim : Tendsto (fun n : Nat => μ.real (Iic (sInf {x | c ≤ F x} - 1 / ((n : ℝ) + 1)))) atTop (𝓝 (μ.real (Iio (sInf {x | c ≤ F x})))) := by
      have hU : Iio (sInf {x | c ≤ F x}) = ⋃ n : Nat, Iic (sInf {x | c ≤ F x} - 1 / ((n : ℝ) + 1)) := by
        ext y
        simp only [mem_Iio, mem_iUnion, mem_Iic]
        constructor
        · intro hy
          obtain ⟨n, hn⟩ := exists_nat_one_div_lt (sub_pos.mpr hy)
          exact ⟨n, by linarith⟩
        · rintro ⟨n, hn⟩
          have : 0 < 1 / ((n : ℝ) + 1) := by positivity
          linarith
      have hmono : Monotone fun n : Nat => Iic (sInf {x | c ≤ F x} - 1 / ((n : ℝ) + 1)) := by
        intro a b hab
        refine Iic_subset_Iic.mpr ?_
        have : 1 / ((b : ℝ) + 1) ≤ 1 / ((a : ℝ) + 1) := Nat.one_div_le_one_div hab
        linarith
      rw [hU]
      exact (ENNReal.tendsto_toReal (measure_ne_top μ _)).comp (tendsto_measure_iUnion_atTop hmono)
    refine le_of_tendsto' hlim fun n => ?_
    rw [← cdf_eq_real]
    by_contra hlt
    have := csInf_le hbdd (show sInf {x | c ≤ F x} - 1 / ((n : ℝ) + 1) ∈ {x | c ≤ F x} from (not_le.mp hlt).le)
    have : 0 < 1 / ((n : ℝ) + 1) := by positivity
    linarith

/-- Finitely many sets that enclose the half-lines up to a small probability. -/
theorem brackets (μ : Measure ℝ) [IsProbabilityMeasure μ] {ε : ℝ} (hε : 0 < ε) : ∃ 𝓕 : Set (Set ℝ), 𝓕.Finite ∧ (∀ A ∈ 𝓕, MeasurableSet A) ∧
    ∀ x : ℝ, ∀ A, A = Iic x ∨ A = Iio x → ∃ L ∈ 𝓕, ∃ U ∈ 𝓕, L ⊆ A ∧ A ⊆ U ∧ μ.real U ≤ μ.real L + ε := by
  obtain ⟨m, hm⟩ := exists_nat_one_div_lt hε
  set M : ℝ := (m : ℝ) + 1 with hM
  have hM0 : 0 < M := by positivity
  have hq : ∀ k : Nat, ∃ q : ℝ, 1 ≤ k → k ≤ m → (k : ℝ) / M ≤ μ.real (Iic q) ∧ μ.real (Iio q) ≤ k / M := by
    intro k
    by_cases h : 1 ≤ k ∧ k ≤ m
    · have h1 : (1 : ℝ) ≤ k := by exact_mod_cast h.1
      have h2 : (k : ℝ) ≤ m := by exact_mod_cast h.2
      obtain ⟨q, hq⟩ := exists_quantile (μ := μ) (c := k / M) (by positivity) (by rw [div_lt_one hM0]; linarith)
      exact ⟨q, fun _ _ => hq⟩
    · exact ⟨0, fun h1 h2 => absurd ⟨h1, h2⟩ h⟩
  choose q hq using hq
  refine ⟨{∅, univ} ∪ (⋃ k ∈ Finset.range (m + 1), {Iic (q k), Iio (q k)}), ?_, ?_, ?_⟩
  · refine (Set.toFinite _).union ?_
    exact (Finset.finite_toSet _).biUnion fun k _ => Set.toFinite _
  · rintro A (hA | hA)
    · rcases hA with rfl | rfl
      · exact MeasurableSet.empty
      · exact MeasurableSet.univ
    · simp only [mem_iUnion] at hA
      obtain ⟨k, -, rfl | rfl⟩ := hA
      · exact measurableSet_Iic
      · exact measurableSet_Iio
  · intro x A hA
    -- the last quantile whose half-line is contained
    classical
    set k := Nat.findGreatest (fun k => k = 0 ∨ Iic (q k) ⊆ A) m with hk
    have hkm : k ≤ m := Nat.findGreatest_le m
    have hP : k = 0 ∨ Iic (q k) ⊆ A := Nat.findGreatest_spec (P := fun k => k = 0 ∨ Iic (q k) ⊆ A) (Nat.zero_le m) (.inl rfl)
    have hnext : k + 1 ≤ m → A ⊆ Iio (q (k + 1)) := by
      intro hle
      have hnot := Nat.findGreatest_is_greatest (P := fun k => k = 0 ∨ Iic (q k) ⊆ A) (Nat.lt_succ_self k) hle
      push Not at hnot
      have hno := hnot.2
      rcases hA with rfl | rfl
      · rw [Iic_subset_Iic, not_le] at hno
        exact fun y hy => lt_of_le_of_lt hy hno
      · rw [Iic_subset_Iio, not_lt] at hno
        exact fun y hy => lt_of_lt_of_le hy hno
    have hL : ∃ L ∈ ({∅, univ} ∪ (⋃ k ∈ Finset.range (m + 1), {Iic (q k), Iio (q k)}) : Set (Set ℝ)), L ⊆ A ∧ (k : ℝ) / M ≤ μ.real L := by
      by_cases h0 : k = 0
      · refine ⟨∅, by simp, empty_subset _, ?_⟩
        rw [h0]
        simp
      · refine ⟨Iic (q k), .inr ?_, hP.resolve_left h0, (hq k (by omega) hkm).1⟩
        simp only [mem_iUnion]
        exact ⟨k, Finset.mem_range.mpr (by omega), .inl rfl⟩
    have hU : ∃ U ∈ ({∅, univ} ∪ (⋃ k ∈ Finset.range (m + 1), {Iic (q k), Iio (q k)}) : Set (Set ℝ)), A ⊆ U ∧ μ.real U ≤ (k + 1 : ℝ) / M := by
      by_cases h1 : k + 1 ≤ m
      · refine ⟨Iio (q (k + 1)), .inr ?_, hnext h1, ?_⟩
        · simp only [mem_iUnion]
          exact ⟨k + 1, Finset.mem_range.mpr (by omega), .inr rfl⟩
        · have := (hq (k + 1) (by omega) h1).2
          push_cast at this
          exact this
      · refine ⟨univ, by simp, subset_univ _, ?_⟩
        have : k = m := by omega
        rw [this, ← hM, div_self hM0.ne', probReal_univ]
    obtain ⟨L, l1, l2, l3⟩ := hL
    obtain ⟨U, u1, u2, u3⟩ := hU
    refine ⟨L, l1, U, u1, l2, u2, ?_⟩
    have : (k + 1 : ℝ) / M = k / M + 1 / M := by ring
    linarith

/-- The frequency of a set among the first `s` values. -/
noncomputable def freqIn (s : Nat) (f : Nat → ℝ) (A : Set ℝ) : ℝ := Info.freq (fun t => f t ∈ A) s

theorem freqIn_mono {s : Nat} {f : Nat → ℝ} {A B : Set ℝ} (h : A ⊆ B) : freqIn s f A ≤ freqIn s f B := by
  unfold freqIn Info.freq
  refine div_le_div_of_nonneg_right (Finset.sum_le_sum fun t _ => ?_) (Nat.cast_nonneg s)
  by_cases h1 : f t ∈ A
  · rw [if_pos h1, if_pos (h h1)]
  · rw [if_neg h1]
    split <;> norm_num

/-- Glivenko and Cantelli: with probability one the frequencies of all half-lines tend to their probabilities, uniformly. -/
theorem glivenko {Ω : Type*} [MeasurableSpace Ω] {P : Measure Ω} [IsProbabilityMeasure P] {X : Nat → Ω → ℝ} (h : IID P X) :
    ∀ᵐ ω ∂P, ∀ ε > 0, ∀ᶠ s in atTop, ∀ x : ℝ, ∀ A, A = Iic x ∨ A = Iio x → |freqIn s (fun t => X t ω) A - (P.map (X 0)).real A| ≤ ε := by
  have hX := (h.ident 0).aemeasurable_fst
  have hμ : IsProbabilityMeasure (P.map (X 0)) := Measure.isProbabilityMeasure_map hX
  have hF : ∀ n : Nat, ∃ 𝓕 : Set (Set ℝ), 𝓕.Finite ∧ (∀ A ∈ 𝓕, MeasurableSet A) ∧
      ∀ x : ℝ, ∀ A, A = Iic x ∨ A = Iio x → ∃ L ∈ 𝓕, ∃ U ∈ 𝓕, L ⊆ A ∧ A ⊆ U ∧ (P.map (X 0)).real U ≤ (P.map (X 0)).real L + 1 / ((n : ℝ) + 1) :=
    fun n => brackets _ (by positivity)
  choose 𝓕 h1 h2 h3 using hF
  have key : ∀ᵐ ω ∂P, ∀ n, ∀ A ∈ 𝓕 n, Tendsto (fun s => freqIn s (fun t => X t ω) A) atTop (𝓝 ((P.map (X 0)).real A)) := by
    rw [ae_all_iff]
    intro n
    rw [ae_ball_iff (h1 n).countable]
    intro A hA
    have key := Info.freq_limit h (h2 n A hA)
    have e : P.real {ω | X 0 ω ∈ A} = (P.map (X 0)).real A := by
      rw [map_measureReal_apply_of_aemeasurable hX (h2 n A hA)]
      rfl
    rw [e] at key
    exact key
  filter_upwards [key] with ω hω ε hε
  obtain ⟨n, hn⟩ := exists_nat_one_div_lt (half_pos hε)
  have hall : ∀ᶠ s in atTop, ∀ A ∈ 𝓕 n, |freqIn s (fun t => X t ω) A - (P.map (X 0)).real A| < ε / 2 := by
    rw [(h1 n).eventually_all]
    intro A hA
    exact (Metric.tendsto_nhds.mp (hω n A hA)) (ε / 2) (half_pos hε)
  filter_upwards [hall] with s hs x A hA
  obtain ⟨L, l1, U, u1, hLA, hAU, hLU⟩ := h3 n x A hA
  have a1 := abs_lt.mp (hs L l1)
  have a2 := abs_lt.mp (hs U u1)
  have b1 := freqIn_mono (s := s) (f := fun t => X t ω) hLA
  have b2 := freqIn_mono (s := s) (f := fun t => X t ω) hAU
  have c1 := measureReal_mono (μ := P.map (X 0)) hLA
  have c2 := measureReal_mono (μ := P.map (X 0)) hAU
  rw [abs_le]
  constructor <;> linarith [a1.1, a2.2]

end Verif.Stat
