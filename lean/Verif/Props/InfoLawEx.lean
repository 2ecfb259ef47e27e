import Verif.Props.InfoLaw
import Mathlib.Probability.Independence.InfinitePi
import Mathlib.MeasureTheory.Measure.Lebesgue.Basic

/-!
# C96: uniform samples
-/

namespace Verif.Info

open MeasureTheory ProbabilityTheory Filter Topology Verif.Stat

/-- The uniform law on the unit interval. -/
noncomputable def unitLaw : Measure ℝ := volume.restrict (Set.Ico 0 1)

instance : IsProbabilityMeasure unitLaw := ⟨by simp [unitLaw]⟩

/-- Independent uniform variables. -/
noncomputable def unitDraws : Measure (Nat → ℝ) := Measure.infinitePi fun _ => unitLaw

instance : IsProbabilityMeasure unitDraws := by unfold unitDraws; infer_instance

theorem unitDraws_iid : IID unitDraws fun t (ω : Nat → ℝ) => ω t := by
  refine ⟨iIndepFun_infinitePi (P := fun _ => unitLaw) (X := fun _ x => x) fun _ => measurable_id, fun t =>
    ⟨(measurable_pi_apply t).aemeasurable, (measurable_pi_apply 0).aemeasurable, ?_⟩⟩
  unfold unitDraws
  rw [Measure.infinitePi_map_eval, Measure.infinitePi_map_eval]

theorem unitDraws_apply {s : Set ℝ} (hs : MeasurableSet s) : unitDraws {ω | ω 0 ∈ s} = volume (s ∩ Set.Ico 0 1) := by
  have h : unitDraws.map (fun ω => ω 0) = unitLaw := by
    unfold unitDraws
    exact Measure.infinitePi_map_eval _ 0
  have := Measure.map_apply (measurable_pi_apply (X := fun _ : Nat => ℝ) 0) hs (μ := unitDraws)
  rw [h] at this
  rw [show {ω : Nat → ℝ | ω 0 ∈ s} = (fun ω => ω 0) ⁻¹' s from rfl, ← this, unitLaw, Measure.restrict_apply hs]

theorem unit_mem : ∀ᵐ ω ∂unitDraws, ω 0 ∈ Set.Ico (0 : ℝ) 1 := by
  have : unitDraws {ω | ω 0 ∈ (Set.Ico (0 : ℝ) 1)ᶜ} = 0 := by
    rw [unitDraws_apply measurableSet_Ico.compl]
    simp
  exact this

/-- Uniform variables satisfy the assumptions for any number of bins. -/
theorem unit_cells {B : Nat} (hB : 0 < B) : Cells unitDraws (fun ω => ω 0) 0 1 B := by
  refine ⟨one_pos, hB, ?_, fun ε hε => ?_, fun ε hε => ?_, fun k _ _ => ?_⟩
  · filter_upwards [unit_mem] with ω hω
    exact ⟨hω.1, hω.2.le⟩
  · rw [show {ω : Nat → ℝ | ω 0 < 0 + ε} = {ω | ω 0 ∈ Set.Iio (0 + ε)} from rfl, unitDraws_apply measurableSet_Iio]
    have : Set.Ico 0 (min ε 1) ⊆ Set.Iio (0 + ε) ∩ Set.Ico 0 1 := fun x hx => by
      have := lt_min_iff.mp hx.2
      exact ⟨by simpa using this.1, hx.1, this.2⟩
    refine fun h0 => ?_
    have h1 := measure_mono_null this h0
    rw [Real.volume_Ico, ENNReal.ofReal_eq_zero, sub_zero] at h1
    have := lt_min hε one_pos
    linarith
  · rw [show {ω : Nat → ℝ | 1 - ε < ω 0} = {ω | ω 0 ∈ Set.Ioi (1 - ε)} from rfl, unitDraws_apply measurableSet_Ioi]
    have : Set.Ioo (max (1 - ε) 0) 1 ⊆ Set.Ioi (1 - ε) ∩ Set.Ico 0 1 := fun x hx => by
      have := max_lt_iff.mp hx.1
      exact ⟨this.1, this.2.le, hx.2⟩
    refine fun h0 => ?_
    have h1 := measure_mono_null this h0
    rw [Real.volume_Ioo, ENNReal.ofReal_eq_zero] at h1
    have : max (1 - ε) 0 < 1 := max_lt (by linarith) one_pos
    linarith
  · rw [show {ω : Nat → ℝ | ω 0 = edge 0 1 B k} = {ω | ω 0 ∈ ({edge 0 1 B k} : Set ℝ)} from rfl,
      unitDraws_apply (measurableSet_singleton _)]
    exact measure_mono_null Set.inter_subset_left Real.volume_singleton

/-! ### A dependence that two bins do not see -/

/-- The doubling map of the unit interval. -/
noncomputable def double (u : ℝ) : ℝ := if u < 1 / 2 then 2 * u else 2 * u - 1

theorem double_meas : Measurable double :=
  Measurable.ite measurableSet_Iio (measurable_id.const_mul 2) ((measurable_id.const_mul 2).sub_const 1)

theorem double_cells {B : Nat} (hB : 0 < B) : Cells unitDraws (fun ω => double (ω 0)) 0 1 B := by
  have hu := unit_cells one_pos
  refine ⟨one_pos, hB, ?_, fun ε hε h0 => ?_, fun ε hε h0 => ?_, fun k _ _ => ?_⟩
  · filter_upwards [unit_mem] with ω hω
    unfold double
    have h1 := hω.1
    have h2 := hω.2
    split_ifs with h
    · exact ⟨by linarith, by linarith⟩
    · exact ⟨by linarith, by linarith⟩
  · refine hu.left (min (ε / 2) (1 / 2)) (lt_min (by linarith) (by norm_num)) (measure_mono_null (fun ω hω => ?_) h0)
    have hω : ω 0 < 0 + min (ε / 2) (1 / 2) := hω
    rw [zero_add, lt_min_iff] at hω
    show double (ω 0) < 0 + ε
    rw [double, if_pos hω.2]
    linarith
  · refine hu.right (min (ε / 2) (1 / 2)) (lt_min (by linarith) (by norm_num)) (measure_mono_null (fun ω hω => ?_) h0)
    have hω : 1 - min (ε / 2) (1 / 2) < ω 0 := hω
    have q1 := min_le_left (ε / 2) (1 / 2)
    have q2 := min_le_right (ε / 2) (1 / 2)
    show 1 - ε < double (ω 0)
    rw [double, if_neg (by linarith)]
    linarith
  · have : {ω : Nat → ℝ | double (ω 0) = edge 0 1 B k} ⊆ {ω | ω 0 ∈ ({edge 0 1 B k / 2, (edge 0 1 B k + 1) / 2} : Set ℝ)} := by
      intro ω hω
      have hω : double (ω 0) = edge 0 1 B k := hω
      show ω 0 ∈ ({edge 0 1 B k / 2, (edge 0 1 B k + 1) / 2} : Set ℝ)
      unfold double at hω
      split_ifs at hω
      · left; linarith
      · right
        show ω 0 = (edge 0 1 B k + 1) / 2
        linarith
    refine measure_mono_null this ?_
    rw [unitDraws_apply (Set.Finite.measurableSet (Set.toFinite _))]
    exact measure_mono_null Set.inter_subset_left ((Set.toFinite _).measure_zero _)

theorem unit_real {s : Set ℝ} (hs : MeasurableSet s) {c d : ℝ} (hcd : c ≤ d) (h : s ∩ Set.Ico 0 1 = Set.Ico c d) :
    unitDraws.real {ω | ω 0 ∈ s} = d - c := by
  rw [measureReal_def, unitDraws_apply hs, h, Real.volume_Ico, ENNReal.toReal_ofReal (by linarith)]

/-- C96. Two bins do not see every dependence: the second variable is a function of the first one, and mutual information
with two bins tends to zero. -/
theorem mi_blind : ∀ᵐ ω ∂unitDraws, ∃ v : Nat → ℝ,
    (∀ n, 2 ≤ n → mutualInfo (some 2) false (first ω n) (first (fun t => double (ω t)) n) = .ok (.fin (v n))) ∧
    Tendsto v atTop (𝓝 0) := by
  have hiid : IID unitDraws fun t (ω : Nat → ℝ) => (ω t, double (ω t)) := unitDraws_iid.comp (measurable_id.prodMk double_meas)
  refine (mi_limit_zero_iff (B := 2) (X := fun t (ω : Nat → ℝ) => ω t) (Y := fun t (ω : Nat → ℝ) => double (ω t)) hiid (unit_cells two_pos)
    (double_cells two_pos)).mpr fun i hi j hj => ?_
  have hX : ∀ i < 2, unitDraws.real {ω | ω 0 ∈ cell 0 1 2 i} = 1 / 2 := by
    intro i hi
    rw [unit_real (cell_meas 0 1 2 i) (c := i / 2) (d := (i + 1) / 2) (by linarith)]
    · ring
    · ext u
      interval_cases i <;> simp [cell, edge] <;> grind
  have hXY : ∀ i < 2, ∀ j < 2, unitDraws.real {ω | ω 0 ∈ cell 0 1 2 i ∧ double (ω 0) ∈ cell 0 1 2 j} = 1 / 4 := by
    intro i hi j hj
    have hm : MeasurableSet {u : ℝ | u ∈ cell 0 1 2 i ∧ double u ∈ cell 0 1 2 j} :=
      (cell_meas 0 1 2 i).inter (double_meas (cell_meas 0 1 2 j))
    rw [show {ω : Nat → ℝ | ω 0 ∈ cell 0 1 2 i ∧ double (ω 0) ∈ cell 0 1 2 j} =
      {ω | ω 0 ∈ {u : ℝ | u ∈ cell 0 1 2 i ∧ double u ∈ cell 0 1 2 j}} from rfl,
      unit_real hm (c := i / 2 + j / 4) (d := i / 2 + (j + 1) / 4) (by linarith)]
    · ring
    · ext u
      interval_cases i <;> interval_cases j <;> simp [cell, edge, double] <;> grind
  have hY : ∀ j < 2, unitDraws.real {ω | double (ω 0) ∈ cell 0 1 2 j} = 1 / 2 := by
    intro j hj
    have ht := (cells_table hiid (unit_cells two_pos) (double_cells two_pos)).right j hj
    unfold cellProb cellProb2 at ht
    rw [ht, Finset.sum_congr rfl fun i hi => hXY i (Finset.mem_range.mp hi) j hj]
    norm_num
  rw [hXY i hi j hj, hX i hi, hY j hj]
  norm_num

/-! ### Independent uniform pairs -/

/-- The assumptions depend on the law only. -/
theorem cells_of_law {Ω Ω' : Type*} [MeasurableSpace Ω] [MeasurableSpace Ω'] {P : Measure Ω} {Q : Measure Ω'} {V : Ω → ℝ} {W : Ω' → ℝ}
    (hV : AEMeasurable V P) (hW : AEMeasurable W Q) (hlaw : P.map V = Q.map W) {a b : ℝ} {B : Nat} (h : Cells Q W a b B) :
    Cells P V a b B := by
  have e : ∀ s : Set ℝ, MeasurableSet s → P {ω | V ω ∈ s} = Q {ω | W ω ∈ s} := by
    intro s hs
    have h1 := Measure.map_apply_of_aemeasurable hV hs
    rw [hlaw, Measure.map_apply_of_aemeasurable hW hs] at h1
    exact h1.symm
  refine ⟨h.lt, h.pos, ?_, fun ε hε => ?_, fun ε hε => ?_, fun k hk hkB => ?_⟩
  · have := e _ (measurableSet_Icc (a := a) (b := b)).compl
    exact this.trans h.mem
  · exact fun h0 => h.left ε hε ((e _ measurableSet_Iio).symm.trans h0)
  · exact fun h0 => h.right ε hε ((e _ measurableSet_Ioi).symm.trans h0)
  · exact (e _ (measurableSet_singleton _)).trans (h.border k hk hkB)

/-- Independent draws from a law. -/
theorem draws_iid {E : Type*} [MeasurableSpace E] (μ : Measure E) [IsProbabilityMeasure μ] :
    IID (Measure.infinitePi fun _ : Nat => μ) fun t ω => ω t := by
  refine ⟨iIndepFun_infinitePi (P := fun _ => μ) (X := fun _ x => x) fun _ => measurable_id, fun t =>
    ⟨(measurable_pi_apply t).aemeasurable, (measurable_pi_apply 0).aemeasurable, ?_⟩⟩
  rw [Measure.infinitePi_map_eval, Measure.infinitePi_map_eval]

/-- C96. A concrete case of `info_independent`: the coordinates of uniform points of a square, with any number of bins. -/
theorem square_independent {B : Nat} (hB : 2 ≤ B) :
    ∀ᵐ ω ∂Measure.infinitePi fun _ : Nat => unitLaw.prod unitLaw, ∀ norm, ∃ v : Nat → ℝ,
      (∀ᶠ n in atTop, mutualInfo (some B) norm (first (fun t => (ω t).1) n) (first (fun t => (ω t).2) n) = .ok (.fin (v n))) ∧
      Tendsto v atTop (𝓝 0) := by
  set P := Measure.infinitePi fun _ : Nat => unitLaw.prod unitLaw with hP
  have h : IID P fun t ω => ω t := draws_iid _
  have h0 : P.map (fun ω => ω 0) = unitLaw.prod unitLaw := Measure.infinitePi_map_eval _ 0
  have hm : Measurable fun ω : Nat → ℝ × ℝ => ω 0 := measurable_pi_apply 0
  have hu : unitDraws.map (fun ω => ω 0) = unitLaw := Measure.infinitePi_map_eval _ 0
  have h1 : P.map (fun ω => (ω 0).1) = unitLaw := by
    rw [show (fun ω : Nat → ℝ × ℝ => (ω 0).1) = Prod.fst ∘ fun ω => ω 0 from rfl, ← Measure.map_map measurable_fst hm, h0]
    exact Measure.fst_prod
  have h2 : P.map (fun ω => (ω 0).2) = unitLaw := by
    rw [show (fun ω : Nat → ℝ × ℝ => (ω 0).2) = Prod.snd ∘ fun ω => ω 0 from rfl, ← Measure.map_map measurable_snd hm, h0]
    exact Measure.snd_prod
  have m1 : Measurable fun ω : Nat → ℝ × ℝ => (ω 0).1 := measurable_fst.comp hm
  have m2 : Measurable fun ω : Nat → ℝ × ℝ => (ω 0).2 := measurable_snd.comp hm
  have hu0 : AEMeasurable (fun ω : Nat → ℝ => ω 0) unitDraws := (measurable_pi_apply 0).aemeasurable
  have hi : IndepFun (fun ω : Nat → ℝ × ℝ => (ω 0).1) (fun ω => (ω 0).2) P := by
    rw [indepFun_iff_map_prod_eq_prod_map_map m1.aemeasurable m2.aemeasurable, h1, h2]
    exact h0
  filter_upwards [info_independent (X := fun t ω => (ω t).1) (Y := fun t ω => (ω t).2) (a := 0) (b := 1) (a' := 0) (b' := 1)
    (by exact h) hB (cells_of_law m1.aemeasurable hu0 (h1.trans hu.symm) (unit_cells (by omega)))
    (cells_of_law m2.aemeasurable hu0 (h2.trans hu.symm) (unit_cells (by omega))) hi] with ω hω
  exact hω.1

end Verif.Info
