import Verif.Lemmas.RankLimit
import Verif.Props.ClustSample
import Mathlib.Probability.Independence.Integration

/-!
# C120: what rank correlations estimate, and clustering by them
-/

namespace Verif.Clust

open Verif Ser Verif.Dist Verif.Stat Classical Finset MeasureTheory ProbabilityTheory Filter Topology

variable {Ω : Type*} [MeasurableSpace Ω] {P : Measure Ω}

/-! ### The limit -/

/-- Observations of `d` series: the rows are independent and have one law, under which no series is constant. -/
structure Varying (P : Measure Ω) (d : Nat) (X : Nat → Ω → Fin d → ℝ) : Prop where
  iid : Stat.IID P X
  vary : ∀ j c, ¬ (fun ω => X 0 ω j) =ᵐ[P] fun _ => c

/-- C120. Spearman's correlations of long samples tend to the rank correlations of the population, with probability one and for
every law of the rows, with or without ties and moments. -/
theorem spearman_estimated {d : Nat} {X : Nat → Ω → Fin d → ℝ} (h : Varying P d X) :
    Estimated P X "spearman-correlation" fun i j => rankCorr P (fun ω => X 0 ω i) fun ω => X 0 ω j := by
  have hP := h.iid.indep.isProbabilityMeasure
  have key : ∀ᵐ ω ∂P, ∀ i j : Fin d, Tendsto (fun s => Sim.scov s 1 (relRank s fun t => X t ω i) (relRank s fun t => X t ω j)) atTop
      (𝓝 cov[fun ω => grade (P.map fun ω => X 0 ω i) (X 0 ω i), fun ω => grade (P.map fun ω => X 0 ω j) (X 0 ω j); P]) := by
    rw [ae_all_iff]
    intro i
    rw [ae_all_iff]
    intro j
    exact rank_scov h.iid (f := fun x => x i) (g := fun x => x j) (measurable_pi_apply i) (measurable_pi_apply j)
  have hm : ∀ i, AEMeasurable (fun ω => X 0 ω i) P := fun i => (measurable_pi_apply i).comp_aemeasurable (h.iid.ae 0)
  have cs : ∀ i, cov[fun ω => grade (P.map fun ω => X 0 ω i) (X 0 ω i), fun ω => grade (P.map fun ω => X 0 ω i) (X 0 ω i); P] =
      Var[fun ω => grade (P.map fun ω => X 0 ω i) (X 0 ω i); P] := fun i => covariance_self (grade_memLp (hm i)).aestronglyMeasurable.aemeasurable
  have vp : ∀ i, 0 < Var[fun ω => grade (P.map fun ω => X 0 ω i) (X 0 ω i); P] := fun i => (variance_nonneg _ _).lt_of_ne' (grade_var (hm i) (h.vary i))
  filter_upwards [key] with ω hω i j
  have e : ∀ (s : Nat) (f : Nat → ℝ), seen "spearman-correlation" s f = fun t => 1 / 2 + s * relRank s f t := fun s f => by
    funext t
    unfold seen
    rw [if_neg (by decide), rank_relRank]
  simp only [e]
  have sc : ∀ᶠ s : Nat in atTop, ∀ f g : Nat → ℝ, Sim.scov s 1 (fun t => 1 / 2 + s * relRank s f t) (fun t => 1 / 2 + s * relRank s g t) =
      s * s * Sim.scov s 1 (relRank s f) (relRank s g) := by
    filter_upwards [eventually_ge_atTop 1] with s hs f g
    exact Sim.scov_affine s (by omega) 1 _ _ _ _ _ _
  constructor
  · have h1 := (hω i i).eventually (lt_mem_nhds (by rw [cs]; exact vp i))
    filter_upwards [h1, sc, eventually_ge_atTop 1] with s g1 g2 g3
    rw [g2]
    have : (0 : ℝ) < s := by exact_mod_cast g3
    positivity
  · have h1 := (Real.continuous_sqrt.tendsto _).comp (hω i i)
    have h2 := (Real.continuous_sqrt.tendsto _).comp (hω j j)
    rw [cs] at h1 h2
    have h3 := (hω i j).div (h1.mul h2) (mul_pos (Real.sqrt_pos.mpr (vp i)) (Real.sqrt_pos.mpr (vp j))).ne'
    refine h3.congr' ?_
    filter_upwards [sc, eventually_ge_atTop 1] with s g2 g3
    have s0 : (0 : ℝ) < s := by exact_mod_cast g3
    show _ / (√(Sim.scov s 1 (relRank s fun t => X t ω i) (relRank s fun t => X t ω i)) * √(Sim.scov s 1 (relRank s fun t => X t ω j) (relRank s fun t => X t ω j))) = _
    unfold sampleCorr
    rw [g2, g2, g2, Real.sqrt_mul (mul_self_nonneg _), Real.sqrt_mul (mul_self_nonneg _), Real.sqrt_mul_self s0.le, mul_mul_mul_comm,
      mul_div_mul_left _ _ (mul_pos s0 s0).ne']

/-! ### What the limit is -/

theorem grade_comp [IsProbabilityMeasure P] {f : Ω → ℝ} (hf : AEMeasurable f P) {φ : ℝ → ℝ} (hφ : StrictMono φ) (v : ℝ) :
    grade (P.map fun ω => φ (f ω)) (φ v) = grade (P.map f) v := by
  have hc : AEMeasurable (fun ω => φ (f ω)) P := hφ.monotone.measurable.comp_aemeasurable hf
  unfold grade
  rw [map_measureReal_apply_of_aemeasurable hc measurableSet_Iio, map_measureReal_apply_of_aemeasurable hc measurableSet_Iic,
    map_measureReal_apply_of_aemeasurable hf measurableSet_Iio, map_measureReal_apply_of_aemeasurable hf measurableSet_Iic]
  have e1 : (fun ω => φ (f ω)) ⁻¹' Set.Iio (φ v) = f ⁻¹' Set.Iio v := by
    ext ω
    exact hφ.lt_iff_lt
  have e2 : (fun ω => φ (f ω)) ⁻¹' Set.Iic (φ v) = f ⁻¹' Set.Iic v := by
    ext ω
    exact hφ.le_iff_le
  rw [e1, e2]

/-- C120. Increasing transformations of the series do not change what is estimated. -/
theorem rankCorr_comp [IsProbabilityMeasure P] {f g : Ω → ℝ} (hf : AEMeasurable f P) (hg : AEMeasurable g P) {φ ψ : ℝ → ℝ} (hφ : StrictMono φ)
    (hψ : StrictMono ψ) : rankCorr P (fun ω => φ (f ω)) (fun ω => ψ (g ω)) = rankCorr P f g := by
  unfold rankCorr
  simp only [grade_comp hf hφ, grade_comp hg hψ]

/-- C120. For independent series it is zero, and for a series and an increasing function of it, one. -/
theorem rankCorr_indep [IsProbabilityMeasure P] {f g : Ω → ℝ} (hf : AEMeasurable f P) (hg : AEMeasurable g P) (h : IndepFun f g P) : rankCorr P f g = 0 := by
  have p1 := Measure.isProbabilityMeasure_map hf
  have p2 := Measure.isProbabilityMeasure_map hg
  unfold rankCorr popCorr
  have hi : IndepFun (fun ω => grade (P.map f) (f ω)) (fun ω => grade (P.map g) (g ω)) P := h.comp grade_mono.measurable grade_mono.measurable
  rw [hi.covariance_eq_zero (grade_memLp hf) (grade_memLp hg), zero_div]

theorem rankCorr_self [IsProbabilityMeasure P] {f : Ω → ℝ} (hf : AEMeasurable f P) (hc : ∀ c, ¬ f =ᵐ[P] fun _ => c) {φ : ℝ → ℝ} (hφ : StrictMono φ) :
    rankCorr P f (fun ω => φ (f ω)) = 1 ∧ rankCorr P (fun ω => φ (f ω)) f = 1 := by
  have h0 : rankCorr P f f = 1 := by
    unfold rankCorr popCorr
    rw [covariance_self (grade_memLp hf).aestronglyMeasurable.aemeasurable, Real.mul_self_sqrt (variance_nonneg _ _), div_self (grade_var hf hc)]
  exact ⟨(rankCorr_comp hf hf (φ := id) strictMono_id hφ).trans h0, (rankCorr_comp hf hf hφ (ψ := id) strictMono_id).trans h0⟩

/-! ### Distances -/

theorem formula_continuous (dm : Dist.Method) : Continuous (Dist.formula dm) := by
  cases dm <;> unfold Dist.formula <;> fun_prop

/-- C120. The distance matrix of a long sample, as a frame or an array, has no missing entries and is close to the distances of the
population: for both kinds of correlation. -/
theorem distance_limit {d : Nat} (hd : 2 ≤ d) {X : Nat → Ω → Fin d → ℝ} {cod : String} (hcod : IsCorr cod) {ρ : Fin d → Fin d → ℝ}
    (h : Estimated P X cod ρ) {toDist : String} {dm : Dist.Method} (hm : Dist.parseMethod toDist = some dm) (minp : Int) :
    ∀ᵐ ω ∂P, ∀ ε > 0, ∀ᶠ s in atTop, ∃ D D' : Nat → Nat → Option ℝ,
      corrDistanceMatrix (pdCorr minp) none (.frame (sampleTable s d fun t => entry (X t ω))) (corrName cod) toDist = .ok (.frame d d D) ∧
      corrDistanceMatrix (pdCorr minp) none (.array (sampleTable s d fun t => entry (X t ω))) (corrName cod) toDist = .ok (.array d d D') ∧
      ∀ i j : Fin d, ∃ v, D i j = some v ∧ D' i j = some v ∧ |v - Dist.formula dm (ρ i j)| < ε := by
  filter_upwards [h] with ω hω ε hε
  have e1 : ∀ᶠ s in atTop, ∀ i j : Fin d,
      |Dist.formula dm (sampleCorr s (seen cod s fun t => X t ω i) (seen cod s fun t => X t ω j)) - Dist.formula dm (ρ i j)| < ε := by
    rw [eventually_all]
    intro i
    rw [eventually_all]
    intro j
    have := ((formula_continuous dm).tendsto _).comp (hω i j).2
    exact (Metric.tendsto_nhds.mp this) ε hε
  have e2 : ∀ᶠ s in atTop, ∀ i : Fin d, 0 < Sim.scov s 1 (seen cod s fun t => X t ω i) (seen cod s fun t => X t ω i) := by
    rw [eventually_all]
    intro i
    exact (hω i i).1
  filter_upwards [e1, e2, eventually_ge_atTop 2, eventually_ge_atTop minp.toNat] with s h1 h2 h3 h4
  have hcol : ∀ j : Fin d, (sampleTable s d fun t => entry (X t ω)).col j = ((List.range s).map fun t => X t ω j).map XF.fin := fun j => by
    simp [sampleTable, Table.col, entry]
  have pe : ∀ i j : Fin d, (pairs ((sampleTable s d fun t => entry (X t ω)).col i) ((sampleTable s d fun t => entry (X t ω)).col j)) =
      ((List.range s).map fun t => X t ω i).zip ((List.range s).map fun t => X t ω j) := fun i j => by
    rw [hcol, hcol, pairs_fin]
  have pf : ∀ i j : Fin d, (((List.range s).map fun t => X t ω i).zip ((List.range s).map fun t => X t ω j)).map (·.1) = (List.range s).map fun t => X t ω i :=
    fun i j => List.map_fst_zip (by simp)
  have ps : ∀ i j : Fin d, (((List.range s).map fun t => X t ω i).zip ((List.range s).map fun t => X t ω j)).map (·.2) = (List.range s).map fun t => X t ω j :=
    fun i j => List.map_snd_zip (by simp)
  have hlen : ∀ i j : Fin d, minp ≤ ((pairs ((sampleTable s d fun t => entry (X t ω)).col i) ((sampleTable s d fun t => entry (X t ω)).col j)).length : Int) := fun i j => by
    rw [pe]
    simp only [List.length_zip, List.length_map, List.length_range, min_self]
    omega
  have hcon : ∀ j : Fin d, ¬ Dist.Constant ((List.range s).map fun t => X t ω j) := fun j hc => by
    rw [← constant_sample (corrName cod), sample_seen hcod] at hc
    have h5 := (coSum_self_eq_zero_iff _).mpr hc
    rw [coSum_scov h3] at h5
    have s1 : (0 : ℝ) < s - 1 := by
      have : (2 : ℝ) ≤ s := by exact_mod_cast h3
      linarith
    exact (mul_pos s1 (h2 j)).ne' h5
  obtain ⟨D, hD, hD'⟩ := corr_matrix_entries (m := sampleTable s d fun t => entry (X t ω)) hd minp (corrName_cases cod) hm
  obtain ⟨a1, a2⟩ := corr_matrix_array (m := sampleTable s d fun t => entry (X t ω)) hd minp (corrName_cases cod) hm
  obtain ⟨r, hr⟩ := a1.mpr fun i j hi hj => by
    have q1 := hlen ⟨i, hi⟩ ⟨j, hj⟩
    have q2 := pe ⟨i, hi⟩ ⟨j, hj⟩
    dsimp only at q1 q2
    rw [q2] at q1 ⊢
    rw [pf ⟨i, hi⟩ ⟨j, hj⟩, ps ⟨i, hi⟩ ⟨j, hj⟩]
    exact ⟨q1, hcon _, hcon _⟩
  obtain ⟨D', rfl, hd0, hd1⟩ := a2 r hr
  refine ⟨D, D', hD, hr, fun i j => ⟨_, ?_, ?_, h1 i j⟩⟩
  · have := (hD' i j).1 (hlen i j)
    rw [pe, pf, ps, pair_sample hcod h3 (h2 i) (h2 j)] at this
    exact (Except.ok.inj this).symm
  · by_cases hij : i = j
    · subst hij
      rw [hd0]
      have : sampleCorr s (seen cod s fun t => X t ω i) (seen cod s fun t => X t ω i) = 1 := by
        unfold sampleCorr
        rw [Real.mul_self_sqrt (h2 i).le, div_self (h2 i).ne']
      rw [this]
      cases dm <;> simp [Dist.formula]
    · have := hd1 i j i.2 j.2 fun e => hij (Fin.ext e)
      rw [pe, pf, ps, pair_sample hcod h3 (h2 i) (h2 j)] at this
      exact (Except.ok.inj this).symm

/-! ### Groups -/

/-- The similarity of the ranks of two series of the population. -/
noncomputable def rankSim (P : Measure Ω) {d : Nat} (X : Nat → Ω → Fin d → ℝ) (dm : Dist.Method) (i j : Fin d) : ℝ :=
  similarity dm (rankCorr P (fun ω => X 0 ω i) fun ω => X 0 ω j)

/-- C120. Series whose rank correlations separate groups: with probability one, `HC` with Spearman's correlation and single,
complete, average or weighted linkage finds the groups in all sufficiently long samples. -/
theorem rank_found (rng : Int → Nat → ℝ) {scipy : Dist.Table → String → Bool → Py (List Row)} (hs : LinkageSpec scipy) {d : Nat} (hd : 2 ≤ d)
    {X : Nat → Ω → Fin d → ℝ} (h : Varying P d X) {toDist link : String} {dm : Dist.Method} (hm : Dist.parseMethod toDist = some dm)
    (hlink : link ∈ ["single", "complete", "average", "weighted"]) {grp : Nat → Nat} {r : ℝ} (hr : r ≤ 1)
    (hin : ∀ i j : Fin d, i ≠ j → grp i = grp j → r < rankSim P X dm i j) (hout : ∀ i j : Fin d, grp i ≠ grp j → rankSim P X dm i j < r) :
    ∀ᵐ ω ∂P, ∀ᶠ s in atTop, FoundAt rng scipy d "spearman-correlation" toDist link grp (fun t => X t ω) s :=
  estimated_found rng hs hd (.inr rfl) (spearman_estimated h) hm hlink hr hin hout

/-- C120. The same for Ward's method, the default, under the condition with the sizes of the groups. -/
theorem rank_found_ward (rng : Int → Nat → ℝ) {scipy : Dist.Table → String → Bool → Py (List Row)} (hs : LinkageSpec scipy) {d : Nat} (hd : 2 ≤ d)
    {X : Nat → Ω → Fin d → ℝ} (h : Varying P d X) {toDist : String} {dm : Dist.Method} (hm : Dist.parseMethod toDist = some dm)
    {grp : Nat → Nat} {r : ℝ} (hr : r ≤ 1) {lo hi : Nat → ℝ} (hlh : ∀ g, lo g ≤ hi g ∧ hi g ≤ 1)
    (hin : ∀ i j : Fin d, i ≠ j → grp i = grp j → lo (grp i) ≤ rankSim P X dm i j ∧ rankSim P X dm i j ≤ hi (grp i))
    (hc : ∀ i < d, r < hi (grp i) - groupSize d grp (grp i) / 2 * (hi (grp i) - lo (grp i)))
    (hout : ∀ i j : Fin d, grp i ≠ grp j → rankSim P X dm i j < r) :
    ∀ᵐ ω ∂P, ∀ᶠ s in atTop, FoundAt rng scipy d "spearman-correlation" toDist "ward" grp (fun t => X t ω) s :=
  estimated_found_ward rng hs hd (.inr rfl) (spearman_estimated h) hm hr hlh hin hc hout

/-! ### A case: a series, its cube and an independent series -/

/-- The series `A`, `A ^ 3` and `B`. -/
noncomputable def cubeRow (x : ℝ × ℝ) : Fin 3 → ℝ := ![x.1, x.1 ^ 3, x.2]

theorem cube_varying : ∃ (Ω : Type) (_ : MeasurableSpace Ω) (P : Measure Ω) (X : Nat → Ω → Fin 3 → ℝ), Varying P 3 X ∧
    rankSim P X .angular 0 1 = 1 ∧ rankSim P X .angular 1 0 = 1 ∧ ∀ i : Fin 3, i ≠ 2 → rankSim P X .angular i 2 = 0 ∧ rankSim P X .angular 2 i = 0 := by
  obtain ⟨Ω, mΩ, P, Z, h0, h1, h2, h3⟩ := exists_iid Nat ((gaussianReal 0 1).prod (gaussianReal 0 1))
  have hx : Stat.IID P Z := ⟨h2, fun t => ⟨(h0 t).aemeasurable, (h0 0).aemeasurable, (h1 t).map_eq.trans (h1 0).map_eq.symm⟩⟩
  have hP := h2.isProbabilityMeasure
  have l1 : HasLaw (fun ω => (Z 0 ω).1) (gaussianReal 0 1) P := (measurePreserving_fst.hasLaw).fun_comp (h1 0)
  have l2 : HasLaw (fun ω => (Z 0 ω).2) (gaussianReal 0 1) P := (measurePreserving_snd.hasLaw).fun_comp (h1 0)
  have cube : StrictMono fun x : ℝ => x ^ 3 := Odd.strictMono_pow (by decide)
  have atom : NullSingletonClass (gaussianReal 0 1) := nullSingletonClass_gaussianReal one_ne_zero
  have nc : ∀ f : Ω → ℝ, HasLaw f (gaussianReal 0 1) P → ∀ c, ¬ f =ᵐ[P] fun _ => c := by
    intro f hf c hc
    have e1 : P.map f {c} = 0 := by rw [hf.map_eq]; exact measure_singleton c
    rw [Measure.map_apply_of_aemeasurable hf.aemeasurable (measurableSet_singleton c)] at e1
    have e2 : P (f ⁻¹' {c}) = 1 := (prob_compl_eq_zero_iff₀ (hf.aemeasurable.nullMeasurable (measurableSet_singleton c))).mp hc
    rw [e1] at e2
    exact zero_ne_one e2
  have ind : IndepFun (fun ω => (Z 0 ω).1) (fun ω => (Z 0 ω).2) P := by
    rw [indepFun_iff_map_prod_eq_prod_map_map l1.aemeasurable l2.aemeasurable, l1.map_eq, l2.map_eq]
    exact (h1 0).map_eq
  have ind3 : IndepFun (fun ω => (Z 0 ω).1 ^ 3) (fun ω => (Z 0 ω).2) P := ind.comp (φ := fun x => x ^ 3) (ψ := id) (by fun_prop) measurable_id
  have m3 : AEMeasurable (fun ω => (Z 0 ω).1 ^ 3) P := cube.monotone.measurable.comp_aemeasurable l1.aemeasurable
  have meas : Measurable cubeRow := by
    refine measurable_pi_lambda _ fun j => ?_
    fin_cases j <;> simp [cubeRow] <;> fun_prop
  have rs := rankCorr_self l1.aemeasurable (nc _ l1) cube
  refine ⟨Ω, mΩ, P, fun t ω => cubeRow (Z t ω), ⟨hx.comp meas, fun j => ?_⟩, rs.1, rs.2, fun i hi => ?_⟩
  · fin_cases j
    · exact nc _ l1
    · intro c hc
      obtain ⟨ω, hb⟩ := hc.exists
      refine nc _ l1 (Z 0 ω).1 ?_
      filter_upwards [hc] with ω' hω
      exact cube.injective (hω.trans hb.symm)
    · exact nc _ l2
  · fin_cases i
    · exact ⟨rankCorr_indep l1.aemeasurable l2.aemeasurable ind, rankCorr_indep l2.aemeasurable l1.aemeasurable ind.symm⟩
    · exact ⟨rankCorr_indep m3 l2.aemeasurable ind3, rankCorr_indep l2.aemeasurable m3 ind3.symm⟩
    · exact absurd rfl hi

/-- Ward's method finds the series and its cube in long samples. -/
example (rng : Int → Nat → ℝ) : ∃ (Ω : Type) (_ : MeasurableSpace Ω) (P : Measure Ω) (X : Nat → Ω → Fin 3 → ℝ) (scipy : _), IsProbabilityMeasure P ∧ LinkageSpec scipy ∧
    ∀ᵐ ω ∂P, ∀ᶠ s in atTop, FoundAt rng scipy 3 "spearman-correlation" "angular" "ward" (fun i => i / 2) (fun t => X t ω) s := by
  obtain ⟨Ω, mΩ, P, X, h, h1, h2, h3⟩ := cube_varying
  obtain ⟨scipy, hs⟩ := linkageSpec_exists
  refine ⟨Ω, mΩ, P, X, scipy, h.iid.indep.isProbabilityMeasure, hs, rank_found_ward rng hs (by norm_num) h (dm := .angular) (by decide) (r := 1 / 2) (by norm_num)
    (lo := fun _ => 1) (hi := fun _ => 1) (fun _ => by norm_num) ?_ (fun i _ => by norm_num) ?_⟩
  · intro i j hij e
    fin_cases i <;> fin_cases j <;> simp at hij e ⊢
    · exact ⟨h1.ge, h1.le⟩
    · exact ⟨h2.ge, h2.le⟩
  · intro i j e
    have a := h3 0 (by decide)
    have b := h3 1 (by decide)
    fin_cases i <;> fin_cases j <;> simp at e <;> simp only [Fin.zero_eta, Fin.mk_one, Fin.reduceFinMk]
    · rw [a.1]; norm_num
    · rw [b.1]; norm_num
    · rw [a.2]; norm_num
    · rw [b.2]; norm_num

end Verif.Clust
