import Verif.Spec.SimLaw
import Mathlib.Probability.Distributions.Gaussian.IsGaussianProcess.Basic
import Mathlib.Probability.Distributions.Gaussian.HasGaussianLaw.Independence
import Mathlib.Probability.Distributions.Gaussian.CharFun

/-!
# Gaussian processes driven by the draws
-/

namespace Verif.Sim

open MeasureTheory ProbabilityTheory

variable {Ω : Type*} [MeasurableSpace Ω] {P : Measure Ω} {ι κ T : Type*} {ζ : ι → Ω → ℝ}

/-- Such a stream exists. -/
theorem draws_exist : ∃ (Ω : Type) (_ : MeasurableSpace Ω) (P : Measure Ω) (z : Ω → Nat → ℝ), Draws P z ∧ Measurable z := by
  obtain ⟨Ω, m, P, X, h0, h1, h2, -⟩ := exists_iid Nat (gaussianReal 0 1)
  exact ⟨Ω, m, P, fun ω k => X k ω, ⟨h1, h2⟩, measurable_pi_lambda _ h0⟩

namespace StdNormal

theorem prob [Nonempty ι] (h : StdNormal P ζ) : IsProbabilityMeasure P :=
  (h.law Classical.ofNonempty).isProbabilityMeasure

theorem comp (h : StdNormal P ζ) {e : κ → ι} (he : Function.Injective e) : StdNormal P fun k => ζ (e k) :=
  ⟨fun k => h.law (e k), h.indep.precomp he⟩

theorem memLp (h : StdNormal P ζ) (i : ι) : MemLp (ζ i) 2 P := (h.law i).hasGaussianLaw.memLp_two

theorem mean (h : StdNormal P ζ) (i : ι) : ∫ ω, ζ i ω ∂P = 0 := by
  rw [(h.law i).integral_eq, integral_id_gaussianReal]

theorem cov [DecidableEq ι] (h : StdNormal P ζ) (i j : ι) : cov[ζ i, ζ j; P] = if i = j then 1 else 0 := by
  split_ifs with hij
  · subst hij
    rw [covariance_self (h.law i).aemeasurable, (h.law i).variance_eq, variance_id_gaussianReal]
    rfl
  · exact (h.indep.indepFun hij).covariance_eq_zero (h.memLp i) (h.memLp j)

theorem gaussian (h : StdNormal P ζ) : IsGaussianProcess ζ P := ⟨fun I => by
  have := (h.comp (e := fun i : I => (i : ι)) Subtype.val_injective)
  exact iIndepFun.hasGaussianLaw (fun i => (this.law i).hasGaussianLaw) this.indep⟩

/-- The moments of an affine combination. -/
theorem mean_affine [Nonempty ι] (h : StdNormal P ζ) (S : Finset ι) (m : ℝ) (c : ι → ℝ) :
    ∫ ω, (m + ∑ i ∈ S, c i * ζ i ω) ∂P = m := by
  have := h.prob
  have hi : ∀ i, Integrable (fun ω => c i * ζ i ω) P := fun i => ((h.memLp i).integrable (by norm_num)).const_mul _
  rw [integral_add (integrable_const _) (integrable_finsetSum _ fun i _ => hi i), integral_const,
    integral_finsetSum _ fun i _ => hi i]
  simp [integral_const_mul, h.mean]

theorem memLp_lin (h : StdNormal P ζ) (S : Finset ι) (c : ι → ℝ) : MemLp (fun ω => ∑ i ∈ S, c i * ζ i ω) 2 P :=
  memLp_finsetSum _ fun i _ => (h.memLp i).const_mul _

theorem cov_affine [Nonempty ι] (h : StdNormal P ζ) (S : Finset ι) (m m' : ℝ) (c d : ι → ℝ) :
    cov[fun ω => m + ∑ i ∈ S, c i * ζ i ω, fun ω => m' + ∑ i ∈ S, d i * ζ i ω; P] = ∑ i ∈ S, c i * d i := by
  classical
  have := h.prob
  rw [covariance_const_add_left ((h.memLp_lin S c).integrable (by norm_num)),
    covariance_const_add_right ((h.memLp_lin S d).integrable (by norm_num)),
    covariance_fun_sum_fun_sum' (fun i _ => (h.memLp i).const_mul _) fun i _ => (h.memLp i).const_mul _]
  refine Finset.sum_congr rfl fun i hi => ?_
  simp only [covariance_const_mul_left, covariance_const_mul_right, h.cov]
  simp [hi, mul_comm]

end StdNormal

/-- Adding constants to a Gaussian process. -/
theorem gaussian_const_add {X : T → Ω → ℝ} (h : IsGaussianProcess X P) (m : T → ℝ) :
    IsGaussianProcess (fun t ω => m t + X t ω) P := ⟨fun I => by
  have := (h.hasGaussianLaw I).isGaussian_map
  have hm : AEMeasurable (fun ω => I.restrict (X · ω)) P := (h.hasGaussianLaw I).aemeasurable
  constructor
  have e : (fun ω => I.restrict fun t => m t + X t ω) = (fun y => I.restrict m + y) ∘ fun ω => I.restrict (X · ω) := rfl
  rw [e, ← AEMeasurable.map_map_of_aemeasurable (by fun_prop) hm]
  infer_instance⟩

/-- Affine combinations of the draws form a Gaussian process. -/
theorem gaussian_affine (h : StdNormal P ζ) (S : T → Finset ι) (m : T → ℝ) (c : T → ι → ℝ) :
    IsGaussianProcess (fun t ω => m t + ∑ i ∈ S t, c t i * ζ i ω) P := by
  refine gaussian_const_add (h.gaussian.of_isGaussianProcess fun t => ⟨S t,
    ∑ i : S t, c t i • ContinuousLinearMap.proj (R := ℝ) (φ := fun _ : S t => ℝ) i, fun ω => ?_⟩) m
  rw [← Finset.sum_coe_sort]
  simp

/-- A Gaussian process is determined by its means and covariances. -/
theorem sameLaw_of_moments {Ω' : Type*} [MeasurableSpace Ω'] {Q : Measure Ω'} {X : T → Ω → ℝ} {Y : T → Ω' → ℝ}
    (hX : IsGaussianProcess X P) (hY : IsGaussianProcess Y Q) (hm : ∀ t, ∫ ω, X t ω ∂P = ∫ ω, Y t ω ∂Q)
    (hc : ∀ s t, cov[X s, X t; P] = cov[Y s, Y t; Q]) : SameLaw X P Y Q := by
  intro I
  have h1 := (hX.hasGaussianLaw I).isGaussian_map
  have h2 := (hY.hasGaussianLaw I).isGaussian_map
  have p1 : IsProbabilityMeasure P := (hX.hasGaussianLaw I).isProbabilityMeasure
  have p2 : IsProbabilityMeasure Q := (hY.hasGaussianLaw I).isProbabilityMeasure
  apply Measure.ext_of_charFunDual
  ext L
  rw [(hX.hasGaussianLaw I).charFunDual_map_eq_fun, (hY.hasGaussianLaw I).charFunDual_map_eq_fun]
  classical
  obtain ⟨w, hL⟩ : ∃ w : I → ℝ, ∀ y : I → ℝ, L y = ∑ i, w i * y i := ⟨fun i => L (Pi.single i 1), fun y => by
    conv_lhs => rw [show y = ∑ i, y i • (Pi.single i (1 : ℝ) : I → ℝ) by
      ext j; simp [Finset.sum_apply, Pi.single_apply]]
    rw [map_sum]
    exact Finset.sum_congr rfl fun i _ => by rw [map_smul, smul_eq_mul, mul_comm]⟩
  have mX : ∀ t, MemLp (X t) 2 P := fun t => (hX.hasGaussianLaw_eval t).memLp_two
  have mY : ∀ t, MemLp (Y t) 2 Q := fun t => (hY.hasGaussianLaw_eval t).memLp_two
  have iX : ∀ i : I, Integrable (fun ω => w i * X i ω) P := fun i => ((mX i).integrable (by norm_num)).const_mul _
  have iY : ∀ i : I, Integrable (fun ω => w i * Y i ω) Q := fun i => ((mY i).integrable (by norm_num)).const_mul _
  have lX : ∀ i : I, MemLp (fun ω => w i * X i ω) 2 P := fun i => (mX i).const_mul _
  have lY : ∀ i : I, MemLp (fun ω => w i * Y i ω) 2 Q := fun i => (mY i).const_mul _
  have eX : (fun ω => L (I.restrict (X · ω))) = fun ω => ∑ i : I, w i * X i ω := funext fun ω => hL _
  have eY : (fun ω => L (I.restrict (Y · ω))) = fun ω => ∑ i : I, w i * Y i ω := funext fun ω => hL _
  have hmean : ∫ ω, L (I.restrict (X · ω)) ∂P = ∫ ω, L (I.restrict (Y · ω)) ∂Q := by
    rw [eX, eY, integral_finsetSum _ fun i _ => iX i, integral_finsetSum _ fun i _ => iY i]
    refine Finset.sum_congr rfl fun i _ => ?_
    rw [integral_const_mul, integral_const_mul, hm i]
  have hvar : Var[fun ω => L (I.restrict (X · ω)); P] = Var[fun ω => L (I.restrict (Y · ω)); Q] := by
    rw [eX, eY, variance_fun_sum lX, variance_fun_sum lY]
    refine Finset.sum_congr rfl fun i _ => Finset.sum_congr rfl fun j _ => ?_
    simp only [covariance_const_mul_left, covariance_const_mul_right]
    rw [hc i j]
  rw [hmean, hvar]

/-! ### Processes driven by the correlated shocks -/

/-- The matrix applied to the draws. -/
def factor (L : Option Arr) (i m : Nat) : ℝ := match L with
  | none => if i = m then 1 else 0
  | some L => L.get i m

theorem shock_eq (L : Option Arr) {v : Nat} (z : Nat → ℝ) (r : Nat) (j : Fin v) :
    shock L v z r j = ∑ m : Fin v, factor L j m * z (r * v + m) := by
  cases L with
  | none =>
    simp only [shock, factor, ite_mul, one_mul, zero_mul, Fin.val_inj]
    rw [Finset.sum_ite_eq Finset.univ j]
    simp
  | some L =>
    simp only [shock, factor]
    rw [Finset.sum_range]

theorem corOf_eq (L : Option Arr) {v : Nat} (i j : Fin v) : corOf L v i j = ∑ m : Fin v, factor L i m * factor L j m := by
  cases L with
  | none =>
    simp only [corOf, factor, ite_mul, one_mul, zero_mul, Fin.val_inj]
    rw [Finset.sum_ite_eq Finset.univ i]
    simp [eq_comm]
  | some L =>
    simp only [corOf, factor]
    rw [Finset.sum_range]

/-- The draw of step `u`, path `q` and position `m`. -/
def drawOf (n v : Nat) (i : Nat × Fin n × Fin v) : Nat := (i.1 * n + i.2.1) * v + i.2.2

theorem drawOf_injective (n v : Nat) : Function.Injective (drawOf n v) := by
  rintro ⟨u, q, m⟩ ⟨u', q', m'⟩ h
  unfold drawOf at h
  have hv : 0 < v := by have := m.2; omega
  have hn : 0 < n := by have := q.2; omega
  have h1 : (m : Nat) = m' := by
    have := congrArg (· % v) h
    simpa [Nat.mul_add_mod_of_lt m.2, Nat.mul_add_mod_of_lt m'.2, Nat.mod_eq_of_lt] using this
  have h2 : u * n + q = u' * n + q' := by
    have : (u * n + q) * v = (u' * n + q') * v := by simp only at h; omega
    exact Nat.eq_of_mul_eq_mul_right hv this
  have h3 : (q : Nat) = q' := by
    have := congrArg (· % n) h2
    simpa [Nat.mul_add_mod_of_lt q.2, Nat.mul_add_mod_of_lt q'.2, Nat.mod_eq_of_lt] using this
  have h4 : u = u' := by
    have : u * n = u' * n := by omega
    exact Nat.eq_of_mul_eq_mul_right hn this
  rw [h4, Fin.ext h3, Fin.ext h1]

/-- Coefficient of a draw in `∑ u < N, w u * shock u`. -/
def coef (L : Option Arr) {n v : Nat} (q : Fin n) (j : Fin v) (N : Nat) (w : Nat → ℝ) (i : Nat × Fin n × Fin v) : ℝ :=
  if i.1 < N then (if i.2.1 = q then w i.1 * factor L j i.2.2 else 0) else 0

theorem driven_eq (L : Option Arr) {n v : Nat} (q : Fin n) (j : Fin v) {N M : Nat} (hNM : N ≤ M) (w z : Nat → ℝ) :
    ∑ u ∈ Finset.range N, w u * shock L v z (u * n + q) j =
      ∑ i ∈ Finset.range M ×ˢ (Finset.univ : Finset (Fin n × Fin v)), coef L q j N w i * z (drawOf n v i) := by
  rw [Finset.sum_product, ← Finset.sum_subset (Finset.range_subset_range.mpr hNM)]
  · refine Finset.sum_congr rfl fun u hu => ?_
    rw [shock_eq, Fintype.sum_prod_type, Finset.mul_sum, Finset.sum_eq_single q]
    · refine Finset.sum_congr rfl fun m _ => ?_
      simp only [coef, drawOf, Finset.mem_range.mp hu, if_true]
      ring
    · intro q' _ hq
      refine Finset.sum_eq_zero fun m _ => ?_
      simp [coef, hq]
    · simp
  · intro u _ hu
    refine Finset.sum_eq_zero fun y _ => ?_
    simp only [Finset.mem_range] at hu
    simp [coef, hu]

theorem coef_sum (L : Option Arr) {n v : Nat} (q q' : Fin n) (j j' : Fin v) (N N' : Nat) {M : Nat} (hN : min N N' ≤ M)
    (w w' : Nat → ℝ) :
    ∑ i ∈ Finset.range M ×ˢ (Finset.univ : Finset (Fin n × Fin v)), coef L q j N w i * coef L q' j' N' w' i =
      if q = q' then corOf L v j j' * ∑ u ∈ Finset.range (min N N'), w u * w' u else 0 := by
  rw [Finset.sum_product]
  split_ifs with hq
  · subst hq
    rw [← Finset.sum_subset (Finset.range_subset_range.mpr hN), Finset.mul_sum]
    · refine Finset.sum_congr rfl fun u hu => ?_
      have hu := Finset.mem_range.mp hu
      rw [Fintype.sum_prod_type, Finset.sum_eq_single q, corOf_eq, Finset.sum_mul]
      · refine Finset.sum_congr rfl fun m _ => ?_
        simp only [coef, (lt_min_iff.mp hu).1, (lt_min_iff.mp hu).2, if_true]
        ring
      · intro q' _ hq
        refine Finset.sum_eq_zero fun m _ => ?_
        simp [coef, hq]
      · simp
    · intro u _ hu
      refine Finset.sum_eq_zero fun y _ => ?_
      simp only [Finset.mem_range, lt_min_iff, not_and_or] at hu
      rcases hu with hu | hu <;> simp [coef, hu]
  · refine Finset.sum_eq_zero fun u _ => Finset.sum_eq_zero fun y _ => ?_
    unfold coef
    by_cases h1 : y.1 = q
    · have : y.1 ≠ q' := fun h2 => hq (h1.symm.trans h2)
      simp [this]
    · simp [h1]

/-- A process whose values are sums of correlated shocks is Gaussian; its means and covariances. -/
theorem driven {z : Ω → Nat → ℝ} (hz : Draws P z) (L : Option Arr) {n v : Nat} (q : T → Fin n) (j : T → Fin v)
    (N : T → Nat) (m : T → ℝ) (w : T → Nat → ℝ) {Y : T → Ω → ℝ}
    (hY : ∀ τ ω, Y τ ω = m τ + ∑ u ∈ Finset.range (N τ), w τ u * shock L v (z ω) (u * n + q τ) (j τ)) :
    IsGaussianProcess Y P ∧ (∀ τ, ∫ ω, Y τ ω ∂P = m τ) ∧ ∀ τ τ', cov[Y τ, Y τ'; P] =
      if q τ = q τ' then corOf L v (j τ) (j τ') * ∑ u ∈ Finset.range (min (N τ) (N τ')), w τ u * w τ' u else 0 := by
  have hζ : StdNormal P fun (i : Nat × Fin n × Fin v) ω => z ω (drawOf n v i) := StdNormal.comp hz (drawOf_injective n v)
  have e : ∀ τ M, N τ ≤ M → Y τ = fun ω => m τ + ∑ i ∈ Finset.range M ×ˢ (Finset.univ : Finset (Fin n × Fin v)),
      coef L (q τ) (j τ) (N τ) (w τ) i * z ω (drawOf n v i) := fun τ M h => funext fun ω => by
    rw [hY, driven_eq L (q τ) (j τ) h]
  refine ⟨?_, fun τ => ?_, fun τ τ' => ?_⟩
  · have := gaussian_affine hζ (fun τ => Finset.range (N τ) ×ˢ (Finset.univ : Finset (Fin n × Fin v))) m
      fun τ => coef L (q τ) (j τ) (N τ) (w τ)
    convert this with τ
    exact congrFun (e τ _ le_rfl) _
  · have : Nonempty (Nat × Fin n × Fin v) := ⟨(0, q τ, j τ)⟩
    rw [e τ _ le_rfl]
    exact hζ.mean_affine _ _ _
  · have : Nonempty (Nat × Fin n × Fin v) := ⟨(0, q τ, j τ)⟩
    rw [e τ (max (N τ) (N τ')) (le_max_left _ _), e τ' (max (N τ) (N τ')) (le_max_right _ _), hζ.cov_affine]
    exact coef_sum L _ _ _ _ _ _ (min_le_max) _ _

theorem SameLaw.map {Ω' : Type*} [MeasurableSpace Ω'] {Q : Measure Ω'} {X : T → Ω → ℝ} {Y : T → Ω' → ℝ} (h : SameLaw X P Y Q)
    {g : ℝ → ℝ} (hg : Measurable g) (hX : ∀ t, AEMeasurable (X t) P) (hY : ∀ t, AEMeasurable (Y t) Q) :
    SameLaw (fun t ω => g (X t ω)) P (fun t ω => g (Y t ω)) Q := fun I => by
  have hm : Measurable fun (f : I → ℝ) i => g (f i) :=
    measurable_pi_lambda _ fun i => hg.comp (measurable_pi_apply i)
  have h1 := congrArg (Measure.map fun (f : I → ℝ) i => g (f i)) (h I)
  have a1 : AEMeasurable (fun ω => I.restrict (X · ω)) P := aemeasurable_pi_lambda _ fun i => hX i
  have a2 : AEMeasurable (fun ω => I.restrict (Y · ω)) Q := aemeasurable_pi_lambda _ fun i => hY i
  rw [AEMeasurable.map_map_of_aemeasurable hm.aemeasurable a1, AEMeasurable.map_map_of_aemeasurable hm.aemeasurable a2] at h1
  exact h1

theorem SameLaw.cov {Ω' : Type*} [MeasurableSpace Ω'] {Q : Measure Ω'} {X : T → Ω → ℝ} {Y : T → Ω' → ℝ} (h : SameLaw X P Y Q)
    (hX : ∀ t, AEMeasurable (X t) P) (hY : ∀ t, AEMeasurable (Y t) Q) (t t' : T) : cov[X t, X t'; P] = cov[Y t, Y t'; Q] := by
  classical
  let I : Finset T := {t, t'}
  have a1 : AEMeasurable (fun ω => I.restrict (X · ω)) P := aemeasurable_pi_lambda _ fun i => hX i
  have a2 : AEMeasurable (fun ω => I.restrict (Y · ω)) Q := aemeasurable_pi_lambda _ fun i => hY i
  let u : I → ℝ := fun _ => 0
  have m1 : ∀ {M : Measure (I → ℝ)} (i : I), AEStronglyMeasurable (fun f : I → ℝ => f i) M := fun i =>
    (measurable_pi_apply i).aestronglyMeasurable
  have e1 := covariance_map (m1 (M := P.map fun ω => I.restrict (X · ω)) ⟨t, by simp [I]⟩) (m1 ⟨t', by simp [I]⟩) a1
  have e2 := covariance_map (m1 (M := Q.map fun ω => I.restrict (Y · ω)) ⟨t, by simp [I]⟩) (m1 ⟨t', by simp [I]⟩) a2
  rw [h I] at e1
  exact e1.symm.trans e2

end Verif.Sim
