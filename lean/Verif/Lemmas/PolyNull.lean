import Mathlib.Algebra.MvPolynomial.Equiv
import Mathlib.Algebra.MvPolynomial.Funext
import Mathlib.Algebra.Polynomial.Roots
import Mathlib.MeasureTheory.Constructions.Pi
import Mathlib.MeasureTheory.Measure.Typeclasses.NullSingletonClass
import Mathlib.Probability.Independence.Basic
import Mathlib.Probability.HasLaw
import Mathlib.Topology.Algebra.MvPolynomial
import Mathlib.MeasureTheory.Constructions.BorelSpace.Real

/-!
# Zeros of polynomials in independent random variables
-/

namespace Verif.Stat

open MeasureTheory ProbabilityTheory

theorem pi_ae_ne_zero : ∀ {n : Nat} (μ : Fin n → Measure ℝ) [∀ i, IsProbabilityMeasure (μ i)] [∀ i, NullSingletonClass (μ i)]
    {p : MvPolynomial (Fin n) ℝ}, p ≠ 0 → ∀ᵐ x ∂Measure.pi μ, MvPolynomial.eval x p ≠ 0
  | 0, μ, _, _, p, hp => by
    refine ae_of_all _ fun x h => hp ?_
    rw [MvPolynomial.eq_C_of_isEmpty p] at h ⊢
    rw [MvPolynomial.eval_C] at h
    rw [h, map_zero]
  | n + 1, μ, _, _, p, hp => by
    set q := MvPolynomial.finSuccEquiv ℝ n p with hq
    have hq0 : q ≠ 0 := fun h => hp (by rwa [hq, EmbeddingLike.map_eq_zero_iff] at h)
    have ih := pi_ae_ne_zero (fun j => μ (Fin.succAbove 0 j)) (p := q.leadingCoeff) (Polynomial.leadingCoeff_ne_zero.mpr hq0)
    have mp := measurePreserving_piFinSuccAbove μ 0
    have hm : MeasurableSet {x : Fin (n + 1) → ℝ | MvPolynomial.eval x p = 0} :=
      measurableSet_eq_fun (MvPolynomial.continuous_eval p).measurable measurable_const
    have hm2 : MeasurableSet ((MeasurableEquiv.piFinSuccAbove (fun _ : Fin (n + 1) => ℝ) 0).symm ⁻¹'
      {x : Fin (n + 1) → ℝ | MvPolynomial.eval x p = 0}) := (MeasurableEquiv.measurable _) hm
    have key : ((μ 0).prod (Measure.pi fun j => μ (Fin.succAbove 0 j))) ((MeasurableEquiv.piFinSuccAbove (fun _ : Fin (n + 1) => ℝ) 0).symm ⁻¹'
      {x : Fin (n + 1) → ℝ | MvPolynomial.eval x p = 0}) = 0 := by
      rw [Measure.prod_apply_symm hm2, lintegral_eq_zero_iff (measurable_measure_prodMk_right hm2)]
      filter_upwards [ih] with y hy
      have hne : q.map (MvPolynomial.eval y) ≠ 0 := fun h => hy (by
        have := congrArg (fun r => Polynomial.coeff r q.natDegree) h
        rwa [Polynomial.coeff_map, Polynomial.coeff_zero] at this)
      refine measure_mono_null (t := {x | (q.map (MvPolynomial.eval y)).IsRoot x}) (fun x hx => ?_)
        (Set.Finite.measure_zero (Polynomial.finite_setOfPred_isRoot hne) _)
      have h1 : MvPolynomial.eval (Fin.cons x y : Fin (n + 1) → ℝ) p = 0 := by
        have h2 : (MeasurableEquiv.piFinSuccAbove (fun _ : Fin (n + 1) => ℝ) 0).symm (x, y) = Fin.cons x y := by
          funext i
          refine Fin.cases ?_ (fun j => ?_) i <;> rfl
        rw [← h2]
        exact hx
      rw [MvPolynomial.eval_eq_eval_mv_eval'] at h1
      exact h1
    rw [ae_iff]
    have e : {x : Fin (n + 1) → ℝ | ¬ MvPolynomial.eval x p ≠ 0} = (MeasurableEquiv.piFinSuccAbove (fun _ : Fin (n + 1) => ℝ) 0) ⁻¹'
      ((MeasurableEquiv.piFinSuccAbove (fun _ : Fin (n + 1) => ℝ) 0).symm ⁻¹' {x : Fin (n + 1) → ℝ | MvPolynomial.eval x p = 0}) := by
      rw [← Set.preimage_comp, MeasurableEquiv.symm_comp_self, Set.preimage_id]
      ext x
      simp
    rw [e, mp.measure_preimage hm2.nullMeasurableSet]
    exact key

/-- A polynomial that does not vanish identically is almost surely not zero at independent variables without atoms. -/
theorem indep_ae_ne_zero {Ω ι : Type*} [MeasurableSpace Ω] {P : Measure Ω} [Fintype ι] {ξ : ι → Ω → ℝ} {μ : ι → Measure ℝ}
    [∀ i, IsProbabilityMeasure (μ i)] [∀ i, NullSingletonClass (μ i)] (hl : ∀ i, HasLaw (ξ i) (μ i) P) (hi : iIndepFun ξ P)
    {p : MvPolynomial ι ℝ} (hp : p ≠ 0) : ∀ᵐ ω ∂P, MvPolynomial.eval (fun i => ξ i ω) p ≠ 0 := by
  have := hi.isProbabilityMeasure
  let e := Fintype.equivFin ι
  have h1 : P.map (fun ω (j : Fin (Fintype.card ι)) => ξ (e.symm j) ω) = Measure.pi fun j => μ (e.symm j) := by
    rw [(iIndepFun_iff_map_fun_eq_pi_map fun j => (hl (e.symm j)).aemeasurable).mp (hi.precomp e.symm.injective)]
    congr 1
    funext j
    exact (hl _).map_eq
  have hr : MvPolynomial.rename e p ≠ 0 := fun h => hp (MvPolynomial.rename_injective e e.injective (by rw [h, map_zero]))
  have h2 := pi_ae_ne_zero (fun j => μ (e.symm j)) hr
  rw [← h1] at h2
  filter_upwards [ae_of_ae_map (aemeasurable_pi_lambda _ fun j => (hl (e.symm j)).aemeasurable) h2] with ω hω
  rw [MvPolynomial.eval_rename] at hω
  convert hω using 3
  funext i
  simp

/-- The same with a witness instead of a polynomial identity. -/
theorem indep_ae_ne {Ω ι : Type*} [MeasurableSpace Ω] {P : Measure Ω} [Fintype ι] {ξ : ι → Ω → ℝ} {μ : ι → Measure ℝ}
    [∀ i, IsProbabilityMeasure (μ i)] [∀ i, NullSingletonClass (μ i)] (hl : ∀ i, HasLaw (ξ i) (μ i) P) (hi : iIndepFun ξ P)
    (p : MvPolynomial ι ℝ) {y : ι → ℝ} (hy : MvPolynomial.eval y p ≠ 0) : ∀ᵐ ω ∂P, MvPolynomial.eval (fun i => ξ i ω) p ≠ 0 :=
  indep_ae_ne_zero hl hi fun h => hy (by rw [h, map_zero])

end Verif.Stat
