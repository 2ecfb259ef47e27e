import Verif.Spec.Sim
import Mathlib.Analysis.SpecialFunctions.Exp
import Mathlib.Probability.HasLawExists
import Mathlib.Probability.Moments.Covariance
import Mathlib.Probability.Distributions.Gaussian.Real
import Mathlib.Probability.Distributions.Gaussian.IsGaussianProcess.Def

/-!
# Random draws

`np.random.standard_normal` and `Generator.standard_normal` deliver a stream. Here the stream is random: `z ω` is the stream
of outcome `ω`, its members are independent and standard normal.
-/

namespace Verif.Sim

open MeasureTheory ProbabilityTheory

/-- A family of independent standard normal variables. -/
structure StdNormal {Ω ι : Type*} [MeasurableSpace Ω] (P : Measure Ω) (ζ : ι → Ω → ℝ) : Prop where
  law : ∀ i, HasLaw (ζ i) (gaussianReal 0 1) P
  indep : iIndepFun ζ P

/-- The stream `z` of draws is standard normal. -/
def Draws {Ω : Type*} [MeasurableSpace Ω] (P : Measure Ω) (z : Ω → Nat → ℝ) : Prop := StdNormal P fun k ω => z ω k

/-- The correlation of the shocks of variates `i` and `j`: `(L Lᵀ) i j`, the identity without factor. -/
def corOf (L : Option Arr) (v i j : Nat) : ℝ := match L with
  | none => if i = j then 1 else 0
  | some L => ∑ m ∈ Finset.range v, L.get i m * L.get j m

/-- Two processes (possibly on different spaces) have the same finite-dimensional distributions. -/
def SameLaw {Ω Ω' T : Type*} [MeasurableSpace Ω] [MeasurableSpace Ω'] (X : T → Ω → ℝ) (P : Measure Ω) (Y : T → Ω' → ℝ)
    (Q : Measure Ω') : Prop :=
  ∀ I : Finset T, P.map (fun ω => I.restrict (X · ω)) = Q.map (fun ω => I.restrict (Y · ω))

/-- The values of a sample: path, variate, row. -/
abbrev Idx (n v s : Nat) := Fin n × Fin v × Fin (s + 1)

/-- The value of a sample at an index. -/
def value {Ω : Type*} {n s : Nat} (v : Nat) (a : Ω → Arr) (τ : Idx n v s) (ω : Ω) : ℝ := path (a ω) v τ.1 τ.2.1 τ.2.2

/-- The start value of a variate of a path. -/
def start (x0 : List ℝ) (v : Nat) (q j : Nat) : ℝ := x0.getD ((q * v + j) % x0.length) 0

/-- A Gaussian family with the means and covariances of `n` independent copies of `v` correlated Brownian motions with drift,
observed at the times `0, 1, …, s` (times the step, which is part of `m` and `C`). -/
structure BrownianGrid {Ω : Type*} [MeasurableSpace Ω] {n v s : Nat} (P : Measure Ω) (X : Idx n v s → Ω → ℝ)
    (x m : Fin n → Fin v → ℝ) (C : Fin v → Fin v → ℝ) : Prop where
  gaussian : IsGaussianProcess X P
  mean : ∀ τ, ∫ ω, X τ ω ∂P = x τ.1 τ.2.1 + m τ.1 τ.2.1 * τ.2.2
  cov : ∀ τ τ', cov[X τ, X τ'; P] = if τ.1 = τ'.1 then C τ.2.1 τ'.2.1 * (min τ.2.2 τ'.2.2 : Fin (s + 1)) else 0

/-- What is known from the rows up to `t` of all paths and variates. -/
@[reducible] def history {Ω : Type*} {n v s : Nat} (X : Idx n v s → Ω → ℝ) (t : Fin (s + 1)) : MeasurableSpace Ω :=
  MeasurableSpace.comap (fun ω (τ : {τ : Idx n v s // τ.2.2 ≤ t}) => X τ ω) inferInstance

/-- `np.linalg.cholesky` delivers a lower triangular factor with positive diagonal; it reads the lower triangle of its
argument only. -/
def CholFactor (chol : Arr → Option Arr) : Prop :=
  ∀ A L : Arr, A.rows = A.cols → chol A = some L →
    L.rows = A.rows ∧ L.cols = A.rows ∧ (∀ i j, i < j → j < A.rows → L.get i j = 0) ∧ (∀ i < A.rows, 0 < L.get i i) ∧
    ∀ i j, j ≤ i → i < A.rows → ∑ m ∈ Finset.range A.rows, L.get i m * L.get j m = A.get i j

/-- The correlation the user asks for: an entry of the lower triangle of `cor`, the identity without `cor`. -/
def corEntry (cor : Option Arr) (i j : Nat) : ℝ := match cor with
  | none => if i = j then 1 else 0
  | some c => c.get (max i j) (min i j)

/-- The covariance of two Ornstein-Uhlenbeck processes `dX = θ (μ - X) dt + σ dW` from fixed starts, at the times `T` and `T'`, when
the Brownian motions have correlation `ρ`: `ρ σ σ' ∫₀^min(T,T') exp(-θ (T - u)) exp(-θ' (T' - u)) du`. -/
noncomputable def ouCov (ρ σ σ' θ θ' T T' : ℝ) : ℝ :=
  ρ * σ * σ' * ((Real.exp (-(θ * (T - min T T') + θ' * (T' - min T T'))) - Real.exp (-(θ * T + θ' * T'))) / (θ + θ'))

/-- A Gaussian family with the means and covariances of `n` independent copies of `v` correlated Ornstein-Uhlenbeck processes
observed at the times `0, dt, …, s dt`. -/
structure OUGrid {Ω : Type*} [MeasurableSpace Ω] {n v s : Nat} (P : Measure Ω) (X : Idx n v s → Ω → ℝ) (dt : ℝ)
    (x : Fin n → Fin v → ℝ) (μ θ σ : Fin v → ℝ) (ρ : Fin v → Fin v → ℝ) : Prop where
  gaussian : IsGaussianProcess X P
  mean : ∀ τ, ∫ ω, X τ ω ∂P = μ τ.2.1 + (x τ.1 τ.2.1 - μ τ.2.1) * Real.exp (-(θ τ.2.1) * (τ.2.2 * dt))
  cov : ∀ τ τ', cov[X τ, X τ'; P] = if τ.1 = τ'.1 then
    ouCov (ρ τ.2.1 τ'.2.1) (σ τ.2.1) (σ τ'.2.1) (θ τ.2.1) (θ τ'.2.1) (τ.2.2 * dt) (τ'.2.2 * dt) else 0

end Verif.Sim
