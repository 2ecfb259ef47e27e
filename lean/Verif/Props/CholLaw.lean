import Verif.Props.CholRound
import Verif.Props.SimLawGBM
import Verif.Props.SimLawOU

/-!
# C131: the laws of the other two models with the computed Cholesky factor
-/

namespace Verif.Sim

open Verif Round MeasureTheory ProbabilityTheory

variable {fl : ℝ → ℝ} {ord : Nat → Nat → List (ℝ × ℝ) → DotTree} {recip : Nat → Nat → Bool}
  {Ω : Type*} [MeasurableSpace Ω] {P : Measure Ω} {z : Ω → Nat → ℝ} {p : BMParams} {po : OUParams} {x0 : List ℝ} {dt : ℝ} {s N : Nat}
  {w : Ω → Arr}

/-- The correlations of the shocks are the ones asked for up to rounding. -/
theorem corOf_computed (R : Rounding fl) (ho : IsCholOrder ord) {c : Arr} {L : Option Arr} {v : Nat}
    (hL : initL (cholR fl ord recip) (some c) = .ok L) (hn : ((c.rows : ℝ) + 2) * u64 ≤ 1 / 64)
    (hsh : ∀ l ∈ L, l.rows = v ∧ l.cols = v) (i j : Fin v) :
    |corOf L v i j - c.get (max (i : Nat) j) (min (i : Nat) j)| ≤
      9 / 4 * ((v + 2) * u64) * (Real.sqrt (c.get i i) * Real.sqrt (c.get j j)) := by
  unfold initL at hL
  dsimp only at hL
  split_ifs at hL with hsq
  cases hch : cholR fl ord recip c with
  | none => rw [hch] at hL; cases hL
  | some l =>
    rw [hch] at hL
    cases hL
    obtain ⟨h1, -, -, -, h5⟩ := chol_product R ho hn hch
    have hvl : c.rows = v := h1.symm.trans (hsh l rfl).1
    rw [hvl] at h5
    exact h5 i i.2 j j.2

/-- C131. The logarithms of the paths of a geometric Brownian motion have covariances within rounding of the ones asked for. -/
theorem gbm_law_computed (R : Rounding fl) (ho : IsCholOrder ord) {drift vol : SimData} {c : Arr}
    (hp : bmInit (cholR fl ord recip) drift vol (some c) = .ok p) (hn : ((c.rows : ℝ) + 2) * u64 ≤ 1 / 64) (hz : Draws P z) (hdt : 0 ≤ dt)
    (hx : ∀ x ∈ x0, 0 < x) (h : ∀ ω, gbmSample p x0 dt s N (z ω) = .ok (w ω)) :
    ∃ C : Fin p.drift.length → Fin p.drift.length → ℝ,
      BrownianGrid P (fun τ ω => Real.log (value (n := N) (s := s) p.drift.length w τ ω)) (fun q j => Real.log (start x0 p.drift.length q j))
        (fun _ j => (bentry p.drift j - bentry p.vol j ^ 2 / 2) * dt) C ∧
      ∀ i j, |C i j - c.get (max (i : Nat) j) (min (i : Nat) j) * (bentry p.vol i * bentry p.vol j * dt)| ≤
        9 / 4 * ((p.drift.length + 2) * u64) * (Real.sqrt (c.get i i) * Real.sqrt (c.get j j)) * (|bentry p.vol i * bentry p.vol j| * dt) := by
  obtain ⟨d, hd, hp⟩ := bind_ok hp
  obtain ⟨v, hv, hp⟩ := bind_ok hp
  obtain ⟨L, hL, hp⟩ := bind_ok hp
  cases hp
  refine ⟨_, gbm_log_law hz hdt hx h, fun i j => ?_⟩
  have hP : IsProbabilityMeasure P := StdNormal.prob hz
  obtain ⟨ω⟩ : Nonempty Ω := nonempty_of_isProbabilityMeasure P
  obtain ⟨-, -, -, -, hsh, -⟩ := (bm_succeeds_iff s N).mp ((gbm_succeeds_iff s N).mp ⟨_, h ω⟩)
  rw [← sub_mul, abs_mul, abs_mul (_ * _) dt, abs_of_nonneg hdt]
  exact mul_le_mul_of_nonneg_right (corOf_computed R ho hL hn hsh i j) (by positivity)

/-- C131. The paths of an Ornstein-Uhlenbeck process have the law for correlations within rounding of the ones asked for. -/
theorem ou_law_computed (R : Rounding fl) (ho : IsCholOrder ord) {mean mrr vol : SimData} {c : Arr} {μ θ : List ℝ}
    (hp : ouInit (cholR fl ord recip) mean mrr vol (some c) = .ok po) (hn : ((c.rows : ℝ) + 2) * u64 ≤ 1 / 64) (hz : Draws P z) (hdt : 0 < dt)
    (hμ : po.mean = .row μ) (hθ : po.mrr = .row θ) (hpos : ∀ r ∈ θ, 0 < r) (h : ∀ ω, ouSample po x0 dt s N (z ω) = .ok (w ω)) :
    ∃ ρ : Fin μ.length → Fin μ.length → ℝ,
      (∀ i j, |ρ i j - c.get (max (i : Nat) j) (min (i : Nat) j)| ≤
        9 / 4 * ((μ.length + 2) * u64) * (Real.sqrt (c.get i i) * Real.sqrt (c.get j j))) ∧
      IsGaussianProcess (value (n := N) (s := s) μ.length w) P ∧
      (∀ τ : Idx N μ.length s, ∫ ω, value μ.length w τ ω ∂P =
        bentry μ τ.2.1 + (start x0 μ.length τ.1 τ.2.1 - bentry μ τ.2.1) * Real.exp (-(bentry θ τ.2.1) * (τ.2.2 * dt))) ∧
      ∀ τ τ' : Idx N μ.length s, cov[value μ.length w τ, value μ.length w τ'; P] = if τ.1 = τ'.1 then
        ouExcess (bentry θ τ.2.1) (bentry θ τ'.2.1) dt * ouCov (ρ τ.2.1 τ'.2.1) |bentry po.vol τ.2.1| |bentry po.vol τ'.2.1|
          (bentry θ τ.2.1) (bentry θ τ'.2.1) (τ.2.2 * dt) (τ'.2.2 * dt) else 0 := by
  refine ⟨fun i j => corOf po.L μ.length i j, fun i j => ?_, ou_law hz hμ hθ hpos hdt h⟩
  have hP : IsProbabilityMeasure P := StdNormal.prob hz
  obtain ⟨ω⟩ : Nonempty Ω := nonempty_of_isProbabilityMeasure P
  obtain ⟨-, -, -, hsh, -⟩ := (ou_succeeds_iff hμ hθ).mp ⟨_, h ω⟩
  obtain ⟨m, hm, hp⟩ := bind_ok hp
  obtain ⟨r, hr, hp⟩ := bind_ok hp
  obtain ⟨v, hv, hp⟩ := bind_ok hp
  obtain ⟨L, hL, hp⟩ := bind_ok hp
  cases hp
  exact corOf_computed R ho hL hn hsh i j

end Verif.Sim
