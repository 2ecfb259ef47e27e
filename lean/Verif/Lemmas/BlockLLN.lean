import Verif.Spec.LongSample
import Verif.Lemmas.ShockLags
import Mathlib.Probability.StrongLaw
import Mathlib.Probability.IdentDistribIndep
import Mathlib.MeasureTheory.Constructions.Polish.Basic
import Mathlib.MeasureTheory.Function.ConvergenceInMeasure

/-!
# Averages over the blocks of an i.i.d. sequence
-/

namespace Verif.Stat

open Verif.Sim MeasureTheory ProbabilityTheory Filter Topology

variable {Ω E : Type*} [MeasurableSpace Ω] [MeasurableSpace E] {P : Measure Ω} {X : Nat → Ω → E}

theorem IID.ae (h : IID P X) (t : Nat) : AEMeasurable (X t) P := (h.ident t).aemeasurable_fst

theorem IID.comp (h : IID P X) {F : Type*} [MeasurableSpace F] {g : E → F} (hg : Measurable g) :
    IID P fun t ω => g (X t ω) :=
  ⟨h.indep.comp (fun _ => g) fun _ => hg, fun t => (h.ident t).comp hg⟩

theorem IID.sub (h : IID P X) {u : Nat → Nat} (hu : Function.Injective u) : IID P fun t => X (u t) :=
  ⟨h.indep.precomp hu, fun _ => (h.ident _).trans (h.ident _).symm⟩

theorem IID.shift (h : IID P X) (a : Nat) : IID P fun t => X (t + a) := h.sub fun _ _ e => Nat.add_right_cancel e

/-- The sequence seen from a later position has the same law. -/
theorem IID.sub_ident (h : IID P X) {ι : Type*} [Countable ι] {u v : ι → Nat} (hu : Function.Injective u)
    (hv : Function.Injective v) : IdentDistrib (fun ω i => X (u i) ω) (fun ω i => X (v i) ω) P P :=
  IdentDistrib.pi (fun i => (h.ident (u i)).trans (h.ident (v i)).symm) (h.indep.precomp hu) (h.indep.precomp hv)

/-- Strong law for a function of `k` consecutive elements. -/
theorem IID.block (h : IID P X) {k : Nat} (hk : 0 < k) {g : (Fin k → E) → ℝ} (hg : Measurable g)
    (hint : Integrable (fun ω => g fun i => X i ω) P) :
    ∀ᵐ ω ∂P, Tendsto (fun s : Nat => mean s fun t => g fun i => X (t + i) ω) atTop (𝓝 (∫ ω, g (fun i => X i ω) ∂P)) := by
  set c := ∫ ω, g (fun i => X i ω) ∂P with hc
  have key : ∀ r, ∀ᵐ ω ∂P, Tendsto (fun m : Nat => mean m fun j => g (fun i : Fin k => X (r + j * k + i) ω) - c) atTop (𝓝 0) := by
    intro r
    have hid : ∀ j, IdentDistrib (fun ω => g fun i : Fin k => X (r + j * k + i) ω) (fun ω => g fun i : Fin k => X i ω) P P := by
      intro j
      refine (h.sub_ident (ι := Fin k) (u := fun i => r + j * k + i) (v := fun i => i) ?_ ?_).comp hg
      · intro i i' e
        exact Fin.ext (Nat.add_left_cancel e)
      · intro i i' e
        exact Fin.ext e
    have h1 := strong_law_ae_real (μ := P) (fun j ω => g fun i : Fin k => X (r + j * k + i) ω)
      ((hid 0).integrable_iff.mpr hint) (fun j j' hj => ?_) fun j => (hid j).trans (hid 0).symm
    · filter_upwards [h1] with ω hω
      have e : (∫ ω, g (fun i : Fin k => X (r + 0 * k + i) ω) ∂P) = c := (hid 0).integral_eq
      rw [e] at hω
      have h2 := hω.sub_const c
      rw [sub_self] at h2
      refine h2.congr' ?_
      filter_upwards [eventually_ge_atTop 1] with m hm
      have h0 : (m : ℝ) ≠ 0 := by positivity
      unfold mean
      rw [Finset.sum_sub_distrib, Finset.sum_const, Finset.card_range, nsmul_eq_mul]
      field_simp
    · have hdis : Disjoint ((Finset.range k).image fun i => r + j * k + i) ((Finset.range k).image fun i => r + j' * k + i) := by
        rw [Finset.disjoint_left]
        intro x hx hx'
        obtain ⟨i, hi, rfl⟩ := Finset.mem_image.mp hx
        obtain ⟨i', hi', e⟩ := Finset.mem_image.mp hx'
        rw [Finset.mem_range] at hi hi'
        apply hj
        have e1 : i' + k * j' = i + k * j := by nlinarith
        have e2 := congrArg (· / k) e1
        simp only [Nat.add_mul_div_left _ _ hk, Nat.div_eq_of_lt hi, Nat.div_eq_of_lt hi'] at e2
        omega
      have h2 := h.indep.indepFun_finset₀ _ _ hdis h.ae
      have mk : ∀ j, Measurable fun x : ((Finset.range k).image fun i => r + j * k + i) → E =>
          g fun i : Fin k => x ⟨r + j * k + i, Finset.mem_image.mpr ⟨i, Finset.mem_range.mpr i.2, rfl⟩⟩ := fun j =>
        hg.comp (measurable_pi_lambda _ fun i => measurable_pi_apply _)
      exact h2.comp (mk j) (mk j')
  have hall : ∀ᵐ ω ∂P, ∀ r, Tendsto (fun m : Nat => mean m fun j => g (fun i : Fin k => X (r + j * k + i) ω) - c) atTop (𝓝 0) :=
    ae_all_iff.mpr key
  filter_upwards [hall] with ω hω
  have h1 := mean_merge hk (f := fun t => g (fun i : Fin k => X (t + i) ω) - c) fun r _ => hω r
  have h2 := h1.add_const c
  rw [zero_add] at h2
  refine h2.congr' ?_
  filter_upwards [eventually_ge_atTop 1] with m hm
  have h0 : (m : ℝ) ≠ 0 := by positivity
  unfold mean
  rw [Finset.sum_sub_distrib, Finset.sum_const, Finset.card_range, nsmul_eq_mul]
  field_simp
  ring

/-- The sample covariance of two functions of consecutive elements tends to their covariance. -/
theorem IID.scov (h : IID P X) {k : Nat} (hk : 0 < k) {f g : (Fin k → E) → ℝ} (hf : Measurable f) (hg : Measurable g)
    (hf2 : MemLp (fun ω => f fun i => X i ω) 2 P) (hg2 : MemLp (fun ω => g fun i => X i ω) 2 P) :
    ∀ᵐ ω ∂P, Tendsto (fun s : Nat => Sim.scov s 1 (fun t => f fun i => X (t + i) ω) fun t => g fun i => X (t + i) ω) atTop
      (𝓝 cov[fun ω => f fun i => X i ω, fun ω => g fun i => X i ω; P]) := by
  have hP := h.indep.isProbabilityMeasure
  have h1 := h.block hk hf (hf2.integrable (by norm_num))
  have h2 := h.block hk hg (hg2.integrable (by norm_num))
  have h3 := h.block hk (hf.mul hg) (hf2.integrable_mul hg2)
  filter_upwards [h1, h2, h3] with ω a1 a2 a3
  rw [covariance_eq_sub hf2 hg2]
  exact scov_tendsto a1 a2 a3

/-- Limits of a function of the sequence are the same from every position on. -/
theorem IID.from (h : IID P X) {F : Nat → (Nat → E) → ℝ} (hF : ∀ w, Measurable (F w)) {c : ℝ}
    (hlim : ∀ᵐ ω ∂P, Tendsto (fun w => F w fun i => X i ω) atTop (𝓝 c)) :
    ∀ᵐ ω ∂P, ∀ a, Tendsto (fun w => F w fun i => X (i + a) ω) atTop (𝓝 c) := by
  rw [ae_all_iff]
  intro a
  have hm : MeasurableSet {x : Nat → E | Tendsto (fun w => F w x) atTop (𝓝 c)} :=
    measurableSet_tendsto_fun hF measurable_const
  have hid := h.sub_ident (u := fun i : Nat => i) (v := fun i => i + a) (fun _ _ e => e) fun _ _ e => Nat.add_right_cancel e
  exact hid.ae_mem_snd hm hlim

/-- At moving positions the limit holds in probability. -/
theorem IID.moving (h : IID P X) {F : Nat → (Nat → E) → ℝ} (hF : ∀ w, Measurable (F w)) {c : ℝ}
    (hlim : ∀ᵐ ω ∂P, Tendsto (fun w => F w fun i => X i ω) atTop (𝓝 c)) (a : Nat → Nat) {ε : ℝ} (hε : 0 < ε) :
    Tendsto (fun w => P {ω | ε ≤ |(F w fun i => X (i + a w) ω) - c|}) atTop (𝓝 0) := by
  have hP := h.indep.isProbabilityMeasure
  have hX : AEMeasurable (fun ω i => X i ω) P := aemeasurable_pi_lambda _ h.ae
  have h1 := tendstoInMeasure_of_tendsto_ae (f := fun w ω => F w fun i => X i ω) (g := fun _ => c)
    (fun w => ((hF w).comp_aemeasurable hX).aestronglyMeasurable) hlim
  have h2 := (tendstoInMeasure_iff_dist.mp h1) ε hε
  refine h2.congr fun w => ?_
  have hid := h.sub_ident (u := fun i : Nat => i) (v := fun i => i + a w) (fun _ _ e => e) fun _ _ e => Nat.add_right_cancel e
  exact hid.measure_mem_eq (s := {x | ε ≤ dist (F w x) c}) (measurableSet_le measurable_const ((hF w).dist measurable_const))

/-- What holds almost surely of the first element holds of all of them. -/
theorem IID.ae_all (h : IID P X) {s : Set E} (hs : MeasurableSet s) (h0 : ∀ᵐ ω ∂P, X 0 ω ∈ s) : ∀ᵐ ω ∂P, ∀ t, X t ω ∈ s :=
  ae_all_iff.mpr fun t => (h.ident t).symm.ae_mem_snd hs h0

/-- Consistency of an estimate that is a function of the elements in its window, up to a null set. -/
theorem consistent_of_ae (h : IID P X) {F : Nat → (Nat → E) → ℝ} (hF : ∀ w, Measurable (F w)) {c : ℝ}
    (hlim : ∀ᵐ ω ∂P, Tendsto (fun w => F w fun i => X i ω) atTop (𝓝 c)) {est : Ω → Nat → Nat → Py Ser} {lag : Nat}
    (hw0 : ∃ w₀, ∀ᵐ ω ∂P, ∀ w ≥ w₀, ∀ n t, w + lag ≤ t + 1 → t < n →
      ∃ v, est ω n w = .ok v ∧ v[t]? = some (.fin (F w fun i => X (i + (t + 1 - w - lag)) ω))) :
    Consistent P est lag c := by
  obtain ⟨w₀, hw0⟩ := hw0
  constructor
  · filter_upwards [h.from hF hlim, hw0] with ω hω he
    intro a n hn ε hε
    have h1 := Metric.tendsto_nhds.mp (hω a) ε hε
    filter_upwards [h1, eventually_ge_atTop w₀, eventually_ge_atTop 1] with w hw hw' h1w
    obtain ⟨v, hv1, hv2⟩ := he w hw' (n w) (w + lag + a - 1) (by omega) (by have := hn w; omega)
    refine ⟨v, _, hv1, hv2, ?_⟩
    have e : w + lag + a - 1 + 1 - w - lag = a := by omega
    rw [e]
    exact hw
  · intro t n ht hn ε hε
    have h1 := h.moving hF hlim (fun w => t w + 1 - w - lag) hε
    refine tendsto_of_tendsto_of_tendsto_of_le_of_le' tendsto_const_nhds h1 (Eventually.of_forall fun _ => zero_le) ?_
    filter_upwards [eventually_ge_atTop w₀] with w hw
    refine measure_mono_ae ?_
    filter_upwards [hw0] with ω he hω
    by_contra hc
    apply hω
    obtain ⟨v, hv1, hv2⟩ := he w hw (n w) (t w) (ht w) (hn w)
    refine ⟨v, _, hv1, hv2, not_le.mp hc⟩

/-- Consistency of an estimate that is a function of the elements in its window. -/
theorem consistent_of (h : IID P X) {F : Nat → (Nat → E) → ℝ} (hF : ∀ w, Measurable (F w)) {c : ℝ}
    (hlim : ∀ᵐ ω ∂P, Tendsto (fun w => F w fun i => X i ω) atTop (𝓝 c)) {est : Ω → Nat → Nat → Py Ser} {lag : Nat}
    (heq : ∀ᶠ w in atTop, ∀ ω n t, w + lag ≤ t + 1 → t < n →
      ∃ v, est ω n w = .ok v ∧ v[t]? = some (.fin (F w fun i => X (i + (t + 1 - w - lag)) ω))) :
    Consistent P est lag c := by
  obtain ⟨w₀, h0⟩ := eventually_atTop.mp heq
  have h1 : ∀ᵐ ω ∂P, ∀ w ≥ w₀, ∀ n t, w + lag ≤ t + 1 → t < n →
      ∃ v, est ω n w = .ok v ∧ v[t]? = some (.fin (F w fun i => X (i + (t + 1 - w - lag)) ω)) :=
    ae_of_all _ fun ω w hw => h0 w hw ω
  exact consistent_of_ae h hF hlim ⟨w₀, h1⟩

end Verif.Stat
