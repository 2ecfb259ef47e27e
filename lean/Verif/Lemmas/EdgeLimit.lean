import Verif.Props.MicroEdge
import Verif.Lemmas.BlockLLN

/-!
# The EDGE estimator over many pairs
-/

namespace Verif.Stat

open MeasureTheory ProbabilityTheory Filter Topology

variable {Ω E : Type*} [MeasurableSpace Ω] [MeasurableSpace E] {P : Measure Ω} {X : Nat → Ω → E}

/-- Consistency of an estimate that is a function of the elements in its window, where it is a number. -/
theorem consistent_of_or (h : IID P X) {F : Nat → (Nat → E) → ℝ} (hF : ∀ w, Measurable (F w)) {c : ℝ}
    (hlim : ∀ᵐ ω ∂P, Tendsto (fun w => F w fun i => X i ω) atTop (𝓝 c)) {est : Ω → Nat → Nat → Py Ser} {w₀ : Nat}
    (heq : ∀ ω, ∀ w ≥ w₀, ∀ n t, w ≤ t + 1 → t < n → F w (fun i => X (i + (t + 1 - w)) ω) = c + 1 ∨
      ∃ v, est ω n w = .ok v ∧ v[t]? = some (.fin (F w fun i => X (i + (t + 1 - w)) ω))) :
    Consistent P est 0 c := by
  constructor
  · filter_upwards [h.from hF hlim] with ω hω
    intro a n hn ε hε
    have h1 := Metric.tendsto_nhds.mp (hω a) (min ε 1) (lt_min hε one_pos)
    filter_upwards [h1, eventually_ge_atTop w₀, eventually_ge_atTop 1] with w hw hw' h1w
    have e : w + 0 + a - 1 + 1 - w = a := by omega
    have he := heq ω w hw' (n w) (w + 0 + a - 1) (by omega) (by have := hn w; omega)
    rw [e] at he
    rcases he with he | ⟨v, hv1, hv2⟩
    · rw [he, Real.dist_eq, add_sub_cancel_left, abs_one] at hw
      exact absurd (hw.trans_le (min_le_right _ _)) (lt_irrefl _)
    · exact ⟨v, _, hv1, hv2, hw.trans_le (min_le_left _ _)⟩
  · intro t n ht hn ε hε
    have h1 := h.moving hF hlim (fun w => t w + 1 - w) (lt_min hε one_pos)
    refine tendsto_of_tendsto_of_tendsto_of_le_of_le' tendsto_const_nhds h1 (Eventually.of_forall fun _ => zero_le) ?_
    filter_upwards [eventually_ge_atTop w₀] with w hw
    refine measure_mono fun ω hω => ?_
    by_contra hc
    apply hω
    rw [Set.mem_ofPred_eq, not_le] at hc
    rcases heq ω w hw (n w) (t w) (by have := ht w; omega) (hn w) with he | ⟨v, hv1, hv2⟩
    · rw [he, add_sub_cancel_left, abs_one] at hc
      exact absurd (hc.trans_le (min_le_right _ _)) (lt_irrefl _)
    · exact ⟨v, _, hv1, hv2, hc.trans_le (min_le_left _ _)⟩

end Verif.Stat

namespace Verif.Props.MicroEdge

open Verif Filter Topology

theorem avg_sum {n : Nat} (a b p q : ℝ) (f g h k : Nat → ℝ) :
    avg n (fun j => a * ((f j - p) * g j) - b * ((h j - q) * k j)) =
      a * (avg n (fun j => f j * g j) - p * avg n g) - b * (avg n (fun j => h j * k j) - q * avg n k) := by
  have e : ∀ j, a * ((f j - p) * g j) - b * ((h j - q) * k j) =
      a * (f j * g j) - a * p * g j - (b * (h j * k j) - b * q * k j) := fun j => by ring
  unfold avg
  simp only [e, Finset.sum_sub_distrib, ← Finset.mul_sum]
  ring

namespace Est

variable {R : Nat → RBar}

/-- Mid-range over the open. -/
noncomputable def r1 (r : RBar) : ℝ := mid r - r.o
/-- Open over the previous mid-range. -/
noncomputable def r2 (r : RBar) : ℝ := r.o - mid1 r
/-- Mid-range over the previous close. -/
noncomputable def r3 (r : RBar) : ℝ := mid r - r.c1
/-- Previous close over its mid-range. -/
noncomputable def r4 (r : RBar) : ℝ := r.c1 - mid1 r
/-- Open over the previous close. -/
noncomputable def r5 (r : RBar) : ℝ := r.o - r.c1

theorem pt_one (h : ∀ j, inf (R j)) {n : Nat} (hn : n ≠ 0) : pt n R = 1 := by
  have h0 : (n : ℝ) ≠ 0 := by exact_mod_cast hn
  simp [pt, avg, ind, h, h0]

theorem x1_inf (h : ∀ j, inf (R j)) {n : Nat} (hn : n ≠ 0) : x1 n R = fun j =>
    -4 / po n R * ((r1 (R j) - avg n fun i => r1 (R i)) * r2 (R j)) -
      4 / pc n R * ((r3 (R j) - avg n fun i => r3 (R i)) * r4 (R j)) := by
  funext j
  simp only [x1, dem, pt_one h hn, ind, h, if_true, r1, r2, r3, r4]
  ring

theorem x2_inf (h : ∀ j, inf (R j)) {n : Nat} (hn : n ≠ 0) : x2 n R = fun j =>
    -4 / po n R * ((r1 (R j) - avg n fun i => r1 (R i)) * r5 (R j)) -
      4 / pc n R * ((r5 (R j) - avg n fun i => r5 (R i)) * r4 (R j)) := by
  funext j
  simp only [x2, dem, pt_one h hn, ind, h, if_true, r1, r4, r5]
  ring

theorem vari_zero {n : Nat} {f : Nat → ℝ} (h : vari n f = 0) {j : Nat} (hj : j < n) : f j = avg n f := by
  have hn : (0 : ℝ) < n := by exact_mod_cast (Nat.zero_le j).trans_lt hj
  have h1 : ∑ j ∈ Finset.range n, (f j - avg n f) ^ 2 = 0 := by
    have : (∑ j ∈ Finset.range n, (f j - avg n f) ^ 2) / n = 0 := h
    rcases div_eq_zero_iff.mp this with h | h
    · exact h
    · exact absurd h hn.ne'
  have h2 := (Finset.sum_eq_zero_iff_of_nonneg fun i _ => sq_nonneg (f i - avg n f)).mp h1 j (Finset.mem_range.mpr hj)
  have := pow_eq_zero_iff (two_ne_zero) |>.mp h2
  linarith

/-- If the averages converge and the two estimates of the squared spread have the same limit, then that is the limit of their
combination, and there are numbers, unless every term equals the limit. -/
theorem tendsto_s2 (h : ∀ j, inf (R j)) {PO PC G m1 m2 m3 m4 m5 c12 c34 c15 c54 : ℝ}
    (hPO : PO ≠ 0) (hPC : PC ≠ 0) (ho : Tendsto (fun n => po n R) atTop (𝓝 PO)) (hc : Tendsto (fun n => pc n R) atTop (𝓝 PC))
    (h1 : Tendsto (fun n => avg n fun i => r1 (R i)) atTop (𝓝 m1)) (h2 : Tendsto (fun n => avg n fun i => r2 (R i)) atTop (𝓝 m2))
    (h3 : Tendsto (fun n => avg n fun i => r3 (R i)) atTop (𝓝 m3)) (h4 : Tendsto (fun n => avg n fun i => r4 (R i)) atTop (𝓝 m4))
    (h5 : Tendsto (fun n => avg n fun i => r5 (R i)) atTop (𝓝 m5))
    (h12 : Tendsto (fun n => avg n fun i => r1 (R i) * r2 (R i)) atTop (𝓝 c12))
    (h34 : Tendsto (fun n => avg n fun i => r3 (R i) * r4 (R i)) atTop (𝓝 c34))
    (h15 : Tendsto (fun n => avg n fun i => r1 (R i) * r5 (R i)) atTop (𝓝 c15))
    (h54 : Tendsto (fun n => avg n fun i => r5 (R i) * r4 (R i)) atTop (𝓝 c54))
    (hG1 : -4 / PO * (c12 - m1 * m2) - 4 / PC * (c34 - m3 * m4) = G)
    (hG2 : -4 / PO * (c15 - m1 * m5) - 4 / PC * (c54 - m5 * m4) = G)
    {j : Nat} (hj : ¬ (-4 / PO * ((r1 (R j) - m1) * r2 (R j)) - 4 / PC * ((r3 (R j) - m3) * r4 (R j)) = G ∧
      -4 / PO * ((r1 (R j) - m1) * r5 (R j)) - 4 / PC * ((r5 (R j) - m5) * r4 (R j)) = G)) :
    (∀ᶠ n in atTop, ¬ (pt n R = 0 ∨ po n R = 0 ∨ pc n R = 0 ∨ vari n (x1 n R) + vari n (x2 n R) = 0)) ∧
      Tendsto (fun n => s2 n R) atTop (𝓝 G) := by
  have k1 : Tendsto (fun n => -4 / po n R) atTop (𝓝 (-4 / PO)) := tendsto_const_nhds.div ho hPO
  have k2 : Tendsto (fun n => 4 / pc n R) atTop (𝓝 (4 / PC)) := tendsto_const_nhds.div hc hPC
  have a1 : Tendsto (fun n => avg n (x1 n R)) atTop (𝓝 G) := by
    rw [← hG1]
    refine ((k1.mul (h12.sub (h1.mul h2))).sub (k2.mul (h34.sub (h3.mul h4)))).congr' ?_
    filter_upwards [eventually_ne_atTop 0] with n hn
    rw [x1_inf h hn, avg_sum]
  have a2 : Tendsto (fun n => avg n (x2 n R)) atTop (𝓝 G) := by
    rw [← hG2]
    refine ((k1.mul (h15.sub (h1.mul h5))).sub (k2.mul (h54.sub (h5.mul h4)))).congr' ?_
    filter_upwards [eventually_ne_atTop 0] with n hn
    rw [x2_inf h hn, avg_sum]
  have y1 : Tendsto (fun n => x1 n R j) atTop
      (𝓝 (-4 / PO * ((r1 (R j) - m1) * r2 (R j)) - 4 / PC * ((r3 (R j) - m3) * r4 (R j)))) := by
    refine ((k1.mul ((tendsto_const_nhds.sub h1).mul_const _)).sub (k2.mul ((tendsto_const_nhds.sub h3).mul_const _))).congr' ?_
    filter_upwards [eventually_ne_atTop 0] with n hn
    rw [x1_inf h hn]
  have y2 : Tendsto (fun n => x2 n R j) atTop
      (𝓝 (-4 / PO * ((r1 (R j) - m1) * r5 (R j)) - 4 / PC * ((r5 (R j) - m5) * r4 (R j)))) := by
    refine ((k1.mul ((tendsto_const_nhds.sub h1).mul_const _)).sub (k2.mul ((tendsto_const_nhds.sub h5).mul_const _))).congr' ?_
    filter_upwards [eventually_ne_atTop 0] with n hn
    rw [x2_inf h hn]
  have hv : ∀ᶠ n in atTop, vari n (x1 n R) + vari n (x2 n R) ≠ 0 := by
    by_contra hcon
    rw [← not_frequently, not_not] at hcon
    have hf : ∃ᶠ n in atTop, x1 n R j = avg n (x1 n R) ∧ x2 n R j = avg n (x2 n R) := by
      refine (hcon.and_eventually (eventually_gt_atTop j)).mono fun n hn => ?_
      have b1 := vari_nonneg n (x1 n R)
      have b2 := vari_nonneg n (x2 n R)
      exact ⟨vari_zero (by linarith [hn.1]) hn.2, vari_zero (by linarith [hn.1]) hn.2⟩
    refine hj ⟨?_, ?_⟩
    · by_contra hne
      exact hf (((y1.sub a1).eventually_ne (sub_ne_zero.mpr hne)).mono fun n hn h => hn (sub_eq_zero.mpr h.1))
    · by_contra hne
      exact hf (((y2.sub a2).eventually_ne (sub_ne_zero.mpr hne)).mono fun n hn h => hn (sub_eq_zero.mpr h.2))
  refine ⟨?_, ?_⟩
  · filter_upwards [hv, eventually_ne_atTop 0, ho.eventually_ne hPO, hc.eventually_ne hPC] with n b1 b2 b3 b4
    rw [pt_one h b2]
    simp [b1, b3, b4]
  · have l1 : Tendsto (fun n => min (avg n (x1 n R)) (avg n (x2 n R))) atTop (𝓝 G) := by
      simpa using a1.min a2
    have l2 : Tendsto (fun n => max (avg n (x1 n R)) (avg n (x2 n R))) atTop (𝓝 G) := by
      simpa using a1.max a2
    refine tendsto_of_tendsto_of_tendsto_of_le_of_le' l1 l2 ?_ ?_
    · filter_upwards [hv] with n hn
      exact (s2_between hn).1
    · filter_upwards [hv] with n hn
      exact (s2_between hn).2

/-- All prices of the pair multiplied by the same factor. -/
def shift (m : ℝ) (r : RBar) : RBar := ⟨r.o + m, r.h + m, r.l + m, r.h1 + m, r.l1 + m, r.c1 + m⟩

theorem shift_all (n : Nat) (m : Nat → ℝ) (R : Nat → RBar) :
    pt n (fun j => shift (m j) (R j)) = pt n R ∧ po n (fun j => shift (m j) (R j)) = po n R ∧
      pc n (fun j => shift (m j) (R j)) = pc n R ∧ x1 n (fun j => shift (m j) (R j)) = x1 n R ∧
      x2 n (fun j => shift (m j) (R j)) = x2 n R := by
  have e0 : ∀ j, inf (shift (m j) (R j)) = inf (R j) := fun j => by simp [inf, shift]
  have e1 : ∀ j, mid (shift (m j) (R j)) - (shift (m j) (R j)).o = mid (R j) - (R j).o := fun j => by simp only [mid, shift]; ring
  have e2 : ∀ j, (shift (m j) (R j)).o - mid1 (shift (m j) (R j)) = (R j).o - mid1 (R j) := fun j => by simp only [mid1, shift]; ring
  have e3 : ∀ j, mid (shift (m j) (R j)) - (shift (m j) (R j)).c1 = mid (R j) - (R j).c1 := fun j => by simp only [mid, shift]; ring
  have e4 : ∀ j, (shift (m j) (R j)).c1 - mid1 (shift (m j) (R j)) = (R j).c1 - mid1 (R j) := fun j => by simp only [mid1, shift]; ring
  have e5 : ∀ j, (shift (m j) (R j)).o - (shift (m j) (R j)).c1 = (R j).o - (R j).c1 := fun j => by simp only [shift]; ring
  have hpt : pt n (fun j => shift (m j) (R j)) = pt n R := by simp only [pt, e0]
  have hpo : po n (fun j => shift (m j) (R j)) = po n R := by
    simp only [po, e0]
    simp [shift]
  have hpc : pc n (fun j => shift (m j) (R j)) = pc n R := by
    simp only [pc, e0]
    simp [shift]
  refine ⟨hpt, hpo, hpc, ?_, ?_⟩
  · funext j
    simp only [x1, dem, hpt, hpo, hpc, e0, e1, e2, e3, e4]
  · funext j
    simp only [x2, dem, hpt, hpo, hpc, e0, e1, e4, e5]

end Est

end Verif.Props.MicroEdge
