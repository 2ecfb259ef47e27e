import Verif.Props.CorrDist
import Mathlib.Analysis.InnerProductSpace.PiL2
import Mathlib.Analysis.InnerProductSpace.Basic

/-!
# C41: the correlation distances are metrics on samples
-/

namespace Verif.Dist

open scoped InnerProductSpace

section Geometry

variable {E : Type*} [NormedAddCommGroup E] [InnerProductSpace ℝ E]

theorem angular_eq {u v : E} (hu : ‖u‖ = 1) (hv : ‖v‖ = 1) : formula .angular ⟪u, v⟫_ℝ = ‖u - v‖ / 2 := by
  have h : ‖u - v‖ ^ 2 = 2 * (1 - ⟪u, v⟫_ℝ) := by
    rw [norm_sub_sq_real, hu, hv]; ring
  unfold formula
  dsimp only
  have : (1 - ⟪u, v⟫_ℝ) / 2 = (‖u - v‖ / 2) ^ 2 := by rw [div_pow, h]; ring
  rw [this, Real.sqrt_sq (by positivity)]

theorem angular_triangle {u v w : E} (hu : ‖u‖ = 1) (hv : ‖v‖ = 1) (hw : ‖w‖ = 1) :
    formula .angular ⟪u, w⟫_ℝ ≤ formula .angular ⟪u, v⟫_ℝ + formula .angular ⟪v, w⟫_ℝ := by
  rw [angular_eq hu hw, angular_eq hu hv, angular_eq hv hw]
  have := norm_sub_le_norm_sub_add_norm_sub u v w
  linarith

theorem abs_eq_angular (x : ℝ) : formula .absAngular x = Real.sqrt 2 * formula .angular |x| := by
  unfold formula
  dsimp only
  rw [← Real.sqrt_mul (by norm_num)]
  congr 1; ring

theorem abs_triangle {u v w : E} (hu : ‖u‖ = 1) (hv : ‖v‖ = 1) (hw : ‖w‖ = 1) :
    formula .absAngular ⟪u, w⟫_ℝ ≤ formula .absAngular ⟪u, v⟫_ℝ + formula .absAngular ⟪v, w⟫_ℝ := by
  rw [abs_eq_angular, abs_eq_angular, abs_eq_angular, ← mul_add]
  apply mul_le_mul_of_nonneg_left _ (Real.sqrt_nonneg 2)
  have sgn : ∀ a b : E, ∃ s : ℝ, |s| = 1 ∧ s * ⟪a, b⟫_ℝ = |⟪a, b⟫_ℝ| := by
    intro a b
    rcases le_total 0 ⟪a, b⟫_ℝ with h | h
    · exact ⟨1, by simp, by rw [abs_of_nonneg h, one_mul]⟩
    · exact ⟨-1, by simp, by rw [abs_of_nonpos h]; ring⟩
  obtain ⟨s, hs, es⟩ := sgn u v
  obtain ⟨t, ht, et⟩ := sgn v w
  have ss : s * s = 1 := by rw [← abs_mul_abs_self, hs, one_mul]
  have nv : ‖s • v‖ = 1 := by rw [norm_smul, Real.norm_eq_abs, hs, hv, one_mul]
  have nw : ‖(s * t) • w‖ = 1 := by rw [norm_smul, Real.norm_eq_abs, abs_mul, hs, ht, hw]; norm_num
  have tri := angular_triangle hu nv nw
  have e1 : ⟪u, s • v⟫_ℝ = |⟪u, v⟫_ℝ| := by rw [real_inner_smul_right, es]
  have e2 : ⟪s • v, (s * t) • w⟫_ℝ = |⟪v, w⟫_ℝ| := by
    rw [real_inner_smul_right, real_inner_smul_left, ← et]
    linear_combination (t * ⟪v, w⟫_ℝ) * ss
  rw [e1, e2] at tri
  refine le_trans ?_ tri
  unfold formula
  apply Real.sqrt_le_sqrt
  have : ⟪u, (s * t) • w⟫_ℝ ≤ |⟪u, w⟫_ℝ| := by
    rw [real_inner_smul_right]
    refine le_trans (le_abs_self _) ?_
    rw [abs_mul, abs_mul, hs, ht, one_mul, one_mul]
  linarith

theorem squared_eq {u v : E} (hu : ‖u‖ = 1) (hv : ‖v‖ = 1) :
    formula .squaredAngular ⟪u, v⟫_ℝ = ‖u - ⟪u, v⟫_ℝ • v‖ := by
  have h : ‖u - ⟪u, v⟫_ℝ • v‖ ^ 2 = 1 - ⟪u, v⟫_ℝ ^ 2 := by
    rw [norm_sub_sq_real, real_inner_smul_right, norm_smul, hu, hv, Real.norm_eq_abs, mul_one, sq_abs]; ring
  unfold formula
  dsimp only
  rw [← h, Real.sqrt_sq (norm_nonneg _)]

theorem squared_le {u v : E} (hu : ‖u‖ = 1) (hv : ‖v‖ = 1) (c : ℝ) :
    formula .squaredAngular ⟪u, v⟫_ℝ ≤ ‖u - c • v‖ := by
  unfold formula
  dsimp only
  rw [Real.sqrt_le_left (norm_nonneg _), norm_sub_sq_real, real_inner_smul_right, norm_smul, hu, hv, Real.norm_eq_abs,
    mul_one, sq_abs]
  nlinarith [sq_nonneg (c - ⟪u, v⟫_ℝ)]

theorem squared_triangle {u v w : E} (hu : ‖u‖ = 1) (hv : ‖v‖ = 1) (hw : ‖w‖ = 1) :
    formula .squaredAngular ⟪u, w⟫_ℝ ≤ formula .squaredAngular ⟪u, v⟫_ℝ + formula .squaredAngular ⟪v, w⟫_ℝ := by
  refine (squared_le hu hw (⟪u, v⟫_ℝ * ⟪v, w⟫_ℝ)).trans ?_
  have e : u - (⟪u, v⟫_ℝ * ⟪v, w⟫_ℝ) • w = (u - ⟪u, v⟫_ℝ • v) + ⟪u, v⟫_ℝ • (v - ⟪v, w⟫_ℝ • w) := by
    rw [smul_sub, smul_smul]; abel
  rw [e]
  refine (norm_add_le _ _).trans ?_
  rw [squared_eq hu hv, squared_eq hv hw, norm_smul, Real.norm_eq_abs]
  have h1 : |⟪u, v⟫_ℝ| ≤ 1 := by
    have := abs_real_inner_le_norm u v
    rwa [hu, hv, one_mul] at this
  nlinarith [norm_nonneg (v - ⟪v, w⟫_ℝ • w)]

theorem formula_triangle (meth : Method) {u v w : E} (hu : ‖u‖ = 1) (hv : ‖v‖ = 1) (hw : ‖w‖ = 1) :
    formula meth ⟪u, w⟫_ℝ ≤ formula meth ⟪u, v⟫_ℝ + formula meth ⟪v, w⟫_ℝ := by
  cases meth
  · exact angular_triangle hu hv hw
  · exact abs_triangle hu hv hw
  · exact squared_triangle hu hv hw

end Geometry

/-! ### Samples as vectors -/

/-- The centred sample. -/
noncomputable def cvec (n : Nat) (x : List ℝ) : EuclideanSpace ℝ (Fin n) := WithLp.toLp 2 fun i => x.getD i 0 - mean x

theorem sum_zipWith_eq (f : ℝ → ℝ → ℝ) : ∀ {x y : List ℝ}, x.length = y.length →
    (List.zipWith f x y).sum = ∑ i : Fin x.length, f (x.getD i 0) (y.getD i 0)
  | [], [], _ => by simp
  | a :: x, b :: y, h => by
    have h' : x.length = y.length := by simpa using h
    rw [List.zipWith_cons_cons, List.sum_cons, sum_zipWith_eq f h']
    have := Fin.sum_univ_succ (n := x.length) (fun i : Fin (x.length + 1) => f ((a :: x).getD i 0) ((b :: y).getD i 0))
    simp only [List.length_cons] at *
    rw [this]
    simp
  | [], _ :: _, h => by simp at h
  | _ :: _, [], h => by simp at h

theorem coSum_eq_inner {x y : List ℝ} {n : Nat} (hx : x.length = n) (hy : y.length = n) :
    coSum x y = ⟪cvec n x, cvec n y⟫_ℝ := by
  subst hx
  unfold coSum
  rw [sum_zipWith_eq _ hy.symm, PiLp.inner_apply]
  refine Finset.sum_congr rfl fun i _ => ?_
  simp only [cvec, real_inner_eq_re_inner, RCLike.inner_apply, conj_trivial]
  simp [mul_comm]

theorem coSum_self {x : List ℝ} {n : Nat} (hx : x.length = n) : coSum x x = ‖cvec n x‖ ^ 2 := by
  rw [coSum_eq_inner hx hx, real_inner_self_eq_norm_sq]

/-- A sample is constant: every element is the first one. -/
def Constant (x : List ℝ) : Prop := ∀ a ∈ x, ∀ b ∈ x, a = b

theorem mean_of_constant {x : List ℝ} (h : Constant x) : ∀ a ∈ x, a = mean x := by
  intro a ha
  have : x = List.replicate x.length a := List.eq_replicate_iff.mpr ⟨rfl, fun b hb => h b hb a ha⟩
  have hl : (0 : ℝ) < x.length := by exact_mod_cast List.length_pos_of_mem ha
  unfold mean
  have hsum : x.sum = x.length * a := by
    conv_lhs => rw [this]
    rw [List.sum_replicate, nsmul_eq_mul]
  rw [hsum]
  field_simp

theorem cvec_eq_zero_iff {x : List ℝ} {n : Nat} (hx : x.length = n) : cvec n x = 0 ↔ Constant x := by
  subst hx
  constructor
  · intro h a ha b hb
    obtain ⟨i, hi, rfl⟩ := List.getElem_of_mem ha
    obtain ⟨j, hj, rfl⟩ := List.getElem_of_mem hb
    have e1 : (cvec x.length x) ⟨i, hi⟩ = 0 := by rw [h]; rfl
    have e2 : (cvec x.length x) ⟨j, hj⟩ = 0 := by rw [h]; rfl
    simp only [cvec, List.getD_eq_getElem?_getD, List.getElem?_eq_getElem hi, List.getElem?_eq_getElem hj,
      Option.getD_some] at e1 e2
    linarith
  · intro h
    ext i
    have := mean_of_constant h x[i.1] (List.getElem_mem i.2)
    simp only [cvec, List.getD_eq_getElem?_getD, List.getElem?_eq_getElem i.2, Option.getD_some, PiLp.zero_apply]
    linarith

theorem coSum_self_eq_zero_iff (x : List ℝ) : coSum x x = 0 ↔ Constant x := by
  rw [coSum_self rfl, sq_eq_zero_iff, norm_eq_zero, cvec_eq_zero_iff rfl]

/-- The normalised sample. -/
noncomputable def unitVec (n : Nat) (x : List ℝ) : EuclideanSpace ℝ (Fin n) := ‖cvec n x‖⁻¹ • cvec n x

theorem unitVec_norm {x : List ℝ} {n : Nat} (hx : x.length = n) (h : ¬ Constant x) : ‖unitVec n x‖ = 1 := by
  have : cvec n x ≠ 0 := fun h' => h ((cvec_eq_zero_iff hx).mp h')
  unfold unitVec
  rw [norm_smul, norm_inv, norm_norm, inv_mul_cancel₀ (norm_ne_zero_iff.mpr this)]

/-- The distance of two non-constant samples. -/
theorem pair_eq (meth : Method) {x y : List ℝ} {n : Nat} (hx : x.length = n) (hy : y.length = n) (cx : ¬ Constant x)
    (cy : ¬ Constant y) : pairDistance meth x y = .ok (some (formula meth ⟪unitVec n x, unitVec n y⟫_ℝ)) := by
  have ux := unitVec_norm hx cx
  have uy := unitVec_norm hy cy
  have hin : |⟪unitVec n x, unitVec n y⟫_ℝ| ≤ 1 := by
    have := abs_real_inner_le_norm (unitVec n x) (unitVec n y)
    rwa [ux, uy, one_mul] at this
  obtain ⟨h1, h2⟩ := abs_le.mp hin
  have e : coSum x y / (Real.sqrt (coSum x x) * Real.sqrt (coSum y y)) = ⟪unitVec n x, unitVec n y⟫_ℝ := by
    rw [coSum_eq_inner hx hy, coSum_self hx, coSum_self hy, Real.sqrt_sq (norm_nonneg _), Real.sqrt_sq (norm_nonneg _)]
    unfold unitVec
    rw [real_inner_smul_right, real_inner_smul_left]
    rw [div_eq_mul_inv, mul_inv]; ring
  unfold pairDistance corrcoef
  rw [if_neg (by rw [hx, hy]; simp), if_neg (by rw [coSum_self_eq_zero_iff, coSum_self_eq_zero_iff]; tauto), e]
  simp only [bind, Except.bind]
  rw [clamp_eq, clampR_of_mem h1 h2, dist_fin, clampR_of_mem h1 h2]

/-- C41. When the pairwise distances of two samples are numbers: `ValueError` exactly for different lengths, `nan`
exactly if one of two samples of equal length is constant. -/
theorem pair_distance_cases (meth : Method) (x y : List ℝ) :
    (pairDistance meth x y = .error .valueError ↔ x.length ≠ y.length) ∧
    (pairDistance meth x y = .ok none ↔ x.length = y.length ∧ (Constant x ∨ Constant y)) ∧
    ((∃ d, pairDistance meth x y = .ok (some d)) ↔ x.length = y.length ∧ ¬ Constant x ∧ ¬ Constant y) := by
  by_cases hl : x.length = y.length
  · by_cases hc : Constant x ∨ Constant y
    · have e : pairDistance meth x y = .ok none := by
        unfold pairDistance corrcoef
        rw [if_neg (by rw [hl]; simp), if_pos (by rw [coSum_self_eq_zero_iff, coSum_self_eq_zero_iff]; exact hc)]
        rfl
      rw [e]
      simp only [hl, hc]
      simp
      tauto
    · rw [not_or] at hc
      rw [pair_eq meth rfl hl.symm hc.1 hc.2]
      simp [hl, hc]
  · have e : pairDistance meth x y = .error .valueError := by
      unfold pairDistance corrcoef
      rw [if_pos hl]
      rfl
    rw [e]
    simp [hl]

/-- C41. All three distances satisfy the triangle inequality and symmetry for all samples of all lengths. -/
theorem pair_triangle (meth : Method) {x y z : List ℝ} {dxy dyz dxz : ℝ} (h1 : pairDistance meth x y = .ok (some dxy))
    (h2 : pairDistance meth y z = .ok (some dyz)) (h3 : pairDistance meth x z = .ok (some dxz)) : dxz ≤ dxy + dyz := by
  obtain ⟨l1, cx, cy⟩ := (pair_distance_cases meth x y).2.2.mp ⟨_, h1⟩
  obtain ⟨l2, -, cz⟩ := (pair_distance_cases meth y z).2.2.mp ⟨_, h2⟩
  rw [pair_eq meth l1 rfl cx cy] at h1
  rw [pair_eq meth rfl l2.symm cy cz] at h2
  rw [pair_eq meth l1 l2.symm cx cz] at h3
  have e1 := Option.some.inj (Except.ok.inj h1)
  have e2 := Option.some.inj (Except.ok.inj h2)
  have e3 := Option.some.inj (Except.ok.inj h3)
  rw [← e1, ← e2, ← e3]
  exact formula_triangle meth (unitVec_norm l1 cx) (unitVec_norm rfl cy) (unitVec_norm l2.symm cz)

/-- C41. The distances are symmetric, whatever the outcome. -/
theorem pair_symm (meth : Method) (x y : List ℝ) : pairDistance meth x y = pairDistance meth y x := by
  by_cases hl : x.length = y.length
  · by_cases hc : Constant x ∨ Constant y
    · rw [(pair_distance_cases meth x y).2.1.mpr ⟨hl, hc⟩, (pair_distance_cases meth y x).2.1.mpr ⟨hl.symm, hc.symm⟩]
    · rw [not_or] at hc
      rw [pair_eq meth rfl hl.symm hc.1 hc.2, pair_eq meth hl.symm rfl hc.2 hc.1, real_inner_comm]
  · rw [(pair_distance_cases meth x y).1.mpr hl, (pair_distance_cases meth y x).1.mpr (Ne.symm hl)]

theorem mean_affine {x : List ℝ} (hx : x ≠ []) (a b : ℝ) : mean (x.map fun v => a * v + b) = a * mean x + b := by
  have hl : (0 : ℝ) < x.length := by exact_mod_cast List.length_pos_of_ne_nil hx
  have hs : (x.map fun v => a * v + b).sum = a * x.sum + x.length * b := by
    clear hx hl
    induction x with
    | nil => simp
    | cons c x ih =>
      rw [List.map_cons, List.sum_cons, ih, List.sum_cons, List.length_cons]
      push_cast; ring
  unfold mean
  rw [hs, List.length_map]
  field_simp

theorem cvec_affine {x : List ℝ} {n : Nat} (hx : x.length = n) (a b : ℝ) :
    cvec n (x.map fun v => a * v + b) = a • cvec n x := by
  subst hx
  ext i
  have hne : x ≠ [] := by
    rintro rfl
    exact absurd i.2 (by simp)
  simp only [cvec, PiLp.smul_apply, mean_affine hne, List.getD_eq_getElem?_getD, List.getElem?_map,
    List.getElem?_eq_getElem i.2, Option.map_some, Option.getD_some, smul_eq_mul]
  ring

/-- Two samples with proportional centred versions are affinely related. -/
theorem affine_of_cvec {x y : List ℝ} (hl : x.length = y.length) {a : ℝ}
    (h : cvec x.length y = a • cvec x.length x) : ∃ b, y = x.map fun v => a * v + b := by
  refine ⟨mean y - a * mean x, ?_⟩
  apply List.ext_getElem
  · rw [List.length_map, hl]
  · intro i h1 h2
    rw [List.length_map] at h2
    have := congrArg (fun v : EuclideanSpace ℝ (Fin x.length) => v ⟨i, h2⟩) h
    simp only [cvec, PiLp.smul_apply, List.getD_eq_getElem?_getD, List.getElem?_eq_getElem h1,
      List.getElem?_eq_getElem h2, Option.getD_some, smul_eq_mul] at this
    rw [List.getElem_map]
    linarith

theorem formula_eq_zero_iff (meth : Method) {ρ : ℝ} (h : |ρ| ≤ 1) :
    formula meth ρ = 0 ↔ ρ = 1 ∨ (ρ = -1 ∧ meth ≠ .angular) := by
  obtain ⟨h1, h2⟩ := abs_le.mp h
  cases meth
  · unfold formula
    dsimp only
    rw [Real.sqrt_eq_zero (by linarith)]
    simp only [ne_eq, not_true_eq_false, and_false, or_false]
    constructor <;> intro h <;> linarith
  · unfold formula
    dsimp only
    rw [Real.sqrt_eq_zero (by linarith)]
    simp only [ne_eq, reduceCtorEq, not_false_eq_true, and_true]
    rw [← abs_eq (by norm_num : (0 : ℝ) ≤ 1)]
    constructor <;> intro h <;> linarith
  · unfold formula
    dsimp only
    rw [Real.sqrt_eq_zero (by nlinarith)]
    simp only [ne_eq, reduceCtorEq, not_false_eq_true, and_true]
    constructor
    · intro h
      exact eq_or_eq_neg_of_sq_eq_sq ρ 1 (by linarith)
    · rintro (h | h) <;> rw [h] <;> norm_num

/-- C41. The distance of two non-constant samples is zero exactly if one is an affine function of the other — increasing
for the angular distance, increasing or decreasing for the other two. -/
theorem pair_zero_iff (meth : Method) {x y : List ℝ} (hl : x.length = y.length) (cx : ¬ Constant x)
    (cy : ¬ Constant y) : pairDistance meth x y = .ok (some 0) ↔
      ∃ a b : ℝ, y = x.map (fun v => a * v + b) ∧ (0 < a ∨ (a < 0 ∧ meth ≠ .angular)) := by
  have ux := unitVec_norm rfl cx
  have uy := unitVec_norm hl.symm cy
  have hin : |⟪unitVec x.length x, unitVec x.length y⟫_ℝ| ≤ 1 := by
    have := abs_real_inner_le_norm (unitVec x.length x) (unitVec x.length y)
    rwa [ux, uy, one_mul] at this
  have hx0 : ‖cvec x.length x‖ ≠ 0 := norm_ne_zero_iff.mpr fun h => cx ((cvec_eq_zero_iff rfl).mp h)
  have hy0 : ‖cvec x.length y‖ ≠ 0 := norm_ne_zero_iff.mpr fun h => cy ((cvec_eq_zero_iff hl.symm).mp h)
  have hxp : 0 < ‖cvec x.length x‖ := lt_of_le_of_ne (norm_nonneg _) (Ne.symm hx0)
  have hyp : 0 < ‖cvec x.length y‖ := lt_of_le_of_ne (norm_nonneg _) (Ne.symm hy0)
  rw [pair_eq meth rfl hl.symm cx cy, Except.ok.injEq, Option.some.injEq, formula_eq_zero_iff meth hin]
  have back : ∀ u : ℝ, unitVec x.length y = u • unitVec x.length x →
      cvec x.length y = (u * (‖cvec x.length y‖ / ‖cvec x.length x‖)) • cvec x.length x := by
    intro u h
    unfold unitVec at h
    have := congrArg (fun v => ‖cvec x.length y‖ • v) h
    simp only [smul_smul] at this
    rw [mul_inv_cancel₀ hy0, one_smul] at this
    refine this.trans ?_
    rw [div_eq_mul_inv]
    congr 1; ring
  constructor
  · rintro (h | ⟨h, hm⟩)
    · have heq := (inner_eq_one_iff_of_norm_eq_one ux uy).mp h
      obtain ⟨b, hb⟩ := affine_of_cvec hl (back 1 (by rw [one_smul, heq]))
      exact ⟨_, b, hb, .inl (by positivity)⟩
    · have heq : unitVec x.length x = -unitVec x.length y :=
        (inner_eq_one_iff_of_norm_eq_one (𝕜 := ℝ) ux (by rw [norm_neg, uy])).mp (by rw [inner_neg_right, h]; norm_num)
      obtain ⟨b, hb⟩ := affine_of_cvec hl (back (-1) (by rw [heq]; simp))
      refine ⟨_, b, hb, .inr ⟨?_, hm⟩⟩
      have : 0 < ‖cvec x.length y‖ / ‖cvec x.length x‖ := by positivity
      linarith
  · rintro ⟨a, b, hy, ha⟩
    have hc : cvec x.length y = a • cvec x.length x := by rw [hy, cvec_affine rfl]
    have hinner : ⟪unitVec x.length x, unitVec x.length y⟫_ℝ = a / |a| := by
      have ha0 : a ≠ 0 := by rcases ha with h | h; exacts [h.ne', h.1.ne]
      unfold unitVec
      rw [hc, norm_smul, real_inner_smul_right, real_inner_smul_right, real_inner_smul_left, real_inner_self_eq_norm_sq,
        Real.norm_eq_abs]
      have : |a| ≠ 0 := abs_ne_zero.mpr ha0
      field_simp
    rw [hinner]
    rcases ha with h | ⟨h, hm⟩
    · left; rw [abs_of_pos h, div_self h.ne']
    · right
      refine ⟨?_, hm⟩
      rw [abs_of_neg h, div_neg, div_self h.ne]

/-- The correlation of a sample with an affine image of it. -/
theorem corrcoef_affine {x : List ℝ} (cx : ¬ Constant x) {a : ℝ} (ha : a ≠ 0) (b : ℝ) :
    corrcoef x (x.map fun v => a * v + b) = .ok (.fin (if 0 < a then 1 else -1)) := by
  have hx0 : ‖cvec x.length x‖ ≠ 0 := norm_ne_zero_iff.mpr fun h => cx ((cvec_eq_zero_iff rfl).mp h)
  have hy : (x.map fun v => a * v + b).length = x.length := List.length_map _
  have hxx : coSum x x = ‖cvec x.length x‖ ^ 2 := coSum_self rfl
  have hyy : coSum (x.map fun v => a * v + b) (x.map fun v => a * v + b) = (|a| * ‖cvec x.length x‖) ^ 2 := by
    rw [coSum_self hy, cvec_affine rfl, norm_smul, Real.norm_eq_abs]
  have hxy : coSum x (x.map fun v => a * v + b) = a * ‖cvec x.length x‖ ^ 2 := by
    rw [coSum_eq_inner rfl hy, cvec_affine rfl, real_inner_smul_right, real_inner_self_eq_norm_sq]
  have ha' : |a| ≠ 0 := abs_ne_zero.mpr ha
  unfold corrcoef
  rw [if_neg (by rw [hy]; simp), if_neg, hxx, hyy, hxy, Real.sqrt_sq (norm_nonneg _),
    Real.sqrt_sq (mul_nonneg (abs_nonneg _) (norm_nonneg _)), clamp_eq]
  · have e : a * ‖cvec x.length x‖ ^ 2 / (‖cvec x.length x‖ * (|a| * ‖cvec x.length x‖)) = a / |a| := by
      field_simp
    rw [e]
    by_cases h : 0 < a
    · rw [if_pos h, abs_of_pos h, div_self ha, clampR_of_mem (by norm_num) le_rfl]
    · have h' : a < 0 := lt_of_le_of_ne (not_lt.mp h) ha
      rw [if_neg h, abs_of_neg h', div_neg, div_self ha, clampR_of_mem le_rfl (by norm_num)]
  · rw [hxx, hyy]
    rw [not_or]
    exact ⟨pow_ne_zero _ hx0, pow_ne_zero _ (mul_ne_zero ha' hx0)⟩

theorem coSum_comm {x y : List ℝ} (h : x.length = y.length) : coSum x y = coSum y x := by
  rw [coSum_eq_inner h rfl, coSum_eq_inner rfl h, real_inner_comm]

/-- The correlation is symmetric. -/
theorem corrcoef_comm (x y : List ℝ) : corrcoef x y = corrcoef y x := by
  unfold corrcoef
  by_cases h : x.length = y.length
  · rw [if_neg (not_not.mpr h), if_neg (not_not.mpr h.symm)]
    by_cases hc : coSum x x = 0 ∨ coSum y y = 0
    · rw [if_pos hc, if_pos hc.symm]
    · rw [if_neg hc, if_neg fun h' => hc h'.symm, coSum_comm h, mul_comm (Real.sqrt (coSum x x))]
  · rw [if_pos h, if_pos (Ne.symm h)]

/-- The correlation with a constant sample. -/
theorem corrcoef_constant {x y : List ℝ} (h : x.length = y.length) (hc : Constant x ∨ Constant y) :
    corrcoef x y = .ok .nan := by
  unfold corrcoef
  rw [if_neg (not_not.mpr h), if_pos (by rw [coSum_self_eq_zero_iff, coSum_self_eq_zero_iff]; exact hc)]

/-- C41. A non-constant sample has distance zero to itself. -/
theorem pair_self (meth : Method) {x : List ℝ} (cx : ¬ Constant x) : pairDistance meth x x = .ok (some 0) :=
  (pair_zero_iff meth rfl cx cx).mpr ⟨1, 0, by simp, .inl one_pos⟩

/-- A case: the samples `[1, 2, 4]` and `[5, 7, 11]` (twice the first plus three). -/
example : pairDistance .angular [1, 2, 4] [5, 7, 11] = .ok (some 0) := by
  refine (pair_zero_iff .angular (x := [1, 2, 4]) (y := [5, 7, 11]) rfl ?_ ?_).mpr ⟨2, 3, by norm_num, .inl (by norm_num)⟩
  · intro h
    have := h 1 (by simp) 2 (by simp)
    norm_num at this
  · intro h
    have := h 5 (by simp) 7 (by simp)
    norm_num at this

end Verif.Dist
