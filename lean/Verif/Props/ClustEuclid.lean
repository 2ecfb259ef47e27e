import Verif.Props.ClustUse
import Verif.Props.CorrDist
import Mathlib.Analysis.InnerProductSpace.Positive
import Mathlib.Analysis.InnerProductSpace.PiL2

/-!
# C92: Ward's method on points and on correlations

For points of a Euclidean space the sum of squares of Ward's method is the sum of the squared distances to the mean, and a merge
adds a multiple of the squared distance of the means. For the distances of a correlation matrix it is a statement on the mean
correlations within and between the clusters.
-/

namespace Verif.Clust

open Verif Ser Verif.Props.ClustSelect Verif.Props.ClustGap Verif.Props.ClustHC Classical Finset

/-! ### Points of a Euclidean space -/

section
variable {E : Type*} [NormedAddCommGroup E] [InnerProductSpace ℝ E]

/-- The mean of the points of a set. -/
noncomputable def centre (v : Nat → E) (A : Finset Nat) : E := ((A.card : ℝ))⁻¹ • ∑ i ∈ A, v i

theorem sum_centre (v : Nat → E) {A : Finset Nat} (hA : A.Nonempty) : ∑ i ∈ A, v i = (A.card : ℝ) • centre v A := by
  unfold centre
  rw [smul_smul, mul_inv_cancel₀ (by exact_mod_cast hA.card_pos.ne'), one_smul]

theorem sum_sq_sub (v : Nat → E) {A : Finset Nat} (hA : A.Nonempty) (x : E) :
    ∑ i ∈ A, ‖v i - x‖ ^ 2 = ∑ i ∈ A, ‖v i - centre v A‖ ^ 2 + A.card * ‖centre v A - x‖ ^ 2 := by
  have h : ∀ i, ‖v i - x‖ ^ 2 = ‖v i - centre v A‖ ^ 2 + 2 * inner ℝ (v i - centre v A) (centre v A - x) + ‖centre v A - x‖ ^ 2 := by
    intro i
    rw [← norm_add_sq_real, sub_add_sub_cancel]
  simp only [h]
  rw [sum_add_distrib, sum_add_distrib, ← mul_sum, ← sum_inner, sum_sub_distrib, sum_centre v hA, sum_const, sum_const, nsmul_eq_mul]
  rw [← Nat.cast_smul_eq_nsmul ℝ, sub_self, inner_zero_left]
  ring

/-- C92. For points of a Euclidean space the sum of squares within a set is the sum of the squared distances to the mean of the set. -/
theorem wss_euclid (v : Nat → E) {D : Nat → Nat → ℝ} {A : Finset Nat} (hA : A.Nonempty) (hD : ∀ i ∈ A, ∀ j ∈ A, D i j = ‖v i - v j‖) :
    wss D A = ∑ i ∈ A, ‖v i - centre v A‖ ^ 2 := by
  have hc : (A.card : ℝ) ≠ 0 := by exact_mod_cast hA.card_pos.ne'
  unfold wss
  have e : ∑ i ∈ A, ∑ j ∈ A, D i j ^ 2 = 2 * A.card * ∑ i ∈ A, ‖v i - centre v A‖ ^ 2 := by
    have : ∀ j ∈ A, ∑ i ∈ A, D i j ^ 2 = ∑ i ∈ A, ‖v i - centre v A‖ ^ 2 + A.card * ‖v j - centre v A‖ ^ 2 := by
      intro j hj
      rw [← norm_sub_rev (centre v A) (v j), ← sum_sq_sub v hA]
      exact sum_congr rfl fun i hi => by rw [hD i hi j hj]
    rw [sum_comm, sum_congr rfl this, sum_add_distrib, ← mul_sum, sum_const, nsmul_eq_mul]
    ring
  rw [e]
  field_simp

/-- C92. A merge of two sets of points adds the squared distance of their means, times `a b / (a + b)` for the sizes `a`, `b`. -/
theorem wss_union (v : Nat → E) {D : Nat → Nat → ℝ} {A B : Finset Nat} (hA : A.Nonempty) (hB : B.Nonempty) (hAB : Disjoint A B)
    (hD : ∀ i ∈ A ∪ B, ∀ j ∈ A ∪ B, D i j = ‖v i - v j‖) :
    wss D (A ∪ B) = wss D A + wss D B + (A.card * B.card / (A.card + B.card)) * ‖centre v A - centre v B‖ ^ 2 := by
  have ca : (0 : ℝ) < A.card := by exact_mod_cast hA.card_pos
  have cb : (0 : ℝ) < B.card := by exact_mod_cast hB.card_pos
  have hAB' : (A ∪ B).Nonempty := hA.mono subset_union_left
  rw [wss_euclid v hAB' hD, wss_euclid v hA fun i hi j hj => hD i (mem_union_left _ hi) j (mem_union_left _ hj),
    wss_euclid v hB fun i hi j hj => hD i (mem_union_right _ hi) j (mem_union_right _ hj), sum_union hAB, sum_sq_sub v hA, sum_sq_sub v hB]
  have hm : centre v (A ∪ B) = ((A.card : ℝ) + B.card)⁻¹ • ((A.card : ℝ) • centre v A + (B.card : ℝ) • centre v B) := by
    rw [← sum_centre v hA, ← sum_centre v hB, ← sum_union hAB, centre, card_union_of_disjoint hAB]
    push_cast
    rfl
  have e1 : centre v A - centre v (A ∪ B) = ((B.card : ℝ) / (A.card + B.card)) • (centre v A - centre v B) := by
    rw [hm]
    have : centre v A = ((A.card : ℝ) + B.card)⁻¹ • (((A.card : ℝ) + B.card) • centre v A) := by
      rw [smul_smul, inv_mul_cancel₀ (by positivity), one_smul]
    nth_rw 1 [this]
    rw [← smul_sub, div_eq_inv_mul, ← smul_smul]
    congr 1
    rw [add_smul, smul_sub]
    abel
  have e2 : centre v B - centre v (A ∪ B) = (-((A.card : ℝ) / (A.card + B.card))) • (centre v A - centre v B) := by
    rw [hm]
    have : centre v B = ((A.card : ℝ) + B.card)⁻¹ • (((A.card : ℝ) + B.card) • centre v B) := by
      rw [smul_smul, inv_mul_cancel₀ (by positivity), one_smul]
    nth_rw 1 [this]
    rw [← smul_sub, div_eq_inv_mul, neg_smul, ← smul_smul, ← smul_neg]
    congr 1
    rw [add_smul, smul_sub]
    abel
  rw [e1, e2, norm_smul, norm_smul, mul_pow, mul_pow, Real.norm_eq_abs, Real.norm_eq_abs, sq_abs, sq_abs]
  field_simp
  ring

theorem cluster_disjoint {n : Nat} {g : List Nat} {p q : Nat} (h : lab g p ≠ lab g q) : Disjoint (cluster n g p) (cluster n g q) := by
  rw [disjoint_left]
  intro i h1 h2
  unfold cluster at h1 h2
  rw [mem_filter] at h1 h2
  exact h (h1.2.symm.trans h2.2)

theorem cluster_nonempty {n : Nat} {g : List Nat} {p : Nat} (hp : p < n) : (cluster n g p).Nonempty :=
  ⟨p, by unfold cluster; rw [mem_filter, mem_range]; exact ⟨hp, rfl⟩⟩

theorem cluster_lt {n : Nat} {g : List Nat} {p i : Nat} (h : i ∈ cluster n g p) : i < n := by
  unfold cluster at h
  rw [mem_filter, mem_range] at h
  exact h.1

/-- C92. Ward's method on the distances of points: the means of any two of the clusters are far apart, the farther the smaller
the clusters are. -/
theorem ward_means (v : Nat → E) {n : Nat} (hn : 2 ≤ n) {D : Nat → Nat → ℝ} (hD : ∀ i < n, ∀ j < n, D i j = ‖v i - v j‖)
    {Z : List Row} (h : IsLinkage .ward n D Z) {k : Nat} (h1 : 1 ≤ k) (hk : k ≤ n) {c : ℝ} (hc0 : 0 ≤ c)
    (hc : (Z.filter fun r => decide (r.d ≤ c)).length = n - k) {p q : Nat} (hp : p < n) (hq : q < n)
    (hne : lab (cutLabels Z k) p ≠ lab (cutLabels Z k) q) :
    c ^ 2 / 2 * (1 / (cluster n (cutLabels Z k) p).card + 1 / (cluster n (cutLabels Z k) q).card) <
      ‖centre v (cluster n (cutLabels Z k) p) - centre v (cluster n (cutLabels Z k) q)‖ ^ 2 := by
  have e := ward_clusters hn (fun i hi j hj => by rw [hD i hi j hj, hD j hj i hi, norm_sub_rev]) (fun i hi => by rw [hD i hi i hi, sub_self, norm_zero])
    (fun i hi j hj => by rw [hD i hi j hj]; exact norm_nonneg _) h h1 hk hc0 hc hp hq hne
  have hA := cluster_nonempty (g := cutLabels Z k) hp
  have hB := cluster_nonempty (g := cutLabels Z k) hq
  rw [wss_union v hA hB (cluster_disjoint hne) fun i hi j hj => hD i ?_ j ?_] at e
  · have ca : (0 : ℝ) < (cluster n (cutLabels Z k) p).card := by exact_mod_cast hA.card_pos
    have cb : (0 : ℝ) < (cluster n (cutLabels Z k) q).card := by exact_mod_cast hB.card_pos
    generalize ((cluster n (cutLabels Z k) p).card : ℝ) = a at *
    generalize ((cluster n (cutLabels Z k) q).card : ℝ) = b at *
    have e' : c ^ 2 / 2 < a * b / (a + b) * ‖centre v (cluster n (cutLabels Z k) p) - centre v (cluster n (cutLabels Z k) q)‖ ^ 2 := by linarith
    have hs : 1 / a + 1 / b = (a * b / (a + b))⁻¹ := by field_simp; ring
    rw [hs, ← div_eq_mul_inv, div_lt_iff₀ (by positivity), mul_comm]
    exact e'
  · rcases mem_union.mp hi with h | h <;> exact cluster_lt h
  · rcases mem_union.mp hj with h | h <;> exact cluster_lt h

end

/-! ### Correlations -/

/-- The mean of a function over the pairs of two sets. -/
noncomputable def pairMean (f : Nat → Nat → ℝ) (A B : Finset Nat) : ℝ := (∑ i ∈ A, ∑ j ∈ B, f i j) / (A.card * B.card)

/-- The similarity that a distance measures: the correlation, its absolute value or its square. -/
noncomputable def similarity : Dist.Method → ℝ → ℝ
  | .angular, x => x
  | .absAngular, x => |x|
  | .squaredAngular, x => x ^ 2

/-- The factor of the squared distance. -/
noncomputable def scaleOf : Dist.Method → ℝ
  | .angular => 1 / 2
  | _ => 1

theorem formula_sq (meth : Dist.Method) {x : ℝ} (h1 : -1 ≤ x) (h2 : x ≤ 1) : Dist.formula meth x ^ 2 = scaleOf meth * (1 - similarity meth x) := by
  have h3 : |x| ≤ 1 := abs_le.mpr ⟨h1, h2⟩
  cases meth
  · show √((1 - x) / 2) ^ 2 = 1 / 2 * (1 - x)
    rw [Real.sq_sqrt (by linarith)]
    ring
  · show √(1 - |x|) ^ 2 = 1 * (1 - |x|)
    rw [Real.sq_sqrt (by linarith), one_mul]
  · show √(1 - x ^ 2) ^ 2 = 1 * (1 - x ^ 2)
    rw [Real.sq_sqrt (by nlinarith), one_mul]

theorem scaleOf_pos (meth : Dist.Method) : 0 < scaleOf meth := by cases meth <;> norm_num [scaleOf]

theorem wss_sim {D f : Nat → Nat → ℝ} {w : ℝ} {A : Finset Nat} (hA : A.Nonempty) (h : ∀ i ∈ A, ∀ j ∈ A, D i j ^ 2 = w * (1 - f i j)) :
    wss D A = w * (A.card - (∑ i ∈ A, ∑ j ∈ A, f i j) / A.card) / 2 := by
  have hc : (A.card : ℝ) ≠ 0 := by exact_mod_cast hA.card_pos.ne'
  unfold wss
  rw [sum_congr rfl fun i hi => sum_congr rfl fun j hj => h i hi j hj]
  simp only [← mul_sum, sum_sub_distrib, sum_const, nsmul_eq_mul, mul_one]
  field_simp

/-- C92. Ward's method on the distances of a symmetric matrix of correlations: for any two of the clusters the mean of the
similarity over the pairs between them is smaller than the average of its means within them. The similarity is the
correlation for the angular distance, its absolute value and its square for the others. -/
theorem ward_correlation (meth : Dist.Method) {n : Nat} (hn : 2 ≤ n) {ρ : Nat → Nat → ℝ} (hs : ∀ i < n, ∀ j < n, ρ i j = ρ j i) (hd : ∀ i < n, ρ i i = 1)
    (hb : ∀ i < n, ∀ j < n, |ρ i j| ≤ 1) {D : Nat → Nat → ℝ} (hD : ∀ i < n, ∀ j < n, D i j = Dist.formula meth (ρ i j))
    {Z : List Row} (h : IsLinkage .ward n D Z) {k : Nat} (h1 : 1 ≤ k) (hk : k ≤ n) {c : ℝ} (hc0 : 0 ≤ c)
    (hc : (Z.filter fun r => decide (r.d ≤ c)).length = n - k) {p q : Nat} (hp : p < n) (hq : q < n)
    (hne : lab (cutLabels Z k) p ≠ lab (cutLabels Z k) q) {A B : Finset Nat} (eA : A = cluster n (cutLabels Z k) p)
    (eB : B = cluster n (cutLabels Z k) q) :
    pairMean (fun i j => similarity meth (ρ i j)) A B + c ^ 2 / (2 * scaleOf meth) * (1 / A.card + 1 / B.card) <
      (pairMean (fun i j => similarity meth (ρ i j)) A A + pairMean (fun i j => similarity meth (ρ i j)) B B) / 2 := by
  have hA : A.Nonempty := eA ▸ cluster_nonempty hp
  have hB : B.Nonempty := eB ▸ cluster_nonempty hq
  have lA : ∀ i ∈ A, i < n := fun i hi => cluster_lt (eA ▸ hi)
  have lB : ∀ i ∈ B, i < n := fun i hi => cluster_lt (eB ▸ hi)
  have hAB : Disjoint A B := by rw [eA, eB]; exact cluster_disjoint hne
  have h2 : ∀ i < n, ∀ j < n, D i j ^ 2 = scaleOf meth * (1 - similarity meth (ρ i j)) := fun i hi j hj => by
    rw [hD i hi j hj, formula_sq meth (abs_le.mp (hb i hi j hj)).1 (abs_le.mp (hb i hi j hj)).2]
  have e := ward_clusters hn (fun i hi j hj => by rw [hD i hi j hj, hD j hj i hi, hs i hi j hj])
    (fun i hi => by rw [hD i hi i hi, hd i hi]; cases meth <;> simp [Dist.formula])
    (fun i hi j hj => by rw [hD i hi j hj]; exact (Dist.formula_mem meth (abs_le.mp (hb i hi j hj)).1 (abs_le.mp (hb i hi j hj)).2).1) h h1 hk hc0 hc hp hq hne
  rw [← eA, ← eB] at e
  have lU : ∀ i ∈ A ∪ B, i < n := fun i hi => (mem_union.mp hi).elim (lA i) (lB i)
  rw [wss_sim hA fun i hi j hj => h2 i (lA i hi) j (lA j hj), wss_sim hB fun i hi j hj => h2 i (lB i hi) j (lB j hj),
    wss_sim (hA.mono subset_union_left) fun i hi j hj => h2 i (lU i hi) j (lU j hj), card_union_of_disjoint hAB, sum_union hAB,
    sum_congr rfl fun i _ => sum_union hAB, sum_congr (s₁ := B) rfl fun i _ => sum_union hAB, sum_add_distrib, sum_add_distrib] at e
  have sym : ∑ i ∈ B, ∑ j ∈ A, similarity meth (ρ i j) = ∑ i ∈ A, ∑ j ∈ B, similarity meth (ρ i j) := by
    rw [sum_comm]
    exact sum_congr rfl fun i hi => sum_congr rfl fun j hj => by rw [hs i (lA i hi) j (lB j hj)]
  rw [sym] at e
  unfold pairMean
  have ca : (0 : ℝ) < A.card := by exact_mod_cast hA.card_pos
  have cb : (0 : ℝ) < B.card := by exact_mod_cast hB.card_pos
  have w0 := scaleOf_pos meth
  push_cast at e
  generalize (A.card : ℝ) = a at *
  generalize (B.card : ℝ) = b at *
  generalize ∑ i ∈ A, ∑ j ∈ A, similarity meth (ρ i j) = x at *
  generalize ∑ i ∈ A, ∑ j ∈ B, similarity meth (ρ i j) = y at *
  generalize ∑ i ∈ B, ∑ j ∈ B, similarity meth (ρ i j) = z at *
  generalize scaleOf meth = w at *
  have e' : c ^ 2 / 2 < (w * (a * b / (a + b))) * (((x / (a * a) + z / (b * b)) / 2) - y / (a * b)) := by
    have : (w * (a * b / (a + b))) * (((x / (a * a) + z / (b * b)) / 2) - y / (a * b)) =
        w * (a + b - (x + y + (y + z)) / (a + b)) / 2 - (w * (a - x / a) / 2 + w * (b - z / b) / 2) := by
      field_simp
      ring
    linarith
  have hs' : c ^ 2 / (2 * w) * (1 / a + 1 / b) = c ^ 2 / 2 / (w * (a * b / (a + b))) := by field_simp; ring
  rw [hs', ← lt_sub_iff_add_lt', div_lt_iff₀ (by positivity), mul_comm]
  exact e'

/-! ### Which distances are those of points -/

/-- A positive semidefinite matrix is the matrix of inner products of points. -/
theorem gram_points {ι : Type*} [Fintype ι] {R : Matrix ι ι ℝ} (hR : R.PosSemidef) :
    ∃ (m : Nat) (u : ι → EuclideanSpace ℝ (Fin m)), ∀ i j, inner ℝ (u i) (u j) = R i j := by
  obtain ⟨m, v, hv⟩ := Matrix.posSemidef_iff_eq_sum_vecMulVec.mp hR
  refine ⟨m, fun i => WithLp.toLp 2 fun k => v k i, fun i j => ?_⟩
  rw [hv, Matrix.sum_apply, PiLp.inner_apply]
  refine sum_congr rfl fun k _ => ?_
  simp [Matrix.vecMulVec_apply, mul_comm]

theorem gram_dist {E : Type*} [NormedAddCommGroup E] [InnerProductSpace ℝ E] {x y : E} {r : ℝ} (hx : inner ℝ x x = (1 : ℝ)) (hy : inner ℝ y y = (1 : ℝ))
    (h : inner ℝ x y = r) : ‖x - y‖ ^ 2 = 2 * (1 - r) := by
  rw [norm_sub_sq_real, h, ← real_inner_self_eq_norm_sq, ← real_inner_self_eq_norm_sq, hx, hy]
  ring

theorem corr_abs_le {ι : Type*} [Fintype ι] {R : Matrix ι ι ℝ} (hR : R.PosSemidef) (hd : ∀ i, R i i = 1) (i j : ι) : |R i j| ≤ 1 := by
  obtain ⟨m, u, hu⟩ := gram_points hR
  have n1 : ∀ i, ‖u i‖ = 1 := fun i => by
    have := hu i i
    rw [real_inner_self_eq_norm_sq, hd] at this
    exact (pow_eq_one_iff_of_nonneg (norm_nonneg _) two_ne_zero).mp this
  have := abs_real_inner_le_norm (u i) (u j)
  rwa [hu, n1, n1, one_mul] at this

/-- C92. The angular and the squared angular distances of a correlation matrix (positive semidefinite, ones on the diagonal) are
the distances of points of a Euclidean space, so `wss_euclid` and `ward_means` are about them. -/
theorem angular_points {ι : Type*} [Fintype ι] {R : Matrix ι ι ℝ} (hR : R.PosSemidef) (hd : ∀ i, R i i = 1) {meth : Dist.Method} (hm : meth ≠ .absAngular) :
    ∃ (m : Nat) (v : ι → EuclideanSpace ℝ (Fin m)), ∀ i j, Dist.formula meth (R i j) = ‖v i - v j‖ := by
  have key : ∀ {S : Matrix ι ι ℝ}, S.PosSemidef → (∀ i, S i i = 1) → (∀ i j, similarity meth (R i j) = S i j) →
      ∃ (m : Nat) (v : ι → EuclideanSpace ℝ (Fin m)), ∀ i j, Dist.formula meth (R i j) = ‖v i - v j‖ := by
    intro S hS h1 hsim
    obtain ⟨m, u, hu⟩ := gram_points hS
    refine ⟨m, fun i => √(scaleOf meth / 2) • u i, fun i j => ?_⟩
    have hb := corr_abs_le hR hd i j
    have h0 := (Dist.formula_mem meth (abs_le.mp hb).1 (abs_le.mp hb).2).1
    rw [← smul_sub, ← sq_eq_sq₀ h0 (norm_nonneg _), formula_sq meth (abs_le.mp hb).1 (abs_le.mp hb).2, norm_smul, mul_pow, Real.norm_eq_abs, sq_abs,
      Real.sq_sqrt (by have := scaleOf_pos meth; positivity), gram_dist ((hu i i).trans (h1 i)) ((hu j j).trans (h1 j)) (hu i j), hsim]
    ring
  cases meth with
  | angular => exact key hR hd fun i j => rfl
  | absAngular => exact absurd rfl hm
  | squaredAngular =>
    obtain ⟨m, u, hu⟩ := gram_points hR
    refine key (S := Matrix.of fun i j => R i j ^ 2) ?_ (fun i => by simp [hd]) fun i j => rfl
    refine Matrix.posSemidef_iff_eq_sum_vecMulVec.mpr ⟨m * m, fun k i => u i (finProdFinEquiv.symm k).1 * u i (finProdFinEquiv.symm k).2, ?_⟩
    ext i j
    rw [Matrix.sum_apply, Matrix.of_apply, ← hu, PiLp.inner_apply, sq, sum_mul_sum, ← Fintype.sum_prod_type', ← finProdFinEquiv.sum_comp]
    refine sum_congr rfl fun k _ => ?_
    simp only [Matrix.vecMulVec_apply, star_trivial, Equiv.symm_apply_apply]
    simp
    ring

/-- Four correlated series: neighbours have the correlation 3/5, except the last and the first with -3/5. -/
noncomputable def ringCorr : Matrix (Fin 4) (Fin 4) ℝ :=
  !![1, 3 / 5, 0, -(3 / 5); 3 / 5, 1, 3 / 5, 0; 0, 3 / 5, 1, 3 / 5; -(3 / 5), 0, 3 / 5, 1]

theorem ringCorr_posSemidef : ringCorr.PosSemidef := by
  refine Matrix.PosSemidef.of_dotProduct_mulVec_nonneg ?_ fun x => ?_
  · ext i j
    fin_cases i <;> fin_cases j <;> simp [ringCorr]
  · simp only [ringCorr, Matrix.mulVec, dotProduct, Fin.sum_univ_four, Pi.star_apply, star_trivial, Matrix.of_apply, Matrix.cons_val]
    nlinarith [sq_nonneg (x 1 + 3 / 5 * (x 0 + x 2)), sq_nonneg (x 3 + 3 / 5 * (x 2 - x 0)), sq_nonneg (x 0), sq_nonneg (x 2)]

theorem ringCorr_abs (i j : Fin 4) : 1 - |ringCorr i j| = if i.1 = j.1 then 0 else if (i.1 + j.1) % 2 = 1 then 2 / 5 else 1 := by
  fin_cases i <;> fin_cases j <;> simp [ringCorr] <;> norm_num [abs_of_pos]

/-- C92, limit. The absolute angular distances of a correlation matrix need not be distances of points: the diagonals of this
ring are too long for its sides. The sum of squares of Ward's method is then not a sum of squares; here merging two pairs
makes it smaller. -/
theorem abs_angular_no_points : ringCorr.PosSemidef ∧ (∀ i, ringCorr i i = 1) ∧
    (¬ ∃ (m : Nat) (v : Fin 4 → EuclideanSpace ℝ (Fin m)), ∀ i j, Dist.formula .absAngular (ringCorr i j) = ‖v i - v j‖) ∧
    ∀ D : Nat → Nat → ℝ, (∀ i j : Fin 4, D i j = Dist.formula .absAngular (ringCorr i j)) → wss D {0, 1, 2, 3} < wss D {0, 2} + wss D {1, 3} := by
  have hsq : ∀ i j, Dist.formula .absAngular (ringCorr i j) ^ 2 = 1 - |ringCorr i j| := by
    intro i j
    have := formula_sq .absAngular (x := ringCorr i j) (by fin_cases i <;> fin_cases j <;> norm_num [ringCorr])
      (by fin_cases i <;> fin_cases j <;> norm_num [ringCorr])
    simpa [scaleOf, similarity] using this
  refine ⟨ringCorr_posSemidef, by intro i; fin_cases i <;> rfl, ?_, ?_⟩
  · rintro ⟨m, v, hv⟩
    have h : ∀ i j, ‖v i - v j‖ ^ 2 = if i.1 = j.1 then 0 else if (i.1 + j.1) % 2 = 1 then 2 / 5 else 1 :=
      fun i j => by rw [← hv, hsq, ringCorr_abs]
    have e01 := h 0 1
    have e12 := h 1 2
    have e23 := h 2 3
    have e30 := h 3 0
    norm_num at e01 e12 e23 e30
    have e02 : ‖v 0 - v 2‖ ^ 2 = 1 := (h 0 2).trans (by norm_num)
    have e13 : ‖v 1 - v 3‖ ^ 2 = 1 := (h 1 3).trans (by norm_num)
    have hp : 0 ≤ ‖v 0 - v 1 + (v 2 - v 3)‖ ^ 2 := sq_nonneg _
    simp only [norm_add_sq_real, norm_sub_sq_real, inner_sub_left, inner_sub_right] at *
    linarith [real_inner_comm (v 0) (v 3), real_inner_comm (v 0) (v 2), real_inner_comm (v 1) (v 2)]
  · intro D hD
    have h : ∀ i j : Fin 4, D i j ^ 2 = if i.1 = j.1 then 0 else if (i.1 + j.1) % 2 = 1 then 2 / 5 else 1 :=
      fun i j => by rw [hD, hsq, ringCorr_abs]
    have c4 : ({0, 1, 2, 3} : Finset Nat).card = 4 := rfl
    have c2 : ({0, 2} : Finset Nat).card = 2 := rfl
    have c2' : ({1, 3} : Finset Nat).card = 2 := rfl
    have e00 : D 0 0 ^ 2 = 0 := (h 0 0).trans (by norm_num)
    have e01 : D 0 1 ^ 2 = 2 / 5 := (h 0 1).trans (by norm_num)
    have e02 : D 0 2 ^ 2 = 1 := (h 0 2).trans (by norm_num)
    have e03 : D 0 3 ^ 2 = 2 / 5 := (h 0 3).trans (by norm_num)
    have e10 : D 1 0 ^ 2 = 2 / 5 := (h 1 0).trans (by norm_num)
    have e11 : D 1 1 ^ 2 = 0 := (h 1 1).trans (by norm_num)
    have e12 : D 1 2 ^ 2 = 2 / 5 := (h 1 2).trans (by norm_num)
    have e13 : D 1 3 ^ 2 = 1 := (h 1 3).trans (by norm_num)
    have e20 : D 2 0 ^ 2 = 1 := (h 2 0).trans (by norm_num)
    have e21 : D 2 1 ^ 2 = 2 / 5 := (h 2 1).trans (by norm_num)
    have e22 : D 2 2 ^ 2 = 0 := (h 2 2).trans (by norm_num)
    have e23 : D 2 3 ^ 2 = 2 / 5 := (h 2 3).trans (by norm_num)
    have e30 : D 3 0 ^ 2 = 2 / 5 := (h 3 0).trans (by norm_num)
    have e31 : D 3 1 ^ 2 = 1 := (h 3 1).trans (by norm_num)
    have e32 : D 3 2 ^ 2 = 2 / 5 := (h 3 2).trans (by norm_num)
    have e33 : D 3 3 ^ 2 = 0 := (h 3 3).trans (by norm_num)
    unfold wss
    rw [c4, c2, c2']
    have s4 : ∀ f : Nat → ℝ, ∑ j ∈ ({0, 1, 2, 3} : Finset Nat), f j = f 0 + (f 1 + (f 2 + f 3)) := fun f => by
      rw [sum_insert (by decide), sum_insert (by decide), sum_insert (by decide), sum_singleton]
    have s2 : ∀ f : Nat → ℝ, ∑ j ∈ ({0, 2} : Finset Nat), f j = f 0 + f 2 := fun f => by rw [sum_insert (by decide), sum_singleton]
    have s3 : ∀ f : Nat → ℝ, ∑ j ∈ ({1, 3} : Finset Nat), f j = f 1 + f 3 := fun f => by rw [sum_insert (by decide), sum_singleton]
    simp only [s4, s2, s3, e00, e01, e02, e03, e10, e11, e12, e13, e20, e21, e22, e23, e30, e31, e32, e33]
    norm_num

/-! ### The class on a correlation matrix -/

/-- C92. `HC(corr=..., linkage_method="ward")` on a symmetric correlation matrix with one of the three distances:
`get_clusters(k)` gives clusters for which the mean similarity over the pairs between any two of them is smaller than the
average of the means within them. -/
theorem hc_correlation (pdCorr : Dist.Table → String → Dist.Table) (X : Option Dist.CorrArg) (rng : Int → Nat → ℝ)
    {scipy : Dist.Table → String → Bool → Py (List Row)} (hs : LinkageSpec scipy) {m : Dist.Table} {n : Nat} (hn : 2 ≤ n)
    (hr : m.rows = n) (hcl : m.cols = n) {ρ : Nat → Nat → ℝ} (hm : ∀ i < n, ∀ j < n, m.at_ i j = .fin (ρ i j))
    (hsy : ∀ i < n, ∀ j < n, ρ i j = ρ j i) (hd : ∀ i < n, ρ i i = 1) (hb : ∀ i < n, ∀ j < n, |ρ i j| ≤ 1) {codep name : String} {meth : Dist.Method}
    (hco : codep = "pearson-correlation" ∨ codep = "spearman-correlation") (hname : Dist.parseMethod name = some meth) (ord : Bool) :
    ∃ (o : HC (List Row)) (Z : List Row), HC.init pdCorr X (some (.array m)) none codep name "ward" ord = .ok o ∧ (o.linkage scipy).1 = .ok Z ∧
      (∀ k : Int, (o.step rng scipy cutLabels (.clusters k)).1 = .ok (.labels (cutLabels Z k))) ∧
      ∀ k : Nat, 1 ≤ k → k ≤ n → ∀ c : ℝ, 0 ≤ c → (Z.filter fun r => decide (r.d ≤ c)).length = n - k → ∀ p < n, ∀ q < n,
        lab (cutLabels Z k) p ≠ lab (cutLabels Z k) q → ∀ A B, A = cluster n (cutLabels Z k) p → B = cluster n (cutLabels Z k) q →
        pairMean (fun i j => similarity meth (ρ i j)) A B + c ^ 2 / (2 * scaleOf meth) * (1 / A.card + 1 / B.card) <
          (pairMean (fun i j => similarity meth (ρ i j)) A A + pairMean (fun i j => similarity meth (ρ i j)) B B) / 2 := by
  have hv : Dist.ValidMatrix m := by
    refine ⟨hr.trans hcl.symm, fun i j hi hj => ?_, fun i hi => ?_⟩
    · rw [hm i (hr ▸ hi) j (hr ▸ hj), hm j (hr ▸ hj) i (hr ▸ hi), hsy i (hr ▸ hi) j (hr ▸ hj)]
      show |_ - _| ≤ _
      rw [sub_self, abs_zero]
      positivity
    · rw [hm i (hr ▸ hi) i (hr ▸ hi), hd i (hr ▸ hi)]
  obtain ⟨d, hd1, hd2, hd3, -, -⟩ := Dist.array_dist (meth := meth) (m := m) (r := _) (by unfold Dist.corrToDistance; dsimp only; rw [if_pos hv])
  have hentry : ∀ i < n, ∀ j < n, d i j = some (Dist.formula meth (ρ i j)) := fun i hi j hj => by
    have hbb := abs_le.mp (hb i hi j hj)
    rw [hd3 i j (hr ▸ hi) (hr ▸ hj), hm i hi j hj, Dist.dist_fin, Dist.clampR_of_mem hbb.1 hbb.2]
  have hinit : (HC.init pdCorr X (some (.array m)) none codep name "ward" ord : Py (HC (List Row))) =
      .ok ⟨.table ⟨m.rows, m.rows, fun i j => ofOpt (d i j)⟩, "ward", ord, none⟩ := by
    have h1 : Dist.corrToDist (.array m) name = .ok (.array m.rows m.rows d) := by
      unfold Dist.corrToDist
      rw [hname]
      have : Dist.validate2D (.array m) = .ok () := by
        unfold Dist.validate2D
        dsimp only
        rw [if_neg (by omega)]
      rw [this]
      show Dist.corrToDistance meth (.array m) = _
      unfold Dist.corrToDistance
      dsimp only
      rw [if_pos hv, hd1]
    unfold HC.init computeDist
    dsimp only
    rw [if_pos hco, h1]
    rfl
  have hdist : IsDist ⟨m.rows, m.rows, fun i j => ofOpt (d i j)⟩ n fun i j => Dist.formula meth (ρ i j) := by
    refine ⟨hr, hr, fun i j hi hj => ?_, fun i j hi hj => ?_, fun i hi => ?_⟩
    · show ofOpt (d i j) = _
      rw [hentry i hi j hj]
      rfl
    · rw [hsy i hi j hj]
    · rw [hd i hi]
      cases meth <;> simp [Dist.formula]
  obtain ⟨Z, hZ, hl⟩ := hc_linkage hs hn hdist (method := "ward") (meth := .ward) rfl ord
  refine ⟨_, Z, hinit, by rw [hl], fun k => ?_, fun k h1 hk c hc0 hc p hp q hq hne A B eA eB => ?_⟩
  · unfold HC.step
    dsimp only
    rw [hl]
    rfl
  · exact ward_correlation meth hn hsy hd hb (fun i _ j _ => rfl) hZ h1 hk hc0 hc hp hq hne eA eB

/-! ### A case: three series, two of them correlated -/

/-- Two series with the correlation 1/2 and a third one with the correlation 0 to both. -/
noncomputable def triRho (i j : Nat) : ℝ := if i = j then 1 else if i = 2 ∨ j = 2 then 0 else 1 / 2

/-- Their angular distances. -/
noncomputable def triRhoD (i j : Nat) : ℝ := Dist.formula .angular (triRho i j)

/-- The merges of Ward's method. -/
noncomputable def triRhoZ : List Row := [⟨0, 1, 1 / 2⟩, ⟨2, 3, √(7 / 12)⟩]

theorem triRho_linkage : IsLinkage .ward 3 triRhoD triRhoZ := by
  have e : ∀ x, (Agg.init 3 triRhoD).D x = triRhoD x := fun _ => rfl
  have l0 : (Agg.init 3 triRhoD).trees.length = 3 := rfl
  have v1 : Dist.formula .angular (1 / 2) = 1 / 2 := by
    show √((1 - 1 / 2) / 2) = 1 / 2
    rw [Real.sqrt_eq_iff_mul_self_eq (by norm_num) (by norm_num)]
    norm_num
  have v0 : Dist.formula .angular 0 = √(1 / 2) := by
    show √((1 - 0) / 2) = _
    norm_num
  have hv : (1 / 2 : ℝ) ≤ √(1 / 2) := Real.le_sqrt_of_sq_le (by norm_num)
  have c1 : (Agg.init 3 triRhoD).Closest ⟨0, 1, 1 / 2⟩ := by
    refine ⟨by simp [Agg.init], by simp [Agg.init], by simp, ?_, ?_⟩
    · rw [e]
      simp only [triRhoD, triRho]
      norm_num
      exact (v1.symm.trans (by norm_num))
    · intro x hx y hy hne
      rw [e]
      unfold triRhoD triRho
      rw [if_neg hne]
      split
      · rw [v0]; exact hv
      · rw [v1]
  have hmem : ∀ x, x ∈ ((Agg.init 3 triRhoD).merge .ward ⟨0, 1, 1 / 2⟩).live ↔ x = 3 ∨ x = 2 := by
    intro x
    rw [Agg.mem_merge, l0, live_init]
    dsimp only
    omega
  have d32 : ((Agg.init 3 triRhoD).merge .ward ⟨0, 1, 1 / 2⟩).D 3 2 = √(7 / 12) := by
    have := Agg.D_new (m := .ward) (s := Agg.init 3 triRhoD) (r := ⟨0, 1, 1 / 2⟩) (x := 2)
    rw [l0] at this
    rw [this]
    have s0 : (Agg.init 3 triRhoD).sz 0 = 1 := by unfold Agg.sz; rw [pts_init triRhoD (by norm_num)]; simp
    have s1 : (Agg.init 3 triRhoD).sz 1 = 1 := by unfold Agg.sz; rw [pts_init triRhoD (by norm_num)]; simp
    have s2 : (Agg.init 3 triRhoD).sz 2 = 1 := by unfold Agg.sz; rw [pts_init triRhoD (by norm_num)]; simp
    have t1 : triRhoD 0 1 ^ 2 = 1 / 4 := by
      rw [show triRhoD 0 1 = Dist.formula .angular (1 / 2) by simp [triRhoD, triRho], v1]; norm_num
    have t2 : triRhoD 0 2 ^ 2 = 1 / 2 := by
      rw [show triRhoD 0 2 = Dist.formula .angular 0 by simp [triRhoD, triRho], v0, Real.sq_sqrt (by norm_num)]
    have t3 : triRhoD 1 2 ^ 2 = 1 / 2 := by
      rw [show triRhoD 1 2 = Dist.formula .angular 0 by simp [triRhoD, triRho], v0, Real.sq_sqrt (by norm_num)]
    simp only [Method.update, e, s0, s1, s2, t1, t2, t3]
    congr 1
    norm_num
  have d23 : ((Agg.init 3 triRhoD).merge .ward ⟨0, 1, 1 / 2⟩).D 2 3 = √(7 / 12) := by
    rw [← d32]
    exact Agg.D_new' (m := .ward) (s := Agg.init 3 triRhoD) (r := ⟨0, 1, 1 / 2⟩) (x := 2) (by rw [l0]; norm_num)
  refine ⟨rfl, _, .cons c1 (.cons ⟨(hmem 2).mpr (.inr rfl), (hmem 3).mpr (.inl rfl), by simp, d23.symm, ?_⟩ (.nil _))⟩
  intro x hx y hy hne
  rcases (hmem x).mp hx with rfl | rfl <;> rcases (hmem y).mp hy with rfl | rfl
  · exact absurd rfl hne
  · exact d32.ge
  · exact d23.ge
  · exact absurd rfl hne

/-- The hypotheses of `ward_correlation` hold for these series with `k = 2`, `c = 1 / 2` and two points in different clusters. -/
theorem triRho_case : (∀ i < 3, ∀ j < 3, triRho i j = triRho j i) ∧ (∀ i < 3, triRho i i = 1) ∧ (∀ i < 3, ∀ j < 3, |triRho i j| ≤ 1) ∧
    (triRhoZ.filter fun r => decide (r.d ≤ 1 / 2)).length = 3 - 2 ∧
    ∃ p < 3, ∃ q < 3, lab (cutLabels triRhoZ (2 : Nat)) p ≠ lab (cutLabels triRhoZ (2 : Nat)) q := by
  have hs : ∀ i < 3, ∀ j < 3, triRho i j = triRho j i := by
    intro i _ j _
    unfold triRho
    simp only [eq_comm (a := i) (b := j), or_comm (a := i = 2)]
  have hb : ∀ i < 3, ∀ j < 3, |triRho i j| ≤ 1 := by
    intro i _ j _
    unfold triRho
    split_ifs <;> norm_num [abs_of_pos]
  have hbig : ¬ √(7 / 12) ≤ (1 / 2 : ℝ) := not_le.mpr (Real.lt_sqrt_of_sq_lt (by norm_num))
  refine ⟨hs, fun i _ => if_pos rfl, hb, ?_, ?_⟩
  · rw [triRhoZ, List.filter_cons_of_pos (by simp), List.filter_cons_of_neg (by simpa using hbig)]
    rfl
  · have hD : ∀ i < 3, ∀ j < 3, triRhoD i j = triRhoD j i := fun i hi j hj => by unfold triRhoD; rw [hs i hi j hj]
    have h0 : ∀ i < 3, ∀ j < 3, 0 ≤ triRhoD i j := fun i hi j hj => Real.sqrt_nonneg _
    have hm : Method.ward ≠ .centroid ∧ Method.ward ≠ .median := ⟨by simp, by simp⟩
    obtain ⟨hlen, hcard⟩ := linkage_cut hm (by norm_num) hD h0 triRho_linkage ((2 : Nat) : Int) (by norm_num)
    have hv := linkage_valid (by norm_num) hD h0 triRho_linkage
    obtain ⟨t, ht, _⟩ := toTree_spec hv
    obtain ⟨-, g2, -⟩ := cut_clusters hv (linkage_sorted hm hD h0 triRho_linkage) ht (k := ((2 : Nat) : Int)) (by norm_num)
    have get : ∀ v < 2, ∃ p < 3, lab (cutLabels triRhoZ ((2 : Nat) : Int)) p = v := by
      intro v hv
      obtain ⟨p, hp, e⟩ := List.mem_iff_getElem.mp ((g2 v).mpr (by omega))
      refine ⟨p, by omega, ?_⟩
      unfold lab
      rw [List.getElem?_eq_getElem hp, Option.getD_some, e]
    obtain ⟨p, hp, e1⟩ := get 0 (by norm_num)
    obtain ⟨q, hq, e2⟩ := get 1 (by norm_num)
    exact ⟨p, hp, q, hq, by rw [e1, e2]; norm_num⟩

end Verif.Clust
