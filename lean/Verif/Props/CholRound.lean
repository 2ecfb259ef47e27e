import Verif.Lemmas.Chol
import Verif.Lemmas.CholExists
import Verif.Props.SimLaw
import Verif.Props.SimRound
import Mathlib.LinearAlgebra.Matrix.ToLinearEquiv
import Mathlib.Algebra.Order.Chebyshev

/-!
# C131: the Cholesky factor in floats
-/

namespace Verif.Sim

open Round

variable {fl : ℝ → ℝ} {ord : Nat → Nat → List (ℝ × ℝ) → DotTree} {recip : Nat → Nat → Bool} {a L : Nat → Nat → ℝ} {n : Nat}

/-- The quadratic form of the symmetric matrix with the lower triangle of `a`. -/
def lowerForm (a : Nat → Nat → ℝ) (n : Nat) (x : Nat → ℝ) : ℝ :=
  ∑ i ∈ Finset.range n, ∑ k ∈ Finset.range n, x i * x k * a (max i k) (min i k)

/-- The size of a vector measured with the diagonal. -/
noncomputable def weight (a : Nat → Nat → ℝ) (n : Nat) (x : Nat → ℝ) : ℝ :=
  ∑ i ∈ Finset.range n, |x i| * Real.sqrt (a i i)

theorem weight_nonneg (x : Nat → ℝ) : 0 ≤ weight a n x :=
  Finset.sum_nonneg fun _ _ => mul_nonneg (abs_nonneg _) (Real.sqrt_nonneg _)

/-- The form of a product with a transpose is a sum of squares. -/
theorem form_square (L : Nat → Nat → ℝ) (n N : Nat) (x : Nat → ℝ) :
    ∑ i ∈ Finset.range n, ∑ k ∈ Finset.range n, x i * x k * ∑ m ∈ Finset.range N, L i m * L k m =
      ∑ m ∈ Finset.range N, (∑ i ∈ Finset.range n, x i * L i m) ^ 2 := by
  have : ∀ m, (∑ i ∈ Finset.range n, x i * L i m) ^ 2 =
      ∑ i ∈ Finset.range n, ∑ k ∈ Finset.range n, x i * x k * (L i m * L k m) := fun m => by
    rw [sq, Finset.sum_mul_sum]
    exact Finset.sum_congr rfl fun i _ => Finset.sum_congr rfl fun k _ => by ring
  simp only [this, Finset.mul_sum]
  symm
  rw [Finset.sum_comm]
  refine Finset.sum_congr rfl fun i _ => ?_
  rw [Finset.sum_comm]

theorem CholDone.diag_pos (R : Rounding fl) (D : CholDone fl ord recip a L n) {j : Nat} (hj : j < n) : 0 < L j j := by
  rw [D.diag j hj]
  exact fl_pos R (Real.sqrt_pos.mpr (D.pos j hj))

/-- The squared length of a row of the factor. -/
def rowSq (L : Nat → Nat → ℝ) (n i : Nat) : ℝ := ∑ k ∈ Finset.range n, L i k ^ 2

theorem rowSq_nonneg (L : Nat → Nat → ℝ) (n i : Nat) : 0 ≤ rowSq L n i := Finset.sum_nonneg fun _ _ => sq_nonneg _

/-- Cauchy and Schwarz for the rows. -/
theorem rows_abs (L : Nat → Nat → ℝ) {m n : Nat} (h : m ≤ n) (i j : Nat) :
    ∑ k ∈ Finset.range m, |L i k * L j k| ≤ Real.sqrt (rowSq L n i) * Real.sqrt (rowSq L n j) := by
  rw [← Real.sqrt_mul (rowSq_nonneg L n i)]
  apply Real.le_sqrt_of_sq_le
  have h1 : ∑ k ∈ Finset.range m, |L i k * L j k| ≤ ∑ k ∈ Finset.range n, |L i k| * |L j k| := by
    simp only [abs_mul]
    exact Finset.sum_le_sum_of_subset_of_nonneg (Finset.range_subset_range.mpr h) fun _ _ _ => by positivity
  have h0 : 0 ≤ ∑ k ∈ Finset.range m, |L i k * L j k| := Finset.sum_nonneg fun _ _ => abs_nonneg _
  have h2 := Finset.sum_mul_sq_le_sq_mul_sq (Finset.range n) (fun k => |L i k|) (fun k => |L j k|)
  simp only [sq_abs] at h2
  calc _ ≤ (∑ k ∈ Finset.range n, |L i k| * |L j k|) ^ 2 := pow_le_pow_left₀ h0 h1 2
    _ ≤ _ := h2

/-- A sum over the columns ends at the diagonal. -/
theorem CholDone.cut (D : CholDone fl ord recip a L n) {N i j : Nat} (hj : j < n) (hN : n ≤ N) :
    ∑ k ∈ Finset.range N, L i k * L j k = ∑ k ∈ Finset.range (j + 1), L i k * L j k := by
  symm
  apply Finset.sum_subset (Finset.range_subset_range.mpr (by omega))
  intro k hk hk'
  rw [Finset.mem_range] at hk hk'
  by_cases hkn : k < n
  · rw [D.up k hkn j (by omega), mul_zero]
  · rw [D.rest k (by omega) j, mul_zero]

/-- The product of two rows against the entry of the matrix, by the lengths of the rows. -/
theorem CholDone.entry' (R : Rounding fl) (ho : IsCholOrder ord) (D : CholDone fl ord recip a L n) {N i j : Nat} (hj : j < n) (hij : j ≤ i)
    (hN : n ≤ N) :
    (1 - grow (n + 2)) * |(∑ k ∈ Finset.range N, L i k * L j k) - a i j| ≤
      2 * grow (n + 2) * (Real.sqrt (rowSq L N i) * Real.sqrt (rowSq L N j)) := by
  have h1 := D.entry R ho hj hij
  rw [← D.cut hj hN] at h1
  have hG := grow_nonneg (n + 2)
  have h2 := rows_abs L (m := j) (n := N) (by omega) i j
  have h3 : |∑ k ∈ Finset.range N, L i k * L j k| ≤ Real.sqrt (rowSq L N i) * Real.sqrt (rowSq L N j) :=
    (Finset.abs_sum_le_sum_abs _ _).trans (rows_abs L (le_refl N) i j)
  generalize (∑ k ∈ Finset.range N, L i k * L j k) = S at *
  generalize Real.sqrt (rowSq L N i) * Real.sqrt (rowSq L N j) = q at *
  have h4 : |a i j| ≤ |S - a i j| + q := by
    have := abs_sub S (S - a i j)
    rw [sub_sub_cancel] at this
    linarith
  have h5 := mul_le_mul_of_nonneg_left (add_le_add h4 h2) hG
  nlinarith

/-- The diagonal is positive, and the rows are no longer than it allows. -/
theorem CholDone.row (R : Rounding fl) (ho : IsCholOrder ord) (D : CholDone fl ord recip a L n) {N i : Nat} (hi : i < n) (hN : n ≤ N)
    (hG : grow (n + 2) ≤ 1 / 2) : 0 < a i i ∧ (1 - grow (n + 2)) * rowSq L N i ≤ (1 + grow (n + 2)) * a i i := by
  have h1 := D.entry R ho hi (le_refl i)
  have e : rowSq L N i = ∑ k ∈ Finset.range (i + 1), L i k * L i k := by
    rw [← D.cut hi hN]
    exact Finset.sum_congr rfl fun k _ => sq _
  rw [← e] at h1
  have hd := D.diag_pos R hi
  have hS : (∑ k ∈ Finset.range i, |L i k * L i k|) + L i i * L i i = rowSq L N i := by
    rw [e, Finset.sum_range_succ]
    congr 1
    exact Finset.sum_congr rfl fun k _ => abs_mul_self _
  have hS0 : 0 ≤ ∑ k ∈ Finset.range i, |L i k * L i k| := Finset.sum_nonneg fun _ _ => abs_nonneg _
  have hdd : 0 < L i i * L i i := mul_pos hd hd
  have hG0 := grow_nonneg (n + 2)
  have h2 := (abs_le.mp h1).2
  generalize (∑ k ∈ Finset.range i, |L i k * L i k|) = S at *
  generalize rowSq L N i = T at *
  have hST : S ≤ T := by linarith
  have hGS : grow (n + 2) * S ≤ grow (n + 2) * T := mul_le_mul_of_nonneg_left hST hG0
  have hpos : 0 < a i i := by
    by_contra hneg
    rw [abs_of_nonpos (not_lt.mp hneg)] at h2
    have : 0 < T := by linarith
    nlinarith
  rw [abs_of_pos hpos] at h2
  refine ⟨hpos, ?_⟩
  nlinarith

theorem small_grow (hn : ((n : ℝ) + 2) * u64 ≤ 1 / 64) :
    grow (n + 2) ≤ 1 / 63 ∧ grow (n + 2) ≤ 64 / 63 * ((n + 2) * u64) := by
  have := grow_le (k := n + 2) (by push_cast; exact hn)
  push_cast at this
  exact ⟨by linarith, this⟩

theorem CholDone.row' (R : Rounding fl) (ho : IsCholOrder ord) (D : CholDone fl ord recip a L n) {N i : Nat} (hi : i < n) (hN : n ≤ N)
    (hG : grow (n + 2) ≤ 1 / 63) : 0 < a i i ∧ rowSq L N i ≤ 32 / 31 * a i i := by
  obtain ⟨h1, h2⟩ := D.row R ho hi hN (by linarith)
  refine ⟨h1, ?_⟩
  have h3 := rowSq_nonneg L N i
  nlinarith

/-- C131. The computed factor reproduces the lower triangle up to a multiple of the dimension and the unit roundoff, relative to the
diagonal; its diagonal is positive and nothing is above it. -/
theorem CholDone.product (R : Rounding fl) (ho : IsCholOrder ord) (D : CholDone fl ord recip a L n) (hn : ((n : ℝ) + 2) * u64 ≤ 1 / 64)
    {i j : Nat} (hi : i < n) (hj : j < n) :
    |(∑ k ∈ Finset.range n, L i k * L j k) - a (max i j) (min i j)| ≤
      9 / 4 * ((n + 2) * u64) * (Real.sqrt (a i i) * Real.sqrt (a j j)) := by
  wlog hij : j ≤ i generalizing i j
  · have := this hj hi (by omega)
    rw [max_comm, min_comm, mul_comm (Real.sqrt (a i i))]
    simpa only [mul_comm (L j _)] using this
  rw [max_eq_left hij, min_eq_right hij]
  obtain ⟨hG, hG'⟩ := small_grow hn
  have hG0 := grow_nonneg (n + 2)
  have h1 := D.entry' R ho hj hij (le_refl n)
  obtain ⟨pi, ri⟩ := D.row' R ho hi (le_refl n) hG
  obtain ⟨pj, rj⟩ := D.row' R ho hj (le_refl n) hG
  have hq : Real.sqrt (rowSq L n i) * Real.sqrt (rowSq L n j) ≤ 32 / 31 * (Real.sqrt (a i i) * Real.sqrt (a j j)) := by
    rw [← Real.sqrt_mul (rowSq_nonneg L n i), ← Real.sqrt_mul pi.le]
    apply Real.sqrt_le_iff.mpr
    refine ⟨by positivity, ?_⟩
    rw [mul_pow, Real.sq_sqrt (by positivity)]
    calc rowSq L n i * rowSq L n j ≤ (32 / 31 * a i i) * (32 / 31 * a j j) := mul_le_mul ri rj (rowSq_nonneg L n j) (by positivity)
      _ = _ := by ring
  have hs : 0 ≤ Real.sqrt (a i i) * Real.sqrt (a j j) := by positivity
  generalize Real.sqrt (a i i) * Real.sqrt (a j j) = s at *
  generalize Real.sqrt (rowSq L n i) * Real.sqrt (rowSq L n j) = q at *
  have hd0 := abs_nonneg ((∑ k ∈ Finset.range n, L i k * L j k) - a i j)
  generalize |(∑ k ∈ Finset.range n, L i k * L j k) - a i j| = d at *
  have hd : 62 / 63 * d ≤ (1 - grow (n + 2)) * d := mul_le_mul_of_nonneg_right (by linarith) hd0
  have h2 : 2 * grow (n + 2) * q ≤ 2 * grow (n + 2) * (32 / 31 * s) := mul_le_mul_of_nonneg_left hq (by linarith)
  have h3 : grow (n + 2) * s ≤ 64 / 63 * ((n + 2) * u64) * s := mul_le_mul_of_nonneg_right hG' hs
  have hu : 0 ≤ ((n : ℝ) + 2) * u64 * s := mul_nonneg (mul_nonneg (by positivity) u64_pos'.le) hs
  nlinarith

/-- C131. A matrix that is accepted is positive semidefinite up to rounding. -/
theorem CholDone.form_ge (R : Rounding fl) (ho : IsCholOrder ord) (D : CholDone fl ord recip a L n) (hn : ((n : ℝ) + 2) * u64 ≤ 1 / 64)
    (x : Nat → ℝ) : -(9 / 4 * ((n + 2) * u64) * weight a n x ^ 2) ≤ lowerForm a n x := by
  have h0 : 0 ≤ ∑ m ∈ Finset.range n, (∑ i ∈ Finset.range n, x i * L i m) ^ 2 := Finset.sum_nonneg fun _ _ => sq_nonneg _
  rw [← form_square] at h0
  have h1 : (∑ i ∈ Finset.range n, ∑ k ∈ Finset.range n, x i * x k * ∑ m ∈ Finset.range n, L i m * L k m) - lowerForm a n x ≤
      9 / 4 * ((n + 2) * u64) * weight a n x ^ 2 := by
    rw [lowerForm, ← Finset.sum_sub_distrib, weight, sq, Finset.sum_mul_sum, Finset.mul_sum]
    refine Finset.sum_le_sum fun i hi => ?_
    rw [← Finset.sum_sub_distrib, Finset.mul_sum]
    refine Finset.sum_le_sum fun k hk => ?_
    rw [← mul_sub]
    refine (le_abs_self _).trans ?_
    rw [abs_mul, abs_mul]
    calc _ ≤ |x i| * |x k| * (9 / 4 * ((n + 2) * u64) * (Real.sqrt (a i i) * Real.sqrt (a k k))) :=
          mul_le_mul_of_nonneg_left (D.product R ho hn (Finset.mem_range.mp hi) (Finset.mem_range.mp hk)) (by positivity)
      _ = _ := by ring
  linarith

/-- Where the recursion stops, some combination of the rows vanishes. -/
theorem CholDone.kernel {j : Nat} (D : CholDone fl ord recip a L j) :
    ∃ x : Nat → ℝ, (∃ i < j + 1, x i ≠ 0) ∧ (∀ i, j < i → x i = 0) ∧
      ∀ m < j + 1, ∑ i ∈ Finset.range (j + 1), x i * L i m = 0 := by
  classical
  let M : Matrix (Fin (j + 1)) (Fin (j + 1)) ℝ := fun i m => L i m
  have hlow : M.BlockTriangular OrderDual.toDual := by
    intro i m him
    have him' : (i : Nat) < m := by simpa using him
    show L i m = 0
    by_cases h : (m : Nat) < j
    · exact D.up m h i him'
    · exact D.rest m (by omega) i
  have hdet : M.det = 0 := by
    rw [Matrix.det_of_isLowerTriangular M hlow]
    exact Finset.prod_eq_zero (Finset.mem_univ (Fin.last j)) (D.rest j (le_refl j) j)
  obtain ⟨v, hv, hM⟩ := Matrix.exists_vecMul_eq_zero_iff.mpr hdet
  refine ⟨fun i => if h : i < j + 1 then v ⟨i, h⟩ else 0, ?_, fun i hi => dif_neg (by omega), fun m hm => ?_⟩
  · obtain ⟨i, hi⟩ := Function.ne_iff.mp hv
    refine ⟨i, i.2, ?_⟩
    show (if h : (i : Nat) < j + 1 then v ⟨i, h⟩ else 0) ≠ 0
    rw [dif_pos i.2]
    exact hi
  · have := congrFun hM ⟨m, hm⟩
    rw [Finset.sum_range]
    simp only [Fin.is_lt, dite_true, Fin.eta]
    exact this

/-- The form on a vector that vanishes past `N`. -/
theorem lowerForm_cut {N : Nat} (hN : N ≤ n) {x : Nat → ℝ} (hx : ∀ i, N ≤ i → x i = 0) : lowerForm a n x = lowerForm a N x := by
  have hsub : Finset.range N ⊆ Finset.range n := Finset.range_subset_range.mpr hN
  unfold lowerForm
  symm
  rw [← Finset.sum_subset hsub]
  · refine Finset.sum_congr rfl fun i _ => Finset.sum_subset hsub fun k _ hk => ?_
    rw [hx k (by simpa using hk)]; ring
  · intro i _ hi
    refine Finset.sum_eq_zero fun k _ => ?_
    rw [hx i (by simpa using hi)]; ring

theorem weight_cut {N : Nat} (hN : N ≤ n) {x : Nat → ℝ} (hx : ∀ i, N ≤ i → x i = 0) : weight a n x = weight a N x := by
  unfold weight
  symm
  refine Finset.sum_subset (Finset.range_subset_range.mpr hN) fun i _ hi => ?_
  rw [hx i (by simpa using hi), abs_zero, zero_mul]

/-- The form at a vanishing combination of the rows, split at the last row. -/
theorem form_split {j : Nat} {x : Nat → ℝ} (hx : ∀ m < j + 1, ∑ i ∈ Finset.range (j + 1), x i * L i m = 0)
    (d : Nat → Nat → ℝ) (hd : ∀ i k, d i k = (∑ m ∈ Finset.range (j + 1), L i m * L k m) - a (max i k) (min i k)) :
    lowerForm a (j + 1) x = -(∑ i ∈ Finset.range j, ∑ k ∈ Finset.range j, x i * x k * d i k) -
      2 * (x j * ∑ k ∈ Finset.range j, x k * d j k) - x j ^ 2 * d j j := by
  have h0 := form_square L (j + 1) (j + 1) x
  rw [Finset.sum_eq_zero (s := Finset.range (j + 1)) (f := fun m => (∑ i ∈ Finset.range (j + 1), x i * L i m) ^ 2)
    fun m hm => by rw [hx m (Finset.mem_range.mp hm)]; ring] at h0
  have hsym : ∀ i k, d i k = d k i := fun i k => by
    rw [hd, hd, max_comm, min_comm]
    simp only [mul_comm (L i _)]
  have h1 : lowerForm a (j + 1) x = -(∑ i ∈ Finset.range (j + 1), ∑ k ∈ Finset.range (j + 1), x i * x k * d i k) := by
    rw [lowerForm, eq_neg_iff_add_eq_zero, ← Finset.sum_add_distrib, ← h0]
    refine Finset.sum_congr rfl fun i _ => ?_
    rw [← Finset.sum_add_distrib]
    exact Finset.sum_congr rfl fun k _ => by rw [hd]; ring
  rw [h1, Finset.sum_range_succ, Finset.sum_range_succ (fun k => x j * x k * d j k)]
  have h2 : ∑ i ∈ Finset.range j, ∑ k ∈ Finset.range (j + 1), x i * x k * d i k =
      ∑ i ∈ Finset.range j, ∑ k ∈ Finset.range j, x i * x k * d i k + x j * ∑ k ∈ Finset.range j, x k * d j k := by
    rw [Finset.mul_sum, ← Finset.sum_add_distrib]
    refine Finset.sum_congr rfl fun i _ => ?_
    rw [Finset.sum_range_succ, hsym i j]; ring
  have h3 : ∑ k ∈ Finset.range j, x j * x k * d j k = x j * ∑ k ∈ Finset.range j, x k * d j k := by
    rw [Finset.mul_sum]
    exact Finset.sum_congr rfl fun k _ => by ring
  rw [h2, h3]
  ring

theorem stuck_arith {G q y s t : ℝ} (hy : 0 ≤ y) (hs : 0 ≤ s) (hq : 0 ≤ q) (hG0 : 0 ≤ G) (hG : G ≤ 1 / 63)
    (hlast : s ^ 2 - t ^ 2 ≤ G * (s ^ 2 + t ^ 2)) :
    63 / 31 * G * q ^ 2 + 2 * (y * (63 / 31 * G * t * q)) + y ^ 2 * (s ^ 2 - t ^ 2) ≤ 2 * (63 / 31 * G) * (q + y * s) ^ 2 := by
  obtain ⟨β, hβ⟩ : ∃ β : ℝ, β = 63 / 31 * G := ⟨_, rfl⟩
  rw [← hβ]
  have hβ0 : 0 ≤ β := by rw [hβ]; positivity
  have hβ1 : β ≤ 1 / 31 := by rw [hβ]; linarith
  have hys : 0 ≤ y * s := mul_nonneg hy hs
  by_cases hc : t ≤ 2 * s
  · have h1 : s ^ 2 - t ^ 2 ≤ 2 * β * s ^ 2 := by
      by_cases hc' : s ^ 2 ≤ t ^ 2
      · have : 0 ≤ 2 * β * s ^ 2 := by positivity
        linarith
      · have h2 : G * (s ^ 2 + t ^ 2) ≤ G * (2 * s ^ 2) := mul_le_mul_of_nonneg_left (by linarith) hG0
        have h3 : 0 ≤ G * s ^ 2 := by positivity
        have h4 : 2 * β * s ^ 2 = 126 / 31 * (G * s ^ 2) := by rw [hβ]; ring
        linarith
    have h2 : y * (β * t * q) ≤ y * (β * (2 * s) * q) :=
      mul_le_mul_of_nonneg_left (mul_le_mul_of_nonneg_right (mul_le_mul_of_nonneg_left hc hβ0) hq) hy
    have h3 := mul_le_mul_of_nonneg_left h1 (sq_nonneg y)
    have h4 : 0 ≤ β * q ^ 2 := by positivity
    have h5 : 2 * β * (q + y * s) ^ 2 = 2 * (β * q ^ 2) + 2 * (y * (β * (2 * s) * q)) + y ^ 2 * (2 * β * s ^ 2) := by ring
    linarith
  · have hts : 2 * s ≤ t := (not_le.mp hc).le
    have h1 : (2 * s) ^ 2 ≤ t ^ 2 := pow_le_pow_left₀ (by linarith) hts 2
    have h2 : y ^ 2 * (s ^ 2 - t ^ 2) ≤ y ^ 2 * (-(3 / 4) * t ^ 2) := mul_le_mul_of_nonneg_left (by linarith) (sq_nonneg y)
    have h3 : 2 * (y * (β * t * q)) + y ^ 2 * (-(3 / 4) * t ^ 2) ≤ 4 / 3 * β * (β * q ^ 2) := by
      have := sq_nonneg (3 / 2 * (y * t) - 2 * (β * q))
      have e : (3 / 2 * (y * t) - 2 * (β * q)) ^ 2 =
        3 * (4 / 3 * β * (β * q ^ 2) - (2 * (y * (β * t * q)) + y ^ 2 * (-(3 / 4) * t ^ 2))) := by ring
      linarith
    have h4 : 4 / 3 * β * (β * q ^ 2) ≤ 1 * (β * q ^ 2) := mul_le_mul_of_nonneg_right (by linarith) (by positivity)
    have h5 : q ^ 2 ≤ (q + y * s) ^ 2 := pow_le_pow_left₀ hq (by linarith) 2
    have h6 := mul_le_mul_of_nonneg_left h5 (by linarith : (0 : ℝ) ≤ 2 * β)
    linarith

/-- Where the recursion stops, the form is not much above zero for some vector. -/
theorem CholDone.stuck (R : Rounding fl) (ho : IsCholOrder ord) {j : Nat} (D : CholDone fl ord recip a L j) (hj : j < n)
    (hn : ((n : ℝ) + 2) * u64 ≤ 1 / 64) (hr : cholRest fl ord a L j j ≤ 0) :
    ∃ x : Nat → ℝ, (∃ i < n, x i ≠ 0) ∧ lowerForm a n x ≤ 9 / 2 * ((n + 2) * u64) * weight a n x ^ 2 := by
  obtain ⟨hGn, hGn'⟩ := small_grow hn
  have hmono : grow (j + 2) ≤ grow (n + 2) := grow_mono (by omega)
  have hG : grow (j + 2) ≤ 1 / 63 := hmono.trans hGn
  have hG' : grow (j + 2) ≤ 64 / 63 * ((n + 2) * u64) := hmono.trans hGn'
  have hG0 := grow_nonneg (j + 2)
  by_cases hpos : 0 < a j j
  swap
  · refine ⟨fun i => if i = j then 1 else 0, ⟨j, hj, by simp⟩, ?_⟩
    have h1 : lowerForm a n (fun i => if i = j then 1 else 0) = a j j := by
      unfold lowerForm
      rw [Finset.sum_eq_single j, Finset.sum_eq_single j]
      · simp
      · intro k _ hk; simp [hk]
      · intro h; exact absurd (Finset.mem_range.mpr hj) h
      · intro i _ hi; simp [hi]
      · intro h; exact absurd (Finset.mem_range.mpr hj) h
    rw [h1]
    exact (not_lt.mp hpos).trans (by have := u64_pos'; positivity)
  obtain ⟨x, ⟨i0, hi0, hx0⟩, hxz, hx⟩ := D.kernel
  refine ⟨x, ⟨i0, by omega, hx0⟩, ?_⟩
  rw [lowerForm_cut (N := j + 1) (by omega) fun i hi => hxz i (by omega), weight_cut (N := j + 1) (by omega) fun i hi => hxz i (by omega),
    form_split hx _ fun _ _ => rfl]
  -- the lengths of the rows
  set T : Nat → ℝ := fun i => Real.sqrt (rowSq L (j + 1) i) with hT
  have hT0 : ∀ i, 0 ≤ T i := fun i => Real.sqrt_nonneg _
  set β : ℝ := 63 / 31 * grow (j + 2) with hβ
  have hβ0 : 0 ≤ β := by positivity
  have hd : ∀ i k, i < j + 1 → k < j →
      |(∑ m ∈ Finset.range (j + 1), L i m * L k m) - a (max i k) (min i k)| ≤ β * (T i * T k) := by
    have key : ∀ i k, k < j → k ≤ i →
        |(∑ m ∈ Finset.range (j + 1), L i m * L k m) - a i k| ≤ β * (T i * T k) := fun i k hk hki => by
      have h1 := D.entry' R ho hk hki (N := j + 1) (by omega)
      have h2 := abs_nonneg ((∑ m ∈ Finset.range (j + 1), L i m * L k m) - a i k)
      have h3 : 62 / 63 * |(∑ m ∈ Finset.range (j + 1), L i m * L k m) - a i k| ≤ _ :=
        (mul_le_mul_of_nonneg_right (by linarith) h2).trans h1
      rw [hβ]
      linarith
    intro i k hi hk
    rcases le_total k i with h | h
    · rw [max_eq_left h, min_eq_right h]
      exact key i k hk h
    · rw [max_eq_right h, min_eq_left h]
      by_cases hij : i < j
      · have := key k i hij h
        simpa only [mul_comm (L k _), mul_comm (T k)] using this
      · omega
  -- the rows above the last one
  set q : ℝ := ∑ k ∈ Finset.range j, |x k| * T k with hq
  have hq0 : 0 ≤ q := Finset.sum_nonneg fun k _ => mul_nonneg (abs_nonneg _) (hT0 k)
  have e1 : -(∑ i ∈ Finset.range j, ∑ k ∈ Finset.range j,
      x i * x k * ((∑ m ∈ Finset.range (j + 1), L i m * L k m) - a (max i k) (min i k))) ≤ β * q ^ 2 := by
    refine (neg_le_abs _).trans ?_
    rw [hq, sq, Finset.sum_mul_sum, Finset.mul_sum]
    refine (Finset.abs_sum_le_sum_abs _ _).trans (Finset.sum_le_sum fun i hi => ?_)
    rw [Finset.mul_sum]
    refine (Finset.abs_sum_le_sum_abs _ _).trans (Finset.sum_le_sum fun k hk => ?_)
    rw [abs_mul, abs_mul]
    have hi' := Finset.mem_range.mp hi
    calc _ ≤ |x i| * |x k| * (β * (T i * T k)) :=
          mul_le_mul_of_nonneg_left (hd i k (by omega) (Finset.mem_range.mp hk)) (by positivity)
      _ = _ := by ring
  have e2 : |∑ k ∈ Finset.range j, x k * ((∑ m ∈ Finset.range (j + 1), L j m * L k m) - a (max j k) (min j k))| ≤ β * T j * q := by
    rw [hq, Finset.mul_sum]
    refine (Finset.abs_sum_le_sum_abs _ _).trans (Finset.sum_le_sum fun k hk => ?_)
    rw [abs_mul]
    calc _ ≤ |x k| * (β * (T j * T k)) :=
          mul_le_mul_of_nonneg_left (hd j k (by omega) (Finset.mem_range.mp hk)) (abs_nonneg _)
      _ = _ := by ring
  have e2' : -(2 * (x j * ∑ k ∈ Finset.range j, x k * ((∑ m ∈ Finset.range (j + 1), L j m * L k m) - a (max j k) (min j k)))) ≤
      2 * (|x j| * (β * T j * q)) := by
    have := mul_le_mul_of_nonneg_left e2 (abs_nonneg (x j))
    rw [← abs_mul] at this
    have h2 := neg_le_abs (x j * ∑ k ∈ Finset.range j, x k * ((∑ m ∈ Finset.range (j + 1), L j m * L k m) - a (max j k) (min j k)))
    linarith
  -- the last row
  have hS : ∑ m ∈ Finset.range (j + 1), L j m * L j m = T j ^ 2 := by
    rw [hT]
    simp only
    rw [Real.sq_sqrt (rowSq_nonneg _ _ _), rowSq]
    exact Finset.sum_congr rfl fun m _ => (sq _).symm
  have hlast : a j j - T j ^ 2 ≤ grow (j + 2) * (a j j + T j ^ 2) := by
    have h1 := cholRest_err (a := a) (L := L) R ho j j
    have hS' : ∑ m ∈ Finset.range j, L j m * L j m = T j ^ 2 := by
      rw [← hS, Finset.sum_range_succ, D.rest j (le_refl j) j]; ring
    have hSa : ∑ m ∈ Finset.range j, |L j m * L j m| = T j ^ 2 := by
      rw [← hS']
      exact Finset.sum_congr rfl fun m _ => abs_mul_self _
    rw [hS', hSa, abs_of_pos hpos] at h1
    have h2 := (abs_le.mp h1).1
    have h3 : grow (j + 1) * (a j j + T j ^ 2) ≤ grow (j + 2) * (a j j + T j ^ 2) :=
      mul_le_mul_of_nonneg_right (grow_mono (by omega)) (by positivity)
    linarith
  -- the lengths of the rows against the diagonal
  have hqw : (q + |x j| * Real.sqrt (a j j)) ^ 2 ≤ 32 / 31 * weight a (j + 1) x ^ 2 := by
    have h1 : q + |x j| * Real.sqrt (a j j) ≤ Real.sqrt (32 / 31) * weight a (j + 1) x := by
      rw [weight, Finset.sum_range_succ, mul_add]
      refine add_le_add ?_ ?_
      · rw [hq, Finset.mul_sum]
        refine Finset.sum_le_sum fun k hk => ?_
        have hk' := Finset.mem_range.mp hk
        obtain ⟨p, r⟩ := D.row' R ho hk' (N := j + 1) (by omega) hG
        have h2 : T k ≤ Real.sqrt (32 / 31) * Real.sqrt (a k k) := by
          rw [← Real.sqrt_mul (by norm_num)]
          exact Real.sqrt_le_sqrt r
        calc _ ≤ |x k| * (Real.sqrt (32 / 31) * Real.sqrt (a k k)) := mul_le_mul_of_nonneg_left h2 (abs_nonneg _)
          _ = _ := by ring
      · have h3 : (1 : ℝ) ≤ Real.sqrt (32 / 31) := Real.one_le_sqrt.mpr (by norm_num)
        exact le_mul_of_one_le_left (by positivity) h3
    calc _ ≤ (Real.sqrt (32 / 31) * weight a (j + 1) x) ^ 2 := pow_le_pow_left₀ (by positivity) h1 2
      _ = _ := by rw [mul_pow, Real.sq_sqrt (by norm_num)]
  have hmain : β * q ^ 2 + 2 * (|x j| * (β * T j * q)) + x j ^ 2 * (a j j - T j ^ 2) ≤ 2 * β * (q + |x j| * Real.sqrt (a j j)) ^ 2 := by
    have h := stuck_arith (G := grow (j + 2)) (t := T j) (abs_nonneg (x j)) (Real.sqrt_nonneg (a j j)) hq0 hG0 hG
      (by rw [Real.sq_sqrt hpos.le]; exact hlast)
    rw [Real.sq_sqrt hpos.le, sq_abs] at h
    exact h
  have hfin : 2 * β * (q + |x j| * Real.sqrt (a j j)) ^ 2 ≤ 9 / 2 * ((n + 2) * u64) * weight a (j + 1) x ^ 2 := by
    have hw := sq_nonneg (weight a (j + 1) x)
    have h1 := mul_le_mul_of_nonneg_left hqw (by linarith : (0 : ℝ) ≤ 2 * β)
    have h2 : β ≤ 64 / 31 * ((n + 2) * u64) := by rw [hβ]; linarith
    have h3 := mul_le_mul_of_nonneg_right h2 hw
    have h4 : 0 ≤ ((n : ℝ) + 2) * u64 * weight a (j + 1) x ^ 2 := mul_nonneg (mul_nonneg (by positivity) u64_pos'.le) hw
    nlinarith
  simp only [max_self, min_self]
  rw [hS]
  have e3 : x j ^ 2 * (a j j - T j ^ 2) = -(x j ^ 2 * (T j ^ 2 - a j j)) := by ring
  rw [e3] at hmain
  linarith

/-- C131. A matrix that is positive definite by more than the rounding is accepted. -/
theorem chol_accepts (R : Rounding fl) (ho : IsCholOrder ord) {A : Arr} (hn : ((A.rows : ℝ) + 2) * u64 ≤ 1 / 64)
    (hA : ∀ x : Nat → ℝ, (∃ i < A.rows, x i ≠ 0) →
      9 / 2 * ((A.rows + 2) * u64) * weight A.get A.rows x ^ 2 < lowerForm A.get A.rows x) : cholR fl ord recip A ≠ none := by
  intro h
  rw [cholR, Option.map_eq_none_iff] at h
  obtain ⟨j, hj, L, D, hr⟩ := cholCols_fail h
  obtain ⟨x, hx, hle⟩ := D.stuck R ho hj hn hr
  exact absurd (hA x hx) (not_lt.mpr hle)

/-- The factor as an array. -/
theorem cholR_get {A L : Arr} (h : cholR fl ord recip A = some L) : L.rows = A.rows ∧ L.cols = A.rows ∧
    ∃ l, CholDone fl ord recip A.get l A.rows ∧ ∀ i < A.rows, ∀ j < A.rows, L.get i j = l i j := by
  rw [cholR, Option.map_eq_some_iff] at h
  obtain ⟨l, hl, rfl⟩ := h
  refine ⟨rfl, rfl, l, cholCols_done hl, fun i hi j hj => ?_⟩
  have e1 : (i * A.rows + j) / A.rows = i := by
    rw [Nat.mul_comm, Nat.mul_add_div (by omega), Nat.div_eq_of_lt hj, add_zero]
  have e2 : (i * A.rows + j) % A.rows = j := by
    rw [Nat.mul_comm, Nat.mul_add_mod, Nat.mod_eq_of_lt hj]
  show l ((i * A.rows + j) / A.rows) ((i * A.rows + j) % A.rows) = l i j
  rw [e1, e2]

/-- C131. The computed factor is lower triangular with a positive diagonal, and its product with its transpose differs from the
lower triangle of the matrix by at most a multiple of the dimension and the unit roundoff, relative to the diagonal. -/
theorem chol_product (R : Rounding fl) (ho : IsCholOrder ord) {A L : Arr} (hn : ((A.rows : ℝ) + 2) * u64 ≤ 1 / 64)
    (h : cholR fl ord recip A = some L) :
    L.rows = A.rows ∧ L.cols = A.rows ∧ (∀ i j, i < j → j < A.rows → L.get i j = 0) ∧ (∀ i < A.rows, 0 < L.get i i) ∧
    ∀ i < A.rows, ∀ j < A.rows, |(∑ m ∈ Finset.range A.rows, L.get i m * L.get j m) - A.get (max i j) (min i j)| ≤
      9 / 4 * ((A.rows + 2) * u64) * (Real.sqrt (A.get i i) * Real.sqrt (A.get j j)) := by
  obtain ⟨h1, h2, l, D, hl⟩ := cholR_get h
  refine ⟨h1, h2, fun i j hij hj => ?_, fun i hi => ?_, fun i hi j hj => ?_⟩
  · rw [hl i (by omega) j hj]
    exact D.up j hj i hij
  · rw [hl i hi i hi]
    exact D.diag_pos R hi
  · rw [Finset.sum_congr rfl fun m hm => by rw [hl i hi m (Finset.mem_range.mp hm), hl j hj m (Finset.mem_range.mp hm)]]
    exact D.product R ho hn hi hj

/-- C131. A matrix with a direction in which it is negative by more than the rounding is refused. -/
theorem chol_refuses (R : Rounding fl) (ho : IsCholOrder ord) {A : Arr} (hn : ((A.rows : ℝ) + 2) * u64 ≤ 1 / 64) {x : Nat → ℝ}
    (hx : lowerForm A.get A.rows x < -(9 / 4 * ((A.rows + 2) * u64) * weight A.get A.rows x ^ 2)) : cholR fl ord recip A = none := by
  cases h : cholR fl ord recip A with
  | none => rfl
  | some L =>
    obtain ⟨-, -, l, D, -⟩ := cholR_get h
    exact absurd hx (not_lt.mpr (D.form_ge R ho hn x))

/-- C131. A diagonal entry that is not positive is refused. -/
theorem chol_diagonal (R : Rounding fl) (ho : IsCholOrder ord) {A : Arr} (hn : ((A.rows : ℝ) + 2) * u64 ≤ 1 / 64) {i : Nat}
    (hi : i < A.rows) (h0 : A.get i i ≤ 0) : cholR fl ord recip A = none := by
  cases h : cholR fl ord recip A with
  | none => rfl
  | some L =>
    obtain ⟨-, -, l, D, -⟩ := cholR_get h
    exact absurd (D.row' R ho hi (le_refl _) (small_grow hn).1).1 (not_lt.mpr h0)

/-- C131. A correlation matrix whose eigenvalues exceed a multiple of the squared dimension and the unit roundoff is accepted. -/
theorem chol_correlation (R : Rounding fl) (ho : IsCholOrder ord) {A : Arr} (hn : ((A.rows : ℝ) + 2) * u64 ≤ 1 / 64)
    (h1 : ∀ i < A.rows, A.get i i = 1) {l : ℝ} (hl : 9 / 2 * (A.rows * (A.rows + 2) * u64) < l)
    (hA : ∀ x : Nat → ℝ, l * ∑ i ∈ Finset.range A.rows, x i ^ 2 ≤ lowerForm A.get A.rows x) : cholR fl ord recip A ≠ none := by
  refine chol_accepts R ho hn fun x ⟨i, hi, hx⟩ => ?_
  have hw : weight A.get A.rows x = ∑ i ∈ Finset.range A.rows, |x i| :=
    Finset.sum_congr rfl fun i hi => by rw [h1 i (Finset.mem_range.mp hi), Real.sqrt_one, mul_one]
  have hc : weight A.get A.rows x ^ 2 ≤ A.rows * ∑ i ∈ Finset.range A.rows, x i ^ 2 := by
    have := sq_sum_le_card_mul_sum_sq (s := Finset.range A.rows) (f := fun i => |x i|)
    simp only [sq_abs, Finset.card_range] at this
    rw [hw]
    exact this
  have hp : 0 < ∑ i ∈ Finset.range A.rows, x i ^ 2 :=
    Finset.sum_pos' (fun _ _ => sq_nonneg _) ⟨i, Finset.mem_range.mpr hi, by positivity⟩
  refine lt_of_le_of_lt (mul_le_mul_of_nonneg_left hc (by have := u64_pos'; positivity)) (lt_of_lt_of_le ?_ (hA x))
  calc 9 / 2 * ((A.rows + 2) * u64) * (A.rows * ∑ i ∈ Finset.range A.rows, x i ^ 2)
      = 9 / 2 * (A.rows * (A.rows + 2) * u64) * ∑ i ∈ Finset.range A.rows, x i ^ 2 := by ring
    _ < l * ∑ i ∈ Finset.range A.rows, x i ^ 2 := mul_lt_mul_of_pos_right hl hp

/-- Without rounding. -/
theorem cholRest_id (ho : IsCholOrder ord) (i j : Nat) : cholRest id ord a L i j = a i j - ∑ k ∈ Finset.range j, L i k * L j k := by
  rw [cholRest, DotTree.eval_id, ((ho i j (cholPairs a L i j) (by simp [cholPairs])).map _).sum_eq, cholPairs, List.map_cons,
    List.sum_cons, List.map_map, sum_map_range, mul_one, sub_eq_add_neg, ← Finset.sum_neg_distrib]
  congr 1
  exact Finset.sum_congr rfl fun k _ => by simp

theorem CholDone.exact_entry (ho : IsCholOrder ord) (D : CholDone id ord recip a L n) {i j N : Nat} (hj : j < n) (hij : j ≤ i) (hN : n ≤ N) :
    ∑ k ∈ Finset.range N, L i k * L j k = a i j := by
  have hd : 0 < L j j := D.diag_pos id_rounding hj
  have hdd : L j j * L j j = cholRest id ord a L j j := by
    rw [D.diag j hj]
    exact Real.mul_self_sqrt (D.pos j hj).le
  rw [D.cut hj hN, Finset.sum_range_succ]
  rcases eq_or_lt_of_le hij with rfl | h
  · rw [hdd, cholRest_id ho]; ring
  · have : L i j * L j j = cholRest id ord a L i j := by
      rw [D.low j hj i h]
      unfold cholQuot
      split_ifs
      · simp only [id]; field_simp
      · simp only [id]; field_simp
    rw [this, cholRest_id ho]; ring

/-- C131. Without rounding the recursion meets the description of `np.linalg.cholesky` used for the laws of the paths. -/
theorem chol_exact_factor (ho : IsCholOrder ord) : CholFactor (cholR id ord recip) := by
  intro A L _ h
  obtain ⟨h1, h2, l, D, hl⟩ := cholR_get h
  refine ⟨h1, h2, fun i j hij hj => ?_, fun i hi => ?_, fun i j hij hi => ?_⟩
  · rw [hl i (by omega) j hj]
    exact D.up j hj i hij
  · rw [hl i hi i hi]
    exact D.diag_pos id_rounding hi
  · rw [Finset.sum_congr rfl fun m hm => by rw [hl i hi m (Finset.mem_range.mp hm), hl j (by omega) m (Finset.mem_range.mp hm)]]
    exact D.exact_entry ho (by omega) hij (le_refl _)

theorem lowerForm_symm (hs : ∀ i < n, ∀ j < n, a i j = a j i) (x : Nat → ℝ) :
    lowerForm a n x = ∑ i ∈ Finset.range n, ∑ j ∈ Finset.range n, x i * x j * a i j := by
  refine Finset.sum_congr rfl fun i hi => Finset.sum_congr rfl fun j hj => ?_
  rcases le_total i j with h | h
  · rw [max_eq_right h, min_eq_left h, hs j (Finset.mem_range.mp hj) i (Finset.mem_range.mp hi)]
  · rw [max_eq_left h, min_eq_right h]

/-- C131. Without rounding the recursion succeeds exactly on the positive definite matrices. -/
theorem chol_exact_total (ho : IsCholOrder ord) : CholTotal (cholR id ord recip) := by
  intro A _ hs
  constructor
  · intro h c hc
    obtain ⟨L, hL⟩ := Option.ne_none_iff_exists'.mp h
    obtain ⟨-, -, l, D, -⟩ := cholR_get hL
    rw [← lowerForm_symm hs]
    have e : lowerForm A.get A.rows c = ∑ m ∈ Finset.range A.rows, (∑ i ∈ Finset.range A.rows, c i * l i m) ^ 2 := by
      rw [← form_square]
      refine Finset.sum_congr rfl fun i hi => Finset.sum_congr rfl fun j hj => ?_
      rw [Finset.mem_range] at hi hj
      rcases le_total i j with hij | hij
      · rw [max_eq_right hij, min_eq_left hij, ← D.exact_entry ho hi hij (le_refl _)]
        simp only [mul_comm (l j _)]
      · rw [max_eq_left hij, min_eq_right hij, ← D.exact_entry ho hj hij (le_refl _)]
    rw [e]
    -- the last entry that is not zero
    obtain ⟨j, hj, hcj⟩ := hc
    obtain ⟨m, hm, hmax⟩ := Finset.exists_max_image ((Finset.range A.rows).filter fun i => c i ≠ 0) id
      ⟨j, Finset.mem_filter.mpr ⟨Finset.mem_range.mpr hj, hcj⟩⟩
    obtain ⟨hmr, hcm⟩ := Finset.mem_filter.mp hm
    refine Finset.sum_pos' (fun _ _ => sq_nonneg _) ⟨m, hmr, ?_⟩
    have : ∑ i ∈ Finset.range A.rows, c i * l i m = c m * l m m := by
      refine Finset.sum_eq_single m (fun i hi him => ?_) fun h => absurd hmr h
      rcases lt_or_gt_of_ne him with h | h
      · rw [D.up m (Finset.mem_range.mp hmr) i h, mul_zero]
      · have : c i = 0 := by
          by_contra h0
          have := hmax i (Finset.mem_filter.mpr ⟨hi, h0⟩)
          simp only [id] at this
          omega
        rw [this, zero_mul]
    rw [this]
    have := D.diag_pos id_rounding (Finset.mem_range.mp hmr)
    positivity
  · intro hp h
    rw [cholR, Option.map_eq_none_iff] at h
    obtain ⟨j, hj, L, D, hr⟩ := cholCols_fail h
    obtain ⟨x, ⟨i0, hi0, hx0⟩, hxz, hx⟩ := D.kernel
    have := hp x ⟨i0, by omega, hx0⟩
    rw [← lowerForm_symm hs, lowerForm_cut (N := j + 1) (by omega) fun i hi => hxz i (by omega), form_split hx _ fun _ _ => rfl] at this
    have hd : ∀ i k, i < j + 1 → k < j → (∑ m ∈ Finset.range (j + 1), L i m * L k m) - A.get (max i k) (min i k) = 0 := fun i k hi hk => by
      rcases le_total k i with hki | hki
      · rw [max_eq_left hki, min_eq_right hki, D.exact_entry ho hk hki (by omega), sub_self]
      · rw [max_eq_right hki, min_eq_left hki, ← D.exact_entry ho (show i < j by omega) hki (N := j + 1) (by omega)]
        simp only [mul_comm (L k _), sub_self]
    rw [Finset.sum_eq_zero fun i hi => Finset.sum_eq_zero fun k hk => by
        rw [hd i k (by have := Finset.mem_range.mp hi; omega) (Finset.mem_range.mp hk), mul_zero],
      Finset.sum_eq_zero fun k hk => by rw [hd j k (by omega) (Finset.mem_range.mp hk), mul_zero]] at this
    rw [cholRest_id ho] at hr
    rw [max_self, min_self, Finset.sum_range_succ, D.rest j (le_refl j) j] at this
    have h2 := mul_nonneg (sq_nonneg (x j)) (neg_nonneg.mpr hr)
    linarith

/-! ### Two variables -/

theorem tree_single {T : DotTree} {x : ℝ × ℝ} (h : T.leaves.Perm [x]) : T = .prod x.1 x.2 := by
  have hl := h.length_eq
  have hpos : ∀ T : DotTree, 0 < T.leaves.length := by
    intro T
    induction T with
    | prod a b => simp [DotTree.leaves]
    | node l r hl hr => simp only [DotTree.leaves, List.length_append]; omega
    | fma t a b ht => simp [DotTree.leaves]
  cases T with
  | prod a b =>
    have : (a, b) = x := by simpa [DotTree.leaves] using h
    rw [← this]
  | node l r =>
    have := hpos l
    have := hpos r
    simp only [DotTree.leaves, List.length_append, List.length_singleton] at hl
    omega
  | fma t a b =>
    have := hpos t
    simp only [DotTree.leaves, List.length_append, List.length_singleton] at hl
    omega

/-- The ways to evaluate a sum of two products. -/
theorem tree_pair {T : DotTree} {x y : ℝ × ℝ} (h : T.leaves.Perm [x, y]) :
    ∃ X Y, T.eval fl = fl (X + Y) ∧
      ((X = fl (x.1 * x.2) ∨ X = x.1 * x.2) ∧ (Y = fl (y.1 * y.2) ∨ Y = y.1 * y.2)) := by
  have hl := h.length_eq
  have hpos : ∀ T : DotTree, 0 < T.leaves.length := by
    intro T
    induction T with
    | prod a b => simp [DotTree.leaves]
    | node l r hl hr => simp only [DotTree.leaves, List.length_append]; omega
    | fma t a b ht => simp [DotTree.leaves]
  have two : ∀ {p q : ℝ × ℝ}, [p, q].Perm [x, y] → p = x ∧ q = y ∨ p = y ∧ q = x := fun {p q} hp => by
    rcases List.mem_pair.mp (hp.subset (List.mem_cons_self : p ∈ [p, q])) with rfl | rfl
    · left
      have := hp.cons_inv
      simpa using this
    · right
      have := (hp.trans (List.Perm.swap _ _ _)).cons_inv
      simpa using this
  have single : ∀ T : DotTree, T.leaves.length = 1 → ∃ p : ℝ × ℝ, T = .prod p.1 p.2 := fun T hT => by
    obtain ⟨p, hp⟩ := List.length_eq_one_iff.mp hT
    exact ⟨p, tree_single (by rw [hp])⟩
  cases T with
  | prod a b => simp [DotTree.leaves] at hl
  | node l r =>
    simp only [DotTree.leaves, List.length_append, List.length_cons, List.length_nil] at hl
    have := hpos l
    have := hpos r
    obtain ⟨p, rfl⟩ := single l (by omega)
    obtain ⟨q, rfl⟩ := single r (by omega)
    rcases two h with ⟨rfl, rfl⟩ | ⟨rfl, rfl⟩
    · exact ⟨_, _, rfl, .inl rfl, .inl rfl⟩
    · exact ⟨_, _, by rw [DotTree.eval, add_comm]; rfl, .inl rfl, .inl rfl⟩
  | fma t a b =>
    simp only [DotTree.leaves, List.length_append, List.length_cons, List.length_nil] at hl
    obtain ⟨p, rfl⟩ := single t (by omega)
    rcases two (p := p) (q := (a, b)) h with ⟨rfl, h2⟩ | ⟨rfl, h2⟩
    · exact ⟨_, _, rfl, .inl rfl, .inr (by rw [← h2])⟩
    · refine ⟨x.1 * x.2, fl (p.1 * p.2), ?_, .inr rfl, .inl rfl⟩
      rw [DotTree.eval, add_comm, ← h2]
      rfl

theorem fl_one (R : Rounding fl) : fl 1 = 1 := by
  have := R.int 1 (by norm_num)
  simpa using this

/-- The entry below the first diagonal entry when that is one. -/
theorem CholDone.second (R : Rounding fl) (ho : IsCholOrder ord) (D : CholDone fl ord recip a L n) (hn : 0 < n) (h0 : a 0 0 = 1) :
    L 1 0 = fl (a 1 0) := by
  have e0 : cholRest fl ord a L 0 0 = 1 := by
    rw [cholRest, tree_single (ho 0 0 (cholPairs a L 0 0) (by simp [cholPairs])), h0]
    simp [DotTree.eval, fl_one R]
  have e1 : cholRest fl ord a L 1 0 = fl (a 1 0) := by
    rw [cholRest, tree_single (ho 1 0 (cholPairs a L 1 0) (by simp [cholPairs]))]
    simp [DotTree.eval]
  have ed : L 0 0 = 1 := by rw [D.diag 0 hn, e0, Real.sqrt_one, fl_one R]
  rw [D.low 0 hn 1 (by omega), e1, ed]
  unfold cholQuot
  split_ifs
  · rw [div_one, fl_one R, mul_one, R.idem]
  · rw [div_one, R.idem]

/-- C131. A correlation of one or more in size between the first two variables is refused, whatever the rounding. -/
theorem chol_perfect (R : Rounding fl) (ho : IsCholOrder ord) {A : Arr} (hn : 2 ≤ A.rows) (h0 : A.get 0 0 = 1) (h1 : A.get 1 1 = 1)
    (hρ : 1 ≤ |A.get 1 0|) : cholR fl ord recip A = none := by
  cases h : cholR fl ord recip A with
  | none => rfl
  | some L =>
    obtain ⟨-, -, l, D, -⟩ := cholR_get h
    have hp := D.pos 1 (by omega)
    have hl := D.second R ho (by omega) h0
    obtain ⟨X, Y, hT, hX, hY⟩ := tree_pair (fl := fl) (ho 1 1 (cholPairs A.get l 1 1) (by simp [cholPairs]))
    rw [cholRest, hT] at hp
    simp only [h1, mul_one] at hX
    have hX1 : X = 1 := by rcases hX with h | h <;> simp [h, fl_one R]
    have hr : 1 ≤ l 1 0 * l 1 0 := by
      have : 1 ≤ |l 1 0| := by
        rw [hl]
        rcases le_abs.mp hρ with h | h
        · have := R.mono h
          rw [fl_one R] at this
          exact this.trans (le_abs_self _)
        · have := R.mono h
          rw [fl_one R, R.neg] at this
          exact this.trans (neg_le_abs _)
      nlinarith [abs_mul_abs_self (l 1 0)]
    have hY1 : Y ≤ -1 := by
      rcases hY with h | h
      · rw [h]
        have := R.mono (show -l 1 0 * l 1 0 ≤ -1 by linarith)
        rw [R.neg, fl_one R] at this
        exact this
      · rw [h]; dsimp only; linarith
    have h3 := R.mono (show X + Y ≤ 0 by linarith)
    have h4 : fl 0 = 0 := by simpa using R.int 0 (by norm_num)
    rw [h4] at h3
    linarith

/-- The doubles below one. -/
theorem b64_below_one {x : ℝ} (hx : b64 x = x) (h1 : |x| < 1) : |x| ≤ 1 - u64 := by
  wlog h0 : 0 ≤ x generalizing x
  · have := this (x := -x) (by rw [b64_neg, hx]) (by rwa [abs_neg]) (by linarith)
    rwa [abs_neg] at this
  rw [abs_of_nonneg h0] at h1 ⊢
  by_cases hh : x ≤ 1 / 2
  · have : u64 ≤ 1 / 2 := by unfold u64; norm_num
    linarith
  · have he : ulpExp x = -53 := by
      apply ulp_unique
      · rw [abs_of_nonneg h0, zpow_neg]; norm_num; linarith
      · rw [abs_of_nonneg h0, zpow_neg]; norm_num; linarith
    rw [b64, he] at hx
    generalize rne (x / 2 ^ (-53 : ℤ)) = k at hx
    have hk : (k : ℝ) < 2 ^ 53 := by
      rw [zpow_neg] at hx
      norm_num at hx ⊢
      linarith
    have hk' : k ≤ 2 ^ 53 - 1 := by
      have : k < 2 ^ 53 := by exact_mod_cast hk
      omega
    have hk'' : (k : ℝ) ≤ 2 ^ 53 - 1 := by exact_mod_cast hk'
    rw [zpow_neg] at hx
    unfold u64
    norm_num at hx hk'' ⊢
    linarith

/-- C131. For two variables a correlation matrix of doubles is accepted exactly when the correlation is below one in size, whatever the
order of the sum. -/
theorem chol_pair (ho : IsCholOrder ord) {A : Arr} (hn : A.rows = 2) (h0 : A.get 0 0 = 1) (h1 : A.get 1 1 = 1)
    (hρ : b64 (A.get 1 0) = A.get 1 0) : cholR b64 ord recip A ≠ none ↔ |A.get 1 0| < 1 := by
  have R := b64_rounding
  constructor
  · intro h
    by_contra hge
    exact h (chol_perfect R ho (by omega) h0 h1 (not_lt.mp hge))
  · intro hlt h
    rw [cholR, Option.map_eq_none_iff] at h
    obtain ⟨j, hj, L, D, hr⟩ := cholCols_fail h
    have hj2 : j = 0 ∨ j = 1 := by omega
    rcases hj2 with rfl | rfl
    · rw [cholRest, tree_single (ho 0 0 (cholPairs A.get L 0 0) (by simp [cholPairs])), h0] at hr
      simp only [DotTree.eval, mul_one, fl_one R] at hr
      linarith
    · have hl := D.second R ho (by omega) h0
      rw [hρ] at hl
      have hb := b64_below_one hρ hlt
      obtain ⟨X, Y, hT, hX, hY⟩ := tree_pair (fl := b64) (ho 1 1 (cholPairs A.get L 1 1) (by simp [cholPairs]))
      rw [cholRest, hT] at hr
      simp only [h1, mul_one] at hX
      have hX1 : X = 1 := by rcases hX with h | h <;> simp [h, fl_one R]
      have hu := u64_pos'
      have hu1 : u64 ≤ 1 / 2 := by unfold u64; norm_num
      have hsq : A.get 1 0 * A.get 1 0 ≤ (1 - u64) * (1 - u64) := by
        rw [← abs_mul_abs_self]
        exact mul_le_mul hb hb (abs_nonneg _) (by linarith)
      have hY1 : -1 < Y := by
        rcases hY with h | h
        · have e : Y = -b64 (A.get 1 0 * A.get 1 0) := by
            rw [h]
            dsimp only
            rw [hl, ← b64_neg, neg_mul]
          have h2 := (abs_le.mp (R.rel (A.get 1 0 * A.get 1 0))).2
          rw [abs_of_nonneg (mul_self_nonneg (A.get 1 0))] at h2
          have h3 : (1 + u64) * (A.get 1 0 * A.get 1 0) ≤ (1 + u64) * ((1 - u64) * (1 - u64)) := mul_le_mul_of_nonneg_left hsq (by linarith)
          have h4 : (1 + u64) * ((1 - u64) * (1 - u64)) < 1 := by nlinarith [mul_pos hu hu]
          rw [e]
          linarith
        · rw [h]
          dsimp only
          rw [hl]
          nlinarith
      have := fl_pos R (show 0 < X + Y by linarith)
      linarith

variable {Ω : Type*} [MeasurableSpace Ω] {P : MeasureTheory.Measure Ω} {z : Ω → Nat → ℝ} {p : BMParams} {x0 : List ℝ} {dt : ℝ} {s N : Nat}
  {w : Ω → Arr}

/-- C131. The paths of a Brownian motion constructed with a correlation matrix have covariances within rounding of the ones asked for. -/
theorem bm_law_computed (R : Rounding fl) (ho : IsCholOrder ord) {drift vol : SimData} {c : Arr}
    (hp : bmInit (cholR fl ord recip) drift vol (some c) = .ok p) (hn : ((c.rows : ℝ) + 2) * u64 ≤ 1 / 64) (hz : Draws P z) (hdt : 0 ≤ dt)
    (h : ∀ ω, bmSample p x0 dt s N (z ω) = .ok (w ω)) :
    ∃ C : Fin p.drift.length → Fin p.drift.length → ℝ,
      BrownianGrid P (value (n := N) (s := s) p.drift.length w) (fun q j => start x0 p.drift.length q j)
        (fun _ j => bentry p.drift j * dt) C ∧
      ∀ i j, |C i j - c.get (max (i : Nat) j) (min (i : Nat) j) * (bentry p.vol i * bentry p.vol j * dt)| ≤
        9 / 4 * ((p.drift.length + 2) * u64) * (Real.sqrt (c.get i i) * Real.sqrt (c.get j j)) * (|bentry p.vol i * bentry p.vol j| * dt) := by
  obtain ⟨d, hd, hp⟩ := bind_ok hp
  obtain ⟨v, hv, hp⟩ := bind_ok hp
  obtain ⟨L, hL, hp⟩ := bind_ok hp
  cases hp
  refine ⟨_, bm_law hz hdt h, fun i j => ?_⟩
  have hP : MeasureTheory.IsProbabilityMeasure P := StdNormal.prob hz
  obtain ⟨ω⟩ : Nonempty Ω := MeasureTheory.nonempty_of_isProbabilityMeasure P
  obtain ⟨-, -, -, -, hsh, -⟩ := (bm_succeeds_iff s N).mp ⟨_, h ω⟩
  unfold initL at hL
  dsimp only at hL
  split_ifs at hL with hsq
  cases hch : cholR fl ord recip c with
  | none => rw [hch] at hL; cases hL
  | some l =>
    rw [hch] at hL
    cases hL
    obtain ⟨h1, -, -, -, h5⟩ := chol_product R ho hn hch
    have hvl : c.rows = d.length := h1.symm.trans (hsh l rfl).1
    rw [hvl] at h5
    have := h5 i i.2 j j.2
    show |(∑ m ∈ Finset.range d.length, l.get i m * l.get j m) * _ - _| ≤ _
    rw [← sub_mul, abs_mul, abs_mul (_ * _) dt, abs_of_nonneg hdt]
    exact mul_le_mul_of_nonneg_right this (by positivity)

/-! ### Cases -/

/-- Three variables with the same correlation `ρ`. -/
noncomputable def equi (ρ : ℝ) : Arr := ⟨3, 3, fun k => if k % 4 = 0 then 1 else ρ⟩

theorem leftDot_chol : IsCholOrder fun _ _ => leftDot := fun i _ l hl => leftDot_order i l hl

theorem equi_form (ρ : ℝ) (x : Nat → ℝ) :
    lowerForm (equi ρ).get 3 x = x 0 ^ 2 + x 1 ^ 2 + x 2 ^ 2 + 2 * ρ * (x 0 * x 1 + x 0 * x 2 + x 1 * x 2) := by
  simp [lowerForm, equi, Arr.get, Finset.sum_range_succ]
  ring

/-- Accepted. -/
example : cholR b64 (fun _ _ => leftDot) (fun _ _ => true) (equi (1 / 2)) ≠ none := by
  refine chol_correlation b64_rounding leftDot_chol (l := 1 / 2) (by norm_num [equi, u64]) (fun i hi => ?_) (by norm_num [equi, u64])
    fun x => ?_
  · have : i = 0 ∨ i = 1 ∨ i = 2 := by simp only [equi] at hi; omega
    rcases this with rfl | rfl | rfl <;> simp [equi, Arr.get]
  · show _ ≤ lowerForm (equi (1 / 2)).get 3 x
    rw [equi_form]
    simp only [equi, Finset.sum_range_succ, Finset.sum_range_zero]
    nlinarith [sq_nonneg (x 0 + x 1 + x 2)]

/-- Refused: three variables cannot all be strongly negatively correlated. -/
example : cholR b64 (fun _ _ => leftDot) (fun _ _ => true) (equi (-9 / 10)) = none := by
  refine chol_refuses b64_rounding leftDot_chol (x := fun _ => 1) (by norm_num [equi, u64]) ?_
  have hw : weight (equi (-9 / 10)).get 3 (fun _ => 1) = 3 := by
    simp [weight, equi, Arr.get, Finset.sum_range_succ]
    norm_num
  show lowerForm (equi (-9 / 10)).get 3 _ < -(9 / 4 * (((3 : ℕ) + 2) * u64) * weight (equi (-9 / 10)).get 3 _ ^ 2)
  rw [equi_form, hw]
  norm_num [u64]

/-- The part above the diagonal is not read: an asymmetric matrix is accepted and gives the correlation below the diagonal. -/
example : cholR b64 (fun _ _ => leftDot) (fun _ _ => true) ⟨2, 2, fun k => [1, 7, 1 / 2, 1].getD k 0⟩ ≠ none := by
  refine (chol_pair leftDot_chol rfl (by simp [Arr.get]) (by simp [Arr.get]) ?_).mpr ?_
  · have := b64_exact (m := 1) (by norm_num) (-1)
    simp only [Arr.get]
    norm_num at this ⊢
    exact this
  · norm_num [Arr.get]

end Verif.Sim
