import Verif.Model.SimCor
import Verif.Lemmas.Sim
import Mathlib.Tactic.NormNum
import Mathlib.Tactic.Positivity
import Mathlib.Tactic.IntervalCases

/-!
# The correlation matrix from its upper triangle (C25)
-/

namespace Verif.Sim

/-- Number of entries above the diagonal in the rows before row `i` of an `n × n` matrix. -/
def rowStart (n : Nat) : Nat → Nat
  | 0 => 0
  | i + 1 => rowStart n i + (n - (i + 1))

/-- C25. `_triangular_index` accepts exactly the triangular numbers and returns their index. -/
theorem triangularIndex_iff (T k : Nat) : triangularIndex T = .ok k ↔ 2 * T = k * (k + 1) := by
  unfold triangularIndex
  dsimp only
  have hsq : Real.sqrt (1 + 8 * (T : ℝ)) ^ 2 = 1 + 8 * T := Real.sq_sqrt (by positivity)
  have hnn : 1 ≤ Real.sqrt (1 + 8 * (T : ℝ)) := Real.one_le_sqrt.mpr (by
    have : (0 : ℝ) ≤ T := Nat.cast_nonneg T
    linarith)
  constructor
  · intro h
    split at h
    · rename_i hk
      obtain ⟨m, hm⟩ := hk
      rw [hm, Int.floor_intCast] at h
      cases h
      have h0 : (0 : ℝ) ≤ (m : ℝ) := by rw [← hm]; linarith
      have h0 : 0 ≤ m := by exact_mod_cast h0
      obtain ⟨m, rfl⟩ := Int.eq_ofNat_of_zero_le h0
      have hs : Real.sqrt (1 + 8 * (T : ℝ)) = 2 * m + 1 := by push_cast at hm; linarith
      rw [hs] at hsq
      have : (2 : ℝ) * T = m * (m + 1) := by nlinarith
      simp only [Int.toNat_natCast]
      exact_mod_cast this
    · cases h
  · intro h
    have hr : (2 : ℝ) * T = k * (k + 1) := by exact_mod_cast h
    have hs : Real.sqrt (1 + 8 * (T : ℝ)) = 2 * k + 1 := by
      rw [show (1 : ℝ) + 8 * T = (2 * k + 1) ^ 2 by nlinarith]
      exact Real.sqrt_sq (by positivity)
    have hn : (-1 + Real.sqrt (1 + 8 * (T : ℝ))) / 2 = ((k : ℤ) : ℝ) := by rw [hs]; push_cast; ring
    rw [if_pos ⟨k, hn⟩, hn, Int.floor_intCast]
    simp

/-- Every other number is a `ValueError`. -/
theorem triangularIndex_error (T : Nat) :
    (¬ ∃ k, 2 * T = k * (k + 1)) ↔ triangularIndex T = .error .valueError := by
  constructor
  · intro h
    cases hr : triangularIndex T with
    | ok k => exact absurd ⟨k, (triangularIndex_iff T k).mp hr⟩ h
    | error e =>
      unfold triangularIndex at hr
      dsimp only at hr
      split at hr
      · cases hr
      · cases hr; rfl
  · rintro h ⟨k, hk⟩
    rw [(triangularIndex_iff T k).mpr hk] at h
    cases h

theorem triInner_spec {values : List ℝ} {i : Nat} (k : Nat) : ∀ (j : Nat) (m : Nat → Nat → ℝ) (x : Nat),
    i < j → x + k ≤ values.length → ∃ m', triInner values i j k (m, x) = .ok (m', x + k) ∧
      (∀ b, j ≤ b → b < j + k → m' i b = values.getD (x + (b - j)) 0 ∧ m' b i = values.getD (x + (b - j)) 0) ∧
      (∀ a b, ¬ (a = i ∧ j ≤ b ∧ b < j + k) → ¬ (b = i ∧ j ≤ a ∧ a < j + k) → m' a b = m a b) := by
  induction k with
  | zero =>
    intro j m x _ _
    exact ⟨m, rfl, fun b h1 h2 => by omega, fun _ _ _ _ => rfl⟩
  | succ k ih =>
    intro j m x hij hx
    have hget : pyGet values x = .ok (values.getD x 0) := by
      unfold pyGet
      rw [List.getElem?_eq_getElem (by omega), List.getD_eq_getElem _ _ (by omega)]
    obtain ⟨m', h1, h2, h3⟩ := ih (j + 1) (setBoth m i j (values.getD x 0)) (x + 1) (by omega) (by omega)
    refine ⟨m', ?_, ?_, ?_⟩
    · simp only [triInner, hget, bind, Except.bind]
      rw [h1]
      congr 2
      omega
    · intro b hb1 hb2
      by_cases hbj : b = j
      · subst hbj
        rw [h3 i b (by omega) (by omega), h3 b i (by omega) (by omega)]
        simp [setBoth]
      · have := h2 b (by omega) (by omega)
        rw [show x + (b - j) = x + 1 + (b - (j + 1)) by omega]
        exact this
    · intro a b ha hb
      rw [h3 a b (by omega) (by omega)]
      unfold setBoth
      rw [if_neg (by omega)]

theorem triOuter_spec {values : List ℝ} {n : Nat} (k : Nat) : ∀ (i : Nat) (m : Nat → Nat → ℝ),
    i + k = n → rowStart n n ≤ values.length → ∃ m', triOuter values n i k (m, rowStart n i) = .ok (m', rowStart n n) ∧
      (∀ a, i ≤ a → a < n → m' a a = 1) ∧
      (∀ a b, i ≤ a → a < b → b < n → m' a b = values.getD (rowStart n a + (b - a - 1)) 0 ∧
        m' b a = values.getD (rowStart n a + (b - a - 1)) 0) ∧
      (∀ a b, a < i ∨ b < i → m' a b = m a b) := by
  have hmono : ∀ i j, i ≤ j → rowStart n i ≤ rowStart n j := by
    intro i j hij
    induction j with
    | zero => obtain rfl : i = 0 := by omega
              exact le_refl _
    | succ j ih =>
      by_cases h : i = j + 1
      · rw [h]
      · have := ih (by omega)
        simp only [rowStart]
        omega
  induction k with
  | zero =>
    intro i m hi _
    obtain rfl : i = n := by omega
    exact ⟨m, rfl, fun _ _ _ => by omega, fun _ _ _ _ _ => by omega, fun _ _ _ => rfl⟩
  | succ k ih =>
    intro i m hi hlen
    have hrow : rowStart n i + (n - (i + 1)) = rowStart n (i + 1) := rfl
    obtain ⟨m1, h1, h2, h3⟩ := triInner_spec (values := values) (i := i) (n - (i + 1)) (i + 1)
      (setBoth m i i 1) (rowStart n i) (by omega) (by
        have := hmono (i + 1) n (by omega); omega)
    obtain ⟨m', g1, g2, g3, g4⟩ := ih (i + 1) m1 (by omega) hlen
    refine ⟨m', ?_, ?_, ?_, ?_⟩
    · simp only [triOuter, bind, Except.bind]
      rw [h1]
      exact g1
    · intro a ha1 ha2
      by_cases hai : a = i
      · subst hai
        rw [g4 a a (by omega), h3 a a (by omega) (by omega)]
        simp [setBoth]
      · exact g2 a (by omega) ha2
    · intro a b ha hab hb
      by_cases hai : a = i
      · subst hai
        rw [g4 a b (by omega), g4 b a (by omega)]
        have := h2 b (by omega) (by omega)
        rw [show b - a - 1 = b - (a + 1) by omega]
        exact this
      · exact g3 a b (by omega) hab hb
    · intro a b hab
      rw [g4 a b (by omega), h3 a b (by omega) (by omega)]
      unfold setBoth
      rw [if_neg (by omega)]

theorem rowStart_eq {n i : Nat} (hi : i ≤ n) : 2 * rowStart n i + i * (i + 1) = 2 * (i * n) := by
  induction i with
  | zero => simp [rowStart]
  | succ i ih =>
    have := ih (by omega)
    simp only [rowStart]
    obtain ⟨d, rfl⟩ : ∃ d, n = i + 1 + d := ⟨n - (i + 1), by omega⟩
    rw [show i + 1 + d - (i + 1) = d by omega]
    nlinarith

/-- C25. From a list of `n (n - 1) / 2` numbers: an `n × n` matrix with unit diagonal, which is symmetric and
contains each number at its row-major position above the diagonal. -/
theorem cor_from_upper_tri {l : List ℝ} {n : Nat} (hn : 0 < n) (hl : 2 * l.length = (n - 1) * n) :
    ∃ m, corFromUpperTri (.ofList l) = .ok (n, m) ∧ (∀ i < n, m i i = 1) ∧
      (∀ i < n, ∀ j < n, m i j = m j i) ∧
      ∀ i j, i < j → j < n → m i j = l.getD (i * n - i * (i + 1) / 2 + (j - i - 1)) 0 := by
  have hk : triangularIndex l.length = .ok (n - 1) :=
    (triangularIndex_iff _ _).mpr (by rw [hl, Nat.sub_add_cancel hn])
  have hrow := rowStart_eq (le_refl n)
  have hlen : rowStart n n ≤ l.length := by
    have h3 : n * (n + 1) = n * n + n := by ring
    have h4 : (n - 1) * n = n * n - n := by rw [Nat.sub_mul, one_mul]
    have h5 : n ≤ n * n := Nat.le_mul_self n
    omega
  obtain ⟨m, h1, h2, h3, -⟩ := triOuter_spec (values := l) (n := n) n 0 (fun _ _ => 0) (by omega) hlen
  refine ⟨m, ?_, fun i hi => h2 i (by omega) hi, ?_, ?_⟩
  · unfold corFromUpperTri TriArg.ofList
    simp only [hk, bind, Except.bind, Nat.sub_add_cancel hn, true_or, if_true]
    have h1' : triOuter l n 0 n (fun _ _ => 0, 0) = .ok (m, rowStart n n) := h1
    rw [h1']
  · intro i hi j hj
    rcases lt_trichotomy i j with h | h | h
    · rw [(h3 i j (by omega) h hj).1, (h3 i j (by omega) h hj).2]
    · rw [h]
    · rw [(h3 j i (by omega) h hi).1, (h3 j i (by omega) h hi).2]
  · intro i j hij hj
    rw [(h3 i j (by omega) hij hj).1]
    have := rowStart_eq (show i ≤ n by omega)
    congr 1
    have : rowStart n i = i * n - i * (i + 1) / 2 := by omega
    rw [this]

/-- C25. Lists whose length is not triangular, matrices that are not a row or column, and non-arrays raise. -/
theorem cor_from_upper_tri_errors :
    (∀ l : List ℝ, (¬ ∃ n, 2 * l.length = n * (n + 1)) → corFromUpperTri (.ofList l) = .error .valueError) ∧
    (∀ r c data, r ≠ 1 → c ≠ 1 → corFromUpperTri (.array2d r c data) = .error .valueError) ∧
    corFromUpperTri .arrayOther = .error .assertionError ∧
    corFromUpperTri .inconvertible = .error .valueError := by
  refine ⟨?_, ?_, rfl, rfl⟩
  · intro l hl
    unfold corFromUpperTri TriArg.ofList
    simp only [(triangularIndex_error _).mp hl, bind, Except.bind, true_or, if_true]
  · intro r c data hr hc
    unfold corFromUpperTri
    simp only [hr, hc, or_self, if_false]

/-- Non-vacuity of C25: six numbers for a 4 × 4 matrix; a length that is not triangular. -/
example : (∃ m, corFromUpperTri (.ofList [0.1, 0.2, 0.3, 0.4, 0.5, 0.6]) = .ok (4, m) ∧ m 1 2 = 0.4 ∧ m 3 2 = 0.6) ∧
    ¬ ∃ n, 2 * ([0, 0] : List ℝ).length = n * (n + 1) := by
  constructor
  · obtain ⟨m, h1, -, h3, h4⟩ := cor_from_upper_tri (l := [0.1, 0.2, 0.3, 0.4, 0.5, 0.6]) (n := 4) (by omega) rfl
    refine ⟨m, h1, ?_, ?_⟩
    · simpa using h4 1 2 (by omega) (by omega)
    · rw [h3 3 (by omega) 2 (by omega)]; simpa using h4 2 3 (by omega) (by omega)
  · rintro ⟨n, hn⟩
    simp only [List.length_cons, List.length_nil] at hn
    rcases Nat.lt_or_ge n 2 with h | h
    · interval_cases n <;> omega
    · nlinarith

end Verif.Sim
