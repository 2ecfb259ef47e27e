import Verif.Model.CorrDist
import Verif.Lemmas.Sim
import Mathlib.Tactic.Linarith
import Mathlib.Tactic.Positivity
import Mathlib.Tactic.FieldSimp
import Mathlib.Tactic.IntervalCases

/-!
# C40, C42: correlation distances
-/

namespace Verif.Dist

/-- The documented formulas. -/
noncomputable def formula : Method → ℝ → ℝ
  | .angular, x => Real.sqrt ((1 - x) / 2)
  | .absAngular, x => Real.sqrt (1 - |x|)
  | .squaredAngular, x => Real.sqrt (1 - x ^ 2)

/-- The correlation that is used: the value moved into `[-1, 1]`. -/
noncomputable def clampR (x : ℝ) : ℝ := if x < -1 then -1 else if 1 < x then 1 else x

theorem clamp_eq (x : ℝ) : min (max x (-1)) 1 = clampR x := by
  unfold clampR
  split
  · rename_i h
    rw [max_eq_right h.le, min_eq_left (by norm_num)]
  · rename_i h
    rw [max_eq_left (not_lt.mp h)]
    split
    · rename_i h2; rw [min_eq_right h2.le]
    · rename_i h2; rw [min_eq_left (not_lt.mp h2)]

theorem clampR_mem (x : ℝ) : -1 ≤ clampR x ∧ clampR x ≤ 1 := by
  unfold clampR
  split
  · norm_num
  · split
    · norm_num
    · rename_i h1 h2; exact ⟨not_lt.mp h1, not_lt.mp h2⟩

theorem clampR_of_mem {x : ℝ} (h1 : -1 ≤ x) (h2 : x ≤ 1) : clampR x = x := by
  unfold clampR
  rw [if_neg (not_lt.mpr h1), if_neg (not_lt.mpr h2)]

theorem formula_mem (meth : Method) {x : ℝ} (h1 : -1 ≤ x) (h2 : x ≤ 1) :
    0 ≤ formula meth x ∧ formula meth x ≤ 1 := by
  cases meth
  · exact ⟨Real.sqrt_nonneg _, Real.sqrt_le_one.mpr (by linarith)⟩
  · exact ⟨Real.sqrt_nonneg _, Real.sqrt_le_one.mpr (by linarith [abs_nonneg x])⟩
  · exact ⟨Real.sqrt_nonneg _, Real.sqrt_le_one.mpr (by nlinarith [sq_nonneg x])⟩

theorem convert_eq (meth : Method) {x : ℝ} (h1 : -1 ≤ x) (h2 : x ≤ 1) : convert meth x = some (formula meth x) := by
  have ha : |x| ≤ 1 := abs_le.mpr ⟨h1, h2⟩
  cases meth
  · unfold convert sqrtO formula
    dsimp only
    rw [if_neg (by linarith)]
  · unfold convert sqrtO formula
    dsimp only
    rw [if_neg (by linarith)]
  · unfold convert sqrtO formula
    dsimp only
    rw [if_neg (by nlinarith)]

/-- C40. A finite correlation gives the documented formula at the clipped correlation. -/
theorem dist_fin (meth : Method) (x : ℝ) : distOf meth (.fin x) = some (formula meth (clampR x)) := by
  obtain ⟨h1, h2⟩ := clampR_mem x
  obtain ⟨h3, h4⟩ := formula_mem meth h1 h2
  unfold distOf clipX
  dsimp only
  rw [clamp_eq, Option.bind_some, convert_eq meth h1 h2, Option.map_some, max_eq_left h3, min_eq_left h4]

/-- C40. Infinite correlations count as `1` and `-1`, `nan` stays `nan`. -/
theorem dist_special (meth : Method) : distOf meth .nan = none ∧ distOf meth .pinf = some 0 ∧
    distOf meth .ninf = some (if meth = .angular then 1 else 0) := by
  have e : ∀ x y, clipX (-1) 1 x = some y → -1 ≤ y → y ≤ 1 → distOf meth x = some (formula meth y) := by
    intro x y h h1 h2
    obtain ⟨h3, h4⟩ := formula_mem meth h1 h2
    unfold distOf
    rw [h, Option.bind_some, convert_eq meth h1 h2, Option.map_some, max_eq_left h3, min_eq_left h4]
  refine ⟨rfl, ?_, ?_⟩
  · rw [e .pinf 1 rfl (by norm_num) le_rfl]
    cases meth <;> simp [formula]
  · rw [e .ninf (-1) rfl le_rfl (by norm_num)]
    cases meth <;> simp [formula]

/-- C40. Every distance is `nan` (exactly for a `nan` correlation) or between 0 and 1. -/
theorem dist_range (meth : Method) (x : XF) :
    (distOf meth x = none ↔ x = .nan) ∧ ∀ d, distOf meth x = some d → 0 ≤ d ∧ d ≤ 1 := by
  obtain ⟨h1, h2, h3⟩ := dist_special meth
  cases x with
  | nan => rw [h1]; simp
  | pinf =>
    rw [h2]
    refine ⟨by simp, fun d h => ?_⟩
    cases h; norm_num
  | ninf =>
    rw [h3]
    refine ⟨by simp, fun d h => ?_⟩
    have := Option.some.inj h
    subst this
    split <;> norm_num
  | fin r =>
    rw [dist_fin]
    refine ⟨by simp, fun d h => ?_⟩
    have := Option.some.inj h
    subst this
    exact formula_mem meth (clampR_mem r).1 (clampR_mem r).2

/-- C42. The angular distance decreases strictly in the correlation, the other two in its absolute value. -/
theorem dist_monotone {x y : ℝ} (hx : |x| ≤ 1) (hy : |y| ≤ 1) {dx dy : ℝ} :
    (distOf .angular (.fin x) = some dx → distOf .angular (.fin y) = some dy → (dx < dy ↔ y < x)) ∧
    (distOf .absAngular (.fin x) = some dx → distOf .absAngular (.fin y) = some dy → (dx < dy ↔ |y| < |x|)) ∧
    (distOf .squaredAngular (.fin x) = some dx → distOf .squaredAngular (.fin y) = some dy →
      (dx < dy ↔ |y| < |x|)) := by
  obtain ⟨x1, x2⟩ := abs_le.mp hx
  obtain ⟨y1, y2⟩ := abs_le.mp hy
  simp only [dist_fin, clampR_of_mem x1 x2, clampR_of_mem y1 y2, formula, Option.some.injEq]
  refine ⟨?_, ?_, ?_⟩
  · rintro rfl rfl
    rw [Real.sqrt_lt_sqrt_iff (by linarith)]
    constructor <;> intro h <;> linarith
  · rintro rfl rfl
    rw [Real.sqrt_lt_sqrt_iff (by linarith)]
    constructor <;> intro h <;> linarith
  · rintro rfl rfl
    rw [Real.sqrt_lt_sqrt_iff (by nlinarith), ← sq_lt_sq]
    constructor <;> intro h <;> linarith

/-- C42. The absolute distance is never larger than the squared one, and the squared one never larger than `√2` times
the absolute one; all three order correlations without regard to how far they are out of range. -/
theorem dist_compare (x : ℝ) {a s : ℝ} (ha : distOf .absAngular (.fin x) = some a)
    (hs : distOf .squaredAngular (.fin x) = some s) : a ≤ s ∧ s ≤ Real.sqrt 2 * a := by
  obtain ⟨h1, h2⟩ := clampR_mem x
  have hb : |clampR x| ≤ 1 := abs_le.mpr ⟨h1, h2⟩
  rw [dist_fin] at ha hs
  have ea := Option.some.inj ha
  have es := Option.some.inj hs
  rw [← ea, ← es]
  have e : clampR x ^ 2 = |clampR x| ^ 2 := (sq_abs _).symm
  have h0 := abs_nonneg (clampR x)
  unfold formula
  constructor
  · apply Real.sqrt_le_sqrt
    rw [e]; nlinarith
  · rw [← Real.sqrt_mul (by norm_num)]
    apply Real.sqrt_le_sqrt
    rw [e]; nlinarith

/-! ### Matrices -/

/-- C40. An array is accepted exactly if it passes the validation: square, unit diagonal, symmetric up to the
tolerance; everything else is an `AssertionError`. -/
theorem array_ok_iff (meth : Method) (m : Table) : (∃ r, corrToDistance meth (.array m) = .ok r) ↔ ValidMatrix m := by
  unfold corrToDistance
  by_cases h : ValidMatrix m
  · simp [h]
  · simp [h]

/-- C40. The distance matrix of an accepted array: the same shape, zeros on the diagonal, no `nan`, all entries in
`[0, 1]` and equal to the distance of the entry; symmetric if the array is. -/
theorem array_dist {meth : Method} {m : Table} {r : DistRes} (h : corrToDistance meth (.array m) = .ok r) :
    ∃ d : Nat → Nat → Option ℝ, r = .array m.rows m.rows d ∧ (∀ i, d i i = some 0) ∧
      (∀ i j, i < m.rows → j < m.rows → d i j = distOf meth (m.at_ i j)) ∧
      (∀ i j, i < m.rows → j < m.rows → ∃ v, d i j = some v ∧ 0 ≤ v ∧ v ≤ 1) ∧
      ((∀ i j, m.at_ i j = m.at_ j i) → ∀ i j, d i j = d j i) := by
  have hv := (array_ok_iff meth m).mp ⟨r, h⟩
  unfold corrToDistance at h
  dsimp only at h
  rw [if_pos hv] at h
  have h := Except.ok.inj h
  obtain ⟨h1, h2, h3⟩ := hv
  have hent : ∀ i j, i < m.rows → j < m.rows →
      (if i = j then some 0 else distOf meth (m.at_ i j)) = distOf meth (m.at_ i j) := by
    intro i j hi hj
    by_cases hij : i = j
    · subst hij
      rw [if_pos rfl, h3 i hi, dist_fin, clampR_of_mem (by norm_num) le_rfl]
      cases meth <;> simp [formula]
    · rw [if_neg hij]
  refine ⟨fun i j => if i = j then some 0 else distOf meth (m.at_ i j), by rw [← h, h1], fun i => if_pos rfl, hent,
    fun i j hi hj => ?_, fun hs i j => ?_⟩
  · dsimp only
    rw [hent i j hi hj]
    have hc := h2 i j hi hj
    have hne : m.at_ i j ≠ .nan := by
      intro hn; rw [hn] at hc; exact hc
    obtain ⟨v, hv⟩ := Option.ne_none_iff_exists'.mp fun hn => hne ((dist_range meth _).1.mp hn)
    exact ⟨v, hv, (dist_range meth _).2 v hv⟩
  · dsimp only
    by_cases hij : i = j
    · subst hij; rfl
    · rw [if_neg hij, if_neg (Ne.symm hij), hs]

/-- C40, limit. The symmetry test has a tolerance and the distances are not symmetrised: an accepted array can have a
distance matrix that is not symmetric. -/
theorem array_dist_asymmetric : ∃ m d, corrToDistance .angular (.array m) = .ok (.array 2 2 d) ∧ d 0 1 ≠ d 1 0 := by
  refine ⟨⟨2, 2, fun i j => if i = j then .fin 1 else if i = 0 then .fin 0 else .fin (1 / 10 ^ 9)⟩,
    fun i j => if i = j then some 0 else distOf .angular (if i = j then .fin 1 else if i = 0 then .fin 0 else
      .fin (1 / 10 ^ 9)), ?_, ?_⟩
  · unfold corrToDistance
    dsimp only
    rw [if_pos]
    refine ⟨rfl, fun i j hi hj => ?_, fun i _ => if_pos rfl⟩
    dsimp only at hi hj ⊢
    interval_cases i <;> interval_cases j <;> norm_num [isClose]
  · dsimp only
    rw [if_neg (by decide), if_neg (by decide), if_pos rfl, if_neg (by decide), if_neg (by decide), if_neg (by decide),
      dist_fin, dist_fin, clampR_of_mem (by norm_num) (by norm_num), clampR_of_mem (by norm_num) (by norm_num)]
    intro h
    have h := Option.some.inj h
    unfold formula at h
    rw [Real.sqrt_inj (by norm_num) (by norm_num)] at h
    norm_num at h

/-- C40, limit. A data frame is not validated and its diagonal is not set to zero: the distance of a column to itself is
whatever the diagonal entry gives, `nan` for a `nan` entry. -/
theorem frame_dist (meth : Method) (m : Table) : ∃ d, corrToDistance meth (.frame m) = .ok (.frame m.rows m.cols d) ∧
    (∀ i j, d i j = distOf meth (m.at_ i j)) ∧
    ∀ i, (d i i = some 0 ↔ match m.at_ i i with
      | .nan => False
      | .pinf => True
      | .ninf => meth ≠ .angular
      | .fin x => 1 ≤ x ∨ (x ≤ -1 ∧ meth ≠ .angular)) := by
  refine ⟨_, rfl, fun _ _ => rfl, fun i => ?_⟩
  obtain ⟨h1, h2, h3⟩ := dist_special meth
  cases m.at_ i i with
  | nan => simp [h1]
  | pinf => simp [h2]
  | ninf => rw [h3]; cases meth <;> simp
  | fin x =>
    rw [dist_fin, Option.some.injEq]
    obtain ⟨c1, c2⟩ := clampR_mem x
    have e1 : clampR x = 1 ↔ 1 ≤ x := by
      unfold clampR
      split
      · rename_i h; exact ⟨fun h' => by norm_num at h', fun h' => by linarith⟩
      · split
        · rename_i h; exact ⟨fun _ => h.le, fun _ => rfl⟩
        · rename_i h1 h2; exact ⟨fun h => h.ge, fun h => le_antisymm (not_lt.mp h2) h⟩
    have e2 : clampR x = -1 ↔ x ≤ -1 := by
      unfold clampR
      split
      · rename_i h; exact ⟨fun _ => h.le, fun _ => rfl⟩
      · split
        · rename_i h; exact ⟨fun h' => by norm_num at h', fun h' => by linarith⟩
        · rename_i h1 h2; exact ⟨fun h => h.le, fun h => le_antisymm h (not_lt.mp h1)⟩
    have hab : |clampR x| = 1 ↔ 1 ≤ x ∨ x ≤ -1 := by
      rw [abs_eq (by norm_num), e1, e2]
    have hab1 : |clampR x| ≤ 1 := abs_le.mpr ⟨c1, c2⟩
    cases meth
    · unfold formula
      dsimp only
      rw [Real.sqrt_eq_zero (by linarith)]
      simp only [ne_eq, not_true_eq_false, and_false, or_false]
      rw [← e1]
      constructor <;> intro h <;> linarith
    · unfold formula
      dsimp only
      rw [Real.sqrt_eq_zero (by linarith)]
      simp only [ne_eq, reduceCtorEq, not_false_eq_true, and_true]
      rw [← hab]
      constructor <;> intro h <;> linarith
    · unfold formula
      dsimp only
      rw [Real.sqrt_eq_zero (by nlinarith)]
      simp only [ne_eq, reduceCtorEq, not_false_eq_true, and_true]
      rw [← hab]
      constructor
      · intro h
        have : clampR x ^ 2 = 1 := by linarith
        rw [← sq_abs] at this
        nlinarith [abs_nonneg (clampR x)]
      · intro h
        rw [← sq_abs, h]; norm_num

/-! ### `distance_matrix.py` -/

/-- C40. `corr_to_dist` succeeds exactly for one of the three method names and a data frame with at least two columns or
a valid matrix with at least two columns. -/
theorem corr_to_dist_ok_iff (c : CorrArg) (s : String) : (∃ r, corrToDist c s = .ok r) ↔
    (s = "angular" ∨ s = "abs_angular" ∨ s = "squared_angular") ∧
    ((∃ m, c = .frame m ∧ 2 ≤ m.cols) ∨ ∃ m, c = .array m ∧ 2 ≤ m.cols ∧ ValidMatrix m) := by
  have hp : (∃ meth, parseMethod s = some meth) ↔ (s = "angular" ∨ s = "abs_angular" ∨ s = "squared_angular") := by
    unfold parseMethod
    by_cases h1 : s = "angular"
    · simp [h1]
    · by_cases h2 : s = "abs_angular"
      · simp [h2]
      · by_cases h3 : s = "squared_angular"
        · simp [h3]
        · simp [h1, h2, h3]
  rw [← hp]
  unfold corrToDist
  cases c with
  | scalar x => simp [validate2D, bind, Except.bind]
  | oddArray => simp [validate2D, bind, Except.bind]
  | nested m => simp [validate2D, bind, Except.bind]
  | otherValue => simp [validate2D, bind, Except.bind]
  | frame m =>
    by_cases hc : m.cols < 2
    · simp [validate2D, bind, Except.bind, hc]
    · cases hm : parseMethod s with
      | none => simp [validate2D, bind, Except.bind, hc]
      | some meth =>
        have hc2 : 2 ≤ m.cols := by omega
        simp [validate2D, bind, Except.bind, hc, corrToDistance, hc2]
  | array m =>
    by_cases hc : m.cols < 2
    · have : ¬ 2 ≤ m.cols := by omega
      simp [validate2D, bind, Except.bind, hc]
    · have hc2 : 2 ≤ m.cols := by omega
      cases hm : parseMethod s with
      | none => simp [validate2D, bind, Except.bind, hc]
      | some meth =>
        have := array_ok_iff meth m
        simp [validate2D, bind, Except.bind, hc, this, hc2]

/-- The documented properties of `DataFrame.corr` used here: a square table with one row per column; symmetric; each
entry `nan` or a number in `[-1, 1]`; on the diagonal `nan` or 1. -/
structure PdCorrSpec (pdCorr : Table → String → Table) : Prop where
  rows : ∀ m s, (pdCorr m s).rows = m.cols
  cols : ∀ m s, (pdCorr m s).cols = m.cols
  symm : ∀ m s i j, (pdCorr m s).at_ i j = (pdCorr m s).at_ j i
  entry : ∀ m s i j, (pdCorr m s).at_ i j = .nan ∨ ∃ x : ℝ, |x| ≤ 1 ∧ (pdCorr m s).at_ i j = .fin x
  diag : ∀ m s i, (pdCorr m s).at_ i i = .nan ∨ (pdCorr m s).at_ i i = .fin 1

theorem corrDistanceMatrix_eq {pdCorr : Table → String → Table} {x : CorrArg} {corrMethod method : String} {meth : Method}
    (h1 : corrMethod = "pearson" ∨ corrMethod = "spearman") (hm : parseMethod method = some meth) :
    (∀ m, x = .frame m → 2 ≤ m.cols → (pdCorr m corrMethod).cols = m.cols →
      corrDistanceMatrix pdCorr none x corrMethod method = corrToDistance meth (.frame (pdCorr m corrMethod))) ∧
    ∀ m, x = .array m → 2 ≤ m.cols → (pdCorr m corrMethod).cols = m.cols →
      corrDistanceMatrix pdCorr none x corrMethod method = corrToDistance meth (.array (pdCorr m corrMethod)) := by
  constructor
  · rintro m rfl hc hcols
    have hc2 : ¬ m.cols < 2 := by omega
    unfold corrDistanceMatrix calculateCorrelation corrToDist
    rw [if_pos h1]
    simp [validate2D, bind, Except.bind, hc2, hcols, hm]
  · rintro m rfl hc hcols
    have hc2 : ¬ m.cols < 2 := by omega
    unfold corrDistanceMatrix calculateCorrelation corrToDist
    rw [if_pos h1]
    simp [validate2D, bind, Except.bind, hc2, hcols, hm]

/-- C40. The correlation distance matrix of a data frame with at least two columns always exists, is symmetric and
square, and every entry is `nan` (exactly where the correlation is) or in `[0, 1]`; the diagonal is zero or `nan`. -/
theorem frame_distance_matrix {pdCorr : Table → String → Table} (hs : PdCorrSpec pdCorr) {m : Table} (hc : 2 ≤ m.cols)
    {corrMethod method : String} (h1 : corrMethod = "pearson" ∨ corrMethod = "spearman") {meth : Method}
    (hm : parseMethod method = some meth) :
    ∃ d, corrDistanceMatrix pdCorr none (.frame m) corrMethod method = .ok (.frame m.cols m.cols d) ∧
      (∀ i j, d i j = d j i) ∧ (∀ i j, d i j = none ↔ (pdCorr m corrMethod).at_ i j = .nan) ∧
      (∀ i j v, d i j = some v → 0 ≤ v ∧ v ≤ 1) ∧ ∀ i, d i i = none ∨ d i i = some 0 := by
  rw [(corrDistanceMatrix_eq h1 hm).1 m rfl hc (hs.cols _ _)]
  refine ⟨fun i j => distOf meth ((pdCorr m corrMethod).at_ i j), ?_, fun i j => ?_, fun i j => (dist_range _ _).1,
    fun i j v => (dist_range _ _).2 v, fun i => ?_⟩
  · unfold corrToDistance
    dsimp only
    rw [hs.rows, hs.cols]
  · dsimp only
    rw [hs.symm]
  · dsimp only
    rcases hs.diag m corrMethod i with h | h
    · rw [h]; exact .inl rfl
    · rw [h, dist_fin, clampR_of_mem (by norm_num) le_rfl]
      right
      cases meth <;> simp [formula]

/-- C40. For the same data given as an array there is a result exactly if no correlation is `nan`: one constant column
makes the call fail with an `AssertionError`, although the data frame version returns `nan` there. -/
theorem array_distance_matrix {pdCorr : Table → String → Table} (hs : PdCorrSpec pdCorr) {m : Table} (hc : 2 ≤ m.cols)
    {corrMethod method : String} (h1 : corrMethod = "pearson" ∨ corrMethod = "spearman") {meth : Method}
    (hm : parseMethod method = some meth) :
    ((∃ r, corrDistanceMatrix pdCorr none (.array m) corrMethod method = .ok r) ↔
      ∀ i j, i < m.cols → j < m.cols → (pdCorr m corrMethod).at_ i j ≠ .nan) ∧
    ((∃ i j, i < m.cols ∧ j < m.cols ∧ (pdCorr m corrMethod).at_ i j = .nan) →
      corrDistanceMatrix pdCorr none (.array m) corrMethod method = .error .assertionError) := by
  rw [(corrDistanceMatrix_eq h1 hm).2 m rfl hc (hs.cols _ _), array_ok_iff]
  have key : ValidMatrix (pdCorr m corrMethod) ↔
      ∀ i j, i < m.cols → j < m.cols → (pdCorr m corrMethod).at_ i j ≠ .nan := by
    unfold ValidMatrix
    rw [hs.rows, hs.cols]
    constructor
    · rintro ⟨-, h, -⟩ i j hi hj hn
      have := h i j hi hj
      rw [hn] at this
      exact this
    · intro h
      refine ⟨rfl, fun i j hi hj => ?_, fun i hi => (hs.diag m corrMethod i).resolve_left (h i i hi hi)⟩
      rw [hs.symm m corrMethod j i]
      rcases hs.entry m corrMethod i j with hn | ⟨x, -, hx⟩
      · exact absurd hn (h i j hi hj)
      · rw [hx]
        unfold isClose
        dsimp only
        rw [sub_self, abs_zero]
        positivity
  refine ⟨key, fun ⟨i, j, hi, hj, hn⟩ => ?_⟩
  unfold corrToDistance
  dsimp only
  rw [if_neg fun hv => key.mp hv i j hi hj hn]

/-- C40. Unknown method names are always rejected with an `AssertionError` when the data is a table with at least two
columns. -/
theorem distance_matrix_bad_names {pdCorr : Table → String → Table} (hs : PdCorrSpec pdCorr) {m : Table}
    (hc : 2 ≤ m.cols) {corrMethod method : String}
    (h : ¬ (corrMethod = "pearson" ∨ corrMethod = "spearman") ∨ parseMethod method = none) :
    corrDistanceMatrix pdCorr none (.frame m) corrMethod method = .error .assertionError := by
  have hc2 : ¬ m.cols < 2 := by omega
  unfold corrDistanceMatrix calculateCorrelation corrToDist
  by_cases h1 : corrMethod = "pearson" ∨ corrMethod = "spearman"
  · rw [if_pos h1]
    have hm := h.resolve_left (not_not.mpr h1)
    simp [validate2D, bind, Except.bind, hc2, hs.cols, hm]
  · rw [if_neg h1]

/-- The specification of `DataFrame.corr` is met by a function that leaves out one constant column. -/
example : ∃ pdCorr, PdCorrSpec pdCorr ∧ ∀ s, (pdCorr ⟨3, 2, fun _ _ => .nan⟩ s).at_ 0 0 = .nan :=
  ⟨fun m _ => ⟨m.cols, m.cols, fun i j => if i = 0 ∨ j = 0 then .nan else if i = j then .fin 1 else .fin 0⟩,
    ⟨fun _ _ => rfl, fun _ _ => rfl, fun _ _ i j => by
        dsimp only
        simp only [or_comm (a := i = 0), eq_comm (a := i) (b := j)],
      fun _ _ i j => by
        dsimp only
        split
        · exact .inl rfl
        · split
          · exact .inr ⟨1, by norm_num, rfl⟩
          · exact .inr ⟨0, by norm_num, rfl⟩,
      fun _ _ i => by
        dsimp only
        split
        · exact .inl rfl
        · rw [if_pos rfl]; exact .inr rfl⟩, fun _ => rfl⟩

end Verif.Dist
