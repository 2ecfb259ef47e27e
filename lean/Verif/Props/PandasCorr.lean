import Verif.Lemmas.PandasCorr

/-!
# C101: the correlation distance matrix of a table with the correlations of pandas

Specification: two columns are compared on the rows in which both are finite (`pairs`), by their values or by their ranks
(`sample`), with the pairwise distance of `correlation.py`.
-/

namespace Verif.Dist

/-- The pairs of finite numbers standing in the same row. -/
def pairs (x y : List XF) : List (ℝ × ℝ) := (x.zip y).filterMap fun p =>
  match p with
  | (.fin a, .fin b) => some (a, b)
  | _ => none

/-- What is correlated: the values, or for Spearman's correlation their ranks. -/
noncomputable def sample (s : String) (l : List ℝ) : List ℝ := if s = "pearson" then l else ranks l

theorem complete_pairs (x y : List XF) : complete x y = pairs x y := by
  induction x generalizing y with
  | nil => cases y <;> rfl
  | cons a x ih =>
    cases y with
    | nil => cases a <;> rfl
    | cons b y => cases a <;> cases b <;> simp [complete, pairs, ih]

/-! ### Ranks -/

open Classical in
theorem rank_lt {l : List ℝ} {v w : ℝ} (h : v ∈ l ∨ w ∈ l) (hvw : v < w) : rank l v < rank l w := by
  have key : ∀ l : List ℝ, (l.countP fun u => decide (u < v)) + (l.countP fun u => decide (u = v)) ≤ l.countP fun u => decide (u < w) := by
    intro l
    induction l with
    | nil => simp
    | cons a l ih =>
      simp only [List.countP_cons, decide_eq_true_eq]
      rcases lt_trichotomy a v with h | h | h
      · rw [if_pos h, if_neg h.ne, if_pos (h.trans hvw)]; omega
      · subst h; rw [if_neg (lt_irrefl _), if_pos rfl, if_pos hvw]; omega
      · rw [if_neg (not_lt.mpr h.le), if_neg h.ne']; split <;> omega
  have k1 : ((l.countP fun u => decide (u < v)) : ℝ) + (l.countP fun u => decide (u = v)) ≤ l.countP fun u => decide (u < w) := by
    exact_mod_cast key l
  have pos : ∀ u ∈ l, (1 : ℝ) ≤ l.countP fun t => decide (t = u) := by
    intro u hu
    have : 0 < l.countP fun t => decide (t = u) := List.countP_pos_iff.mpr ⟨u, hu, by simp⟩
    exact_mod_cast this
  unfold rank
  have n1 : (0 : ℝ) ≤ l.countP fun t => decide (t = v) := Nat.cast_nonneg _
  have n2 : (0 : ℝ) ≤ l.countP fun t => decide (t = w) := Nat.cast_nonneg _
  rcases h with h | h
  · have := pos v h
    linarith
  · have := pos w h
    linarith

/-- C101. Ranks order the values of a list as the values themselves do. -/
theorem rank_lt_iff {l : List ℝ} {v w : ℝ} (h : v ∈ l) : rank l v < rank l w ↔ v < w := by
  refine ⟨fun hr => ?_, rank_lt (.inl h)⟩
  by_contra hn
  rcases (not_lt.mp hn).eq_or_lt with e | e
  · rw [e] at hr; exact lt_irrefl _ hr
  · exact lt_asymm hr (rank_lt (.inr h) e)

theorem constant_ranks (l : List ℝ) : Constant (ranks l) ↔ Constant l := by
  constructor
  · intro h a ha b hb
    have := h _ (List.mem_map_of_mem (f := rank l) ha) _ (List.mem_map_of_mem (f := rank l) hb)
    rcases lt_trichotomy a b with e | e | e
    · exact absurd this (rank_lt (.inl ha) e).ne
    · exact e
    · exact absurd this (rank_lt (.inl hb) e).ne'
  · intro h a ha b hb
    obtain ⟨u, hu, rfl⟩ := List.mem_map.mp ha
    obtain ⟨v, hv, rfl⟩ := List.mem_map.mp hb
    rw [h u hu v hv]

theorem constant_sample (s : String) (l : List ℝ) : Constant (sample s l) ↔ Constant l := by
  unfold sample
  split
  · rfl
  · exact constant_ranks l

theorem sample_length (s : String) (l : List ℝ) : (sample s l).length = l.length := by
  unfold sample
  split
  · rfl
  · exact List.length_map _

theorem ranks_map {f : ℝ → ℝ} (hf : StrictMono f) (l : List ℝ) : ranks (l.map f) = ranks l := by
  unfold ranks
  rw [List.map_map]
  refine List.map_congr_left fun v _ => ?_
  unfold rank
  simp only [Function.comp, List.countP_map]
  have e1 : (l.countP ((fun w => decide (w < f v)) ∘ f)) = l.countP fun w => decide (w < v) :=
    List.countP_congr fun w _ => by simp [hf.lt_iff_lt]
  have e2 : (l.countP ((fun w => decide (w = f v)) ∘ f)) = l.countP fun w => decide (w = v) :=
    List.countP_congr fun w _ => by simp [hf.injective.eq_iff]
  rw [e1, e2]

/-- A case: of two equal values each gets the mean of their two positions. -/
example : ranks [5, 7, 7] = [1, 5 / 2, 5 / 2] := by
  unfold ranks rank
  norm_num [List.countP_cons]

/-! ### The entries -/

/-- The correlation of two columns. -/
noncomputable def entry (minp : Int) (s : String) (x y : List XF) : XF :=
  if s = "pearson" then pearsonR id minp x y else spearmanR id minp x y

theorem entry_eq (minp : Int) (s : String) (x y : List XF) : entry minp s x y =
    if ((pairs x y).length : Int) < minp then .nan
    else match corrcoef (sample s ((pairs x y).map (·.1))) (sample s ((pairs x y).map (·.2))) with
      | .ok c => c
      | .error _ => .nan := by
  unfold entry sample
  split
  · rw [pearson_eq, complete_pairs]; rfl
  · rw [spearman_eq, complete_pairs]; rfl

theorem pairs_swap (x y : List XF) : pairs y x = (pairs x y).map Prod.swap := by
  rw [← complete_pairs, complete_swap, complete_pairs]

theorem entry_comm (minp : Int) (s : String) (x y : List XF) : entry minp s x y = entry minp s y x := by
  rw [entry_eq, entry_eq, pairs_swap x y]
  simp only [List.length_map, List.map_map]
  rw [corrcoef_comm]
  rfl

theorem pdCorr_at (minp : Int) (m : Table) (s : String) (i j : Nat) :
    (pdCorr minp m s).at_ i j = entry minp s (m.col i) (m.col j) := by
  show entry minp s (m.col (max i j)) (m.col (min i j)) = _
  rcases le_total i j with h | h
  · rw [max_eq_right h, min_eq_left h, entry_comm]
  · rw [max_eq_left h, min_eq_right h]

theorem sample_pairs_length (s : String) (c : List (ℝ × ℝ)) :
    (sample s (c.map (·.1))).length = (sample s (c.map (·.2))).length := by
  rw [sample_length, sample_length]; simp

theorem entry_cases (minp : Int) (s : String) (x y : List XF) :
    (entry minp s x y = .nan ↔ ((pairs x y).length : Int) < minp ∨ Constant ((pairs x y).map (·.1)) ∨ Constant ((pairs x y).map (·.2))) ∧
    (entry minp s x y = .nan ∨ ∃ r : ℝ, |r| ≤ 1 ∧ entry minp s x y = .fin r) := by
  rw [entry_eq]
  split
  · rename_i h
    simp [h]
  · rename_i h
    have hl := sample_pairs_length s (pairs x y)
    by_cases hc : Constant ((pairs x y).map (·.1)) ∨ Constant ((pairs x y).map (·.2))
    · rw [corrcoef_constant hl (by rw [constant_sample, constant_sample]; exact hc)]
      simp [hc]
    · unfold corrcoef
      rw [if_neg (not_not.mpr hl), if_neg (by rw [coSum_self_eq_zero_iff, coSum_self_eq_zero_iff, constant_sample, constant_sample]; exact hc)]
      refine ⟨by simp [h, hc], .inr ⟨_, ?_, rfl⟩⟩
      rw [clamp_eq]
      exact abs_le.mpr (clampR_mem _)

theorem pairs_self (x : List XF) : (pairs x x).map (·.1) = (pairs x x).map (·.2) := by
  rw [← complete_pairs]
  exact List.map_congr_left fun p hp => complete_self x p hp

/-- C101. The correlations of pandas have the properties assumed of them in C40, for every number of required periods. -/
theorem pandas_corr_spec (minp : Int) : PdCorrSpec (pdCorr minp) where
  rows _ _ := rfl
  cols _ _ := rfl
  symm m s i j := by rw [pdCorr_at, pdCorr_at, entry_comm]
  entry m s i j := by rw [pdCorr_at]; exact (entry_cases _ _ _ _).2
  diag m s i := by
    rw [pdCorr_at]
    by_cases h : entry minp s (m.col i) (m.col i) = .nan
    · exact .inl h
    · right
      rw [(entry_cases _ _ _ _).1, not_or, not_or] at h
      rw [entry_eq, if_neg h.1, pairs_self]
      have := corrcoef_affine (x := sample s ((pairs (m.col i) (m.col i)).map (·.2))) (by rw [constant_sample]; exact h.2.2) one_ne_zero 0
      simp only [one_mul, add_zero, List.map_id', zero_lt_one, if_true] at this
      rw [this]

theorem dist_entry (meth : Method) (minp : Int) (s : String) (x y : List XF) (h : minp ≤ ((pairs x y).length : Int)) :
    pairDistance meth (sample s ((pairs x y).map (·.1))) (sample s ((pairs x y).map (·.2))) = .ok (distOf meth (entry minp s x y)) := by
  rw [entry_eq, if_neg (not_lt.mpr h)]
  unfold pairDistance
  have : corrcoef (sample s ((pairs x y).map (·.1))) (sample s ((pairs x y).map (·.2))) ≠ .error .valueError := by
    unfold corrcoef
    rw [if_neg (not_not.mpr (sample_pairs_length s _))]
    split <;> exact fun h => by cases h
  cases hc : corrcoef (sample s ((pairs x y).map (·.1))) (sample s ((pairs x y).map (·.2))) with
  | ok c => rfl
  | error e =>
    unfold corrcoef at hc
    rw [if_neg (not_not.mpr (sample_pairs_length s _))] at hc
    split at hc <;> cases hc

/-- C101. Every entry of the distance matrix of a data frame is the pairwise distance of the two columns, or of their ranks, on
the rows in which both are finite; `nan` if there are fewer such rows than required or one column is constant on them. -/
theorem corr_matrix_entries {m : Table} (hc : 2 ≤ m.cols) (minp : Int) {s method : String} (h1 : s = "pearson" ∨ s = "spearman")
    {meth : Method} (hm : parseMethod method = some meth) :
    ∃ d, corrDistanceMatrix (pdCorr minp) none (.frame m) s method = .ok (.frame m.cols m.cols d) ∧ ∀ i j,
      (minp ≤ ((pairs (m.col i) (m.col j)).length : Int) →
        pairDistance meth (sample s ((pairs (m.col i) (m.col j)).map (·.1))) (sample s ((pairs (m.col i) (m.col j)).map (·.2))) = .ok (d i j)) ∧
      (d i j = none ↔ ((pairs (m.col i) (m.col j)).length : Int) < minp ∨ Constant ((pairs (m.col i) (m.col j)).map (·.1)) ∨
        Constant ((pairs (m.col i) (m.col j)).map (·.2))) := by
  refine ⟨fun i j => distOf meth (entry minp s (m.col i) (m.col j)), ?_, fun i j => ⟨dist_entry _ _ _ _ _, ?_⟩⟩
  · rw [(corrDistanceMatrix_eq h1 hm).1 m rfl hc rfl]
    unfold corrToDistance
    simp only [pdCorr_at]
    rfl
  · dsimp only
    rw [(dist_range _ _).1, (entry_cases _ _ _ _).1]

/-- C101. The same table given as an array: there is a result exactly if every two columns, also each with itself, have enough
common rows and are not constant on them, and then the entries off the diagonal are those of the data frame. -/
theorem corr_matrix_array {m : Table} (hc : 2 ≤ m.cols) (minp : Int) {s method : String} (h1 : s = "pearson" ∨ s = "spearman")
    {meth : Method} (hm : parseMethod method = some meth) :
    ((∃ r, corrDistanceMatrix (pdCorr minp) none (.array m) s method = .ok r) ↔ ∀ i j, i < m.cols → j < m.cols →
      minp ≤ ((pairs (m.col i) (m.col j)).length : Int) ∧ ¬ Constant ((pairs (m.col i) (m.col j)).map (·.1)) ∧
        ¬ Constant ((pairs (m.col i) (m.col j)).map (·.2))) ∧
    ∀ r, corrDistanceMatrix (pdCorr minp) none (.array m) s method = .ok r → ∃ d, r = .array m.cols m.cols d ∧ (∀ i, d i i = some 0) ∧
      ∀ i j, i < m.cols → j < m.cols → i ≠ j →
        pairDistance meth (sample s ((pairs (m.col i) (m.col j)).map (·.1))) (sample s ((pairs (m.col i) (m.col j)).map (·.2))) = .ok (d i j) := by
  have key : (∃ r, corrDistanceMatrix (pdCorr minp) none (.array m) s method = .ok r) ↔ ∀ i j, i < m.cols → j < m.cols →
      minp ≤ ((pairs (m.col i) (m.col j)).length : Int) ∧ ¬ Constant ((pairs (m.col i) (m.col j)).map (·.1)) ∧
        ¬ Constant ((pairs (m.col i) (m.col j)).map (·.2)) := by
    rw [(array_distance_matrix (pandas_corr_spec minp) hc h1 hm).1]
    refine forall₄_congr fun i j _ _ => ?_
    rw [pdCorr_at, ne_eq, (entry_cases _ _ _ _).1, not_or, not_or, not_lt]
  refine ⟨key, fun r hr => ?_⟩
  have hk := key.mp ⟨r, hr⟩
  rw [(corrDistanceMatrix_eq h1 hm).2 m rfl hc rfl] at hr
  unfold corrToDistance at hr
  dsimp only at hr
  split at hr
  · refine ⟨_, (Except.ok.inj hr).symm, fun i => if_pos rfl, fun i j hi hj hij => ?_⟩
    rw [if_neg hij, pdCorr_at]
    exact dist_entry _ _ _ _ _ (hk i j hi hj).1
  · cases hr

/-! ### Tables without missing values -/

/-- Column `j` has the values `x`. -/
def HasCol (m : Table) (j : Nat) (x : List ℝ) : Prop := m.col j = x.map .fin

theorem pairs_fin (x y : List ℝ) : pairs (x.map .fin) (y.map .fin) = x.zip y := by rw [← complete_pairs, complete_fin]

theorem HasCol.length {m : Table} {j : Nat} {x : List ℝ} (h : HasCol m j x) : x.length = m.rows := by
  have := congrArg List.length h
  simpa [Table.col] using this.symm

/-- C101. Without missing values the distance matrix has the pairwise distances of the columns or of their ranks, and these satisfy
the triangle inequality; for arrays and data frames and all methods. -/
theorem corr_matrix_triangle {m : Table} (hc : 2 ≤ m.cols) {minp : Int} (hmin : minp ≤ m.rows) {s method : String}
    (h1 : s = "pearson" ∨ s = "spearman") {meth : Method} (hm : parseMethod method = some meth) {col : Nat → List ℝ}
    (hx : ∀ j, j < m.cols → HasCol m j (col j)) {d : Nat → Nat → Option ℝ}
    (hd : corrDistanceMatrix (pdCorr minp) none (.frame m) s method = .ok (.frame m.cols m.cols d) ∨
      corrDistanceMatrix (pdCorr minp) none (.array m) s method = .ok (.array m.cols m.cols d)) :
    (∀ i j, i < m.cols → j < m.cols → pairDistance meth (sample s (col i)) (sample s (col j)) = .ok (d i j)) ∧
    ∀ i j k, i < m.cols → j < m.cols → k < m.cols → ∀ dij djk dik, d i j = some dij → d j k = some djk → d i k = some dik →
      dik ≤ dij + djk := by
  have pe : ∀ i j, i < m.cols → j < m.cols → pairs (m.col i) (m.col j) = (col i).zip (col j) := by
    intro i j hi hj
    rw [hx i hi, hx j hj, pairs_fin]
  have ln : ∀ i, i < m.cols → (col i).length = m.rows := fun i hi => (hx i hi).length
  have key : ∀ i j, i < m.cols → j < m.cols → pairDistance meth (sample s (col i)) (sample s (col j)) = .ok (d i j) := by
    intro i j hi hj
    have f1 : ((col i).zip (col j)).map (·.1) = col i := List.map_fst_zip (by rw [ln i hi, ln j hj])
    have f2 : ((col i).zip (col j)).map (·.2) = col j := List.map_snd_zip (by rw [ln i hi, ln j hj])
    rcases hd with hd | hd
    · obtain ⟨d', e, h⟩ := corr_matrix_entries hc minp h1 hm
      rw [hd] at e
      have := (h i j).1 (by rw [pe i j hi hj, List.length_zip, ln i hi, ln j hj, min_self]; exact hmin)
      rw [pe i j hi hj, f1, f2] at this
      rw [this]
      have e' := Except.ok.inj e
      injection e' with _ _ e'
      rw [e']
    · obtain ⟨h0, h⟩ := corr_matrix_array hc minp h1 hm
      obtain ⟨d', e, hdi, h⟩ := h _ hd
      injection e with _ _ e
      subst e
      by_cases hij : i = j
      · subst hij
        have := (h0.mp ⟨_, hd⟩ i i hi hi).2.1
        rw [pe i i hi hi, f1] at this
        rw [hdi, pair_self meth (by rw [constant_sample]; exact this)]
      · have := h i j hi hj hij
        rwa [pe i j hi hj, f1, f2] at this
  refine ⟨key, fun i j k hi hj hk dij djk dik h1 h2 h3 => ?_⟩
  refine pair_triangle meth (x := sample s (col i)) (y := sample s (col j)) (z := sample s (col k)) ?_ ?_ ?_
  · rw [key i j hi hj, h1]
  · rw [key j k hj hk, h2]
  · rw [key i k hi hk, h3]

/-! ### Missing values -/

/-- A table given by its rows. -/
def ofRows (c : Nat) (l : List (List XF)) : Table := ⟨l.length, c, fun i j => (l.getD i []).getD j .nan⟩

/-- Three columns, of which any two have only two rows in common. -/
def holes : Table := ofRows 3
  [[.fin 0, .fin 0, .nan], [.fin 1, .fin 1, .nan], [.nan, .fin 0, .fin 0], [.nan, .fin 1, .fin 1], [.fin 0, .nan, .fin 1], [.fin 1, .nan, .fin 0]]

theorem two_not_constant : ¬ Constant [(0 : ℝ), 1] := by
  intro h
  have := h 0 (by simp) 1 (by simp)
  norm_num at this

theorem sample_two (s : String) : (∃ a : ℝ, sample s [(0 : ℝ), 1] = [a, a + 1] ∧ sample s [(1 : ℝ), 0] = [a + 1, a]) := by
  unfold sample
  split
  · exact ⟨0, by norm_num, by norm_num⟩
  · refine ⟨1, ?_, ?_⟩ <;> (unfold ranks rank; norm_num [List.countP_cons])

/-- C101. With missing values the distances of one matrix come from different rows and the triangle inequality fails, for all
methods and for arrays and data frames alike: here two columns at distance zero from a third are at distance one for the
angular distance. -/
theorem missing_breaks_triangle {s : String} (h1 : s = "pearson" ∨ s = "spearman") :
    ∃ d, corrDistanceMatrix (pdCorr 1) none (.frame holes) s "angular" = .ok (.frame 3 3 d) ∧
      d 0 1 = some 0 ∧ d 1 2 = some 0 ∧ d 0 2 = some 1 := by
  obtain ⟨d, e, h⟩ := corr_matrix_entries (m := holes) (by decide) 1 h1 (method := "angular") (meth := .angular) (by decide)
  obtain ⟨a, ha, hb⟩ := sample_two s
  have ca : ¬ Constant [a, a + 1] := by
    intro h
    have := h a (by simp) (a + 1) (by simp)
    linarith
  have p01 : pairs (holes.col 0) (holes.col 1) = [(0, 0), (1, 1)] := by rfl
  have p12 : pairs (holes.col 1) (holes.col 2) = [(0, 0), (1, 1)] := by rfl
  have p02 : pairs (holes.col 0) (holes.col 2) = [(0, 1), (1, 0)] := by rfl
  refine ⟨d, e, ?_, ?_, ?_⟩
  · have := (h 0 1).1 (by rw [p01]; decide)
    rw [p01] at this
    simp only [List.map_cons, List.map_nil] at this
    rw [ha, pair_self _ ca] at this
    exact (Except.ok.inj this).symm
  · have := (h 1 2).1 (by rw [p12]; decide)
    rw [p12] at this
    simp only [List.map_cons, List.map_nil] at this
    rw [ha, pair_self _ ca] at this
    exact (Except.ok.inj this).symm
  · have := (h 0 2).1 (by rw [p02]; decide)
    rw [p02] at this
    simp only [List.map_cons, List.map_nil] at this
    rw [ha, hb] at this
    have hc := corrcoef_affine ca (a := -1) (by norm_num) (2 * a + 1)
    have hl : ([a, a + 1].map fun v => -1 * v + (2 * a + 1)) = [a + 1, a] := by
      simp only [List.map_cons, List.map_nil]
      congr 1 <;> [ring; (congr 1; ring)]
    rw [hl, if_neg (by norm_num)] at hc
    unfold pairDistance at this
    rw [hc] at this
    simp only [bind, Except.bind] at this
    rw [← Except.ok.inj this, dist_fin, clampR_of_mem le_rfl (by norm_num)]
    unfold formula
    norm_num

/-! ### Invariance -/

/-- Applies a function to the finite entries. -/
def mapFin (f : ℝ → ℝ) : XF → XF
  | .fin r => .fin (f r)
  | v => v

/-- A table with a function applied to every column. -/
def Table.mapCols (m : Table) (f : Nat → ℝ → ℝ) : Table := ⟨m.rows, m.cols, fun i j => mapFin (f j) (m.at_ i j)⟩

theorem mapCols_col (m : Table) (f : Nat → ℝ → ℝ) (j : Nat) : (m.mapCols f).col j = (m.col j).map (mapFin (f j)) := by
  unfold Table.col Table.mapCols
  rw [List.map_map]
  rfl

theorem pairs_map (f g : ℝ → ℝ) (x y : List XF) :
    pairs (x.map (mapFin f)) (y.map (mapFin g)) = (pairs x y).map fun p => (f p.1, g p.2) := by
  rw [← complete_pairs, ← complete_pairs]
  induction x generalizing y with
  | nil => cases y <;> rfl
  | cons a x ih =>
    cases y with
    | nil => cases a <;> rfl
    | cons b y => cases a <;> cases b <;> first | exact ih y | exact congrArg _ (ih y)

/-- Equal entries give equal distance matrices. -/
theorem matrix_congr {m m' : Table} (hr : m'.cols = m.cols) {minp : Int} {s : String}
    (h : ∀ i j, entry minp s (m'.col i) (m'.col j) = entry minp s (m.col i) (m.col j)) : pdCorr minp m' s = pdCorr minp m s := by
  have : (pdCorr minp m' s).at_ = (pdCorr minp m s).at_ := by
    funext i j
    rw [pdCorr_at, pdCorr_at, h]
  show (⟨m'.cols, m'.cols, (pdCorr minp m' s).at_⟩ : Table) = ⟨m.cols, m.cols, (pdCorr minp m s).at_⟩
  rw [this, hr]

/-- C101. Rescaling columns by positive factors and shifting them leaves the Pearson distance matrix unchanged, also with missing
values. -/
theorem pearson_matrix_affine (m : Table) (minp : Int) {a : Nat → ℝ} (ha : ∀ j, 0 < a j) (b : Nat → ℝ) (method : String) :
    corrDistanceMatrix (pdCorr minp) none (.frame (m.mapCols fun j v => a j * v + b j)) "pearson" method =
      corrDistanceMatrix (pdCorr minp) none (.frame m) "pearson" method ∧
    corrDistanceMatrix (pdCorr minp) none (.array (m.mapCols fun j v => a j * v + b j)) "pearson" method =
      corrDistanceMatrix (pdCorr minp) none (.array m) "pearson" method := by
  have key : pdCorr minp (m.mapCols fun j v => a j * v + b j) "pearson" = pdCorr minp m "pearson" := by
    refine matrix_congr (m := m) (m' := m.mapCols fun j v => a j * v + b j) rfl fun i j => ?_
    rw [mapCols_col, mapCols_col, entry_eq, entry_eq, pairs_map]
    simp only [List.length_map, List.map_map, sample, if_true]
    generalize pairs (m.col i) (m.col j) = c
    have e1 : c.map ((fun p : ℝ × ℝ => p.1) ∘ fun p => (a i * p.1 + b i, a j * p.2 + b j)) = (c.map (·.1)).map fun v => a i * v + b i := by
      rw [List.map_map]; rfl
    have e2 : c.map ((fun p : ℝ × ℝ => p.2) ∘ fun p => (a i * p.1 + b i, a j * p.2 + b j)) = (c.map (·.2)).map fun v => a j * v + b j := by
      rw [List.map_map]; rfl
    rw [e1, e2]
    have l2 : (c.map (·.2)).length = (c.map (·.1)).length := by simp
    generalize c.map (·.1) = u at *
    generalize c.map (·.2) = v at *
    have key2 : ∀ {n : Nat} {x y : List ℝ}, x.length = n → y.length = n → ∀ {p q : ℝ} (_ : 0 < p) (_ : 0 < q) (p' q' : ℝ),
        coSum (x.map fun v => p * v + p') (y.map fun v => q * v + q') = p * q * coSum x y := by
      intro n x y hx hy p q _ _ p' q'
      rw [coSum_eq_inner (n := n) (by simp [hx]) (by simp [hy]), coSum_eq_inner hx hy, cvec_affine hx, cvec_affine hy, real_inner_smul_left,
        real_inner_smul_right]
      ring
    unfold corrcoef
    rw [key2 rfl rfl (ha i) (ha i), key2 l2 l2 (ha j) (ha j), key2 rfl l2 (ha i) (ha j)]
    simp only [List.length_map]
    have hi := (ha i).ne'
    have hj := (ha j).ne'
    have z : (a i * a i * coSum u u = 0 ∨ a j * a j * coSum v v = 0) ↔ (coSum u u = 0 ∨ coSum v v = 0) := by
      simp [hi, hj]
    have s1 : Real.sqrt (a i * a i * coSum u u) = a i * Real.sqrt (coSum u u) := by
      rw [Real.sqrt_mul (mul_self_nonneg _), Real.sqrt_mul_self (ha i).le]
    have s2 : Real.sqrt (a j * a j * coSum v v) = a j * Real.sqrt (coSum v v) := by
      rw [Real.sqrt_mul (mul_self_nonneg _), Real.sqrt_mul_self (ha j).le]
    have e : a i * a j * coSum u v / (a i * Real.sqrt (coSum u u) * (a j * Real.sqrt (coSum v v))) =
        coSum u v / (Real.sqrt (coSum u u) * Real.sqrt (coSum v v)) := by
      rw [show a i * Real.sqrt (coSum u u) * (a j * Real.sqrt (coSum v v)) = a i * a j * (Real.sqrt (coSum u u) * Real.sqrt (coSum v v)) by ring,
        mul_div_mul_left _ _ (mul_ne_zero hi hj)]
    rw [s1, s2, e]
    simp only [z]
  constructor <;>
  · unfold corrDistanceMatrix calculateCorrelation
    rw [if_pos (.inl rfl)]
    simp only [key]
    rfl

/-- C101. Strictly increasing functions applied to the columns leave the Spearman distance matrix unchanged, also with missing
values. -/
theorem spearman_matrix_monotone (m : Table) (minp : Int) {f : Nat → ℝ → ℝ} (hf : ∀ j, StrictMono (f j)) (method : String) :
    corrDistanceMatrix (pdCorr minp) none (.frame (m.mapCols f)) "spearman" method =
      corrDistanceMatrix (pdCorr minp) none (.frame m) "spearman" method ∧
    corrDistanceMatrix (pdCorr minp) none (.array (m.mapCols f)) "spearman" method =
      corrDistanceMatrix (pdCorr minp) none (.array m) "spearman" method := by
  have key : pdCorr minp (m.mapCols f) "spearman" = pdCorr minp m "spearman" := by
    refine matrix_congr (m := m) (m' := m.mapCols f) rfl fun i j => ?_
    rw [mapCols_col, mapCols_col, entry_eq, entry_eq, pairs_map]
    simp only [List.length_map, List.map_map, sample]
    simp only [show ("spearman" = "pearson") = False by decide, if_false]
    generalize pairs (m.col i) (m.col j) = c
    have e1 : c.map ((fun p : ℝ × ℝ => p.1) ∘ fun p => (f i p.1, f j p.2)) = (c.map (·.1)).map (f i) := by
      rw [List.map_map]; rfl
    have e2 : c.map ((fun p : ℝ × ℝ => p.2) ∘ fun p => (f i p.1, f j p.2)) = (c.map (·.2)).map (f j) := by
      rw [List.map_map]; rfl
    simp only [e1, e2]
    rw [ranks_map (hf i), ranks_map (hf j)]
  constructor <;>
  · unfold corrDistanceMatrix calculateCorrelation
    rw [if_pos (.inr rfl)]
    simp only [key]
    rfl

/-! ### Distance zero of Spearman's correlation -/

/-- The two numbers of the pairs are ordered alike. -/
def SameOrder (c : List (ℝ × ℝ)) : Prop := ∀ p ∈ c, ∀ q ∈ c, p.1 < q.1 ↔ p.2 < q.2

/-- The two numbers of the pairs are ordered oppositely. -/
def OppositeOrder (c : List (ℝ × ℝ)) : Prop := ∀ p ∈ c, ∀ q ∈ c, p.1 < q.1 ↔ q.2 < p.2

open Classical in
theorem same_ranks {c : List (ℝ × ℝ)} (h : SameOrder c) : ranks (c.map (·.1)) = ranks (c.map (·.2)) := by
  unfold ranks
  rw [List.map_map, List.map_map]
  refine List.map_congr_left fun p hp => ?_
  unfold rank
  simp only [Function.comp, List.countP_map]
  have e1 : c.countP ((fun w => decide (w < p.1)) ∘ fun x => x.1) = c.countP ((fun w => decide (w < p.2)) ∘ fun x => x.2) :=
    List.countP_congr fun q hq => by simp [h q hq p hp]
  have e2 : c.countP ((fun w => decide (w = p.1)) ∘ fun x => x.1) = c.countP ((fun w => decide (w = p.2)) ∘ fun x => x.2) :=
    List.countP_congr fun q hq => by
      simp only [Function.comp, decide_eq_true_eq]
      have h1 := h q hq p hp
      have h2 := h p hp q hq
      rw [← not_iff_not, ← ne_eq, ← ne_eq, ne_iff_lt_or_gt, ne_iff_lt_or_gt]
      exact or_congr h1 h2
  rw [e1, e2]

open Classical in
theorem opposite_ranks {c : List (ℝ × ℝ)} (h : OppositeOrder c) :
    ranks (c.map (·.2)) = (ranks (c.map (·.1))).map fun v : ℝ => -1 * v + ((c.length : ℝ) + 1) := by
  unfold ranks
  rw [List.map_map, List.map_map, List.map_map]
  refine List.map_congr_left fun p hp => ?_
  have key : ∀ d : List (ℝ × ℝ), (∀ q ∈ d, (p.1 < q.1 ↔ q.2 < p.2) ∧ (q.1 < p.1 ↔ p.2 < q.2)) →
      (d.map (·.2)).countP (fun w => decide (w = p.2)) = (d.map (·.1)).countP (fun w => decide (w = p.1)) ∧
      (d.map (·.2)).countP (fun w => decide (w < p.2)) + (d.map (·.1)).countP (fun w => decide (w < p.1)) +
        (d.map (·.1)).countP (fun w => decide (w = p.1)) = d.length := by
    intro d
    induction d with
    | nil => simp
    | cons q d ih =>
      intro hd
      obtain ⟨i1, i2⟩ := ih fun r hr => hd r (List.mem_cons_of_mem _ hr)
      obtain ⟨h1, h2⟩ := hd q List.mem_cons_self
      simp only [List.map_cons, List.countP_cons, decide_eq_true_eq, List.length_cons]
      rcases lt_trichotomy q.1 p.1 with e | e | e
      · have := h2.mp e
        rw [if_neg this.ne', if_neg e.ne, if_neg (not_lt.mpr this.le), if_pos e]
        omega
      · have : q.2 = p.2 := le_antisymm (not_lt.mp fun hn => e.not_lt (h2.mpr hn)) (not_lt.mp fun hn => e.not_gt (h1.mpr hn))
        rw [if_pos this, if_pos e, if_neg this.not_lt, if_neg e.not_lt]
        omega
      · have := h1.mp e
        rw [if_neg this.ne, if_neg e.ne', if_pos this, if_neg (not_lt.mpr e.le)]
        omega
  obtain ⟨k1, k2⟩ := key c fun q hq => ⟨h p hp q hq, h q hq p hp⟩
  simp only [Function.comp]
  unfold rank
  rw [k1, ← k2]
  push_cast
  ring

theorem rank_pair_lt_iff {c : List (ℝ × ℝ)} {p q : ℝ × ℝ} (hp : p ∈ c) :
    (rank (c.map (·.1)) p.1 < rank (c.map (·.1)) q.1 ↔ p.1 < q.1) ∧ (rank (c.map (·.2)) p.2 < rank (c.map (·.2)) q.2 ↔ p.2 < q.2) :=
  ⟨rank_lt_iff (List.mem_map_of_mem (f := (·.1)) hp), rank_lt_iff (List.mem_map_of_mem (f := (·.2)) hp)⟩

/-- The distance of the ranks of pairs is zero exactly if the pairs are ordered alike, or oppositely. -/
theorem rank_zero_iff (meth : Method) {c : List (ℝ × ℝ)} (h1 : ¬ Constant (c.map (·.1))) (h2 : ¬ Constant (c.map (·.2))) :
    pairDistance meth (ranks (c.map (·.1))) (ranks (c.map (·.2))) = .ok (some 0) ↔ SameOrder c ∨ (meth ≠ .angular ∧ OppositeOrder c) := by
  have l : (ranks (c.map (·.1))).length = (ranks (c.map (·.2))).length := by simp [ranks]
  rw [pair_zero_iff meth l (by rw [constant_ranks]; exact h1) (by rw [constant_ranks]; exact h2)]
  constructor
  · rintro ⟨a, b, hab, hs⟩
    have hr : ∀ p ∈ c, rank (c.map (·.2)) p.2 = a * rank (c.map (·.1)) p.1 + b := by
      unfold ranks at hab
      rw [List.map_map, List.map_map, List.map_map] at hab
      exact fun p hp => List.map_inj_left.mp hab p hp
    rcases hs with hs | ⟨hs, hme⟩
    · left
      intro p hp q hq
      rw [← (rank_pair_lt_iff hp).1, ← (rank_pair_lt_iff hp).2, hr p hp, hr q hq]
      simp [hs]
    · right
      refine ⟨hme, fun p hp q hq => ?_⟩
      rw [← (rank_pair_lt_iff hp).1, ← (rank_pair_lt_iff hq).2, hr p hp, hr q hq]
      simp [hs]
  · rintro (hs | ⟨hme, ho⟩)
    · exact ⟨1, 0, by rw [same_ranks hs]; simp, .inl one_pos⟩
    · exact ⟨-1, c.length + 1, opposite_ranks ho, .inr ⟨by norm_num, hme⟩⟩

/-- C101. With Spearman's correlation two columns have distance zero exactly if their common rows are ordered alike by both — or
oppositely, for the two distances that ignore the sign. -/
theorem spearman_zero_iff {m : Table} (hc : 2 ≤ m.cols) (minp : Int) {method : String} {meth : Method}
    (hm : parseMethod method = some meth) : ∃ d, corrDistanceMatrix (pdCorr minp) none (.frame m) "spearman" method = .ok (.frame m.cols m.cols d) ∧
      ∀ i j, d i j ≠ none → (d i j = some 0 ↔ SameOrder (pairs (m.col i) (m.col j)) ∨
        (meth ≠ .angular ∧ OppositeOrder (pairs (m.col i) (m.col j)))) := by
  obtain ⟨d, hd, h⟩ := corr_matrix_entries hc minp (s := "spearman") (.inr rfl) hm
  refine ⟨d, hd, fun i j hn => ?_⟩
  obtain ⟨ha, hb⟩ := h i j
  rw [ne_eq, hb, not_or, not_or, not_lt] at hn
  have hz := ha hn.1
  unfold sample at hz
  rw [if_neg (by decide)] at hz
  rw [if_neg (by decide)] at hz
  rw [← rank_zero_iff meth hn.2.1 hn.2.2, hz]
  simp

/-- A case: the pairs of `1, 2, 3` with their cubes are ordered alike, but Pearson's distance is not zero. -/
example : SameOrder [((1 : ℝ), (1 : ℝ)), (2, 8), (3, 27)] ∧ ¬ pairDistance .angular [1, 2, 3] [1, 8, 27] = .ok (some 0) := by
  constructor
  · intro p hp q hq
    simp only [List.mem_cons, List.not_mem_nil, or_false] at hp hq
    rcases hp with rfl | rfl | rfl <;> rcases hq with rfl | rfl | rfl <;> norm_num
  · intro h
    have c1 : ¬ Constant [(1 : ℝ), 2, 3] := fun h => by have := h 1 (by simp) 2 (by simp); norm_num at this
    have c2 : ¬ Constant [(1 : ℝ), 8, 27] := fun h => by have := h 1 (by simp) 8 (by simp); norm_num at this
    obtain ⟨a, b, hab, -⟩ := (pair_zero_iff .angular (by rfl) c1 c2).mp h
    simp only [List.map_cons, List.map_nil, List.cons.injEq] at hab
    obtain ⟨h1, h2, h3, -⟩ := hab
    linarith

/-! ### The order of the rows -/

/-- A table with its rows in another order. -/
def Table.reorder (m : Table) (σ : Nat → Nat) : Table := ⟨m.rows, m.cols, fun i j => m.at_ (σ i) j⟩

theorem perm_mean {l l' : List ℝ} (h : l.Perm l') : mean l = mean l' := by
  unfold mean
  rw [h.sum_eq, h.length_eq]

theorem perm_coSum {c c' : List (ℝ × ℝ)} (h : c.Perm c') (f g : ℝ × ℝ → ℝ) :
    coSum (c.map f) (c.map g) = coSum (c'.map f) (c'.map g) := by
  unfold coSum
  rw [perm_mean (h.map f), perm_mean (h.map g), List.zipWith_map, List.zipWith_map, List.zipWith_self, List.zipWith_self]
  exact (h.map _).sum_eq

theorem perm_entry {c c' : List (ℝ × ℝ)} (h : c.Perm c') (s : String) :
    corrcoef (sample s (c.map (·.1))) (sample s (c.map (·.2))) = corrcoef (sample s (c'.map (·.1))) (sample s (c'.map (·.2))) := by
  have key : ∀ f g : ℝ × ℝ → ℝ, corrcoef (c.map f) (c.map g) = corrcoef (c'.map f) (c'.map g) := by
    intro f g
    unfold corrcoef
    rw [perm_coSum h, perm_coSum h g g, perm_coSum h f g]
    simp
  unfold sample
  split
  · exact key _ _
  · have e : ∀ f : ℝ × ℝ → ℝ, rank (c.map f) = rank (c'.map f) := by
      intro f
      funext v
      unfold rank
      rw [(h.map f).countP_eq, (h.map f).countP_eq]
    unfold ranks
    rw [e, e]
    simp only [List.map_map]
    exact key _ _

/-- C101. The order of the rows does not matter. -/
theorem corr_matrix_rows (m : Table) (minp : Int) {σ : Nat → Nat} (hσ : ((List.range m.rows).map σ).Perm (List.range m.rows))
    (s method : String) : corrDistanceMatrix (pdCorr minp) none (.frame (m.reorder σ)) s method =
      corrDistanceMatrix (pdCorr minp) none (.frame m) s method ∧
    corrDistanceMatrix (pdCorr minp) none (.array (m.reorder σ)) s method =
      corrDistanceMatrix (pdCorr minp) none (.array m) s method := by
  have key : pdCorr minp (m.reorder σ) s = pdCorr minp m s := by
    refine matrix_congr (m := m) (m' := m.reorder σ) rfl fun i j => ?_
    have hp : (pairs ((m.reorder σ).col i) ((m.reorder σ).col j)).Perm (pairs (m.col i) (m.col j)) := by
      unfold pairs
      refine List.Perm.filterMap _ ?_
      have e : ∀ n : Table, (n.col i).zip (n.col j) = (List.range n.rows).map fun k => (n.at_ k i, n.at_ k j) := by
        intro n
        unfold Table.col
        rw [List.zip_map', ]
      rw [e, e]
      have := hσ.map fun k => (m.at_ k i, m.at_ k j)
      rw [List.map_map] at this
      exact this
    rw [entry_eq, entry_eq, perm_entry hp, hp.length_eq]
  constructor <;>
  · unfold corrDistanceMatrix calculateCorrelation
    simp only [key]
    rfl

/-- A case: reversing the six rows of a table. -/
example (s method : String) : corrDistanceMatrix (pdCorr 1) none (.frame (holes.reorder fun i => 5 - i)) s method =
    corrDistanceMatrix (pdCorr 1) none (.frame holes) s method :=
  (corr_matrix_rows holes 1 (σ := fun i => 5 - i) (by decide) s method).1

/-- A case: doubling the first column of a table with holes. -/
example (method : String) : corrDistanceMatrix (pdCorr 1) none (.frame (holes.mapCols fun j v => (if j = 0 then 2 else 1) * v + 0)) "pearson" method =
    corrDistanceMatrix (pdCorr 1) none (.frame holes) "pearson" method :=
  (pearson_matrix_affine holes 1 (a := fun j => if j = 0 then 2 else 1) (fun j => by split <;> norm_num) (fun _ => 0) method).1

/-- A case: cubing the columns changes no Spearman distance. -/
example (method : String) : corrDistanceMatrix (pdCorr 1) none (.frame (holes.mapCols fun _ v => v ^ 3)) "spearman" method =
    corrDistanceMatrix (pdCorr 1) none (.frame holes) "spearman" method :=
  (spearman_matrix_monotone holes 1 (f := fun _ v => v ^ 3) (fun _ => Odd.strictMono_pow (by decide)) method).1

end Verif.Dist
