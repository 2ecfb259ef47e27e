import Verif.Props.ClustUse
import Verif.Props.ClustZero
import Verif.Props.PandasCorr

/-!
# Clustering the columns of a table

C103: `HC(X=...)` from the observations to the labels, with the correlations of pandas: when the object can be used, which
changes of the observations do not matter, and that columns carrying the same information are not separated.
-/

namespace Verif.Clust

open Verif Ser Verif.Props.ClustSelect Verif.Props.ClustGap Verif.Props.ClustHC Classical Verif.Dist

/-- Every two columns have rows in which both are finite, and neither is constant on them. -/
def Comparable (m : Dist.Table) : Prop := ∀ i j, i < m.cols → j < m.cols →
  ¬ Constant ((pairs (m.col i) (m.col j)).map (·.1)) ∧ ¬ Constant ((pairs (m.col i) (m.col j)).map (·.2))

/-- The name that pandas is given. -/
def corrName (cod : String) : String := if cod = "pearson-correlation" then "pearson" else "spearman"

theorem corrName_cases (cod : String) : corrName cod = "pearson" ∨ corrName cod = "spearman" := by
  unfold corrName
  split
  · exact .inl rfl
  · exact .inr rfl

/-- The pair has common rows as soon as it is not constant on them. -/
theorem one_le_of_not_constant {c : List (ℝ × ℝ)} (h : ¬ Constant (c.map (·.1))) : (1 : Int) ≤ (c.length : Int) := by
  cases c with
  | nil => exact absurd (fun _ h => absurd h List.not_mem_nil) h
  | cons p c => simp only [List.length_cons]; omega

/-- The distances of a usable object. -/
structure DataDist (m : Dist.Table) (cod : String) (meth : Dist.Method) (t : Dist.Table) (d : Nat → Nat → ℝ) : Prop where
  isDist : IsDist t m.cols d
  nonneg : ∀ i < m.cols, ∀ j < m.cols, 0 ≤ d i j
  pair : ∀ i < m.cols, ∀ j < m.cols, pairDistance meth (sample (corrName cod) ((pairs (m.col i) (m.col j)).map (·.1)))
    (sample (corrName cod) ((pairs (m.col i) (m.col j)).map (·.2))) = .ok (some (d i j))

theorem pair_nonneg {meth : Dist.Method} {x y : List ℝ} {v : ℝ} (h : pairDistance meth x y = .ok (some v)) : 0 ≤ v := by
  unfold pairDistance at h
  cases hc : corrcoef x y with
  | error e => rw [hc] at h; cases h
  | ok c =>
    rw [hc] at h
    exact ((dist_range meth c).2 _ (Except.ok.inj h)).1

theorem sample_pairs_self (m : Dist.Table) (s : String) (i : Nat) :
    sample s ((pairs (m.col i) (m.col i)).map (·.1)) = sample s ((pairs (m.col i) (m.col i)).map (·.2)) := by rw [pairs_self]

theorem pairDistance_comm (meth : Dist.Method) (minp : Int) (m : Dist.Table) (s : String) (i j : Nat)
    (h : minp ≤ ((pairs (m.col i) (m.col j)).length : Int)) (h' : minp ≤ ((pairs (m.col j) (m.col i)).length : Int)) :
    pairDistance meth (sample s ((pairs (m.col i) (m.col j)).map (·.1))) (sample s ((pairs (m.col i) (m.col j)).map (·.2))) =
    pairDistance meth (sample s ((pairs (m.col j) (m.col i)).map (·.1))) (sample s ((pairs (m.col j) (m.col i)).map (·.2))) := by
  rw [dist_entry meth minp s _ _ h, dist_entry meth minp s _ _ h', entry_comm]

/-- Distances in a frame or array of distances with the diagonal zero are those of a usable object. -/
theorem dataDist_of {m : Dist.Table} {cod : String} {meth : Dist.Method} (hcmp : Comparable m) {d : Nat → Nat → Option ℝ}
    (hd : ∀ i < m.cols, ∀ j < m.cols, pairDistance meth (sample (corrName cod) ((pairs (m.col i) (m.col j)).map (·.1)))
      (sample (corrName cod) ((pairs (m.col i) (m.col j)).map (·.2))) = .ok (d i j)) (hn : ∀ i < m.cols, ∀ j < m.cols, d i j ≠ none) :
    DataDist m cod meth ⟨m.cols, m.cols, fun i j => ofOpt (d i j)⟩ fun i j => (d i j).getD 0 := by
  have hs : ∀ i < m.cols, ∀ j < m.cols, d i j = some ((d i j).getD 0) := by
    intro i hi j hj
    cases h : d i j with
    | none => exact absurd h (hn i hi j hj)
    | some v => rfl
  have hp : ∀ i < m.cols, ∀ j < m.cols, pairDistance meth (sample (corrName cod) ((pairs (m.col i) (m.col j)).map (·.1)))
      (sample (corrName cod) ((pairs (m.col i) (m.col j)).map (·.2))) = .ok (some ((d i j).getD 0)) := by
    intro i hi j hj
    rw [hd i hi j hj, ← hs i hi j hj]
  refine ⟨⟨rfl, rfl, ?_, ?_, ?_⟩, fun i hi j hj => pair_nonneg (hp i hi j hj), hp⟩
  · intro i j hi hj
    show ofOpt (d i j) = _
    rw [hs i hi j hj]
    rfl
  · intro i j hi hj
    have h1 := hd i hi j hj
    rw [pairDistance_comm meth 1 m _ i j (one_le_of_not_constant (hcmp i j hi hj).1) (one_le_of_not_constant (hcmp j i hj hi).1), hd j hj i hi] at h1
    rw [Except.ok.inj h1]
  · intro i hi
    have h1 := hp i hi i hi
    rw [sample_pairs_self, pair_self meth (by rw [constant_sample]; exact (hcmp i i hi hi).2)] at h1
    exact (Option.some.inj (Except.ok.inj h1)).symm

/-- C103. An object built from a data frame of observations: it can be used exactly if every two columns can be compared, and
then its distances are the pairwise ones. Otherwise it is built all the same, and every use raises a ValueError. -/
theorem hc_frame {Z α : Type} (rng : Int → Nat → ℝ) (scipy : Dist.Table → String → Bool → Py Z) (cutTree : Z → Int → List α) [DecidableEq α]
    {m : Dist.Table} (hc : 2 ≤ m.cols) {cod toDist : String} (method : String) (ord : Bool)
    (hcod : cod = "pearson-correlation" ∨ cod = "spearman-correlation") {meth : Dist.Method} (hm : Dist.parseMethod toDist = some meth) :
    ∃ t, HC.init (Z := Z) (pdCorr 1) (some (.frame m)) none none cod toDist method ord = .ok ⟨.table t, method, ord, none⟩ ∧
      (Comparable m → ∃ d, DataDist m cod meth t d) ∧
      (¬ Comparable m → ∀ op, (op = .linkage ∨ (∃ k, op = .clusters k) ∨ ∃ mc metric nb, op = .optimal mc metric nb) →
        (⟨.table t, method, ord, none⟩ : HC Z).step rng scipy cutTree op = (.error .valueError, ⟨.table t, method, ord, none⟩)) := by
  obtain ⟨d, hd, h⟩ := corr_matrix_entries hc 1 (corrName_cases cod) hm
  refine ⟨⟨m.cols, m.cols, fun i j => ofOpt (d i j)⟩, ?_, fun hcmp => ⟨_, dataDist_of hcmp (fun i hi j hj =>
    (h i j).1 (one_le_of_not_constant (hcmp i j hi hj).1)) fun i hi j hj he => ?_⟩, fun hcmp op hop => ?_⟩
  · unfold HC.init computeDist
    dsimp only
    unfold corrName at hd
    rw [if_pos hcod, hd]
    rfl
  · rcases (h i j).2.mp he with h1 | h1 | h1
    · have := one_le_of_not_constant (hcmp i j hi hj).1
      omega
    · exact (hcmp i j hi hj).1 h1
    · exact (hcmp i j hi hj).2 h1
  · have hbad : ¬ LinkageInput ⟨m.cols, m.cols, fun i j => ofOpt (d i j)⟩ := by
      rintro ⟨-, -, -, -, h5⟩
      refine hcmp fun i j hi hj => ?_
      obtain ⟨r, hr⟩ := h5 i j hi hj
      have hne : d i j ≠ none := by
        intro e
        dsimp only at hr
        rw [e] at hr
        cases hr
      rw [ne_eq, (h i j).2, not_or, not_or] at hne
      exact hne.2
    have hl : (⟨.table ⟨m.cols, m.cols, fun i j => ofOpt (d i j)⟩, method, ord, none⟩ : HC Z).linkage scipy =
        (.error .valueError, ⟨.table ⟨m.cols, m.cols, fun i j => ofOpt (d i j)⟩, method, ord, none⟩) := by
      unfold HC.linkage linkageOf
      dsimp only
      rw [if_neg hbad]
    rcases hop with rfl | ⟨k, rfl⟩ | ⟨mc, metric, nb, rfl⟩ <;>
    · unfold HC.step
      dsimp only
      rw [hl]
      rfl

/-- C103. From an array of observations the object is built exactly if every two columns can be compared (AssertionError
otherwise). -/
theorem hc_array {Z : Type} {m : Dist.Table} (hc : 2 ≤ m.cols) {cod toDist : String} (method : String) (ord : Bool)
    (hcod : cod = "pearson-correlation" ∨ cod = "spearman-correlation") {meth : Dist.Method} (hm : Dist.parseMethod toDist = some meth) :
    (Comparable m → ∃ t d, HC.init (Z := Z) (pdCorr 1) (some (.array m)) none none cod toDist method ord = .ok ⟨.table t, method, ord, none⟩ ∧
      DataDist m cod meth t d) ∧
    (¬ Comparable m → HC.init (Z := Z) (pdCorr 1) (some (.array m)) none none cod toDist method ord = .error .assertionError) := by
  obtain ⟨h1, h2⟩ := corr_matrix_array hc 1 (corrName_cases cod) hm
  constructor
  · intro hcmp
    obtain ⟨r, hr⟩ := h1.mpr fun i j hi hj => ⟨one_le_of_not_constant (hcmp i j hi hj).1, hcmp i j hi hj⟩
    obtain ⟨d, rfl, h3, h4⟩ := h2 r hr
    have hp : ∀ i < m.cols, ∀ j < m.cols, pairDistance meth (sample (corrName cod) ((pairs (m.col i) (m.col j)).map (·.1)))
        (sample (corrName cod) ((pairs (m.col i) (m.col j)).map (·.2))) = .ok (d i j) := by
      intro i hi j hj
      by_cases hij : i = j
      · subst hij
        rw [sample_pairs_self, pair_self meth (by rw [constant_sample]; exact (hcmp i i hi hi).2), h3]
      · exact h4 i j hi hj hij
    refine ⟨⟨m.cols, m.cols, fun i j => ofOpt (d i j)⟩, _, ?_, dataDist_of hcmp hp fun i hi j hj he => ?_⟩
    · unfold HC.init computeDist
      dsimp only
      unfold corrName at hr
      rw [if_pos hcod, hr]
      rfl
    · have := hp i hi j hj
      rw [dist_entry meth 1 _ _ _ (one_le_of_not_constant (hcmp i j hi hj).1)] at this
      have e := Except.ok.inj this
      rw [he, (dist_range _ _).1, (entry_cases _ _ _ _).1] at e
      rcases e with e | e | e
      · have := one_le_of_not_constant (hcmp i j hi hj).1
        omega
      · exact (hcmp i j hi hj).1 e
      · exact (hcmp i j hi hj).2 e
  · intro hcmp
    refine array_init_error (pandas_corr_spec 1) hc method ord hcod hm ?_
    by_contra hno
    push Not at hno
    refine hcmp fun i j hi hj => ?_
    have := hno i j hi hj
    rw [pdCorr_at, ne_eq, (entry_cases _ _ _ _).1, not_or, not_or] at this
    exact this.2

/-- C103. From the observations to the labels: for comparable columns and the methods single, complete, average, weighted and
ward, `get_clusters(k)` labels every column, with exactly `min(k, columns)` different labels. -/
theorem hc_data_clusters (rng : Int → Nat → ℝ) {scipy : Dist.Table → String → Bool → Py (List Row)} (hs : LinkageSpec scipy)
    {m : Dist.Table} (hc : 2 ≤ m.cols) (hcmp : Comparable m) {X : CorrArg} (hX : X = .frame m ∨ X = .array m) {cod toDist method : String}
    (ord : Bool) (hcod : cod = "pearson-correlation" ∨ cod = "spearman-correlation") {meth : Dist.Method}
    (hm : Dist.parseMethod toDist = some meth) (hmeth : method ∈ ["single", "complete", "average", "weighted", "ward"]) (k : Int) (hk : 1 ≤ k) :
    ∃ o l, HC.init (pdCorr 1) (some X) none none cod toDist method ord = .ok o ∧
      (o.step rng scipy cutLabels (.clusters k)).1 = .ok (.labels l) ∧ l.length = m.cols ∧
      (l.dedup.length : Int) = min k m.cols ∧ ∀ v, v ∈ l ↔ (v : Int) < min k m.cols := by
  obtain ⟨t, d, ho, hd⟩ : ∃ t d, HC.init (Z := List Row) (pdCorr 1) (some X) none none cod toDist method ord = .ok ⟨.table t, method, ord, none⟩ ∧
      DataDist m cod meth t d := by
    rcases hX with rfl | rfl
    · obtain ⟨t, h1, h2, -⟩ := hc_frame rng scipy cutLabels hc method ord hcod hm
      obtain ⟨d, hd⟩ := h2 hcmp
      exact ⟨t, d, h1, hd⟩
    · exact (hc_array hc method ord hcod hm).1 hcmp
  obtain ⟨l, h1, h2, h3, -⟩ := hc_clusters rng hs hc hd.isDist hd.nonneg hmeth ord k
  exact ⟨_, l, ho, h1, h2, (h3 hk).1, (h3 hk).2⟩

/-! ### Columns that carry the same information -/

/-- Two columns are alike: for Pearson's correlation one is an affine function of the other, for Spearman's they are ordered
alike; increasing for the angular distance, increasing or decreasing for the other two. -/
def Alike (cod : String) (meth : Dist.Method) (x y : List ℝ) : Prop :=
  if cod = "pearson-correlation" then ∃ a b : ℝ, y = x.map (fun v => a * v + b) ∧ (0 < a ∨ (a < 0 ∧ meth ≠ .angular))
  else SameOrder (x.zip y) ∨ (meth ≠ .angular ∧ OppositeOrder (x.zip y))

theorem alike_iff {cod : String} {meth : Dist.Method} {x y : List ℝ} (hl : x.length = y.length) (cx : ¬ Constant x) (cy : ¬ Constant y) :
    pairDistance meth (sample (corrName cod) x) (sample (corrName cod) y) = .ok (some 0) ↔ Alike cod meth x y := by
  unfold Alike corrName sample
  by_cases h : cod = "pearson-correlation"
  · rw [if_pos h, if_pos h, if_pos rfl, if_pos rfl]
    exact pair_zero_iff meth hl cx cy
  · rw [if_neg h, if_neg h, if_neg (by decide), if_neg (by decide)]
    have f1 : (x.zip y).map (·.1) = x := List.map_fst_zip hl.le
    have f2 : (x.zip y).map (·.2) = y := List.map_snd_zip hl.ge
    have := rank_zero_iff meth (c := x.zip y) (by rw [f1]; exact cx) (by rw [f2]; exact cy)
    rwa [f1, f2] at this

/-- C103. Columns that carry the same information stay together: for observations without missing values and columns that are not
constant, if there are `k` columns no two of which are alike, then `get_clusters(k)` gives alike columns the same label. -/
theorem hc_alike_together (rng : Int → Nat → ℝ) {scipy : Dist.Table → String → Bool → Py (List Row)} (hs : LinkageSpec scipy)
    {m : Dist.Table} (hc : 2 ≤ m.cols) {col : Nat → List ℝ} (hx : ∀ j, j < m.cols → HasCol m j (col j)) (hcon : ∀ j, j < m.cols → ¬ Constant (col j))
    {X : CorrArg} (hX : X = .frame m ∨ X = .array m) {cod toDist method : String}
    (ord : Bool) (hcod : cod = "pearson-correlation" ∨ cod = "spearman-correlation") {meth : Dist.Method}
    (hm : Dist.parseMethod toDist = some meth) (hmeth : method ∈ ["single", "complete", "average", "weighted", "ward"]) {k : Nat} (hk : 1 ≤ k)
    {S : Finset Nat} (hS : ∀ i ∈ S, i < m.cols) (hSk : k ≤ S.card) (hne : ∀ i ∈ S, ∀ j ∈ S, i ≠ j → ¬ Alike cod meth (col i) (col j)) :
    ∃ o l, HC.init (pdCorr 1) (some X) none none cod toDist method ord = .ok o ∧
      (o.step rng scipy cutLabels (.clusters k)).1 = .ok (.labels l) ∧
      ∀ p < m.cols, ∀ q < m.cols, Alike cod meth (col p) (col q) → lab l p = lab l q := by
  have ln : ∀ i, i < m.cols → (col i).length = m.rows := fun i hi => (hx i hi).length
  have pe : ∀ i j, i < m.cols → j < m.cols → (pairs (m.col i) (m.col j)).map (·.1) = col i ∧ (pairs (m.col i) (m.col j)).map (·.2) = col j := by
    intro i j hi hj
    rw [hx i hi, hx j hj, pairs_fin]
    exact ⟨List.map_fst_zip (by rw [ln i hi, ln j hj]), List.map_snd_zip (by rw [ln i hi, ln j hj])⟩
  have hcmp : Comparable m := fun i j hi hj => by
    rw [(pe i j hi hj).1, (pe i j hi hj).2]
    exact ⟨hcon i hi, hcon j hj⟩
  obtain ⟨t, d, ho, hd⟩ : ∃ t d, HC.init (Z := List Row) (pdCorr 1) (some X) none none cod toDist method ord = .ok ⟨.table t, method, ord, none⟩ ∧
      DataDist m cod meth t d := by
    rcases hX with rfl | rfl
    · obtain ⟨t, h1, h2, -⟩ := hc_frame rng scipy cutLabels hc method ord hcod hm
      obtain ⟨d, hd⟩ := h2 hcmp
      exact ⟨t, d, h1, hd⟩
    · exact (hc_array hc method ord hcod hm).1 hcmp
  obtain ⟨lm, hme, hmo⟩ : ∃ lm, Method.ofName method = some lm ∧ (lm ≠ .centroid ∧ lm ≠ .median) := by
    simp only [List.mem_cons, List.not_mem_nil, or_false] at hmeth
    rcases hmeth with rfl | rfl | rfl | rfl | rfl
    · exact ⟨.single, rfl, by simp, by simp⟩
    · exact ⟨.complete, rfl, by simp, by simp⟩
    · exact ⟨.average, rfl, by simp, by simp⟩
    · exact ⟨.weighted, rfl, by simp, by simp⟩
    · exact ⟨.ward, rfl, by simp, by simp⟩
  obtain ⟨Z, hZ, hl⟩ := hc_linkage hs hc hd.isDist hme ord
  have hz : ∀ i < m.cols, ∀ j < m.cols, d i j = 0 ↔ Alike cod meth (col i) (col j) := by
    intro i hi j hj
    rw [← alike_iff (by rw [ln i hi, ln j hj]) (hcon i hi) (hcon j hj)]
    have := hd.pair i hi j hj
    rw [(pe i j hi hj).1, (pe i j hi hj).2] at this
    rw [this]
    simp
  have htri : ∀ i < m.cols, ∀ j < m.cols, ∀ k < m.cols, d i j = 0 → d j k = 0 → d i k = 0 := by
    intro i hi j hj k hk h1 h2
    obtain ⟨d', hd', he⟩ := corr_matrix_entries hc 1 (corrName_cases cod) hm
    obtain ⟨t1, t2⟩ := corr_matrix_triangle hc (minp := 1) (by
        have := one_le_of_not_constant (hcmp i i hi hi).1
        have h3 : (pairs (m.col i) (m.col i)).length = m.rows := by rw [← ln i hi, ← (pe i i hi hi).1, List.length_map]
        omega) (corrName_cases cod) hm hx (.inl hd')
    have e : ∀ i < m.cols, ∀ j < m.cols, d' i j = some (d i j) := by
      intro i hi j hj
      have a1 := t1 i j hi hj
      have a2 := hd.pair i hi j hj
      rw [(pe i j hi hj).1, (pe i j hi hj).2, a1] at a2
      exact Except.ok.inj a2
    have := t2 i j k hi hj hk _ _ _ (e i hi j hj) (e j hj k hk) (e i hi k hk)
    have := hd.nonneg i hi k hk
    linarith
  refine ⟨_, cutLabels Z k, ho, ?_, fun p hp q hq hpq => ?_⟩
  · unfold HC.step
    dsimp only
    rw [hl]
    rfl
  · exact zero_together hmo hc (fun i hi j hj => hd.isDist.symm i j hi hj) hd.nonneg (fun i hi => hd.isDist.diag i hi) htri hZ hk hS hSk
      (fun i hi j hj hij => fun e => hne i hi j hj hij ((hz i (hS i hi) j (hS j hj)).mp e)) hp hq ((hz p hp q hq).mpr hpq)

/-- Three columns: the second is twice the first. -/
def threeCols : Dist.Table := ofRows 3 [[.fin 1, .fin 2, .fin 3], [.fin 2, .fin 4, .fin 1], [.fin 3, .fin 6, .fin 2]]

/-- Their values. -/
def threeCol : Nat → List ℝ
  | 0 => [1, 2, 3]
  | 1 => [2, 4, 6]
  | _ => [3, 1, 2]

/-- A case: two clusters keep a column and its double together. -/
example (rng : Int → Nat → ℝ) : ∃ scipy o l, LinkageSpec scipy ∧
    HC.init (pdCorr 1) (some (.frame threeCols)) none none "pearson-correlation" "angular" "ward" true = .ok o ∧
    (o.step rng scipy cutLabels (.clusters 2)).1 = .ok (.labels l) ∧ lab l 0 = lab l 1 := by
  obtain ⟨scipy, hs⟩ := linkageSpec_exists
  have hne : ¬ Alike "pearson-correlation" .angular (threeCol 0) (threeCol 2) ∧ ¬ Alike "pearson-correlation" .angular (threeCol 2) (threeCol 0) := by
    unfold Alike
    rw [if_pos rfl, if_pos rfl]
    constructor
    · rintro ⟨a, b, h, -⟩
      simp only [threeCol, List.map_cons, List.map_nil, List.cons.injEq] at h
      obtain ⟨h1, h2, h3, -⟩ := h
      linarith
    · rintro ⟨a, b, h, -⟩
      simp only [threeCol, List.map_cons, List.map_nil, List.cons.injEq] at h
      obtain ⟨h1, h2, h3, -⟩ := h
      linarith
  obtain ⟨o, l, h1, h2, h3⟩ := hc_alike_together rng hs (m := threeCols) (by decide) (col := threeCol) (fun j hj => by
      have : j = 0 ∨ j = 1 ∨ j = 2 := by change j < 3 at hj; omega
      rcases this with rfl | rfl | rfl <;> rfl) (fun j hj hcon => by
      have : j = 0 ∨ j = 1 ∨ j = 2 := by change j < 3 at hj; omega
      rcases this with rfl | rfl | rfl
      · have := hcon 1 (by simp [threeCol]) 2 (by simp [threeCol]); norm_num at this
      · have := hcon 2 (by simp [threeCol]) 4 (by simp [threeCol]); norm_num at this
      · have := hcon 3 (by simp [threeCol]) 1 (by simp [threeCol]); norm_num at this) (.inl rfl) true (.inl rfl)
      (meth := .angular) (toDist := "angular") (by decide) (method := "ward") (by decide) (k := 2) (by norm_num) (S := {0, 2}) (by
        intro i hi
        change i < 3
        simp only [Finset.mem_insert, Finset.mem_singleton] at hi
        omega) (by decide) (by
        intro i hi j hj hij
        simp only [Finset.mem_insert, Finset.mem_singleton] at hi hj
        rcases hi with rfl | rfl <;> rcases hj with rfl | rfl
        · exact absurd rfl hij
        · exact hne.1
        · exact hne.2
        · exact absurd rfl hij)
  refine ⟨scipy, o, l, hs, h1, h2, h3 0 (by decide) 1 (by decide) ?_⟩
  unfold Alike
  rw [if_pos rfl]
  refine ⟨2, 0, ?_, .inl two_pos⟩
  simp only [threeCol, List.map_cons, List.map_nil]
  norm_num

/-- C103, limit. With missing values columns that agree wherever they can be compared can be separated: in the table `holes` the
second column agrees with the first and with the third, but those two are opposites; two clusters separate the second column
from one of them. -/
theorem missing_separates (rng : Int → Nat → ℝ) {scipy : Dist.Table → String → Bool → Py (List Row)} (hs : LinkageSpec scipy)
    {cod method : String} (ord : Bool) (hcod : cod = "pearson-correlation" ∨ cod = "spearman-correlation")
    (hmeth : method ∈ ["single", "complete", "average", "weighted", "ward"]) :
    ∃ o l, HC.init (pdCorr 1) (some (.frame holes)) none none cod "angular" method ord = .ok o ∧
      (o.step rng scipy cutLabels (.clusters 2)).1 = .ok (.labels l) ∧
      (∃ t, o.dist = .table t ∧ t.at_ 0 1 = .fin 0 ∧ t.at_ 1 2 = .fin 0 ∧ t.at_ 0 2 = .fin 1) ∧ (lab l 0 ≠ lab l 1 ∨ lab l 1 ≠ lab l 2) := by
  have hcmp : Comparable holes := by
    have key : ∀ c : List (ℝ × ℝ), (0 ∈ c.map (·.1) ∧ 1 ∈ c.map (·.1)) ∧ (0 ∈ c.map (·.2) ∧ 1 ∈ c.map (·.2)) →
        ¬ Constant (c.map (·.1)) ∧ ¬ Constant (c.map (·.2)) := by
      rintro c ⟨⟨h1, h2⟩, h3, h4⟩
      exact ⟨fun h => zero_ne_one (h 0 h1 1 h2), fun h => zero_ne_one (h 0 h3 1 h4)⟩
    intro i j hi hj
    change i < 3 at hi
    change j < 3 at hj
    have c0 : holes.col 0 = [.fin 0, .fin 1, .nan, .nan, .fin 0, .fin 1] := rfl
    have c1 : holes.col 1 = [.fin 0, .fin 1, .fin 0, .fin 1, .nan, .nan] := rfl
    have c2 : holes.col 2 = [.nan, .nan, .fin 0, .fin 1, .fin 1, .fin 0] := rfl
    refine key _ ?_
    have hi' : i = 0 ∨ i = 1 ∨ i = 2 := by omega
    have hj' : j = 0 ∨ j = 1 ∨ j = 2 := by omega
    rcases hi' with rfl | rfl | rfl <;> rcases hj' with rfl | rfl | rfl <;> simp [c0, c1, c2, Dist.pairs]
  obtain ⟨o, l, h1, h2, h3, h4, h5⟩ := hc_data_clusters rng hs (m := holes) (by decide) hcmp (.inl rfl) ord hcod (toDist := "angular") (meth := .angular) (by decide) hmeth 2 (by norm_num)
  refine ⟨o, l, h1, h2, ?_, ?_⟩
  · obtain ⟨d, e1, e2, e3, e4⟩ := missing_breaks_triangle (corrName_cases cod)
    refine ⟨⟨3, 3, fun i j => ofOpt (d i j)⟩, ?_, ?_, ?_, ?_⟩
    · unfold HC.init computeDist at h1
      dsimp only at h1
      unfold corrName at e1
      rw [if_pos hcod, e1] at h1
      exact congrArg HC.dist (Except.ok.inj h1).symm
    · show ofOpt (d 0 1) = _
      rw [e2]; rfl
    · show ofOpt (d 1 2) = _
      rw [e3]; rfl
    · show ofOpt (d 0 2) = _
      rw [e4]; rfl
  · by_contra hno
    push Not at hno
    obtain ⟨a, b, c, rfl⟩ : ∃ a b c, l = [a, b, c] := by
      have : l.length = 3 := h3
      match l, this with
      | [a, b, c], _ => exact ⟨a, b, c, rfl⟩
    simp only [lab, List.getElem?_cons_zero, List.getElem?_cons_succ, Option.getD_some] at hno
    obtain ⟨rfl, rfl⟩ := hno
    have z := (h5 0).mpr (by decide)
    have o := (h5 1).mpr (by decide)
    simp only [List.mem_cons, List.not_mem_nil, or_false, or_self] at z o
    omega

/-! ### Changes of the observations that do not matter -/

theorem init_congr {Z : Type} {pd : Dist.Table → String → Dist.Table} {X X' : CorrArg} {cod toDist : String}
    (h : corrDistanceMatrix pd none X' (corrName cod) toDist = corrDistanceMatrix pd none X (corrName cod) toDist)
    (hcod : cod = "pearson-correlation" ∨ cod = "spearman-correlation") (method : String) (ord : Bool) :
    HC.init (Z := Z) pd (some X') none none cod toDist method ord = HC.init pd (some X) none none cod toDist method ord := by
  unfold HC.init computeDist
  dsimp only
  unfold corrName at h
  rw [if_pos hcod, if_pos hcod, h]

theorem clip_neg (r : ℝ) : min (max (-1 * r) (-1)) 1 = -1 * min (max r (-1)) 1 := by
  simp only [min_def, max_def]
  split_ifs <;> linarith

/-- A table of correlations with columns multiplied by signs. -/
theorem signs_dist {c c' : Dist.Table} (hr : c'.rows = c.rows) (hcol : c'.cols = c.cols) {σ : Nat → ℝ} (hσ : ∀ j, σ j = 1 ∨ σ j = -1)
    (h : ∀ i j, c'.at_ i j = mapFin (fun r => σ i * σ j * r) (c.at_ i j)) (hinf : ∀ i j, c.at_ i j = .nan ∨ ∃ r, c.at_ i j = .fin r)
    {meth : Dist.Method} (hm : meth ≠ .angular) :
    corrToDistance meth (.frame c') = corrToDistance meth (.frame c) ∧ corrToDistance meth (.array c') = corrToDistance meth (.array c) := by
  have hd : ∀ i j, distOf meth (c'.at_ i j) = distOf meth (c.at_ i j) := by
    intro i j
    rw [h]
    rcases hinf i j with e | ⟨r, e⟩
    · rw [e]; rfl
    · rw [e]
      show distOf meth (.fin _) = _
      have hs : σ i * σ j = 1 ∨ σ i * σ j = -1 := by
        rcases hσ i with e | e <;> rcases hσ j with e' | e' <;> rw [e, e'] <;> norm_num
      dsimp only
      rcases hs with e | e <;> rw [e]
      · rw [one_mul]
      · rw [dist_fin, dist_fin]
        have ec : clampR (-1 * r) = -clampR r := by rw [← clamp_eq, ← clamp_eq, clip_neg, neg_one_mul]
        rw [ec]
        cases meth with
        | angular => exact absurd rfl hm
        | absAngular => simp [formula]
        | squaredAngular => simp [formula]
  have hv : ValidMatrix c' ↔ ValidMatrix c := by
    unfold ValidMatrix
    rw [hr, hcol]
    refine and_congr Iff.rfl (and_congr ?_ ?_)
    · refine forall₄_congr fun i j _ _ => ?_
      rw [h, h]
      rcases hinf i j with e | ⟨r, e⟩ <;> rcases hinf j i with e' | ⟨r', e'⟩ <;> rw [e, e'] <;> simp only [mapFin, isClose]
      have hs : σ i * σ j = 1 ∨ σ i * σ j = -1 := by
        rcases hσ i with e | e <;> rcases hσ j with e' | e' <;> rw [e, e'] <;> norm_num
      rw [mul_comm (σ j)]
      rcases hs with e | e <;> rw [e]
      · rw [one_mul, one_mul]
      · rw [show -1 * r - -1 * r' = -(r - r') by ring, abs_neg, show -1 * r' = -r' by ring, abs_neg]
    · refine forall₂_congr fun i _ => ?_
      rw [h]
      rcases hinf i i with e | ⟨r, e⟩
      · rw [e]; simp [mapFin]
      · rw [e]
        have : σ i * σ i = 1 := by rcases hσ i with e | e <;> rw [e] <;> norm_num
        simp [mapFin, this]
  constructor
  · unfold corrToDistance
    dsimp only
    rw [hr, hcol]
    simp only [hd]
  · unfold corrToDistance
    dsimp only
    rw [hr, hcol]
    simp only [hd]
    by_cases hval : ValidMatrix c
    · rw [if_pos hval, if_pos (hv.mpr hval)]
    · rw [if_neg hval, if_neg fun h => hval (hv.mp h)]

/-- C103. For the two distances that ignore the sign of the correlation the columns may be multiplied by any factors other than
zero and shifted, also with missing values. -/
theorem pearson_matrix_signs (m : Dist.Table) (minp : Int) {a : Nat → ℝ} (ha : ∀ j, a j ≠ 0) (b : Nat → ℝ) {method : String}
    (hm : method = "abs_angular" ∨ method = "squared_angular") :
    corrDistanceMatrix (pdCorr minp) none (.frame (m.mapCols fun j v => a j * v + b j)) "pearson" method =
      corrDistanceMatrix (pdCorr minp) none (.frame m) "pearson" method ∧
    corrDistanceMatrix (pdCorr minp) none (.array (m.mapCols fun j v => a j * v + b j)) "pearson" method =
      corrDistanceMatrix (pdCorr minp) none (.array m) "pearson" method := by
  obtain ⟨meth, hp, hme⟩ : ∃ meth, parseMethod method = some meth ∧ meth ≠ .angular := by
    rcases hm with rfl | rfl
    · exact ⟨.absAngular, by decide, by simp⟩
    · exact ⟨.squaredAngular, by decide, by simp⟩
  have key := signs_dist (c := pdCorr minp m "pearson") (c' := pdCorr minp (m.mapCols fun j v => a j * v + b j) "pearson") rfl rfl
    (σ := fun j => a j / |a j|) (fun j => by
      rcases lt_or_gt_of_ne (ha j) with h | h
      · right; rw [abs_of_neg h, div_neg, div_self (ha j)]
      · left; rw [abs_of_pos h, div_self (ha j)]) (fun i j => ?_) (fun i j => ?_) hme
  · have hcols : (m.mapCols fun j v => a j * v + b j).cols = m.cols := rfl
    by_cases hc : 2 ≤ m.cols
    · constructor
      · rw [(corrDistanceMatrix_eq (.inl rfl) hp).1 _ rfl (hcols ▸ hc) rfl, (corrDistanceMatrix_eq (.inl rfl) hp).1 m rfl hc rfl]
        exact key.1
      · rw [(corrDistanceMatrix_eq (.inl rfl) hp).2 _ rfl (hcols ▸ hc) rfl, (corrDistanceMatrix_eq (.inl rfl) hp).2 m rfl hc rfl]
        exact key.2
    · have hlt : m.cols < 2 := by omega
      constructor <;>
      · unfold corrDistanceMatrix calculateCorrelation
        rw [if_pos (.inl rfl), if_pos (.inl rfl)]
        simp [validate2D, bind, Except.bind, hcols, hlt]
  · rw [pdCorr_at, pdCorr_at, mapCols_col, mapCols_col, entry_eq, entry_eq, pairs_map]
    simp only [List.length_map, List.map_map, sample, if_true]
    generalize pairs (m.col i) (m.col j) = c
    have e1 : c.map ((fun p : ℝ × ℝ => p.1) ∘ fun p => (a i * p.1 + b i, a j * p.2 + b j)) = (c.map (·.1)).map fun v => a i * v + b i := by
      rw [List.map_map]; rfl
    have e2 : c.map ((fun p : ℝ × ℝ => p.2) ∘ fun p => (a i * p.1 + b i, a j * p.2 + b j)) = (c.map (·.2)).map fun v => a j * v + b j := by
      rw [List.map_map]; rfl
    rw [e1, e2]
    by_cases hlt : (c.length : Int) < minp
    · rw [if_pos hlt, if_pos hlt]
      rfl
    rw [if_neg hlt, if_neg hlt]
    have l2 : (c.map (·.2)).length = (c.map (·.1)).length := by simp
    generalize c.map (·.1) = u at *
    generalize c.map (·.2) = v at *
    have key2 : ∀ {n : Nat} {x y : List ℝ}, x.length = n → y.length = n → ∀ (p q : ℝ) (p' q' : ℝ),
        coSum (x.map fun v => p * v + p') (y.map fun v => q * v + q') = p * q * coSum x y := by
      intro n x y hx hy p q p' q'
      rw [coSum_eq_inner (n := n) (by simp [hx]) (by simp [hy]), coSum_eq_inner hx hy, cvec_affine hx, cvec_affine hy, real_inner_smul_left,
        real_inner_smul_right]
      ring
    unfold corrcoef
    rw [key2 rfl rfl (a i) (a i), key2 l2 l2 (a j) (a j), key2 rfl l2 (a i) (a j)]
    simp only [List.length_map]
    have z : (a i * a i * coSum u u = 0 ∨ a j * a j * coSum v v = 0) ↔ (coSum u u = 0 ∨ coSum v v = 0) := by
      simp [ha i, ha j]
    rw [if_neg (not_not.mpr l2.symm), if_neg (not_not.mpr l2.symm)]
    by_cases h0 : coSum u u = 0 ∨ coSum v v = 0
    · rw [if_pos (z.mpr h0), if_pos h0]
      rfl
    · rw [if_neg fun h => h0 (z.mp h), if_neg h0]
      simp only [mapFin]
      have s1 : Real.sqrt (a i * a i * coSum u u) = |a i| * Real.sqrt (coSum u u) := by
        rw [Real.sqrt_mul (mul_self_nonneg _), Real.sqrt_mul_self_eq_abs]
      have s2 : Real.sqrt (a j * a j * coSum v v) = |a j| * Real.sqrt (coSum v v) := by
        rw [Real.sqrt_mul (mul_self_nonneg _), Real.sqrt_mul_self_eq_abs]
      rw [s1, s2]
      have hs : a i / |a i| * (a j / |a j|) = 1 ∨ a i / |a i| * (a j / |a j|) = -1 := by
        rcases lt_or_gt_of_ne (ha i) with h | h <;> rcases lt_or_gt_of_ne (ha j) with h' | h'
        · left; rw [abs_of_neg h, abs_of_neg h', div_neg, div_neg, div_self (ha i), div_self (ha j)]; norm_num
        · right; rw [abs_of_neg h, abs_of_pos h', div_neg, div_self (ha i), div_self (ha j)]; norm_num
        · right; rw [abs_of_pos h, abs_of_neg h', div_neg, div_self (ha i), div_self (ha j)]; norm_num
        · left; rw [abs_of_pos h, abs_of_pos h', div_self (ha i), div_self (ha j)]; norm_num
      have e : a i * a j * coSum u v / (|a i| * Real.sqrt (coSum u u) * (|a j| * Real.sqrt (coSum v v))) =
          a i / |a i| * (a j / |a j|) * (coSum u v / (Real.sqrt (coSum u u) * Real.sqrt (coSum v v))) := by
        have := abs_ne_zero.mpr (ha i)
        have := abs_ne_zero.mpr (ha j)
        rw [div_mul_div_comm, div_mul_div_comm]
        congr 1
        ring
      rw [e]
      generalize coSum u v / (Real.sqrt (coSum u u) * Real.sqrt (coSum v v)) = r
      congr 1
      rcases hs with e | e <;> rw [e]
      · rw [one_mul, one_mul]
      · exact clip_neg r
  · rw [pdCorr_at]
    rcases (entry_cases minp "pearson" (m.col i) (m.col j)).2 with e | ⟨r, -, e⟩
    · exact .inl e
    · exact .inr ⟨r, e⟩

/-- C103. The object does not depend on the units of the observations: with Pearson's correlation the columns may be multiplied by
positive factors — by any factors other than zero for the distances that ignore the sign — and shifted; with Spearman's any
strictly increasing functions may be applied; the order of the rows does not matter. This includes missing values and errors. -/
theorem hc_units {Z : Type} (m : Dist.Table) (toDist method : String) (ord : Bool) {X X' : CorrArg} {m' : Dist.Table}
    (hX : X = .frame m ∧ X' = .frame m' ∨ X = .array m ∧ X' = .array m') :
    (∀ a b : Nat → ℝ, (∀ j, 0 < a j) ∨ ((∀ j, a j ≠ 0) ∧ (toDist = "abs_angular" ∨ toDist = "squared_angular")) →
      m' = m.mapCols (fun j v => a j * v + b j) →
      HC.init (Z := Z) (pdCorr 1) (some X') none none "pearson-correlation" toDist method ord =
        HC.init (pdCorr 1) (some X) none none "pearson-correlation" toDist method ord) ∧
    (∀ f : Nat → ℝ → ℝ, (∀ j, StrictMono (f j)) → m' = m.mapCols f →
      HC.init (Z := Z) (pdCorr 1) (some X') none none "spearman-correlation" toDist method ord =
        HC.init (pdCorr 1) (some X) none none "spearman-correlation" toDist method ord) ∧
    (∀ σ : Nat → Nat, ((List.range m.rows).map σ).Perm (List.range m.rows) → m' = m.reorder σ →
      ∀ cod, cod = "pearson-correlation" ∨ cod = "spearman-correlation" →
        HC.init (Z := Z) (pdCorr 1) (some X') none none cod toDist method ord =
          HC.init (pdCorr 1) (some X) none none cod toDist method ord) := by
  refine ⟨fun a b ha hm' => init_congr ?_ (.inl rfl) method ord, fun f hf hm' => init_congr ?_ (.inr rfl) method ord,
    fun σ hσ hm' cod hcod => init_congr ?_ hcod method ord⟩
  · have key := show _ ∧ _ from ha.elim (fun h => pearson_matrix_affine m 1 h b toDist) fun h => pearson_matrix_signs m 1 h.1 b h.2
    subst hm'
    rcases hX with ⟨rfl, rfl⟩ | ⟨rfl, rfl⟩
    · exact key.1
    · exact key.2
  · subst hm'
    rcases hX with ⟨rfl, rfl⟩ | ⟨rfl, rfl⟩
    · exact (spearman_matrix_monotone m 1 hf toDist).1
    · exact (spearman_matrix_monotone m 1 hf toDist).2
  · subst hm'
    rcases hX with ⟨rfl, rfl⟩ | ⟨rfl, rfl⟩
    · exact (corr_matrix_rows m 1 hσ (corrName cod) toDist).1
    · exact (corr_matrix_rows m 1 hσ (corrName cod) toDist).2

/-- A case: prices in another currency, one of them as a short position. -/
example (b : Nat → ℝ) : HC.init (Z := List Row) (pdCorr 1) (some (.frame (holes.mapCols fun j v => (if j = 0 then -2 else 3) * v + b j))) none none
    "pearson-correlation" "abs_angular" "ward" true =
    HC.init (pdCorr 1) (some (.frame holes)) none none "pearson-correlation" "abs_angular" "ward" true :=
  (hc_units holes "abs_angular" "ward" true (.inl ⟨rfl, rfl⟩)).1 (fun j => if j = 0 then -2 else 3) b
    (.inr ⟨fun j => by split <;> norm_num, .inl rfl⟩) rfl

end Verif.Clust
