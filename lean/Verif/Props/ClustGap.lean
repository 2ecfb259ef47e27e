import Verif.Lemmas.Clustering
import Verif.Props.MicroEdge
import Verif.Props.Cusum

/-!
# The gap statistic

C62: `gap_statistic` depends on the labels only through the clusters they describe, equals the mean log-ratio of the
reference and the observed sums of squared within-cluster distances (the division by the number of clusters cancels),
does not depend on the unit of the distances, is infinite when no within-cluster distance is positive, and is bounded;
its errors are characterised.
-/

namespace Verif.Props.ClustGap

open Verif Ser Clust Classical Finset MicroEdge

variable {α β : Type} [DecidableEq α] [DecidableEq β]

/-! ### Specification -/

/-- The sum of the squared distances over the pairs of points in the same cluster. -/
noncomputable def pairSum (l : List α) (d : Nat → Nat → ℝ) : ℝ :=
  ∑ j ∈ range l.length, ∑ i ∈ range j, if l[i]? = l[j]? then d i j ^ 2 else 0

/-- The number of pairs of points in the same cluster. -/
noncomputable def pairs (l : List α) : ℝ := ∑ j ∈ range l.length, ∑ i ∈ range j, if l[i]? = l[j]? then 1 else 0

/-- `m` is an `n` by `n` matrix of distances `d`: finite, symmetric, zero on the diagonal. -/
structure IsDist (m : Dist.Table) (n : Nat) (d : Nat → Nat → ℝ) : Prop where
  rows : m.rows = n
  cols : m.cols = n
  entries : ∀ i j, i < n → j < n → m.at_ i j = .fin (d i j)
  symm : ∀ i j, i < n → j < n → d i j = d j i
  diag : ∀ i, i < n → d i i = 0

/-- `h` is the greatest of the distances. -/
def IsTop (n : Nat) (d : Nat → Nat → ℝ) (h : ℝ) : Prop :=
  (∀ i j, i < n → j < n → d i j ≤ h) ∧ ∃ i j, i < n ∧ j < n ∧ d i j = h

/-! ### Sums -/

theorem sum_symm (n : Nat) (f : Nat → Nat → ℝ) (hs : ∀ i j, i < n → j < n → f i j = f j i) (hd : ∀ i, i < n → f i i = 0) :
    ∑ i ∈ range n, ∑ j ∈ range n, f i j = 2 * ∑ j ∈ range n, ∑ i ∈ range j, f i j := by
  induction n with
  | zero => simp
  | succ n ih =>
    have h1 : ∀ i ∈ range n, ∑ j ∈ range (n + 1), f i j = ∑ j ∈ range n, f i j + f i n := fun i _ => sum_range_succ _ _
    have h2 : ∑ j ∈ range n, f n j = ∑ i ∈ range n, f i n :=
      sum_congr rfl fun j hj => hs n j (by omega) (by have := mem_range.mp hj; omega)
    rw [sum_range_succ, sum_congr rfl h1, sum_add_distrib, ih (fun i j hi hj => hs i j (by omega) (by omega))
      (fun i hi => hd i (by omega)), sum_range_succ (fun j => f n j), h2, hd n (by omega),
      sum_range_succ (fun j => ∑ i ∈ range j, f i j)]
    ring

theorem dedup_pos {l : List α} (h : l ≠ []) : (0 : ℝ) < l.dedup.length := by
  obtain ⟨a, ha⟩ := List.exists_mem_of_ne_nil l h
  exact_mod_cast List.length_pos_of_mem (List.mem_dedup.mpr ha)

theorem dispersion_real {l : List α} (hl : l ≠ []) {D : Nat → Nat → XF} {d : Nat → Nat → ℝ}
    (hD : ∀ i j, i < l.length → j < l.length → D i j = .fin (d i j))
    (hs : ∀ i j, i < l.length → j < l.length → d i j = d j i) (h0 : ∀ i, i < l.length → d i i = 0) :
    dispersion l D = .fin (pairSum l d / (2 * l.dedup.length)) := by
  have hk := dedup_pos hl
  have h1 : npSum2 l.length (fun i j => within l i j * sqF (D i j))
      = npSum2 l.length fun i j => .fin (if l[i]? = l[j]? then d i j ^ 2 else 0) := by
    refine npSum2_congr fun i j hi hj => ?_
    rw [hD i j hi hj, XF.sqF_fin]
    unfold within
    split
    · rw [XF.mul_fin, one_mul]
    · rw [XF.mul_fin, zero_mul]
  rw [dispersion, h1, npSum2_fin, XF.div_fin (by positivity), sum_symm]
  · congr 1
    unfold pairSum
    field_simp
    ring
  · intro i j hi hj
    simp only [eq_comm (a := l[i]?), hs i j hi hj]
  · intro i hi
    simp [h0 i hi]

theorem reference_lt {n : Nat} {h : ℝ} {u : Nat → ℝ} {i j : Nat} (hij : i < j) :
    reference n h u i j = h * u (i * n + j) := by
  unfold reference triu
  rw [if_neg (by omega)]
  dsimp only
  rw [if_pos hij.le, if_neg (by omega), add_zero]

theorem reference_symm (n : Nat) (h : ℝ) (u : Nat → ℝ) (i j : Nat) : reference n h u i j = reference n h u j i := by
  unfold reference
  simp only [eq_comm (a := i)]
  split
  · rfl
  · rw [add_comm]

theorem pairSum_congr {l : List α} {d e : Nat → Nat → ℝ} (h : ∀ i j, i < j → j < l.length → d i j = e i j) :
    pairSum l d = pairSum l e := by
  unfold pairSum
  refine sum_congr rfl fun j hj => sum_congr rfl fun i hi => ?_
  rw [h i j (mem_range.mp hi) (mem_range.mp hj)]

theorem pairSum_nonneg (l : List α) (d : Nat → Nat → ℝ) : 0 ≤ pairSum l d :=
  sum_nonneg fun j _ => sum_nonneg fun i _ => by split <;> positivity

/-- The reference sum of squares of one draw: each pair of points gets the distance `h * u`. -/
noncomputable def refSum (l : List α) (h : ℝ) (u : Nat → ℝ) : ℝ := pairSum l fun i j => h * u (i * l.length + j)

/-- The logarithm recorded for one draw. -/
noncomputable def refLog (l : List α) (h : ℝ) (u : Nat → ℝ) : ℝ :=
  if 0 < refSum l h u then Real.log (refSum l h u / (2 * l.dedup.length)) else 0

theorem logBoot_eq {l : List α} (hl : l ≠ []) (h : ℝ) (u : Nat → ℝ) : logBoot l h u = .fin (refLog l h u) := by
  have hk := dedup_pos hl
  have hd : dispersion l (fun i j => .fin (reference l.length h u i j)) = .fin (refSum l h u / (2 * l.dedup.length)) := by
    rw [dispersion_real hl (fun _ _ _ _ => rfl) (fun i j _ _ => reference_symm _ _ _ i j) (fun i _ => by simp [reference])]
    rw [refSum, pairSum_congr fun i j hij _ => reference_lt hij]
  unfold logBoot refLog
  dsimp only
  rw [hd]
  by_cases hp : 0 < refSum l h u
  · have : 0 < refSum l h u / (2 * l.dedup.length) := by positivity
    rw [if_pos (show XF.lt (.fin 0) (.fin _) from this), if_pos hp, XF.log_fin this]
  · have h0 : refSum l h u = 0 := le_antisymm (not_lt.mp hp) (pairSum_nonneg _ _)
    rw [h0, if_neg (show ¬ XF.lt (.fin 0) (.fin _) by rw [zero_div]; exact lt_irrefl _), if_neg (lt_irrefl _)]

theorem bootLoop_ok {rng : Int → Nat → ℝ} {m : Dist.Table} {l : List α} (hl : l ≠ []) {s : Int} {h : ℝ}
    (hm : tableMax m = .fin h) (bs : List Nat) (hb : ∀ b ∈ bs, 0 ≤ s + (b : Int) ∧ s + (b : Int) < 2 ^ 32) (e : ℝ)
    (logs : Ser) : bootLoop rng m l s bs (.fin e, logs) =
      .ok (.fin (e + (bs.map fun b : Nat => refLog l h (rng (s + b))).sum),
        logs ++ bs.map fun b : Nat => .fin (refLog l h (rng (s + b)))) := by
  induction bs generalizing e logs with
  | nil => simp [bootLoop]
  | cons b bs ih =>
    unfold bootLoop
    rw [seeded, if_pos (hb b (by simp)), hm]
    show bootLoop rng m l s bs (.fin e + logBoot l h _, _) = _
    rw [logBoot_eq hl, XF.add_fin, ih (fun b hb' => hb b (by simp [hb']))]
    simp [add_assoc]

theorem npMax_map_fin {x : List ℝ} (hx : x ≠ []) : ∃ h, Cusum.npMax (x.map .fin) = .fin h ∧ h ∈ x ∧ ∀ b ∈ x, b ≤ h := by
  obtain ⟨a, t, rfl⟩ := List.exists_cons_of_ne_nil hx
  have key : ∀ (t : List ℝ) (a : ℝ), (t.map XF.fin).foldl Cusum.maximum (.fin a) = .fin (t.foldl max a) := by
    intro t
    induction t with
    | nil => intro a; rfl
    | cons b t ih => intro a; rw [List.map_cons, List.foldl_cons, Props.Cusum.maximum_fin, ih, List.foldl_cons]
  exact ⟨t.foldl max a, key t a, foldl_max_mem a t, le_foldl_max a t⟩

theorem tableMax_eq {m : Dist.Table} {n : Nat} {d : Nat → Nat → ℝ} {h : ℝ} (hm : IsDist m n d) (ht : IsTop n d h) :
    tableMax m = .fin h := by
  obtain ⟨h1, i, j, hi, hj, h2⟩ := ht
  have he : ((List.range m.rows).flatMap fun i => (List.range m.cols).map fun j => m.at_ i j)
      = ((List.range n).flatMap fun i => (List.range n).map fun j => d i j).map .fin := by
    rw [List.map_flatMap, hm.rows, hm.cols]
    refine List.flatMap_congr fun i hi => ?_
    rw [List.map_map]
    exact List.map_congr_left fun j hj => hm.entries i j (List.mem_range.mp hi) (List.mem_range.mp hj)
  have hmem : d i j ∈ (List.range n).flatMap fun i => (List.range n).map fun j => d i j :=
    List.mem_flatMap.mpr ⟨i, List.mem_range.mpr hi, List.mem_map.mpr ⟨j, List.mem_range.mpr hj, rfl⟩⟩
  obtain ⟨a, ha, hb, hc⟩ := npMax_map_fin (List.ne_nil_of_mem hmem)
  rw [tableMax, he, ha]
  obtain ⟨i', hi', hb⟩ := List.mem_flatMap.mp hb
  obtain ⟨j', hj', hb⟩ := List.mem_map.mp hb
  have := h1 i' j' (List.mem_range.mp hi') (List.mem_range.mp hj')
  have := hc _ hmem
  congr 1
  linarith

theorem npStd_fin {n : Nat} (hn : n ≠ 0) (f : Nat → ℝ) :
    npStd ((List.range n).map fun b => .fin (f b)) = .fin (Real.sqrt (vari n f)) := by
  rw [npStd, var_fin hn, XF.sqrt_fin (vari_nonneg n f)]

/-- The result for a matrix of distances with `nb` reference draws, before the logarithm of the dispersion is taken. -/
theorem gap_eq {rng : Int → Nat → ℝ} {m : Dist.Table} {l : List α} {d : Nat → Nat → ℝ} {h : ℝ} (hl : 2 ≤ l.length)
    (hm : IsDist m l.length d) (ht : IsTop l.length d h) {nb : Nat} (hnb : nb ≠ 0) {rs : Option Int}
    (h0 : 0 ≤ rs.getD 0) (h1 : rs.getD 0 + nb ≤ 2 ^ 32) :
    gapStatistic rng (.table m) (.vec l) nb rs =
      .ok (.fin (avg nb fun b => refLog l h (rng (rs.getD 0 + b))) - (XF.fin (pairSum l d / (2 * l.dedup.length))).log,
        .fin (Real.sqrt (vari nb fun b => refLog l h (rng (rs.getD 0 + b))))) := by
  have hne : l ≠ [] := by rintro rfl; simp at hl
  have hr : (nb : ℝ) ≠ 0 := by exact_mod_cast hnb
  have hc : checkInputs (.table m) (.vec l) = .ok (m, l) :=
    checkInputs_ok.mpr ⟨rfl, rfl, hl, by rw [hm.cols]; exact hl, hm.rows⟩
  unfold gapStatistic
  rw [hc]
  show (if m.cols ≠ l.length then _ else _) = _
  rw [if_neg (by simp [hm.cols]), Int.toNat_natCast, bootLoop_ok hne (tableMax_eq hm ht) (List.range nb)]
  · show (if (nb : Int) = 0 then _ else _) = _
    rw [if_neg (by exact_mod_cast hnb), dispersion_real hne hm.entries hm.symm hm.diag, List.nil_append, zero_add,
      list_sum_range, npStd_fin hnb, Int.cast_natCast, XF.div_fin hr]
    rfl
  · intro b hb
    have := List.mem_range.mp hb
    omega

theorem avg_congr {n : Nat} {f g : Nat → ℝ} (h : ∀ b < n, f b = g b) : avg n f = avg n g := by
  unfold avg
  rw [sum_congr rfl fun b hb => h b (mem_range.mp hb)]

theorem vari_congr {n : Nat} {f g : Nat → ℝ} (h : ∀ b < n, f b = g b) : vari n f = vari n g := by
  unfold vari
  rw [avg_congr (f := f) h]
  exact avg_congr fun b hb => by rw [h b hb]

theorem avg_sub_const {n : Nat} (hn : n ≠ 0) (f : Nat → ℝ) (c : ℝ) : avg n (fun b => f b - c) = avg n f - c := by
  have : (n : ℝ) ≠ 0 := by exact_mod_cast hn
  unfold avg
  rw [sum_sub_distrib, sum_const, card_range, nsmul_eq_mul]
  field_simp

theorem vari_sub_const {n : Nat} (hn : n ≠ 0) (f : Nat → ℝ) (c : ℝ) : vari n (fun b => f b - c) = vari n f := by
  unfold vari
  rw [avg_sub_const hn]
  exact avg_congr fun b _ => by ring

theorem log_zero : (XF.fin 0).log = .ninf := by simp [XF.log]

/-! ### The value -/

/-- The gap statistic is the mean over the draws of the logarithm of the ratio between the sum of the squared reference
distances and the sum of the squared observed distances, over the pairs within clusters; the second value is the
(population) standard deviation of the logarithms of the reference sums. The factor `1/(2k)` cancels in both. -/
theorem gap_formula {rng : Int → Nat → ℝ} {m : Dist.Table} {l : List α} {d : Nat → Nat → ℝ} {h : ℝ} (hl : 2 ≤ l.length)
    (hm : IsDist m l.length d) (ht : IsTop l.length d h) {nb : Nat} (hnb : nb ≠ 0) {rs : Option Int}
    (h0 : 0 ≤ rs.getD 0) (h1 : rs.getD 0 + nb ≤ 2 ^ 32) (hW : 0 < pairSum l d)
    (hU : ∀ b < nb, 0 < refSum l h (rng (rs.getD 0 + (b : Nat)))) :
    gapStatistic rng (.table m) (.vec l) nb rs =
      .ok (.fin (avg nb fun b => Real.log (refSum l h (rng (rs.getD 0 + b)) / pairSum l d)),
        .fin (Real.sqrt (vari nb fun b => Real.log (refSum l h (rng (rs.getD 0 + b)))))) := by
  have hne : l ≠ [] := by rintro rfl; simp at hl
  have hk := dedup_pos hne
  have e1 : ∀ b < nb, refLog l h (rng (rs.getD 0 + (b : Nat)))
      = Real.log (refSum l h (rng (rs.getD 0 + (b : Nat)))) - Real.log (2 * l.dedup.length) := fun b hb => by
    rw [refLog, if_pos (hU b hb), Real.log_div (hU b hb).ne' (by positivity)]
  rw [gap_eq hl hm ht hnb h0 h1, avg_congr e1, vari_congr e1, avg_sub_const hnb, vari_sub_const hnb,
    XF.log_fin (by positivity), XF.sub_fin, Real.log_div hW.ne' (by positivity)]
  congr 2
  rw [avg_congr fun b hb => Real.log_div (hU b hb).ne' hW.ne', avg_sub_const hnb]
  congr 1
  ring

/-- If no within-cluster distance is positive (for example for singletons) the statistic is infinite. -/
theorem gap_infinite {rng : Int → Nat → ℝ} {m : Dist.Table} {l : List α} {d : Nat → Nat → ℝ} {h : ℝ} (hl : 2 ≤ l.length)
    (hm : IsDist m l.length d) (ht : IsTop l.length d h) {nb : Nat} (hnb : nb ≠ 0) {rs : Option Int}
    (h0 : 0 ≤ rs.getD 0) (h1 : rs.getD 0 + nb ≤ 2 ^ 32) (hW : pairSum l d = 0) :
    gapStatistic rng (.table m) (.vec l) nb rs =
      .ok (.pinf, .fin (Real.sqrt (vari nb fun b => refLog l h (rng (rs.getD 0 + b))))) := by
  rw [gap_eq hl hm ht hnb h0 h1, hW, zero_div, log_zero]
  rfl

theorem pairSum_nodup {l : List α} (h : l.Nodup) (d : Nat → Nat → ℝ) : pairSum l d = 0 := by
  refine sum_eq_zero fun j hj => sum_eq_zero fun i hi => if_neg fun e => ?_
  have hj := mem_range.mp hj
  have hi := mem_range.mp hi
  have := (List.getElem?_inj (by omega) h).mp e
  omega

/-- One cluster per point: the statistic is infinite and its deviation zero, whatever the distances and draws. -/
theorem gap_singletons {rng : Int → Nat → ℝ} {m : Dist.Table} {l : List α} {d : Nat → Nat → ℝ} {h : ℝ} (hl : 2 ≤ l.length)
    (hm : IsDist m l.length d) (ht : IsTop l.length d h) {nb : Nat} (hnb : nb ≠ 0) {rs : Option Int}
    (h0 : 0 ≤ rs.getD 0) (h1 : rs.getD 0 + nb ≤ 2 ^ 32) (hnd : l.Nodup) :
    gapStatistic rng (.table m) (.vec l) nb rs = .ok (.pinf, .fin 0) := by
  have h2 : ∀ b < nb, refLog l h (rng (rs.getD 0 + (b : Nat))) = (fun _ => (0 : ℝ)) b := fun b _ => by
    rw [refLog, refSum, pairSum_nodup hnd, if_neg (lt_irrefl _)]
  have h3 : vari nb (fun _ => (0 : ℝ)) = 0 := by simp [vari, avg]
  rw [gap_infinite hl hm ht hnb h0 h1 (pairSum_nodup hnd d), vari_congr h2, h3, Real.sqrt_zero]

/-! ### Labels -/

/-- The statistic depends on the labels only through the clusters: for any inputs, two lists of labels (of any types)
that describe the same clusters give the same outcome. -/
theorem gap_same_partition (rng : Int → Nat → ℝ) (dist : DistArg) {l : List α} {l' : List β} (h : SamePartition l l')
    (nb : Int) (rs : Option Int) : gapStatistic rng dist (.vec l) nb rs = gapStatistic rng dist (.vec l') nb rs := by
  have hd : ∀ D, dispersion l D = dispersion l' D := by
    intro D
    unfold dispersion
    rw [h.dedup, ← h.1]
    congr 1
    refine npSum2_congr fun i j hi hj => ?_
    unfold within
    by_cases e : l[i]? = l[j]?
    · rw [if_pos e, if_pos ((h.2 i j hi hj).mp e)]
    · rw [if_neg e, if_neg fun e' => e ((h.2 i j hi hj).mpr e')]
  have hb : ∀ q u, logBoot l q u = logBoot l' q u := by
    intro q u
    unfold logBoot
    rw [hd, h.1]
  have hloop : ∀ m s bs acc, bootLoop rng m l s bs acc = bootLoop rng m l' s bs acc := by
    intro m s bs
    induction bs with
    | nil => intro acc; rfl
    | cons b bs ih =>
      intro acc
      unfold bootLoop
      simp only [hb, ih]
  cases dist with
  | none_ =>
    have : checkInputs .none_ (.vec l) = (if l.length < 2 then .error .valueError else .error .typeError) := by
      unfold checkInputs validateLabels; dsimp only; split <;> rfl
    have h' : checkInputs .none_ (.vec l') = (if l'.length < 2 then .error .valueError else .error .typeError) := by
      unfold checkInputs validateLabels; dsimp only; split <;> rfl
    unfold gapStatistic
    rw [this, h', ← h.1]
    split <;> rfl
  | other =>
    have : checkInputs .other (.vec l) = .error .valueError := by
      unfold checkInputs validateLabels; dsimp only; split <;> rfl
    have h' : checkInputs .other (.vec l') = .error .valueError := by
      unfold checkInputs validateLabels; dsimp only; split <;> rfl
    unfold gapStatistic
    rw [this, h']
    rfl
  | table m =>
    unfold gapStatistic
    rw [checkInputs_table, checkInputs_table, ← h.1]
    by_cases h1 : l.length < 2
    · simp only [if_pos h1]; rfl
    · by_cases h2 : m.cols < 2
      · simp only [if_neg h1, if_pos h2]; rfl
      · by_cases h3 : m.rows = l.length
        · simp only [if_neg h1, if_neg h2, if_pos h3]
          show (if m.cols ≠ l.length then _ else _) = (if m.cols ≠ l'.length then _ else _)
          simp only [hd, hloop, h.1]
        · simp only [if_neg h1, if_neg h2, if_neg h3]; rfl

/-- Renaming the clusters does not change the statistic. -/
theorem gap_relabel (rng : Int → Nat → ℝ) (dist : DistArg) {l : List α} {f : α → β}
    (hf : ∀ a ∈ l, ∀ b ∈ l, f a = f b → a = b) (nb : Int) (rs : Option Int) :
    gapStatistic rng dist (.vec (l.map f)) nb rs = gapStatistic rng dist (.vec l) nb rs :=
  (gap_same_partition rng dist (samePartition_map hf) nb rs).symm

/-! ### Units, bounds, seeds -/

theorem pairSum_smul (l : List α) (c : ℝ) (d : Nat → Nat → ℝ) : pairSum l (fun i j => c * d i j) = c ^ 2 * pairSum l d := by
  unfold pairSum
  rw [mul_sum]
  refine sum_congr rfl fun j _ => ?_
  rw [mul_sum]
  refine sum_congr rfl fun i _ => ?_
  split
  · ring
  · ring

theorem refSum_eq (l : List α) (h : ℝ) (u : Nat → ℝ) : refSum l h u = h ^ 2 * refSum l 1 u := by
  unfold refSum
  simp only [one_mul]
  exact pairSum_smul l h _

/-- The statistic does not depend on the unit of the distances. -/
theorem gap_scale {rng : Int → Nat → ℝ} {m m' : Dist.Table} {l : List α} {d : Nat → Nat → ℝ} {h c : ℝ} (hc : 0 < c)
    (hl : 2 ≤ l.length) (hm : IsDist m l.length d) (hm' : IsDist m' l.length fun i j => c * d i j)
    (ht : IsTop l.length d h) (hp : 0 < h) {nb : Nat} (hnb : nb ≠ 0) {rs : Option Int} (h0 : 0 ≤ rs.getD 0)
    (h1 : rs.getD 0 + nb ≤ 2 ^ 32) (hU : ∀ b < nb, 0 < refSum l 1 (rng (rs.getD 0 + (b : Nat)))) :
    gapStatistic rng (.table m') (.vec l) nb rs = gapStatistic rng (.table m) (.vec l) nb rs := by
  have ht' : IsTop l.length (fun i j => c * d i j) (c * h) := by
    obtain ⟨ha, i, j, hi, hj, hb⟩ := ht
    exact ⟨fun i j hi hj => mul_le_mul_of_nonneg_left (ha i j hi hj) hc.le, i, j, hi, hj, by simp only [hb]⟩
  have hne : l ≠ [] := by rintro rfl; simp at hl
  have hk := dedup_pos hne
  have hr : ∀ b < nb, refLog l (c * h) (rng (rs.getD 0 + (b : Nat)))
      = refLog l h (rng (rs.getD 0 + (b : Nat))) - (-Real.log (c ^ 2)) := by
    intro b hb
    have hu := hU b hb
    have h2 : 0 < refSum l h (rng (rs.getD 0 + (b : Nat))) := by rw [refSum_eq]; positivity
    have h3 : refSum l (c * h) (rng (rs.getD 0 + (b : Nat))) = c ^ 2 * refSum l h (rng (rs.getD 0 + (b : Nat))) := by
      rw [refSum_eq, refSum_eq l h]; ring
    rw [refLog, refLog, if_pos (by rw [h3]; positivity), if_pos h2, h3, mul_div_assoc,
      Real.log_mul (by positivity) (by positivity)]
    ring
  rw [gap_eq hl hm ht hnb h0 h1, gap_eq hl hm' ht' hnb h0 h1, pairSum_smul, vari_congr hr, vari_sub_const hnb,
    avg_congr hr, avg_sub_const hnb]
  congr 2
  rcases (pairSum_nonneg l d).eq_or_lt with hW | hW
  · rw [← hW, mul_zero, zero_div, log_zero]
    rfl
  · rw [XF.log_fin (by positivity), XF.log_fin (by positivity), XF.sub_fin, XF.sub_fin, mul_div_assoc,
      Real.log_mul (by positivity) (by positivity)]
    congr 1
    ring

theorem pairSum_lt {l : List α} {d : Nat → Nat → ℝ} {q : ℝ} (hd : ∀ i j, i < j → j < l.length → d i j ^ 2 < q)
    (hp : 0 < pairs l) : pairSum l d < pairs l * q := by
  have e : pairs l * q = ∑ j ∈ range l.length, ∑ i ∈ range j, if l[i]? = l[j]? then q else 0 := by
    unfold pairs
    rw [sum_mul]
    refine sum_congr rfl fun j _ => ?_
    rw [sum_mul]
    exact sum_congr rfl fun i _ => by split <;> simp
  have hle : ∀ j ∈ range l.length, ∀ i ∈ range j, (if l[i]? = l[j]? then d i j ^ 2 else 0) ≤ if l[i]? = l[j]? then q else 0 := by
    intro j hj i hi
    split
    · exact (hd i j (mem_range.mp hi) (mem_range.mp hj)).le
    · exact le_rfl
  obtain ⟨j, hj, h1⟩ := exists_lt_of_sum_lt (s := range l.length) (f := fun _ => (0 : ℝ)) (by simp only [sum_const_zero]; exact hp)
  obtain ⟨i, hi, h2⟩ := exists_lt_of_sum_lt (s := range j) (f := fun _ => (0 : ℝ)) (by simp only [sum_const_zero]; exact h1)
  rw [e]
  refine sum_lt_sum (fun j hj => sum_le_sum (hle j hj)) ⟨j, hj, sum_lt_sum (hle j hj) ⟨i, hi, ?_⟩⟩
  by_cases hc : l[i]? = l[j]?
  · rw [if_pos hc, if_pos hc]
    exact hd i j (mem_range.mp hi) (mem_range.mp hj)
  · rw [if_neg hc] at h2
    exact absurd h2 (lt_irrefl _)

theorem avg_lt {n : Nat} (hn : n ≠ 0) {f : Nat → ℝ} {c : ℝ} (h : ∀ b < n, f b < c) : avg n f < c := by
  have hp : (0 : ℝ) < n := by exact_mod_cast Nat.pos_of_ne_zero hn
  unfold avg
  rw [div_lt_iff₀ hp]
  calc _ < ∑ _b ∈ range n, c := sum_lt_sum_of_nonempty (nonempty_range_iff.mpr hn) fun b hb => h b (mem_range.mp hb)
    _ = _ := by rw [sum_const, card_range, nsmul_eq_mul, mul_comm]

theorem pairs_pos {l : List α} {d : Nat → Nat → ℝ} (h : 0 < pairSum l d) : 0 < pairs l := by
  have hn : 0 ≤ pairs l := sum_nonneg fun j _ => sum_nonneg fun i _ => by split <;> norm_num
  rcases hn.eq_or_lt with e | e
  · exfalso
    have h1 := (sum_eq_zero_iff_of_nonneg fun j _ => sum_nonneg fun i _ => by split <;> norm_num).mp e.symm
    have : pairSum l d = 0 := by
      refine sum_eq_zero fun j hj => sum_eq_zero fun i hi => if_neg fun hc => ?_
      have h2 := (sum_eq_zero_iff_of_nonneg fun i _ => by split <;> norm_num).mp (h1 j hj) i hi
      rw [if_pos hc] at h2
      exact one_ne_zero h2
    linarith
  · exact e

/-- The reference distances are drawn below the greatest observed distance: the statistic is less than the logarithm of
the ratio between the squared greatest distance and the mean squared within-cluster distance. -/
theorem gap_upper {rng : Int → Nat → ℝ} (hrng : ∀ s i, 0 ≤ rng s i ∧ rng s i < 1) {m : Dist.Table} {l : List α}
    {d : Nat → Nat → ℝ} {h : ℝ} (hl : 2 ≤ l.length)
    (hm : IsDist m l.length d) (ht : IsTop l.length d h) {nb : Nat} (hnb : nb ≠ 0) {rs : Option Int}
    (h0 : 0 ≤ rs.getD 0) (h1 : rs.getD 0 + nb ≤ 2 ^ 32) (hW : 0 < pairSum l d)
    (hU : ∀ b < nb, 0 < refSum l h (rng (rs.getD 0 + (b : Nat)))) :
    ∃ g s, gapStatistic rng (.table m) (.vec l) nb rs = .ok (.fin g, .fin s) ∧
      g < Real.log (h ^ 2 / (pairSum l d / pairs l)) := by
  refine ⟨_, _, gap_formula hl hm ht hnb h0 h1 hW hU, avg_lt hnb fun b hb => ?_⟩
  have hp := pairs_pos hW
  have hu := hU b hb
  have hh : h ≠ 0 := by
    rintro rfl
    rw [refSum_eq] at hu
    simp at hu
  have hb : refSum l h (rng (rs.getD 0 + (b : Nat))) < pairs l * h ^ 2 := by
    refine pairSum_lt (fun i j _ _ => ?_) hp
    have := hrng (rs.getD 0 + (b : Nat)) (i * l.length + j)
    have h2 : 0 < h ^ 2 := by positivity
    rw [mul_pow]
    have h3 : rng (rs.getD 0 + (b : Nat)) (i * l.length + j) ^ 2 < 1 := pow_lt_one₀ this.1 this.2 (by norm_num)
    nlinarith
  refine Real.log_lt_log (by positivity) ?_
  rw [div_div_eq_mul_div, mul_comm]
  rw [mul_comm]
  refine div_lt_div_of_pos_right ?_ hW
  linarith

/-- Equidistant points, in which no clusters are present, have a negative statistic for every clustering. -/
theorem gap_equidistant {rng : Int → Nat → ℝ} (hrng : ∀ s i, 0 ≤ rng s i ∧ rng s i < 1) {m : Dist.Table} {l : List α}
    {h : ℝ} (hh : 0 < h) (hl : 2 ≤ l.length)
    (hm : IsDist m l.length fun i j => if i = j then 0 else h) {nb : Nat} (hnb : nb ≠ 0) {rs : Option Int}
    (h0 : 0 ≤ rs.getD 0) (h1 : rs.getD 0 + nb ≤ 2 ^ 32) (hp : 0 < pairs l)
    (hU : ∀ b < nb, 0 < refSum l h (rng (rs.getD 0 + (b : Nat)))) :
    ∃ g s, gapStatistic rng (.table m) (.vec l) nb rs = .ok (.fin g, .fin s) ∧ g < 0 := by
  have e : pairSum l (fun i j => if i = j then 0 else h) = pairs l * h ^ 2 := by
    rw [pairSum_congr (e := fun _ _ => h) fun i j hij _ => if_neg (by omega)]
    unfold pairSum pairs
    rw [sum_mul]
    refine sum_congr rfl fun j _ => ?_
    rw [sum_mul]
    exact sum_congr rfl fun i _ => by split <;> simp
  have ht : IsTop l.length (fun i j => if i = j then 0 else h) h :=
    ⟨fun i j _ _ => by dsimp only; split; exacts [hh.le, le_rfl], 0, 1, by omega, by omega, by simp⟩
  obtain ⟨g, s, hg, hlt⟩ := gap_upper hrng hl hm ht hnb h0 h1 (by rw [e]; positivity) hU
  refine ⟨g, s, hg, ?_⟩
  rwa [e, mul_comm, mul_div_assoc, div_self hp.ne', mul_one, div_self (by positivity), Real.log_one] at hlt

/-- Consecutive seeds overlap: the references of `random_state = s + 1` are those of `s` without the first and with one
more, so the mean reference logarithm moves by the difference of only two of them. -/
theorem gap_seed_overlap {rng : Int → Nat → ℝ} {m : Dist.Table} {l : List α} {d : Nat → Nat → ℝ} {h : ℝ}
    (hl : 2 ≤ l.length) (hm : IsDist m l.length d) (ht : IsTop l.length d h) {nb : Nat} (hnb : nb ≠ 0) {s : Int}
    (h0 : 0 ≤ s) (h1 : s + 1 + nb ≤ 2 ^ 32) (hW : 0 < pairSum l d) :
    ∃ g g' σ σ', gapStatistic rng (.table m) (.vec l) nb (some s) = .ok (.fin g, .fin σ) ∧
      gapStatistic rng (.table m) (.vec l) nb (some (s + 1)) = .ok (.fin g', .fin σ') ∧
      g' - g = (refLog l h (rng (s + nb)) - refLog l h (rng s)) / nb := by
  have hne : l ≠ [] := by rintro rfl; simp at hl
  have hk := dedup_pos hne
  have hr : (nb : ℝ) ≠ 0 := by exact_mod_cast hnb
  have g1 := gap_eq (rng := rng) hl hm ht hnb (rs := some s) (by simpa using h0) (by simp only [Option.getD_some]; omega)
  have g2 := gap_eq (rng := rng) hl hm ht hnb (rs := some (s + 1)) (by simp only [Option.getD_some]; omega)
    (by simp only [Option.getD_some]; omega)
  rw [XF.log_fin (by positivity), XF.sub_fin] at g1 g2
  refine ⟨_, _, _, _, g1, g2, ?_⟩
  · simp only [Option.getD_some]
    rw [sub_sub_sub_cancel_right]
    unfold avg
    rw [← sub_div]
    congr 1
    have e1 := sum_range_succ (fun b : Nat => refLog l h (rng (s + b))) nb
    have e2 := sum_range_succ' (fun b : Nat => refLog l h (rng (s + b))) nb
    have e3 : ∑ b ∈ range nb, refLog l h (rng (s + 1 + (b : Nat))) = ∑ b ∈ range nb, refLog l h (rng (s + ((b + 1 : Nat) : Int))) :=
      sum_congr rfl fun b _ => by congr 2; push_cast; ring
    rw [e3]
    simp only [Nat.cast_zero, add_zero] at e2
    linarith

/-- `random_state=None` is the seed 0: a call without a seed is as deterministic as one with. -/
theorem gap_none_seed (rng : Int → Nat → ℝ) (dist : DistArg) (labels : LabArg α) (nb : Int) :
    gapStatistic rng dist labels nb none = gapStatistic rng dist labels nb (some 0) := rfl

/-! ### Outcomes -/

/-- The maximum can be the bound of a uniform distribution: no entry is NaN or `+inf`, some entry is not `-inf`. -/
def Bounded (x : Ser) : Prop := (∀ v ∈ x, v ≠ .nan ∧ v ≠ .pinf) ∧ ∃ v ∈ x, v ≠ .ninf

theorem npMax_fin_iff (x : Ser) : (∃ h, Cusum.npMax x = .fin h) ↔ Bounded x := by
  have key : ∀ (t : Ser) (a : XF), (∃ h, t.foldl Cusum.maximum a = .fin h) ↔ Bounded (a :: t) := by
    intro t
    induction t with
    | nil => intro a; cases a <;> simp [Bounded]
    | cons b t ih =>
      intro a
      rw [List.foldl_cons, ih]
      have : (Cusum.maximum a b ≠ .nan ∧ Cusum.maximum a b ≠ .pinf ↔ (a ≠ .nan ∧ a ≠ .pinf) ∧ (b ≠ .nan ∧ b ≠ .pinf)) ∧
          (Cusum.maximum a b ≠ .ninf ↔ a ≠ .ninf ∨ b ≠ .ninf) := by
        cases a <;> cases b <;> simp [Cusum.maximum, XF.lt]
        rename_i r q
        by_cases h : r < q <;> simp [h]
      unfold Bounded
      rw [List.forall_mem_cons, List.forall_mem_cons, List.forall_mem_cons, this.1, and_assoc]
      simp only [List.mem_cons, exists_eq_or_imp, this.2, or_assoc, and_assoc]
  cases x with
  | nil => simp [Cusum.npMax, Bounded]
  | cons a t => exact key t a

theorem bootLoop_nil_iff {rng : Int → Nat → ℝ} {m : Dist.Table} {l : List α} {s : Int} (bs : List Nat) (acc : XF × Ser) :
    (∃ r, bootLoop rng m l s bs acc = .ok r) ↔
      (∀ b ∈ bs, 0 ≤ s + (b : Int) ∧ s + (b : Int) < 2 ^ 32) ∧ (bs = [] ∨ ∃ h, tableMax m = .fin h) := by
  induction bs generalizing acc with
  | nil => simp [bootLoop]
  | cons b bs ih =>
    obtain ⟨e, logs⟩ := acc
    unfold bootLoop
    by_cases hs : 0 ≤ s + (b : Int) ∧ s + (b : Int) < 2 ^ 32
    · rw [seeded, if_pos hs]
      cases hm : tableMax m with
      | fin h =>
        show (∃ r, bootLoop rng m l s bs _ = .ok r) ↔ _
        rw [ih, hm]
        simp only [List.forall_mem_cons, hs, true_and, XF.fin.injEq, exists_eq', or_true, and_true]
      | nan => simp [uniformRange, bind, Except.bind]
      | pinf => simp [uniformRange, bind, Except.bind]
      | ninf => simp [uniformRange, bind, Except.bind]
    · rw [seeded, if_neg hs]
      constructor
      · rintro ⟨r, hr⟩
        cases hr
      · exact fun h => absurd (h.1 b (by simp)) hs

/-- The entries of a table. -/
def entries (m : Dist.Table) : Ser := (List.range m.rows).flatMap fun i => (List.range m.cols).map fun j => m.at_ i j

/-- When `gap_statistic` returns: at least two labels, a square matrix of that size, a number of draws other than 0 and,
if it is positive, 32-bit seeds and a finite greatest entry. In particular a missing distance (NaN) is an error. -/
theorem gap_ok_iff (rng : Int → Nat → ℝ) (dist : DistArg) (l : List α) (nb : Int) (rs : Option Int) :
    (∃ r, gapStatistic rng dist (.vec l) nb rs = .ok r) ↔
      ∃ m, dist = .table m ∧ 2 ≤ l.length ∧ m.rows = l.length ∧ m.cols = l.length ∧ nb ≠ 0 ∧
        (0 < nb → 0 ≤ rs.getD 0 ∧ rs.getD 0 + nb ≤ 2 ^ 32 ∧ Bounded (entries m)) := by
  have key : ∀ m : Dist.Table, 2 ≤ l.length → m.rows = l.length → m.cols = l.length →
      ((∃ r, gapStatistic rng (.table m) (.vec l) nb rs = .ok r) ↔ nb ≠ 0 ∧
        (0 < nb → 0 ≤ rs.getD 0 ∧ rs.getD 0 + nb ≤ 2 ^ 32 ∧ Bounded (entries m))) := by
    intro m hl hr hc
    have hk : checkInputs (.table m) (.vec l) = .ok (m, l) := checkInputs_ok.mpr ⟨rfl, rfl, hl, by omega, hr⟩
    have hb := bootLoop_nil_iff (rng := rng) (m := m) (l := l) (s := rs.getD 0) (List.range nb.toNat) (.fin 0, [])
    have hmax : (∃ h, tableMax m = .fin h) ↔ Bounded (entries m) := npMax_fin_iff _
    rw [hmax] at hb
    have hcond : ((∀ b ∈ List.range nb.toNat, 0 ≤ rs.getD 0 + (b : Int) ∧ rs.getD 0 + (b : Int) < 2 ^ 32) ∧
        (List.range nb.toNat = [] ∨ Bounded (entries m))) ↔
        (0 < nb → 0 ≤ rs.getD 0 ∧ rs.getD 0 + nb ≤ 2 ^ 32 ∧ Bounded (entries m)) := by
      constructor
      · rintro ⟨h1, h2⟩ hp
        have ha := h1 0 (List.mem_range.mpr (by omega))
        have hz := h1 (nb.toNat - 1) (List.mem_range.mpr (by omega))
        refine ⟨by omega, by omega, h2.resolve_left fun h => ?_⟩
        rw [List.range_eq_nil] at h
        omega
      · intro h
        by_cases hp : 0 < nb
        · obtain ⟨h1, h2, h3⟩ := h hp
          exact ⟨fun b hb => by have := List.mem_range.mp hb; omega, .inr h3⟩
        · have : nb.toNat = 0 := by omega
          rw [this]
          simp
    rw [hcond] at hb
    rw [← hb]
    unfold gapStatistic
    rw [hk]
    show (∃ r, (if m.cols ≠ l.length then _ else _) = _) ↔ _
    rw [if_neg (by simp [hc])]
    constructor
    · rintro ⟨r, h⟩
      obtain ⟨⟨e, logs⟩, h1, h2⟩ := Ser.bind_ok h
      refine ⟨fun hz => ?_, _, h1⟩
      have h2 : (if nb = 0 then _ else _) = Except.ok r := h2
      rw [if_pos hz] at h2
      cases h2
    · rintro ⟨hz, ⟨e, logs⟩, h1⟩
      rw [h1]
      exact ⟨_, if_neg hz⟩
  constructor
  · rintro ⟨r, h⟩
    obtain ⟨⟨m, l'⟩, h1, h2⟩ := Ser.bind_ok h
    obtain ⟨rfl, hl', h3, h4, h5⟩ := checkInputs_ok.mp h1
    cases hl'
    have h2 : (if m.cols ≠ l.length then _ else _) = _ := h2
    have hc : m.cols = l.length := by
      by_contra hc
      rw [if_pos hc] at h2
      cases h2
    exact ⟨m, rfl, h3, h5, hc, (key m h3 h5 hc).mp ⟨r, h⟩⟩
  · rintro ⟨m, rfl, h1, h2, h3, h4⟩
    exact (key m h1 h2 h3).mpr h4

/-- The errors on square matrices: no draws is a division by zero; a seed out of range is a ValueError; an infinite or
missing distance is an OverflowError. A negative number of draws is accepted: minus the logarithm of the dispersion is
returned with a NaN deviation. -/
theorem gap_errors (rng : Int → Nat → ℝ) {m : Dist.Table} {l : List α} (hl : 2 ≤ l.length) (hr : m.rows = l.length)
    (hc : m.cols = l.length) (rs : Option Int) :
    gapStatistic rng (.table m) (.vec l) 0 rs = .error .zeroDivisionError ∧
    (∀ nb : Int, nb < 0 → gapStatistic rng (.table m) (.vec l) nb rs = .ok (.fin 0 - (dispersion l m.at_).log, .nan)) ∧
    (∀ nb : Int, 0 < nb → ¬ (0 ≤ rs.getD 0 ∧ rs.getD 0 < 2 ^ 32) →
      gapStatistic rng (.table m) (.vec l) nb rs = .error .valueError) ∧
    (∀ nb : Int, 0 < nb → 0 ≤ rs.getD 0 ∧ rs.getD 0 < 2 ^ 32 → ¬ Bounded (entries m) →
      gapStatistic rng (.table m) (.vec l) nb rs = .error .overflowError) ∧
    (∀ nb : Int, 0 < nb → 0 ≤ rs.getD 0 → 2 ^ 32 < rs.getD 0 + nb → Bounded (entries m) →
      gapStatistic rng (.table m) (.vec l) nb rs = .error .valueError) := by
  have hk : checkInputs (.table m) (.vec l) = .ok (m, l) := checkInputs_ok.mpr ⟨rfl, rfl, hl, by omega, hr⟩
  have hmax : (∃ h, tableMax m = .fin h) ↔ Bounded (entries m) := npMax_fin_iff _
  have e : ∀ nb : Int, gapStatistic rng (.table m) (.vec l) nb rs =
      (bootLoop rng m l (rs.getD 0) (List.range nb.toNat) (.fin 0, [])).bind fun r =>
        if nb = 0 then .error .zeroDivisionError else .ok (r.1 / .fin nb - (dispersion l m.at_).log, npStd r.2) := by
    intro nb
    unfold gapStatistic
    rw [hk]
    show (if m.cols ≠ l.length then _ else _) = _
    rw [if_neg (by simp [hc])]
    rfl
  have hs : ∀ {nb : Int}, 0 < nb → List.range nb.toNat = 0 :: (List.range (nb.toNat - 1)).map Nat.succ := by
    intro nb hp
    obtain ⟨k, hk⟩ : ∃ k, nb.toNat = k + 1 := ⟨nb.toNat - 1, by omega⟩
    rw [hk, List.range_succ_eq_map]
    rfl
  refine ⟨?_, fun nb hn => ?_, fun nb hp hb => ?_, fun nb hp hb hx => ?_, fun nb hp h0 hb hx => ?_⟩
  · rw [e]
    rfl
  · have hz : nb.toNat = 0 := by omega
    have hne : (nb : ℝ) ≠ 0 := by exact_mod_cast (by omega : nb ≠ 0)
    rw [e, hz]
    show (if nb = 0 then _ else _) = _
    rw [if_neg (by omega), XF.div_fin hne, zero_div]
    congr 2
    simp [npStd, Micro.var, Micro.mean, XF.zero_div_zero, XF.sqrt]
  · rw [e, hs hp]
    unfold bootLoop
    rw [seeded, if_neg (by simpa using hb)]
    rfl
  · rw [e, hs hp]
    unfold bootLoop
    rw [seeded, if_pos (by simpa using hb)]
    cases hm : tableMax m with
    | fin h => exact absurd (hmax.mp ⟨h, hm⟩) hx
    | nan => rfl
    | pinf => rfl
    | ninf => rfl
  · obtain ⟨h, hm⟩ := hmax.mpr hx
    have key : ∀ (bs : List Nat) acc, (∃ b ∈ bs, 2 ^ 32 ≤ rs.getD 0 + (b : Int)) →
        bootLoop rng m l (rs.getD 0) bs acc = .error .valueError := by
      intro bs
      induction bs with
      | nil => rintro acc ⟨b, hb, _⟩; simp at hb
      | cons b bs ih =>
        rintro ⟨a, logs⟩ ⟨b', hb', hv⟩
        unfold bootLoop
        by_cases hv' : 0 ≤ rs.getD 0 + (b : Int) ∧ rs.getD 0 + (b : Int) < 2 ^ 32
        · rw [seeded, if_pos hv', hm]
          refine ih _ ⟨b', ?_, hv⟩
          rcases List.mem_cons.mp hb' with rfl | h
          · omega
          · exact h
        · rw [seeded, if_neg hv']
          rfl
    rw [e, key _ _ ⟨nb.toNat - 1, List.mem_range.mpr (by omega), by omega⟩]
    rfl

/-! ### Cases -/

/-- Four points on a line, at 0, 1, 10 and 12. -/
noncomputable def pts (i : Nat) : ℝ := match i with | 0 => 0 | 1 => 1 | 2 => 10 | _ => 12

noncomputable def lineTable : Dist.Table := ⟨4, 4, fun i j => .fin |pts i - pts j|⟩

def lineLabels : List Nat := [0, 0, 1, 1]

theorem line_isDist : IsDist lineTable lineLabels.length fun i j => |pts i - pts j| :=
  ⟨rfl, rfl, fun _ _ _ _ => rfl, fun i j _ _ => abs_sub_comm _ _, fun i _ => by simp⟩

theorem line_isTop : IsTop lineLabels.length (fun i j => |pts i - pts j|) 12 := by
  refine ⟨fun i j hi hj => ?_, 0, 3, by decide, by decide, ?_⟩
  · have hi : i < 4 := hi
    have hj : j < 4 := hj
    have h0 : ∀ k < 4, 0 ≤ pts k ∧ pts k ≤ 12 := by
      intro k hk
      rcases k with _ | _ | _ | _ | k
      all_goals first | omega | norm_num [pts]
    have h1 := h0 i hi
    have h2 := h0 j hj
    show |pts i - pts j| ≤ 12
    rw [abs_le]
    constructor <;> linarith
  · norm_num [pts]

theorem line_pairSum : pairSum lineLabels (fun i j => |pts i - pts j|) = 5 := by
  norm_num [pairSum, lineLabels, sum_range_succ, pts]

theorem line_refSum : refSum lineLabels 12 (fun _ => 1 / 2) = 72 := by
  norm_num [refSum, pairSum, lineLabels, sum_range_succ]

/-- With a generator that always yields one half the statistic of the two clusters is `log (72 / 5)`. -/
example : gapStatistic (fun _ _ => 1 / 2) (.table lineTable) (.vec lineLabels) 3 none =
    .ok (.fin (Real.log (72 / 5)), .fin 0) := by
  have h := gap_formula (rng := fun _ _ => 1 / 2) (rs := none) (nb := 3) (by decide) line_isDist line_isTop (by decide)
    (by decide) (by decide) (by rw [line_pairSum]; norm_num) (fun b _ => by rw [line_refSum]; norm_num)
  rw [line_pairSum, line_refSum] at h
  have h1 : ∀ c : ℝ, avg 3 (fun _ => c) = c := fun c => by simp [avg]
  have h2 : ∀ c : ℝ, vari 3 (fun _ => c) = 0 := fun c => by simp [vari, h1]
  rw [h1, h2, Real.sqrt_zero] at h
  exact h

/-- The hypotheses of `gap_scale`, `gap_upper` and `gap_seed_overlap` hold for these points. -/
example : (∀ b < 3, 0 < refSum lineLabels 1 ((fun (_ : Int) (_ : Nat) => (1 / 2 : ℝ)) (0 + (b : Nat)))) ∧
    (0 : ℝ) < 12 ∧ (∀ (s : Int) (i : Nat), 0 ≤ (fun (_ : Int) (_ : Nat) => (1 / 2 : ℝ)) s i ∧
      (fun (_ : Int) (_ : Nat) => (1 / 2 : ℝ)) s i < 1) ∧ 0 < pairs lineLabels :=
  ⟨fun b _ => by norm_num [refSum, pairSum, lineLabels, sum_range_succ], by norm_num, fun _ _ => by norm_num,
    by simp only [pairs, lineLabels, sum_range_succ, range_zero, sum_empty, List.length_cons, List.length_nil]; norm_num⟩

/-- Swapping the names of two clusters is a relabelling. -/
example (rng : Int → Nat → ℝ) : gapStatistic rng (.table lineTable) (.vec ["b", "b", "a", "a"]) 10 (some 7) =
    gapStatistic rng (.table lineTable) (.vec lineLabels) 10 (some 7) :=
  gap_relabel rng _ (f := fun k => if k = 0 then "b" else "a") (l := lineLabels) (by decide) 10 _

/-- A missing distance: every call with draws fails. -/
example (rng : Int → Nat → ℝ) : gapStatistic rng (.table ⟨2, 2, fun i j => if i = j then .fin 0 else .nan⟩)
    (.vec [0, 1]) 10 none = .error .overflowError :=
  (gap_errors rng (by decide) rfl rfl none).2.2.2.1 10 (by decide) ⟨by decide, by decide⟩ fun h =>
    (h.1 .nan (by simp only [entries]; simp; exact ⟨0, by omega, 1, by omega, by decide⟩)).1 rfl

end Verif.Props.ClustGap
