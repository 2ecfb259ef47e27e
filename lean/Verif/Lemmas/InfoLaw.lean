import Verif.Spec.InfoLaw
import Verif.Lemmas.BlockLLN
import Verif.Lemmas.Info
import Verif.Props.Info
import Mathlib.Probability.StrongLaw

/-!
# Frequencies of the bins of a long sample
-/

namespace Verif.Info

open MeasureTheory ProbabilityTheory Filter Topology Verif.Stat Verif.Ent

variable {Ω : Type*} [MeasurableSpace Ω] {P : Measure Ω}

open Classical in
/-- The frequency of an event among the first `n` indices. -/
noncomputable def freq (A : Nat → Prop) (n : Nat) : ℝ := (∑ i ∈ Finset.range n, if A i then (1 : ℝ) else 0) / n

/-- The law of large numbers for frequencies. -/
theorem freq_limit [IsProbabilityMeasure P] {E : Type*} [MeasurableSpace E] {Z : Nat → Ω → E} (h : IID P Z) {s : Set E}
    (hs : MeasurableSet s) :
    ∀ᵐ ω ∂P, Tendsto (freq fun i => Z i ω ∈ s) atTop (𝓝 (P.real {ω | Z 0 ω ∈ s})) := by
  classical
  have hg : Measurable (s.indicator fun _ => (1 : ℝ)) := measurable_const.indicator hs
  have h2 := h.comp hg
  have hb : ∀ t ω, s.indicator (fun _ => (1 : ℝ)) (Z t ω) = if Z t ω ∈ s then 1 else 0 := by
    intro t ω
    rw [Set.indicator_apply]
  have hint : Integrable (fun ω => s.indicator (fun _ => (1 : ℝ)) (Z 0 ω)) P := by
    refine Integrable.of_bound (C := 1) ((hg.comp_aemeasurable (h.ae 0)).aestronglyMeasurable) (ae_of_all _ fun ω => ?_)
    rw [hb]
    split <;> simp
  have hm : ∫ ω, s.indicator (fun _ => (1 : ℝ)) (Z 0 ω) ∂P = P.real {ω | Z 0 ω ∈ s} := by
    have hn : NullMeasurableSet {ω | Z 0 ω ∈ s} P := (h.ae 0).nullMeasurable hs
    have e : (fun ω => s.indicator (fun _ => (1 : ℝ)) (Z 0 ω)) = {ω | Z 0 ω ∈ s}.indicator fun _ => (1 : ℝ) := by
      funext ω
      rfl
    rw [e, integral_indicator₀ hn]
    simp
  have key := strong_law_ae_real (fun t ω => s.indicator (fun _ => (1 : ℝ)) (Z t ω)) hint
    (fun i j hij => h2.indep.indepFun hij) h2.ident
  filter_upwards [key] with ω hω
  rw [hm] at hω
  refine hω.congr fun n => ?_
  simp only [hb, freq]

open Classical in
/-- Frequencies of two events that agree outside rare exceptions have the same limit. -/
theorem freq_squeeze {A : Nat → Prop} {An : Nat → Nat → Prop} {D : Nat → Nat → Prop} {d : Nat → ℝ} {p : ℝ}
    (h1 : ∀ m, ∀ᶠ n in atTop, ∀ i < n, ¬ D m i → (An n i ↔ A i)) (h2 : ∀ m, Tendsto (freq (D m)) atTop (𝓝 (d m)))
    (hd : Tendsto d atTop (𝓝 0)) (h3 : Tendsto (freq A) atTop (𝓝 p)) : Tendsto (fun n => freq (An n) n) atTop (𝓝 p) := by
  rw [Metric.tendsto_atTop] at hd h3 ⊢
  intro ε hε
  obtain ⟨m, hm⟩ := hd (ε / 4) (by linarith)
  have hm := hm m le_rfl
  rw [Real.dist_eq, sub_zero] at hm
  obtain ⟨n1, hn1⟩ := h3 (ε / 4) (by linarith)
  obtain ⟨n2, hn2⟩ := (Metric.tendsto_atTop.mp (h2 m)) (ε / 4) (by linarith)
  obtain ⟨n3, hn3⟩ := eventually_atTop.mp (h1 m)
  refine ⟨max n1 (max n2 n3), fun n hn => ?_⟩
  have a1 := hn1 n (le_trans (le_max_left _ _) hn)
  have a2 := hn2 n (le_trans (le_trans (le_max_left _ _) (le_max_right _ _)) hn)
  have a3 := hn3 n (le_trans (le_trans (le_max_right _ _) (le_max_right _ _)) hn)
  rw [Real.dist_eq] at a1 a2 ⊢
  have key : |freq (An n) n - freq A n| ≤ freq (D m) n := by
    unfold freq
    rw [← sub_div, ← Finset.sum_sub_distrib, abs_div, Nat.abs_cast]
    refine div_le_div_of_nonneg_right ?_ (Nat.cast_nonneg n)
    refine (Finset.abs_sum_le_sum_abs _ _).trans (Finset.sum_le_sum fun i hi => ?_)
    have := a3 i (Finset.mem_range.mp hi)
    by_cases hD : D m i
    · rw [if_pos hD]
      split_ifs <;> norm_num
    · rw [if_neg hD]
      simp [this hD]
  have h5 := abs_lt.mp a1
  have h6 := abs_lt.mp a2
  have h7 := abs_lt.mp hm
  have h8 := abs_le.mp key
  rw [abs_lt]
  constructor <;> linarith

/-- The count of a label of a sample is a frequency. -/
theorem cnt_freq {κ : Type} [DecidableEq κ] (n : Nat) (f : Nat → κ) (k : κ) :
    (cnt (fun i : Fin n => f i) k : ℝ) / n = freq (fun i => f i = k) n := by
  unfold cnt freq
  congr 1
  rw [Finset.card_filter]
  push_cast
  rw [Finset.sum_range]
  refine Finset.sum_congr rfl fun i _ => ?_
  split_ifs <;> rfl

/-- The entropy as a sum over all labels. -/
theorem H_sum {κ : Type} [DecidableEq κ] {n : Nat} (f : Fin n → κ) {s : Finset κ} (hs : ∀ i, f i ∈ s) :
    H f = ∑ k ∈ s, Real.negMulLog ((cnt f k : ℝ) / n) := by
  have hsub : Finset.univ.image f ⊆ s := by
    intro a ha
    obtain ⟨i, -, rfl⟩ := Finset.mem_image.mp ha
    exact hs i
  unfold H
  rw [Fintype.card_fin, sum_labels f fun a => Real.log (n / cnt f a), Finset.sum_div]
  rw [Finset.sum_subset hsub (f := fun a => (cnt f a : ℝ) * Real.log (n / cnt f a) / n) fun a _ ha => by
    rw [cnt_eq_zero ha]; simp]
  refine Finset.sum_congr rfl fun a _ => ?_
  simp only [Real.negMulLog]
  have : Real.log ((n : ℝ) / cnt f a) = - Real.log ((cnt f a : ℝ) / n) := by rw [← Real.log_inv, inv_div]
  rw [this]; ring

/-- The first `n` values as a function on `Fin n`. -/
theorem first_sample (x : Nat → ℝ) (n : Nat) : first x n = sample fun i : Fin n => x i := by
  unfold first sample
  apply List.ext_getElem
  · simp
  · intro i _ _
    simp

/-- The list of the first `n` values. -/
def firstR (x : Nat → ℝ) (n : Nat) : List ℝ := List.ofFn fun i : Fin n => x i

theorem mem_firstR {x : Nat → ℝ} {n i : Nat} (h : i < n) : x i ∈ firstR x n :=
  List.mem_ofFn.mpr ⟨⟨i, h⟩, rfl⟩

/-- The range of the histogram of a sequence that comes close to both ends of an interval. -/
theorem outer_limit {x : Nat → ℝ} {a b : ℝ} (hab : a < b) (hm : ∀ t, x t ∈ Set.Icc a b) (hl : ∀ ε > 0, ∃ t, x t < a + ε)
    (hr : ∀ ε > 0, ∃ t, b - ε < x t) {ε : ℝ} (hε : 0 < ε) :
    ∀ᶠ n in atTop, outer (firstR x n) = (lo (firstR x n), hi (firstR x n)) ∧ a ≤ lo (firstR x n) ∧ lo (firstR x n) < a + ε ∧
      b - ε < hi (firstR x n) ∧ hi (firstR x n) ≤ b := by
  obtain ⟨t1, h1⟩ := hl (min ε ((b - a) / 2)) (lt_min hε (by linarith))
  obtain ⟨t2, h2⟩ := hr (min ε ((b - a) / 2)) (lt_min hε (by linarith))
  filter_upwards [eventually_gt_atTop (max t1 t2)] with n hn
  have m1 : x t1 ∈ firstR x n := mem_firstR (lt_of_le_of_lt (le_max_left _ _) hn)
  have m2 : x t2 ∈ firstR x n := mem_firstR (lt_of_le_of_lt (le_max_right _ _) hn)
  have hne : firstR x n ≠ [] := List.ne_nil_of_mem m1
  obtain ⟨l1, l2⟩ := lo_spec hne
  obtain ⟨u1, u2⟩ := hi_spec hne
  have e1 := l2 _ m1
  have e2 := u2 _ m2
  have hin : ∀ v ∈ firstR x n, v ∈ Set.Icc a b := by
    intro v hv
    obtain ⟨i, rfl⟩ := List.mem_ofFn.mp hv
    exact hm i
  have q1 := min_le_left ε ((b - a) / 2)
  have q2 := min_le_right ε ((b - a) / 2)
  refine ⟨?_, (hin _ l1).1, by linarith, by linarith, (hin _ u1).2⟩
  unfold outer
  rw [if_neg (by intro h; linarith)]

/-- Away from the borders the bins of a sample with almost the full range are the cells. -/
theorem bin_cell {a b : ℝ} {B : Nat} (hB : 0 < B) {x : List ℝ} {v δ : ℝ} (hv : v ∈ x) (hva : v ∈ Set.Icc a b)
    (ho : outer x = (lo x, hi x)) (h1 : a ≤ lo x) (h2 : lo x < a + δ) (h3 : b - δ < hi x) (h4 : hi x ≤ b)
    (hD : ∀ k, 0 < k → k < B → δ < |v - edge a b B k|) {k : Nat} (hk : k < B) :
    binOf B x v = k ↔ v ∈ cell a b B k := by
  have hBr : (0 : ℝ) < B := by exact_mod_cast hB
  have key : ∀ j : Nat, j < B → ((lo x + j * ((hi x - lo x) / B) ≤ v) ↔ edge a b B j ≤ v) := by
    intro j hj
    rcases Nat.eq_zero_or_pos j with rfl | hj0
    · have := (lo_spec (List.ne_nil_of_mem hv)).2 v hv
      simp [edge, hva.1, this]
    · have hd := hD j hj0 hj
      have hj1 : (j : ℝ) / B < 1 := by rw [div_lt_one hBr]; exact_mod_cast hj
      have hj2 : (0 : ℝ) < j / B := by have : (0 : ℝ) < j := by exact_mod_cast hj0
                                       positivity
      have e1 : lo x + j * ((hi x - lo x) / B) - edge a b B j = (1 - j / B) * (lo x - a) + j / B * (hi x - b) := by
        unfold edge
        field_simp
        ring
      have b1 : |lo x + j * ((hi x - lo x) / B) - edge a b B j| ≤ δ := by
        rw [e1, abs_le]
        constructor <;> nlinarith
      rw [abs_le] at b1
      rcases lt_abs.mp hd with h | h
      · constructor <;> intro _ <;> linarith
      · constructor <;> intro _ <;> linarith
  have hb := bin_edges hB hv k
  rw [ho] at hb
  dsimp only at hb
  rw [hb]
  unfold cell
  rw [Set.mem_ofPred_eq, key k hk]
  constructor
  · rintro ⟨-, q1, q2⟩
    refine ⟨q1, ?_⟩
    by_cases hl : k + 1 = B
    · exact Or.inr hl
    · left
      have hk1 : k + 1 < B := by omega
      rcases q2 with q2 | q2
      · by_contra hcon
        push Not at hcon
        have := (key (k + 1) hk1).mpr hcon
        push_cast at this
        linarith
      · omega
  · rintro ⟨q1, q2⟩
    refine ⟨hk, q1, ?_⟩
    by_cases hl : k + 1 = B
    · right; omega
    · left
      have hk1 : k + 1 < B := by omega
      rcases q2 with q2 | q2
      · by_contra hcon
        push Not at hcon
        have := (key (k + 1) hk1).mp (by push_cast; exact hcon)
        linarith
      · omega

/-- The exceptional set: values within `1 / (m + 1)` of a border. -/
def nearEdge (a b : ℝ) (B m : Nat) : Set ℝ := {v | ∃ k, 0 < k ∧ k < B ∧ |v - edge a b B k| ≤ 1 / (m + 1)}

theorem nearEdge_eq (a b : ℝ) (B m : Nat) :
    nearEdge a b B m = ⋃ k ∈ Finset.Ioo 0 B, Metric.closedBall (edge a b B k) (1 / (m + 1)) := by
  ext v
  simp [nearEdge, Real.dist_eq, and_assoc]

theorem nearEdge_meas (a b : ℝ) (B m : Nat) : MeasurableSet (nearEdge a b B m) := by
  rw [nearEdge_eq]
  exact Finset.measurableSet_biUnion _ fun k _ => Metric.isClosed_closedBall.measurableSet

theorem cell_meas (a b : ℝ) (B k : Nat) : MeasurableSet (cell a b B k) := by
  have : cell a b B k = Set.Ici (edge a b B k) ∩ (Set.Iio (edge a b B (k + 1)) ∪ {_v | k + 1 = B}) := by
    ext v
    simp [cell]
  rw [this]
  exact measurableSet_Ici.inter (measurableSet_Iio.union (MeasurableSet.const _))

/-- The exceptional sets are small. -/
theorem nearEdge_small [IsProbabilityMeasure P] {X : Ω → ℝ} (hX : AEMeasurable X P) {a b : ℝ} {B : Nat}
    (h : ∀ k, 0 < k → k < B → P {ω | X ω = edge a b B k} = 0) :
    Tendsto (fun m => P.real {ω | X ω ∈ nearEdge a b B m}) atTop (𝓝 0) := by
  have hp : IsProbabilityMeasure (P.map X) := Measure.isProbabilityMeasure_map hX
  have one : ∀ k, 0 < k → k < B →
      Tendsto (fun m : Nat => (P.map X).real (Metric.closedBall (edge a b B k) (1 / (m + 1)))) atTop (𝓝 0) := by
    intro k hk hkB
    have hz : P.map X (⋂ m : Nat, Metric.closedBall (edge a b B k) (1 / ((m : ℝ) + 1))) = 0 := by
      have e : (⋂ m : Nat, Metric.closedBall (edge a b B k) (1 / ((m : ℝ) + 1))) = {edge a b B k} := by
        ext v
        simp only [Set.mem_iInter, Metric.mem_closedBall, Set.mem_singleton_iff]
        constructor
        · intro hv
          have hl : Tendsto (fun m : Nat => 1 / ((m : ℝ) + 1)) atTop (𝓝 0) := tendsto_one_div_add_atTop_nhds_zero_nat
          exact dist_le_zero.mp (ge_of_tendsto' hl hv)
        · rintro rfl m
          rw [dist_self]
          positivity
      rw [e, Measure.map_apply_of_aemeasurable hX (measurableSet_singleton _)]
      exact h k hk hkB
    have ht := tendsto_measure_iInter_atTop (μ := P.map X)
      (s := fun m : Nat => Metric.closedBall (edge a b B k) (1 / ((m : ℝ) + 1)))
      (fun m => Metric.isClosed_closedBall.measurableSet.nullMeasurableSet)
      (fun m n hmn => Metric.closedBall_subset_closedBall (one_div_le_one_div_of_le (by positivity) (by
        have : (m : ℝ) ≤ n := by exact_mod_cast hmn
        linarith)))
      ⟨0, measure_ne_top _ _⟩
    rw [hz] at ht
    exact (ENNReal.tendsto_toReal ENNReal.zero_ne_top).comp ht
  have hsum : Tendsto (fun m : Nat => ∑ k ∈ Finset.Ioo 0 B, (P.map X).real (Metric.closedBall (edge a b B k) (1 / (m + 1))))
      atTop (𝓝 0) := by
    have := tendsto_finsetSum (Finset.Ioo 0 B) fun k hk => one k (Finset.mem_Ioo.mp hk).1 (Finset.mem_Ioo.mp hk).2
    simpa using this
  refine squeeze_zero (fun m => measureReal_nonneg) (fun m => ?_) hsum
  have e : P.real {ω | X ω ∈ nearEdge a b B m} = (P.map X).real (nearEdge a b B m) := by
    rw [measureReal_def, measureReal_def, Measure.map_apply_of_aemeasurable hX (nearEdge_meas a b B m)]
    rfl
  rw [e, nearEdge_eq]
  exact measureReal_biUnion_finset_le _ _

/-- What holds almost surely for a long sample of a variable with bounded range. -/
structure Typical (x : Nat → ℝ) (a b : ℝ) : Prop where
  mem : ∀ t, x t ∈ Set.Icc a b
  left : ∀ ε > 0, ∃ t, x t < a + ε
  right : ∀ ε > 0, ∃ t, b - ε < x t

theorem exists_of_freq {A : Nat → Prop} {c : ℝ} (h : Tendsto (freq A) atTop (𝓝 c)) (hc : c ≠ 0) : ∃ t, A t := by
  by_contra hcon
  push Not at hcon
  have : freq A = fun _ => 0 := by
    funext n
    simp [freq, hcon]
  rw [this] at h
  exact hc (tendsto_nhds_unique h tendsto_const_nhds)

theorem typical [IsProbabilityMeasure P] {X : Nat → Ω → ℝ} (h : IID P X) {a b : ℝ} {B : Nat} (hX : Cells P (X 0) a b B) :
    ∀ᵐ ω ∂P, Typical (fun t => X t ω) a b := by
  have h1 := h.ae_all measurableSet_Icc hX.mem
  have h2 : ∀ᵐ ω ∂P, ∀ m : Nat, ∃ t, X t ω < a + 1 / (m + 1) := by
    rw [ae_all_iff]
    intro m
    filter_upwards [freq_limit h (s := Set.Iio (a + 1 / ((m : ℝ) + 1))) measurableSet_Iio] with ω hω
    refine exists_of_freq hω ?_
    rw [measureReal_def, ENNReal.toReal_ne_zero]
    exact ⟨hX.left _ (by positivity), measure_ne_top _ _⟩
  have h3 : ∀ᵐ ω ∂P, ∀ m : Nat, ∃ t, b - 1 / (m + 1) < X t ω := by
    rw [ae_all_iff]
    intro m
    filter_upwards [freq_limit h (s := Set.Ioi (b - 1 / ((m : ℝ) + 1))) measurableSet_Ioi] with ω hω
    refine exists_of_freq hω ?_
    rw [measureReal_def, ENNReal.toReal_ne_zero]
    exact ⟨hX.right _ (by positivity), measure_ne_top _ _⟩
  filter_upwards [h1, h2, h3] with ω a1 a2 a3
  refine ⟨a1, fun ε hε => ?_, fun ε hε => ?_⟩
  · obtain ⟨m, hm⟩ := exists_nat_one_div_lt hε
    obtain ⟨t, ht⟩ := a2 m
    exact ⟨t, by linarith⟩
  · obtain ⟨m, hm⟩ := exists_nat_one_div_lt hε
    obtain ⟨t, ht⟩ := a3 m
    exact ⟨t, by linarith⟩

/-- In the long run the bins are the cells, except near the borders. -/
theorem Typical.bins {x : Nat → ℝ} {a b : ℝ} (hab : a < b) (h : Typical x a b) {B : Nat} (hB : 0 < B) (m : Nat) :
    ∀ᶠ n in atTop, ∀ i < n, x i ∉ nearEdge a b B m → ∀ k < B, (binOf B (firstR x n) (x i) = k ↔ x i ∈ cell a b B k) := by
  filter_upwards [outer_limit hab h.mem h.left h.right (ε := 1 / ((m : ℝ) + 1)) (by positivity)] with n hn i hi hD k hk
  obtain ⟨q0, q1, q2, q3, q4⟩ := hn
  refine bin_cell hB (mem_firstR hi) (h.mem i) q0 q1 q2 q3 q4 (fun j hj hjB => ?_) hk
  by_contra hcon
  push Not at hcon
  exact hD ⟨j, hj, hjB, hcon⟩

/-- The frequencies of the bins tend to the probabilities of the cells. -/
theorem bins_limit [IsProbabilityMeasure P] {X : Nat → Ω → ℝ} (h : IID P X) {a b : ℝ} {B : Nat} (hX : Cells P (X 0) a b B) :
    ∀ᵐ ω ∂P, ∀ k < B, Tendsto (fun n => freq (fun i => binOf B (firstR (fun t => X t ω) n) (X i ω) = k) n) atTop
      (𝓝 (cellProb P (X 0) a b B k)) := by
  have h1 : ∀ᵐ ω ∂P, ∀ m, Tendsto (freq fun i => X i ω ∈ nearEdge a b B m) atTop (𝓝 (P.real {ω | X 0 ω ∈ nearEdge a b B m})) := by
    rw [ae_all_iff]
    exact fun m => freq_limit h (nearEdge_meas a b B m)
  have h2 : ∀ᵐ ω ∂P, ∀ k, Tendsto (freq fun i => X i ω ∈ cell a b B k) atTop (𝓝 (cellProb P (X 0) a b B k)) := by
    rw [ae_all_iff]
    exact fun k => freq_limit h (cell_meas a b B k)
  filter_upwards [typical h hX, h1, h2] with ω ht a1 a2 k hk
  refine freq_squeeze (A := fun i => X i ω ∈ cell a b B k) (D := fun m i => X i ω ∈ nearEdge a b B m) (fun m => ?_) a1
    (nearEdge_small (h.ae 0) hX.border) (a2 k)
  filter_upwards [ht.bins hX.lt hX.pos m] with n hn i hi hD
  exact hn i hi hD k hk

/-- The same for pairs. -/
theorem bins2_limit [IsProbabilityMeasure P] {X Y : Nat → Ω → ℝ} (h : IID P fun t ω => (X t ω, Y t ω)) {a b a' b' : ℝ} {B : Nat}
    (hX : Cells P (X 0) a b B) (hY : Cells P (Y 0) a' b' B) :
    ∀ᵐ ω ∂P, ∀ i < B, ∀ j < B, Tendsto (fun n => freq (fun t => binOf B (firstR (fun t => X t ω) n) (X t ω) = i ∧
      binOf B (firstR (fun t => Y t ω) n) (Y t ω) = j) n) atTop (𝓝 (cellProb2 P (X 0) (Y 0) a b a' b' B i j)) := by
  have hx : IID P X := h.comp measurable_fst
  have hy : IID P Y := h.comp measurable_snd
  have h1 : ∀ᵐ ω ∂P, ∀ m, Tendsto (freq fun i => X i ω ∈ nearEdge a b B m ∨ Y i ω ∈ nearEdge a' b' B m) atTop
      (𝓝 (P.real {ω | X 0 ω ∈ nearEdge a b B m ∨ Y 0 ω ∈ nearEdge a' b' B m})) := by
    rw [ae_all_iff]
    exact fun m => freq_limit h (s := {z | z.1 ∈ nearEdge a b B m ∨ z.2 ∈ nearEdge a' b' B m})
      ((measurable_fst (nearEdge_meas a b B m)).union (measurable_snd (nearEdge_meas a' b' B m)))
  have h2 : ∀ᵐ ω ∂P, ∀ i j, Tendsto (freq fun t => X t ω ∈ cell a b B i ∧ Y t ω ∈ cell a' b' B j) atTop
      (𝓝 (cellProb2 P (X 0) (Y 0) a b a' b' B i j)) := by
    rw [ae_all_iff]
    intro i
    rw [ae_all_iff]
    exact fun j => freq_limit h (s := {z | z.1 ∈ cell a b B i ∧ z.2 ∈ cell a' b' B j})
      ((measurable_fst (cell_meas a b B i)).inter (measurable_snd (cell_meas a' b' B j)))
  have hd : Tendsto (fun m => P.real {ω | X 0 ω ∈ nearEdge a b B m ∨ Y 0 ω ∈ nearEdge a' b' B m}) atTop (𝓝 0) := by
    have := (nearEdge_small (hx.ae 0) hX.border).add (nearEdge_small (hy.ae 0) hY.border)
    rw [add_zero] at this
    exact squeeze_zero (fun m => measureReal_nonneg) (fun m => measureReal_union_le _ _) this
  filter_upwards [typical hx hX, typical hy hY, h1, h2] with ω ht ht' a1 a2 i hi j hj
  refine freq_squeeze (A := fun t => X t ω ∈ cell a b B i ∧ Y t ω ∈ cell a' b' B j)
    (D := fun m t => X t ω ∈ nearEdge a b B m ∨ Y t ω ∈ nearEdge a' b' B m) (fun m => ?_) a1 hd (a2 i j)
  filter_upwards [ht.bins hX.lt hX.pos m, ht'.bins hY.lt hY.pos m] with n hn hn' t htn hD
  push Not at hD
  rw [hn t htn hD.1 i hi, hn' t htn hD.2 j hj]

end Verif.Info
