import Verif.Lemmas.InfoLaw
import Verif.Props.InfoKL

/-!
# C96: information measures of long samples
-/

namespace Verif.Info

open MeasureTheory ProbabilityTheory Filter Topology Verif.Stat Verif.Ent

/-! ### Tables of probabilities -/

/-- A table of probabilities with its margins. -/
structure Table (B : Nat) (p q : Nat → ℝ) (r : Nat → Nat → ℝ) : Prop where
  nonneg : ∀ i < B, ∀ j < B, 0 ≤ r i j
  left : ∀ i < B, p i = ∑ j ∈ Finset.range B, r i j
  right : ∀ j < B, q j = ∑ i ∈ Finset.range B, r i j
  one : ∑ i ∈ Finset.range B, p i = 1

variable {B : Nat} {p q : Nat → ℝ} {r : Nat → Nat → ℝ}

theorem Table.swap (h : Table B p q r) : Table B q p fun i j => r j i := by
  refine ⟨fun i hi j hj => h.nonneg j hj i hi, h.right, h.left, ?_⟩
  rw [← h.one, Finset.sum_congr rfl fun j hj => h.right j (Finset.mem_range.mp hj), Finset.sum_comm]
  exact Finset.sum_congr rfl fun i hi => (h.left i (Finset.mem_range.mp hi)).symm

theorem Table.le_left (h : Table B p q r) {i j : Nat} (hi : i < B) (hj : j < B) : r i j ≤ p i := by
  rw [h.left i hi]
  exact Finset.single_le_sum (f := fun j => r i j) (fun k hk => h.nonneg i hi k (Finset.mem_range.mp hk)) (Finset.mem_range.mpr hj)

theorem Table.le_right (h : Table B p q r) {i j : Nat} (hi : i < B) (hj : j < B) : r i j ≤ q j := h.swap.le_left hj hi

theorem Table.left_nonneg (h : Table B p q r) {i : Nat} (hi : i < B) : 0 ≤ p i := by
  rw [h.left i hi]
  exact Finset.sum_nonneg fun k hk => h.nonneg i hi k (Finset.mem_range.mp hk)

/-- The three entropies and the mutual information of a table. -/
theorem Table.info (h : Table B p q r) : tableEntropy B p + tableEntropy B q -
    ∑ i ∈ Finset.range B, ∑ j ∈ Finset.range B, Real.negMulLog (r i j) = tableInfo B p q r := by
  have e1 : tableEntropy B p = ∑ i ∈ Finset.range B, ∑ j ∈ Finset.range B, -(r i j * Real.log (p i)) := by
    unfold tableEntropy
    refine Finset.sum_congr rfl fun i hi => ?_
    rw [Finset.sum_neg_distrib, ← Finset.sum_mul, ← h.left i (Finset.mem_range.mp hi)]
  have e2 : tableEntropy B q = ∑ i ∈ Finset.range B, ∑ j ∈ Finset.range B, -(r i j * Real.log (q j)) := by
    unfold tableEntropy
    rw [Finset.sum_comm]
    refine Finset.sum_congr rfl fun j hj => ?_
    rw [Finset.sum_neg_distrib, ← Finset.sum_mul, ← h.right j (Finset.mem_range.mp hj)]
  rw [e1, e2, ← Finset.sum_add_distrib, ← Finset.sum_sub_distrib]
  unfold tableInfo
  refine Finset.sum_congr rfl fun i hi => ?_
  rw [← Finset.sum_add_distrib, ← Finset.sum_sub_distrib]
  refine Finset.sum_congr rfl fun j hj => ?_
  have hi := Finset.mem_range.mp hi
  have hj := Finset.mem_range.mp hj
  rcases (h.nonneg i hi j hj).eq_or_lt with h0 | h0
  · rw [← h0]
    simp
  · have hp : 0 < p i := lt_of_lt_of_le h0 (h.le_left hi hj)
    have hq : 0 < q j := lt_of_lt_of_le h0 (h.le_right hi hj)
    rw [Real.log_div h0.ne' (mul_pos hp hq).ne', Real.log_mul hp.ne' hq.ne', Real.negMulLog]
    ring

/-- The inequality of Gibbs for tables. -/
theorem Table.gibbs (h : Table B p q r) : 0 ≤ tableInfo B p q r ∧
    (tableInfo B p q r = 0 ↔ ∀ i < B, ∀ j < B, r i j = p i * q j) := by
  have term : ∀ i < B, ∀ j < B, r i j - p i * q j ≤ r i j * Real.log (r i j / (p i * q j)) ∧
      (r i j - p i * q j = r i j * Real.log (r i j / (p i * q j)) → r i j = p i * q j) := by
    intro i hi j hj
    have hp := h.left_nonneg hi
    have hq := h.swap.left_nonneg hj
    rcases (h.nonneg i hi j hj).eq_or_lt with h0 | h0
    · rw [← h0]
      simp only [zero_sub, zero_mul]
      exact ⟨by nlinarith [mul_nonneg hp hq], fun e => by linarith⟩
    · have hpq : 0 < p i * q j := mul_pos (lt_of_lt_of_le h0 (h.le_left hi hj)) (lt_of_lt_of_le h0 (h.le_right hi hj))
      have hx : 0 < p i * q j / r i j := div_pos hpq h0
      have e : Real.log (r i j / (p i * q j)) = -Real.log (p i * q j / r i j) := by rw [← Real.log_inv, inv_div]
      have e2 : r i j * (p i * q j / r i j - 1) = p i * q j - r i j := by field_simp
      rw [e]
      constructor
      · have := mul_le_mul_of_nonneg_left (Real.log_le_sub_one_of_pos hx) h0.le
        linarith
      · intro he
        by_contra hne
        have hx1 : p i * q j / r i j ≠ 1 := by
          intro h1
          rw [div_eq_one_iff_eq h0.ne'] at h1
          exact hne h1.symm
        have := mul_lt_mul_of_pos_left (Real.log_lt_sub_one_of_pos hx hx1) h0
        linarith
  have hz : ∑ i ∈ Finset.range B, ∑ j ∈ Finset.range B, (r i j - p i * q j) = 0 := by
    have a1 : ∑ i ∈ Finset.range B, ∑ j ∈ Finset.range B, r i j = 1 := by
      rw [← h.one]
      exact Finset.sum_congr rfl fun i hi => (h.left i (Finset.mem_range.mp hi)).symm
    have a2 : ∑ i ∈ Finset.range B, ∑ j ∈ Finset.range B, p i * q j = 1 := by
      rw [← Finset.sum_mul_sum, h.one, h.swap.one, one_mul]
    simp only [Finset.sum_sub_distrib]
    rw [a1, a2, sub_self]
  have hle : ∀ i ∈ Finset.range B, ∑ j ∈ Finset.range B, (r i j - p i * q j) ≤
      ∑ j ∈ Finset.range B, r i j * Real.log (r i j / (p i * q j)) := fun i hi =>
    Finset.sum_le_sum fun j hj => (term i (Finset.mem_range.mp hi) j (Finset.mem_range.mp hj)).1
  refine ⟨by rw [← hz]; exact Finset.sum_le_sum hle, fun he => ?_, fun hind => ?_⟩
  · intro i hi j hj
    have h1 := (Finset.sum_eq_sum_iff_of_le hle).mp (by rw [hz]; exact he.symm) i (Finset.mem_range.mpr hi)
    have h2 := (Finset.sum_eq_sum_iff_of_le fun j hj => (term i hi j (Finset.mem_range.mp hj)).1).mp h1 j (Finset.mem_range.mpr hj)
    exact (term i hi j hj).2 h2
  · unfold tableInfo
    refine Finset.sum_eq_zero fun i hi => Finset.sum_eq_zero fun j hj => ?_
    rw [hind i (Finset.mem_range.mp hi) j (Finset.mem_range.mp hj)]
    by_cases h0 : p i * q j = 0
    · rw [h0, zero_mul]
    · rw [div_self h0, Real.log_one, mul_zero]

/-! ### The probabilities of the cells form a table -/

variable {Ω : Type*} [MeasurableSpace Ω] {P : Measure Ω} {X Y : Nat → Ω → ℝ} {a b a' b' : ℝ}

theorem freq_sum {κ : Type} [DecidableEq κ] {A : Nat → Prop} {f : Nat → κ} {s : Finset κ} {n : Nat} (hf : ∀ t < n, f t ∈ s) :
    freq A n = ∑ k ∈ s, freq (fun t => A t ∧ f t = k) n := by
  unfold freq
  rw [← Finset.sum_div, Finset.sum_comm]
  congr 1
  refine Finset.sum_congr rfl fun t ht => ?_
  by_cases hA : A t
  · simp only [hA, true_and, if_true]
    rw [Finset.sum_ite_eq, if_pos (hf t (Finset.mem_range.mp ht))]
  · simp [hA]

theorem cells_table [IsProbabilityMeasure P] (h : IID P fun t ω => (X t ω, Y t ω)) (hX : Cells P (X 0) a b B)
    (hY : Cells P (Y 0) a' b' B) :
    Table B (cellProb P (X 0) a b B) (cellProb P (Y 0) a' b' B) (cellProb2 P (X 0) (Y 0) a b a' b' B) := by
  have hx : IID P X := h.comp measurable_fst
  have hy : IID P Y := h.comp measurable_snd
  obtain ⟨ω, h1, h2, h3⟩ := ((bins_limit hx hX).and ((bins_limit hy hY).and (bins2_limit h hX hY))).exists
  refine ⟨fun i _ j _ => measureReal_nonneg, fun i hi => ?_, fun j hj => ?_, ?_⟩
  · refine tendsto_nhds_unique (h1 i hi) ?_
    have := tendsto_finsetSum (Finset.range B) fun j hj => h3 i hi j (Finset.mem_range.mp hj)
    refine this.congr fun n => ?_
    exact (freq_sum fun t _ => Finset.mem_range.mpr (binOf_lt hX.pos _ _)).symm
  · refine tendsto_nhds_unique (h2 j hj) ?_
    have := tendsto_finsetSum (Finset.range B) fun i hi => h3 i (Finset.mem_range.mp hi) j hj
    refine this.congr fun n => ?_
    rw [freq_sum (A := fun t => binOf B (firstR (fun t => Y t ω) n) (Y t ω) = j)
      (f := fun t => binOf B (firstR (fun t => X t ω) n) (X t ω)) fun t _ => Finset.mem_range.mpr (binOf_lt hX.pos _ _)]
    refine Finset.sum_congr rfl fun i _ => ?_
    congr 1
    funext t
    exact propext and_comm
  · have := tendsto_finsetSum (Finset.range B) fun i hi => h1 i (Finset.mem_range.mp hi)
    refine tendsto_nhds_unique this ?_
    refine tendsto_const_nhds.congr' ?_
    filter_upwards [eventually_gt_atTop 0] with n hn
    have e := freq_sum (A := fun _ => True) (n := n) (f := fun t => binOf B (firstR (fun t => X t ω) n) (X t ω))
      fun t _ => Finset.mem_range.mpr (binOf_lt hX.pos _ _)
    simp only [true_and] at e
    rw [← e]
    have hn' : (n : ℝ) ≠ 0 := by exact_mod_cast hn.ne'
    simp [freq, hn']

/-! ### The entropies -/

theorem H_limit [IsProbabilityMeasure P] (h : IID P X) (hX : Cells P (X 0) a b B) :
    ∀ᵐ ω ∂P, Tendsto (fun n => H (lab B fun i : Fin n => X i ω)) atTop (𝓝 (tableEntropy B (cellProb P (X 0) a b B))) := by
  filter_upwards [bins_limit h hX] with ω hω
  have e : ∀ n, H (lab B fun i : Fin n => X i ω) =
      ∑ k ∈ Finset.range B, Real.negMulLog (freq (fun i => binOf B (firstR (fun t => X t ω) n) (X i ω) = k) n) := by
    intro n
    rw [H_sum (lab B fun i : Fin n => X i ω) (s := Finset.range B) fun i => Finset.mem_range.mpr (binOf_lt hX.pos _ _)]
    refine Finset.sum_congr rfl fun k _ => ?_
    rw [← cnt_freq]
    rfl
  have hl : tableEntropy B (cellProb P (X 0) a b B) = ∑ k ∈ Finset.range B, Real.negMulLog (cellProb P (X 0) a b B k) := by
    unfold tableEntropy
    refine Finset.sum_congr rfl fun k _ => ?_
    rw [Real.negMulLog]
    ring
  rw [hl]
  refine (tendsto_finsetSum (Finset.range B) fun k hk =>
    (Real.continuous_negMulLog.tendsto _).comp (hω k (Finset.mem_range.mp hk))).congr fun n => ?_
  rw [e]
  rfl

theorem H2_limit [IsProbabilityMeasure P] (h : IID P fun t ω => (X t ω, Y t ω)) (hX : Cells P (X 0) a b B)
    (hY : Cells P (Y 0) a' b' B) :
    ∀ᵐ ω ∂P, Tendsto (fun n => H fun i => (lab B (fun i : Fin n => X i ω) i, lab B (fun i : Fin n => Y i ω) i)) atTop
      (𝓝 (∑ i ∈ Finset.range B, ∑ j ∈ Finset.range B, Real.negMulLog (cellProb2 P (X 0) (Y 0) a b a' b' B i j))) := by
  filter_upwards [bins2_limit h hX hY] with ω hω
  have e : ∀ n, (H fun i => (lab B (fun i : Fin n => X i ω) i, lab B (fun i : Fin n => Y i ω) i)) =
      ∑ i ∈ Finset.range B, ∑ j ∈ Finset.range B,
        Real.negMulLog (freq (fun t => binOf B (firstR (fun t => X t ω) n) (X t ω) = i ∧
          binOf B (firstR (fun t => Y t ω) n) (Y t ω) = j) n) := by
    intro n
    rw [H_sum _ (s := Finset.range B ×ˢ Finset.range B) fun i => Finset.mem_product.mpr
      ⟨Finset.mem_range.mpr (binOf_lt hX.pos _ _), Finset.mem_range.mpr (binOf_lt hY.pos _ _)⟩, Finset.sum_product]
    refine Finset.sum_congr rfl fun i _ => Finset.sum_congr rfl fun j _ => ?_
    congr 1
    have := cnt_freq n (fun t => (binOf B (firstR (fun t => X t ω) n) (X t ω), binOf B (firstR (fun t => Y t ω) n) (Y t ω))) (i, j)
    simp only [Prod.mk.injEq] at this
    exact this
  refine (tendsto_finsetSum (Finset.range B) fun i hi => tendsto_finsetSum (Finset.range B) fun j hj =>
    (Real.continuous_negMulLog.tendsto _).comp (hω i (Finset.mem_range.mp hi) j (Finset.mem_range.mp hj))).congr fun n => ?_
  rw [e]
  rfl

/-! ### Both ends have positive probability -/

theorem first_cell [IsProbabilityMeasure P] {V : Ω → ℝ} (hV : Cells P V a b B) : 0 < cellProb P V a b B 0 := by
  have hB : (0 : ℝ) < B := by exact_mod_cast hV.pos
  have hw : 0 < (b - a) / B := div_pos (sub_pos.mpr hV.lt) hB
  unfold cellProb
  rw [measureReal_def, ENNReal.toReal_pos_iff]
  refine ⟨pos_iff_ne_zero.mpr fun h0 => hV.left _ hw ?_, measure_lt_top _ _⟩
  refine le_antisymm ?_ zero_le
  calc P {ω | V ω < a + (b - a) / B} ≤ P ({ω | V ω ∈ cell a b B 0} ∪ {ω | V ω ∉ Set.Icc a b}) := by
        refine measure_mono fun ω hω => ?_
        by_cases hm : V ω ∈ Set.Icc a b
        · left
          refine ⟨by simpa [edge] using hm.1, Or.inl ?_⟩
          simpa [edge] using hω
        · exact Or.inr hm
    _ ≤ 0 + 0 := (measure_union_le _ _).trans (add_le_add h0.le (le_of_eq hV.mem))
    _ = 0 := add_zero 0

theorem last_cell [IsProbabilityMeasure P] {V : Ω → ℝ} (hV : Cells P V a b B) : 0 < cellProb P V a b B (B - 1) := by
  have hB : (0 : ℝ) < B := by exact_mod_cast hV.pos
  have hw : 0 < (b - a) / B := div_pos (sub_pos.mpr hV.lt) hB
  have hpos := hV.pos
  unfold cellProb
  rw [measureReal_def, ENNReal.toReal_pos_iff]
  refine ⟨pos_iff_ne_zero.mpr fun h0 => hV.right _ hw ?_, measure_lt_top _ _⟩
  refine le_antisymm ?_ zero_le
  rw [← h0]
  refine measure_mono fun ω hω => ⟨?_, Or.inr (by omega)⟩
  have hω' : b - (b - a) / B < V ω := hω
  have e : edge a b B (B - 1) = b - (b - a) / B := by
    unfold edge
    rw [Nat.cast_sub (by omega)]
    push_cast
    field_simp
    ring
  rw [e]
  exact hω'.le

theorem entropy_pos (h : Table B p q r) (hB : 2 ≤ B) (h0 : 0 < p 0) (h1 : 0 < p (B - 1)) : 0 < tableEntropy B p := by
  have hle : ∀ i < B, p i ≤ 1 := fun i hi => by
    rw [← h.one]
    exact Finset.single_le_sum (f := p) (fun k hk => h.left_nonneg (Finset.mem_range.mp hk)) (Finset.mem_range.mpr hi)
  have hlt : p 0 < 1 := by
    have : p 0 + p (B - 1) ≤ ∑ i ∈ Finset.range B, p i := by
      rw [← Finset.sum_pair (show (0 : Nat) ≠ B - 1 by omega)]
      refine Finset.sum_le_sum_of_subset_of_nonneg (fun i hi => ?_) fun i hi _ => h.left_nonneg (Finset.mem_range.mp hi)
      rw [Finset.mem_insert, Finset.mem_singleton] at hi
      rw [Finset.mem_range]
      omega
    rw [h.one] at this
    linarith
  have hterm : ∀ i ∈ Finset.range B, 0 ≤ -(p i * Real.log (p i)) := by
    intro i hi
    have hi := Finset.mem_range.mp hi
    have := Real.log_nonpos (h.left_nonneg hi) (hle i hi)
    nlinarith [h.left_nonneg hi]
  unfold tableEntropy
  refine lt_of_lt_of_le ?_ (Finset.single_le_sum hterm (Finset.mem_range.mpr (show 0 < B by omega)))
  have := Real.log_neg h0 hlt
  nlinarith

/-! ### Consistency -/

/-- What the two functions return for the first `n` pairs, in terms of the entropies. -/
theorem first_eq (x y : Nat → ℝ) {n : Nat} (hn : 2 ≤ n) (hB : 0 < B) (norm : Bool) :
    mutualInfo (some B) norm (first x n) (first y n) =
      (let mi := H (lab B fun i : Fin n => x i) + H (lab B fun i : Fin n => y i) -
        H fun i => (lab B (fun i : Fin n => x i) i, lab B (fun i : Fin n => y i) i)
      if norm then .ok (divX mi (Real.sqrt (H (lab B fun i : Fin n => x i) * H (lab B fun i : Fin n => y i)))) else .ok (.fin mi)) ∧
    varInfo (some B) norm (first x n) (first y n) =
      (let vi := 2 * (H fun i => (lab B (fun i : Fin n => x i) i, lab B (fun i : Fin n => y i) i)) - H (lab B fun i : Fin n => x i) -
        H (lab B fun i : Fin n => y i)
      if norm then .ok (divX vi (H fun i => (lab B (fun i : Fin n => x i) i, lab B (fun i : Fin n => y i) i))) else .ok (.fin vi)) := by
  rw [first_sample, first_sample]
  have := info_eq hn (bins := (B : Int)) (by exact_mod_cast hB) norm (fun i : Fin n => x i) fun i : Fin n => y i
  simpa using this

/-- C96. Mutual information is a consistent estimate: with a fixed number of bins and independent pairs with bounded values,
the result tends to the mutual information of the two variables when they are rounded to the cells. -/
theorem mi_consistent [IsProbabilityMeasure P] (h : IID P fun t ω => (X t ω, Y t ω)) (hX : Cells P (X 0) a b B)
    (hY : Cells P (Y 0) a' b' B) :
    ∀ᵐ ω ∂P, ∃ v : Nat → ℝ,
      (∀ n, 2 ≤ n → mutualInfo (some B) false (first (fun t => X t ω) n) (first (fun t => Y t ω) n) = .ok (.fin (v n))) ∧
      Tendsto v atTop (𝓝 (tableInfo B (cellProb P (X 0) a b B) (cellProb P (Y 0) a' b' B)
        (cellProb2 P (X 0) (Y 0) a b a' b' B))) := by
  filter_upwards [H_limit (h.comp measurable_fst) hX, H_limit (h.comp measurable_snd) hY, H2_limit h hX hY] with ω h1 h2 h3
  refine ⟨_, fun n hn => (first_eq _ _ hn hX.pos false).1, ?_⟩
  rw [← (cells_table h hX hY).info]
  exact (h1.add h2).sub h3

/-- C96. The same for the normalised form, with at least two bins. -/
theorem mi_norm_consistent [IsProbabilityMeasure P] (h : IID P fun t ω => (X t ω, Y t ω)) (hB : 2 ≤ B)
    (hX : Cells P (X 0) a b B) (hY : Cells P (Y 0) a' b' B) :
    ∀ᵐ ω ∂P, ∃ v : Nat → ℝ,
      (∀ᶠ n in atTop, mutualInfo (some B) true (first (fun t => X t ω) n) (first (fun t => Y t ω) n) = .ok (.fin (v n))) ∧
      Tendsto v atTop (𝓝 (tableInfo B (cellProb P (X 0) a b B) (cellProb P (Y 0) a' b' B)
        (cellProb2 P (X 0) (Y 0) a b a' b' B) /
        Real.sqrt (tableEntropy B (cellProb P (X 0) a b B) * tableEntropy B (cellProb P (Y 0) a' b' B)))) := by
  have ht := cells_table h hX hY
  have p1 := entropy_pos ht hB (first_cell hX) (last_cell hX)
  have p2 := entropy_pos ht.swap hB (first_cell hY) (last_cell hY)
  filter_upwards [H_limit (h.comp measurable_fst) hX, H_limit (h.comp measurable_snd) hY, H2_limit h hX hY] with ω h1 h2 h3
  have hs : Tendsto (fun n => Real.sqrt (H (lab B fun i : Fin n => X i ω) * H (lab B fun i : Fin n => Y i ω))) atTop
      (𝓝 (Real.sqrt (tableEntropy B (cellProb P (X 0) a b B) * tableEntropy B (cellProb P (Y 0) a' b' B)))) :=
    (Real.continuous_sqrt.tendsto _).comp (h1.mul h2)
  have hs0 : 0 < Real.sqrt (tableEntropy B (cellProb P (X 0) a b B) * tableEntropy B (cellProb P (Y 0) a' b' B)) :=
    Real.sqrt_pos.mpr (mul_pos p1 p2)
  have hv := ((h1.add h2).sub h3).div hs hs0.ne'
  rw [ht.info] at hv
  refine ⟨_, ?_, hv⟩
  · filter_upwards [hs.eventually_ne hs0.ne', eventually_ge_atTop 2] with n hn hn2
    rw [(first_eq _ _ hn2 hX.pos true).1]
    dsimp only
    rw [if_pos rfl, divX, if_neg hn]
    rfl

/-- C96. Variation of information is consistent as well. -/
theorem vi_consistent [IsProbabilityMeasure P] (h : IID P fun t ω => (X t ω, Y t ω)) (hX : Cells P (X 0) a b B)
    (hY : Cells P (Y 0) a' b' B) :
    ∀ᵐ ω ∂P, ∃ v : Nat → ℝ,
      (∀ n, 2 ≤ n → varInfo (some B) false (first (fun t => X t ω) n) (first (fun t => Y t ω) n) = .ok (.fin (v n))) ∧
      Tendsto v atTop (𝓝 (tableEntropy B (cellProb P (X 0) a b B) + tableEntropy B (cellProb P (Y 0) a' b' B) -
        2 * tableInfo B (cellProb P (X 0) a b B) (cellProb P (Y 0) a' b' B) (cellProb2 P (X 0) (Y 0) a b a' b' B))) := by
  filter_upwards [H_limit (h.comp measurable_fst) hX, H_limit (h.comp measurable_snd) hY, H2_limit h hX hY] with ω h1 h2 h3
  refine ⟨_, fun n hn => (first_eq _ _ hn hX.pos false).2, ?_⟩
  rw [← (cells_table h hX hY).info]
  have hv := ((h3.const_mul 2).sub h1).sub h2
  convert hv using 2
  ring

/-- C96. The same for the normalised form, with at least two bins. -/
theorem vi_norm_consistent [IsProbabilityMeasure P] (h : IID P fun t ω => (X t ω, Y t ω)) (hB : 2 ≤ B)
    (hX : Cells P (X 0) a b B) (hY : Cells P (Y 0) a' b' B) :
    let I := tableInfo B (cellProb P (X 0) a b B) (cellProb P (Y 0) a' b' B) (cellProb2 P (X 0) (Y 0) a b a' b' B)
    let S := tableEntropy B (cellProb P (X 0) a b B) + tableEntropy B (cellProb P (Y 0) a' b' B)
    0 < S - I ∧ ∀ᵐ ω ∂P, ∃ v : Nat → ℝ,
      (∀ᶠ n in atTop, varInfo (some B) true (first (fun t => X t ω) n) (first (fun t => Y t ω) n) = .ok (.fin (v n))) ∧
      Tendsto v atTop (𝓝 ((S - 2 * I) / (S - I))) := by
  intro I S
  have ht := cells_table h hX hY
  have hI := ht.info
  have p1 := entropy_pos ht hB (first_cell hX) (last_cell hX)
  have key : 0 < S - I := by
    obtain ⟨ω, h1, h3⟩ := ((H_limit (h.comp measurable_fst) hX).and (H2_limit h hX hY)).exists
    have := le_of_tendsto_of_tendsto' h1 h3 fun n => H_le_pair_left _ _
    show 0 < S - I
    have e : S - I = ∑ i ∈ Finset.range B, ∑ j ∈ Finset.range B, Real.negMulLog (cellProb2 P (X 0) (Y 0) a b a' b' B i j) := by
      show S - tableInfo _ _ _ _ = _
      rw [← hI]
      ring
    rw [e]
    exact lt_of_lt_of_le p1 this
  refine ⟨key, ?_⟩
  filter_upwards [H_limit (h.comp measurable_fst) hX, H_limit (h.comp measurable_snd) hY, H2_limit h hX hY] with ω h1 h2 h3
  have e : S - I = ∑ i ∈ Finset.range B, ∑ j ∈ Finset.range B, Real.negMulLog (cellProb2 P (X 0) (Y 0) a b a' b' B i j) := by
    show S - tableInfo _ _ _ _ = _
    rw [← hI]
    ring
  rw [← e] at h3
  have hv := (((h3.const_mul 2).sub h1).sub h2).div h3 key.ne'
  have e2 : 2 * (S - I) - tableEntropy B (cellProb P (fun ω => X 0 ω) a b B) - tableEntropy B (cellProb P (fun ω => Y 0 ω) a' b' B) =
      S - 2 * I := by
    show 2 * ((tableEntropy B (cellProb P (X 0) a b B) + tableEntropy B (cellProb P (Y 0) a' b' B)) - I) -
        tableEntropy B (cellProb P (X 0) a b B) - tableEntropy B (cellProb P (Y 0) a' b' B) =
      (tableEntropy B (cellProb P (X 0) a b B) + tableEntropy B (cellProb P (Y 0) a' b' B)) - 2 * I
    ring
  rw [e2] at hv
  refine ⟨_, ?_, hv⟩
  · filter_upwards [h3.eventually_ne key.ne', eventually_ge_atTop 2] with n hn hn2
    rw [(first_eq _ _ hn2 hX.pos true).2]
    dsimp only
    rw [if_pos rfl, divX, if_neg hn]
    rfl

/-! ### Independence -/

/-- C96. The limit is zero exactly when the cells of the two variables are independent. -/
theorem mi_limit_zero_iff [IsProbabilityMeasure P] (h : IID P fun t ω => (X t ω, Y t ω)) (hX : Cells P (X 0) a b B)
    (hY : Cells P (Y 0) a' b' B) :
    (∀ᵐ ω ∂P, ∃ v : Nat → ℝ,
      (∀ n, 2 ≤ n → mutualInfo (some B) false (first (fun t => X t ω) n) (first (fun t => Y t ω) n) = .ok (.fin (v n))) ∧
      Tendsto v atTop (𝓝 0)) ↔
    ∀ i < B, ∀ j < B, P.real {ω | X 0 ω ∈ cell a b B i ∧ Y 0 ω ∈ cell a' b' B j} =
      P.real {ω | X 0 ω ∈ cell a b B i} * P.real {ω | Y 0 ω ∈ cell a' b' B j} := by
  have key := (cells_table h hX hY).gibbs.2
  have hc := mi_consistent h hX hY
  unfold cellProb cellProb2 at key
  rw [← key]
  constructor
  · intro h0
    obtain ⟨ω, ⟨v, hv1, hv2⟩, ⟨u, hu1, hu2⟩⟩ := (h0.and hc).exists
    refine tendsto_nhds_unique hu2 (hv2.congr' ?_)
    filter_upwards [eventually_ge_atTop 2] with n hn
    have := (hv1 n hn).symm.trans (hu1 n hn)
    simpa using this
  · intro h0
    filter_upwards [hc] with ω hω
    obtain ⟨v, hv1, hv2⟩ := hω
    refine ⟨v, hv1, ?_⟩
    unfold cellProb cellProb2 at hv2
    rwa [h0] at hv2

theorem indep_cells (h : IndepFun (X 0) (Y 0) P) (i j : Nat) : cellProb2 P (X 0) (Y 0) a b a' b' B i j =
    cellProb P (X 0) a b B i * cellProb P (Y 0) a' b' B j := by
  unfold cellProb2 cellProb
  rw [measureReal_def, measureReal_def, measureReal_def, ← ENNReal.toReal_mul]
  congr 1
  exact h.measure_inter_preimage_eq_mul _ _ (cell_meas a b B i) (cell_meas a' b' B j)

/-- C96. For independent variables mutual information tends to zero and normalised variation of information to one. -/
theorem info_independent [IsProbabilityMeasure P] (h : IID P fun t ω => (X t ω, Y t ω)) (hB : 2 ≤ B)
    (hX : Cells P (X 0) a b B) (hY : Cells P (Y 0) a' b' B) (hi : IndepFun (X 0) (Y 0) P) :
    ∀ᵐ ω ∂P, (∀ norm, ∃ v : Nat → ℝ,
      (∀ᶠ n in atTop, mutualInfo (some B) norm (first (fun t => X t ω) n) (first (fun t => Y t ω) n) = .ok (.fin (v n))) ∧
      Tendsto v atTop (𝓝 0)) ∧ ∃ v : Nat → ℝ,
      (∀ᶠ n in atTop, varInfo (some B) true (first (fun t => X t ω) n) (first (fun t => Y t ω) n) = .ok (.fin (v n))) ∧
      Tendsto v atTop (𝓝 1) := by
  have hz : tableInfo B (cellProb P (X 0) a b B) (cellProb P (Y 0) a' b' B) (cellProb2 P (X 0) (Y 0) a b a' b' B) = 0 :=
    (cells_table h hX hY).gibbs.2.mpr fun i _ j _ => indep_cells hi i j
  obtain ⟨hS, hvi⟩ := vi_norm_consistent h hB hX hY
  filter_upwards [mi_consistent h hX hY, mi_norm_consistent h hB hX hY, hvi] with ω h1 h2 h3
  refine ⟨fun norm => ?_, ?_⟩
  · cases norm
    · obtain ⟨v, q1, q2⟩ := h1
      rw [hz] at q2
      refine ⟨v, ?_, q2⟩
      filter_upwards [eventually_ge_atTop 2] with n hn
      exact q1 n hn
    · obtain ⟨v, q1, q2⟩ := h2
      rw [hz, zero_div] at q2
      exact ⟨v, q1, q2⟩
  · obtain ⟨v, q1, q2⟩ := h3
    refine ⟨v, q1, ?_⟩
    rw [hz] at q2 hS
    simp only [mul_zero, sub_zero] at q2 hS
    rwa [div_self hS.ne'] at q2

/-! ### The divergence -/

theorem share_freq (x : Nat → ℝ) (n k : Nat) : share B (firstR x n) k = freq (fun i => binOf B (firstR x n) (x i) = k) n := by
  have e : (firstR x n).map (binOf B (firstR x n)) = List.ofFn fun i : Fin n => binOf B (firstR x n) (x i) := by
    conv_lhs => rw [show firstR x n = List.ofFn fun i : Fin n => x i from rfl]
    rw [List.map_ofFn]
    rfl
  unfold share
  rw [e, count_ofFn, ← cnt_freq]
  simp [firstR]

theorem klTerm_limit {ι : Type*} {l : Filter ι} {f g : ι → ℝ} {c d : ℝ} (hf : Tendsto f l (𝓝 c)) (hg : Tendsto g l (𝓝 d))
    (hd : d ≠ 0) : Tendsto (fun t => klTerm (f t) (g t)) l (𝓝 (c * Real.log (c / d))) := by
  have e : ∀ x y : ℝ, y ≠ 0 → klTerm x y = -Real.negMulLog x - x * Real.log y := by
    intro x y hy
    unfold klTerm
    by_cases hx : x = 0
    · simp [hx]
    · rw [if_pos ⟨hx, hy⟩, Real.log_div hx hy, Real.negMulLog]
      ring
  have e' : c * Real.log (c / d) = -Real.negMulLog c - c * Real.log d := by
    by_cases hc : c = 0
    · simp [hc]
    · rw [Real.log_div hc hd, Real.negMulLog]
      ring
  rw [e']
  refine (((Real.continuous_negMulLog.tendsto c).comp hf).neg.sub (hf.mul ((Real.continuousAt_log hd).tendsto.comp hg))).congr' ?_
  filter_upwards [hg.eventually_ne hd] with t ht
  rw [e _ _ ht]
  rfl

/-- C96. The divergence of two long samples of any lengths tends to the divergence of the probabilities of the cells, where
each variable is cut into the cells of its own range. -/
theorem kl_consistent [IsProbabilityMeasure P] (h : IID P X) (h' : IID P Y) (hX : Cells P (X 0) a b B) (hY : Cells P (Y 0) a' b' B)
    (hpos : ∀ k < B, cellProb P (Y 0) a' b' B k ≠ 0) :
    ∀ᵐ ω ∂P, ∃ v : Nat → Nat → ℝ,
      (∀ n m, 2 ≤ n → 2 ≤ m → klDivergence (some B) (first (fun t => X t ω) n) (first (fun t => Y t ω) m) = .ok (v n m)) ∧
      Tendsto (fun s : Nat × Nat => v s.1 s.2) (atTop ×ˢ atTop)
        (𝓝 (tableDiv B (cellProb P (X 0) a b B) (cellProb P (Y 0) a' b' B))) := by
  filter_upwards [bins_limit h hX, bins_limit h' hY] with ω h1 h2
  refine ⟨fun n m => ∑ k ∈ Finset.range B, klTerm (share B (firstR (fun t => X t ω) n) k) (share B (firstR (fun t => Y t ω) m) k),
    fun n m hn hm => ?_, ?_⟩
  · rw [first_sample, first_sample]
    have := kl_eq (finiteList_sample fun i : Fin n => X i ω) (finiteList_sample fun i : Fin m => Y i ω)
      (by rw [sample_length]; exact hn) (by rw [sample_length]; exact hm) (b := (B : Int)) (by exact_mod_cast hX.pos)
    rw [Int.toNat_natCast] at this
    exact this
  · refine tendsto_finsetSum _ fun k hk => ?_
    have hk := Finset.mem_range.mp hk
    refine klTerm_limit ?_ ?_ (hpos k hk)
    · simp only [share_freq]
      exact (h1 k hk).comp tendsto_fst
    · simp only [share_freq]
      exact (h2 k hk).comp tendsto_snd

end Verif.Info
