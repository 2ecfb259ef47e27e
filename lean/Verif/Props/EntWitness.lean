import Verif.Props.EntNumpy
import Mathlib.Analysis.SpecialFunctions.Log.Deriv

/-!
# C113: measures that leave their range in 64-bit numbers
-/

namespace Verif.Info

open Verif.Round Finset

/-! ### Whole numbers in their own bins -/

variable {fl : ℝ → ℝ}

/-- The values `0, …, m` in `m + 1` bins: every value has its own bin. -/
theorem int_labels (R : Rounding fl) {n m : Nat} (hm : 1 ≤ m) (hm' : m ≤ 1000) (v : Fin n → Nat) (hv : ∀ i, v i ≤ m) (h0 : ∃ i, v i = 0)
    (h1 : ∃ i, v i = m) :
    Fit fl (m + 1) (List.ofFn fun i => (v i : ℝ)) ∧ ∀ i, labR fl (m + 1) (fun i => (v i : ℝ)) i = v i := by
  have hm0 : (1 : ℝ) ≤ m := by exact_mod_cast hm
  have hm1 : (m : ℝ) ≤ 1000 := by exact_mod_cast hm'
  obtain ⟨i0, h0⟩ := h0
  obtain ⟨i1, h1⟩ := h1
  have mem : ∀ i, (v i : ℝ) ∈ List.ofFn fun i => (v i : ℝ) := fun i => (List.mem_ofFn' _ _).mpr ⟨i, rfl⟩
  have hne : (List.ofFn fun i => (v i : ℝ)) ≠ [] := List.ne_nil_of_mem (mem i0)
  obtain ⟨l1, l2⟩ := lo_spec hne
  obtain ⟨g1, g2⟩ := hi_spec hne
  have elo : lo (List.ofFn fun i => (v i : ℝ)) = 0 := by
    refine le_antisymm ?_ ?_
    · have := l2 _ (mem i0)
      rwa [h0, Nat.cast_zero] at this
    · obtain ⟨i, hi⟩ := (List.mem_ofFn' _ _).mp l1
      rw [← hi]
      exact Nat.cast_nonneg _
  have ehi : hi (List.ofFn fun i => (v i : ℝ)) = m := by
    refine le_antisymm ?_ ?_
    · obtain ⟨i, hi⟩ := (List.mem_ofFn' _ _).mp g1
      rw [← hi]
      have := hv i
      show (v i : ℝ) ≤ m
      exact_mod_cast this
    · have := g2 _ (mem i1)
      rwa [h1] at this
  have eo : outerR fl (List.ofFn fun i => (v i : ℝ)) = (0, (m : ℝ)) := by
    unfold outerR
    rw [elo, ehi, if_neg (by linarith)]
  have hu : u64 ≤ 1 / 10 ^ 12 := by unfold u64; norm_num
  have hu0 := u64_pos
  have hwide : Wide 0 (m : ℝ) (m + 1) := by
    refine ⟨by omega, by linarith, ?_⟩
    rw [abs_zero, zero_add, abs_of_nonneg (by linarith), sub_zero]
    push_cast
    have : 32 * ((m : ℝ) + 1) * u64 ≤ 1 := by nlinarith
    nlinarith
  have hfit : Fit fl (m + 1) (List.ofFn fun i => (v i : ℝ)) := by
    refine ⟨hne, ?_, by rw [eo]; exact hwide⟩
    intro x hx
    obtain ⟨i, rfl⟩ := (List.mem_ofFn' _ _).mp hx
    have h := hv i
    have := R.int (v i : ℤ) (by
      rw [Nat.abs_cast]
      have : (v i : ℤ) ≤ 1000 := by omega
      exact this.trans (by norm_num))
    exact_mod_cast this
  refine ⟨hfit, fun i => ?_⟩
  have key := labR_spec R hfit i (v i)
  dsimp only at key
  rw [eo] at key
  rw [key]
  dsimp only
  have err := fun (k : Nat) (hk : k ≤ m + 1) => edge_err R hwide hk
  simp only [zero_add, sub_zero, abs_zero, abs_of_nonneg (show (0 : ℝ) ≤ m by linarith)] at err
  have small : 8 * u64 * (m : ℝ) * (m + 1) < 1 / 2 := by
    have h2 : (m : ℝ) * (m + 1) ≤ 1000 * 1001 := mul_le_mul hm1 (by linarith) (by linarith) (by norm_num)
    have h3 : u64 * ((m : ℝ) * (m + 1)) ≤ 1 / 10 ^ 12 * (1000 * 1001) := mul_le_mul hu h2 (by positivity) (by norm_num)
    norm_num at h3
    linarith
  have hp : (0 : ℝ) < (m : ℝ) + 1 := by linarith
  refine ⟨by have := hv i; omega, ?_, ?_⟩
  · rcases Nat.eq_zero_or_pos (v i) with e | e
    · rw [e, edge_zero R (by omega) R.zero, Nat.cast_zero]
    · have h1 := (abs_le.mp (err (v i) (by have := hv i; omega))).2
      have hpos : (1 : ℝ) ≤ v i := by exact_mod_cast e
      have e2 : (v i : ℝ) * ((m : ℝ) / ((m + 1 : ℕ) : ℝ)) = v i - v i / (m + 1) := by push_cast; field_simp; ring
      rw [e2] at h1
      have h3 : 1 / ((m : ℝ) + 1) ≤ v i / (m + 1) := div_le_div_of_nonneg_right hpos hp.le
      have h4 : 8 * u64 * (m : ℝ) ≤ 1 / ((m : ℝ) + 1) := by rw [le_div_iff₀ hp]; linarith
      linarith
  · by_cases e : v i = m
    · right; omega
    · left
      have h1 := (abs_le.mp (err (v i + 1) (by have := hv i; omega))).1
      have hlt : (v i : ℝ) + 1 ≤ m := by
        have := hv i
        exact_mod_cast (show v i + 1 ≤ m by omega)
      have e2 : ((v i + 1 : ℕ) : ℝ) * ((m : ℝ) / ((m + 1 : ℕ) : ℝ)) = v i + (m - v i) / (m + 1) := by push_cast; field_simp; ring
      rw [e2] at h1
      have h3 : 1 / ((m : ℝ) + 1) ≤ (m - v i) / (m + 1) := div_le_div_of_nonneg_right (by linarith) hp.le
      have h4 : 8 * u64 * (m : ℝ) < 1 / ((m : ℝ) + 1) := by rw [lt_div_iff₀ hp]; linarith
      linarith

theorem histR_labels (R : Rounding fl) {n b : Nat} {u : Fin n → ℝ} (h : Fit fl b (List.ofFn u)) {v : Fin n → Nat} (hv : ∀ i, labR fl b u i = v i) :
    histR fl b (List.ofFn u) = (List.range b).map fun k => (List.ofFn v).count k := by
  have e : (List.ofFn u).map (binR1 fl (outerR fl (List.ofFn u)).1 (outerR fl (List.ofFn u)).2 b) = List.ofFn v := by
    rw [List.map_ofFn]
    congr 1
    funext i
    have hm := h.mem R ((List.mem_ofFn' _ _).mpr ⟨i, rfl⟩)
    rw [← hv]
    exact bin1_eq_bin2 R h.wide (h.left R) hm.1 hm.2
  unfold histR
  rw [e]

theorem hist2R_labels {n b : Nat} {u w : Fin n → ℝ} {v z : Fin n → Nat} (hv : ∀ i, labR fl b u i = v i) (hz : ∀ i, labR fl b w i = z i) :
    hist2R fl b (List.ofFn u) (List.ofFn w) = (List.range b).flatMap fun i => (List.range b).map fun j =>
      ((List.ofFn v).zip (List.ofFn z)).count (i, j) := by
  have e1 : ∀ {u : Fin n → ℝ} {v : Fin n → Nat}, (∀ i, labR fl b u i = v i) →
      (List.ofFn u).map (binR2 fl (outerR fl (List.ofFn u)).1 (outerR fl (List.ofFn u)).2 b) = List.ofFn v := by
    intro u v h
    rw [List.map_ofFn, ← funext h]
    rfl
  unfold hist2R
  rw [e1 hv, e1 hz]

/-! ### Logarithms of powers of two -/

theorem log_two_near : |Real.log 2 - 6243314768165359.2088811673 / 2 ^ 53| ≤ 1 / 2 ^ 59 := by
  have h := Real.abs_log_sub_add_sum_range_le (show |(2⁻¹ : ℝ)| < 1 by rw [abs_of_pos] <;> norm_num) 60
  have e : (1 : ℝ) - 2⁻¹ = 2⁻¹ := by norm_num
  rw [e, Real.log_inv, abs_of_pos (by norm_num : (0 : ℝ) < 2⁻¹), e] at h
  have hs : |(∑ i ∈ range 60, (2⁻¹ : ℝ) ^ (i + 1) / (i + 1)) - 6243314768165359.2088811673 / 2 ^ 53| ≤ 1 / 2 ^ 60 := by
    norm_num [sum_range_succ, abs_le]
  rw [abs_le] at h hs ⊢
  norm_num at h hs ⊢
  constructor <;> linarith

theorem fl_log2 : b64 (Real.log 2) = (6243314768165359 : ℤ) * 2 ^ (-53 : ℤ) := by
  have h := abs_le.mp log_two_near
  norm_num at h
  refine b64_eq ?_ ?_ ?_
  · norm_num; linarith
  · norm_num; linarith
  · rw [abs_lt]; norm_num; constructor <;> linarith

theorem fl_log8 : b64 (3 * Real.log 2) = (4682486076124019 : ℤ) * 2 ^ (-51 : ℤ) := by
  have h := abs_le.mp log_two_near
  norm_num at h
  refine b64_eq ?_ ?_ ?_
  · norm_num; linarith
  · norm_num; linarith
  · rw [abs_lt]; norm_num; constructor <;> linarith

theorem fl_log32 : b64 (5 * Real.log 2) = (7804143460206699 : ℤ) * 2 ^ (-51 : ℤ) := by
  have h := abs_le.mp log_two_near
  norm_num at h
  refine b64_eq ?_ ?_ ?_
  · norm_num; linarith
  · norm_num; linarith
  · rw [abs_lt]; norm_num; constructor <;> linarith

/-- A tie with an even significand goes down. -/
theorem b64_tie_even {k e : ℤ} (h1 : 2 ^ 52 ≤ k) (h2 : k < 2 ^ 53) (hk : Even k) : b64 ((k + 1 / 2) * 2 ^ e) = (k : ℝ) * 2 ^ e := by
  have hp : (0 : ℝ) < 2 ^ e := by positivity
  have h1' : (2 : ℝ) ^ 52 ≤ k := by exact_mod_cast h1
  have h2' : (k : ℝ) + 1 ≤ 2 ^ 53 := by exact_mod_cast h2
  have hx : 0 < ((k : ℝ) + 1 / 2) * 2 ^ e := mul_pos (by linarith [pow_pos (two_pos (α := ℝ)) 52]) hp
  have hE : ulpExp (((k : ℝ) + 1 / 2) * 2 ^ e) = e := by
    apply ulp_unique <;> rw [abs_of_pos hx]
    · exact mul_le_mul_of_nonneg_right (by linarith) hp.le
    · exact mul_lt_mul_of_pos_right (by linarith) hp
  have hfl : ⌊(k : ℝ) + 1 / 2⌋ = k := by rw [Int.floor_eq_iff]; constructor <;> linarith
  have hfr : Int.fract ((k : ℝ) + 1 / 2) = 1 / 2 := by rw [Int.fract, hfl]; ring
  unfold b64
  rw [hE, mul_div_assoc, div_self hp.ne', mul_one]
  unfold rne
  rw [hfl, hfr, if_neg (lt_irrefl _), if_neg (lt_irrefl _), if_pos hk]

/-- The correctly rounded logarithm. -/
noncomputable def ln64 (x : ℝ) : ℝ := b64 (Real.log x)

theorem ln64_acc : LogAcc 1 ln64 := logAcc_round b64_rounding

theorem b64_int (m e : ℤ) (h : |m| ≤ 2 ^ 53) : b64 ((m : ℝ) * 2 ^ e) = m * 2 ^ e := b64_exact h e

/-- The term of a probability `1 / 2 ^ k`. -/
theorem entr_pow (k : Nat) {m e : ℤ} (hm : |m| ≤ 2 ^ 53) (h : b64 (k * Real.log 2) = m * 2 ^ e) :
    entrR b64 ln64 ((2 : ℝ) ^ (-k : ℤ)) = m * 2 ^ (e - k) := by
  have hp : (2 : ℝ) ^ (-k : ℤ) ≠ 0 := by positivity
  unfold entrR ln64
  rw [if_neg hp, Real.log_zpow]
  have e1 : ((-k : ℤ) : ℝ) * Real.log 2 = -(k * Real.log 2) := by push_cast; ring
  rw [e1, b64_neg, h, neg_mul_neg]
  have e2 : (2 : ℝ) ^ (-k : ℤ) * (m * 2 ^ e) = m * 2 ^ (e - k) := by
    rw [sub_eq_add_neg, zpow_add₀ two_ne_zero]; ring
  rw [e2, b64_int _ _ hm]

open Verif.Sim (IsSum perm_map SumTree.eval_grid)

/-- If the number of observations is a power of two, the probabilities are exact. -/
theorem entropyR_pow {ord : List ℝ → SumTree} (ho : IsSum ord) {h : List Nat} {s : Nat} (hs : h.sum = 2 ^ s) (hs' : s ≤ 53) :
    entropyR b64 ln64 ord (normaliseR b64 h) = (ord (h.map fun c : Nat => entrR b64 ln64 ((c : ℝ) * 2 ^ (-s : ℤ)))).eval b64 := by
  have hpos : 0 < h.sum := by rw [hs]; positivity
  have hle : ∀ c ∈ h, c ≤ 2 ^ s := fun c hc => hs ▸ List.single_le_sum (fun _ _ => Nat.zero_le _) c hc
  have h53 : 2 ^ s ≤ 2 ^ 53 := Nat.pow_le_pow_right (by norm_num) hs'
  have hq : ∀ c : Nat, (c : ℝ) / (h.sum : ℝ) = ((c : ℤ) : ℝ) * 2 ^ (-s : ℤ) := by
    intro c
    rw [hs, zpow_neg, zpow_natCast, div_eq_mul_inv]
    push_cast
    rfl
  have hf : ∀ c ∈ h, b64 ((c : ℝ) / (h.sum : ℝ)) = ((c : ℤ) : ℝ) * 2 ^ (-s : ℤ) := by
    intro c hc
    rw [hq, b64_int]
    rw [Nat.abs_cast]
    exact_mod_cast (hle c hc).trans h53
  have hnorm : normaliseR b64 h = h.map fun c : Nat => ((c : ℤ) : ℝ) * 2 ^ (-s : ℤ) := List.map_congr_left hf
  have htot : (ord (normaliseR b64 h)).eval b64 = 1 := by
    rw [hnorm]
    obtain ⟨l, hl, hp⟩ := perm_map (ho (h.map fun c : Nat => ((c : ℤ) : ℝ) * 2 ^ (-s : ℤ)) (by simpa using hist_ne hpos))
    have hsum : (l.map fun c : Nat => (c : ℤ)).sum = 2 ^ s := by
      have h1 : (l.map fun c : Nat => (c : ℤ)).sum = ((l.sum : ℕ) : ℤ) := by
        rw [Nat.cast_list_sum]
      rw [h1, hp.sum_eq, hs]
      push_cast
      rfl
    rw [SumTree.eval_grid (e := -s) _ (l.map fun c : Nat => (c : ℤ)) (by rw [hl, List.map_map]; rfl) (by
      rw [List.map_map]
      have : (l.map (abs ∘ fun c : Nat => (c : ℤ))) = l.map fun c : Nat => (c : ℤ) := List.map_congr_left fun c _ => Nat.abs_cast c
      rw [this, hsum]
      exact_mod_cast h53), hsum]
    push_cast
    rw [← zpow_natCast, ← zpow_add₀ two_ne_zero, add_neg_cancel, zpow_zero]
  rw [entropyR_eq]
  congr 2
  apply List.map_congr_left
  intro c hc
  unfold probR
  rw [htot, div_one, hf c hc, b64_int _ _ (by rw [Nat.abs_cast]; exact_mod_cast (hle c hc).trans h53)]
  rfl

theorem entr_zero : entrR b64 ln64 0 = 0 := by unfold entrR; rw [if_pos rfl]

/-! ### A constant sample: infinite mutual information -/

/-- Whole numbers, the last one four times. -/
def ramp : Fin 8 → Nat := ![0, 1, 2, 3, 4, 4, 4, 4]

theorem ramp_labels : Fit b64 5 (List.ofFn fun i => (ramp i : ℝ)) ∧ ∀ i, labR b64 5 (fun i => (ramp i : ℝ)) i = ramp i :=
  int_labels b64_rounding (m := 4) (by norm_num) (by norm_num) ramp (by decide) ⟨0, rfl⟩ ⟨7, rfl⟩

theorem flat_labels : Fit b64 5 (List.ofFn fun _ : Fin 8 => (0 : ℝ)) ∧ ∀ i, labR b64 5 (fun _ : Fin 8 => (0 : ℝ)) i = 2 := by
  have hu : u64 ≤ 1 / 10 ^ 12 := by unfold u64; norm_num
  have hu0 := u64_pos
  have hh : b64 (1 / 2) = 1 / 2 := by rw [b64_rounding.half, b64_rounding.one]
  have e1 : lo (List.ofFn fun _ : Fin 8 => (0 : ℝ)) = 0 := by norm_num [lo, List.ofFn_succ]
  have e2 : hi (List.ofFn fun _ : Fin 8 => (0 : ℝ)) = 0 := by norm_num [hi, List.ofFn_succ]
  have eo : outerR b64 (List.ofFn fun _ : Fin 8 => (0 : ℝ)) = (-(1 / 2), 1 / 2) := by
    unfold outerR
    rw [e1, e2, if_pos rfl, zero_sub, zero_add, b64_neg, hh]
  have hw : Wide (-(1 / 2)) (1 / 2) 5 := by
    refine ⟨by norm_num, by norm_num, ?_⟩
    rw [abs_neg, abs_of_pos (by norm_num : (0 : ℝ) < 1 / 2)]
    push_cast
    linarith
  have hfit : Fit b64 5 (List.ofFn fun _ : Fin 8 => (0 : ℝ)) := by
    refine ⟨by simp, ?_, by rw [eo]; exact hw⟩
    intro v hv
    obtain ⟨i, rfl⟩ := (List.mem_ofFn' _ _).mp hv
    exact b64_zero
  refine ⟨hfit, fun i => ?_⟩
  have key := labR_spec b64_rounding hfit i 2
  dsimp only at key
  rw [eo] at key
  rw [key]
  dsimp only
  have err := fun (k : Nat) (hk : k ≤ 5) => edge_err b64_rounding hw hk
  have h2 := (abs_le.mp (err 2 (by norm_num))).2
  have h3 := (abs_le.mp (err 3 (by norm_num))).1
  rw [abs_neg, abs_of_pos (by norm_num : (0 : ℝ) < 1 / 2)] at h2 h3
  norm_num at h2 h3 ⊢
  exact ⟨by linarith, by linarith⟩

theorem seq5 {fl : ℝ → ℝ} (a b c d e : ℝ) :
    (npSum [a, b, c, d, e]).eval fl = fl (fl (fl (fl (a + b) + c) + d) + e) := rfl

theorem block25 {fl : ℝ → ℝ} (R : Rounding fl) {a b c d e : ℝ} (ha : fl a = a) (hb : fl b = b) (hc : fl c = c) (hd : fl d = d) (he : fl e = e) :
    (npSum [0, 0, 0, 0, 0, 0, 0, 0, 0, 0, a, b, c, d, e, 0, 0, 0, 0, 0, 0, 0, 0, 0, 0]).eval fl = fl (fl (a + b) + fl (fl (c + d) + e)) := by
  simp [npSum, npTree, npBlock, npEighth, npSeq, seqFrom, List.range_succ, SumTree.eval, R.zero, ha, hb, hc, hd, he, R.idem]

/-- The logarithm of two and its multiples by three and five in units of the last place. -/
noncomputable abbrev mant (m e : ℤ) : ℝ := (m : ℝ) * 2 ^ e

theorem entr_half : entrR b64 ln64 ((2 : ℝ) ^ (-1 : ℤ)) = mant 6243314768165359 (-54) := by
  have := entr_pow 1 (m := 6243314768165359) (e := -53) (by norm_num) (by rw [Nat.cast_one, one_mul]; exact fl_log2)
  exact this

theorem entr_eighth : entrR b64 ln64 ((2 : ℝ) ^ (-3 : ℤ)) = mant 4682486076124019 (-54) := by
  have := entr_pow 3 (m := 4682486076124019) (e := -51) (by norm_num) (by exact_mod_cast fl_log8)
  exact this

theorem ramp_sums :
    b64 (b64 (b64 (b64 (mant 4682486076124019 (-54) + mant 4682486076124019 (-54)) + mant 4682486076124019 (-54)) +
      mant 4682486076124019 (-54)) + mant 6243314768165359 (-54)) = mant 6243314768165359 (-52) ∧
    b64 (b64 (mant 4682486076124019 (-54) + mant 4682486076124019 (-54)) +
      b64 (b64 (mant 4682486076124019 (-54) + mant 4682486076124019 (-54)) + mant 6243314768165359 (-54))) = mant 6243314768165358 (-52) := by
  have e2 : b64 (mant 4682486076124019 (-54) + mant 4682486076124019 (-54)) = mant 4682486076124019 (-53) := by
    have e : mant 4682486076124019 (-54) + mant 4682486076124019 (-54) = mant 4682486076124019 (-53) := by norm_num
    rw [e, b64_int _ _ (by norm_num)]
  have e3 : b64 (mant 4682486076124019 (-53) + mant 4682486076124019 (-54)) = mant 7023729114186028 (-53) := by
    have e : mant 4682486076124019 (-53) + mant 4682486076124019 (-54) = (((7023729114186028 : ℤ) : ℝ) + 1 / 2) * 2 ^ (-53 : ℤ) := by norm_num
    rw [e, b64_tie_even (by norm_num) (by norm_num) (by decide)]
  have e4 : b64 (mant 7023729114186028 (-53) + mant 4682486076124019 (-54)) = mant 4682486076124019 (-52) := by
    refine b64_eq ?_ ?_ ?_ <;> norm_num [abs_of_neg, abs_of_pos]
  have e5 : b64 (mant 4682486076124019 (-52) + mant 6243314768165359 (-54)) = mant 6243314768165359 (-52) := by
    refine b64_eq ?_ ?_ ?_ <;> norm_num [abs_of_neg, abs_of_pos]
  have j1 : b64 (mant 4682486076124019 (-53) + mant 6243314768165359 (-54)) = mant 7804143460206698 (-53) := by
    have e : mant 4682486076124019 (-53) + mant 6243314768165359 (-54) = (((7804143460206698 : ℤ) : ℝ) + 1 / 2) * 2 ^ (-53 : ℤ) := by norm_num
    rw [e, b64_tie_even (by norm_num) (by norm_num) (by decide)]
  have j2 : b64 (mant 4682486076124019 (-53) + mant 7804143460206698 (-53)) = mant 6243314768165358 (-52) := by
    have e : mant 4682486076124019 (-53) + mant 7804143460206698 (-53) = (((6243314768165358 : ℤ) : ℝ) + 1 / 2) * 2 ^ (-52 : ℤ) := by norm_num
    rw [e, b64_tie_even (by norm_num) (by norm_num) (by decide)]
  constructor
  · rw [e2, e3, e4, e5]
  · rw [e2, j1, j2]

theorem count_pow {c k s : Nat} (h : c * 2 ^ k = 2 ^ s) : (c : ℝ) * 2 ^ (-s : ℤ) = 2 ^ (-k : ℤ) := by
  have h' : (c : ℝ) * 2 ^ k = 2 ^ s := by exact_mod_cast h
  rw [zpow_neg, zpow_neg, zpow_natCast, zpow_natCast, ← h']
  have : (c : ℝ) ≠ 0 := by
    intro hc
    rw [hc, zero_mul] at h'
    exact absurd h'.symm (by positivity)
  field_simp

theorem ramp_ent : ent1 b64 ln64 npSum 5 (fun i => (ramp i : ℝ)) = mant 6243314768165359 (-52) := by
  unfold ent1
  rw [histR_labels b64_rounding ramp_labels.1 ramp_labels.2]
  have hl : ((List.range 5).map fun k => (List.ofFn ramp).count k) = [1, 1, 1, 1, 4] := by decide
  rw [hl, entropyR_pow npSum_isSum (s := 3) (by norm_num) (by norm_num)]
  simp only [List.map_cons, List.map_nil]
  rw [count_pow (c := 1) (k := 3) (by norm_num), count_pow (c := 4) (k := 1) (by norm_num), seq5]
  have h1 : entrR b64 ln64 ((2 : ℝ) ^ (-(3 : ℕ) : ℤ)) = mant 4682486076124019 (-54) := entr_eighth
  have h2 : entrR b64 ln64 ((2 : ℝ) ^ (-(1 : ℕ) : ℤ)) = mant 6243314768165359 (-54) := entr_half
  rw [h1, h2]
  exact ramp_sums.1

theorem flat_ramp_ent : ent2 b64 ln64 npSum 5 (fun _ : Fin 8 => (0 : ℝ)) (fun i => (ramp i : ℝ)) = mant 6243314768165358 (-52) := by
  unfold ent2
  rw [hist2R_labels flat_labels.2 ramp_labels.2]
  have hl : ((List.range 5).flatMap fun i => (List.range 5).map fun j => ((List.ofFn fun _ : Fin 8 => 2).zip (List.ofFn ramp)).count (i, j)) =
      [0, 0, 0, 0, 0, 0, 0, 0, 0, 0, 1, 1, 1, 1, 4, 0, 0, 0, 0, 0, 0, 0, 0, 0, 0] := by decide
  rw [hl, entropyR_pow npSum_isSum (s := 3) (by norm_num) (by norm_num)]
  simp only [List.map_cons, List.map_nil]
  rw [count_pow (c := 1) (k := 3) (by norm_num), count_pow (c := 4) (k := 1) (by norm_num), Nat.cast_zero, zero_mul, entr_zero]
  have h1 : entrR b64 ln64 ((2 : ℝ) ^ (-(3 : ℕ) : ℤ)) = mant 4682486076124019 (-54) := entr_eighth
  have h2 : entrR b64 ln64 ((2 : ℝ) ^ (-(1 : ℕ) : ℤ)) = mant 6243314768165359 (-54) := entr_half
  have f1 : b64 (mant 4682486076124019 (-54)) = mant 4682486076124019 (-54) := b64_int _ _ (by norm_num)
  have f2 : b64 (mant 6243314768165359 (-54)) = mant 6243314768165359 (-54) := b64_int _ _ (by norm_num)
  rw [h1, h2, block25 b64_rounding f1 f1 f1 f1 f2]
  exact ramp_sums.2

/-- C113, negative. With 64-bit numbers, numpy's order of summation and a correctly rounded logarithm, the normalised mutual information of a
constant sample with another one can be infinite. (With exact entropies it is `nan`.) -/
theorem mi_const_inf :
    mutualInfoF b64 ln64 npSum 5 true (sample fun _ : Fin 8 => (0 : ℝ)) (sample fun i => (ramp i : ℝ)) = .ok .pinf ∧
    mutualInfoR b64 5 true (sample fun _ : Fin 8 => (0 : ℝ)) (sample fun i => (ramp i : ℝ)) = .ok .nan := by
  have hz : ent1 b64 ln64 npSum 5 (fun _ : Fin 8 => (0 : ℝ)) = 0 :=
    (ents_sign (D := 25) b64_rounding ln64_acc npSum_isSum (by norm_num) flat_labels.1 ramp_labels.1
      (npSum_depth (k := 0) (by norm_num) (by norm_num)) (npSum_depth (k := 0) (by norm_num) (by norm_num))
      (by unfold u64; norm_num)).1.2.mpr (.inr fun _ _ => rfl)
  constructor
  · rw [(infoF_eq (by norm_num) (by norm_num) _ _).1]
    have h5 : (5 : Int).toNat = 5 := rfl
    rw [h5]
    dsimp only
    rw [hz, ramp_ent, flat_ramp_ent, zero_add, b64_int _ _ (by norm_num), zero_mul, b64_zero, Real.sqrt_zero, b64_zero]
    have hp : 0 < b64 (mant 6243314768165359 (-52) - mant 6243314768165358 (-52)) := b64_pos (by norm_num)
    have hd : ∀ d : ℝ, 0 < d → rnd b64 (divX d 0) = .pinf := by
      intro d hd
      unfold divX
      rw [if_pos rfl, if_neg hd.ne', if_pos hd]
      rfl
    rw [if_pos rfl, hd _ hp]
  · exact (mi_rounded (b := 5) b64_rounding (by norm_num) (by norm_num) flat_labels.1 ramp_labels.1).2.2.1 (.inr (.inl fun _ _ => rfl))

/-! ### A sample with itself: negative variation of information -/

/-- Whole numbers, each as often as all smaller ones together. -/
def doubling (i : Fin 32) : Nat := if i.val < 1 then 0 else if i.val < 2 then 1 else if i.val < 4 then 2 else if i.val < 8 then 3 else if i.val < 16 then 4 else 5

theorem doubling_labels : Fit b64 6 (List.ofFn fun i => (doubling i : ℝ)) ∧ ∀ i, labR b64 6 (fun i => (doubling i : ℝ)) i = doubling i :=
  int_labels b64_rounding (m := 5) (by norm_num) (by norm_num) doubling (by decide) ⟨0, by decide⟩ ⟨16, by decide⟩

theorem seq6 {fl : ℝ → ℝ} (a b c d e f : ℝ) :
    (npSum [a, b, c, d, e, f]).eval fl = fl (fl (fl (fl (fl (a + b) + c) + d) + e) + f) := rfl

theorem block36 {fl : ℝ → ℝ} (R : Rounding fl) {a b c d e f : ℝ} (ha : fl a = a) (hb : fl b = b) (hc : fl c = c) (hd : fl d = d) (he : fl e = e) :
    (npSum [a, 0, 0, 0, 0, 0, 0, b, 0, 0, 0, 0, 0, 0, c, 0, 0, 0, 0, 0, 0, d, 0, 0, 0, 0, 0, 0, e, 0, 0, 0, 0, 0, 0, f]).eval fl =
      fl (fl (a + fl (fl (e + d) + fl (c + b))) + f) := by
  simp [npSum, npTree, npBlock, npEighth, npSeq, seqFrom, List.range_succ, SumTree.eval, R.zero, ha, hb, hc, hd, he, R.idem]

theorem fl_log4 : b64 (2 * Real.log 2) = (6243314768165359 : ℤ) * 2 ^ (-52 : ℤ) := by
  rw [b64_two, fl_log2]
  norm_num

theorem fl_log16 : b64 (4 * Real.log 2) = (6243314768165359 : ℤ) * 2 ^ (-51 : ℤ) := by
  rw [show (4 : ℝ) * Real.log 2 = 2 * (2 * Real.log 2) by ring, b64_two, fl_log4]
  norm_num

theorem entr_quarter : entrR b64 ln64 ((2 : ℝ) ^ (-2 : ℤ)) = mant 6243314768165359 (-54) := by
  have := entr_pow 2 (m := 6243314768165359) (e := -52) (by norm_num) (by exact_mod_cast fl_log4)
  exact this

theorem entr_sixteenth : entrR b64 ln64 ((2 : ℝ) ^ (-4 : ℤ)) = mant 6243314768165359 (-55) := by
  have := entr_pow 4 (m := 6243314768165359) (e := -51) (by norm_num) (by exact_mod_cast fl_log16)
  exact this

theorem entr_32nd : entrR b64 ln64 ((2 : ℝ) ^ (-5 : ℤ)) = mant 7804143460206699 (-56) := by
  have := entr_pow 5 (m := 7804143460206699) (e := -51) (by norm_num) (by exact_mod_cast fl_log32)
  exact this

theorem doubling_seq :
    b64 (b64 (b64 (b64 (b64 (mant 7804143460206699 (-56) + mant 7804143460206699 (-56)) + mant 6243314768165359 (-55)) +
      mant 4682486076124019 (-54)) + mant 6243314768165359 (-54)) + mant 6243314768165359 (-54)) = mant 6048211181660192 (-52) := by
  have e1 : b64 (mant 7804143460206699 (-56) + mant 7804143460206699 (-56)) = mant 7804143460206699 (-55) := by
    have e : mant 7804143460206699 (-56) + mant 7804143460206699 (-56) = mant 7804143460206699 (-55) := by norm_num
    rw [e, b64_int _ _ (by norm_num)]
  have e2 : b64 (mant 7804143460206699 (-55) + mant 6243314768165359 (-55)) = mant 7023729114186029 (-54) := by
    have e : mant 7804143460206699 (-55) + mant 6243314768165359 (-55) = mant 7023729114186029 (-54) := by norm_num
    rw [e, b64_int _ _ (by norm_num)]
  have e3 : b64 (mant 7023729114186029 (-54) + mant 4682486076124019 (-54)) = mant 5853107595155024 (-53) := by
    have e : mant 7023729114186029 (-54) + mant 4682486076124019 (-54) = mant 5853107595155024 (-53) := by norm_num
    rw [e, b64_int _ _ (by norm_num)]
  have e4 : b64 (mant 5853107595155024 (-53) + mant 6243314768165359 (-54)) = mant 8974764979237704 (-53) := by
    have e : mant 5853107595155024 (-53) + mant 6243314768165359 (-54) = (((8974764979237703 : ℤ) : ℝ) + 1 / 2) * 2 ^ (-53 : ℤ) := by norm_num
    rw [e, b64_tie (by norm_num) (by norm_num) (by decide)]
    norm_num
  have e5 : b64 (mant 8974764979237704 (-53) + mant 6243314768165359 (-54)) = mant 6048211181660192 (-52) := by
    refine b64_eq ?_ ?_ ?_ <;> norm_num [abs_of_neg, abs_of_pos]
  rw [e1, e2, e3, e4, e5]

theorem doubling_block :
    b64 (b64 (mant 7804143460206699 (-56) + b64 (b64 (mant 6243314768165359 (-54) + mant 4682486076124019 (-54)) +
      b64 (mant 6243314768165359 (-55) + mant 7804143460206699 (-56)))) + mant 6243314768165359 (-54)) = mant 6048211181660191 (-52) := by
  have e1 : b64 (mant 6243314768165359 (-54) + mant 4682486076124019 (-54)) = mant 5462900422144689 (-53) := by
    have e : mant 6243314768165359 (-54) + mant 4682486076124019 (-54) = mant 5462900422144689 (-53) := by norm_num
    rw [e, b64_int _ _ (by norm_num)]
  have e2 : b64 (mant 6243314768165359 (-55) + mant 7804143460206699 (-56)) = mant 5072693249134354 (-54) := by
    refine b64_eq ?_ ?_ ?_ <;> norm_num [abs_of_neg, abs_of_pos]
  have e3 : b64 (mant 5462900422144689 (-53) + mant 5072693249134354 (-54)) = mant 7999247046711866 (-53) := by
    have e : mant 5462900422144689 (-53) + mant 5072693249134354 (-54) = mant 7999247046711866 (-53) := by norm_num
    rw [e, b64_int _ _ (by norm_num)]
  have e4 : b64 (mant 7804143460206699 (-56) + mant 7999247046711866 (-53)) = mant 8974764979237703 (-53) := by
    refine b64_eq ?_ ?_ ?_ <;> norm_num [abs_of_neg, abs_of_pos]
  have e5 : b64 (mant 8974764979237703 (-53) + mant 6243314768165359 (-54)) = mant 6048211181660191 (-52) := by
    refine b64_eq ?_ ?_ ?_ <;> norm_num [abs_of_neg, abs_of_pos]
  rw [e1, e2, e3, e4, e5]

theorem doubling_terms :
    entrR b64 ln64 (((1 : ℕ) : ℝ) * 2 ^ (-(5 : ℕ) : ℤ)) = mant 7804143460206699 (-56) ∧
    entrR b64 ln64 (((2 : ℕ) : ℝ) * 2 ^ (-(5 : ℕ) : ℤ)) = mant 6243314768165359 (-55) ∧
    entrR b64 ln64 (((4 : ℕ) : ℝ) * 2 ^ (-(5 : ℕ) : ℤ)) = mant 4682486076124019 (-54) ∧
    entrR b64 ln64 (((8 : ℕ) : ℝ) * 2 ^ (-(5 : ℕ) : ℤ)) = mant 6243314768165359 (-54) ∧
    entrR b64 ln64 (((16 : ℕ) : ℝ) * 2 ^ (-(5 : ℕ) : ℤ)) = mant 6243314768165359 (-54) := by
  rw [count_pow (c := 1) (k := 5) (by norm_num), count_pow (c := 2) (k := 4) (by norm_num), count_pow (c := 4) (k := 3) (by norm_num),
    count_pow (c := 8) (k := 2) (by norm_num), count_pow (c := 16) (k := 1) (by norm_num)]
  exact ⟨entr_32nd, entr_sixteenth, entr_eighth, entr_quarter, entr_half⟩

theorem doubling_ent : ent1 b64 ln64 npSum 6 (fun i => (doubling i : ℝ)) = mant 6048211181660192 (-52) := by
  unfold ent1
  rw [histR_labels b64_rounding doubling_labels.1 doubling_labels.2]
  have hl : ((List.range 6).map fun k => (List.ofFn doubling).count k) = [1, 1, 2, 4, 8, 16] := by decide
  rw [hl, entropyR_pow npSum_isSum (s := 5) (by norm_num) (by norm_num)]
  obtain ⟨h1, h2, h3, h4, h5⟩ := doubling_terms
  simp only [List.map_cons, List.map_nil, seq6]
  rw [h1, h2, h3, h4, h5]
  exact doubling_seq

theorem doubling_ent2 : ent2 b64 ln64 npSum 6 (fun i => (doubling i : ℝ)) (fun i => (doubling i : ℝ)) = mant 6048211181660191 (-52) := by
  unfold ent2
  rw [hist2R_labels doubling_labels.2 doubling_labels.2]
  have hl : ((List.range 6).flatMap fun i => (List.range 6).map fun j => ((List.ofFn doubling).zip (List.ofFn doubling)).count (i, j)) =
      [1, 0, 0, 0, 0, 0, 0, 1, 0, 0, 0, 0, 0, 0, 2, 0, 0, 0, 0, 0, 0, 4, 0, 0, 0, 0, 0, 0, 8, 0, 0, 0, 0, 0, 0, 16] := by decide +kernel
  rw [hl, entropyR_pow npSum_isSum (s := 5) (by norm_num) (by norm_num)]
  obtain ⟨h1, h2, h3, h4, h5⟩ := doubling_terms
  simp only [List.map_cons, List.map_nil]
  rw [Nat.cast_zero, zero_mul, entr_zero, h1, h2, h3, h4, h5,
    block36 b64_rounding (b64_int _ _ (by norm_num)) (b64_int _ _ (by norm_num)) (b64_int _ _ (by norm_num)) (b64_int _ _ (by norm_num))
      (b64_int _ _ (by norm_num))]
  exact doubling_block

/-- C113, negative. With 64-bit numbers, numpy's order of summation and a correctly rounded logarithm, the variation of information of a
sample with itself can be negative. -/
theorem vi_self_negative :
    ∃ r, varInfoF b64 ln64 npSum 6 false (sample fun i => (doubling i : ℝ)) (sample fun i => (doubling i : ℝ)) = .ok (.fin r) ∧
      r = -2 ^ (-51 : ℤ) ∧
      varInfoR b64 6 false (sample fun i => (doubling i : ℝ)) (sample fun i => (doubling i : ℝ)) = .ok (.fin 0) := by
  refine ⟨_, (infoF_eq (by norm_num) (by norm_num) _ _).2 false, ?_, ?_⟩
  · have h6 : (6 : Int).toNat = 6 := rfl
    rw [h6, doubling_ent, doubling_ent2, b64_two, b64_int _ _ (by norm_num)]
    have e1 : 2 * (((6048211181660191 : ℤ) : ℝ) * 2 ^ (-52 : ℤ)) - mant 6048211181660192 (-52) = ((6048211181660190 : ℤ) : ℝ) * 2 ^ (-52 : ℤ) := by
      norm_num
    rw [e1, b64_int _ _ (by norm_num)]
    have e2 : ((6048211181660190 : ℤ) : ℝ) * 2 ^ (-52 : ℤ) - mant 6048211181660192 (-52) = ((-1 : ℤ) : ℝ) * 2 ^ (-51 : ℤ) := by norm_num
    rw [e2, b64_int _ _ (by norm_num)]
    norm_num
  · obtain ⟨⟨r, hr, -, hz⟩, -⟩ := vi_rounded (b := 6) b64_rounding (by norm_num) (by norm_num) doubling_labels.1 doubling_labels.1
    rw [hr, hz.mpr fun _ _ => Iff.rfl]

/-- C113, negative. In the same case the normalised mutual information of the sample with itself is larger than one. -/
theorem mi_self_above_one :
    mutualInfoF b64 ln64 npSum 6 true (sample fun i => (doubling i : ℝ)) (sample fun i => (doubling i : ℝ)) = .ok (.fin (1 + 2 ^ (-52 : ℤ))) := by
  rw [(infoF_eq (by norm_num) (by norm_num) _ _).1]
  have h6 : (6 : Int).toNat = 6 := rfl
  rw [h6]
  dsimp only
  rw [doubling_ent, doubling_ent2, if_pos rfl]
  have e1 : b64 (mant 6048211181660192 (-52) + mant 6048211181660192 (-52)) = mant 6048211181660192 (-51) := by
    have e : mant 6048211181660192 (-52) + mant 6048211181660192 (-52) = mant 6048211181660192 (-51) := by norm_num
    rw [e, b64_int _ _ (by norm_num)]
  have e2 : b64 (mant 6048211181660192 (-51) - mant 6048211181660191 (-52)) = mant 6048211181660193 (-52) := by
    have e : mant 6048211181660192 (-51) - mant 6048211181660191 (-52) = mant 6048211181660193 (-52) := by norm_num
    rw [e, b64_int _ _ (by norm_num)]
  have e3 : b64 (mant 6048211181660192 (-52) * mant 6048211181660192 (-52)) = mant 8122582272997864 (-52) := by
    refine b64_eq ?_ ?_ ?_ <;> norm_num [abs_of_neg, abs_of_pos]
  have e4 : b64 (Real.sqrt (mant 8122582272997864 (-52))) = mant 6048211181660192 (-52) := by
    have h1 : (6048211181660191.9 : ℝ) * 2 ^ (-52 : ℤ) < Real.sqrt (mant 8122582272997864 (-52)) := by
      apply Real.lt_sqrt_of_sq_lt
      norm_num
    have h2 : Real.sqrt (mant 8122582272997864 (-52)) < (6048211181660192.3 : ℝ) * 2 ^ (-52 : ℤ) := by
      rw [Real.sqrt_lt' (by positivity)]
      norm_num
    refine b64_eq ?_ ?_ ?_
    · norm_num at h1 ⊢; linarith
    · norm_num at h2 ⊢; linarith
    · rw [abs_lt]; norm_num at h1 h2 ⊢; constructor <;> linarith
  rw [e1, e2, e3, e4]
  have hne : mant 6048211181660192 (-52) ≠ 0 := by norm_num
  unfold divX
  rw [if_neg hne]
  have e5 : b64 (mant 6048211181660193 (-52) / mant 6048211181660192 (-52)) = ((4503599627370497 : ℤ) : ℝ) * 2 ^ (-52 : ℤ) := by
    refine b64_eq ?_ ?_ ?_ <;> norm_num [abs_of_neg, abs_of_pos]
  show Except.ok (XF.fin (b64 _)) = _
  rw [e5]
  norm_num

/-- The bounds, in numpy's order and with a correctly rounded logarithm, for two samples of 32 values in 6 bins. -/
example : ∃ r r', mutualInfoF b64 ln64 npSum 6 false (sample fun i => (doubling i : ℝ)) (sample fun i => (doubling i : ℝ)) = .ok (.fin r) ∧
    mutualInfoR b64 6 false (sample fun i => (doubling i : ℝ)) (sample fun i => (doubling i : ℝ)) = .ok (.fin r') ∧
    |r - r'| ≤ 2 * (3 * 25 + 10 + 1 : ℕ) * u64 * (4 * Real.log (6 : ℤ) + 3) :=
  mi_entropy_round b64_rounding ln64_acc npSum_isSum (by norm_num) (by norm_num) doubling_labels.1 doubling_labels.1
    (npSum_depth (k := 0) (by decide) (by decide)) (npSum_depth (k := 0) (by decide) (by decide)) (by unfold u64; norm_num)

example : ∃ r r', varInfoF b64 ln64 npSum 6 false (sample fun i => (doubling i : ℝ)) (sample fun i => (doubling i : ℝ)) = .ok (.fin r) ∧
    varInfoR b64 6 false (sample fun i => (doubling i : ℝ)) (sample fun i => (doubling i : ℝ)) = .ok (.fin r') ∧
    |r - r'| ≤ 2 * (3 * 25 + 11 + 1 : ℕ) * u64 * (6 * Real.log (6 : ℤ) + 4) :=
  vi_entropy_round b64_rounding ln64_acc npSum_isSum (by norm_num) (by norm_num) doubling_labels.1 doubling_labels.1
    (npSum_depth (k := 0) (by decide) (by decide)) (npSum_depth (k := 0) (by decide) (by decide)) (by unfold u64; norm_num)

/-- Sums of up to 1.8 million values in numpy's order. -/
example : Depth npSum 1800000 39 := npSum_depth (k := 14) (by norm_num) (by norm_num)

end Verif.Info
