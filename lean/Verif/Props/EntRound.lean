import Verif.Model.EntR
import Verif.Props.InfoRound
import Verif.Props.CusumRound
import Verif.Props.FitRound

/-!
# C113: information measures with rounded entropies
-/

namespace Verif.Info

open Verif.Round Verif.Ent
open Verif.Sim (Near IsSum perm_map)
open Verif.Props.Cusum (Within)

variable {fl ln : ℝ → ℝ} {ord : List ℝ → SumTree}

/-- The computed logarithm is exact up to `κ` roundings. -/
def LogAcc (κ : Nat) (ln : ℝ → ℝ) : Prop := ∀ x, 0 < x → Within κ (ln x) (Real.log x)

/-- No summand goes through more than `D` additions when `n` values are added. -/
def Depth (ord : List ℝ → SumTree) (n D : Nat) : Prop := ∀ l, l.length = n → (ord l).height ≤ D

theorem logAcc_round (R : Rounding fl) : LogAcc 1 (fun x => fl (Real.log x)) := fun _ _ => (Within.refl _).rd R

theorem depth_any (ho : IsSum ord) {n : Nat} (hn : 0 < n) : Depth ord n (n - 1) := by
  intro l hl
  have h1 := (ord l).height_lt
  have h2 := (ho l (by intro h; rw [h] at hl; simp at hl; omega)).length_eq
  omega

/-! ### Error terms -/

/-- Growth of the relative error with every rounding. -/
noncomputable def wu : ℝ := (1 - u64)⁻¹

theorem wu_ge : 1 + u64 ≤ wu := by
  unfold wu
  rw [le_inv_comm₀ (by linarith [u64_pos]) (by linarith [u64_small]), ← one_div, le_div_iff₀ (by linarith [u64_pos])]
  nlinarith [u64_pos]

theorem wu_one : 1 ≤ wu := by linarith [wu_ge, u64_pos]

theorem wu_pow_one (k : Nat) : 1 ≤ wu ^ k := one_le_pow₀ wu_one

theorem wu_pow_mono {k m : Nat} (h : k ≤ m) : wu ^ k ≤ wu ^ m := pow_le_pow_right₀ wu_one h

theorem wu_inv (k : Nat) : (1 - u64) ^ k * wu ^ k = 1 := by
  unfold wu
  rw [← mul_pow, mul_inv_cancel₀ (by linarith [u64_small]), one_pow]

theorem wu_bernoulli (k : Nat) : 1 + k * u64 ≤ wu ^ k :=
  (one_add_mul_le_pow (by linarith [u64_pos]) k).trans (pow_le_pow_left₀ (by linarith [u64_pos]) wu_ge k)

theorem wu_small {k : Nat} (hk : k * u64 ≤ 1 / 2) : wu ^ k - 1 ≤ 2 * k * u64 := by
  have h1 : 1 - k * u64 ≤ (1 - u64) ^ k := by
    have := one_add_mul_le_pow (a := -u64) (by linarith [u64_small]) k
    rw [← sub_eq_add_neg] at this
    linarith
  have h2 : 0 < wu ^ k := lt_of_lt_of_le one_pos (wu_pow_one k)
  have h3 : (1 - k * u64) * wu ^ k ≤ 1 := (mul_le_mul_of_nonneg_right h1 h2.le).trans (wu_inv k).le
  have h4 : 0 ≤ k * u64 := mul_nonneg (Nat.cast_nonneg k) u64_pos.le
  have h5 : wu ^ k ≤ 2 := by nlinarith
  nlinarith

theorem within_ratio {k : Nat} {r : ℝ} (h1 : (1 - u64) ^ k ≤ r) (h2 : r * (1 - u64) ^ k ≤ 1) : (wu ^ k)⁻¹ ≤ r ∧ r ≤ wu ^ k := by
  have e : (1 - u64) ^ k = (wu ^ k)⁻¹ := eq_inv_of_mul_eq_one_left (wu_inv k)
  have hp : 0 < wu ^ k := lt_of_lt_of_le one_pos (wu_pow_one k)
  rw [e] at h1 h2
  exact ⟨h1, by rwa [← div_eq_mul_inv, div_le_one hp] at h2⟩

theorem ratio_near {g r : ℝ} (hg : 1 ≤ g) (h1 : g⁻¹ ≤ r) (h2 : r ≤ g) : |r - 1| ≤ g - 1 := by
  have : 2 - g ≤ g⁻¹ := by
    rw [← one_div, le_div_iff₀ (by linarith)]
    nlinarith [sq_nonneg (g - 1)]
  rw [abs_le]
  exact ⟨by linarith, by linarith⟩

theorem within_near {k : Nat} {g a b A p : ℝ} (h : Within k a b) (hn : Near g b A p) : Near (wu ^ k * g) a A p := by
  obtain ⟨r, rfl, h1, h2⟩ := h
  obtain ⟨h1, h2⟩ := within_ratio h1 h2
  have : Near (wu ^ k) r 1 1 := ⟨wu_pow_one k, by simp, by rw [mul_one]; exact ratio_near (wu_pow_one k) h1 h2⟩
  simpa using this.mul hn

/-- `-q log q` for a relative error of `q`. -/
theorem negMulLog_near {k : Nat} {q p : ℝ} (h : Within k q p) (h0 : 0 < p) (h1 : p ≤ 1) :
    Near (wu ^ (2 * k + 1)) (Real.negMulLog q) (Real.negMulLog p) (Real.negMulLog p + p) := by
  obtain ⟨r, rfl, hr1, hr2⟩ := h
  obtain ⟨h2, h3⟩ := within_ratio hr1 hr2
  have hg := wu_pow_one k
  have hr : 0 < r := lt_of_lt_of_le (by positivity) h2
  have hN := Real.negMulLog_nonneg h0.le h1
  refine ⟨wu_pow_one _, by rw [abs_of_nonneg hN]; linarith, ?_⟩
  have e : Real.negMulLog (r * p) - Real.negMulLog p = (r - 1) * Real.negMulLog p + p * Real.negMulLog r := by
    rw [Real.negMulLog_mul]; ring
  have hlog : |Real.log r| ≤ wu ^ k - 1 := by
    rw [abs_le]
    constructor
    · have := Real.log_le_sub_one_of_pos (inv_pos.mpr hr)
      rw [Real.log_inv] at this
      have : r⁻¹ ≤ wu ^ k := by rw [inv_le_comm₀ hr (by linarith)]; exact h2
      linarith
    · linarith [Real.log_le_sub_one_of_pos hr]
  have hnr : |Real.negMulLog r| ≤ wu ^ k * (wu ^ k - 1) := by
    unfold Real.negMulLog
    rw [abs_mul, abs_neg, abs_of_pos hr]
    exact mul_le_mul h3 hlog (abs_nonneg _) (by linarith)
  have hr1' := ratio_near hg h2 h3
  have hw : wu ^ k * (wu ^ k - 1) ≤ wu ^ (2 * k + 1) - 1 := by
    have : wu ^ (2 * k) ≤ wu ^ (2 * k + 1) := wu_pow_mono (by omega)
    have e2 : wu ^ (2 * k) = wu ^ k * wu ^ k := by rw [two_mul, pow_add]
    nlinarith
  have hw' : wu ^ k - 1 ≤ wu ^ (2 * k + 1) - 1 := by linarith [wu_pow_mono (show k ≤ 2 * k + 1 by omega)]
  rw [e]
  refine (abs_add_le _ _).trans ?_
  rw [abs_mul, abs_mul, abs_of_nonneg hN, abs_of_pos h0, mul_add]
  refine add_le_add (mul_le_mul_of_nonneg_right (hr1'.trans hw') hN) ?_
  rw [mul_comm]
  exact mul_le_mul_of_nonneg_right (hnr.trans hw) h0.le

theorem entr_near (R : Rounding fl) {κ k : Nat} (hl : LogAcc κ ln) {q p : ℝ} (h : Within k q p) (h0 : 0 ≤ p) (h1 : p ≤ 1) :
    Near (wu ^ (2 * k + 2 + κ)) (entrR fl ln q) (Real.negMulLog p) (Real.negMulLog p + p) := by
  rcases h0.eq_or_lt with rfl | h0
  · have hq : q = 0 := h.zero_iff.mpr rfl
    rw [hq, entrR, if_pos rfl]
    exact ⟨wu_pow_one _, by simp, by simp⟩
  · have hq : 0 < q := h.pos_iff.mpr h0
    have h2 : Within κ (-q * ln q) (Real.negMulLog q) := by
      have := (Within.refl (-q)).mul (hl q hq)
      rwa [Nat.zero_add] at this
    have := (within_near h2 (negMulLog_near h h0 h1)).rd R
    rw [entrR, if_neg hq.ne']
    refine this.mono ?_
    rw [show 2 * k + 2 + κ = κ + (2 * k + 1) + 1 by ring, pow_succ wu (κ + (2 * k + 1)), pow_add wu κ (2 * k + 1)]
    exact mul_le_mul_of_nonneg_left wu_ge (mul_nonneg (by linarith [wu_pow_one κ]) (by linarith [wu_pow_one (2 * k + 1)]))

/-! ### Sums -/

theorem near_sum (R : Rounding fl) {ι : Type} {g : ℝ} {f A p : ι → ℝ} (T : SumTree) (l : List ι) (hT : T.leaves = l.map f)
    (h : ∀ i ∈ l, Near g (f i) (A i) (p i)) : Near (g * wu ^ T.height) (T.eval fl) (l.map A).sum (l.map p).sum := by
  induction T generalizing l with
  | leaf x =>
    obtain ⟨i, rfl⟩ : ∃ i, l = [i] := by
      apply List.length_eq_one_iff.mp
      have := congrArg List.length hT
      simpa [SumTree.leaves] using this.symm
    have hx : x = f i := by simpa [SumTree.leaves] using hT
    simpa [SumTree.eval, SumTree.height, hx] using h i (by simp)
  | node a b iha ihb =>
    rw [SumTree.leaves] at hT
    obtain ⟨l1, l2, rfl, e1, e2⟩ := List.map_eq_append_iff.mp hT.symm
    have h1 := iha l1 e1.symm fun i hi => h i (List.mem_append_left _ hi)
    have h2 := ihb l2 e2.symm fun i hi => h i (List.mem_append_right _ hi)
    have hg : 0 ≤ g := by
      have hl : 0 < l1.length := by
        have := a.leaves_pos
        rwa [← e1, List.length_map] at this
      have := (h l1[0] (List.mem_append_left _ (List.getElem_mem hl))).1
      linarith
    have h1' := h1.mono (mul_le_mul_of_nonneg_left (wu_pow_mono (le_max_left a.height b.height)) hg)
    have h2' := h2.mono (mul_le_mul_of_nonneg_left (wu_pow_mono (le_max_right a.height b.height)) hg)
    have := (h1'.add h2').rd R
    rw [SumTree.eval, SumTree.height, List.map_append, List.map_append, List.sum_append, List.sum_append, pow_succ, ← mul_assoc]
    exact this.mono (mul_le_mul_of_nonneg_left wu_ge (mul_nonneg hg (by linarith [wu_pow_one (max a.height b.height)])))

theorem within_sum (R : Rounding fl) {ι : Type} {k : Nat} {f A : ι → ℝ} (T : SumTree) (l : List ι) (hT : T.leaves = l.map f)
    (h : ∀ i ∈ l, Within k (f i) (A i)) (h0 : ∀ i ∈ l, 0 ≤ A i) : Within (k + T.height) (T.eval fl) (l.map A).sum := by
  induction T generalizing l with
  | leaf x =>
    obtain ⟨i, rfl⟩ : ∃ i, l = [i] := by
      apply List.length_eq_one_iff.mp
      have := congrArg List.length hT
      simpa [SumTree.leaves] using this.symm
    have hx : x = f i := by simpa [SumTree.leaves] using hT
    simpa [SumTree.eval, SumTree.height, hx] using h i (by simp)
  | node a b iha ihb =>
    rw [SumTree.leaves] at hT
    obtain ⟨l1, l2, rfl, e1, e2⟩ := List.map_eq_append_iff.mp hT.symm
    have h1 := iha l1 e1.symm (fun i hi => h i (List.mem_append_left _ hi)) fun i hi => h0 i (List.mem_append_left _ hi)
    have h2 := ihb l2 e2.symm (fun i hi => h i (List.mem_append_right _ hi)) fun i hi => h0 i (List.mem_append_right _ hi)
    have p1 : 0 ≤ (l1.map A).sum := List.sum_nonneg fun x hx => by
      obtain ⟨i, hi, rfl⟩ := List.mem_map.mp hx
      exact h0 i (List.mem_append_left _ hi)
    have p2 : 0 ≤ (l2.map A).sum := List.sum_nonneg fun x hx => by
      obtain ⟨i, hi, rfl⟩ := List.mem_map.mp hx
      exact h0 i (List.mem_append_right _ hi)
    have h1' := h1.mono (Nat.add_le_add_left (le_max_left a.height b.height) k)
    have h2' := h2.mono (Nat.add_le_add_left (le_max_right a.height b.height) k)
    rw [SumTree.eval, SumTree.height, List.map_append, List.sum_append]
    exact (h1'.add h2' p1 p2).rd R

/-! ### Entropy of counts -/

/-- The probability of a count as it reaches the logarithm. -/
noncomputable def probR (fl : ℝ → ℝ) (ord : List ℝ → SumTree) (h : List Nat) (c : Nat) : ℝ :=
  fl (fl ((c : ℝ) / (h.sum : ℝ)) / (ord (normaliseR fl h)).eval fl)

theorem counts_sum {h : List Nat} (hs : 0 < h.sum) : (h.map fun c : Nat => (c : ℝ) / (h.sum : ℝ)).sum = 1 := by
  have e : ∀ l : List Nat, (l.map fun c : Nat => (c : ℝ) / (h.sum : ℝ)).sum = (l.sum : ℝ) / h.sum := by
    intro l
    induction l with
    | nil => simp
    | cons a l ih => rw [List.map_cons, List.sum_cons, ih, List.sum_cons, Nat.cast_add, add_div]
  rw [e, div_self]
  exact_mod_cast hs.ne'

theorem total_within (R : Rounding fl) (ho : IsSum ord) {h : List Nat} (hs : 0 < h.sum) {D : Nat} (hD : Depth ord h.length D) :
    Within (D + 1) ((ord (normaliseR fl h)).eval fl) 1 := by
  have hne : normaliseR fl h ≠ [] := by
    unfold normaliseR
    intro hc
    rw [List.map_eq_nil_iff] at hc
    rw [hc] at hs
    simp at hs
  obtain ⟨l, hl, hp⟩ := perm_map (ho _ hne)
  have hw := within_sum R (k := 1) (A := fun c : Nat => (c : ℝ) / (h.sum : ℝ)) _ l hl (fun c _ => (Within.refl _).rd R)
    fun c _ => by positivity
  rw [(hp.map _).sum_eq, counts_sum hs] at hw
  refine hw.mono ?_
  have := hD (h.map fun c : Nat => fl ((c : ℝ) / (h.sum : ℝ))) (by simp)
  omega

theorem prob_within (R : Rounding fl) (ho : IsSum ord) {h : List Nat} (hs : 0 < h.sum) {D : Nat} (hD : Depth ord h.length D) (c : Nat) :
    Within (D + 3) (probR fl ord h c) ((c : ℝ) / (h.sum : ℝ)) := by
  have h1 : Within 1 (fl ((c : ℝ) / (h.sum : ℝ))) ((c : ℝ) / (h.sum : ℝ)) := (Within.refl _).rd R
  have := (h1.div (total_within R ho hs hD)).rd R
  rw [div_one] at this
  exact this.mono (by omega)

theorem entropyR_eq (h : List Nat) :
    entropyR fl ln ord (normaliseR fl h) = (ord (h.map fun c => entrR fl ln (probR fl ord h c))).eval fl := by
  unfold entropyR
  congr 2
  conv_lhs => rw [normaliseR]
  rw [List.map_map]
  rfl

theorem entropy_normalise {h : List Nat} (hs : 0 < h.sum) :
    entropy (normalise h) = (h.map fun c : Nat => Real.negMulLog ((c : ℝ) / (h.sum : ℝ))).sum := by
  unfold entropy
  have : (normalise h).sum = 1 := counts_sum hs
  rw [this]
  unfold normalise
  rw [List.map_map]
  simp [Function.comp_def]

theorem count_le {h : List Nat} {c : Nat} (hc : c ∈ h) (hs : 0 < h.sum) : (c : ℝ) / (h.sum : ℝ) ≤ 1 := by
  rw [div_le_one (by exact_mod_cast hs)]
  exact_mod_cast List.single_le_sum (fun _ _ => Nat.zero_le _) c hc

theorem sum_map_add' {ι : Type} (l : List ι) (f g : ι → ℝ) : (l.map fun i => f i + g i).sum = (l.map f).sum + (l.map g).sum := by
  induction l with
  | nil => simp
  | cons a l ih => simp only [List.map_cons, List.sum_cons, ih]; ring

theorem entropy_near (R : Rounding fl) {κ D : Nat} (hl : LogAcc κ ln) (ho : IsSum ord) {h : List Nat} (hs : 0 < h.sum)
    (hD : Depth ord h.length D) :
    Near (wu ^ (3 * D + 8 + κ)) (entropyR fl ln ord (normaliseR fl h)) (entropy (normalise h)) (entropy (normalise h) + 1) := by
  have hne : (h.map fun c => entrR fl ln (probR fl ord h c)) ≠ [] := by
    intro hc
    rw [List.map_eq_nil_iff] at hc
    rw [hc] at hs
    simp at hs
  rw [entropyR_eq]
  obtain ⟨l, hl', hp⟩ := perm_map (ho _ hne)
  have hn := near_sum R (g := wu ^ (2 * (D + 3) + 2 + κ)) (A := fun c : Nat => Real.negMulLog ((c : ℝ) / (h.sum : ℝ)))
    (p := fun c : Nat => Real.negMulLog ((c : ℝ) / (h.sum : ℝ)) + (c : ℝ) / (h.sum : ℝ)) _ l hl'
    fun c hc => entr_near R hl (prob_within R ho hs hD c) (by positivity) (count_le (hp.mem_iff.mp hc) hs)
  rw [(hp.map _).sum_eq, (hp.map _).sum_eq, sum_map_add', counts_sum hs, ← entropy_normalise hs] at hn
  refine hn.mono ?_
  rw [← pow_add]
  refine wu_pow_mono ?_
  have := hD (h.map fun c => entrR fl ln (probR fl ord h c)) (by simp)
  omega

/-- C113. The computed entropy of a histogram differs from the exact one by at most a few roundings, for every order of summation. -/
theorem entropy_round (R : Rounding fl) {κ D : Nat} (hl : LogAcc κ ln) (ho : IsSum ord) {h : List Nat} (hs : 0 < h.sum)
    (hD : Depth ord h.length D) (hk : (3 * D + 8 + κ : ℕ) * u64 ≤ 1 / 2) :
    |entropyR fl ln ord (normaliseR fl h) - entropy (normalise h)| ≤ 2 * (3 * D + 8 + κ : ℕ) * u64 * (entropy (normalise h) + 1) := by
  have := entropy_near R hl ho hs hD
  exact this.2.2.trans (mul_le_mul_of_nonneg_right (wu_small hk) this.pos)

end Verif.Info
