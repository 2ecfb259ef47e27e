import Verif.Model.RoundSum
import Verif.Props.RoundDist

/-!
# C100: sums, simulated paths and indicators computed with rounding
-/

namespace Verif.Round

open SumTree

variable {fl : ℝ → ℝ}

/-- C100. Without rounding these are the functions of the other models. -/
theorem round_sum_id_agrees :
    (∀ t : SumTree, t.eval id = t.leaves.sum) ∧ (∀ a : Arr, cumsumR id a = a.cumsum) ∧
    (∀ up down, rsiOfR id up down = Ind.rsiOf up down) ∧ (∀ b : Ind.Bands, upperR id b = b.upper ∧ lowerR id b = b.lower) := by
  have hr : ∀ x, rnd id x = x := fun x => by cases x <;> rfl
  refine ⟨fun t => ?_, fun a => ?_, fun up down => ?_, fun b => ⟨?_, ?_⟩⟩
  · induction t with
    | leaf x => simp [eval, leaves]
    | node l r hl hr => rw [eval, leaves, List.sum_append, id, hl, hr]
  · unfold cumsumR Arr.cumsum
    congr 1
    funext k
    generalize k / a.cols = t
    induction t with
    | zero => simp [pathR]
    | succ t ih => rw [pathR, ih, Finset.sum_range_succ _ (t + 1)]; rfl
  · unfold rsiOfR Ind.rsiOf
    simp only [hr]
  · unfold upperR Ind.Bands.upper Ind.Bands.halfWidth
    simp only [hr]
  · unfold lowerR Ind.Bands.lower Ind.Bands.halfWidth
    simp only [hr]

/-! ### Sums -/

theorem SumTree.leaves_pos (t : SumTree) : 0 < t.leaves.length := by
  induction t with
  | leaf x => exact Nat.one_pos
  | node l r hl hr => rw [leaves, List.length_append]; omega

theorem SumTree.height_lt (t : SumTree) : t.height < t.leaves.length := by
  induction t with
  | leaf x => exact Nat.one_pos
  | node l r hl hr =>
    rw [height, leaves, List.length_append]
    have := l.leaves_pos
    have := r.leaves_pos
    omega

theorem abs_sum_le' (l : List ℝ) : |l.sum| ≤ (l.map abs).sum := by
  induction l with
  | nil => simp
  | cons a l ih => rw [List.sum_cons, List.map_cons, List.sum_cons]; exact (abs_add_le _ _).trans (by linarith)

theorem abs_sum_nonneg (l : List ℝ) : 0 ≤ (l.map abs).sum :=
  List.sum_nonneg (by intro x hx; obtain ⟨a, -, rfl⟩ := List.mem_map.mp hx; exact abs_nonneg a)

/-- One addition. -/
theorem add_err (h : Rounding fl) {a b A B p q : ℝ} {k : Nat} (ha : |a - A| ≤ ((1 + u64) ^ k - 1) * p)
    (hb : |b - B| ≤ ((1 + u64) ^ k - 1) * q) (hA : |A| ≤ p) (hB : |B| ≤ q) :
    |fl (a + b) - (A + B)| ≤ ((1 + u64) ^ (k + 1) - 1) * (p + q) := by
  have hu := u64_pos
  have r := h.rel (a + b)
  have e1 : |a + b - (A + B)| ≤ ((1 + u64) ^ k - 1) * (p + q) := by
    have : a + b - (A + B) = (a - A) + (b - B) := by ring
    rw [this]
    exact (abs_add_le _ _).trans (by linarith)
  have e2 : |a + b| ≤ (1 + u64) ^ k * (p + q) := by
    calc |a + b| = |(a + b - (A + B)) + (A + B)| := by ring_nf
      _ ≤ |a + b - (A + B)| + |A + B| := abs_add_le _ _
      _ ≤ ((1 + u64) ^ k - 1) * (p + q) + (p + q) := add_le_add e1 ((abs_add_le _ _).trans (add_le_add hA hB))
      _ = _ := by ring
  calc |fl (a + b) - (A + B)| = |(fl (a + b) - (a + b)) + (a + b - (A + B))| := by ring_nf
    _ ≤ _ := abs_add_le _ _
    _ ≤ u64 * ((1 + u64) ^ k * (p + q)) + ((1 + u64) ^ k - 1) * (p + q) :=
        add_le_add (r.trans (mul_le_mul_of_nonneg_left e2 hu.le)) e1
    _ = _ := by rw [pow_succ]; ring

/-- C100. A sum in any order differs from the exact one by at most `(1 + 2^-53)^height - 1` of the sum of the absolute values. -/
theorem sum_round_error (h : Rounding fl) (t : SumTree) :
    |t.eval fl - t.leaves.sum| ≤ ((1 + u64) ^ t.height - 1) * (t.leaves.map abs).sum := by
  have hu := u64_pos
  induction t with
  | leaf x => simp [eval, leaves, height]
  | node l r hl hr =>
    rw [eval, leaves, height, List.sum_append, List.map_append, List.sum_append]
    have mono : ∀ {k m : Nat} {p e : ℝ}, k ≤ m → 0 ≤ p → e ≤ ((1 + u64) ^ k - 1) * p → e ≤ ((1 + u64) ^ m - 1) * p := by
      intro k m p e hkm hp he
      refine he.trans (mul_le_mul_of_nonneg_right ?_ hp)
      linarith [pow_le_pow_right₀ (by linarith : 1 ≤ 1 + u64) hkm]
    exact add_err h (mono (le_max_left _ _) (abs_sum_nonneg _) hl) (mono (le_max_right _ _) (abs_sum_nonneg _) hr) (abs_sum_le' _)
      (abs_sum_le' _)

/-- The factor of the bounds is about the number of additions times `2^-53`. -/
theorem gamma_le {k : Nat} (hk : k * u64 < 1) : (1 + u64) ^ k - 1 ≤ k * u64 / (1 - k * u64) := by
  have hu := u64_pos
  have h1 : (1 + u64) ^ k * (1 - k * u64) ≤ 1 := by
    clear hk
    induction k with
    | zero => simp
    | succ k ih =>
      have hp : 0 < (1 + u64) ^ k := by positivity
      have : (1 + u64) * (1 - (k + 1 : ℕ) * u64) ≤ 1 - k * u64 := by
        push_cast
        nlinarith [mul_nonneg (mul_nonneg hu.le hu.le) (by positivity : (0 : ℝ) ≤ k + 1)]
      calc _ = (1 + u64) ^ k * ((1 + u64) * (1 - (k + 1 : ℕ) * u64)) := by rw [pow_succ]; ring
        _ ≤ (1 + u64) ^ k * (1 - k * u64) := mul_le_mul_of_nonneg_left this hp.le
        _ ≤ 1 := ih
  rw [le_div_iff₀ (by linarith)]
  linarith

/-- C100. The same without the order: whatever the order, the error of a sum of `n` numbers is at most `(n - 1) u / (1 - (n - 1) u)` of
the sum of the absolute values. -/
theorem sum_round_error_any (h : Rounding fl) (t : SumTree) (hn : (t.leaves.length - 1 : ℕ) * u64 < 1) :
    |t.eval fl - t.leaves.sum| ≤
      (t.leaves.length - 1 : ℕ) * u64 / (1 - (t.leaves.length - 1 : ℕ) * u64) * (t.leaves.map abs).sum := by
  have hu := u64_pos
  refine (sum_round_error h t).trans (mul_le_mul_of_nonneg_right (le_trans ?_ (gamma_le hn)) (abs_sum_nonneg _))
  have := t.height_lt
  linarith [pow_le_pow_right₀ (by linarith : 1 ≤ 1 + u64) (by omega : t.height ≤ t.leaves.length - 1)]

/-- C100. Sums of whole numbers are exact in any order while the absolute values add up to at most `2^53`. -/
theorem sum_round_int (h : Rounding fl) (t : SumTree) (ht : ∀ x ∈ t.leaves, ∃ n : ℤ, x = n) (hb : (t.leaves.map abs).sum ≤ 2 ^ 53) :
    t.eval fl = t.leaves.sum := by
  induction t with
  | leaf x => simp [eval, leaves]
  | node l r hl hr =>
    rw [leaves, List.map_append, List.sum_append] at hb
    have l0 := abs_sum_nonneg l.leaves
    have r0 := abs_sum_nonneg r.leaves
    rw [eval, leaves, List.sum_append, hl (fun x hx => ht x (List.mem_append_left _ hx)) (by linarith),
      hr (fun x hx => ht x (List.mem_append_right _ hx)) (by linarith)]
    have hint : ∀ l : List ℝ, (∀ x ∈ l, ∃ n : ℤ, x = n) → ∃ n : ℤ, l.sum = n := by
      intro l
      induction l with
      | nil => exact fun _ => ⟨0, by simp⟩
      | cons a l ih =>
        intro hl
        obtain ⟨m, hm⟩ := hl a List.mem_cons_self
        obtain ⟨k, hk⟩ := ih fun x hx => hl x (List.mem_cons_of_mem _ hx)
        exact ⟨m + k, by rw [List.sum_cons, hm, hk]; push_cast; rfl⟩
    obtain ⟨m, hm⟩ := hint l.leaves fun x hx => ht x (List.mem_append_left _ hx)
    obtain ⟨k, hk⟩ := hint r.leaves fun x hx => ht x (List.mem_append_right _ hx)
    have e : l.leaves.sum + r.leaves.sum = ((m + k : ℤ) : ℝ) := by rw [hm, hk]; push_cast; rfl
    have hle : |l.leaves.sum + r.leaves.sum| ≤ 2 ^ 53 :=
      (abs_add_le _ _).trans (by linarith [abs_sum_le' l.leaves, abs_sum_le' r.leaves])
    rw [e] at hle ⊢
    exact h.int _ (by exact_mod_cast hle)

/-- C100. The mean of `n` numbers in any order, with its division. -/
theorem mean_round_error (h : Rounding fl) (t : SumTree) :
    |meanR fl t - t.leaves.sum / t.leaves.length| ≤ ((1 + u64) ^ (t.height + 1) - 1) * ((t.leaves.map abs).sum / t.leaves.length) := by
  have hu := u64_pos
  have hn : (0 : ℝ) < t.leaves.length := by exact_mod_cast t.leaves_pos
  have e1 : |t.eval fl / t.leaves.length - t.leaves.sum / t.leaves.length| ≤
      ((1 + u64) ^ t.height - 1) * ((t.leaves.map abs).sum / t.leaves.length) := by
    rw [← sub_div, abs_div, abs_of_pos hn, ← mul_div_assoc]
    exact div_le_div_of_nonneg_right (sum_round_error h t) hn.le
  have hA : |t.leaves.sum / t.leaves.length| ≤ (t.leaves.map abs).sum / t.leaves.length := by
    rw [abs_div, abs_of_pos hn]
    exact div_le_div_of_nonneg_right (abs_sum_le' _) hn.le
  have := add_err h (b := 0) (B := 0) (q := 0) e1 (by simp) hA (by simp)
  simpa [meanR] using this

/-! ### Constant series -/

/-- The float nearest to one tenth. -/
noncomputable def tenth : ℝ := (7205759403792794 : ℤ) * 2 ^ (-56 : ℤ)

theorem tenth_float : b64 (1 / 10) = tenth := by
  unfold tenth
  refine b64_eq ?_ ?_ ?_ <;> norm_num [abs_lt]

theorem SumTree.one_leaf {t : SumTree} (h : t.leaves.length = 1) : ∃ x, t = leaf x := by
  cases t with
  | leaf x => exact ⟨x, rfl⟩
  | node l r =>
    rw [leaves, List.length_append] at h
    have := l.leaves_pos
    have := r.leaves_pos
    omega

theorem SumTree.two_leaves {t : SumTree} (h : t.leaves.length = 2) : ∃ x y, t = node (leaf x) (leaf y) := by
  cases t with
  | leaf x => cases h
  | node l r =>
    rw [leaves, List.length_append] at h
    have := l.leaves_pos
    have := r.leaves_pos
    obtain ⟨x, rfl⟩ := SumTree.one_leaf (t := l) (by omega)
    obtain ⟨y, rfl⟩ := SumTree.one_leaf (t := r) (by omega)
    exact ⟨x, y, rfl⟩

/-- The two orders of three numbers. -/
theorem SumTree.three_leaves {t : SumTree} (h : t.leaves.length = 3) :
    (∃ x y z, t = node (leaf x) (node (leaf y) (leaf z))) ∨ ∃ x y z, t = node (node (leaf x) (leaf y)) (leaf z) := by
  cases t with
  | leaf x => cases h
  | node l r =>
    rw [leaves, List.length_append] at h
    have := l.leaves_pos
    have := r.leaves_pos
    by_cases hl : l.leaves.length = 1
    · obtain ⟨x, rfl⟩ := SumTree.one_leaf hl
      obtain ⟨y, z, rfl⟩ := SumTree.two_leaves (t := r) (by omega)
      exact .inl ⟨x, y, z, rfl⟩
    · obtain ⟨x, y, rfl⟩ := SumTree.two_leaves (t := l) (by omega)
      obtain ⟨z, rfl⟩ := SumTree.one_leaf (t := r) (by omega)
      exact .inr ⟨x, y, z, rfl⟩

/-- C100. The mean of three prices of 0.1 is not 0.1, in whatever order they are added. -/
theorem constant_mean_off (t : SumTree) (ht : t.leaves = [tenth, tenth, tenth]) : meanR b64 t = tenth + 2 ^ (-56 : ℤ) := by
  have hf : b64 tenth = tenth := by rw [← tenth_float, b64_idem]
  have h2 : b64 (tenth + tenth) = 2 * tenth := by rw [← two_mul, b64_two, hf]
  have h3 : b64 (2 * tenth + tenth) = (5404319552844596 : ℤ) * 2 ^ (-54 : ℤ) := by
    have := b64_tie (k := 5404319552844595) (e := -54) (by norm_num) (by norm_num) (by decide)
    have e : 2 * tenth + tenth = (((5404319552844595 : ℤ) : ℝ) + 1 / 2) * 2 ^ (-54 : ℤ) := by unfold tenth; norm_num
    rw [e, this]
    norm_num
  have h4 : t.eval b64 = (5404319552844596 : ℤ) * 2 ^ (-54 : ℤ) := by
    rcases SumTree.three_leaves (t := t) (by rw [ht]; rfl) with ⟨x, y, z, rfl⟩ | ⟨x, y, z, rfl⟩
    · simp only [leaves, List.cons_append, List.nil_append, List.cons.injEq, and_true] at ht
      obtain ⟨rfl, rfl, rfl⟩ := ht
      rw [eval, eval, eval, eval, h2, add_comm, h3]
    · simp only [leaves, List.cons_append, List.nil_append, List.cons.injEq, and_true] at ht
      obtain ⟨rfl, rfl, rfl⟩ := ht
      rw [eval, eval, eval, eval, h2, h3]
  unfold meanR
  rw [h4, ht]
  have : b64 ((5404319552844596 : ℤ) * 2 ^ (-54 : ℤ) / (([tenth, tenth, tenth] : List ℝ).length : ℝ)) = (7205759403792795 : ℤ) * 2 ^ (-56 : ℤ) := by
    refine b64_eq ?_ ?_ ?_ <;> norm_num [abs_lt]
  rw [this]
  unfold tenth
  norm_num

theorem SumTree.eval_nonneg (h : Rounding fl) (t : SumTree) (ht : ∀ x ∈ t.leaves, 0 ≤ x) : 0 ≤ t.eval fl := by
  induction t with
  | leaf x => exact ht x (by simp [leaves])
  | node l r hl hr =>
    exact h.nonneg (add_nonneg (hl fun x hx => ht x (List.mem_append_left _ hx)) (hr fun x hx => ht x (List.mem_append_right _ hx)))

theorem SumTree.eval_pos (h : Rounding fl) (t : SumTree) (ht : ∀ x ∈ t.leaves, 0 < x) : 0 < t.eval fl := by
  induction t with
  | leaf x => exact ht x (by simp [leaves])
  | node l r hl hr =>
    exact h.pos (add_pos (hl fun x hx => ht x (List.mem_append_left _ hx)) (hr fun x hx => ht x (List.mem_append_right _ hx)))

theorem SumTree.leaves_map (f : ℝ → ℝ) (t : SumTree) : (t.map f).leaves = t.leaves.map f := by
  induction t with
  | leaf x => rfl
  | node l r hl hr => rw [SumTree.map, leaves, hl, hr, leaves, List.map_append]

/-- C100. So a series of three equal prices has a positive standard deviation: with a deviation of zero the code would return `nan` or
divide by zero, with rounding it returns a number made of rounding errors. -/
theorem constant_std_positive (t : SumTree) (ht : t.leaves = [tenth, tenth, tenth]) : 0 < sqDevR b64 t ∧ sqDevR id t = 0 := by
  have h := b64_rounding
  constructor
  · refine SumTree.eval_pos h _ fun x hx => ?_
    rw [SumTree.leaves_map, ht, constant_mean_off t ht] at hx
    have e : tenth - (tenth + 2 ^ (-56 : ℤ)) = -2 ^ (-56 : ℤ) := by ring
    have hx' : x = b64 (b64 (-2 ^ (-56 : ℤ)) ^ 2) := by
      simpa [e] using hx
    rw [hx']
    refine h.pos (sq_pos_of_ne_zero ?_)
    rw [Ne, h.eq_zero]
    norm_num
  · have hm : meanR id t = tenth := by
      unfold meanR
      rw [round_sum_id_agrees.1, ht]
      simp
      ring
    unfold sqDevR
    rw [round_sum_id_agrees.1, SumTree.leaves_map, ht, hm]
    simp

/-! ### Paths -/

variable {d : Nat → ℝ}

/-- C100. A simulated path: after `t` steps the rounding errors add up to at most `(1 + 2^-53)^t - 1` of the sum of the absolute values of
the start and the increments. -/
theorem path_round_error (h : Rounding fl) (d : Nat → ℝ) (t : Nat) :
    |pathR fl d t - ∑ s ∈ Finset.range (t + 1), d s| ≤ ((1 + u64) ^ t - 1) * ∑ s ∈ Finset.range (t + 1), |d s| := by
  have hu := u64_pos
  induction t with
  | zero => simp [pathR]
  | succ t ih =>
    rw [pathR, Finset.sum_range_succ _ (t + 1), Finset.sum_range_succ (fun s => |d s|) (t + 1)]
    refine add_err h ih ?_ (Finset.abs_sum_le_sum_abs _ _) le_rfl
    rw [sub_self, abs_zero]
    have : 1 ≤ (1 + u64) ^ t := one_le_pow₀ (by linarith)
    exact mul_nonneg (by linarith) (abs_nonneg _)

/-- C100. One step of a path is wrong by at most half a unit of the new value. -/
theorem path_round_step (h : Rounding fl) (d : Nat → ℝ) (t : Nat) :
    |pathR fl d (t + 1) - pathR fl d t - d (t + 1)| ≤ u64 * |pathR fl d t + d (t + 1)| := by
  have := h.rel (pathR fl d t + d (t + 1))
  rw [pathR]
  have e : fl (pathR fl d t + d (t + 1)) - pathR fl d t - d (t + 1) = fl (pathR fl d t + d (t + 1)) - (pathR fl d t + d (t + 1)) := by ring
  rwa [e]

/-- Every value of a path started at a float is a float. -/
theorem path_float (h : Rounding fl) (h0 : fl (d 0) = d 0) (t : Nat) : fl (pathR fl d t) = pathR fl d t := by
  cases t with
  | zero => exact h0
  | succ t => exact h.idem _

/-- C100. Rounding keeps directions: a step up never lowers the path, a step down never raises it. -/
theorem path_round_direction (h : Rounding fl) (h0 : fl (d 0) = d 0) (t : Nat) :
    (0 ≤ d (t + 1) → pathR fl d t ≤ pathR fl d (t + 1)) ∧ (d (t + 1) ≤ 0 → pathR fl d (t + 1) ≤ pathR fl d t) := by
  have hf := path_float h h0 t
  constructor <;> intro hd
  · calc pathR fl d t = fl (pathR fl d t) := hf.symm
      _ ≤ fl (pathR fl d t + d (t + 1)) := h.mono (by linarith)
  · calc fl (pathR fl d t + d (t + 1)) ≤ fl (pathR fl d t) := h.mono (by linarith)
      _ = pathR fl d t := hf

/-- C100. A path of whole numbers is exact. -/
theorem path_round_int (h : Rounding fl) (hd : ∀ s, ∃ n : ℤ, d s = n) (t : Nat) (hb : ∑ s ∈ Finset.range (t + 1), |d s| ≤ 2 ^ 53) :
    pathR fl d t = ∑ s ∈ Finset.range (t + 1), d s := by
  choose g hg using hd
  induction t with
  | zero => simp [pathR]
  | succ t ih =>
    have hb' := hb
    rw [Finset.sum_range_succ _ (t + 1)] at hb'
    rw [pathR, ih (by linarith [abs_nonneg (d (t + 1))]), ← Finset.sum_range_succ]
    have e : ∑ s ∈ Finset.range (t + 1 + 1), d s = ((∑ s ∈ Finset.range (t + 1 + 1), g s : ℤ) : ℝ) := by
      push_cast
      exact Finset.sum_congr rfl fun s _ => hg s
    have hle := (Finset.abs_sum_le_sum_abs d (Finset.range (t + 1 + 1))).trans hb
    rw [e] at hle ⊢
    exact h.int _ (by exact_mod_cast hle)

/-- C100. Small steps are lost: a path started at `2^53` whose steps lie in `[0, 1)` never moves, whatever their sum. -/
theorem path_round_stuck (h0 : d 0 = 2 ^ 53) (hd : ∀ s, 0 ≤ d (s + 1) ∧ d (s + 1) < 1) (t : Nat) : pathR b64 d t = 2 ^ 53 := by
  induction t with
  | zero => exact h0
  | succ t ih =>
    rw [pathR, ih]
    obtain ⟨a, b⟩ := hd t
    have : b64 (2 ^ 53 + d (t + 1)) = (2 ^ 52 : ℤ) * 2 ^ (1 : ℤ) := by
      refine b64_eq ?_ ?_ ?_
      · norm_num; linarith
      · norm_num; linarith
      · rw [abs_lt]; constructor <;> norm_num <;> linarith
    rw [this]
    norm_num

/-- C100. Geometric paths stay positive. -/
theorem gbm_round_pos (h : Rounding fl) (d : Nat → ℝ) (t : Nat) : 0 < fl (Real.exp (pathR fl d t)) := h.pos (Real.exp_pos _)

/-! ### Indicators -/

/-- C100. The relative strength index of rounded averages: between 0 and 100, and missing exactly if there was no movement. -/
theorem rsi_round_range (h : Rounding fl) {up down : ℝ} (hu : fl up = up) (h1 : 0 ≤ up) (h2 : 0 ≤ down) :
    (up = 0 ∧ down = 0 ∧ rsiOfR fl [.fin up] [.fin down] = [.nan]) ∨
    ∃ r, 0 ≤ r ∧ r ≤ 100 ∧ rsiOfR fl [.fin up] [.fin down] = [.fin r] := by
  have e : rsiOfR fl [.fin up] [.fin down] = [rnd fl (.fin 100 * rnd fl (.fin up / .fin (fl (up + down))))] := rfl
  rw [e]
  by_cases h0 : fl (up + down) = 0
  · have hz := h.eq_zero.mp h0
    have hup : up = 0 := by linarith
    refine .inl ⟨hup, by linarith, ?_⟩
    rw [h0, hup]
    show [rnd fl (.fin 100 * rnd fl (if (0 : ℝ) = 0 then XF.infSign 0 else _))] = _
    rw [if_pos rfl]
    unfold XF.infSign
    rw [if_neg (lt_irrefl _), if_neg (lt_irrefl _)]
    rfl
  · have hs : 0 < fl (up + down) := lt_of_le_of_ne (h.nonneg (by linarith)) (Ne.symm h0)
    have hle : up ≤ fl (up + down) := by
      calc up = fl up := hu.symm
        _ ≤ _ := h.mono (by linarith)
    have q0 : 0 ≤ fl (up / fl (up + down)) := h.nonneg (div_nonneg h1 hs.le)
    have q1 : fl (up / fl (up + down)) ≤ 1 := h.le_one ((div_le_one hs).mpr hle)
    have h100 : fl 100 = 100 := by simpa using h.int 100 (by norm_num)
    refine .inr ⟨fl (100 * fl (up / fl (up + down))), h.nonneg (by linarith), (h.mono (show 100 * fl (up / fl (up + down)) ≤ 100 by linarith)).trans h100.le, ?_⟩
    show [rnd fl (.fin 100 * rnd fl (if fl (up + down) = 0 then _ else _))] = _
    rw [if_neg h0]
    rfl

/-- C100. The bands around a rounded mean keep their order: lower, middle, upper, for every deviation and multiplier that are not
negative. -/
theorem bands_round_order (h : Rounding fl) {m s k : ℝ} (hm : fl m = m) (hs : 0 ≤ s) (hk : 0 ≤ k) (ts : Ser) :
    ∃ lo up, lowerR fl ⟨ts, [.fin m], [.fin s], k⟩ = [.fin lo] ∧ upperR fl ⟨ts, [.fin m], [.fin s], k⟩ = [.fin up] ∧ lo ≤ m ∧ m ≤ up := by
  have hw : 0 ≤ fl (s * k) := h.nonneg (mul_nonneg hs hk)
  refine ⟨fl (m + -fl (s * k)), fl (m + fl (s * k)), rfl, rfl, ?_, ?_⟩
  · calc fl (m + -fl (s * k)) ≤ fl m := h.mono (by linarith)
      _ = m := hm
  · calc m = fl m := hm.symm
      _ ≤ _ := h.mono (by linarith)

/-! ### Cases -/

/-- A day of prices in cents: any order of adding them is exact. -/
example (t : SumTree) (ht : t.leaves = [10012, 10017, 9998, 10003]) : t.eval b64 = 40030 := by
  rw [sum_round_int b64_rounding t, ht]
  · norm_num
  · rw [ht]
    simp only [List.mem_cons, List.not_mem_nil, or_false]
    rintro x (rfl | rfl | rfl | rfl)
    · exact ⟨10012, by norm_num⟩
    · exact ⟨10017, by norm_num⟩
    · exact ⟨9998, by norm_num⟩
    · exact ⟨10003, by norm_num⟩
  · rw [ht]
    norm_num

example : ∃ t : SumTree, t.leaves = [tenth, tenth, tenth] ∧ meanR b64 t ≠ tenth :=
  ⟨.node (.leaf tenth) (.node (.leaf tenth) (.leaf tenth)), rfl, by
    rw [constant_mean_off _ rfl]
    norm_num⟩

/-- An index after gains of 1 and losses of 3. -/
example : ∃ r, 0 ≤ r ∧ r ≤ 100 ∧ rsiOfR b64 [.fin 1] [.fin 3] = [.fin r] := by
  rcases rsi_round_range b64_rounding (down := 3) b64_rounding.one one_pos.le (by norm_num) with ⟨h, -⟩ | h
  · norm_num at h
  · exact h

/-- A thousand steps of a half are lost. -/
example : pathR b64 (fun s => if s = 0 then 2 ^ 53 else 1 / 2) 1000 = 2 ^ 53 :=
  path_round_stuck rfl (fun s => by norm_num) 1000

end Verif.Round
