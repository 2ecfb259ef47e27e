import Verif.Props.InfoBins
import Mathlib.Data.Fin.VecNotation
import Mathlib.Tactic.FinCases

/-!
# C47: matrices of information distances; C44: the triangle inequality with automatic bins
-/

namespace Verif.Info

open Verif.Ent
open Verif.Dist (Constant corrcoef coSum)

/-! ### The triangle inequality fails with automatic bins -/

/-- C44. Where normalised variation of information is a number, it is zero under the same condition. -/
theorem vi_norm_zero_iff {n : Nat} (hn : 2 ≤ n) {b : Int} (hb : 1 ≤ b) (u w : Fin n → ℝ)
    (h : ¬ (b = 1 ∨ ((∀ i j, u i = u j) ∧ ∀ i j, w i = w j))) :
    varInfo (some b) true (sample u) (sample w) = .ok (.fin 0) ↔
      ∀ i j, lab b.toNat u i = lab b.toNat u j ↔ lab b.toNat w i = lab b.toNat w j := by
  rw [← vi_zero_iff hn hb]
  obtain ⟨r, hr, -, -⟩ := (vi_range hn hb u w).2.2 h
  rw [hr]
  rw [(info_eq hn hb true u w).2] at hr
  rw [(info_eq hn hb false u w).2]
  simp only [if_true, Bool.false_eq_true, if_false, Except.ok.injEq, XF.fin.injEq] at hr ⊢
  unfold divX at hr
  by_cases hq : (H fun i => (lab b.toNat u i, lab b.toNat w i)) = 0
  · rw [if_pos hq] at hr
    by_cases hp : 2 * (H fun i => (lab b.toNat u i, lab b.toNat w i)) - H (lab b.toNat u) - H (lab b.toNat w) = 0
    · rw [if_pos hp] at hr; cases hr
    · rw [if_neg hp] at hr
      by_cases hp' : 0 < 2 * (H fun i => (lab b.toNat u i, lab b.toNat w i)) - H (lab b.toNat u) - H (lab b.toNat w)
      · rw [if_pos hp'] at hr; cases hr
      · rw [if_neg hp'] at hr; cases hr
  · rw [if_neg hq] at hr
    rw [← XF.fin.inj hr, div_eq_zero_iff]
    constructor
    · rintro (h | h)
      · exact h
      · exact absurd h hq
    · exact .inl

/-- The automatic number of bins from the sums of products. -/
theorem binsFromXY_eq {x y : List ℝ} (hl : x.length = y.length) {p q c : ℝ} (hp : coSum x x = p) (hq : coSum y y = q)
    (hc : coSum x y = c) (hp0 : 0 < p) (hq0 : 0 < q) (hlt : c ^ 2 < p * q) (hfar : c ^ 2 < (99 / 100) ^ 2 * (p * q)) {k : Nat}
    (hk : 2 ≤ k)
    (h1 : ((k : ℝ) - 1 / 2) ^ 2 * (((k : ℝ) - 1 / 2) ^ 2 - 1) < 6 * x.length / (1 - c ^ 2 / (p * q)))
    (h2 : 6 * x.length / (1 - c ^ 2 / (p * q)) < ((k : ℝ) + 1 / 2) ^ 2 * (((k : ℝ) + 1 / 2) ^ 2 - 1)) :
    binsFromXY x y = .ok k := by
  have hpq : 0 < p * q := mul_pos hp0 hq0
  set ρ := c / (Real.sqrt p * Real.sqrt q) with hρ
  have hρ2 : ρ ^ 2 = c ^ 2 / (p * q) := by
    rw [hρ, div_pow, mul_pow, Real.sq_sqrt hp0.le, Real.sq_sqrt hq0.le]
  have hρ1 : ρ ^ 2 < 1 := by rw [hρ2, div_lt_one hpq]; exact hlt
  have hρ99 : ρ ^ 2 < (99 / 100) ^ 2 := by rw [hρ2, div_lt_iff₀ hpq]; exact hfar
  obtain ⟨l1, l2⟩ := abs_lt.mp ((sq_lt_one_iff_abs_lt_one ρ).mp hρ1)
  have hcc : corrcoef x y = .ok (.fin ρ) := by
    unfold corrcoef
    rw [if_neg (not_not.mpr hl), hp, hq, hc, if_neg (by rw [not_or]; exact ⟨hp0.ne', hq0.ne'⟩), Dist.clamp_eq, ← hρ,
      Dist.clampR_of_mem l1.le l2.le]
  have hnear : ρ < 99 / 100 := by
    by_contra h
    push Not at h
    have : (99 / 100 : ℝ) ^ 2 ≤ ρ ^ 2 := pow_le_pow_left₀ (by norm_num) h 2
    linarith
  unfold binsFromXY
  rw [hcc]
  simp only [bind, Except.bind]
  rw [if_neg]
  · unfold optimalBins
    dsimp only
    rw [if_neg hρ1.ne]
    obtain ⟨b1, b2⟩ := bivValue_spec x.length hρ1
    rw [← hρ2] at h1 h2
    rw [← b2] at h1 h2
    have hkr : (2 : ℝ) ≤ k := by exact_mod_cast hk
    congr 1
    apply pyRound_eq
    · push_cast
      exact quartic_strict (by linarith) b1 h1
    · push_cast
      exact quartic_strict b1 (by linarith) h2
  · rintro (h | h)
    · linarith
    · rw [abs_lt] at h
      norm_num at h
      linarith [h.1]

/-- The bins of one value between the smallest and the largest. -/
theorem lab_of {n : Nat} {b : Nat} {u : Fin n → ℝ} {p q : ℝ} (h1 : lo (List.ofFn u) = p) (h2 : hi (List.ofFn u) = q)
    (hpq : p < q) {i : Fin n} {k : Nat} (hk : k < b) (ha : (k : ℝ) * (q - p) ≤ (u i - p) * b)
    (hb : (u i - p) * b < (k + 1) * (q - p) ∨ (k = b - 1)) : lab b u i = k := by
  have ho : outer (List.ofFn u) = (p, q) := by unfold outer; rw [h1, h2, if_neg hpq.ne]
  have hd : 0 < q - p := by linarith
  unfold lab binOf
  rw [ho]
  dsimp only
  have e : (u i - p) / (q - p) * b = (u i - p) * b / (q - p) := by ring
  rw [e]
  have hlow : k ≤ ⌊(u i - p) * b / (q - p)⌋₊ := Nat.le_floor (by rw [le_div_iff₀ hd]; exact ha)
  rcases hb with hb | hb
  · have : ⌊(u i - p) * b / (q - p)⌋₊ < k + 1 := by
      rw [Nat.floor_lt (le_trans (Nat.cast_nonneg k) (by rw [le_div_iff₀ hd]; exact ha)), div_lt_iff₀ hd]
      push_cast
      exact hb
    omega
  · omega

/-- Three samples of four observations. -/
def tx : Fin 4 → ℝ := ![0, 0, 1, 3]
/-- See `tx`. -/
def ty : Fin 4 → ℝ := ![0, 0, 2, 3]
/-- See `tx`. -/
def tz : Fin 4 → ℝ := ![0, 0, 3, 2]

/-- C44. With the automatic number of bins, which is the default, variation of information does not satisfy the triangle
inequality, because the bins differ from pair to pair: here the first and the second, and the second and the third
sample have distance zero, but the first and the third have not. -/
theorem vi_auto_triangle_fails : ∃ r : ℝ, 0 < r ∧
    varInfo none true (sample tx) (sample ty) = .ok (.fin 0) ∧ varInfo none true (sample ty) (sample tz) = .ok (.fin 0) ∧
    varInfo none true (sample tx) (sample tz) = .ok (.fin r) := by
  have lx : List.ofFn tx = [0, 0, 1, 3] := by simp [tx, List.ofFn_succ]
  have ly : List.ofFn ty = [0, 0, 2, 3] := by simp [ty, List.ofFn_succ]
  have lz : List.ofFn tz = [0, 0, 3, 2] := by simp [tz, List.ofFn_succ]
  have sxx : coSum [0, 0, 1, 3] [0, 0, 1, 3] = 6 := by norm_num [coSum, Dist.mean]
  have syy : coSum [0, 0, 2, 3] [0, 0, 2, 3] = 27 / 4 := by norm_num [coSum, Dist.mean]
  have szz : coSum [0, 0, 3, 2] [0, 0, 3, 2] = 27 / 4 := by norm_num [coSum, Dist.mean]
  have sxy : coSum [0, 0, 1, 3] [0, 0, 2, 3] = 6 := by norm_num [coSum, Dist.mean]
  have syz : coSum [0, 0, 2, 3] [0, 0, 3, 2] = 23 / 4 := by norm_num [coSum, Dist.mean]
  have sxz : coSum [0, 0, 1, 3] [0, 0, 3, 2] = 4 := by norm_num [coSum, Dist.mean]
  have bxy : binsFromXY (List.ofFn tx) (List.ofFn ty) = .ok (4 : Nat) := by
    rw [lx, ly]
    apply binsFromXY_eq (x := [0, 0, 1, 3]) (y := [0, 0, 2, 3]) (by simp) sxx syy sxy <;> norm_num
  have byz : binsFromXY (List.ofFn ty) (List.ofFn tz) = .ok (3 : Nat) := by
    rw [ly, lz]
    apply binsFromXY_eq (x := [0, 0, 2, 3]) (y := [0, 0, 3, 2]) (by simp) syy szz syz <;> norm_num
  have bxz : binsFromXY (List.ofFn tx) (List.ofFn tz) = .ok (3 : Nat) := by
    rw [lx, lz]
    apply binsFromXY_eq (x := [0, 0, 1, 3]) (y := [0, 0, 3, 2]) (by simp) sxx szz sxz <;> norm_num
  have auto : ∀ {u w : Fin 4 → ℝ} {b : Nat}, binsFromXY (List.ofFn u) (List.ofFn w) = .ok (b : Int) →
      varInfo none true (sample u) (sample w) = varInfo (some (b : Int)) true (sample u) (sample w) := by
    intro u w b h
    have hr : resolveBins (sample u) (sample w) none = .ok (b : Int) := by
      unfold resolveBins
      rw [finiteList_sample, finiteList_sample]
      exact h
    unfold varInfo
    rw [hr]; rfl
  have ox : lo (List.ofFn tx) = 0 ∧ hi (List.ofFn tx) = 3 := by rw [lx]; constructor <;> norm_num [lo, hi]
  have oy : lo (List.ofFn ty) = 0 ∧ hi (List.ofFn ty) = 3 := by rw [ly]; constructor <;> norm_num [lo, hi]
  have oz : lo (List.ofFn tz) = 0 ∧ hi (List.ofFn tz) = 3 := by rw [lz]; constructor <;> norm_num [lo, hi]
  have h3 : (0 : ℝ) < 3 := by norm_num
  have x4 : lab 4 tx = ![0, 0, 1, 3] := by
    funext i
    fin_cases i <;> refine lab_of ox.1 ox.2 h3 ?_ ?_ ?_ <;> norm_num [tx]
  have y4 : lab 4 ty = ![0, 0, 2, 3] := by
    funext i
    fin_cases i <;> refine lab_of oy.1 oy.2 h3 ?_ ?_ ?_ <;> norm_num [ty]
  have x3 : lab 3 tx = ![0, 0, 1, 2] := by
    funext i
    fin_cases i <;> refine lab_of ox.1 ox.2 h3 ?_ ?_ ?_ <;> norm_num [tx]
  have y3 : lab 3 ty = ![0, 0, 2, 2] := by
    funext i
    fin_cases i <;> refine lab_of oy.1 oy.2 h3 ?_ ?_ ?_ <;> norm_num [ty]
  have z3 : lab 3 tz = ![0, 0, 2, 2] := by
    funext i
    fin_cases i <;> refine lab_of oz.1 oz.2 h3 ?_ ?_ ?_ <;> norm_num [tz]
  have nx : ¬ ∀ i j, tx i = tx j := fun h => by have : (0 : ℝ) = 3 := h 0 3; norm_num at this
  have ny : ¬ ∀ i j, ty i = ty j := fun h => by have : (0 : ℝ) = 3 := h 0 3; norm_num at this
  rw [auto bxy, auto byz, auto bxz]
  have hxz : ¬ varInfo (some ((3 : Nat) : Int)) true (sample tx) (sample tz) = .ok (.fin 0) := by
    rw [vi_norm_zero_iff (by norm_num) (by norm_num) _ _ (by rintro (h | h); exacts [by norm_num at h, nx h.1])]
    have e : ((3 : Nat) : Int).toNat = 3 := rfl
    rw [e, x3, z3]
    intro h
    have := (h 2 3).mpr (by simp)
    simp at this
  obtain ⟨r, hr, hr0, -⟩ := (vi_range (n := 4) (by norm_num) (b := ((3 : Nat) : Int)) (by norm_num) tx tz).2.2
    (by rintro (h | h); exacts [by norm_num at h, nx h.1])
  refine ⟨r, lt_of_le_of_ne hr0 ?_, ?_, ?_, hr⟩
  · rintro rfl
    exact hxz hr
  · rw [vi_norm_zero_iff (by norm_num) (by norm_num) _ _ (by rintro (h | h); exacts [by norm_num at h, nx h.1])]
    have e : ((4 : Nat) : Int).toNat = 4 := rfl
    rw [e, x4, y4]
    decide
  · rw [vi_norm_zero_iff (by norm_num) (by norm_num) _ _ (by rintro (h | h); exacts [by norm_num at h, ny h.1])]
    have e : ((3 : Nat) : Int).toNat = 3 := rfl
    rw [e, y3, z3]
    intro i j
    rfl

/-! ### C47 -/

theorem mem_combos {m i j : Nat} : (i, j) ∈ combos m ↔ i < j ∧ j < m := by
  unfold combos
  simp only [List.mem_flatMap, List.mem_range, List.mem_map, List.mem_filter, decide_eq_true_eq, Prod.mk.injEq]
  constructor
  · rintro ⟨a, ha, b, ⟨hb, hab⟩, rfl, rfl⟩
    exact ⟨hab, hb⟩
  · rintro ⟨h1, h2⟩
    exact ⟨i, by omega, j, ⟨h2, h1⟩, rfl, rfl⟩

theorem loop_spec {f : List XF → List XF → Py XF} {col : Nat → List XF} : ∀ {ps : List (Nat × Nat)},
    (∀ p ∈ ps, p.1 < p.2) → ∀ {res R : Nat → Nat → XF}, infoLoop f col ps res = .ok R →
    (∀ p ∈ ps, f (col p.1) (col p.2) = .ok (R p.1 p.2) ∧ R p.2 p.1 = R p.1 p.2) ∧
    ∀ a b, (a, b) ∉ ps → (b, a) ∉ ps → R a b = res a b
  | [], _, res, R, h => by cases h; exact ⟨by simp, fun _ _ _ _ => rfl⟩
  | (i, j) :: ps, hp, res, R, h => by
    unfold infoLoop at h
    obtain ⟨v, hv, h⟩ := Sim.bind_inv h
    obtain ⟨h1, h2⟩ := loop_spec (fun p hp' => hp p (List.mem_cons_of_mem _ hp')) h
    have hij : i < j := hp (i, j) (by simp)
    refine ⟨fun p hpm => ?_, fun a b ha hb => ?_⟩
    · by_cases hin : p ∈ ps
      · exact h1 p hin
      · rcases List.mem_cons.mp hpm with rfl | hpm
        · have hsw : (j, i) ∉ ps := fun hm => absurd (hp (j, i) (List.mem_cons_of_mem _ hm)) (by simp; omega)
          dsimp only
          rw [h2 i j hin hsw, h2 j i hsw hin]
          unfold setSym
          rw [if_pos (.inl ⟨rfl, rfl⟩), if_pos (.inr ⟨rfl, rfl⟩)]
          exact ⟨hv, rfl⟩
        · exact absurd hpm hin
    · rw [List.mem_cons, not_or] at ha hb
      rw [h2 a b ha.2 hb.2]
      unfold setSym
      rw [if_neg]
      rintro (⟨rfl, rfl⟩ | ⟨rfl, rfl⟩)
      · exact ha.1 rfl
      · exact hb.1 rfl

theorem loop_error {f : List XF → List XF → Py XF} {col : Nat → List XF} : ∀ {ps : List (Nat × Nat)}
    {res : Nat → Nat → XF} {e : PyErr}, infoLoop f col ps res = .error e → ∃ p ∈ ps, f (col p.1) (col p.2) = .error e
  | [], res, e, h => by cases h
  | (i, j) :: ps, res, e, h => by
    unfold infoLoop at h
    cases hv : f (col i) (col j) with
    | error e' =>
      rw [hv] at h
      cases h
      exact ⟨(i, j), by simp, hv⟩
    | ok v =>
      rw [hv] at h
      obtain ⟨p, hp, hpe⟩ := loop_error (ps := ps) h
      exact ⟨p, List.mem_cons_of_mem _ hp, hpe⟩

/-- C47. The entries of the matrix: the measure of the two columns off the diagonal, for both orders, and a fixed number
on the diagonal. -/
theorem info_matrix_entries {fn : InfoFn} {bins : Option Int} {norm : Bool} {cols : List (List XF)} {R : Nat → Nat → XF}
    (h : infoDistanceMatrix fn bins norm cols = .ok R) :
    2 ≤ cols.length ∧
    (∀ i j, i < cols.length → j < cols.length → i ≠ j →
      fn.call bins norm (cols.getD i []) (cols.getD j []) = .ok (R i j) ∧ R i j = R j i) ∧
    ∀ i < cols.length, R i i = .fin (if fn = .mi then 1 else 0) := by
  unfold infoDistanceMatrix at h
  by_cases hc : cols.length < 2
  · rw [if_pos hc] at h; cases h
  rw [if_neg hc] at h
  obtain ⟨res, hres, h⟩ := Sim.bind_inv h
  obtain ⟨l1, l2⟩ := loop_spec (fun p hp => (mem_combos.mp hp).1) hres
  have hR : ∀ i j, i ≠ j → R i j = res i j := by
    intro i j hij
    by_cases hf : fn = .mi
    · rw [if_pos hf] at h; cases h; simp [hij]
    · rw [if_neg hf] at h; cases h; rfl
  have hsym : ∀ {x y : List XF} {v : XF}, fn.call bins norm x y = .ok v → fn.call bins norm y x = .ok v := by
    intro x y v hv
    cases fn with
    | mi => exact info_symm.1.mp hv
    | vi => exact info_symm.2.mp hv
  refine ⟨by omega, fun i j hi hj hij => ?_, fun i hi => ?_⟩
  · rw [hR i j hij, hR j i hij.symm]
    rcases Nat.lt_or_gt_of_ne hij with hlt | hlt
    · obtain ⟨a, b⟩ := l1 (i, j) (mem_combos.mpr ⟨hlt, hj⟩)
      exact ⟨a, b.symm⟩
    · obtain ⟨a, b⟩ := l1 (j, i) (mem_combos.mpr ⟨hlt, hi⟩)
      dsimp only at a b
      rw [b]
      exact ⟨hsym a, rfl⟩
  · by_cases hf : fn = .mi
    · rw [if_pos hf] at h ⊢; cases h; simp
    · rw [if_neg hf] at h ⊢
      cases h
      rw [l2 i i (fun h => by have := (mem_combos.mp h).1; omega) (fun h => by have := (mem_combos.mp h).1; omega)]

/-- C47. The matrix exists exactly for two or more columns such that the measure of every pair exists. With fewer columns
the failure is `ValueError`, otherwise that of a pair. -/
theorem info_matrix_ok_iff (fn : InfoFn) (bins : Option Int) (norm : Bool) (cols : List (List XF)) :
    ((∃ R, infoDistanceMatrix fn bins norm cols = .ok R) ↔
      2 ≤ cols.length ∧ ∀ i j, i < j → j < cols.length →
        ∃ v, fn.call bins norm (cols.getD i []) (cols.getD j []) = .ok v) ∧
    ∀ e, infoDistanceMatrix fn bins norm cols = .error e →
      (cols.length < 2 ∧ e = .valueError) ∨
      ∃ i j, i < j ∧ j < cols.length ∧ fn.call bins norm (cols.getD i []) (cols.getD j []) = .error e := by
  have herr : ∀ e, infoDistanceMatrix fn bins norm cols = .error e →
      (cols.length < 2 ∧ e = .valueError) ∨
      ∃ i j, i < j ∧ j < cols.length ∧ fn.call bins norm (cols.getD i []) (cols.getD j []) = .error e := by
    intro e h
    unfold infoDistanceMatrix at h
    by_cases hc : cols.length < 2
    · rw [if_pos hc] at h; cases h; exact .inl ⟨hc, rfl⟩
    rw [if_neg hc] at h
    right
    cases hl : infoLoop (fn.call bins norm) (fun i => cols.getD i []) (combos cols.length) (fun _ _ => XF.fin 0) with
    | ok r => rw [hl] at h; cases h
    | error e' =>
      rw [hl] at h
      cases h
      obtain ⟨p, hp, he⟩ := loop_error hl
      obtain ⟨h1, h2⟩ := mem_combos.mp (show (p.1, p.2) ∈ combos cols.length from hp)
      exact ⟨p.1, p.2, h1, h2, he⟩
  refine ⟨⟨?_, ?_⟩, herr⟩
  · rintro ⟨R, h⟩
    obtain ⟨h1, h2, -⟩ := info_matrix_entries h
    exact ⟨h1, fun i j hij hj => ⟨_, (h2 i j (by omega) hj (by omega)).1⟩⟩
  · rintro ⟨h1, h2⟩
    cases hm : infoDistanceMatrix fn bins norm cols with
    | ok R => exact ⟨R, rfl⟩
    | error e =>
      rcases herr e hm with ⟨h, -⟩ | ⟨i, j, hij, hj, he⟩
      · omega
      · obtain ⟨v, hv⟩ := h2 i j hij hj
        rw [hv] at he; cases he

/-- C47. An unknown method fails with `AssertionError`. -/
theorem info_matrix_method (method : String) (bins : Option Int) (norm : Bool) (cols : List (List XF))
    (h1 : method ≠ "mutual_info") (h2 : method ≠ "var_info") :
    getInfoDistanceMatrix method bins norm cols = .error .assertionError := by
  unfold getInfoDistanceMatrix
  rw [if_neg h1, if_neg h2]

/-- C47. With a given number of bins and without normalisation, the matrix of `var_info` is that of a pseudometric: not
negative, zero on the diagonal, symmetric, with the triangle inequality. -/
theorem vi_matrix_metric {b : Int} {cols : List (List XF)} {R : Nat → Nat → XF}
    (h : infoDistanceMatrix .vi (some b) false cols = .ok R) {i j k : Nat} (hi : i < cols.length) (hj : j < cols.length)
    (hk : k < cols.length) :
    ∃ dij djk dik : ℝ, R i j = .fin dij ∧ R j k = .fin djk ∧ R i k = .fin dik ∧ 0 ≤ dij ∧ dik ≤ dij + djk := by
  obtain ⟨h2, hent, hdiag⟩ := info_matrix_entries h
  have hcol : ∀ i < cols.length, 1 ≤ b ∧ ∃ n, 2 ≤ n ∧ ∃ u : Fin n → ℝ, cols.getD i [] = sample u := by
    intro i hi
    obtain ⟨j, hj, hij⟩ : ∃ j, j < cols.length ∧ i ≠ j := by
      by_cases h0 : i = 0
      · exact ⟨1, by omega, by omega⟩
      · exact ⟨0, by omega, h0⟩
    obtain ⟨b', hb, hr, n, hn, u, w, hu, hw, -⟩ := info_inv (.inr (hent i j hi hj hij).1)
    cases hr
    exact ⟨hb, n, hn, u, hu⟩
  have hlen : ∀ i j, i < cols.length → j < cols.length → (cols.getD i []).length = (cols.getD j []).length := by
    intro i j hi hj
    by_cases hij : i = j
    · rw [hij]
    obtain ⟨b', hb, hr, n, hn, u, w, hu, hw, -⟩ := info_inv (.inr (hent i j hi hj hij).1)
    rw [hu, hw, sample_length, sample_length]
  obtain ⟨hb, n, hn, u, hu⟩ := hcol i hi
  have hrest : ∀ j < cols.length, ∃ w : Fin n → ℝ, cols.getD j [] = sample w := by
    intro j hj
    obtain ⟨-, m, -, w, hw⟩ := hcol j hj
    have : m = n := by
      have := hlen i j hi hj
      rw [hu, hw, sample_length, sample_length] at this
      exact this.symm
    subst this
    exact ⟨w, hw⟩
  have hval : ∀ i j, i < cols.length → j < cols.length → ∀ u w : Fin n → ℝ, cols.getD i [] = sample u →
      cols.getD j [] = sample w → varInfo (some b) false (sample u) (sample w) = .ok (R i j) := by
    intro i j hi hj u w hu hw
    by_cases hij : i = j
    · subst hij
      have : u = w := by
        rw [hu] at hw
        unfold sample at hw
        rw [List.ofFn_inj] at hw
        funext k
        exact XF.fin.inj (congrFun hw k)
      subst this
      rw [hdiag i hi, (vi_zero_iff hn hb u u).mpr fun _ _ => Iff.rfl]
      rfl
    · rw [← hu, ← hw]
      exact (hent i j hi hj hij).1
  obtain ⟨w, hw⟩ := hrest j hj
  obtain ⟨z, hz⟩ := hrest k hk
  obtain ⟨⟨d1, e1, n1⟩, -, -⟩ := vi_range hn hb u w
  obtain ⟨⟨d2, e2, -⟩, -, -⟩ := vi_range hn hb w z
  obtain ⟨⟨d3, e3, -⟩, -, -⟩ := vi_range hn hb u z
  refine ⟨d1, d2, d3, ?_, ?_, ?_, n1, vi_triangle hn hb false u w z e1 e2 e3⟩
  · exact Except.ok.inj ((hval i j hi hj u w hu hw).symm.trans e1)
  · exact Except.ok.inj ((hval j k hj hk w z hw hz).symm.trans e2)
  · exact Except.ok.inj ((hval i k hi hk u z hu hz).symm.trans e3)

/-- C47. The diagonal of the matrix of `mutual_info` is 1 also without normalisation, where the mutual information of a
column with itself is its entropy; with two bins, for example, that is never 1. -/
theorem mi_diagonal_wrong {cols : List (List XF)} {R : Nat → Nat → XF}
    (h : infoDistanceMatrix .mi (some 2) false cols = .ok R) {i : Nat} (hi : i < cols.length) :
    R i i = .fin 1 ∧ ∃ v, mutualInfo (some 2) false (cols.getD i []) (cols.getD i []) = .ok v ∧ v ≠ R i i := by
  obtain ⟨h2, hent, hdiag⟩ := info_matrix_entries h
  have hd := hdiag i hi
  rw [if_pos rfl] at hd
  obtain ⟨j, hj, hij⟩ : ∃ j, j < cols.length ∧ i ≠ j := by
    by_cases h0 : i = 0
    · exact ⟨1, by omega, by omega⟩
    · exact ⟨0, by omega, h0⟩
  obtain ⟨b', hb, hr, n, hn, u, w, hu, hw, -⟩ := info_inv (.inl (hent i j hi hj hij).1)
  cases hr
  obtain ⟨e, e', h1, h3, -⟩ := mi_self hn hb u
  rw [hu]
  refine ⟨hd, _, h3, ?_⟩
  rw [hd]
  intro he
  have hle := (entropies_laws h1).2.1
  have hl2 : Real.log ((2 : Int) : ℝ) < 1 := by
    have := Real.log_lt_sub_one_of_pos (x := 2) (by norm_num) (by norm_num)
    push_cast
    linarith
  have := XF.fin.inj he
  linarith

end Verif.Info
