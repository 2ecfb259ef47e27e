import Verif.Props.MicroRoll

/-!
# C59: the EDGE spread estimator

The estimator over the reals is written down separately (`Est`), from the paper's description: log prices of
`n` consecutive pairs of bars, averages over the pairs. Then the code is shown to compute it, with its NaN cases.
-/

namespace Verif.Props.MicroEdge

open Verif Ser Micro Finset IndRolling MicroVol MicroTrade MicroRoll

/-! ## Sign rules, for all data -/

/-- `np.sqrt(np.abs(x))` is NaN, plus infinity or a non-negative number. -/
theorem sqrt_abs_cases (v : XF) : v.abs.sqrt = .nan ∨ v.abs.sqrt = .pinf ∨ ∃ r, v.abs.sqrt = .fin r ∧ 0 ≤ r := by
  cases v with
  | nan => left; rfl
  | pinf => right; left; rfl
  | ninf => right; left; rfl
  | fin r =>
    right; right
    rw [XF.abs_fin, XF.sqrt_fin (abs_nonneg _)]
    exact ⟨_, rfl, Real.sqrt_nonneg _⟩

theorem edge_shape (bs : List Bar) :
    (∀ sign, edgeBars bs sign = .nan) ∨ ∃ s2, ∀ sign, edgeBars bs sign = signRoot sign s2 := by
  by_cases h : XF.eq (bmean (bs.map Bar.tau)) (.fin 0) ∨
      XF.eq (bmean (bs.map Bar.phi1) + bmean (bs.map Bar.phi2)) (.fin 0) ∨
      XF.eq (bmean (bs.map Bar.phi3) + bmean (bs.map Bar.phi4)) (.fin 0)
  · exact .inl fun sign => if_pos h
  · exact .inr ⟨_, fun sign => if_neg h⟩

/-- The unsigned estimate is never negative; the signed one is the unsigned one or its negative. -/
theorem edge_sign (bs : List Bar) :
    (edgeBars bs false = .nan ∨ edgeBars bs false = .pinf ∨ ∃ r, edgeBars bs false = .fin r ∧ 0 ≤ r) ∧
      (edgeBars bs true = edgeBars bs false ∨ edgeBars bs true = -edgeBars bs false) := by
  rcases edge_shape bs with h | ⟨s2, h⟩
  · rw [h, h]
    exact ⟨.inl rfl, .inl rfl⟩
  · rw [h, h, signRoot, signRoot, if_neg (by simp)]
    refine ⟨sqrt_abs_cases _, ?_⟩
    by_cases hs : true = true ∧ XF.lt s2 (.fin 0)
    · rw [if_pos hs]; exact .inr rfl
    · rw [if_neg hs]; exact .inl rfl

/-! ## The price unit -/

/-- A bar of log prices with all prices multiplied by `exp m`. -/
noncomputable def up (m : ℝ) (b : Bar) : Bar :=
  ⟨b.o + .fin m, b.h + .fin m, b.l + .fin m, b.h1 + .fin m, b.l1 + .fin m, b.c1 + .fin m⟩

theorem eq_add (a b : XF) (m : ℝ) : XF.eq (a + .fin m) (b + .fin m) ↔ XF.eq a b := by
  cases a <;> cases b <;> first | exact Iff.rfl | exact add_left_inj m

theorem mid_add (a b : XF) (m : ℝ) : (a + .fin m + (b + .fin m)) / .fin 2 = (a + b) / .fin 2 + .fin m := by
  cases a <;> cases b <;> first
    | rfl
    | (simp; done)
    | (simp; ring; done)
    | (show XF.div _ _ = XF.add (XF.div _ _) _; simp [XF.add, XF.div]; done)
    | (change XF.div (XF.add _ _) (.fin 2) = XF.add (XF.div (XF.add _ _) (.fin 2)) (.fin m)
       have h2 : ¬ (2 : ℝ) < 0 := by norm_num
       change XF.div _ (.fin 2) = XF.add (XF.div _ (.fin 2)) (.fin m)
       simp [XF.add, XF.div, HAdd.hAdd, Add.add, h2])

variable (m : ℝ) (b : Bar)

theorem tau_up : (up m b).tau ↔ b.tau := by simp only [Bar.tau, up, eq_add]
theorem tau_up' : (up m b).tau = b.tau := propext (tau_up m b)
theorem tauF_up : (up m b).tauF = b.tauF := by
  rw [Bar.tauF, Bar.tauF]
  by_cases h : b.tau
  · rw [if_pos ((tau_up m b).2 h), if_pos h]
  · rw [if_neg (mt (tau_up m b).1 h), if_neg h]
theorem phi1_up : (up m b).phi1 = b.phi1 := by rw [Bar.phi1, Bar.phi1, tau_up']; simp only [up, eq_add]
theorem phi2_up : (up m b).phi2 = b.phi2 := by rw [Bar.phi2, Bar.phi2, tau_up']; simp only [up, eq_add]
theorem phi3_up : (up m b).phi3 = b.phi3 := by rw [Bar.phi3, Bar.phi3, tau_up']; simp only [up, eq_add]
theorem phi4_up : (up m b).phi4 = b.phi4 := by rw [Bar.phi4, Bar.phi4, tau_up']; simp only [up, eq_add]
theorem r1_up : (up m b).r1 = b.r1 := by simp only [Bar.r1, Bar.m, up, mid_add, add_sub_add_fin]
theorem r2_up : (up m b).r2 = b.r2 := by simp only [Bar.r2, Bar.m1, up, mid_add, add_sub_add_fin]
theorem r3_up : (up m b).r3 = b.r3 := by simp only [Bar.r3, Bar.m, up, mid_add, add_sub_add_fin]
theorem r4_up : (up m b).r4 = b.r4 := by simp only [Bar.r4, Bar.m1, up, mid_add, add_sub_add_fin]
theorem r5_up : (up m b).r5 = b.r5 := by simp only [Bar.r5, up, add_sub_add_fin]

theorem edgeBars_up (bs : List Bar) (sign : Bool) : edgeBars (bs.map (up m)) sign = edgeBars bs sign := by
  have c : ∀ (α : Type) (f : Bar → α), (∀ b, f (up m b) = f b) → (bs.map (up m)).map f = bs.map f := by
    intro α f hf
    rw [List.map_map]
    exact List.map_congr_left fun b _ => hf b
  have hd : ∀ (pt : XF) (r : Bar → XF), (∀ b, r (up m b) = r b) → ∀ b,
      demean (bs.map (up m)) pt r (up m b) = demean bs pt r b := by
    intro pt r hr b
    rw [demean, demean, c _ r hr, hr, tauF_up]
  have h1 : ∀ pt po pc, edgeX1 (bs.map (up m)) pt po pc = edgeX1 bs pt po pc := by
    intro pt po pc
    rw [edgeX1, edgeX1, List.map_map]
    refine List.map_congr_left fun b _ => ?_
    simp only [Function.comp_def, hd pt _ (r1_up m), hd pt _ (r3_up m), r2_up, r4_up]
  have h2 : ∀ pt po pc, edgeX2 (bs.map (up m)) pt po pc = edgeX2 bs pt po pc := by
    intro pt po pc
    rw [edgeX2, edgeX2, List.map_map]
    refine List.map_congr_left fun b _ => ?_
    simp only [Function.comp_def, hd pt _ (r1_up m), hd pt _ (r5_up m), r5_up, r4_up]
  rw [edgeBars, edgeBars, c _ _ (tau_up' m), c _ _ (phi1_up m), c _ _ (phi2_up m), c _ _ (phi3_up m), c _ _ (phi4_up m)]
  rw [h1, h2]

theorem getD_scale (k : ℝ) (x : Ser) (i : Nat) : ((scale k x)[i]?).getD .nan = ((x[i]?).getD .nan) * .fin k := by
  rw [scale, List.getElem?_map]
  cases x[i]? <;> simp

theorem barsOf_scale {k : ℝ} (hk : 0 < k) (h l o c : Ser) :
    barsOf (scale k h) (scale k l) (scale k o) (scale k c) = (barsOf h l o c).map (up (Real.log k)) := by
  rw [barsOf, barsOf, List.map_map]
  simp only [getD_scale, log_mul_pos hk]
  rw [show (scale k h).length = h.length by simp [scale]]
  rfl

theorem slice_scale (k : ℝ) (i w : Nat) (x : Ser) : slice i w (scale k x) = scale k (slice i w x) := by
  simp [slice, scale, List.map_take, List.map_drop]

/-- EDGE does not depend on the price unit, whatever the data. -/
theorem edge_scale {k : ℝ} (hk : 0 < k) (h l o c : Ser) (w : Int) (sign : Bool) :
    edgeSpread (scale k h) (scale k l) (scale k o) (scale k c) w sign = edgeSpread h l o c w sign := by
  rw [edgeSpread, edgeSpread]
  simp only [slice_scale, edgeOne, barsOf_scale hk, edgeBars_up]
  rw [show (scale k h).length = h.length by simp [scale]]

/-! ## The estimator over the reals -/

/-- A pair of consecutive bars: log open, high, low; previous log high, low, close. -/
structure RBar where
  o : ℝ
  h : ℝ
  l : ℝ
  h1 : ℝ
  l1 : ℝ
  c1 : ℝ

def RBar.toBar (r : RBar) : Bar := ⟨.fin r.o, .fin r.h, .fin r.l, .fin r.h1, .fin r.l1, .fin r.c1⟩

/-- The average over `n` pairs. -/
noncomputable def avg (n : Nat) (f : Nat → ℝ) : ℝ := (∑ j ∈ range n, f j) / n

/-- The variance over `n` pairs. -/
noncomputable def vari (n : Nat) (f : Nat → ℝ) : ℝ := avg n fun j => (f j - avg n f) ^ 2

open Classical in
/-- The indicator of a statement. -/
noncomputable def ind (p : Prop) : ℝ := if p then 1 else 0

namespace Est

variable (n : Nat) (R : Nat → RBar)

/-- A pair is informative unless the bar is a single price equal to the previous close. -/
def inf (r : RBar) : Prop := ¬ (r.h = r.l ∧ r.l = r.c1)
noncomputable def pt : ℝ := avg n fun j => ind (inf (R j))
noncomputable def po : ℝ := avg n (fun j => ind ((R j).o ≠ (R j).h ∧ inf (R j))) + avg n fun j => ind ((R j).o ≠ (R j).l ∧ inf (R j))
noncomputable def pc : ℝ :=
  avg n (fun j => ind ((R j).c1 ≠ (R j).h1 ∧ inf (R j))) + avg n fun j => ind ((R j).c1 ≠ (R j).l1 ∧ inf (R j))
noncomputable def mid (r : RBar) : ℝ := (r.h + r.l) / 2
noncomputable def mid1 (r : RBar) : ℝ := (r.h1 + r.l1) / 2
/-- A return corrected for its mean over the informative pairs. -/
noncomputable def dem (f : RBar → ℝ) (j : Nat) : ℝ := f (R j) - ind (inf (R j)) * avg n (fun i => f (R i)) / pt n R
noncomputable def x1 (j : Nat) : ℝ :=
  -4 / po n R * dem n R (fun r => mid r - r.o) j * ((R j).o - mid1 (R j)) -
    4 / pc n R * dem n R (fun r => mid r - r.c1) j * ((R j).c1 - mid1 (R j))
noncomputable def x2 (j : Nat) : ℝ :=
  -4 / po n R * dem n R (fun r => mid r - r.o) j * ((R j).o - (R j).c1) -
    4 / pc n R * dem n R (fun r => r.o - r.c1) j * ((R j).c1 - mid1 (R j))
/-- The squared spread: the two estimates weighted with each other's variance. -/
noncomputable def s2 : ℝ :=
  (vari n (x2 n R) * avg n (x1 n R) + vari n (x1 n R) * avg n (x2 n R)) / (vari n (x1 n R) + vari n (x2 n R))

end Est

theorem avg_nonneg {n : Nat} {f : Nat → ℝ} (h : ∀ j, 0 ≤ f j) : 0 ≤ avg n f :=
  div_nonneg (Finset.sum_nonneg fun j _ => h j) (Nat.cast_nonneg n)

theorem vari_nonneg (n : Nat) (f : Nat → ℝ) : 0 ≤ vari n f := avg_nonneg fun _ => sq_nonneg _

theorem foldl_fin (l : List ℝ) (a : ℝ) : (l.map XF.fin).foldl (· + ·) (.fin a) = .fin (a + l.sum) := by
  induction l generalizing a with
  | nil => simp
  | cons b l ih => simp [ih, add_assoc]

theorem mean_fin {n : Nat} (hn : n ≠ 0) (f : Nat → ℝ) : Micro.mean ((List.range n).map fun j => .fin (f j)) = .fin (avg n f) := by
  have h0 : (n : ℝ) ≠ 0 := by exact_mod_cast hn
  have : (List.range n).map (fun j => XF.fin (f j)) = ((List.range n).map f).map .fin := by
    rw [List.map_map]; rfl
  rw [Micro.mean, this, foldl_fin, sum_range_list]
  simp [h0, avg]

theorem var_fin {n : Nat} (hn : n ≠ 0) (f : Nat → ℝ) : Micro.var ((List.range n).map fun j => .fin (f j)) = .fin (vari n f) := by
  rw [Micro.var, mean_fin hn, List.map_map]
  simp only [Function.comp_def, XF.sub_fin, XF.sqF_fin]
  rw [mean_fin hn]
  rfl

theorem bmean_eq {n : Nat} (hn : n ≠ 0) (P : Nat → Prop) : bmean ((List.range n).map P) = .fin (avg n fun j => ind (P j)) := by
  have h0 : (n : ℝ) ≠ 0 := by exact_mod_cast hn
  have hc : ((((List.range n).map P).filter fun p => @decide p (Classical.propDecidable p)).length : ℝ) = ∑ j ∈ range n, ind (P j) := by
    rw [← sum_range_list]
    generalize List.range n = l
    induction l with
    | nil => simp
    | cons a l ih =>
      by_cases h : P a
      · rw [List.map_cons, List.filter_cons_of_pos (by simpa using h), List.length_cons, Nat.cast_add, ih, List.map_cons,
          List.sum_cons, ind, if_pos h, Nat.cast_one, add_comm]
      · rw [List.map_cons, List.filter_cons_of_neg (by simpa using h), ih, List.map_cons, List.sum_cons, ind, if_neg h,
          zero_add]
  rw [bmean, hc]
  simp [h0, avg]

theorem tau_real (r : RBar) : r.toBar.tau = Est.inf r := by
  apply propext
  simp only [Bar.tau, RBar.toBar, XF.eq, Est.inf]
  tauto

section

variable (r : RBar)

theorem phi1_real : r.toBar.phi1 = (r.o ≠ r.h ∧ Est.inf r) := by rw [Bar.phi1, tau_real]; rfl
theorem phi2_real : r.toBar.phi2 = (r.o ≠ r.l ∧ Est.inf r) := by rw [Bar.phi2, tau_real]; rfl
theorem phi3_real : r.toBar.phi3 = (r.c1 ≠ r.h1 ∧ Est.inf r) := by rw [Bar.phi3, tau_real]; rfl
theorem phi4_real : r.toBar.phi4 = (r.c1 ≠ r.l1 ∧ Est.inf r) := by rw [Bar.phi4, tau_real]; rfl
theorem tauF_real : r.toBar.tauF = .fin (ind (Est.inf r)) := by
  rw [Bar.tauF, ind]
  by_cases h : Est.inf r
  · rw [if_pos (by rw [tau_real]; exact h), if_pos h]
  · rw [if_neg (by rw [tau_real]; exact h), if_neg h]
theorem m_real : r.toBar.m = .fin (Est.mid r) := by simp [Bar.m, RBar.toBar, Est.mid]
theorem m1_real : r.toBar.m1 = .fin (Est.mid1 r) := by simp [Bar.m1, RBar.toBar, Est.mid1]
theorem r1_real : r.toBar.r1 = .fin (Est.mid r - r.o) := by rw [Bar.r1, m_real]; simp [RBar.toBar]
theorem r2_real : r.toBar.r2 = .fin (r.o - Est.mid1 r) := by rw [Bar.r2, m1_real]; simp [RBar.toBar]
theorem r3_real : r.toBar.r3 = .fin (Est.mid r - r.c1) := by rw [Bar.r3, m_real]; simp [RBar.toBar]
theorem r4_real : r.toBar.r4 = .fin (r.c1 - Est.mid1 r) := by rw [Bar.r4, m1_real]; simp [RBar.toBar]
theorem r5_real : r.toBar.r5 = .fin (r.o - r.c1) := by simp [Bar.r5, RBar.toBar]

end

open Classical in
/-- What the code computes from `n >= 1` pairs of finite log prices. -/
theorem edgeBars_real {n : Nat} (hn : n ≠ 0) (R : Nat → RBar) (sign : Bool) :
    edgeBars ((List.range n).map fun j => (R j).toBar) sign =
      if Est.pt n R = 0 ∨ Est.po n R = 0 ∨ Est.pc n R = 0 ∨ vari n (Est.x1 n R) + vari n (Est.x2 n R) = 0 then .nan
      else .fin (if sign = true ∧ Est.s2 n R < 0 then -Real.sqrt |Est.s2 n R| else Real.sqrt |Est.s2 n R|) := by
  have hpt : bmean (((List.range n).map fun j => (R j).toBar).map Bar.tau) = .fin (Est.pt n R) := by
    rw [List.map_map, Est.pt, ← bmean_eq hn]
    simp only [Function.comp_def, tau_real]
  have hpo : bmean (((List.range n).map fun j => (R j).toBar).map Bar.phi1) +
      bmean (((List.range n).map fun j => (R j).toBar).map Bar.phi2) = .fin (Est.po n R) := by
    rw [List.map_map, List.map_map, Est.po, ← XF.add_fin, ← bmean_eq hn, ← bmean_eq hn]
    simp only [Function.comp_def, phi1_real, phi2_real]
  have hpc : bmean (((List.range n).map fun j => (R j).toBar).map Bar.phi3) +
      bmean (((List.range n).map fun j => (R j).toBar).map Bar.phi4) = .fin (Est.pc n R) := by
    rw [List.map_map, List.map_map, Est.pc, ← XF.add_fin, ← bmean_eq hn, ← bmean_eq hn]
    simp only [Function.comp_def, phi3_real, phi4_real]
  have hm1 : Micro.mean (((List.range n).map fun j => (R j).toBar).map Bar.r1) = .fin (avg n fun i => Est.mid (R i) - (R i).o) := by
    rw [List.map_map]
    simp only [Function.comp_def, r1_real]
    exact mean_fin hn _
  have hm3 : Micro.mean (((List.range n).map fun j => (R j).toBar).map Bar.r3) = .fin (avg n fun i => Est.mid (R i) - (R i).c1) := by
    rw [List.map_map]
    simp only [Function.comp_def, r3_real]
    exact mean_fin hn _
  have hm5 : Micro.mean (((List.range n).map fun j => (R j).toBar).map Bar.r5) = .fin (avg n fun i => (R i).o - (R i).c1) := by
    rw [List.map_map]
    simp only [Function.comp_def, r5_real]
    exact mean_fin hn _
  rw [edgeBars]
  rw [hpt, hpo, hpc]
  by_cases h1 : Est.pt n R = 0
  · rw [if_pos (.inl h1), if_pos (.inl h1)]
  by_cases h2 : Est.po n R = 0
  · rw [if_pos (.inr (.inl h2)), if_pos (.inr (.inl h2))]
  by_cases h3 : Est.pc n R = 0
  · rw [if_pos (.inr (.inr h3)), if_pos (.inr (.inr (.inl h3)))]
  rw [if_neg (by rintro (h | h | h) <;> contradiction)]
  have hx1 : edgeX1 ((List.range n).map fun j => (R j).toBar) (.fin (Est.pt n R)) (.fin (Est.po n R)) (.fin (Est.pc n R)) =
      (List.range n).map fun j => .fin (Est.x1 n R j) := by
    rw [edgeX1, List.map_map]
    refine List.map_congr_left fun j _ => ?_
    simp only [Function.comp_def, demean, hm1, hm3]
    simp only [r1_real, r2_real, r3_real, r4_real, tauF_real, XF.neg_fin, XF.mul_fin, XF.sub_fin,
      XF.div_fin h1, XF.div_fin h2, XF.div_fin h3, Est.x1, Est.dem]
  have hx2 : edgeX2 ((List.range n).map fun j => (R j).toBar) (.fin (Est.pt n R)) (.fin (Est.po n R)) (.fin (Est.pc n R)) =
      (List.range n).map fun j => .fin (Est.x2 n R j) := by
    rw [edgeX2, List.map_map]
    refine List.map_congr_left fun j _ => ?_
    simp only [Function.comp_def, demean, hm1, hm5]
    simp only [r1_real, r5_real, r4_real, tauF_real, XF.neg_fin, XF.mul_fin, XF.sub_fin,
      XF.div_fin h1, XF.div_fin h2, XF.div_fin h3, Est.x2, Est.dem]
  rw [hx1, hx2, edgeS2, mean_fin hn, mean_fin hn, var_fin hn, var_fin hn]
  simp only [XF.mul_fin, XF.add_fin]
  by_cases h4 : vari n (Est.x1 n R) + vari n (Est.x2 n R) = 0
  · rw [if_pos (.inr (.inr (.inr h4))), h4]
    have a1 := vari_nonneg n (Est.x1 n R)
    have a2 := vari_nonneg n (Est.x2 n R)
    have z1 : vari n (Est.x1 n R) = 0 := by linarith
    have z2 : vari n (Est.x2 n R) = 0 := by linarith
    rw [z1, z2, zero_mul, zero_mul, add_zero, XF.zero_div_zero, signRoot]
    rw [if_neg fun h => XF.nan_lt _ h.2]
    rfl
  · rw [if_neg (by rintro (h | h | h | h) <;> contradiction), XF.div_fin h4, signRoot, XF.abs_fin, XF.sqrt_fin (abs_nonneg _)]
    by_cases hs : sign = true ∧ Est.s2 n R < 0
    · rw [if_pos hs]
      exact if_pos hs
    · rw [if_neg hs]
      exact if_neg hs

/-- Concrete case: two pairs of bars with squared spread -1/4, so that the estimate is 1/2, or -1/2 when signed. -/
theorem edge_example :
    let R := fun j : Nat => if j = 0 then RBar.mk 1 3 0 2 0 1 else RBar.mk 0 2 (-1) 3 0 1
    Est.s2 2 R = -1 / 4 ∧ edgeBars ((List.range 2).map fun j => (R j).toBar) false = .fin (1 / 2) ∧
      edgeBars ((List.range 2).map fun j => (R j).toBar) true = .fin (-1 / 2) := by
  intro R
  have hpt : Est.pt 2 R = 1 := by
    simp only [Est.pt, avg, Finset.sum_range_succ, Finset.sum_range_zero, ind, Est.inf, R]; norm_num
  have hpo : Est.po 2 R = 2 := by
    simp only [Est.po, avg, Finset.sum_range_succ, Finset.sum_range_zero, ind, Est.inf, R]; norm_num
  have hpc : Est.pc 2 R = 2 := by
    simp only [Est.pc, avg, Finset.sum_range_succ, Finset.sum_range_zero, ind, Est.inf, R]; norm_num
  have x10 : Est.x1 2 R 0 = 0 := by
    simp [Est.x1, Est.dem, hpt, hpo, hpc, avg, Finset.sum_range_succ, ind, Est.inf, Est.mid, Est.mid1, R]
  have x11 : Est.x1 2 R 1 = -1 / 2 := by
    simp [Est.x1, Est.dem, hpt, hpo, hpc, avg, Finset.sum_range_succ, ind, Est.inf, Est.mid, Est.mid1, R]
    norm_num
  have x20 : Est.x2 2 R 0 = 0 := by
    simp [Est.x2, Est.dem, hpt, hpo, hpc, avg, Finset.sum_range_succ, ind, Est.inf, Est.mid, Est.mid1, R]
  have x21 : Est.x2 2 R 1 = -1 / 2 := by
    simp [Est.x2, Est.dem, hpt, hpo, hpc, avg, Finset.sum_range_succ, ind, Est.inf, Est.mid, Est.mid1, R]
    norm_num
  have v1 : vari 2 (Est.x1 2 R) = 1 / 16 := by
    simp [vari, avg, Finset.sum_range_succ, x10, x11]; norm_num
  have v2 : vari 2 (Est.x2 2 R) = 1 / 16 := by
    simp [vari, avg, Finset.sum_range_succ, x20, x21]; norm_num
  have hs : Est.s2 2 R = -1 / 4 := by
    rw [Est.s2, v1, v2]
    simp [avg, Finset.sum_range_succ, x10, x11, x20, x21]; norm_num
  have hq : Real.sqrt |(-1 / 4 : ℝ)| = 1 / 2 := by
    rw [show |(-1 / 4 : ℝ)| = (1 / 2) ^ 2 by norm_num [abs_of_neg], Real.sqrt_sq (by norm_num)]
  refine ⟨hs, ?_, ?_⟩
  · rw [edgeBars_real (by norm_num), hpt, hpo, hpc, v1, v2, hs, if_neg (by norm_num), if_neg (by simp), hq]
  · rw [edgeBars_real (by norm_num), hpt, hpo, hpc, v1, v2, hs, if_neg (by norm_num), if_pos (by norm_num), hq]
    norm_num

/-- The squared spread lies between the two estimates it combines. -/
theorem s2_between {n : Nat} {R : Nat → RBar} (h : vari n (Est.x1 n R) + vari n (Est.x2 n R) ≠ 0) :
    min (avg n (Est.x1 n R)) (avg n (Est.x2 n R)) ≤ Est.s2 n R ∧
      Est.s2 n R ≤ max (avg n (Est.x1 n R)) (avg n (Est.x2 n R)) := by
  have a1 := vari_nonneg n (Est.x1 n R)
  have a2 := vari_nonneg n (Est.x2 n R)
  have hp : 0 < vari n (Est.x1 n R) + vari n (Est.x2 n R) := lt_of_le_of_ne (by linarith) (Ne.symm h)
  rw [Est.s2, le_div_iff₀ hp, div_le_iff₀ hp]
  generalize avg n (Est.x1 n R) = p
  generalize avg n (Est.x2 n R) = q
  have l1 := min_le_left p q
  have l2 := min_le_right p q
  have m1 := le_max_left p q
  have m2 := le_max_right p q
  constructor <;> nlinarith

/-- The variances are zero when there is one pair only. -/
theorem vari_one (f : Nat → ℝ) : vari 1 f = 0 := by simp [vari, avg]

/-! ## The rolling estimate -/

/-- The pair of bars `i - 1`, `i` of four price sequences. -/
noncomputable def pair (H L O C : Nat → ℝ) (i : Nat) : RBar :=
  ⟨Real.log (O i), Real.log (H i), Real.log (L i), Real.log (H (i - 1)), Real.log (L (i - 1)), Real.log (C (i - 1))⟩

theorem slice_get {x : Ser} {y : Nat → ℝ} {w t i : Nat} (hw : 1 ≤ w) (h : Obs x y w t) (hi : i < w) :
    (slice (t + 1 - w) w x)[i]? = some (.fin (y (t + 1 - w + i))) := by
  rw [slice, List.getElem?_take, if_pos hi, List.getElem?_drop]
  exact h.2 _ (by rw [mem_Ico]; have := h.1; omega)

theorem slice_length {x : Ser} {y : Nat → ℝ} {w t : Nat} (hw : 1 ≤ w) (h : Obs x y w t) :
    (slice (t + 1 - w) w x).length = w := by
  have := (List.getElem?_eq_some_iff.1 (h.2 t (by rw [mem_Ico]; omega))).1
  have := h.1
  simp [slice]
  omega

theorem barsOf_real {h l o c : Ser} {H L O C : Nat → ℝ} {w t : Nat} (hw : 1 ≤ w) (hh : Obs h H w t) (hl : Obs l L w t)
    (ho : Obs o O w t) (hc : Obs c C w t)
    (hpos : ∀ i ∈ Ico (t + 1 - w) (t + 1), 0 < H i ∧ 0 < L i ∧ 0 < O i ∧ 0 < C i) :
    barsOf (slice (t + 1 - w) w h) (slice (t + 1 - w) w l) (slice (t + 1 - w) w o) (slice (t + 1 - w) w c) =
      (List.range (w - 1)).map fun j => (pair H L O C (t + 1 - w + (j + 1))).toBar := by
  rw [barsOf, slice_length hw hh]
  refine List.map_congr_left fun j hj => ?_
  rw [List.mem_range] at hj
  have hwt := hh.1
  have p1 := hpos (t + 1 - w + (j + 1)) (by rw [mem_Ico]; omega)
  have p2 := hpos (t + 1 - w + j) (by rw [mem_Ico]; omega)
  rw [slice_get hw ho (by omega), slice_get hw hh (by omega), slice_get hw hl (by omega), slice_get hw hh (by omega),
    slice_get hw hl (by omega), slice_get hw hc (by omega)]
  simp only [Option.getD_some]
  rw [XF.log_fin p1.2.2.1, XF.log_fin p1.1, XF.log_fin p1.2.1, XF.log_fin p2.1, XF.log_fin p2.2.1, XF.log_fin p2.2.2.2]
  rw [RBar.toBar, pair]
  simp only [show t + 1 - w + (j + 1) - 1 = t + 1 - w + j by omega]

theorem edge_get {h l o c u : Ser} {w t : Nat} {sign : Bool} (hw : 1 ≤ w) (hu : edgeSpread h l o c w sign = .ok u)
    (ht : t < h.length) (hwt : w ≤ t + 1) :
    u[t]? = some (edgeOne (slice (t + 1 - w) w h) (slice (t + 1 - w) w l) (slice (t + 1 - w) w o)
      (slice (t + 1 - w) w c) sign) := by
  rw [edgeSpread, if_neg (by omega)] at hu
  cases hu
  rw [List.getElem?_map, List.getElem?_range ht]
  simp only [Option.map_some, Int.toNat_natCast]
  rw [if_pos hwt]

open Classical in
/-- The rolling estimate at `t`, for positive prices and `w >= 2`: the estimator over the `w - 1` pairs of the window, NaN
when no pair is informative, no open or close leaves the bar's extremes, or both variances vanish. -/
theorem edge_spec {h l o c u : Ser} {H L O C : Nat → ℝ} {w t : Nat} {sign : Bool} (hw : 2 ≤ w)
    (hu : edgeSpread h l o c w sign = .ok u) (hh : Obs h H w t) (hl : Obs l L w t) (ho : Obs o O w t) (hc : Obs c C w t)
    (hpos : ∀ i ∈ Ico (t + 1 - w) (t + 1), 0 < H i ∧ 0 < L i ∧ 0 < O i ∧ 0 < C i) :
    let R := fun j => pair H L O C (t + 1 - w + (j + 1))
    u[t]? = some (if Est.pt (w - 1) R = 0 ∨ Est.po (w - 1) R = 0 ∨ Est.pc (w - 1) R = 0 ∨
        vari (w - 1) (Est.x1 (w - 1) R) + vari (w - 1) (Est.x2 (w - 1) R) = 0 then .nan
      else .fin (if sign = true ∧ Est.s2 (w - 1) R < 0 then -Real.sqrt |Est.s2 (w - 1) R|
        else Real.sqrt |Est.s2 (w - 1) R|)) := by
  intro R
  have ht : t < h.length := (List.getElem?_eq_some_iff.1 (hh.2 t (by rw [mem_Ico]; omega))).1
  rw [edge_get (by omega) hu ht hh.1, edgeOne, barsOf_real (by omega) hh hl ho hc hpos]
  exact congrArg some (edgeBars_real (by omega) R sign)

/-- Windows below one raise an error; with window 1 the estimate is always NaN; the first `w - 1` values are NaN. -/
theorem edge_windows {h l o c : Ser} {sign : Bool} :
    (∀ w : Int, w ≤ 0 → edgeSpread h l o c w sign = .error .valueError) ∧
      (∀ u, edgeSpread h l o c 1 sign = .ok u → ∀ a ∈ u, a = .nan) ∧
      ∀ (w : Nat) (u : Ser) (t : Nat), edgeSpread h l o c w sign = .ok u → t < h.length → t + 1 < w → u[t]? = some .nan := by
  refine ⟨fun w hw => by rw [edgeSpread, if_pos hw], fun u hu a ha => ?_, fun w u t hu ht hw => ?_⟩
  · rw [edgeSpread, if_neg (by decide)] at hu
    cases hu
    obtain ⟨t, -, rfl⟩ := List.mem_map.1 ha
    rw [if_pos (by simp)]
    have hb : ∀ a b c d : Ser, a.length ≤ 1 → barsOf a b c d = [] := by
      intro a b c d h
      rw [barsOf, Nat.sub_eq_zero_of_le h]
      rfl
    rw [edgeOne, hb _ _ _ _ (by simp [slice])]
    rw [edgeBars]
    have z : (XF.fin 0 / .fin ((0 : ℕ) : ℝ) : XF) = .nan := by
      rw [Nat.cast_zero]; exact XF.zero_div_zero
    have z' : (XF.fin ((0 : ℕ) : ℝ) / .fin ((0 : ℕ) : ℝ) : XF) = .nan := by
      rw [Nat.cast_zero]; exact XF.zero_div_zero
    simp [bmean, Micro.mean, Micro.var, XF.eq, XF.zero_div_zero, XF.nan_lt, edgeS2, edgeX1, edgeX2, signRoot]
  · rw [edgeSpread, if_neg (by omega)] at hu
    cases hu
    rw [List.getElem?_map, List.getElem?_range ht]
    simp only [Option.map_some, Int.toNat_natCast]
    rw [if_neg (by omega)]

/-- With window 2 the estimate is always NaN on positive prices: there is one pair, hence no variance. -/
theorem edge_window_two {h l o c u : Ser} {H L O C : Nat → ℝ} {t : Nat} {sign : Bool}
    (hu : edgeSpread h l o c 2 sign = .ok u) (hh : Obs h H 2 t) (hl : Obs l L 2 t) (ho : Obs o O 2 t) (hc : Obs c C 2 t)
    (hpos : ∀ i ∈ Ico (t + 1 - 2) (t + 1), 0 < H i ∧ 0 < L i ∧ 0 < O i ∧ 0 < C i) : u[t]? = some .nan := by
  have := edge_spec (w := 2) le_rfl hu hh hl ho hc hpos
  rw [this, if_pos]
  exact .inr (.inr (.inr (by rw [vari_one, vari_one, add_zero])))

/-- Constant prices: NaN, not zero. -/
theorem edge_constant {h l o c u : Ser} {P : ℝ} {w t : Nat} {sign : Bool} (hw : 2 ≤ w) (hP : 0 < P)
    (hu : edgeSpread h l o c w sign = .ok u) (hh : Obs h (fun _ => P) w t) (hl : Obs l (fun _ => P) w t)
    (ho : Obs o (fun _ => P) w t) (hc : Obs c (fun _ => P) w t) : u[t]? = some .nan := by
  rw [edge_spec hw hu hh hl ho hc fun _ _ => ⟨hP, hP, hP, hP⟩, if_pos]
  left
  simp [Est.pt, Est.inf, pair, ind, avg]

end Verif.Props.MicroEdge
