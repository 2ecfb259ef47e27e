import Verif.Props.RollErr
import Verif.Props.RollVar
import Mathlib.Tactic.IntervalCases

/-!
# C106: a value that has left the window

With 64-bit rounding the rolling functions remember values that have left the window.
-/

namespace Verif.Roll

open Verif Ser Round

/-! ### Evaluation of 64-bit roundings -/

theorem b64_z {x : ℝ} (h : x = 0) : b64 x = 0 := by rw [h, b64_zero]

theorem b64_fix {x v : ℝ} (m e : ℤ) (hx : x = m * 2 ^ e) (hv : v = m * 2 ^ e) (hm : |m| ≤ 2 ^ 53) : b64 x = v := by
  rw [hx, hv]
  exact b64_exact hm e

theorem b64_near {x v : ℝ} (m e : ℤ) (hv : v = m * 2 ^ e) (h1 : (2 : ℝ) ^ 52 * 2 ^ e ≤ x) (h2 : x < 2 ^ 53 * 2 ^ e)
    (h3 : x - m * 2 ^ e < 2 ^ e / 2) (h4 : m * 2 ^ e - x < 2 ^ e / 2) : b64 x = v := by
  rw [hv]
  exact b64_eq h1 h2 (abs_lt.mpr ⟨by linarith, h3⟩)

theorem b64_even {x v : ℝ} (k e : ℤ) (hx : x = (k + 1 / 2) * 2 ^ e) (hv : v = k * 2 ^ e) (h1 : (2 : ℤ) ^ 52 ≤ k)
    (h2 : k < 2 ^ 53) (hk : Even k) : b64 x = v := by
  have hp : (0 : ℝ) < 2 ^ e := by positivity
  have h1' : (2 : ℝ) ^ 52 ≤ k := by exact_mod_cast h1
  have h2' : (k : ℝ) + 1 ≤ 2 ^ 53 := by exact_mod_cast h2
  have hpos : 0 < ((k : ℝ) + 1 / 2) * 2 ^ e := mul_pos (by linarith [pow_pos (two_pos (α := ℝ)) 52]) hp
  have hE : ulpExp (((k : ℝ) + 1 / 2) * 2 ^ e) = e := by
    apply ulp_unique <;> rw [abs_of_pos hpos]
    · exact mul_le_mul_of_nonneg_right (by linarith) hp.le
    · exact mul_lt_mul_of_pos_right (by linarith) hp
  have hfl : ⌊(k : ℝ) + 1 / 2⌋ = k := by rw [Int.floor_eq_iff]; constructor <;> linarith
  have hfr : Int.fract ((k : ℝ) + 1 / 2) = 1 / 2 := by rw [Int.fract, hfl]; ring
  rw [hx, hv]
  unfold b64
  rw [hE, mul_div_assoc, div_self hp.ne', mul_one]
  unfold rne
  rw [hfl, hfr, if_neg (lt_irrefl _), if_neg (lt_irrefl _), if_pos hk]

theorem b64_negv {x v : ℝ} (h : b64 (-x) = -v) : b64 x = v := by
  rw [b64_neg] at h
  linarith

open Classical in
theorem VarSt.add_val {fl : ℝ → ℝ} {n k : Nat} {mn ss ca cr : ℝ} {pr : XF} {v pm y t d m e1 e2 p q c1 c2 : ℝ}
    (h1 : fl (mn - ca) = pm) (h2 : fl (v - ca) = y) (h3 : fl (y - mn) = t) (h4 : fl (t / (n + 1 : Nat)) = d)
    (h5 : fl (mn + d) = m) (h6 : fl (v - pm) = e1) (h7 : fl (v - m) = e2) (h8 : fl (e1 * e2) = p) (h9 : fl (ss + p) = q)
    (h10 : fl (t + mn) = c1) (h11 : fl (c1 - y) = c2) :
    (⟨n, mn, ss, ca, cr, k, pr⟩ : VarSt).add fl (.fin v) = ⟨n + 1, m, q, c2, cr, if pr = .fin v then k + 1 else 1, .fin v⟩ := by
  unfold VarSt.add
  simp only [XF.real?_fin, h1, h2, h3, h4, h5, h6, h7, h8, h9, h10, h11]

theorem VarSt.remove_val {fl : ℝ → ℝ} {n k : Nat} {mn ss ca cr : ℝ} {pr : XF} {v pm y t d m e1 e2 p q c1 c2 : ℝ}
    (h0 : n - 1 ≠ 0) (h1 : fl (mn - cr) = pm) (h2 : fl (v - cr) = y) (h3 : fl (y - mn) = t) (h4 : fl (t / (n - 1 : Nat)) = d)
    (h5 : fl (mn - d) = m) (h6 : fl (v - pm) = e1) (h7 : fl (v - m) = e2) (h8 : fl (e1 * e2) = p) (h9 : fl (ss - p) = q)
    (h10 : fl (t + mn) = c1) (h11 : fl (c1 - y) = c2) :
    (⟨n, mn, ss, ca, cr, k, pr⟩ : VarSt).remove fl (.fin v) = ⟨n - 1, m, q, ca, c2, k, pr⟩ := by
  unfold VarSt.remove
  simp only [XF.real?_fin]
  rw [if_neg h0]
  simp only [h1, h2, h3, h4, h5, h6, h7, h8, h9, h10, h11]

/-- A wrong price of `2 ^ 27`, about 134 million, before the prices 1, 1, 2. -/
def badTick : Ser := [.fin 134217728, .fin 1, .fin 1, .fin 2]

theorem bad_step1 : (⟨0, 0, 0, 0, 0, 0, .fin 134217728⟩ : VarSt).add b64 (.fin 134217728) = (⟨1, 134217728, 0, 0, 0, 1, .fin 134217728⟩ : VarSt) := by
  have h1 : b64 (0 - 0) = 0 := b64_z (by norm_num)
  have h2 : b64 (134217728 - 0) = 134217728 := b64_fix (1) (27) (by norm_num) (by norm_num) (by norm_num)
  have h3 : b64 (134217728 - 0) = 134217728 := b64_fix (1) (27) (by norm_num) (by norm_num) (by norm_num)
  have h4 : b64 (134217728 / ((0 + 1 : Nat) : ℝ)) = 134217728 := b64_fix (1) (27) (by norm_num) (by norm_num) (by norm_num)
  have h5 : b64 (0 + 134217728) = 134217728 := b64_fix (1) (27) (by norm_num) (by norm_num) (by norm_num)
  have h6 : b64 (134217728 - 0) = 134217728 := b64_fix (1) (27) (by norm_num) (by norm_num) (by norm_num)
  have h7 : b64 (134217728 - 134217728) = 0 := b64_z (by norm_num)
  have h8 : b64 (134217728 * 0) = 0 := b64_z (by norm_num)
  have h9 : b64 (0 + 0) = 0 := b64_z (by norm_num)
  have h10 : b64 (134217728 + 0) = 134217728 := b64_fix (1) (27) (by norm_num) (by norm_num) (by norm_num)
  have h11 : b64 (134217728 - 134217728) = 0 := b64_z (by norm_num)
  rw [VarSt.add_val h1 h2 h3 h4 h5 h6 h7 h8 h9 h10 h11]
  norm_num

theorem bad_step2 : (⟨1, 134217728, 0, 0, 0, 1, .fin 134217728⟩ : VarSt).add b64 (.fin 1) = (⟨2, (134217729 / 2), 9007199120523264, 0, 0, 1, .fin 1⟩ : VarSt) := by
  have h1 : b64 (134217728 - 0) = 134217728 := b64_fix (1) (27) (by norm_num) (by norm_num) (by norm_num)
  have h2 : b64 (1 - 0) = 1 := b64_fix (1) (0) (by norm_num) (by norm_num) (by norm_num)
  have h3 : b64 (1 - 134217728) = (-134217727) := b64_fix (-134217727) (0) (by norm_num) (by norm_num) (by norm_num)
  have h4 : b64 ((-134217727) / ((1 + 1 : Nat) : ℝ)) = (-(134217727 / 2)) := b64_fix (-134217727) (-1) (by norm_num) (by norm_num) (by norm_num)
  have h5 : b64 (134217728 + (-(134217727 / 2))) = (134217729 / 2) := b64_fix (134217729) (-1) (by norm_num) (by norm_num) (by norm_num)
  have h6 : b64 (1 - 134217728) = (-134217727) := b64_fix (-134217727) (0) (by norm_num) (by norm_num) (by norm_num)
  have h7 : b64 (1 - (134217729 / 2)) = (-(134217727 / 2)) := b64_fix (-134217727) (-1) (by norm_num) (by norm_num) (by norm_num)
  have h8 : b64 ((-134217727) * (-(134217727 / 2))) = 9007199120523264 := b64_even (9007199120523264) (0) (by norm_num) (by norm_num) (by norm_num) (by norm_num) (by decide)
  have h9 : b64 (0 + 9007199120523264) = 9007199120523264 := b64_fix (67108863) (27) (by norm_num) (by norm_num) (by norm_num)
  have h10 : b64 ((-134217727) + 134217728) = 1 := b64_fix (1) (0) (by norm_num) (by norm_num) (by norm_num)
  have h11 : b64 (1 - 1) = 0 := b64_z (by norm_num)
  rw [VarSt.add_val h1 h2 h3 h4 h5 h6 h7 h8 h9 h10 h11]
  norm_num

theorem bad_step3 : (⟨2, (134217729 / 2), 9007199120523264, 0, 0, 1, .fin 1⟩ : VarSt).add b64 (.fin 1) = (⟨3, (3002399796319573 / 67108864), 12009598827364352, 0, 0, 2, .fin 1⟩ : VarSt) := by
  have h1 : b64 ((134217729 / 2) - 0) = (134217729 / 2) := b64_fix (134217729) (-1) (by norm_num) (by norm_num) (by norm_num)
  have h2 : b64 (1 - 0) = 1 := b64_fix (1) (0) (by norm_num) (by norm_num) (by norm_num)
  have h3 : b64 (1 - (134217729 / 2)) = (-(134217727 / 2)) := b64_fix (-134217727) (-1) (by norm_num) (by norm_num) (by norm_num)
  have h4 : b64 ((-(134217727 / 2)) / ((2 + 1 : Nat) : ℝ)) = (-(6004799458421419 / 268435456)) := b64_negv (b64_near (6004799458421419) (-28) (by norm_num) (by norm_num) (by norm_num) (by norm_num) (by norm_num))
  have h5 : b64 ((134217729 / 2) + (-(6004799458421419 / 268435456))) = (3002399796319573 / 67108864) := b64_even (6004799592639146) (-27) (by norm_num) (by norm_num) (by norm_num) (by norm_num) (by decide)
  have h6 : b64 (1 - (134217729 / 2)) = (-(134217727 / 2)) := b64_fix (-134217727) (-1) (by norm_num) (by norm_num) (by norm_num)
  have h7 : b64 (1 - (3002399796319573 / 67108864)) = (-(3002399729210709 / 67108864)) := b64_fix (-3002399729210709) (-26) (by norm_num) (by norm_num) (by norm_num)
  have h8 : b64 ((-(134217727 / 2)) * (-(3002399729210709 / 67108864))) = 3002399706841088 := b64_near (6004799413682176) (-1) (by norm_num) (by norm_num) (by norm_num) (by norm_num) (by norm_num)
  have h9 : b64 (9007199120523264 + 3002399706841088) = 12009598827364352 := b64_fix (22369621) (29) (by norm_num) (by norm_num) (by norm_num)
  have h10 : b64 ((-(134217727 / 2)) + (134217729 / 2)) = 1 := b64_fix (1) (0) (by norm_num) (by norm_num) (by norm_num)
  have h11 : b64 (1 - 1) = 0 := b64_z (by norm_num)
  rw [VarSt.add_val h1 h2 h3 h4 h5 h6 h7 h8 h9 h10 h11]
  norm_num

theorem bad_step4 : (⟨3, (3002399796319573 / 67108864), 12009598827364352, 0, 0, 2, .fin 1⟩ : VarSt).remove b64 (.fin 134217728) = (⟨2, (134217727 / 134217728), (-2), 0, 0, 2, .fin 1⟩ : VarSt) := by
  have h1 : b64 ((3002399796319573 / 67108864) - 0) = (3002399796319573 / 67108864) := b64_fix (3002399796319573) (-26) (by norm_num) (by norm_num) (by norm_num)
  have h2 : b64 (134217728 - 0) = 134217728 := b64_fix (1) (27) (by norm_num) (by norm_num) (by norm_num)
  have h3 : b64 (134217728 - (3002399796319573 / 67108864)) = (6004799458421419 / 67108864) := b64_fix (6004799458421419) (-26) (by norm_num) (by norm_num) (by norm_num)
  have h4 : b64 ((6004799458421419 / 67108864) / ((3 - 1 : Nat) : ℝ)) = (6004799458421419 / 134217728) := b64_fix (6004799458421419) (-27) (by norm_num) (by norm_num) (by norm_num)
  have h5 : b64 ((3002399796319573 / 67108864) - (6004799458421419 / 134217728)) = (134217727 / 134217728) := b64_fix (134217727) (-27) (by norm_num) (by norm_num) (by norm_num)
  have h6 : b64 (134217728 - (3002399796319573 / 67108864)) = (6004799458421419 / 67108864) := b64_fix (6004799458421419) (-26) (by norm_num) (by norm_num) (by norm_num)
  have h7 : b64 (134217728 - (134217727 / 134217728)) = 134217727 := b64_even (9007199187632128) (-26) (by norm_num) (by norm_num) (by norm_num) (by norm_num) (by decide)
  have h8 : b64 ((6004799458421419 / 67108864) * 134217727) = 12009598827364354 := b64_near (6004799413682177) (1) (by norm_num) (by norm_num) (by norm_num) (by norm_num) (by norm_num)
  have h9 : b64 (12009598827364352 - 12009598827364354) = (-2) := b64_fix (-1) (1) (by norm_num) (by norm_num) (by norm_num)
  have h10 : b64 ((6004799458421419 / 67108864) + (3002399796319573 / 67108864)) = 134217728 := b64_fix (1) (27) (by norm_num) (by norm_num) (by norm_num)
  have h11 : b64 (134217728 - 134217728) = 0 := b64_z (by norm_num)
  exact VarSt.remove_val (by norm_num) h1 h2 h3 h4 h5 h6 h7 h8 h9 h10 h11

theorem bad_step5 : (⟨2, (134217727 / 134217728), (-2), 0, 0, 2, .fin 1⟩ : VarSt).add b64 (.fin 2) = (⟨3, (89478485 / 67108864), (-(3002399729210709 / 2251799813685248)), 0, 0, 1, .fin 2⟩ : VarSt) := by
  have h1 : b64 ((134217727 / 134217728) - 0) = (134217727 / 134217728) := b64_fix (134217727) (-27) (by norm_num) (by norm_num) (by norm_num)
  have h2 : b64 (2 - 0) = 2 := b64_fix (1) (1) (by norm_num) (by norm_num) (by norm_num)
  have h3 : b64 (2 - (134217727 / 134217728)) = (134217729 / 134217728) := b64_fix (134217729) (-27) (by norm_num) (by norm_num) (by norm_num)
  have h4 : b64 ((134217729 / 134217728) / ((2 + 1 : Nat) : ℝ)) = (44739243 / 134217728) := b64_fix (44739243) (-27) (by norm_num) (by norm_num) (by norm_num)
  have h5 : b64 ((134217727 / 134217728) + (44739243 / 134217728)) = (89478485 / 67108864) := b64_fix (89478485) (-26) (by norm_num) (by norm_num) (by norm_num)
  have h6 : b64 (2 - (134217727 / 134217728)) = (134217729 / 134217728) := b64_fix (134217729) (-27) (by norm_num) (by norm_num) (by norm_num)
  have h7 : b64 (2 - (89478485 / 67108864)) = (44739243 / 67108864) := b64_fix (44739243) (-26) (by norm_num) (by norm_num) (by norm_num)
  have h8 : b64 ((134217729 / 134217728) * (44739243 / 67108864)) = (6004799592639147 / 9007199254740992) := b64_fix (6004799592639147) (-53) (by norm_num) (by norm_num) (by norm_num)
  have h9 : b64 ((-2) + (6004799592639147 / 9007199254740992)) = (-(3002399729210709 / 2251799813685248)) := b64_negv (b64_even (6004799458421418) (-52) (by norm_num) (by norm_num) (by norm_num) (by norm_num) (by decide))
  have h10 : b64 ((134217729 / 134217728) + (134217727 / 134217728)) = 2 := b64_fix (1) (1) (by norm_num) (by norm_num) (by norm_num)
  have h11 : b64 (2 - 2) = 0 := b64_z (by norm_num)
  rw [VarSt.add_val h1 h2 h3 h4 h5 h6 h7 h8 h9 h10 h11]
  norm_num

theorem bad_state : varSt b64 3 badTick 3 = (⟨3, (89478485 / 67108864), (-(3002399729210709 / 2251799813685248)), 0, 0, 1, .fin 2⟩ : VarSt) := by
  have e0 : varSt b64 3 badTick 0 = (⟨0, 0, 0, 0, 0, 0, .fin 134217728⟩ : VarSt).add b64 (.fin 134217728) := rfl
  have e1 : varSt b64 3 badTick 1 = (varSt b64 3 badTick 0).add b64 (.fin 1) := by rw [varSt]; rfl
  have e2 : varSt b64 3 badTick 2 = (varSt b64 3 badTick 1).add b64 (.fin 1) := by rw [varSt]; rfl
  have e3 : varSt b64 3 badTick 3 = ((varSt b64 3 badTick 2).remove b64 (.fin 134217728)).add b64 (.fin 2) := by rw [varSt]; rfl
  rw [e3, e2, e1, e0, bad_step1, bad_step2, bad_step3, bad_step4, bad_step5]

/-- C106. After a wrong price the rolling variance of 1, 1, 2 is negative and the standard deviation is 0, although the wrong price
has left the window. Without it they are 1/3 and its root. -/
theorem bad_tick_std : ∃ v s, rollingVarR b64 badTick 3 = .ok v ∧ rollingStdR b64 badTick 3 = .ok s ∧
    v[3]? = some (.fin (-3002399729210709 / 4503599627370496)) ∧ s[3]? = some (.fin 0) ∧
    win 3 badTick 3 = [1, 1, 2] ∧ rollAt 3 stdF badTick 3 = .fin (Real.sqrt (1 / 3)) := by
  have hv : (varSt b64 3 badTick 3).calc b64 3 = .fin (-3002399729210709 / 4503599627370496) := by
    rw [bad_state]
    unfold VarSt.calc
    simp only
    rw [if_pos (by norm_num), if_neg (by norm_num)]
    congr 1
    exact b64_fix (-3002399729210709) (-52) (by norm_num) (by norm_num) (by norm_num)
  have hwin : win 3 badTick 3 = [1, 1, 2] := by simp [win, badTick]
  refine ⟨_, _, rfl, rfl, ?_, ?_, hwin, ?_⟩
  · rw [List.getElem?_map, List.getElem?_range (by simp [badTick])]
    simpa using hv
  · rw [List.getElem?_map, List.getElem?_map, List.getElem?_range (by simp [badTick])]
    simp only [Option.map_some]
    rw [if_neg (by norm_num), show (3 : Int).toNat = 3 from rfl, hv]
    simp only [zsqrt]
    rw [if_pos (by norm_num)]
  · unfold rollAt
    rw [hwin, if_pos (by simp)]
    unfold stdF varF
    rw [if_neg (by simp)]
    have : ssd [1, 1, 2] / ((([1, 1, 2] : List ℝ).length : ℝ) - 1) = 1 / 3 := by
      norm_num [ssd]
    rw [this, XF.sqrt_fin (by norm_num)]

open Classical in
theorem MeanSt.add_val {fl : ℝ → ℝ} {n ng k : Nat} {sm ca cr : ℝ} {pr : XF} {v y t q c : ℝ} (hv : ¬ v < 0)
    (h1 : fl (v - ca) = y) (h2 : fl (sm + y) = t) (h3 : fl (t - sm) = q) (h4 : fl (q - y) = c) :
    (⟨n, sm, ca, cr, ng, k, pr⟩ : MeanSt).add fl (.fin v) = ⟨n + 1, t, c, cr, ng, if pr = .fin v then k + 1 else 1, .fin v⟩ := by
  unfold MeanSt.add
  simp only [XF.real?_fin, h1, h2, h3, h4, if_neg hv]

theorem MeanSt.remove_val {fl : ℝ → ℝ} {n ng k : Nat} {sm ca cr : ℝ} {pr : XF} {v y t q c : ℝ} (hv : ¬ v < 0)
    (h1 : fl (-v - cr) = y) (h2 : fl (sm + y) = t) (h3 : fl (t - sm) = q) (h4 : fl (q - y) = c) :
    (⟨n, sm, ca, cr, ng, k, pr⟩ : MeanSt).remove fl (.fin v) = ⟨n - 1, t, ca, c, ng, k, pr⟩ := by
  unfold MeanSt.remove
  simp only [XF.real?_fin, h1, h2, h3, h4, if_neg hv]

/-- Two large values before small ones. -/
def twoLarge : Ser := [.fin (2 ^ 120), .fin (2 ^ 60), .fin 1, .fin 2, .fin 3]

theorem large_step1 : (⟨0, 0, 0, 0, 0, 0, .fin (2 ^ 120)⟩ : MeanSt).add b64 (.fin (2 ^ 120)) = (⟨1, (2 ^ 120), 0, 0, 0, 1, .fin (2 ^ 120)⟩ : MeanSt) := by
  have h1 : b64 ((2 ^ 120) - 0) = (2 ^ 120) := b64_fix (1) (120) (by norm_num) (by norm_num) (by norm_num)
  have h2 : b64 (0 + (2 ^ 120)) = (2 ^ 120) := b64_fix (1) (120) (by norm_num) (by norm_num) (by norm_num)
  have h3 : b64 ((2 ^ 120) - 0) = (2 ^ 120) := b64_fix (1) (120) (by norm_num) (by norm_num) (by norm_num)
  have h4 : b64 ((2 ^ 120) - (2 ^ 120)) = 0 := b64_z (by norm_num)
  rw [MeanSt.add_val (by norm_num) h1 h2 h3 h4]
  norm_num

theorem large_step2 : (⟨1, (2 ^ 120), 0, 0, 0, 1, .fin (2 ^ 120)⟩ : MeanSt).add b64 (.fin (2 ^ 60)) = (⟨2, (2 ^ 120), (-2 ^ 60), 0, 0, 1, .fin (2 ^ 60)⟩ : MeanSt) := by
  have h1 : b64 ((2 ^ 60) - 0) = (2 ^ 60) := b64_fix (1) (60) (by norm_num) (by norm_num) (by norm_num)
  have h2 : b64 ((2 ^ 120) + (2 ^ 60)) = (2 ^ 120) := b64_near (4503599627370496) (68) (by norm_num) (by norm_num) (by norm_num) (by norm_num) (by norm_num)
  have h3 : b64 ((2 ^ 120) - (2 ^ 120)) = 0 := b64_z (by norm_num)
  have h4 : b64 (0 - (2 ^ 60)) = (-2 ^ 60) := b64_fix (-1) (60) (by norm_num) (by norm_num) (by norm_num)
  rw [MeanSt.add_val (by norm_num) h1 h2 h3 h4]
  norm_num

theorem large_step3 : (⟨2, (2 ^ 120), (-2 ^ 60), 0, 0, 1, .fin (2 ^ 60)⟩ : MeanSt).add b64 (.fin 1) = (⟨3, (2 ^ 120), (-2 ^ 60), 0, 0, 1, .fin 1⟩ : MeanSt) := by
  have h1 : b64 (1 - (-2 ^ 60)) = (2 ^ 60) := b64_near (4503599627370496) (8) (by norm_num) (by norm_num) (by norm_num) (by norm_num) (by norm_num)
  have h2 : b64 ((2 ^ 120) + (2 ^ 60)) = (2 ^ 120) := b64_near (4503599627370496) (68) (by norm_num) (by norm_num) (by norm_num) (by norm_num) (by norm_num)
  have h3 : b64 ((2 ^ 120) - (2 ^ 120)) = 0 := b64_z (by norm_num)
  have h4 : b64 (0 - (2 ^ 60)) = (-2 ^ 60) := b64_fix (-1) (60) (by norm_num) (by norm_num) (by norm_num)
  rw [MeanSt.add_val (by norm_num) h1 h2 h3 h4]
  norm_num

theorem large_step4 : (⟨3, (2 ^ 120), (-2 ^ 60), 0, 0, 1, .fin 1⟩ : MeanSt).remove b64 (.fin (2 ^ 120)) = (⟨2, 0, (-2 ^ 60), 0, 0, 1, .fin 1⟩ : MeanSt) := by
  have h1 : b64 (-(2 ^ 120) - 0) = (-2 ^ 120) := b64_fix (-1) (120) (by norm_num) (by norm_num) (by norm_num)
  have h2 : b64 ((2 ^ 120) + (-2 ^ 120)) = 0 := b64_z (by norm_num)
  have h3 : b64 (0 - (2 ^ 120)) = (-2 ^ 120) := b64_fix (-1) (120) (by norm_num) (by norm_num) (by norm_num)
  have h4 : b64 ((-2 ^ 120) - (-2 ^ 120)) = 0 := b64_z (by norm_num)
  exact MeanSt.remove_val (by norm_num) h1 h2 h3 h4

theorem large_step5 : (⟨2, 0, (-2 ^ 60), 0, 0, 1, .fin 1⟩ : MeanSt).add b64 (.fin 2) = (⟨3, (2 ^ 60), 0, 0, 0, 1, .fin 2⟩ : MeanSt) := by
  have h1 : b64 (2 - (-2 ^ 60)) = (2 ^ 60) := b64_near (4503599627370496) (8) (by norm_num) (by norm_num) (by norm_num) (by norm_num) (by norm_num)
  have h2 : b64 (0 + (2 ^ 60)) = (2 ^ 60) := b64_fix (1) (60) (by norm_num) (by norm_num) (by norm_num)
  have h3 : b64 ((2 ^ 60) - 0) = (2 ^ 60) := b64_fix (1) (60) (by norm_num) (by norm_num) (by norm_num)
  have h4 : b64 ((2 ^ 60) - (2 ^ 60)) = 0 := b64_z (by norm_num)
  rw [MeanSt.add_val (by norm_num) h1 h2 h3 h4]
  norm_num

theorem large_step6 : (⟨3, (2 ^ 60), 0, 0, 0, 1, .fin 2⟩ : MeanSt).remove b64 (.fin (2 ^ 60)) = (⟨2, 0, 0, 0, 0, 1, .fin 2⟩ : MeanSt) := by
  have h1 : b64 (-(2 ^ 60) - 0) = (-2 ^ 60) := b64_fix (-1) (60) (by norm_num) (by norm_num) (by norm_num)
  have h2 : b64 ((2 ^ 60) + (-2 ^ 60)) = 0 := b64_z (by norm_num)
  have h3 : b64 (0 - (2 ^ 60)) = (-2 ^ 60) := b64_fix (-1) (60) (by norm_num) (by norm_num) (by norm_num)
  have h4 : b64 ((-2 ^ 60) - (-2 ^ 60)) = 0 := b64_z (by norm_num)
  exact MeanSt.remove_val (by norm_num) h1 h2 h3 h4

theorem large_step7 : (⟨2, 0, 0, 0, 0, 1, .fin 2⟩ : MeanSt).add b64 (.fin 3) = (⟨3, 3, 0, 0, 0, 1, .fin 3⟩ : MeanSt) := by
  have h1 : b64 (3 - 0) = 3 := b64_fix (3) (0) (by norm_num) (by norm_num) (by norm_num)
  have h2 : b64 (0 + 3) = 3 := b64_fix (3) (0) (by norm_num) (by norm_num) (by norm_num)
  have h3 : b64 (3 - 0) = 3 := b64_fix (3) (0) (by norm_num) (by norm_num) (by norm_num)
  have h4 : b64 (3 - 3) = 0 := b64_z (by norm_num)
  rw [MeanSt.add_val (by norm_num) h1 h2 h3 h4]
  norm_num

theorem large_state : meanSt b64 3 twoLarge 4 = (⟨3, 3, 0, 0, 0, 1, .fin 3⟩ : MeanSt) := by
  have e0 : meanSt b64 3 twoLarge 0 = (⟨0, 0, 0, 0, 0, 0, .fin (2 ^ 120)⟩ : MeanSt).add b64 (.fin (2 ^ 120)) := rfl
  have e1 : meanSt b64 3 twoLarge 1 = (meanSt b64 3 twoLarge 0).add b64 (.fin (2 ^ 60)) := by rw [meanSt]; rfl
  have e2 : meanSt b64 3 twoLarge 2 = (meanSt b64 3 twoLarge 1).add b64 (.fin 1) := by rw [meanSt]; rfl
  have e3 : meanSt b64 3 twoLarge 3 = ((meanSt b64 3 twoLarge 2).remove b64 (.fin (2 ^ 120))).add b64 (.fin 2) := by rw [meanSt]; rfl
  have e4 : meanSt b64 3 twoLarge 4 = ((meanSt b64 3 twoLarge 3).remove b64 (.fin (2 ^ 60))).add b64 (.fin 3) := by rw [meanSt]; rfl
  rw [e4, e3, e2, e1, e0, large_step1, large_step2, large_step3, large_step4, large_step5, large_step6, large_step7]

/-- C106. The error of a rolling mean cannot be bounded by the values in its window: after two large values the rolling mean of 1, 2,
3 is 1. -/
theorem large_mean : ∃ u, rollingMeanR b64 twoLarge 3 = .ok u ∧ u[4]? = some (.fin 1) ∧ win 3 twoLarge 4 = [1, 2, 3] ∧
    rollAt 3 meanF twoLarge 4 = .fin 2 := by
  have hwin : win 3 twoLarge 4 = [1, 2, 3] := by simp [win, twoLarge]
  refine ⟨_, rfl, ?_, hwin, ?_⟩
  · rw [List.getElem?_map, List.getElem?_range (by simp [twoLarge])]
    simp only [Option.map_some]
    rw [if_neg (by norm_num), show (3 : Int).toNat = 3 from rfl, large_state]
    unfold MeanSt.calc
    simp only
    have h1 : b64 (3 / (3 : Nat)) = 1 := b64_fix 1 0 (by norm_num) (by norm_num) (by norm_num)
    rw [if_pos (by norm_num), if_neg (by norm_num), h1, if_neg (by norm_num), if_neg (by norm_num)]
  · unfold rollAt
    rw [hwin, if_pos (by simp)]
    norm_num [meanF]
    exact fun h => absurd h (by simp)

/-! ### Cases of the theorems -/

/-- Three positions with rounding: all hypotheses of `mean_error` hold, the bound is 140 units over 2. -/
example : ∃ u r, rollingMeanR b64 [.fin 1, .fin 2, .fin 4] 2 = .ok u ∧ u[2]? = some (.fin r) ∧ |r - 3| ≤ 70 * u64 := by
  obtain ⟨u, hu⟩ : ∃ u, rollingMeanR b64 [.fin 1, .fin 2, .fin 4] 2 = .ok u := ⟨_, rfl⟩
  have hwin : win 2 [.fin 1, .fin 2, .fin 4] 2 = [2, 4] := by simp [win]
  obtain ⟨h1, h2⟩ := mean_nan_iff hu (t := 2) (by simp)
  have hn : u[2]? ≠ some .nan := by
    rw [Ne, h1, show (2 : Int).toNat = 2 from rfl, hwin]
    simp
  obtain ⟨r, hr⟩ := h2.resolve_left hn
  have := mean_error b64_rounding hu hr (by unfold u64; norm_num)
  rw [show (2 : Int).toNat = 2 from rfl, hwin] at this
  refine ⟨u, r, hu, hr, ?_⟩
  have ha : absSum (hist [.fin 1, .fin 2, .fin 4] 2) = 7 := by
    simp only [hist, absSum, List.take, List.filterMap_cons, XF.real?_fin, List.filterMap_nil, List.map, List.sum_cons, List.sum_nil]
    norm_num
  rw [ha] at this
  norm_num at this
  linarith

/-- Whole numbers: the mean of 2 and 5 is exactly 3.5. -/
example : ∃ u, rollingMeanR b64 [.fin 1, .fin 2, .fin 5] 2 = .ok u ∧ u[2]? = some (.fin 3.5) := by
  obtain ⟨u, hu⟩ : ∃ u, rollingMeanR b64 [.fin 1, .fin 2, .fin 5] 2 = .ok u := ⟨_, rfl⟩
  have h0 : win 2 [.fin 1, .fin 2, .fin 5] 0 = [1] := by simp [win]
  have h1 : win 2 [.fin 1, .fin 2, .fin 5] 1 = [1, 2] := by simp [win]
  have h2 : win 2 [.fin 1, .fin 2, .fin 5] 2 = [2, 5] := by simp [win]
  have key := mean_whole b64_rounding hu (t := 2) (by simp)
    (by
      intro s hs v hv
      rw [show (2 : Int).toNat = 2 from rfl] at hv
      interval_cases s
      · rw [h0] at hv; exact ⟨1, by simpa using hv⟩
      · rw [h1] at hv
        rcases List.mem_cons.mp hv with h | h
        · exact ⟨1, by simpa using h⟩
        · exact ⟨2, by simpa using h⟩
      · rw [h2] at hv
        rcases List.mem_cons.mp hv with h | h
        · exact ⟨2, by simpa using h⟩
        · exact ⟨5, by simpa using h⟩)
    (by
      intro s hs
      rw [show (2 : Int).toNat = 2 from rfl]
      interval_cases s
      · rw [h0]; norm_num
      · rw [h1]; norm_num
      · rw [h2]; norm_num)
  refine ⟨u, hu, ?_⟩
  rw [key, show (2 : Int).toNat = 2 from rfl]
  unfold rollAt
  rw [h2, if_pos (by simp)]
  dsimp only
  rw [if_neg (by simp)]
  have : b64 (([2, 5] : List ℝ).sum / (([2, 5] : List ℝ).length : ℝ)) = 3.5 :=
    b64_fix 7 (-1) (by norm_num) (by norm_num) (by norm_num)
  rw [this]

end Verif.Roll
