import Verif.Spec.SpreadBars
import Verif.Lemmas.EdgeLimit
import Verif.Props.MicroRollLaw

/-!
# C115: what the EDGE spread estimates
-/

namespace Verif.Props.MicroEdgeLaw

open Verif Ser Micro Stat Stat.Spread MicroEdge MicroRollLaw MeasureTheory ProbabilityTheory Filter Topology

/-! ## The value as a function of the bars -/

/-- The signed or unsigned root of a squared spread. -/
noncomputable def root (sign : Bool) (v : ℝ) : ℝ := if sign = true ∧ v < 0 then -Real.sqrt |v| else Real.sqrt |v|

theorem root_eq (v : ℝ) : root true v = Real.sqrt (max v 0) - Real.sqrt (max (-v) 0) := by
  rw [root]
  rcases lt_or_ge v 0 with h | h
  · rw [if_pos ⟨rfl, h⟩, max_eq_right h.le, max_eq_left (by linarith), Real.sqrt_zero, abs_of_neg h, zero_sub]
  · rw [if_neg (fun e => absurd e.2 (not_lt.mpr h)), max_eq_left h, max_eq_right (by linarith), Real.sqrt_zero, abs_of_nonneg h,
      sub_zero]

theorem root_continuous (sign : Bool) : Continuous (root sign) := by
  cases sign
  · have : root false = fun v => Real.sqrt |v| := by
      funext v
      simp [root]
    rw [this]
    fun_prop
  · have : root true = fun v => Real.sqrt (max v 0) - Real.sqrt (max (-v) 0) := funext root_eq
    rw [this]
    fun_prop

theorem root_nonneg {sign : Bool} {v : ℝ} (h : 0 ≤ v) : root sign v = Real.sqrt v := by
  rw [root, if_neg (fun e => absurd e.2 (not_lt.mpr h)), abs_of_nonneg h]

/-- The mid-range over the open. -/
noncomputable def u (s : ℝ) (x : Fin 6 → ℝ) : ℝ := mid x - s / 2 * qo x
/-- The open over the efficient price at the end of the previous bar. -/
noncomputable def v (s : ℝ) (x : Fin 6 → ℝ) : ℝ := night x + s / 2 * qo x
/-- The efficient price at the end of the bar over the close. -/
noncomputable def e (s : ℝ) (x : Fin 6 → ℝ) : ℝ := -(s / 2 * qc x)
/-- The close over the mid-range. -/
noncomputable def z (s : ℝ) (x : Fin 6 → ℝ) : ℝ := day x - mid x + s / 2 * qc x

/-- Two consecutive bars, over the efficient price before them. -/
noncomputable def rp (s : ℝ) (x y : Fin 6 → ℝ) : RBar :=
  ⟨night x + day x + night y + s / 2 * qo y, night x + day x + night y + up y, night x + day x + night y + dn y,
    night x + up x, night x + dn x, night x + day x + s / 2 * qc x⟩

section

variable (s : ℝ) (x y : Fin 6 → ℝ)

theorem rp1 : Est.r1 (rp s x y) = u s y := by simp only [Est.r1, Est.mid, rp, u, mid]; ring
theorem rp2 : Est.r2 (rp s x y) = z s x + e s x + v s y := by simp only [Est.r2, Est.mid1, rp, z, e, v, mid]; ring
theorem rp3 : Est.r3 (rp s x y) = u s y + v s y + e s x := by simp only [Est.r3, Est.mid, rp, u, v, e, mid]; ring
theorem rp4 : Est.r4 (rp s x y) = z s x := by simp only [Est.r4, Est.mid1, rp, z, mid]; ring
theorem rp5 : Est.r5 (rp s x y) = v s y + e s x := by simp only [Est.r5, rp, v, e]; ring

theorem rp_inf (h : dn y < up y) : Est.inf (rp s x y) := by
  rintro ⟨h1, -⟩
  simp only [rp, add_right_inj] at h1
  exact h.ne' h1

theorem rp_open : (rp s x y).o ≠ (rp s x y).h ↔ s / 2 * qo y ≠ up y := by simp [rp]
theorem rp_open' : (rp s x y).o ≠ (rp s x y).l ↔ s / 2 * qo y ≠ dn y := by simp [rp]
theorem rp_close : (rp s x y).c1 ≠ (rp s x y).h1 ↔ day x + s / 2 * qc x ≠ up x := by simp [rp, add_assoc]
theorem rp_close' : (rp s x y).c1 ≠ (rp s x y).l1 ↔ day x + s / 2 * qc x ≠ dn x := by simp [rp, add_assoc]

end

open Classical in
/-- The estimate with a window of `w` bars; one more than `c` where it is not a number. -/
noncomputable def F (s : ℝ) (sign : Bool) (c : ℝ) (w : Nat) (x : Nat → Fin 6 → ℝ) : ℝ :=
  if Est.pt (w - 1) (fun j => rp s (x j) (x (j + 1))) = 0 ∨ Est.po (w - 1) (fun j => rp s (x j) (x (j + 1))) = 0 ∨
      Est.pc (w - 1) (fun j => rp s (x j) (x (j + 1))) = 0 ∨
      vari (w - 1) (Est.x1 (w - 1) fun j => rp s (x j) (x (j + 1))) + vari (w - 1) (Est.x2 (w - 1) fun j => rp s (x j) (x (j + 1))) = 0
    then c + 1 else root sign (Est.s2 (w - 1) fun j => rp s (x j) (x (j + 1)))

section meas

variable {α : Type*} [MeasurableSpace α]

theorem measurable_ind {p : α → Prop} (h : MeasurableSet {a | p a}) : Measurable fun a => ind (p a) :=
  Measurable.ite h measurable_const measurable_const

theorem measurable_avg {f : α → Nat → ℝ} (hf : ∀ j, Measurable fun a => f a j) (n : Nat) : Measurable fun a => avg n (f a) :=
  (Finset.measurable_fun_sum _ fun j _ => hf j).div_const _

theorem measurable_vari {f : α → Nat → ℝ} (hf : ∀ j, Measurable fun a => f a j) (n : Nat) : Measurable fun a => vari n (f a) :=
  measurable_avg (fun j => ((hf j).sub (measurable_avg hf n)).pow_const 2) n

/-- A measurable pair of bars. -/
structure MBar (r : α → RBar) : Prop where
  o : Measurable fun a => (r a).o
  h : Measurable fun a => (r a).h
  l : Measurable fun a => (r a).l
  h1 : Measurable fun a => (r a).h1
  l1 : Measurable fun a => (r a).l1
  c1 : Measurable fun a => (r a).c1

theorem MBar.inf {r : α → RBar} (m : MBar r) : MeasurableSet {a | Est.inf (r a)} :=
  ((measurableSet_eq_fun m.h m.l).inter (measurableSet_eq_fun m.l m.c1)).compl

variable {R : α → Nat → RBar} (m : ∀ j, MBar fun a => R a j) (n : Nat)

include m

theorem measurable_pt : Measurable fun a => Est.pt n (R a) := measurable_avg (fun j => measurable_ind (m j).inf) n

theorem measurable_po : Measurable fun a => Est.po n (R a) :=
  (measurable_avg (fun j => measurable_ind ((measurableSet_eq_fun (m j).o (m j).h).compl.inter (m j).inf)) n).add
    (measurable_avg (fun j => measurable_ind ((measurableSet_eq_fun (m j).o (m j).l).compl.inter (m j).inf)) n)

theorem measurable_pc : Measurable fun a => Est.pc n (R a) :=
  (measurable_avg (fun j => measurable_ind ((measurableSet_eq_fun (m j).c1 (m j).h1).compl.inter (m j).inf)) n).add
    (measurable_avg (fun j => measurable_ind ((measurableSet_eq_fun (m j).c1 (m j).l1).compl.inter (m j).inf)) n)

theorem measurable_dem {f : RBar → ℝ} (hf : ∀ j, Measurable fun a => f (R a j)) (j : Nat) :
    Measurable fun a => Est.dem n (R a) f j :=
  (hf j).sub (((measurable_ind (m j).inf).mul (measurable_avg hf n)).div (measurable_pt m n))

theorem measurable_mid (j : Nat) : Measurable fun a => Est.mid (R a j) := ((m j).h.add (m j).l).div_const 2

theorem measurable_mid1 (j : Nat) : Measurable fun a => Est.mid1 (R a j) := ((m j).h1.add (m j).l1).div_const 2

theorem measurable_x1 (j : Nat) : Measurable fun a => Est.x1 n (R a) j :=
  (((measurable_const.div (measurable_po m n)).mul (measurable_dem m n (fun j => (measurable_mid m j).sub (m j).o) j)).mul
    ((m j).o.sub (measurable_mid1 m j))).sub
    (((measurable_const.div (measurable_pc m n)).mul (measurable_dem m n (fun j => (measurable_mid m j).sub (m j).c1) j)).mul
      ((m j).c1.sub (measurable_mid1 m j)))

theorem measurable_x2 (j : Nat) : Measurable fun a => Est.x2 n (R a) j :=
  (((measurable_const.div (measurable_po m n)).mul (measurable_dem m n (fun j => (measurable_mid m j).sub (m j).o) j)).mul
    ((m j).o.sub (m j).c1)).sub
    (((measurable_const.div (measurable_pc m n)).mul (measurable_dem m n (fun j => (m j).o.sub (m j).c1) j)).mul
      ((m j).c1.sub (measurable_mid1 m j)))

theorem measurable_s2 : Measurable fun a => Est.s2 n (R a) :=
  (((measurable_vari (measurable_x2 m n) n).mul (measurable_avg (measurable_x1 m n) n)).add
    ((measurable_vari (measurable_x1 m n) n).mul (measurable_avg (measurable_x2 m n) n))).div
    ((measurable_vari (measurable_x1 m n) n).add (measurable_vari (measurable_x2 m n) n))

end meas

theorem measurable_F (s : ℝ) (sign : Bool) (c : ℝ) (w : Nat) : Measurable (F s sign c w) := by
  have m : ∀ j, MBar fun x : Nat → Fin 6 → ℝ => rp s (x j) (x (j + 1)) := by
    intro j
    constructor <;> simp only [rp, night, day, qo, qc, Spread.up, dn] <;> fun_prop
  have z : ∀ {f : (Nat → Fin 6 → ℝ) → ℝ}, Measurable f → MeasurableSet {x | f x = 0} := fun hf => measurableSet_eq_fun hf measurable_const
  refine Measurable.ite ?_ measurable_const ((root_continuous sign).measurable.comp (measurable_s2 m (w - 1)))
  exact (z (measurable_pt m _)).union ((z (measurable_po m _)).union ((z (measurable_pc m _)).union
    (z ((measurable_vari (measurable_x1 m _) _).add (measurable_vari (measurable_x2 m _) _)))))

variable {Ω : Type*} [MeasurableSpace Ω] {P : Measure Ω} {X : Nat → Ω → Fin 6 → ℝ} {eff O H L C : Ω → Nat → ℝ} {s : ℝ}

theorem pair_eq (h : Bars P X eff O H L C s) (ω : Ω) (i : Nat) :
    pair (H ω) (L ω) (O ω) (C ω) (i + 1) = Est.shift (eff ω i) (rp s (X i ω) (X (i + 1) ω)) := by
  simp only [pair, Est.shift, rp, h.opens, h.high, h.low, h.close, h.step, Nat.add_sub_cancel, RBar.mk.injEq]
  refine ⟨?_, ?_, ?_, ?_, ?_, ?_⟩ <;> ring

theorem edge_total (h l o c : Ser) {w : Nat} (hw : 1 ≤ w) (sign : Bool) : ∃ u, edgeSpread h l o c w sign = .ok u := by
  rw [edgeSpread, if_neg (by omega)]
  exact ⟨_, rfl⟩

/-- The value of the code, as a function of the bars in the window. -/
theorem edge_value (h : Bars P X eff O H L C s) (sign : Bool) (c : ℝ) (ω : Ω) {w n t : Nat} (hw : 2 ≤ w) (ht : w ≤ t + 1)
    (hn : t < n) : F s sign c w (fun i => X (i + (t + 1 - w)) ω) = c + 1 ∨
      ∃ v, edgeSpread (first (H ω) n) (first (L ω) n) (first (O ω) n) (first (C ω) n) w sign = .ok v ∧
        v[t]? = some (.fin (F s sign c w fun i => X (i + (t + 1 - w)) ω)) := by
  obtain ⟨u, hu⟩ := edge_total (first (H ω) n) (first (L ω) n) (first (O ω) n) (first (C ω) n) (show 1 ≤ w by omega) sign
  have hs := edge_spec hw hu (obs_first ht hn) (obs_first ht hn) (obs_first ht hn) (obs_first ht hn)
    fun i _ => ⟨(h.pos ω i).2.1, (h.pos ω i).2.2.1, (h.pos ω i).1, (h.pos ω i).2.2.2⟩
  have hR : (fun j => pair (H ω) (L ω) (O ω) (C ω) (t + 1 - w + (j + 1))) =
      fun j => Est.shift (eff ω (j + (t + 1 - w))) (rp s (X (j + (t + 1 - w)) ω) (X (j + 1 + (t + 1 - w)) ω)) := by
    funext j
    rw [show t + 1 - w + (j + 1) = (j + (t + 1 - w)) + 1 by omega, pair_eq h, show j + 1 + (t + 1 - w) = j + (t + 1 - w) + 1 by omega]
  rw [hR] at hs
  obtain ⟨e1, e2, e3, e4, e5⟩ := Est.shift_all (w - 1) (fun j => eff ω (j + (t + 1 - w)))
    fun j => rp s (X (j + (t + 1 - w)) ω) (X (j + 1 + (t + 1 - w)) ω)
  have e6 : Est.s2 (w - 1) (fun j => Est.shift (eff ω (j + (t + 1 - w))) (rp s (X (j + (t + 1 - w)) ω) (X (j + 1 + (t + 1 - w)) ω))) =
      Est.s2 (w - 1) fun j => rp s (X (j + (t + 1 - w)) ω) (X (j + 1 + (t + 1 - w)) ω) := by
    simp only [Est.s2, e4, e5]
  dsimp only at hs
  rw [e1, e2, e3, e4, e5, e6] at hs
  rw [F]
  split_ifs with hc
  · exact .inl rfl
  · rw [if_neg hc] at hs
    exact .inr ⟨u, hu, hs⟩

/-! ## The limit -/

theorem measurable_u (s : ℝ) : Measurable (u s) := by unfold u mid Spread.up dn qo; fun_prop
theorem measurable_v (s : ℝ) : Measurable (v s) := by unfold v night qo; fun_prop
theorem measurable_e (s : ℝ) : Measurable (e s) := by unfold e qc; fun_prop
theorem measurable_z (s : ℝ) : Measurable (z s) := by unfold z mid day Spread.up dn qc; fun_prop

theorem memLp_at (h : Bars P X eff O H L C s) (t : Nat) (k : Fin 6) : MemLp (fun ω => X t ω k) 2 P :=
  ((h.iid.ident t).comp (measurable_pi_apply k)).memLp_iff.mpr (h.sq k)

theorem memLp_mid (h : Bars P X eff O H L C s) (t : Nat) : MemLp (fun ω => mid (X t ω)) 2 P := by
  have := ((memLp_at h t 1).add (memLp_at h t 2)).const_mul (1 / 2)
  refine this.congr_norm ?_ (ae_of_all _ fun ω => ?_)
  · exact this.aestronglyMeasurable.congr (ae_of_all _ fun ω => by simp only [mid, Spread.up, dn, Pi.add_apply]; ring)
  · congr 1
    simp only [mid, Spread.up, dn, Pi.add_apply]
    ring

theorem memLp_u (h : Bars P X eff O H L C s) (t : Nat) : MemLp (fun ω => u s (X t ω)) 2 P :=
  (memLp_mid h t).sub ((memLp_at h t 4).const_mul (s / 2))
theorem memLp_v (h : Bars P X eff O H L C s) (t : Nat) : MemLp (fun ω => v s (X t ω)) 2 P :=
  (memLp_at h t 0).add ((memLp_at h t 4).const_mul (s / 2))
theorem memLp_e (h : Bars P X eff O H L C s) (t : Nat) : MemLp (fun ω => e s (X t ω)) 2 P :=
  ((memLp_at h t 5).const_mul (s / 2)).neg
theorem memLp_z (h : Bars P X eff O H L C s) (t : Nat) : MemLp (fun ω => z s (X t ω)) 2 P :=
  ((memLp_at h t 3).sub (memLp_mid h t)).add ((memLp_at h t 5).const_mul (s / 2))

/-- Averages over consecutive pairs. -/
theorem block_avg {E : Type*} [MeasurableSpace E] {X : Nat → Ω → E} (h : IID P X) {g : E → E → ℝ}
    (hg : Measurable fun p : E × E => g p.1 p.2) (hint : Integrable (fun ω => g (X 0 ω) (X 1 ω)) P) :
    ∀ᵐ ω ∂P, Tendsto (fun n : Nat => avg n fun j => g (X j ω) (X (j + 1) ω)) atTop (𝓝 (∫ ω, g (X 0 ω) (X 1 ω) ∂P)) := by
  have := h.block (k := 2) (by norm_num) (g := fun x : Fin 2 → E => g (x 0) (x 1))
    (hg.comp (f := fun x : Fin 2 → E => (x 0, x 1)) ((measurable_pi_apply 0).prodMk (measurable_pi_apply 1))) hint
  exact this

/-- Averages of the covariances of consecutive pairs. -/
theorem cov_same (h : Bars P X eff O H L C s) {f g : (Fin 6 → ℝ) → ℝ} (hf : Measurable f) (hg : Measurable g)
    (mf : ∀ t, MemLp (fun ω => f (X t ω)) 2 P) (mg : ∀ t, MemLp (fun ω => g (X t ω)) 2 P) (t : Nat) :
    cov[fun ω => f (X t ω), fun ω => g (X t ω); P] = cov[fun ω => f (X 0 ω), fun ω => g (X 0 ω); P] := by
  have hP := h.iid.indep.isProbabilityMeasure
  rw [covariance_eq_sub (mf t) (mg t), covariance_eq_sub (mf 0) (mg 0)]
  have a1 := ((h.iid.ident t).comp (hf.mul hg)).integral_eq
  have a2 := ((h.iid.ident t).comp hf).integral_eq
  have a3 := ((h.iid.ident t).comp hg).integral_eq
  simp only [Function.comp_def, Pi.mul_apply] at a1 a2 a3 ⊢
  rw [a1, a2, a3]

theorem cov_other (h : Bars P X eff O H L C s) {f g : (Fin 6 → ℝ) → ℝ} (hf : Measurable f) (hg : Measurable g)
    (mf : ∀ t, MemLp (fun ω => f (X t ω)) 2 P) (mg : ∀ t, MemLp (fun ω => g (X t ω)) 2 P) {i j : Nat} (hij : i ≠ j) :
    cov[fun ω => f (X i ω), fun ω => g (X j ω); P] = 0 :=
  ((h.iid.indep.indepFun hij).comp hf hg).covariance_eq_zero (mf i) (mg j)

variable (P X s) in
/-- The two terms of a pair that are averaged, with the means known. -/
noncomputable def Y1 (x y : Fin 6 → ℝ) : ℝ :=
  -4 / openOff P (X 0) s * ((u s y - ∫ ω, u s (X 0 ω) ∂P) * (z s x + e s x + v s y)) -
    4 / closeOff P (X 0) s * ((u s y + v s y + e s x - ∫ ω, (u s (X 0 ω) + v s (X 0 ω) + e s (X 0 ω)) ∂P) * z s x)

variable (P X s) in
noncomputable def Y2 (x y : Fin 6 → ℝ) : ℝ :=
  -4 / openOff P (X 0) s * ((u s y - ∫ ω, u s (X 0 ω) ∂P) * (v s y + e s x)) -
    4 / closeOff P (X 0) s * ((v s y + e s x - ∫ ω, (v s (X 0 ω) + e s (X 0 ω)) ∂P) * z s x)

variable (P X s) in
/-- The limit of the squared spread. -/
noncomputable def G : ℝ :=
  -4 / openOff P (X 0) s * cov[fun ω => u s (X 0 ω), fun ω => v s (X 0 ω); P] -
    4 / closeOff P (X 0) s * cov[fun ω => e s (X 0 ω), fun ω => z s (X 0 ω); P]

/-- A price cannot equal two different ones. -/
theorem off_ge [IsProbabilityMeasure P] {a b c : Ω → ℝ} (h : ∀ᵐ ω ∂P, b ω < c ω) :
    1 ≤ P.real {ω | a ω ≠ c ω} + P.real {ω | a ω ≠ b ω} := by
  have h1 : P.real ({ω | a ω ≠ c ω} ∪ {ω | a ω ≠ b ω}) = 1 := by
    rw [measureReal_congr (eventuallyEq_univ.mpr ?_), probReal_univ]
    filter_upwards [h] with ω hω
    by_cases e : a ω = c ω
    · exact .inr (by rw [Set.mem_ofPred_eq, e]; exact hω.ne')
    · exact .inl e
  rw [← h1]
  exact measureReal_union_le _ _

theorem openOff_ge (h : Bars P X eff O H L C s) : 1 ≤ openOff P (X 0) s :=
  have _ := h.iid.indep.isProbabilityMeasure
  off_ge h.range

theorem closeOff_ge (h : Bars P X eff O H L C s) : 1 ≤ closeOff P (X 0) s :=
  have _ := h.iid.indep.isProbabilityMeasure
  off_ge h.range

theorem integral_ind {E : Type*} [MeasurableSpace E] {Y : Ω → E} (hY : AEMeasurable Y P) {p : E → Prop}
    (hp : MeasurableSet {y | p y}) : ∫ ω, ind (p (Y ω)) ∂P = P.real {ω | p (Y ω)} := by
  have e : (fun ω => ind (p (Y ω))) = Set.indicator (Y ⁻¹' {y | p y}) fun _ => (1 : ℝ) := by
    funext ω
    by_cases h : p (Y ω)
    · rw [ind, if_pos h, Set.indicator_of_mem (by exact h)]
    · rw [ind, if_neg h, Set.indicator_of_notMem (by exact h)]
  rw [e, integral_indicator₀ (hY.nullMeasurableSet_preimage hp), setIntegral_const, smul_eq_mul, mul_one]
  rfl

theorem integrable_ind [IsFiniteMeasure P] {E : Type*} [MeasurableSpace E] {Y : Ω → E} (hY : AEMeasurable Y P) {p : E → Prop}
    (hp : MeasurableSet {y | p y}) : Integrable (fun ω => ind (p (Y ω))) P := by
  refine Integrable.of_bound ((measurable_ind hp).comp_aemeasurable hY).aestronglyMeasurable 1 (ae_of_all _ fun ω => ?_)
  show ‖ind (p (Y ω))‖ ≤ 1
  rw [ind]
  split_ifs <;> simp

/-- How often a statement about a bar holds, over the bars of the window or the ones before them. -/
theorem avg_ind (h : IID P X) {p : (Fin 6 → ℝ) → Prop} (hp : MeasurableSet {y | p y}) :
    ∀ᵐ ω ∂P, Tendsto (fun n : Nat => avg n fun j => ind (p (X j ω))) atTop (𝓝 (P.real {ω | p (X 0 ω)})) ∧
      Tendsto (fun n : Nat => avg n fun j => ind (p (X (j + 1) ω))) atTop (𝓝 (P.real {ω | p (X 0 ω)})) := by
  have hP := h.indep.isProbabilityMeasure
  have h1 := block_avg h (g := fun x _ => ind (p x)) ((measurable_ind hp).comp measurable_fst) (integrable_ind (h.ae 0) hp)
  have h2 := block_avg h (g := fun _ y => ind (p y)) ((measurable_ind hp).comp measurable_snd) (integrable_ind (h.ae 1) hp)
  have e : ∫ ω, ind (p (X 1 ω)) ∂P = ∫ ω, ind (p (X 0 ω)) ∂P := ((h.ident 1).comp (measurable_ind hp)).integral_eq
  rw [e, integral_ind (h.ae 0) hp] at h2
  rw [integral_ind (h.ae 0) hp] at h1
  filter_upwards [h1, h2] with ω a b using ⟨a, b⟩

theorem limit_po (h : Bars P X eff O H L C s) :
    ∀ᵐ ω ∂P, Tendsto (fun n => Est.po n fun j => rp s (X j ω) (X (j + 1) ω)) atTop (𝓝 (openOff P (X 0) s)) := by
  have m1 : MeasurableSet {y : Fin 6 → ℝ | s / 2 * qo y ≠ Spread.up y} :=
    (measurableSet_eq_fun (by unfold qo; fun_prop) (by unfold Spread.up; fun_prop)).compl
  have m2 : MeasurableSet {y : Fin 6 → ℝ | s / 2 * qo y ≠ dn y} :=
    (measurableSet_eq_fun (by unfold qo; fun_prop) (by unfold dn; fun_prop)).compl
  have hr := h.iid.ae_all (s := {y | dn y < Spread.up y}) (measurableSet_lt (by unfold dn; fun_prop) (by unfold Spread.up; fun_prop)) h.range
  filter_upwards [avg_ind h.iid m1, avg_ind h.iid m2, hr] with ω a b c
  refine (a.2.add b.2).congr fun n => ?_
  have hi : ∀ j, Est.inf (rp s (X j ω) (X (j + 1) ω)) := fun j => rp_inf s _ _ (c (j + 1))
  simp only [Est.po, rp_open, rp_open', hi, and_true]

theorem limit_pc (h : Bars P X eff O H L C s) :
    ∀ᵐ ω ∂P, Tendsto (fun n => Est.pc n fun j => rp s (X j ω) (X (j + 1) ω)) atTop (𝓝 (closeOff P (X 0) s)) := by
  have m1 : MeasurableSet {y : Fin 6 → ℝ | day y + s / 2 * qc y ≠ Spread.up y} :=
    (measurableSet_eq_fun (by unfold qc day; fun_prop) (by unfold Spread.up; fun_prop)).compl
  have m2 : MeasurableSet {y : Fin 6 → ℝ | day y + s / 2 * qc y ≠ dn y} :=
    (measurableSet_eq_fun (by unfold qc day; fun_prop) (by unfold dn; fun_prop)).compl
  have hr := h.iid.ae_all (s := {y | dn y < Spread.up y}) (measurableSet_lt (by unfold dn; fun_prop) (by unfold Spread.up; fun_prop)) h.range
  filter_upwards [avg_ind h.iid m1, avg_ind h.iid m2, hr] with ω a b c
  refine (a.1.add b.1).congr fun n => ?_
  have hi : ∀ j, Est.inf (rp s (X j ω) (X (j + 1) ω)) := fun j => rp_inf s _ _ (c (j + 1))
  simp only [Est.pc, rp_close, rp_close', hi, and_true]

/-- Averages of a function of a pair and of its product with another one. -/
theorem limit_pair (h : IID P X) {f g : (Fin 6 → ℝ) → (Fin 6 → ℝ) → ℝ}
    (hf : Measurable fun p : (Fin 6 → ℝ) × (Fin 6 → ℝ) => f p.1 p.2) (hg : Measurable fun p : (Fin 6 → ℝ) × (Fin 6 → ℝ) => g p.1 p.2)
    (mf : MemLp (fun ω => f (X 0 ω) (X 1 ω)) 2 P) (mg : MemLp (fun ω => g (X 0 ω) (X 1 ω)) 2 P) :
    ∀ᵐ ω ∂P, Tendsto (fun n : Nat => avg n fun j => f (X j ω) (X (j + 1) ω) * g (X j ω) (X (j + 1) ω)) atTop
      (𝓝 (∫ ω, f (X 0 ω) (X 1 ω) * g (X 0 ω) (X 1 ω) ∂P)) :=
  block_avg h (g := fun x y => f x y * g x y) (hf.mul hg) (mf.integrable_mul mg)

/-- The limits of the two estimates of the squared spread agree. -/
theorem cov_pairs (h : Bars P X eff O H L C s) :
    cov[fun ω => u s (X 1 ω), fun ω => z s (X 0 ω) + e s (X 0 ω) + v s (X 1 ω); P] = cov[fun ω => u s (X 0 ω), fun ω => v s (X 0 ω); P] ∧
    cov[fun ω => u s (X 1 ω) + v s (X 1 ω) + e s (X 0 ω), fun ω => z s (X 0 ω); P] = cov[fun ω => e s (X 0 ω), fun ω => z s (X 0 ω); P] ∧
    cov[fun ω => u s (X 1 ω), fun ω => v s (X 1 ω) + e s (X 0 ω); P] = cov[fun ω => u s (X 0 ω), fun ω => v s (X 0 ω); P] ∧
    cov[fun ω => v s (X 1 ω) + e s (X 0 ω), fun ω => z s (X 0 ω); P] = cov[fun ω => e s (X 0 ω), fun ω => z s (X 0 ω); P] := by
  have hP := h.iid.indep.isProbabilityMeasure
  have mu := memLp_u h
  have mv := memLp_v h
  have me := memLp_e h
  have mz := memLp_z h
  have e1 : (fun ω => z s (X 0 ω) + e s (X 0 ω) + v s (X 1 ω)) = ((fun ω => z s (X 0 ω)) + fun ω => e s (X 0 ω)) + fun ω => v s (X 1 ω) := rfl
  have e2 : (fun ω => u s (X 1 ω) + v s (X 1 ω) + e s (X 0 ω)) = ((fun ω => u s (X 1 ω)) + fun ω => v s (X 1 ω)) + fun ω => e s (X 0 ω) := rfl
  have e3 : (fun ω => v s (X 1 ω) + e s (X 0 ω)) = (fun ω => v s (X 1 ω)) + fun ω => e s (X 0 ω) := rfl
  have o1 : (1 : Nat) ≠ 0 := one_ne_zero
  refine ⟨?_, ?_, ?_, ?_⟩
  · rw [e1, covariance_add_right (mu 1) ((mz 0).add (me 0)) (mv 1), covariance_add_right (mu 1) (mz 0) (me 0),
      cov_other h (measurable_u s) (measurable_z s) mu mz o1, cov_other h (measurable_u s) (measurable_e s) mu me o1,
      cov_same h (measurable_u s) (measurable_v s) mu mv 1]
    ring
  · rw [e2, covariance_add_left ((mu 1).add (mv 1)) (me 0) (mz 0), covariance_add_left (mu 1) (mv 1) (mz 0),
      cov_other h (measurable_u s) (measurable_z s) mu mz o1, cov_other h (measurable_v s) (measurable_z s) mv mz o1]
    ring
  · rw [e3, covariance_add_right (mu 1) (mv 1) (me 0), cov_other h (measurable_u s) (measurable_e s) mu me o1,
      cov_same h (measurable_u s) (measurable_v s) mu mv 1]
    ring
  · rw [e3, covariance_add_left (mv 1) (me 0) (mz 0), cov_other h (measurable_v s) (measurable_z s) mv mz o1]
    ring

theorem measurable_Y1 : Measurable fun p : (Fin 6 → ℝ) × (Fin 6 → ℝ) => Y1 P X s p.1 p.2 := by
  have a := measurable_u s
  have b := measurable_v s
  have c := measurable_e s
  have d := measurable_z s
  unfold Y1
  fun_prop

theorem measurable_Y2 : Measurable fun p : (Fin 6 → ℝ) × (Fin 6 → ℝ) => Y2 P X s p.1 p.2 := by
  have a := measurable_u s
  have b := measurable_v s
  have c := measurable_e s
  have d := measurable_z s
  unfold Y2
  fun_prop

/-- If the terms of a pair are not constant, some pair shows it. -/
theorem some_pair (h : IID P X) {p : (Fin 6 → ℝ) × (Fin 6 → ℝ) → Prop} (hp : MeasurableSet {y | p y})
    (hne : ¬ ∀ᵐ ω ∂P, p (X 0 ω, X 1 ω)) : ∀ᵐ ω ∂P, ∃ j, ¬ p (X j ω, X (j + 1) ω) := by
  have hP := h.indep.isProbabilityMeasure
  have hY : AEMeasurable (fun ω => (X 0 ω, X 1 ω)) P := (h.ae 0).prodMk (h.ae 1)
  have hq : MeasurableSet {y | ¬ p y} := hp.compl
  have h1 := block_avg h (g := fun x y => ind (¬ p (x, y))) (measurable_ind hq) (integrable_ind hY hq)
  rw [integral_ind hY hq] at h1
  have h2 : P.real {ω | ¬ p (X 0 ω, X 1 ω)} ≠ 0 := by
    rw [measureReal_def, Ne, ENNReal.toReal_eq_zero_iff, not_or]
    exact ⟨fun h0 => hne (ae_iff.mpr h0), measure_ne_top _ _⟩
  filter_upwards [h1] with ω hω
  by_contra hc
  push Not at hc
  have : (fun n : Nat => avg n fun j => ind (¬ p (X j ω, X (j + 1) ω))) = fun _ => (0 : ℝ) := by
    funext n
    simp [avg, ind, hc]
  rw [this] at hω
  exact h2 (tendsto_nhds_unique tendsto_const_nhds hω).symm

/-- The estimate with long windows: the root of the sum of two covariances, of the mid-range over the open with the open over
the efficient price before it, and of the distance of the close from the efficient price with the close over the mid-range. -/
theorem edge_limit (h : Bars P X eff O H L C s) (sign : Bool)
    (hne : ¬ ∀ᵐ ω ∂P, Y1 P X s (X 0 ω) (X 1 ω) = G P X s ∧ Y2 P X s (X 0 ω) (X 1 ω) = G P X s) :
    Consistent P (fun ω n w => edgeSpread (first (H ω) n) (first (L ω) n) (first (O ω) n) (first (C ω) n) w sign) 0
      (root sign (G P X s)) := by
  have hP := h.iid.indep.isProbabilityMeasure
  refine consistent_of_or h.iid (F := F s sign (root sign (G P X s))) (measurable_F s sign _) ?_ (w₀ := 2)
    fun ω w hw n t ht hn => edge_value h sign _ ω hw ht hn
  have au := measurable_u s
  have av := measurable_v s
  have ae := measurable_e s
  have az := measurable_z s
  have mu := memLp_u h
  have mv := memLp_v h
  have me := memLp_e h
  have mz := memLp_z h
  have hr := h.iid.ae_all (s := {y | dn y < Spread.up y}) (measurableSet_lt (by unfold dn; fun_prop) (by unfold Spread.up; fun_prop)) h.range
  have f1 : Measurable fun p : (Fin 6 → ℝ) × (Fin 6 → ℝ) => Est.r1 (rp s p.1 p.2) := by simp only [rp1]; fun_prop
  have f2 : Measurable fun p : (Fin 6 → ℝ) × (Fin 6 → ℝ) => Est.r2 (rp s p.1 p.2) := by simp only [rp2]; fun_prop
  have f3 : Measurable fun p : (Fin 6 → ℝ) × (Fin 6 → ℝ) => Est.r3 (rp s p.1 p.2) := by simp only [rp3]; fun_prop
  have f4 : Measurable fun p : (Fin 6 → ℝ) × (Fin 6 → ℝ) => Est.r4 (rp s p.1 p.2) := by simp only [rp4]; fun_prop
  have f5 : Measurable fun p : (Fin 6 → ℝ) × (Fin 6 → ℝ) => Est.r5 (rp s p.1 p.2) := by simp only [rp5]; fun_prop
  have g1 : MemLp (fun ω => Est.r1 (rp s (X 0 ω) (X 1 ω))) 2 P := by simp only [rp1]; exact mu 1
  have g2 : MemLp (fun ω => Est.r2 (rp s (X 0 ω) (X 1 ω))) 2 P := by simp only [rp2]; exact ((mz 0).add (me 0)).add (mv 1)
  have g3 : MemLp (fun ω => Est.r3 (rp s (X 0 ω) (X 1 ω))) 2 P := by simp only [rp3]; exact ((mu 1).add (mv 1)).add (me 0)
  have g4 : MemLp (fun ω => Est.r4 (rp s (X 0 ω) (X 1 ω))) 2 P := by simp only [rp4]; exact mz 0
  have g5 : MemLp (fun ω => Est.r5 (rp s (X 0 ω) (X 1 ω))) 2 P := by simp only [rp5]; exact (mv 1).add (me 0)
  have h2 : (1 : ENNReal) ≤ 2 := by norm_num
  have b1 := block_avg h.iid (g := fun x y => Est.r1 (rp s x y)) f1 (g1.integrable h2)
  have b2 := block_avg h.iid (g := fun x y => Est.r2 (rp s x y)) f2 (g2.integrable h2)
  have b3 := block_avg h.iid (g := fun x y => Est.r3 (rp s x y)) f3 (g3.integrable h2)
  have b4 := block_avg h.iid (g := fun x y => Est.r4 (rp s x y)) f4 (g4.integrable h2)
  have b5 := block_avg h.iid (g := fun x y => Est.r5 (rp s x y)) f5 (g5.integrable h2)
  have b12 := limit_pair h.iid (f := fun x y => Est.r1 (rp s x y)) (g := fun x y => Est.r2 (rp s x y)) f1 f2 g1 g2
  have b34 := limit_pair h.iid (f := fun x y => Est.r3 (rp s x y)) (g := fun x y => Est.r4 (rp s x y)) f3 f4 g3 g4
  have b15 := limit_pair h.iid (f := fun x y => Est.r1 (rp s x y)) (g := fun x y => Est.r5 (rp s x y)) f1 f5 g1 g5
  have b54 := limit_pair h.iid (f := fun x y => Est.r5 (rp s x y)) (g := fun x y => Est.r4 (rp s x y)) f5 f4 g5 g4
  obtain ⟨c1, c2, c3, c4⟩ := cov_pairs h
  have i1 : ∫ ω, u s (X 1 ω) ∂P = ∫ ω, u s (X 0 ω) ∂P := ((h.iid.ident 1).comp au).integral_eq
  have i2 : ∫ ω, v s (X 1 ω) ∂P = ∫ ω, v s (X 0 ω) ∂P := ((h.iid.ident 1).comp av).integral_eq
  have j1 : ∫ ω, Est.r1 (rp s (X 0 ω) (X 1 ω)) ∂P = ∫ ω, u s (X 0 ω) ∂P := by simp only [rp1]; exact i1
  have j3 : ∫ ω, Est.r3 (rp s (X 0 ω) (X 1 ω)) ∂P = ∫ ω, (u s (X 0 ω) + v s (X 0 ω) + e s (X 0 ω)) ∂P := by
    simp only [rp3]
    have q : ∀ t, ∫ ω, (u s (X t ω) + v s (X t ω) + e s (X 0 ω)) ∂P = ∫ ω, u s (X t ω) ∂P + ∫ ω, v s (X t ω) ∂P + ∫ ω, e s (X 0 ω) ∂P := by
      intro t
      rw [integral_add (f := fun ω => u s (X t ω) + v s (X t ω)) (((mu t).add (mv t)).integrable h2) ((me 0).integrable h2),
        integral_add ((mu t).integrable h2) ((mv t).integrable h2)]
    rw [q, q, i1, i2]
  have j5 : ∫ ω, Est.r5 (rp s (X 0 ω) (X 1 ω)) ∂P = ∫ ω, (v s (X 0 ω) + e s (X 0 ω)) ∂P := by
    simp only [rp5]
    rw [integral_add ((mv 1).integrable h2) ((me 0).integrable h2), integral_add ((mv 0).integrable h2) ((me 0).integrable h2), i2]
  have hY : MeasurableSet {p : (Fin 6 → ℝ) × (Fin 6 → ℝ) | Y1 P X s p.1 p.2 = G P X s ∧ Y2 P X s p.1 p.2 = G P X s} :=
    (measurableSet_eq_fun measurable_Y1 measurable_const).inter (measurableSet_eq_fun measurable_Y2 measurable_const)
  filter_upwards [hr, limit_po h, limit_pc h, b1, b2, b3, b4, b5, b12, b34, b15, b54, some_pair h.iid hY hne]
    with ω d0 d1 d2 k1 k2 k3 k4 k5 k12 k34 k15 k54 d3
  obtain ⟨j, hj⟩ := d3
  have hi : ∀ j, Est.inf (rp s (X j ω) (X (j + 1) ω)) := fun j => rp_inf s _ _ (d0 (j + 1))
  have key := Est.tendsto_s2 hi (by linarith [openOff_ge h]) (by linarith [closeOff_ge h]) d1 d2 k1 k2 k3 k4 k5 k12 k34 k15 k54
    (G := G P X s) ?_ ?_ (j := j) ?_
  · have hsub : Tendsto (fun w : Nat => w - 1) atTop atTop := tendsto_sub_atTop_nat 1
    have q1 := ((root_continuous sign).tendsto _).comp (key.2.comp hsub)
    refine q1.congr' ?_
    filter_upwards [hsub.eventually key.1] with w hw
    exact (if_neg hw).symm
  · have e1 := covariance_eq_sub g1 g2
    have e2 := covariance_eq_sub g3 g4
    simp only [Pi.mul_apply] at e1 e2
    rw [show (∫ ω, Est.r1 (rp s (X 0 ω) (X 1 ω)) * Est.r2 (rp s (X 0 ω) (X 1 ω)) ∂P) -
      (∫ ω, Est.r1 (rp s (X 0 ω) (X 1 ω)) ∂P) * ∫ ω, Est.r2 (rp s (X 0 ω) (X 1 ω)) ∂P = _ from e1.symm,
      show (∫ ω, Est.r3 (rp s (X 0 ω) (X 1 ω)) * Est.r4 (rp s (X 0 ω) (X 1 ω)) ∂P) -
      (∫ ω, Est.r3 (rp s (X 0 ω) (X 1 ω)) ∂P) * ∫ ω, Est.r4 (rp s (X 0 ω) (X 1 ω)) ∂P = _ from e2.symm]
    simp only [rp1, rp2, rp3, rp4]
    rw [c1, c2, G]
  · have e1 := covariance_eq_sub g1 g5
    have e2 := covariance_eq_sub g5 g4
    simp only [Pi.mul_apply] at e1 e2
    rw [show (∫ ω, Est.r1 (rp s (X 0 ω) (X 1 ω)) * Est.r5 (rp s (X 0 ω) (X 1 ω)) ∂P) -
      (∫ ω, Est.r1 (rp s (X 0 ω) (X 1 ω)) ∂P) * ∫ ω, Est.r5 (rp s (X 0 ω) (X 1 ω)) ∂P = _ from e1.symm,
      show (∫ ω, Est.r5 (rp s (X 0 ω) (X 1 ω)) * Est.r4 (rp s (X 0 ω) (X 1 ω)) ∂P) -
      (∫ ω, Est.r5 (rp s (X 0 ω) (X 1 ω)) ∂P) * ∫ ω, Est.r4 (rp s (X 0 ω) (X 1 ω)) ∂P = _ from e2.symm]
    simp only [rp1, rp5, rp4]
    rw [c3, c4, G]
  · rw [j1, j3, j5]
    simp only [rp1, rp2, rp3, rp4, rp5]
    exact hj

/-! ## Fair directions -/

theorem measurable_flip (k : Fin 6) : Measurable (turn k) := by
  refine measurable_pi_lambda _ fun i => ?_
  by_cases h : i = k
  · subst h
    simp only [turn, Function.update_self]
    fun_prop
  · simp only [turn, Function.update_of_ne h]
    fun_prop

theorem flip_self (k : Fin 6) (x : Fin 6 → ℝ) : turn k x k = -x k := Function.update_self ..

theorem flip_ne {k i : Fin 6} (h : i ≠ k) (x : Fin 6 → ℝ) : turn k x i = x i := Function.update_of_ne h ..

/-- A direction is uncorrelated with everything that does not depend on it. -/
theorem cov_flip (h : Bars P X eff O H L C s) {k : Fin 6} (hk : IdentDistrib (fun ω => turn k (X 0 ω)) (X 0) P P)
    {f : (Fin 6 → ℝ) → ℝ} (hf : Measurable f) (mf : MemLp (fun ω => f (X 0 ω)) 2 P) (hflip : ∀ x, f (turn k x) = f x) :
    cov[fun ω => X 0 ω k, fun ω => f (X 0 ω); P] = 0 := by
  have hP := h.iid.indep.isProbabilityMeasure
  rw [covariance_eq_sub (h.sq k) mf]
  have mk : Measurable fun x : Fin 6 → ℝ => x k := measurable_pi_apply k
  have a1 := (hk.comp (mk.mul hf)).integral_eq
  have a2 := (hk.comp mk).integral_eq
  simp only [Function.comp_def, Pi.mul_apply, flip_self, hflip, neg_mul, integral_neg] at a1 a2 ⊢
  have b1 : ∫ ω, X 0 ω k * f (X 0 ω) ∂P = 0 := by linarith
  have b2 : ∫ ω, X 0 ω k ∂P = 0 := by linarith
  rw [b1, b2, zero_mul, sub_zero]

/-- Each direction has variance one. -/
theorem cov_self (h : Bars P X eff O H L C s) {k : Fin 6} (hk : IdentDistrib (fun ω => turn k (X 0 ω)) (X 0) P P)
    (hq : ∀ᵐ ω ∂P, X 0 ω k = 1 ∨ X 0 ω k = -1) : cov[fun ω => X 0 ω k, fun ω => X 0 ω k; P] = 1 := by
  have hP := h.iid.indep.isProbabilityMeasure
  rw [covariance_eq_sub (h.sq k) (h.sq k)]
  have mk : Measurable fun x : Fin 6 → ℝ => x k := measurable_pi_apply k
  have a2 := (hk.comp mk).integral_eq
  simp only [Function.comp_def, flip_self, integral_neg] at a2
  have b2 : ∫ ω, X 0 ω k ∂P = 0 := by linarith
  have b1 : ∫ ω, ((fun ω => X 0 ω k) * fun ω => X 0 ω k) ω ∂P = 1 := by
    have : ∀ᵐ ω ∂P, ((fun ω => X 0 ω k) * fun ω => X 0 ω k) ω = 1 := by
      filter_upwards [hq] with ω hω
      rcases hω with e | e <;> simp [e]
    rw [integral_congr_ae this]
    simp
  have b1' := b1
  simp only [Pi.mul_apply] at b1' ⊢
  rw [b1', b2, zero_mul, sub_zero]

/-- The squared spread in the limit, with fair directions: there remains the covariance of the mid-range with the overnight
change. -/
theorem G_fair (h : Bars P X eff O H L C s) (hf : Fair P (X 0)) :
    G P X s = (s ^ 2 - 4 * cov[fun ω => mid (X 0 ω), fun ω => night (X 0 ω); P]) / openOff P (X 0) s + s ^ 2 / closeOff P (X 0) s := by
  have hP := h.iid.indep.isProbabilityMeasure
  have mm := memLp_mid h 0
  have mn : MemLp (fun ω => night (X 0 ω)) 2 P := h.sq 0
  have md : MemLp (fun ω => day (X 0 ω)) 2 P := h.sq 3
  have mdm : MemLp (fun ω => day (X 0 ω) - mid (X 0 ω)) 2 P := md.sub mm
  have m4 : MemLp (fun ω => s / 2 * X 0 ω 4) 2 P := (h.sq 4).const_mul _
  have m5 : MemLp (fun ω => s / 2 * X 0 ω 5) 2 P := (h.sq 5).const_mul _
  have am : Measurable mid := by unfold mid Spread.up dn; fun_prop
  have an : Measurable night := by unfold night; fun_prop
  have ad : Measurable fun x => day x - mid x := by unfold mid Spread.up dn day; fun_prop
  have n1 : ∀ x, mid (turn 4 x) = mid x := fun x => by
    simp only [mid, Spread.up, dn, flip_ne (show (1 : Fin 6) ≠ 4 by decide), flip_ne (show (2 : Fin 6) ≠ 4 by decide)]
  have n2 : ∀ x, night (turn 4 x) = night x := fun x => by
    simp only [night, flip_ne (show (0 : Fin 6) ≠ 4 by decide)]
  have n3 : ∀ x, day (turn 5 x) - mid (turn 5 x) = day x - mid x := fun x => by
    simp only [mid, Spread.up, dn, day, flip_ne (show (1 : Fin 6) ≠ 5 by decide), flip_ne (show (2 : Fin 6) ≠ 5 by decide),
      flip_ne (show (3 : Fin 6) ≠ 5 by decide)]
  have c1 := cov_flip h hf.opens am mm n1
  have c2 := cov_flip h hf.opens an mn n2
  have c3 := cov_flip h hf.closes ad mdm n3
  have c4 := cov_self h hf.opens (hf.sides.mono fun ω hω => hω.1)
  have c5 := cov_self h hf.closes (hf.sides.mono fun ω hω => hω.2)
  have e1 : cov[fun ω => u s (X 0 ω), fun ω => v s (X 0 ω); P] = cov[fun ω => mid (X 0 ω), fun ω => night (X 0 ω); P] - s ^ 2 / 4 := by
    have a1 : (fun ω => u s (X 0 ω)) = (fun ω => mid (X 0 ω)) - fun ω => s / 2 * X 0 ω 4 := rfl
    have a2 : (fun ω => v s (X 0 ω)) = (fun ω => night (X 0 ω)) + fun ω => s / 2 * X 0 ω 4 := rfl
    rw [a1, a2, covariance_sub_left mm m4 (mn.add m4), covariance_add_right mm mn m4, covariance_add_right m4 mn m4,
      covariance_const_mul_left, covariance_const_mul_left, covariance_const_mul_right, covariance_const_mul_right,
      covariance_comm (X := fun ω => mid (X 0 ω)) (Y := fun ω => X 0 ω 4), c1, c2, c4]
    ring
  have e2 : cov[fun ω => e s (X 0 ω), fun ω => z s (X 0 ω); P] = -(s ^ 2 / 4) := by
    have a1 : (fun ω => e s (X 0 ω)) = -fun ω => s / 2 * X 0 ω 5 := rfl
    have a2 : (fun ω => z s (X 0 ω)) = (fun ω => day (X 0 ω) - mid (X 0 ω)) + fun ω => s / 2 * X 0 ω 5 := rfl
    rw [a1, a2, covariance_neg_left, covariance_add_right m5 mdm m5, covariance_const_mul_left, covariance_const_mul_left,
      covariance_const_mul_right, c3, c5]
    ring
  rw [G, e1, e2]
  ring

/-- With fair directions and a spread the terms of the pairs are not constant. -/
theorem fair_varies (h : Bars P X eff O H L C s) (hf : Fair P (X 0)) (hs : s ≠ 0) :
    ¬ ∀ᵐ ω ∂P, Y1 P X s (X 0 ω) (X 1 ω) = G P X s ∧ Y2 P X s (X 0 ω) (X 1 ω) = G P X s := by
  intro hc
  have hP := h.iid.indep.isProbabilityMeasure
  have hm : MeasurableSet {p : (Fin 6 → ℝ) × (Fin 6 → ℝ) | Y2 P X s p.1 p.2 = G P X s} :=
    measurableSet_eq_fun measurable_Y2 measurable_const
  have h0 : ∀ᵐ ω ∂P, (X 0 ω, X 1 ω) ∈ {p : (Fin 6 → ℝ) × (Fin 6 → ℝ) | Y2 P X s p.1 p.2 = G P X s} := hc.mono fun ω hω => hω.2
  have i01 := h.iid.indep.indepFun (zero_ne_one (α := Nat))
  have d0 := hf.closes
  have d1 : IdentDistrib (fun ω => turn 4 (X 1 ω)) (X 1) P P :=
    (((h.iid.ident 1).comp (measurable_flip 4)).trans hf.opens).trans (h.iid.ident 1).symm
  have r0 : IdentDistrib (X 0) (X 0) P P := h.iid.ident 0
  have r1 : IdentDistrib (X 1) (X 1) P P := (h.iid.ident 1).trans (h.iid.ident 1).symm
  have k1 := (d0.prodMk r1 (i01.comp (measurable_flip 5) measurable_id) i01).symm.ae_mem_snd hm h0
  have k2 := (r0.prodMk d1 (i01.comp measurable_id (measurable_flip 4)) i01).symm.ae_mem_snd hm h0
  have k3 := (d0.prodMk d1 (i01.comp (measurable_flip 5) (measurable_flip 4)) i01).symm.ae_mem_snd hm h0
  have s1 : ∀ᵐ ω ∂P, qo (X 1 ω) = 1 ∨ qo (X 1 ω) = -1 := by
    have hms : MeasurableSet {x : Fin 6 → ℝ | qo x = 1 ∨ qo x = -1} := by
      unfold qo
      exact (measurableSet_eq_fun (by fun_prop) measurable_const).union (measurableSet_eq_fun (by fun_prop) measurable_const)
    exact (h.iid.ident 1).symm.ae_mem_snd hms (hf.sides.mono fun ω hω => hω.1)
  obtain ⟨ω, ⟨⟨⟨a0, a1⟩, a2⟩, a3⟩, a4, a5⟩ := ((((h0.and k1).and k2).and k3).and (hf.sides.and s1)).exists
  have p1 := openOff_ge h
  have p2 := closeOff_ge h
  simp only [Set.mem_ofPred_eq, Y2, u, v, e, z, mid, night, Spread.up, dn, day, qo, qc, flip_self,
    flip_ne (show (0 : Fin 6) ≠ 4 by decide), flip_ne (show (1 : Fin 6) ≠ 4 by decide), flip_ne (show (2 : Fin 6) ≠ 4 by decide),
    flip_ne (show (1 : Fin 6) ≠ 5 by decide), flip_ne (show (2 : Fin 6) ≠ 5 by decide),
    flip_ne (show (3 : Fin 6) ≠ 5 by decide)] at a0 a1 a2 a3
  have q0 : X 0 ω 5 ≠ 0 := by rcases a4.2 with e | e <;> (unfold qc at e; rw [e]; norm_num)
  have q1 : X 1 ω 4 ≠ 0 := by rcases a5 with e | e <;> (unfold qo at e; rw [e]; norm_num)
  have key : s ^ 2 * (1 / openOff P (X 0) s + 1 / closeOff P (X 0) s) * (X 0 ω 5 * X 1 ω 4) = 0 := by
    linear_combination (-1 / 4) * (a0 - a1 - a2 + a3)
  have pp : 0 < 1 / openOff P (X 0) s + 1 / closeOff P (X 0) s := by positivity
  exact (mul_ne_zero (mul_ne_zero (pow_ne_zero 2 hs) pp.ne') (mul_ne_zero q0 q1)) key

/-- With fair directions: the limit in terms of the spread, of how often open and close are not the extremes of the bar, and
of the covariance of the mid-range with the overnight change. -/
theorem edge_fair (h : Bars P X eff O H L C s) (hf : Fair P (X 0)) (hs : s ≠ 0) (sign : Bool) :
    Consistent P (fun ω n w => edgeSpread (first (H ω) n) (first (L ω) n) (first (O ω) n) (first (C ω) n) w sign) 0
      (root sign ((s ^ 2 - 4 * cov[fun ω => mid (X 0 ω), fun ω => night (X 0 ω); P]) / openOff P (X 0) s +
        s ^ 2 / closeOff P (X 0) s)) := by
  rw [← G_fair h hf]
  exact edge_limit h sign (fair_varies h hf hs)

/-- Open and close lie inside the range of the bar. -/
def Inside (P : Measure Ω) (x : Ω → Fin 6 → ℝ) (s : ℝ) : Prop :=
  ∀ᵐ ω ∂P, (dn (x ω) < s / 2 * qo (x ω) ∧ s / 2 * qo (x ω) < Spread.up (x ω)) ∧
    dn (x ω) < day (x ω) + s / 2 * qc (x ω) ∧ day (x ω) + s / 2 * qc (x ω) < Spread.up (x ω)

theorem off_inside [IsProbabilityMeasure P] {x : Ω → Fin 6 → ℝ} (h : Inside P x s) : openOff P x s = 2 ∧ closeOff P x s = 2 := by
  have one : ∀ {p : Ω → Prop}, (∀ᵐ ω ∂P, p ω) → P.real {ω | p ω} = 1 := fun hp => by
    rw [measureReal_congr (eventuallyEq_univ.mpr hp), probReal_univ]
  rw [openOff, closeOff, one (h.mono fun ω hω => hω.1.2.ne), one (h.mono fun ω hω => hω.1.1.ne'), one (h.mono fun ω hω => hω.2.2.ne),
    one (h.mono fun ω hω => hω.2.1.ne')]
  norm_num

theorem edge_inside (h : Bars P X eff O H L C s) (hf : Fair P (X 0)) (hi : Inside P (X 0) s) (hs : s ≠ 0) (sign : Bool) :
    Consistent P (fun ω n w => edgeSpread (first (H ω) n) (first (L ω) n) (first (O ω) n) (first (C ω) n) w sign) 0
      (root sign (s ^ 2 - 2 * cov[fun ω => mid (X 0 ω), fun ω => night (X 0 ω); P])) := by
  have hP := h.iid.indep.isProbabilityMeasure
  have := edge_fair h hf hs sign
  rw [(off_inside hi).1, (off_inside hi).2] at this
  convert this using 2
  ring

/-- The estimate is the spread if the mid-range is uncorrelated with the overnight change. -/
theorem edge_spread (h : Bars P X eff O H L C s) (hf : Fair P (X 0)) (hi : Inside P (X 0) s) (hs : 0 < s)
    (hc : cov[fun ω => mid (X 0 ω), fun ω => night (X 0 ω); P] = 0) (sign : Bool) :
    Consistent P (fun ω n w => edgeSpread (first (H ω) n) (first (L ω) n) (first (O ω) n) (first (C ω) n) w sign) 0 s := by
  have := edge_inside h hf hi hs.ne' sign
  rwa [hc, mul_zero, sub_zero, root_nonneg (sq_nonneg s), Real.sqrt_sq hs.le] at this

/-- Opens and closes at the extremes of the bar, with fair directions: the spread is overestimated. -/
theorem edge_extremes (h : Bars P X eff O H L C s) (hf : Fair P (X 0)) (hs : 0 < s)
    (hc : cov[fun ω => mid (X 0 ω), fun ω => night (X 0 ω); P] = 0) (hx : openOff P (X 0) s < 2 ∨ closeOff P (X 0) s < 2) (sign : Bool) :
    ∃ c, s < c ∧ Consistent P (fun ω n w => edgeSpread (first (H ω) n) (first (L ω) n) (first (O ω) n) (first (C ω) n) w sign) 0 c := by
  have hP := h.iid.indep.isProbabilityMeasure
  have p1 := openOff_ge h
  have p2 := closeOff_ge h
  have q1 : openOff P (X 0) s ≤ 2 := by
    rw [openOff]
    linarith [measureReal_le_one (μ := P) (s := {ω | s / 2 * qo (X 0 ω) ≠ Spread.up (X 0 ω)}),
      measureReal_le_one (μ := P) (s := {ω | s / 2 * qo (X 0 ω) ≠ dn (X 0 ω)})]
  have q2 : closeOff P (X 0) s ≤ 2 := by
    rw [closeOff]
    linarith [measureReal_le_one (μ := P) (s := {ω | day (X 0 ω) + s / 2 * qc (X 0 ω) ≠ Spread.up (X 0 ω)}),
      measureReal_le_one (μ := P) (s := {ω | day (X 0 ω) + s / 2 * qc (X 0 ω) ≠ dn (X 0 ω)})]
  have := edge_fair h hf hs.ne' sign
  rw [hc, mul_zero, sub_zero] at this
  refine ⟨_, ?_, this⟩
  have l1 : 1 / 2 ≤ 1 / openOff P (X 0) s := one_div_le_one_div_of_le (by linarith) q1
  have l2 : 1 / 2 ≤ 1 / closeOff P (X 0) s := one_div_le_one_div_of_le (by linarith) q2
  have l3 : 1 < 1 / openOff P (X 0) s + 1 / closeOff P (X 0) s := by
    rcases hx with hx | hx
    · have := one_div_lt_one_div_of_lt (show 0 < openOff P (X 0) s by linarith) hx
      linarith
    · have := one_div_lt_one_div_of_lt (show 0 < closeOff P (X 0) s by linarith) hx
      linarith
  have e : s ^ 2 / openOff P (X 0) s + s ^ 2 / closeOff P (X 0) s = s ^ 2 * (1 / openOff P (X 0) s + 1 / closeOff P (X 0) s) := by ring
  rw [e, root_nonneg (by positivity)]
  refine Real.lt_sqrt_of_sq_lt ?_
  nlinarith [pow_pos hs 2]

/-- Overnight changes that continue during the day lower the estimate, ones that revert raise it. -/
theorem edge_momentum (h : Bars P X eff O H L C s) (hf : Fair P (X 0)) (hi : Inside P (X 0) s) (hs : 0 < s) (sign : Bool) :
    (cov[fun ω => mid (X 0 ω), fun ω => night (X 0 ω); P] < 0 → ∃ c, s < c ∧
      Consistent P (fun ω n w => edgeSpread (first (H ω) n) (first (L ω) n) (first (O ω) n) (first (C ω) n) w sign) 0 c) ∧
    (0 < cov[fun ω => mid (X 0 ω), fun ω => night (X 0 ω); P] → cov[fun ω => mid (X 0 ω), fun ω => night (X 0 ω); P] < s ^ 2 →
      ∃ c, c < s ∧ Consistent P (fun ω n w => edgeSpread (first (H ω) n) (first (L ω) n) (first (O ω) n) (first (C ω) n) w sign) 0 c) := by
  have := edge_inside h hf hi hs.ne' sign
  refine ⟨fun hc => ⟨_, ?_, this⟩, fun hc hc' => ⟨_, ?_, this⟩⟩
  · rw [root_nonneg (by nlinarith [sq_nonneg s])]
    exact Real.lt_sqrt_of_sq_lt (by linarith)
  · have : Real.sqrt |s ^ 2 - 2 * cov[fun ω => mid (X 0 ω), fun ω => night (X 0 ω); P]| < s := by
      rw [Real.sqrt_lt' hs, abs_lt]
      constructor <;> linarith
    rw [root]
    split_ifs
    · linarith [Real.sqrt_nonneg |s ^ 2 - 2 * cov[fun ω => mid (X 0 ω), fun ω => night (X 0 ω); P]|]
    · exact this

/-- A large covariance gives the spread again; only the signed version tells, with a negative value. -/
theorem edge_mirror (h : Bars P X eff O H L C s) (hf : Fair P (X 0)) (hi : Inside P (X 0) s) (hs : 0 < s)
    (hc : cov[fun ω => mid (X 0 ω), fun ω => night (X 0 ω); P] = s ^ 2) :
    Consistent P (fun ω n w => edgeSpread (first (H ω) n) (first (L ω) n) (first (O ω) n) (first (C ω) n) w false) 0 s ∧
    Consistent P (fun ω n w => edgeSpread (first (H ω) n) (first (L ω) n) (first (O ω) n) (first (C ω) n) w true) 0 (-s) := by
  have p := pow_pos hs 2
  have e : Real.sqrt |s ^ 2 - 2 * s ^ 2| = s := by
    rw [show s ^ 2 - 2 * s ^ 2 = -s ^ 2 by ring, abs_neg, abs_of_pos p, Real.sqrt_sq hs.le]
  constructor
  · have := edge_inside h hf hi hs.ne' false
    rw [hc, root, e] at this
    simpa using this
  · have := edge_inside h hf hi hs.ne' true
    rw [hc, root, e, if_pos ⟨rfl, by linarith⟩] at this
    exact this

end Verif.Props.MicroEdgeLaw
