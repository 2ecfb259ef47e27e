import Verif.Props.IndRolling
import Verif.Props.IndEwm

/-!
# C51: the relative strength index
-/

namespace Verif.Props.IndRsi

open Verif Ser Ind Finset

/-- The rise of `y` into position `i`. -/
noncomputable def rise (y : Nat → ℝ) (i : Nat) : ℝ := if i = 0 then 0 else max (y i - y (i - 1)) 0

/-- The fall of `y` into position `i`. -/
noncomputable def fall (y : Nat → ℝ) (i : Nat) : ℝ := if i = 0 then 0 else max (y (i - 1) - y i) 0

theorem rise_nonneg (y : Nat → ℝ) (i : Nat) : 0 ≤ rise y i := by
  rw [rise]; split
  · exact le_rfl
  · exact le_max_right _ _

theorem fall_nonneg (y : Nat → ℝ) (i : Nat) : 0 ≤ fall y i := by
  rw [fall]; split
  · exact le_rfl
  · exact le_max_right _ _

theorem diff_get {x : Ser} {t : Nat} (ht : t < x.length) :
    (diff 1 x)[t]? = some (match t with | 0 => .nan | s + 1 => x[s + 1]?.getD .nan - (x[s]?).getD .nan) := by
  rw [diff, op2_get _ (List.getElem?_eq_getElem ht) (shift_one_get x ht)]
  cases t with
  | zero => simp
  | succ s => simp [List.getElem?_eq_getElem ht]

theorem gains_get {x : Ser} {t : Nat} {d : XF} (h : (diff 1 x)[t]? = some d) :
    (gains x)[t]? = some (open Classical in if XF.lt (.fin 0) d then d else .fin 0) := by
  rw [gains, whereZero, op2_get _ h h]

theorem losses_get {x : Ser} {t : Nat} {d : XF} (h : (diff 1 x)[t]? = some d) :
    (losses x)[t]? = some (open Classical in if XF.lt d (.fin 0) then -d else .fin 0) := by
  have h2 : ((diff 1 x).map (- ·))[t]? = some (-d) := by rw [List.getElem?_map, h]; rfl
  rw [losses, whereZero, op2_get _ h h2]

/-- Position `i` of the gains and losses of a series of numbers. -/
theorem gains_fin {ys : List ℝ} {i : Nat} (hi : i < ys.length) :
    (gains (ys.map .fin))[i]? = some (.fin (rise (fun i => ys.getD i 0) i)) ∧
      (losses (ys.map .fin))[i]? = some (.fin (fall (fun i => ys.getD i 0) i)) := by
  have hd := diff_get (x := ys.map .fin) (t := i) (by simpa using hi)
  rw [gains_get hd, losses_get hd]
  cases i with
  | zero => simp [XF.lt_nan, XF.nan_lt, rise, fall]
  | succ s =>
    have e1 : (ys.map XF.fin)[s + 1]?.getD .nan = .fin (ys.getD (s + 1) 0) := by
      simp [List.getD_eq_getElem?_getD, List.getElem?_eq_getElem hi]
    have e2 : (ys.map XF.fin)[s]?.getD .nan = .fin (ys.getD s 0) := by
      simp [List.getD_eq_getElem?_getD, List.getElem?_eq_getElem (show s < ys.length by omega)]
    simp only [e1, e2, XF.sub_fin, XF.lt_fin, rise, fall, XF.neg_fin, Nat.add_sub_cancel, Nat.succ_ne_zero, if_false]
    constructor
    · split
      · rw [max_eq_left (by linarith)]
      · rw [max_eq_right (by linarith)]
    · split
      · rw [max_eq_left (by linarith), neg_sub]
      · rw [max_eq_right (by linarith)]

/-- `100 * (a / (a + b))` for numbers. -/
theorem ratio {a b : ℝ} (ha : 0 ≤ a) (hb : 0 ≤ b) :
    (.fin 100 * (.fin a / (.fin a + .fin b)) : XF) = if a + b = 0 then .nan else .fin (100 * (a / (a + b))) := by
  by_cases h : a + b = 0
  · rw [if_pos h]
    have : a = 0 := by linarith
    rw [XF.add_fin, h, this, XF.zero_div_zero, XF.mul_nan]
  · rw [if_neg h, XF.add_fin, XF.div_fin h, XF.mul_fin]

/-- A mean of gains or losses: NaN or a non-negative number. -/
def Fine (v : XF) : Prop := v = .nan ∨ ∃ r, v = .fin r ∧ 0 ≤ r

theorem rsi_val {a b : XF} (ha : Fine a) (hb : Fine b) :
    (.fin 100 * (a / (a + b)) : XF) = .nan ∨ ∃ v, (.fin 100 * (a / (a + b)) : XF) = .fin v ∧ 0 ≤ v ∧ v ≤ 100 := by
  rcases ha with rfl | ⟨r, rfl, hr⟩
  · left; simp
  · rcases hb with rfl | ⟨s, rfl, hs⟩
    · left; simp
    · rw [ratio hr hs]
      split
      · exact .inl rfl
      · rename_i h
        have hp : 0 < r + s := lt_of_le_of_ne (by linarith) (Ne.symm h)
        refine .inr ⟨_, rfl, by positivity, ?_⟩
        have : r / (r + s) ≤ 1 := by rw [div_le_one hp]; linarith
        linarith

theorem rsi_val_flip {a b : XF} (ha : Fine a) (hb : Fine b) :
    ((.fin 100 * (a / (a + b)) : XF) = .nan ∧ (.fin 100 * (b / (b + a)) : XF) = .nan) ∨
      ∃ v, (.fin 100 * (a / (a + b)) : XF) = .fin v ∧ (.fin 100 * (b / (b + a)) : XF) = .fin (100 - v) := by
  rcases ha with rfl | ⟨r, rfl, hr⟩
  · left; simp
  · rcases hb with rfl | ⟨s, rfl, hs⟩
    · left; simp
    · rw [ratio hr hs, ratio hs hr, add_comm s r]
      split
      · exact .inl ⟨rfl, rfl⟩
      · rename_i h
        refine .inr ⟨_, rfl, ?_⟩
        congr 1
        field_simp
        ring

theorem gains_mem {x : Ser} {v : XF} (h : v ∈ gains x) : ∀ r, v = .fin r → 0 ≤ r := by
  rintro r rfl
  obtain ⟨t, ht⟩ := List.mem_iff_getElem?.1 h
  have hlt : t < (diff 1 x).length := by
    have := (List.getElem?_eq_some_iff.1 ht).1
    rwa [IndCausal.gains_length, ← diff_length 1 x] at this
  rw [gains_get (List.getElem?_eq_getElem hlt)] at ht
  split at ht
  · rename_i hl
    rw [Option.some.inj ht] at hl
    exact le_of_lt hl
  · exact le_of_eq (XF.fin.inj (Option.some.inj ht))

theorem losses_mem {x : Ser} {v : XF} (h : v ∈ losses x) : ∀ r, v = .fin r → 0 ≤ r := by
  rintro r rfl
  obtain ⟨t, ht⟩ := List.mem_iff_getElem?.1 h
  have hlt : t < (diff 1 x).length := by
    have := (List.getElem?_eq_some_iff.1 ht).1
    rwa [IndCausal.losses_length, ← diff_length 1 x] at this
  rw [losses_get (List.getElem?_eq_getElem hlt)] at ht
  split at ht
  · rename_i hl
    have ht' := Option.some.inj ht
    rcases hd : (diff 1 x)[t] with _ | _ | _ | d
    · rw [hd] at ht'; cases ht'
    · rw [hd] at ht'; cases ht'
    · rw [hd] at ht'; cases ht'
    · rw [hd] at ht' hl
      rw [XF.neg_fin] at ht'
      have h1 : d < 0 := hl
      have := XF.fin.inj ht'
      linarith
  · exact le_of_eq (XF.fin.inj (Option.some.inj ht))

theorem rolling_fine {x u : Ser} {w : Int} (hx : ∀ v ∈ x, ∀ r, v = .fin r → 0 ≤ r)
    (hu : rolling w meanF x = .ok u) {t : Nat} {a : XF} (ha : u[t]? = some a) : Fine a := by
  have ht : t < x.length := by
    rw [← rolling_length hu]
    exact (List.getElem?_eq_some_iff.1 ha).1
  rw [rolling_get hu ht] at ha
  cases ha
  rw [rollAt]
  split
  · rw [meanF]
    split
    · exact .inl rfl
    · rename_i hne
      refine .inr ⟨_, rfl, le_mean hne fun b hb => ?_⟩
      obtain ⟨i, -, -, hi⟩ := win_mem hb
      exact hx _ (List.mem_of_getElem? hi) _ rfl
  · exact .inl rfl

theorem ewm_fine {x : Ser} {span : ℝ} {u : Ser} (hx : ∀ v ∈ x, ∀ r, v = .fin r → 0 ≤ r)
    (hu : Ind.ewmMean x span = .ok u) {t : Nat} {a : XF} (ha : u[t]? = some a) : Fine a := by
  have ht : t < x.length := by
    rw [← (IndCausal.ewmMean_causal span).length _ _ hu]
    exact (List.getElem?_eq_some_iff.1 ha).1
  rcases IndEwm.ewm_mean_range hu ht with ⟨h, -⟩ | ⟨m, h, hb⟩
  · rw [h] at ha; cases ha; exact .inl rfl
  · rw [h] at ha; cases ha
    refine .inr ⟨m, rfl, ?_⟩
    have key : ∀ i ≤ t, ∀ r, IndEwm.num x i = some r → 0 ≤ r ∧ r ≤ (((range (t + 1)).sum fun i => ((IndEwm.num x i).getD 0))) := by
      have hnn : ∀ i, 0 ≤ (IndEwm.num x i).getD 0 := by
        intro i
        rcases hn : IndEwm.num x i with _ | r
        · simp
        · obtain ⟨v, hv, hr⟩ := Option.bind_eq_some_iff.1 hn
          exact hx v (List.mem_of_getElem? hv) r (XF.real?_eq_some.1 hr)
      intro i hi r hr
      have h1 := hnn i
      rw [hr] at h1
      refine ⟨h1, ?_⟩
      have h2 := Finset.single_le_sum (f := fun i => (IndEwm.num x i).getD 0) (fun i _ => hnn i)
        (Finset.mem_range.2 (show i < t + 1 by omega))
      simpa [hr] using h2
    exact (hb _ _ key).1

theorem rsiOf_get {up down : Ser} (hl : up.length = down.length) {t : Nat} {v : XF}
    (h : (rsiOf up down)[t]? = some v) :
    ∃ a b, up[t]? = some a ∧ down[t]? = some b ∧ v = .fin 100 * (a / (a + b)) := by
  rw [rsiOf, List.getElem?_map] at h
  obtain ⟨w, hw, rfl⟩ := Option.map_eq_some_iff.1 h
  obtain ⟨a, c, ha, hc, rfl⟩ := op2_get_inv (by rw [op2_length, ← hl, max_self]) hw
  obtain ⟨a', b, ha', hb, rfl⟩ := op2_get_inv hl hc
  rw [ha] at ha'
  cases ha'
  exact ⟨a, b, ha, hb, rfl⟩

theorem rsi_inv {x u : Ser} {p : Int} (h : rsi x p = .ok u) :
    ∃ a b, rolling p meanF (gains x) = .ok a ∧ rolling p meanF (losses x) = .ok b ∧ u = rsiOf a b ∧
      a.length = b.length := by
  obtain ⟨a, ha, h⟩ := bind_ok h
  obtain ⟨b, hb, h⟩ := bind_ok h
  cases h
  exact ⟨a, b, ha, hb, rfl, by
    rw [rolling_length ha, rolling_length hb, IndCausal.gains_length, IndCausal.losses_length]⟩

theorem ewmRsi_inv {x u : Ser} {p : ℝ} (h : ewmRsi x p = .ok u) :
    ∃ a b, Ind.ewmMean (gains x) p = .ok a ∧ Ind.ewmMean (losses x) p = .ok b ∧ u = rsiOf a b ∧
      a.length = b.length := by
  obtain ⟨α, hα, h⟩ := bind_ok h
  cases h
  exact ⟨_, _, by rw [Ind.ewmMean, hα]; rfl, by rw [Ind.ewmMean, hα]; rfl, rfl, by
    rw [Ser.ewmMean_length, Ser.ewmMean_length, IndCausal.gains_length, IndCausal.losses_length]⟩

/-- Both indices are NaN or lie between 0 and 100, for any series of floats. -/
theorem rsi_range {x u : Ser} {t : Nat} {v : XF} (hu : (∃ p, rsi x p = .ok u) ∨ ∃ p, ewmRsi x p = .ok u)
    (hv : u[t]? = some v) : v = .nan ∨ ∃ r, v = .fin r ∧ 0 ≤ r ∧ r ≤ 100 := by
  rcases hu with ⟨p, hu⟩ | ⟨p, hu⟩
  · obtain ⟨a, b, ha, hb, rfl, hl⟩ := rsi_inv hu
    obtain ⟨c, d, hc, hd, rfl⟩ := rsiOf_get hl hv
    exact rsi_val (rolling_fine (fun _ => gains_mem) ha hc) (rolling_fine (fun _ => losses_mem) hb hd)
  · obtain ⟨a, b, ha, hb, rfl, hl⟩ := ewmRsi_inv hu
    obtain ⟨c, d, hc, hd, rfl⟩ := rsiOf_get hl hv
    exact rsi_val (ewm_fine (fun _ => gains_mem) ha hc) (ewm_fine (fun _ => losses_mem) hb hd)

/-! ## Reflection -/

theorem refl_sub (c : ℝ) (a b : XF) : ((.fin c - a) - (.fin c - b) : XF) = -(a - b) := by
  cases a <;> cases b <;> first | rfl | skip
  simp

theorem neg_lt_iff (d : XF) : XF.lt (.fin 0) (-d) ↔ XF.lt d (.fin 0) := by
  cases d <;> first | exact Iff.rfl | skip
  simp [XF.lt_fin]

theorem lt_neg_iff (d : XF) : XF.lt (-d) (.fin 0) ↔ XF.lt (.fin 0) d := by
  cases d <;> first | exact Iff.rfl | skip
  simp [XF.lt_fin]

theorem neg_neg' (d : XF) : -(-d) = d := by
  cases d <;> first | rfl | skip
  simp

theorem diff_reflect (c : ℝ) (x : Ser) : diff 1 (x.map (.fin c - ·)) = (diff 1 x).map (- ·) := by
  apply List.ext_getElem?
  intro t
  by_cases ht : t < x.length
  · rw [diff_get (by simpa using ht), List.getElem?_map, diff_get ht]
    cases t with
    | zero => rfl
    | succ s =>
      simp only [Option.map_some, Option.some.injEq]
      rw [List.getElem?_map, List.getElem?_map, List.getElem?_eq_getElem ht,
        List.getElem?_eq_getElem (show s < x.length by omega)]
      exact refl_sub c _ _
  · rw [List.getElem?_eq_none (by rw [diff_length]; simpa using ht),
      List.getElem?_eq_none (by rw [List.length_map, diff_length]; omega)]

/-- Reflecting the prices swaps gains and losses. -/
theorem gains_reflect (c : ℝ) (x : Ser) :
    gains (x.map (.fin c - ·)) = losses x ∧ losses (x.map (.fin c - ·)) = gains x := by
  constructor
  · apply List.ext_getElem?
    intro t
    by_cases ht : t < x.length
    · obtain ⟨d, hd⟩ : ∃ d, (diff 1 x)[t]? = some d := ⟨_, diff_get ht⟩
      have hd' : (diff 1 (x.map (.fin c - ·)))[t]? = some (-d) := by rw [diff_reflect, List.getElem?_map, hd]; rfl
      rw [gains_get hd', losses_get hd]
      congr 1
      by_cases hc : XF.lt d (.fin 0)
      · rw [if_pos ((neg_lt_iff _).2 hc), if_pos hc]
      · rw [if_neg (fun h => hc ((neg_lt_iff _).1 h)), if_neg hc]
    · rw [List.getElem?_eq_none (by rw [IndCausal.gains_length]; simpa using ht),
        List.getElem?_eq_none (by rw [IndCausal.losses_length]; omega)]
  · apply List.ext_getElem?
    intro t
    by_cases ht : t < x.length
    · obtain ⟨d, hd⟩ : ∃ d, (diff 1 x)[t]? = some d := ⟨_, diff_get ht⟩
      have hd' : (diff 1 (x.map (.fin c - ·)))[t]? = some (-d) := by rw [diff_reflect, List.getElem?_map, hd]; rfl
      rw [losses_get hd', gains_get hd]
      congr 1
      by_cases hc : XF.lt (.fin 0) d
      · rw [if_pos ((lt_neg_iff _).2 hc), if_pos hc, neg_neg']
      · rw [if_neg (fun h => hc ((lt_neg_iff _).1 h)), if_neg hc]
    · rw [List.getElem?_eq_none (by rw [IndCausal.losses_length]; simpa using ht),
        List.getElem?_eq_none (by rw [IndCausal.gains_length]; omega)]

/-- Reflected prices (`c - x`) have the reflected index: NaN at the same places, `100 - v` elsewhere. -/
theorem rsi_reflect {x u u' : Ser} (c : ℝ) {t : Nat} {v v' : XF}
    (hu : (∃ p, rsi x p = .ok u ∧ rsi (x.map (.fin c - ·)) p = .ok u') ∨
      ∃ p, ewmRsi x p = .ok u ∧ ewmRsi (x.map (.fin c - ·)) p = .ok u')
    (hv : u[t]? = some v) (hv' : u'[t]? = some v') :
    (v = .nan ∧ v' = .nan) ∨ ∃ r, v = .fin r ∧ v' = .fin (100 - r) := by
  obtain ⟨h1, h2⟩ := gains_reflect c x
  rcases hu with ⟨p, hu, hu'⟩ | ⟨p, hu, hu'⟩
  · obtain ⟨a, b, ha, hb, rfl, hl⟩ := rsi_inv hu
    obtain ⟨a', b', ha', hb', rfl, hl'⟩ := rsi_inv hu'
    rw [h1, hb] at ha'
    rw [h2, ha] at hb'
    cases ha'
    cases hb'
    obtain ⟨d, e, hd, he, rfl⟩ := rsiOf_get hl hv
    obtain ⟨d', e', hd', he', rfl⟩ := rsiOf_get hl' hv'
    rw [he] at hd'
    rw [hd] at he'
    cases hd'
    cases he'
    exact rsi_val_flip (rolling_fine (fun _ => gains_mem) ha hd) (rolling_fine (fun _ => losses_mem) hb he)
  · obtain ⟨a, b, ha, hb, rfl, hl⟩ := ewmRsi_inv hu
    obtain ⟨a', b', ha', hb', rfl, hl'⟩ := ewmRsi_inv hu'
    rw [h1, hb] at ha'
    rw [h2, ha] at hb'
    cases ha'
    cases hb'
    obtain ⟨d, e, hd, he, rfl⟩ := rsiOf_get hl hv
    obtain ⟨d', e', hd', he', rfl⟩ := rsiOf_get hl' hv'
    rw [he] at hd'
    rw [hd] at he'
    cases hd'
    cases he'
    exact rsi_val_flip (ewm_fine (fun _ => gains_mem) ha hd) (ewm_fine (fun _ => losses_mem) hb he)

/-! ## The formula on numbers -/

/-- On a series of numbers, with period `p >= 1`: NaN at the first `p - 1` positions; afterwards the share of the rises
among the last `p` positions (position 0 counts as no change), NaN when there was no move at all. -/
theorem rsi_formula {ys : List ℝ} {u : Ser} {p t : Nat} (hp : 1 ≤ p) (hu : rsi (ys.map .fin) p = .ok u)
    (ht : t < ys.length) :
    let U := ∑ i ∈ Ico (t + 1 - p) (t + 1), rise (fun i => ys.getD i 0) i
    let D := ∑ i ∈ Ico (t + 1 - p) (t + 1), fall (fun i => ys.getD i 0) i
    (t + 1 < p → u[t]? = some .nan) ∧
      (p ≤ t + 1 → u[t]? = some (open Classical in if U + D = 0 then .nan else .fin (100 * (U / (U + D))))) := by
  intro U D
  obtain ⟨a, b, ha, hb, rfl, hl⟩ := rsi_inv hu
  have hg : t < (gains (ys.map XF.fin)).length := by rw [IndCausal.gains_length]; simpa using ht
  have hlo : t < (losses (ys.map XF.fin)).length := by rw [IndCausal.losses_length]; simpa using ht
  constructor
  · intro hlt
    have h1 := IndRolling.rolling_nan ha hg fun y hy => by have := hy.1; omega
    have h2 := IndRolling.rolling_nan hb hlo fun y hy => by have := hy.1; omega
    rw [rsiOf, List.getElem?_map, op2_get _ h1 (op2_get _ h1 h2)]
    simp
  · intro hle
    have o1 : IndRolling.Obs (gains (ys.map .fin)) (rise fun i => ys.getD i 0) p t :=
      ⟨hle, fun i hi => (gains_fin (by rw [mem_Ico] at hi; omega)).1⟩
    have o2 : IndRolling.Obs (losses (ys.map .fin)) (fall fun i => ys.getD i 0) p t :=
      ⟨hle, fun i hi => (gains_fin (by rw [mem_Ico] at hi; omega)).2⟩
    have h1 := IndRolling.mean_spec hp ha o1
    have h2 := IndRolling.mean_spec hp hb o2
    rw [rsiOf, List.getElem?_map, op2_get _ h1 (op2_get _ h1 h2)]
    have hU : 0 ≤ U := Finset.sum_nonneg fun i _ => rise_nonneg _ i
    have hD : 0 ≤ D := Finset.sum_nonneg fun i _ => fall_nonneg _ i
    have hpp : (0 : ℝ) < p := by exact_mod_cast hp
    simp only [Option.map_some, IndRolling.meanOf]
    rw [ratio (div_nonneg hU hpp.le) (div_nonneg hD hpp.le)]
    congr 1
    by_cases h0 : U + D = 0
    · rw [if_pos h0, if_pos (by rw [← add_div]; exact div_eq_zero_iff.2 (.inl h0))]
    · rw [if_neg h0, if_neg (by rw [← add_div]; exact div_ne_zero h0 hpp.ne')]
      congr 2
      field_simp

/-- Prices that never fall in the window, and rise at least once, have index 100; the first position counts as no change,
so a rise must lie at a position `i >= 1`. -/
theorem rsi_rising {ys : List ℝ} {u : Ser} {p t : Nat} (hp : 1 ≤ p) (hu : rsi (ys.map .fin) p = .ok u)
    (ht : t < ys.length) (hle : p ≤ t + 1)
    (hmono : ∀ i, t + 1 - p ≤ i → 1 ≤ i → i ≤ t → ys.getD (i - 1) 0 ≤ ys.getD i 0)
    (hrise : ∃ i, t + 1 - p ≤ i ∧ 1 ≤ i ∧ i ≤ t ∧ ys.getD (i - 1) 0 < ys.getD i 0) : u[t]? = some (.fin 100) := by
  have h := (rsi_formula hp hu ht).2 hle
  have hD : ∑ i ∈ Ico (t + 1 - p) (t + 1), fall (fun i => ys.getD i 0) i = 0 := by
    apply Finset.sum_eq_zero
    intro i hi
    rw [mem_Ico] at hi
    rw [fall]
    split
    · rfl
    · rename_i h0
      exact max_eq_right (by linarith [hmono i hi.1 (by omega) (by omega)])
  have hU : 0 < ∑ i ∈ Ico (t + 1 - p) (t + 1), rise (fun i => ys.getD i 0) i := by
    obtain ⟨i, h1, h2, h3, h4⟩ := hrise
    refine lt_of_lt_of_le ?_ (Finset.single_le_sum (fun i _ => rise_nonneg _ i) (mem_Ico.2 ⟨h1, by omega⟩))
    rw [rise, if_neg (by omega)]
    exact lt_max_of_lt_left (by linarith)
  rw [h, hD, add_zero, if_neg hU.ne', div_self hU.ne', mul_one]

/-- Prices that never rise in the window, and fall at least once, have index 0. -/
theorem rsi_falling {ys : List ℝ} {u : Ser} {p t : Nat} (hp : 1 ≤ p) (hu : rsi (ys.map .fin) p = .ok u)
    (ht : t < ys.length) (hle : p ≤ t + 1)
    (hmono : ∀ i, t + 1 - p ≤ i → 1 ≤ i → i ≤ t → ys.getD i 0 ≤ ys.getD (i - 1) 0)
    (hfall : ∃ i, t + 1 - p ≤ i ∧ 1 ≤ i ∧ i ≤ t ∧ ys.getD i 0 < ys.getD (i - 1) 0) : u[t]? = some (.fin 0) := by
  have h := (rsi_formula hp hu ht).2 hle
  have hU : ∑ i ∈ Ico (t + 1 - p) (t + 1), rise (fun i => ys.getD i 0) i = 0 := by
    apply Finset.sum_eq_zero
    intro i hi
    rw [mem_Ico] at hi
    rw [rise]
    split
    · rfl
    · rename_i h0
      exact max_eq_right (by linarith [hmono i hi.1 (by omega) (by omega)])
  have hD : 0 < ∑ i ∈ Ico (t + 1 - p) (t + 1), fall (fun i => ys.getD i 0) i := by
    obtain ⟨i, h1, h2, h3, h4⟩ := hfall
    refine lt_of_lt_of_le ?_ (Finset.single_le_sum (fun i _ => fall_nonneg _ i) (mem_Ico.2 ⟨h1, by omega⟩))
    rw [fall, if_neg (by omega)]
    exact lt_max_of_lt_left (by linarith)
  rw [h, hU, zero_add, if_neg hD.ne', zero_div, mul_zero]

/-- Prices that do not move in the window have no index (NaN), not 50. -/
theorem rsi_flat {ys : List ℝ} {u : Ser} {p t : Nat} (hp : 1 ≤ p) (hu : rsi (ys.map .fin) p = .ok u)
    (ht : t < ys.length) (hflat : ∀ i, t + 1 - p ≤ i → 1 ≤ i → i ≤ t → ys.getD i 0 = ys.getD (i - 1) 0) :
    u[t]? = some .nan := by
  by_cases hle : p ≤ t + 1
  · have h := (rsi_formula hp hu ht).2 hle
    have hz : ∀ i ∈ Ico (t + 1 - p) (t + 1), rise (fun i => ys.getD i 0) i = 0 ∧ fall (fun i => ys.getD i 0) i = 0 := by
      intro i hi
      rw [mem_Ico] at hi
      by_cases h0 : i = 0
      · simp [rise, fall, h0]
      · have := hflat i hi.1 (by omega) (by omega)
        simp only [rise, fall, h0, if_false]
        rw [this]
        simp
    rw [h, Finset.sum_eq_zero fun i hi => (hz i hi).1, Finset.sum_eq_zero fun i hi => (hz i hi).2, if_pos (by simp)]
  · exact (rsi_formula hp hu ht).1 (by omega)

/-- A missing price hides the move around it: after `1, 2, NaN, 0` the index over four periods is 100 although the price
has fallen below its start. -/
theorem rsi_gap : ∃ u, rsi [.fin 1, .fin 2, .nan, .fin 0] 4 = .ok u ∧ u[3]? = some (.fin 100) := by
  obtain ⟨u, hu⟩ := (IndCausal.ok_iff [.fin 1, .fin 2, .nan, .fin 0] [] [] [] 4 1 1 1 meanF).2.1.2 (by decide)
  refine ⟨u, hu, ?_⟩
  obtain ⟨a, b, ha, hb, rfl, hl⟩ := rsi_inv hu
  have hg : gains [.fin 1, .fin 2, .nan, .fin 0] = [.fin 0, .fin 1, .fin 0, .fin 0] := by
    simp [gains, whereZero, diff, op2, shift, List.range_succ, XF.lt_nan, XF.lt_fin]
    norm_num
  have hlo : losses [.fin 1, .fin 2, .nan, .fin 0] = [.fin 0, .fin 0, .fin 0, .fin 0] := by
    simp [losses, whereZero, diff, op2, shift, List.range_succ, XF.nan_lt, XF.lt_fin]
  rw [hg] at ha
  rw [hlo] at hb
  have h1 := rolling_get ha (t := 3) (by simp)
  have h2 := rolling_get hb (t := 3) (by simp)
  have e1 : rollAt (4 : Int).toNat meanF [.fin 0, .fin 1, .fin 0, .fin 0] 3 = .fin (1 / 4) := by
    simp [rollAt, win, meanF]
  have e2 : rollAt (4 : Int).toNat meanF [.fin 0, .fin 0, .fin 0, .fin 0] 3 = .fin 0 := by
    simp [rollAt, win, meanF]
  rw [e1] at h1
  rw [e2] at h2
  rw [rsiOf, List.getElem?_map, op2_get _ h1 (op2_get _ h1 h2)]
  simp only [Option.map_some]
  rw [ratio (by norm_num) le_rfl, if_neg (by norm_num)]
  norm_num

/-- Concrete case of the formula: prices `1, 3, 2` over two periods end at `100 * 2 / 3`. -/
example : ∃ u, rsi [.fin 1, .fin 3, .fin 2] 2 = .ok u ∧ u[2]? = some (.fin (100 * (2 / (2 + 1)))) := by
  obtain ⟨u, hu⟩ := (IndCausal.ok_iff [.fin 1, .fin 3, .fin 2] [] [] [] 2 1 1 1 meanF).2.1.2 (by decide)
  refine ⟨u, hu, ?_⟩
  have h := (rsi_formula (ys := [1, 3, 2]) (p := 2) (t := 2) (by decide) hu (by decide)).2 (by decide)
  rw [show Ico (2 + 1 - 2) (2 + 1) = {1, 2} from rfl] at h
  simp [rise, fall] at h
  norm_num at h
  rw [h]
  norm_num

end Verif.Props.IndRsi
