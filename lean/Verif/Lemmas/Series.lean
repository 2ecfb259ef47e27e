import Verif.Model.Series
import Mathlib.Tactic.Linarith
import Mathlib.Tactic.Ring
import Mathlib.Algebra.Order.BigOperators.Group.List
import Mathlib.Algebra.BigOperators.Group.List.Basic

/-!
# Facts about series operations
-/

namespace Verif

namespace XF

@[simp] theorem add_fin (a b : ℝ) : (fin a + fin b : XF) = fin (a + b) := rfl
@[simp] theorem sub_fin (a b : ℝ) : (fin a - fin b : XF) = fin (a - b) := by
  show fin (a + -b) = _
  rw [sub_eq_add_neg]
@[simp] theorem mul_fin (a b : ℝ) : (fin a * fin b : XF) = fin (a * b) := rfl
@[simp] theorem neg_fin (a : ℝ) : (-fin a : XF) = fin (-a) := rfl
@[simp] theorem div_fin {a b : ℝ} (h : b ≠ 0) : (fin a / fin b : XF) = fin (a / b) := by
  show (if b = 0 then _ else _) = _
  rw [if_neg h]
@[simp] theorem abs_fin (a : ℝ) : (fin a).abs = fin |a| := rfl
@[simp] theorem real?_fin (a : ℝ) : (fin a).real? = some a := rfl
@[simp] theorem real?_nan : nan.real? = none := rfl
@[simp] theorem nan_add (a : XF) : (nan + a : XF) = nan := by cases a <;> rfl
@[simp] theorem add_nan (a : XF) : (a + nan : XF) = nan := by cases a <;> rfl
@[simp] theorem nan_sub (a : XF) : (nan - a : XF) = nan := by cases a <;> rfl
@[simp] theorem sub_nan (a : XF) : (a - nan : XF) = nan := by cases a <;> rfl
@[simp] theorem nan_mul (a : XF) : (nan * a : XF) = nan := by cases a <;> rfl
@[simp] theorem mul_nan (a : XF) : (a * nan : XF) = nan := by cases a <;> rfl
@[simp] theorem nan_div (a : XF) : (nan / a : XF) = nan := by cases a <;> rfl
@[simp] theorem div_nan (a : XF) : (a / nan : XF) = nan := by cases a <;> rfl
@[simp] theorem neg_nan : (-nan : XF) = nan := rfl
@[simp] theorem abs_nan : nan.abs = nan := rfl
@[simp] theorem sqrt_nan : nan.sqrt = nan := rfl
@[simp] theorem log_nan : nan.log = nan := rfl
theorem lt_fin (a b : ℝ) : lt (fin a) (fin b) ↔ a < b := Iff.rfl
theorem lt_nan (a : XF) : ¬ lt a nan := by cases a <;> exact id
theorem nan_lt (a : XF) : ¬ lt nan a := by cases a <;> exact id

theorem real?_eq_some {v : XF} {r : ℝ} : v.real? = some r ↔ v = fin r := by
  cases v <;> simp [real?]

theorem sqrt_fin {a : ℝ} (h : 0 ≤ a) : (fin a).sqrt = fin (Real.sqrt a) := by
  show (if a < 0 then _ else _) = _
  rw [if_neg (not_lt.2 h)]

theorem zero_div_zero : (fin 0 / fin 0 : XF) = nan := by
  show (if (0 : ℝ) = 0 then infSign 0 else _) = _
  rw [if_pos rfl, infSign, if_neg (lt_irrefl _), if_neg (lt_irrefl _)]

end XF

namespace Ser

theorem bind_ok {α β : Type} {m : Py α} {f : α → Py β} {b : β} (h : m >>= f = .ok b) :
    ∃ a, m = .ok a ∧ f a = .ok b := by
  cases m with
  | error e => cases h
  | ok a => exact ⟨a, rfl, h⟩

/-! ## Elementwise operations -/

theorem op2_length (f : XF → XF → XF) (x y : Ser) : (op2 f x y).length = max x.length y.length := by
  induction x generalizing y with
  | nil => cases y <;> simp [op2]
  | cons a x ih =>
    cases y with
    | nil => simp [op2]
    | cons b y => simp [op2, ih]

theorem op2_get (f : XF → XF → XF) {x y : Ser} {t : Nat} {a b : XF} (ha : x[t]? = some a) (hb : y[t]? = some b) :
    (op2 f x y)[t]? = some (f a b) := by
  induction t generalizing x y with
  | zero =>
    cases x with
    | nil => simp at ha
    | cons a' x =>
      cases y with
      | nil => simp at hb
      | cons b' y =>
        simp at ha hb
        simp [op2, ha, hb]
  | succ t ih =>
    cases x with
    | nil => simp at ha
    | cons a' x =>
      cases y with
      | nil => simp at hb
      | cons b' y =>
        simp only [List.getElem?_cons_succ] at ha hb
        simpa [op2] using ih ha hb

theorem op2_get_inv {f : XF → XF → XF} {x y : Ser} (hl : x.length = y.length) {t : Nat} {v : XF}
    (h : (op2 f x y)[t]? = some v) : ∃ a b, x[t]? = some a ∧ y[t]? = some b ∧ v = f a b := by
  have ht : t < (op2 f x y).length := (List.getElem?_eq_some_iff.1 h).1
  rw [op2_length, ← hl, max_self] at ht
  have ha : x[t]? = some x[t] := List.getElem?_eq_getElem ht
  have hb : y[t]? = some (y[t]'(hl ▸ ht)) := List.getElem?_eq_getElem (hl ▸ ht)
  refine ⟨_, _, ha, hb, ?_⟩
  have := op2_get f ha hb
  rw [this] at h
  exact (Option.some.inj h).symm

theorem op2_take (f : XF → XF → XF) (x y : Ser) (t : Nat) :
    op2 f (x.take t) (y.take t) = (op2 f x y).take t := by
  induction x generalizing y t with
  | nil => cases y <;> cases t <;> simp [op2, List.map_take]
  | cons a x ih =>
    cases y with
    | nil => cases t <;> simp [op2, List.map_take]
    | cons b y =>
      cases t with
      | zero => simp [op2]
      | succ t => simp [op2, ih]

theorem shift_length (k : Int) (x : Ser) : (shift k x).length = x.length := by simp [shift]

theorem shift_get (k : Int) (x : Ser) {t : Nat} (ht : t < x.length) :
    (shift k x)[t]? = some (if 0 ≤ (t : Int) - k then (x[((t : Int) - k).toNat]?).getD .nan else .nan) := by
  simp [shift, List.getElem?_map, List.getElem?_range ht]

theorem shift_one_get (x : Ser) {t : Nat} (ht : t < x.length) :
    (shift 1 x)[t]? = some (match t with | 0 => .nan | s + 1 => (x[s]?).getD .nan) := by
  rw [shift_get 1 x ht]
  cases t with
  | zero => simp
  | succ s =>
    have : ((s + 1 : Nat) : Int) - 1 = s := by omega
    rw [this, if_pos (by omega)]
    simp

theorem diff_length (k : Int) (x : Ser) : (diff k x).length = x.length := by
  simp [diff, op2_length, shift_length]

theorem map_take' (f : XF → XF) (x : Ser) (t : Nat) : (x.take t).map f = (x.map f).take t := by
  simp [List.map_take]

theorem shift_take {k : Int} (hk : 0 ≤ k) (x : Ser) (t : Nat) : shift k (x.take t) = (shift k x).take t := by
  apply List.ext_getElem?
  intro i
  by_cases hi : i < (x.take t).length
  · rw [shift_get k _ hi]
    have hi' : i < t ∧ i < x.length := by simpa using hi
    rw [List.getElem?_take (l := shift k x), if_pos hi'.1, shift_get k x hi'.2]
    congr 1
    by_cases h0 : 0 ≤ (i : Int) - k
    · rw [if_pos h0, if_pos h0, List.getElem?_take, if_pos (by omega)]
    · rw [if_neg h0, if_neg h0]
  · rw [List.getElem?_eq_none (by rw [shift_length]; omega), List.getElem?_eq_none]
    rw [List.length_take, shift_length]
    simp at hi
    simp only [inf_le_iff]
    omega

theorem diff_take {k : Int} (hk : 0 ≤ k) (x : Ser) (t : Nat) : diff k (x.take t) = (diff k x).take t := by
  rw [diff, shift_take hk, op2_take, diff]

theorem whereZero_length (p : XF → Prop) {d x : Ser} (h : d.length = x.length) :
    (whereZero p d x).length = x.length := by simp [whereZero, op2_length, h]

theorem whereZero_take (p : XF → Prop) (d x : Ser) (t : Nat) :
    whereZero p (d.take t) (x.take t) = (whereZero p d x).take t := by
  rw [whereZero, op2_take, whereZero]

/-! ## Rolling windows -/

theorem win_take (w : Nat) (x : Ser) {i t : Nat} (h : i < t) : win w (x.take t) i = win w x i := by
  rw [win, List.take_take, min_eq_left (by omega), win]

theorem rolling_ok {w : Int} (h : 0 ≤ w) (f : List ℝ → XF) (x : Ser) :
    rolling w f x = .ok ((List.range x.length).map fun t : Nat => rollAt w.toNat f x t) := by
  rw [rolling, if_neg (by omega)]

theorem rolling_err {w : Int} (h : w < 0) (f : List ℝ → XF) (x : Ser) : rolling w f x = .error .valueError := by
  rw [rolling, if_pos h]

theorem rolling_inv {w : Int} {f : List ℝ → XF} {x u : Ser} (h : rolling w f x = .ok u) :
    0 ≤ w ∧ u = (List.range x.length).map fun t : Nat => rollAt w.toNat f x t := by
  by_cases hw : w < 0
  · rw [rolling_err hw] at h; cases h
  · rw [rolling_ok (by omega)] at h
    exact ⟨by omega, (Except.ok.inj h).symm⟩

theorem rolling_length {w : Int} {f : List ℝ → XF} {x u : Ser} (h : rolling w f x = .ok u) :
    u.length = x.length := by
  rw [(rolling_inv h).2]; simp

theorem rolling_get {w : Int} {f : List ℝ → XF} {x u : Ser} (h : rolling w f x = .ok u) {t : Nat}
    (ht : t < x.length) : u[t]? = some (rollAt w.toNat f x t) := by
  rw [(rolling_inv h).2]
  simp [List.getElem?_map, List.getElem?_range ht]

theorem rolling_take {w : Int} {f : List ℝ → XF} {x u : Ser} (h : rolling w f x = .ok u) (t : Nat) :
    rolling w f (x.take t) = .ok (u.take t) := by
  obtain ⟨hw, rfl⟩ := rolling_inv h
  rw [rolling_ok hw]
  congr 1
  apply List.ext_getElem?
  intro i
  by_cases hi : i < (x.take t).length
  · have hi' : i < t ∧ i < x.length := by simpa using hi
    rw [List.getElem?_take, if_pos hi'.1]
    simp only [List.getElem?_map, List.getElem?_range hi, List.getElem?_range hi'.2, Option.map_some]
    rw [rollAt, win_take _ _ hi'.1, rollAt]
  · rw [List.length_take] at hi
    rw [List.getElem?_eq_none (by simp only [List.length_map, List.length_range, List.length_take]; omega),
      List.getElem?_eq_none]
    simp only [List.length_map, List.length_range, List.length_take]
    omega

/-! ## Exponentially weighted windows -/

theorem ewmGo_length (α : ℝ) (p : Nat) (s : Option (ℝ × ℝ)) (n : Nat) (x : Ser) :
    (ewmGo α p s n x).length = x.length := by
  induction x generalizing s n with
  | nil => rcases s with _ | ⟨m, w⟩ <;> rfl
  | cons v x ih =>
    rcases s with _ | ⟨m, w⟩
    · rcases hv : v.real? with _ | c <;> simp [ewmGo, hv, ih]
    · rcases hv : v.real? with _ | c <;> simp [ewmGo, hv, ih]

theorem ewmGo_take (α : ℝ) (p : Nat) (s : Option (ℝ × ℝ)) (n : Nat) (x : Ser) (t : Nat) :
    ewmGo α p s n (x.take t) = (ewmGo α p s n x).take t := by
  induction x generalizing s n t with
  | nil => rcases s with _ | ⟨m, w⟩ <;> simp [ewmGo]
  | cons v x ih =>
    cases t with
    | zero => rcases s with _ | ⟨m, w⟩ <;> simp [ewmGo]
    | succ t =>
      rcases s with _ | ⟨m, w⟩
      · rcases hv : v.real? with _ | c <;> simp [ewmGo, hv, ih]
      · rcases hv : v.real? with _ | c <;> simp [ewmGo, hv, ih]

theorem ewmMean_length (α : ℝ) (p : Int) (x : Ser) : (ewmMean α p x).length = x.length := ewmGo_length _ _ _ _ _

theorem ewmMean_take (α : ℝ) (p : Int) (x : Ser) (t : Nat) : ewmMean α p (x.take t) = (ewmMean α p x).take t :=
  ewmGo_take _ _ _ _ _ _

theorem ewmVarGo_length (α : ℝ) (s : VarSt) (x : Ser) : (ewmVarGo α s x).length = x.length := by
  induction x generalizing s with
  | nil => rfl
  | cons v x ih => simp [ewmVarGo, ih]

theorem ewmVarGo_take (α : ℝ) (s : VarSt) (x : Ser) (t : Nat) :
    ewmVarGo α s (x.take t) = (ewmVarGo α s x).take t := by
  induction x generalizing s t with
  | nil => simp [ewmVarGo]
  | cons v x ih =>
    cases t with
    | zero => simp [ewmVarGo]
    | succ t => simp [ewmVarGo, ih]

theorem ewmStd_length (α : ℝ) (x : Ser) : (ewmStd α x).length = x.length := by
  simp [ewmStd, ewmVarGo_length]

theorem ewmStd_take (α : ℝ) (x : Ser) (t : Nat) : ewmStd α (x.take t) = (ewmStd α x).take t := by
  rw [ewmStd, ewmVarGo_take, map_take', ewmStd]

/-! ## Windows of finite series -/

theorem win_fin (w : Nat) (ys : List ℝ) (t : Nat) :
    win w (ys.map .fin) t = (ys.take (t + 1)).drop (t + 1 - w) := by
  rw [win, ← List.map_take, ← List.map_drop, List.filterMap_map]
  have : (XF.real? ∘ XF.fin) = some := rfl
  rw [this, List.filterMap_some]

theorem win_length_le (w : Nat) (x : Ser) (t : Nat) : (win w x t).length ≤ w := by
  refine (List.length_filterMap_le _ _).trans ?_
  simp
  omega

theorem win_mem {w : Nat} {x : Ser} {t : Nat} {r : ℝ} (h : r ∈ win w x t) :
    ∃ i, i ≤ t ∧ t < i + w ∧ x[i]? = some (.fin r) := by
  rw [win, List.mem_filterMap] at h
  obtain ⟨v, hv, hr⟩ := h
  rw [XF.real?_eq_some] at hr
  subst hr
  obtain ⟨j, hj⟩ := List.mem_iff_getElem?.1 hv
  rw [List.getElem?_drop, List.getElem?_take] at hj
  split at hj
  · exact ⟨t + 1 - w + j, by omega, by omega, hj⟩
  · cases hj

/-! ## The window statistics -/

theorem foldl_max_mem (a : ℝ) (l : List ℝ) : l.foldl max a ∈ a :: l := by
  induction l generalizing a with
  | nil => simp
  | cons b l ih =>
    simp only [List.foldl_cons]
    rcases List.mem_cons.1 (ih (max a b)) with h | h
    · rw [h]
      rcases max_choice a b with h' | h' <;> rw [h'] <;> simp
    · simp [h]

theorem le_foldl_max (a : ℝ) (l : List ℝ) : ∀ b ∈ a :: l, b ≤ l.foldl max a := by
  induction l generalizing a with
  | nil => simp
  | cons c l ih =>
    intro b hb
    simp only [List.foldl_cons]
    simp only [List.mem_cons] at hb
    rcases hb with rfl | rfl | hb
    · exact (le_max_left _ c).trans (ih _ _ List.mem_cons_self)
    · exact (le_max_right a _).trans (ih _ _ List.mem_cons_self)
    · exact ih _ _ (by simp [hb])

theorem foldl_min_mem (a : ℝ) (l : List ℝ) : l.foldl min a ∈ a :: l := by
  induction l generalizing a with
  | nil => simp
  | cons b l ih =>
    simp only [List.foldl_cons]
    rcases List.mem_cons.1 (ih (min a b)) with h | h
    · rw [h]
      rcases min_choice a b with h' | h' <;> rw [h'] <;> simp
    · simp [h]

theorem foldl_min_le (a : ℝ) (l : List ℝ) : ∀ b ∈ a :: l, l.foldl min a ≤ b := by
  induction l generalizing a with
  | nil => simp
  | cons c l ih =>
    intro b hb
    simp only [List.foldl_cons]
    simp only [List.mem_cons] at hb
    rcases hb with rfl | rfl | hb
    · exact (ih _ _ List.mem_cons_self).trans (min_le_left _ c)
    · exact (ih _ _ List.mem_cons_self).trans (min_le_right a _)
    · exact ih _ _ (by simp [hb])

theorem maxF_spec {v : List ℝ} (h : v ≠ []) : ∃ m, maxF v = .fin m ∧ m ∈ v ∧ ∀ b ∈ v, b ≤ m := by
  cases v with
  | nil => exact absurd rfl h
  | cons a l => exact ⟨_, rfl, foldl_max_mem a l, le_foldl_max a l⟩

theorem minF_spec {v : List ℝ} (h : v ≠ []) : ∃ m, minF v = .fin m ∧ m ∈ v ∧ ∀ b ∈ v, m ≤ b := by
  cases v with
  | nil => exact absurd rfl h
  | cons a l => exact ⟨_, rfl, foldl_min_mem a l, foldl_min_le a l⟩

theorem sum_le_of_le {v : List ℝ} {m : ℝ} (h : ∀ b ∈ v, b ≤ m) : v.sum ≤ v.length * m := by
  simpa using List.sum_le_card_nsmul v m h

theorem le_sum_of_le {v : List ℝ} {m : ℝ} (h : ∀ b ∈ v, m ≤ b) : v.length * m ≤ v.sum := by
  simpa using List.card_nsmul_le_sum v m h

theorem mean_le {v : List ℝ} (hv : v ≠ []) {m : ℝ} (h : ∀ b ∈ v, b ≤ m) : v.sum / v.length ≤ m := by
  have : (0 : ℝ) < v.length := by exact_mod_cast List.length_pos_iff.2 hv
  rw [div_le_iff₀ this, mul_comm]
  exact sum_le_of_le h

theorem le_mean {v : List ℝ} (hv : v ≠ []) {m : ℝ} (h : ∀ b ∈ v, m ≤ b) : m ≤ v.sum / v.length := by
  have : (0 : ℝ) < v.length := by exact_mod_cast List.length_pos_iff.2 hv
  rw [le_div_iff₀ this, mul_comm]
  exact le_sum_of_le h

theorem ssd_nonneg (v : List ℝ) : 0 ≤ ssd v := by
  apply List.sum_nonneg
  intro a ha
  obtain ⟨b, _, rfl⟩ := List.mem_map.1 ha
  positivity

end Ser

end Verif
