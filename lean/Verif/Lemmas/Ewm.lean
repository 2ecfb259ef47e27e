import Verif.Lemmas.Series
import Mathlib.Tactic.FieldSimp
import Mathlib.Tactic.Positivity
import Mathlib.Algebra.BigOperators.Intervals
import Mathlib.Algebra.BigOperators.Ring.Finset

/-!
# The state of the exponentially weighted loops
-/

namespace Verif

namespace Ser

open Finset

/-- One round of the loop of `ewmGo`. -/
noncomputable def ewmStep (α : ℝ) (s : Option (ℝ × ℝ)) (v : XF) : Option (ℝ × ℝ) :=
  match s, v.real? with
  | none, none => none
  | none, some c => some (c, 1)
  | some (m, w), none => some (m, w * (1 - α))
  | some (m, w), some c => some ((w * (1 - α) * m + c) / (w * (1 - α) + 1), w * (1 - α) + 1)

/-- What the loop writes. -/
noncomputable def ewmOut (p : Nat) (s : Option (ℝ × ℝ)) (n : Nat) : XF :=
  match s with
  | none => .nan
  | some (m, _) => if p ≤ n then .fin m else .nan

/-- The state after the series. -/
noncomputable def ewmSt (α : ℝ) (x : Ser) : Option (ℝ × ℝ) := x.foldl (ewmStep α) none

/-- Number of observations. -/
def nobs (x : Ser) : Nat := (x.filterMap XF.real?).length

theorem nobs_nil : nobs [] = 0 := rfl

theorem nobs_cons (v : XF) (x : Ser) : nobs (v :: x) = (if v.real? = none then 0 else 1) + nobs x := by
  cases hv : v.real? with
  | none => simp [nobs, List.filterMap_cons_none hv]
  | some r => simp [nobs, List.filterMap_cons_some hv, Nat.add_comm]

theorem nobs_append (v : XF) (x : Ser) : nobs (x ++ [v]) = nobs x + (if v.real? = none then 0 else 1) := by
  cases hv : v.real? with
  | none => simp [nobs, List.filterMap_append, List.filterMap_cons_none hv]
  | some r => simp [nobs, List.filterMap_append, List.filterMap_cons_some hv]

theorem ewmGo_get (α : ℝ) (p : Nat) (s : Option (ℝ × ℝ)) (n : Nat) (x : Ser) {t : Nat} (ht : t < x.length) :
    (ewmGo α p s n x)[t]? =
      some (ewmOut p ((x.take (t + 1)).foldl (ewmStep α) s) (n + nobs (x.take (t + 1)))) := by
  induction x generalizing s n t with
  | nil => simp at ht
  | cons v x ih =>
    cases t with
    | zero =>
      rcases s with _ | ⟨m, w⟩
      · rcases hv : v.real? with _ | c <;> simp [ewmGo, hv, ewmStep, ewmOut, nobs_cons, nobs_nil]
      · rcases hv : v.real? with _ | c <;> simp [ewmGo, hv, ewmStep, ewmOut, nobs_cons, nobs_nil]
    | succ t =>
      have ht' : t < x.length := by simpa using ht
      rcases s with _ | ⟨m, w⟩
      · rcases hv : v.real? with _ | c <;>
          simp [ewmGo, hv, ewmStep, nobs_cons, ih _ _ ht', Nat.add_assoc]
      · rcases hv : v.real? with _ | c <;>
          simp [ewmGo, hv, ewmStep, nobs_cons, ih _ _ ht', Nat.add_assoc]

theorem ewmMean_get (α : ℝ) (p : Int) (x : Ser) {t : Nat} (ht : t < x.length) :
    (ewmMean α p x)[t]? = some (ewmOut (max p 1).toNat (ewmSt α (x.take (t + 1))) (nobs (x.take (t + 1)))) := by
  rw [ewmMean, ewmGo_get _ _ _ _ _ ht, Nat.zero_add, ewmSt]

theorem ewmSt_append (α : ℝ) (x : Ser) (v : XF) : ewmSt α (x ++ [v]) = ewmStep α (ewmSt α x) v := by
  simp [ewmSt, List.foldl_append]

theorem ewmSt_none_iff (α : ℝ) (x : Ser) : ewmSt α x = none ↔ nobs x = 0 := by
  induction x using List.reverseRecOn with
  | nil => simp [ewmSt, nobs_nil]
  | append_singleton x v ih =>
    rw [ewmSt_append, nobs_append]
    rcases hs : ewmSt α x with _ | ⟨m, w⟩
    · have := ih.1 hs
      rcases hv : v.real? with _ | c <;> simp [ewmStep, hv, this]
    · have hne : nobs x ≠ 0 := fun h => by rw [ih.2 h] at hs; cases hs
      rcases hv : v.real? with _ | c <;> simp [ewmStep, hv, hne]

/-- The `k`-th weighted power sum: observation `i` of `n` has weight `q ^ (n - 1 - i)`. -/
noncomputable def wsum (q : ℝ) (g : ℝ → ℝ) (x : Ser) : ℝ :=
  ∑ i ∈ range x.length, q ^ (x.length - 1 - i) * (((x[i]?).bind XF.real?).map g).getD 0

theorem wsum_nil (q : ℝ) (g : ℝ → ℝ) : wsum q g [] = 0 := by simp [wsum]

theorem wsum_append (q : ℝ) (g : ℝ → ℝ) (x : Ser) (v : XF) :
    wsum q g (x ++ [v]) = q * wsum q g x + (v.real?.map g).getD 0 := by
  rw [wsum, List.length_append, List.length_singleton, Finset.sum_range_succ, wsum, Finset.mul_sum]
  congr 1
  · apply Finset.sum_congr rfl
    intro i hi
    have hi' := Finset.mem_range.1 hi
    rw [List.getElem?_append_left hi', ← mul_assoc, ← pow_succ']
    congr 2
    omega
  · simp

theorem wsum_zero_of_none {α : ℝ} {x : Ser} (h : ewmSt α x = none) (q : ℝ) (g : ℝ → ℝ) : wsum q g x = 0 := by
  have hn := (ewmSt_none_iff α x).1 h
  rw [wsum]
  apply Finset.sum_eq_zero
  intro i hi
  rcases hx : (x[i]?).bind XF.real? with _ | r
  · simp
  · exfalso
    obtain ⟨v', hv', hr⟩ := Option.bind_eq_some_iff.1 hx
    have : r ∈ x.filterMap XF.real? := List.mem_filterMap.2 ⟨v', List.mem_of_getElem? hv', hr⟩
    rw [List.length_eq_zero_iff.1 hn] at this
    simp at this

theorem ewmSt_weight {α : ℝ} {x : Ser} {m w : ℝ} (h : ewmSt α x = some (m, w)) :
    w = wsum (1 - α) (fun _ => 1) x := by
  induction x using List.reverseRecOn generalizing m w with
  | nil => simp [ewmSt] at h
  | append_singleton x v ih =>
    rw [ewmSt_append] at h
    rw [wsum_append]
    rcases hs : ewmSt α x with _ | ⟨m', w'⟩
    · have h0 : wsum (1 - α) (fun _ => 1) x = 0 := wsum_zero_of_none hs _ _
      rcases hv : v.real? with _ | c
      · simp [ewmStep, hs, hv] at h
      · simp [ewmStep, hs, hv] at h
        simp [h0, ← h.2]
    · have := ih hs
      rcases hv : v.real? with _ | c
      · simp [ewmStep, hs, hv] at h
        simp [← this, ← h.2, mul_comm]
      · simp [ewmStep, hs, hv] at h
        simp [← this, ← h.2, mul_comm]

theorem wsum_one_nonneg {q : ℝ} (hq : 0 ≤ q) (x : Ser) : 0 ≤ wsum q (fun _ => 1) x := by
  apply Finset.sum_nonneg
  intro i _
  refine mul_nonneg (by positivity) ?_
  rcases (x[i]?).bind XF.real? with _ | r <;> simp

theorem ewmSt_weight_nonneg {α : ℝ} (hα : α ≤ 1) {x : Ser} {m w : ℝ} (h : ewmSt α x = some (m, w)) : 0 ≤ w := by
  rw [ewmSt_weight h]
  exact wsum_one_nonneg (by linarith) x

theorem ewmSt_weight_pos {α : ℝ} (hα : α < 1) {x : Ser} {m w : ℝ} (h : ewmSt α x = some (m, w)) : 0 < w := by
  induction x using List.reverseRecOn generalizing m w with
  | nil => simp [ewmSt] at h
  | append_singleton x v ih =>
    rw [ewmSt_append] at h
    rcases hs : ewmSt α x with _ | ⟨m', w'⟩
    · rcases hv : v.real? with _ | c
      · simp [ewmStep, hs, hv] at h
      · simp [ewmStep, hs, hv] at h
        linarith [h.2]
    · have := ih hs
      have h1 : 0 < w' * (1 - α) := mul_pos this (by linarith)
      rcases hv : v.real? with _ | c
      · simp [ewmStep, hs, hv] at h
        rw [← h.2]; exact h1
      · simp [ewmStep, hs, hv] at h
        rw [← h.2]; linarith

theorem ewmSt_mean {α : ℝ} (hα : α ≤ 1) {x : Ser} {m w : ℝ} (h : ewmSt α x = some (m, w)) :
    m * w = wsum (1 - α) id x := by
  induction x using List.reverseRecOn generalizing m w with
  | nil => simp [ewmSt] at h
  | append_singleton x v ih =>
    rw [ewmSt_append] at h
    rw [wsum_append]
    rcases hs : ewmSt α x with _ | ⟨m', w'⟩
    · rw [wsum_zero_of_none hs]
      rcases hv : v.real? with _ | c
      · simp [ewmStep, hs, hv] at h
      · simp [ewmStep, hs, hv] at h
        simp [← h.1, ← h.2]
    · have h0 := ih hs
      have hw := ewmSt_weight_nonneg hα hs
      have h1 : 0 ≤ w' * (1 - α) := mul_nonneg hw (by linarith)
      rcases hv : v.real? with _ | c
      · simp [ewmStep, hs, hv] at h
        simp [← h.1, ← h.2, ← h0]
        ring
      · simp [ewmStep, hs, hv] at h
        rw [← h0, ← h.1, ← h.2]
        have : w' * (1 - α) + 1 ≠ 0 := by linarith
        field_simp
        simp

/-- The weighted mean stays between bounds on the observations. -/
theorem ewmSt_bounds {α : ℝ} (hα : α ≤ 1) {x : Ser} {m w lo hi : ℝ} (h : ewmSt α x = some (m, w))
    (hb : ∀ r, XF.fin r ∈ x → lo ≤ r ∧ r ≤ hi) : lo ≤ m ∧ m ≤ hi := by
  induction x using List.reverseRecOn generalizing m w with
  | nil => simp [ewmSt] at h
  | append_singleton x v ih =>
    rw [ewmSt_append] at h
    have hb' : ∀ r, XF.fin r ∈ x → lo ≤ r ∧ r ≤ hi := fun r hr => hb r (by simp [hr])
    rcases hs : ewmSt α x with _ | ⟨m', w'⟩
    · rcases hv : v.real? with _ | c
      · simp [ewmStep, hs, hv] at h
      · simp [ewmStep, hs, hv] at h
        have := hb c (by simp [XF.real?_eq_some.1 hv])
        rw [← h.1]; exact this
    · have h0 := ih hs hb'
      have hw := ewmSt_weight_nonneg hα hs
      have h1 : 0 ≤ w' * (1 - α) := mul_nonneg hw (by linarith)
      rcases hv : v.real? with _ | c
      · simp [ewmStep, hs, hv] at h
        rw [← h.1]; exact h0
      · simp [ewmStep, hs, hv] at h
        have hc := hb c (by simp [XF.real?_eq_some.1 hv])
        have hp : 0 < w' * (1 - α) + 1 := by linarith
        rw [← h.1]
        constructor
        · rw [le_div_iff₀ hp]; nlinarith
        · rw [div_le_iff₀ hp]; nlinarith

/-- Values transformed by `r ↦ a * r + b`, keeping what is not a number. -/
noncomputable def affX (a b : ℝ) : XF → XF
  | .fin r => .fin (a * r + b)
  | v => v

theorem affX_real? (a b : ℝ) (v : XF) : (affX a b v).real? = v.real?.map fun r => a * r + b := by
  cases v <;> rfl

theorem ewmSt_affine {α : ℝ} (hα : α ≤ 1) (a b : ℝ) (x : Ser) :
    ewmSt α (x.map (affX a b)) = (ewmSt α x).map fun s => (a * s.1 + b, s.2) := by
  induction x using List.reverseRecOn with
  | nil => simp [ewmSt]
  | append_singleton x v ih =>
    rw [List.map_append, List.map_singleton, ewmSt_append, ewmSt_append, ih]
    rcases hs : ewmSt α x with _ | ⟨m', w'⟩
    · rcases hv : v.real? with _ | c <;> simp [ewmStep, affX_real?, hv]
    · have hw := ewmSt_weight_nonneg hα hs
      have h1 : 0 ≤ w' * (1 - α) := mul_nonneg hw (by linarith)
      have : w' * (1 - α) + 1 ≠ 0 := by linarith
      rcases hv : v.real? with _ | c <;> simp [ewmStep, affX_real?, hv]
      field_simp
      ring

theorem nobs_affine (a b : ℝ) (x : Ser) : nobs (x.map (affX a b)) = nobs x := by
  induction x with
  | nil => rfl
  | cons v x ih => rw [List.map_cons, nobs_cons, nobs_cons, ih, affX_real?]; cases v.real? <;> simp

/-! ## Variance -/

/-- The state of the variance loop after the series. -/
noncomputable def varSt (α : ℝ) (x : Ser) : VarSt := x.foldl (varStep α) ⟨none, 0, 1, 1, 1⟩

theorem varSt_append (α : ℝ) (x : Ser) (v : XF) : varSt α (x ++ [v]) = varStep α (varSt α x) v := by
  simp [varSt, List.foldl_append]

theorem ewmVarGo_get (α : ℝ) (s : VarSt) (x : Ser) {t : Nat} (ht : t < x.length) :
    (ewmVarGo α s x)[t]? = some (varOut ((x.take (t + 1)).foldl (varStep α) s)) := by
  induction x generalizing s t with
  | nil => simp at ht
  | cons v x ih =>
    cases t with
    | zero => simp [ewmVarGo]
    | succ t => simp [ewmVarGo, ih _ (by simpa using ht)]

theorem ewmStd_get (α : ℝ) (x : Ser) {t : Nat} (ht : t < x.length) :
    (ewmStd α x)[t]? = some (varOut (varSt α (x.take (t + 1)))).sqrt := by
  rw [ewmStd, List.getElem?_map, ewmVarGo_get _ _ _ ht, varSt]
  rfl

/-- The variance loop follows the mean loop: either there is no observation yet, or the weighted mean and the weight
are those of the mean loop, and the other accumulators are weighted power sums. -/
theorem varSt_inv {α : ℝ} (hα : α ≤ 1) (x : Ser) :
    (ewmSt α x = none ∧ varSt α x = ⟨none, 0, 1, 1, 1⟩) ∨
      ∃ m w, ewmSt α x = some (m, w) ∧ (varSt α x).mean = some m ∧ (varSt α x).sw = w ∧ (varSt α x).ow = w ∧
        (varSt α x).sw2 = wsum ((1 - α) ^ 2) (fun _ => 1) x ∧
        0 ≤ (varSt α x).cov ∧
        (varSt α x).cov * w = wsum (1 - α) (fun r => r ^ 2) x - w * m ^ 2 := by
  induction x using List.reverseRecOn with
  | nil => exact .inl ⟨rfl, rfl⟩
  | append_singleton x v ih =>
    rw [ewmSt_append, varSt_append, wsum_append, wsum_append]
    rcases ih with ⟨h1, h2⟩ | ⟨m, w, h1, h2, h3, h4, h5, h7, h6⟩
    · rcases hv : v.real? with _ | c
      · left
        simp [h1, h2, ewmStep, varStep, hv]
      · right
        rw [wsum_zero_of_none h1, wsum_zero_of_none h1]
        exact ⟨c, 1, by simp [h1, ewmStep, hv], by simp [h2, varStep, hv], by simp [h2, varStep, hv],
          by simp [h2, varStep, hv], by simp [h2, varStep, hv], by simp [h2, varStep, hv],
          by simp [h2, varStep, hv]⟩
    · right
      have hw := ewmSt_weight_nonneg hα h1
      have hp : 0 ≤ w * (1 - α) := mul_nonneg hw (by linarith)
      rcases hv : v.real? with _ | c
      · refine ⟨m, w * (1 - α), by simp [h1, ewmStep, hv], by simp [h2, varStep, hv], by simp [h2, varStep, hv, h3],
          by simp [h2, varStep, hv, h4], by simp [h2, varStep, hv, h5, mul_comm], by simp [h2, varStep, hv, h7], ?_⟩
        simp only [h2, varStep, hv, Option.map_none, Option.getD_none, add_zero]
        linear_combination (1 - α) * h6
      · have hne : w * (1 - α) + 1 ≠ 0 := by linarith
        refine ⟨(w * (1 - α) * m + c) / (w * (1 - α) + 1), w * (1 - α) + 1, by simp [h1, ewmStep, hv],
          by simp [h2, varStep, hv, h4], by simp [h2, varStep, hv, h3],
          by simp [h2, varStep, hv, h4], by simp [h2, varStep, hv, h5, mul_comm], ?_, ?_⟩
        · simp only [h2, varStep, hv, h4]
          positivity
        · simp only [h2, varStep, hv, h4, Option.map_some, Option.getD_some]
          rw [div_mul_cancel₀ _ hne]
          have e : (1 - α) * wsum (1 - α) (fun r => r ^ 2) x = (1 - α) * ((varSt α x).cov * w + w * m ^ 2) := by
            rw [h6]; ring
          rw [e]
          field_simp
          ring

end Ser

end Verif
