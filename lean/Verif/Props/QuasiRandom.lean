import Verif.Model.QuasiRandom
import Verif.Lemmas.Sim
import Verif.Lemmas.SimStats
import Mathlib.Tactic.NormNum

/-!
# C30: the quasi-random model
-/

namespace Verif.Sim

/-- The indicator returns one value per input value. -/
def SameLength (ind : List ℝ → List (Option ℝ)) : Prop := ∀ l, (ind l).length = l.length

/-- The indicator does not look ahead: its first `t` values depend only on the first `t` inputs. -/
def CausalInd (ind : List ℝ → List (Option ℝ)) : Prop :=
  ∀ l m t, l.take t = m.take t → (ind l).take t = (ind m).take t

/-- The raw signal accumulated before step `t`: the sum of the indicator values (0 for `nan`) at the times
before `t`, the indicator being computed from the path without its last value. -/
noncomputable def accumulated (ind : List ℝ → List (Option ℝ)) (c : List ℝ) (t : Nat) : ℝ :=
  (((ind c.dropLast).map fun v => v.getD 0).take t).sum

variable {ind : List ℝ → List (Option ℝ)} {sv : ℝ} {c c' : List ℝ} {r r' : List (Option ℝ)}

/-- C30. Every column is the base path plus a common factor times the signal accumulated from strictly earlier
times; if the factor is undefined the whole column is `nan`. -/
theorem quasi_form (hlen : SameLength ind) (h : quasiColumn ind sv c = .ok r) :
    ∃ k : Option ℝ, r.length = c.length ∧ ∀ t, t < c.length →
      r[t]? = some (k.map fun k => c.getD t 0 + k * accumulated ind c t) := by
  unfold quasiColumn at h
  obtain ⟨s, hs, h⟩ := bind_inv h
  cases h
  unfold signalColumn at hs
  dsimp only at hs
  rw [if_pos (by rw [List.length_map, hlen, List.length_dropLast])] at hs
  cases hs
  refine ⟨signalFactor sv (0 :: (ind c.dropLast).map fun v => v.getD 0), by simp, fun t ht => ?_⟩
  rw [List.getElem?_map, List.getElem?_range ht]
  simp only [Option.map_some, List.take_succ_cons, List.sum_cons, zero_add]
  rfl

/-- C30. The first row is the first row of the base path whenever the column is not `nan`. -/
theorem quasi_first_row (hlen : SameLength ind) (h : quasiColumn ind sv c = .ok r) (hc : c ≠ []) :
    r[0]? = some (some (c.headD 0)) ∨ ∀ v ∈ r, v = none := by
  obtain ⟨k, hl, hr⟩ := quasi_form hlen h
  have hpos : 0 < c.length := List.length_pos_iff.mpr hc
  cases k with
  | some k =>
    left
    rw [hr 0 hpos]
    cases c with
    | nil => exact absurd rfl hc
    | cons a c => simp [accumulated]
  | none =>
    right
    intro v hv
    obtain ⟨t, ht, rfl⟩ := List.getElem_of_mem hv
    have := hr t (by omega)
    rw [List.getElem?_eq_getElem ht] at this
    simpa using this

/-- C30. No look-ahead in the signal: for a causal indicator and two base paths that agree at all times before
`t`, the accumulated signal at time `t` is the same. -/
theorem quasi_signal_causal (hcaus : CausalInd ind) {t : Nat} (ht : t < c.length) (ht' : t < c'.length)
    (hagree : c.take t = c'.take t) {u : Nat} (hu : u ≤ t) : accumulated ind c u = accumulated ind c' u := by
  have e : ∀ d : List ℝ, t < d.length → d.dropLast.take t = d.take t := by
    intro d hd
    rw [List.dropLast_eq_take, List.take_take]
    congr 1
    omega
  have h1 : c.dropLast.take t = c'.dropLast.take t := by rw [e c ht, e c' ht', hagree]
  have h2 := hcaus _ _ t h1
  have h3 : (ind c.dropLast).take u = (ind c'.dropLast).take u := by
    have := congrArg (List.take u) h2
    rwa [List.take_take, List.take_take, Nat.min_eq_left hu] at this
  unfold accumulated
  rw [← List.map_take, ← List.map_take, h3]

/-- C30, consequence. Two samples over base paths that agree before `t` have, up to time `t`, signals that
differ only by the two global factors. -/
theorem quasi_causal_up_to_scale (hlen : SameLength ind) (hcaus : CausalInd ind)
    (h : quasiColumn ind sv c = .ok r) (h' : quasiColumn ind sv c' = .ok r') {t : Nat} (ht : t < c.length)
    (ht' : t < c'.length) (hagree : c.take t = c'.take t) :
    ∃ k k' : Option ℝ, ∀ u, u ≤ t → ∃ s : ℝ,
      r[u]? = some (k.map fun k => c.getD u 0 + k * s) ∧ r'[u]? = some (k'.map fun k => c'.getD u 0 + k * s) := by
  obtain ⟨k, -, hr⟩ := quasi_form hlen h
  obtain ⟨k', -, hr'⟩ := quasi_form hlen h'
  refine ⟨k, k', fun u hu => ⟨accumulated ind c u, hr u (by omega), ?_⟩⟩
  rw [quasi_signal_causal hcaus ht ht' hagree hu]
  exact hr' u (by omega)

/-- The identity indicator. -/
def idInd : List ℝ → List (Option ℝ) := fun l => l.map some

private theorem sq3 (a b d : ℝ) : sqDev [a, b, d] = (a - (a + b + d) / 3) ^ 2 + (b - (a + b + d) / 3) ^ 2 + (d - (a + b + d) / 3) ^ 2 := by
  unfold sqDev lmean
  simp only [List.map_cons, List.map_nil, List.sum_cons, List.sum_nil, List.length_cons, List.length_nil]
  norm_num
  ring

/-- C30, limit. The global factor does look ahead: two base paths that agree at times 0 and 1 lead to samples
that differ at time 1. -/
theorem quasi_scale_looks_ahead : ∃ (c c' : List ℝ) (r r' : List (Option ℝ)),
    quasiColumn idInd 1 c = .ok r ∧ quasiColumn idInd 1 c' = .ok r' ∧ c.take 2 = c'.take 2 ∧
    c.length = c'.length ∧ r[1]? ≠ r'[1]? := by
  refine ⟨[1, 0, 0, 0, 0], [1, 0, 5, 0, 0], _, _, rfl, rfl, rfl, rfl, ?_⟩
  intro h
  have e1 : sqDev [1, 0, 0] ≠ 0 := by rw [sq3]; norm_num
  have e2 : sqDev [1, 0, 5] ≠ 0 := by rw [sq3]; norm_num
  have f1 : signalFactor 1 [0, 1, 0, 0, 0] = some (1 / Real.sqrt (2 / 3)) := by
    unfold signalFactor
    have hw : ([0, 1, 0, 0, 0] : List ℝ).tail.dropLast = [1, 0, 0] := rfl
    simp only [hw]
    rw [if_neg (by simp), if_neg e1, if_neg (by simp), sq3]
    norm_num
  have f2 : signalFactor 1 [0, 1, 0, 5, 0] = some (1 / Real.sqrt 14) := by
    unfold signalFactor
    have hw : ([0, 1, 0, 5, 0] : List ℝ).tail.dropLast = [1, 0, 5] := rfl
    simp only [hw]
    rw [if_neg (by simp), if_neg e2, if_neg (by simp), sq3]
    norm_num
  have h : (signalFactor 1 [0, 1, 0, 0, 0]).map (fun k => (0 : ℝ) + k * ([0, 1] : List ℝ).sum)
      = (signalFactor 1 [0, 1, 0, 5, 0]).map (fun k => (0 : ℝ) + k * ([0, 1] : List ℝ).sum) :=
    Option.some.inj h
  rw [f1, f2] at h
  simp only [Option.map_some, Option.some.injEq, List.sum_cons, List.sum_nil, zero_add, add_zero, mul_one] at h
  have h3 : Real.sqrt (2 / 3) < Real.sqrt 14 := Real.sqrt_lt_sqrt (by norm_num) (by norm_num)
  have h4 : 0 < Real.sqrt (2 / 3) := Real.sqrt_pos.mpr (by norm_num)
  have := one_div_lt_one_div_of_lt h4 h3
  linarith

private theorem sqDev_smul (k : ℝ) (w : List ℝ) : sqDev (w.map (k * ·)) = k ^ 2 * sqDev w := by
  have hm : lmean (w.map (k * ·)) = k * lmean w := by
    unfold lmean
    rw [List.length_map, List.sum_map_mul_left, List.map_id', mul_div_assoc]
  unfold sqDev
  rw [List.map_map, hm, ← List.sum_map_mul_left]
  congr 1
  apply List.map_congr_left
  intro x _
  simp only [Function.comp_apply]
  ring

/-- C30. Normalisation: with more than two inner values the scaled signal has exactly the standard deviation
`|f * vol * sqrt(dt)|` (divisor `count - 2`). -/
theorem quasi_scale {s : List ℝ} {k : ℝ} (h : signalFactor sv s = some k) (hn : 3 ≤ s.tail.dropLast.length) :
    Real.sqrt (sqDev (s.tail.dropLast.map (k * ·)) / (s.tail.dropLast.length - 2)) = |sv| := by
  unfold signalFactor at h
  dsimp only at h
  generalize s.tail.dropLast = w at *
  rw [if_neg (by omega)] at h
  by_cases h0 : sqDev w = 0
  · rw [if_pos h0] at h; cases h
  · rw [if_neg h0, if_neg (by omega)] at h
    have h := Option.some.inj h
    have hlen : (0 : ℝ) < w.length - 2 := by
      have : (3 : ℝ) ≤ w.length := by exact_mod_cast hn
      linarith
    have hpos : 0 < sqDev w := lt_of_le_of_ne (sqDev_nonneg w) (Ne.symm h0)
    rw [sqDev_smul, ← h, div_pow, Real.sq_sqrt (by positivity)]
    have : sv ^ 2 / (sqDev w / (w.length - 2)) * sqDev w / (w.length - 2) = sv ^ 2 := by
      field_simp
    rw [this, Real.sqrt_sq_eq_abs]

/-- C30, limit. A signal that is constant at the inner times (in particular an indicator that is still `nan`
there, and every indicator for at most two steps) turns the whole sample into `nan`, first row included. -/
theorem quasi_constant_signal_nan (hlen : SameLength ind) (h : quasiColumn ind sv c = .ok r)
    (hconst : ∃ a, ∀ u, u + 2 < c.length → ((ind c.dropLast).getD u none).getD 0 = a) : ∀ v ∈ r, v = none := by
  obtain ⟨a, ha⟩ := hconst
  unfold quasiColumn at h
  obtain ⟨s, hs, h⟩ := bind_inv h
  cases h
  unfold signalColumn at hs
  dsimp only at hs
  rw [if_pos (by rw [List.length_map, hlen, List.length_dropLast])] at hs
  cases hs
  have hw : (0 :: (ind c.dropLast).map fun v => v.getD 0).tail.dropLast = List.replicate (c.length - 2) a := by
    rw [List.tail_cons]
    apply List.ext_getElem
    · simp only [List.length_dropLast, List.length_map, List.length_replicate]
      rw [hlen, List.length_dropLast]
      omega
    · intro i h1 h2
      rw [List.length_replicate] at h2
      have hi : i < (ind c.dropLast).length := by rw [hlen, List.length_dropLast]; omega
      have := ha i (by omega)
      rw [List.getD_eq_getElem?_getD, List.getElem?_eq_getElem hi] at this
      simpa using this
  have hsd : sqDev (List.replicate (c.length - 2) a) = 0 := by
    unfold sqDev lmean
    simp only [List.sum_replicate, List.length_replicate, List.map_replicate, nsmul_eq_mul]
    by_cases h0 : ((c.length - 2 : Nat) : ℝ) = 0
    · rw [h0]; simp
    · rw [mul_div_cancel_left₀ _ h0]; simp
  have hf : signalFactor sv (0 :: (ind c.dropLast).map fun v => v.getD 0) = none := by
    unfold signalFactor
    dsimp only
    rw [hw]
    by_cases h1 : (List.replicate (c.length - 2) a).length ≤ 1
    · rw [if_pos h1]
    · rw [if_neg h1, if_pos hsd]
  intro v hv
  rw [hf] at hv
  obtain ⟨t, -, rfl⟩ := List.mem_map.mp hv
  rfl

/-- C30. Three steps: whatever the indicator, the sample is the base path or `nan`; the signal has no effect. -/
theorem quasi_three_steps (hlen : SameLength ind) (h : quasiColumn ind sv c = .ok r) (hc : c.length = 4) :
    r = c.map some ∨ ∀ v ∈ r, v = none := by
  unfold quasiColumn at h
  obtain ⟨s, hs, h⟩ := bind_inv h
  cases h
  unfold signalColumn at hs
  dsimp only at hs
  rw [if_pos (by rw [List.length_map, hlen, List.length_dropLast])] at hs
  cases hs
  have hw : ((0 :: (ind c.dropLast).map fun v => v.getD 0).tail.dropLast).length = 2 := by
    rw [List.tail_cons, List.length_dropLast, List.length_map, hlen, List.length_dropLast, hc]
  unfold signalFactor
  dsimp only
  rw [if_neg (by omega), if_pos hw]
  split
  · right
    intro v hv
    obtain ⟨t, -, rfl⟩ := List.mem_map.mp hv
    rfl
  · left
    apply List.ext_getElem
    · simp
    · intro i h1 h2
      have hi : i < c.length := by simpa using h2
      simp [hi]

/-- C30. `fit` of a quasi-random model always fails, after the data have been recorded. -/
theorem quasi_fit_fails {P : Type} {pd : Pandas} {m : ModelOps P} (hm : ∀ p a d, (m.fitNp p a d).2 = .error .notImplementedError)
    (o : Obj P) (x : SimData) (dt : Option ℝ) : ∃ e, (fit pd m o x dt).2 = .error e := by
  unfold fit
  rcases preprocessFit pd o.state x dt with ⟨s, e | ⟨a, d⟩⟩
  · exact ⟨e, rfl⟩
  · exact ⟨_, hm _ _ _⟩

/-- C30, limit. A base model with a scalar volatility and at least two variates cannot be sampled with more
than one path: the tiled volatility row does not fit the columns. -/
theorem quasi_scalar_vol_fails (f dt : ℝ) {w : ℝ} {v n : Nat} (hv : 2 ≤ v) (hn : 2 ≤ n) {base : Arr}
    (hb : base.cols = v * n) : quasiSample ind f [w] n dt base = .error .valueError := by
  unfold quasiSample
  have : ((List.range n).flatMap fun _ => [w]).length = n := by simp
  dsimp only
  rw [this, if_neg]
  rw [hb]
  rintro (h | h)
  · nlinarith
  · omega

private theorem mapM_ok {α β : Type} (g : α → Py β) : ∀ (l : List α) (r : List β), l.mapM g = .ok r →
    r.length = l.length ∧ ∀ (i : Nat) (a : α), l[i]? = some a → ∃ b, r[i]? = some b ∧ g a = .ok b := by
  intro l
  induction l with
  | nil =>
    intro r h
    rw [List.mapM_nil] at h
    cases h
    exact ⟨rfl, fun i a h => by simp at h⟩
  | cons x l ih =>
    intro r h
    rw [List.mapM_cons] at h
    obtain ⟨b, hb, h⟩ := bind_inv h
    obtain ⟨bs, hbs, h⟩ := bind_inv h
    cases h
    obtain ⟨h1, h2⟩ := ih bs hbs
    refine ⟨by simp [h1], fun i a hi => ?_⟩
    cases i with
    | zero =>
      have : x = a := by simpa using hi
      subst this
      exact ⟨b, rfl, hb⟩
    | succ i => exact h2 i a (by simpa using hi)

private theorem tile_getD (vol : List ℝ) : ∀ (n i : Nat), i < n * vol.length →
    ((List.range n).flatMap fun _ => vol).getD i 0 = vol.getD (i % vol.length) 0 := by
  intro n
  induction n with
  | zero => intro i h; omega
  | succ n ih =>
    intro i h
    have hl : ((List.range n).flatMap fun _ => vol).length = n * vol.length := by simp
    rw [List.range_succ, List.flatMap_append, List.flatMap_singleton]
    rw [Nat.succ_mul] at h
    by_cases hi : i < n * vol.length
    · rw [List.getD_append _ _ _ _ (by omega), ih i hi]
    · rw [List.getD_append_right _ _ _ _ (by omega), hl]
      have : i = (i - n * vol.length) + vol.length * n := by
        have := Nat.mul_comm n vol.length
        omega
      have h2 : i % vol.length = i - n * vol.length := by
        conv_lhs => rw [this, Nat.add_mul_mod_self_left]
        exact Nat.mod_eq_of_lt (by omega)
      rw [h2]

/-- C30. A sample consists of one column for each column of the base sample, each obtained from that column
alone with the scale `f * vol * sqrt(dt)` of its own variate (column `j` belongs to variate `j % v`). -/
theorem quasi_columns (f dt : ℝ) {vol : List ℝ} {n : Nat} {base : Arr} {r : List (List (Option ℝ))}
    (h : quasiSample ind f vol n dt base = .ok r) : r.length = base.cols ∧
    ∀ j, j < base.cols → ∃ col : List (Option ℝ), r[j]? = some col ∧
      quasiColumn ind (f * vol.getD (j % vol.length) 0 * Real.sqrt dt) (base.col j) = .ok col := by
  unfold quasiSample at h
  dsimp only at h
  have hlen : ((List.range n).flatMap fun _ => vol).length = n * vol.length := by simp
  by_cases hb : ((List.range n).flatMap fun _ => vol).length = base.cols ∨
      ((List.range n).flatMap fun _ => vol).length = 1
  · rw [if_pos hb] at h
    obtain ⟨hl, he⟩ := mapM_ok _ _ _ h
    refine ⟨by simpa using hl, fun j hj => ?_⟩
    obtain ⟨col, h1, h2⟩ := he j j (by rw [List.getElem?_range hj])
    refine ⟨col, h1, ?_⟩
    have hw : bentry ((List.range n).flatMap fun _ => vol) j = vol.getD (j % vol.length) 0 := by
      unfold bentry
      by_cases h3 : ((List.range n).flatMap fun _ => vol).length = 1
      · rw [if_pos h3, tile_getD _ _ _ (by omega)]
        have : vol.length = 1 := Nat.eq_one_of_mul_eq_one_left (hlen ▸ h3)
        rw [this, Nat.mod_one, Nat.mod_one]
      · rw [if_neg h3, tile_getD _ _ _ (by omega)]
    rw [← hw]
    exact h2
  · rw [if_neg hb] at h; cases h

/-- Non-vacuity: a five-row path with the identity indicator is sampled, and its column is not `nan`. -/
example : ∃ r, quasiColumn idInd 1 [1, 0, 5, 2, 3] = .ok r ∧ r[0]? = some (some 1) := by
  refine ⟨_, rfl, ?_⟩
  have e : sqDev [1, 0, 5] ≠ 0 := by rw [sq3]; norm_num
  have f : signalFactor 1 [0, 1, 0, 5, 2] = some (1 / Real.sqrt (sqDev [1, 0, 5] / (([1, 0, 5] : List ℝ).length - 2))) := by
    unfold signalFactor
    have hw : ([0, 1, 0, 5, 2] : List ℝ).tail.dropLast = [1, 0, 5] := rfl
    simp only [hw]
    rw [if_neg (by simp), if_neg e, if_neg (by simp)]
  change some ((signalFactor 1 [0, 1, 0, 5, 2]).map (fun k => (1 : ℝ) + k * ([0] : List ℝ).sum)) = _
  rw [f]
  simp

example : SameLength idInd ∧ CausalInd idInd :=
  ⟨fun l => by simp [idInd], fun l m t h => by unfold idInd; rw [← List.map_take, h, List.map_take]⟩

end Verif.Sim
