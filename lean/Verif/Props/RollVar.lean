import Verif.Props.RollMean

/-!
# C106: rolling variances and standard deviations as pandas computes them
-/

namespace Verif.Roll

open Verif Ser Round

variable {fl : ℝ → ℝ}

/-- What the counters of `roll_var` say. -/
structure VCnt (st : VarSt) (W M : List ℝ) (p : XF) : Prop where
  nobs : st.nobs = W.length
  same : st.same = run M
  prev : st.prev = (M.head?.map XF.fin).getD p

theorem VCnt.fresh (p : XF) : VCnt (VarSt.fresh p) [] [] p := ⟨rfl, rfl, rfl⟩

theorem VCnt.add {st : VarSt} {W M : List ℝ} {p : XF} (h : VCnt st W M p) (v : XF) :
    VCnt (st.add fl v) (W ++ v.real?.toList) (v.real?.toList ++ M) p := by
  unfold VarSt.add
  cases hv : v.real? with
  | none => simpa using h
  | some a =>
    dsimp only
    refine ⟨?_, ?_, ?_⟩
    · simp [h.nobs]
    · dsimp only
      rw [h.same, h.prev, Option.toList_some, List.singleton_append]
      cases M with
      | nil => simp only [run, zero_add, ite_self]
      | cons b l =>
        simp only [List.head?_cons, Option.map_some, Option.getD_some, XF.fin.injEq]
        rw [run]
    · simp

theorem VCnt.remove {st : VarSt} {K M : List ℝ} {p v : XF} (h : VCnt st (v.real?.toList ++ K) M p) : VCnt (st.remove fl v) K M p := by
  unfold VarSt.remove
  cases hv : v.real? with
  | none => simpa [hv] using h
  | some a =>
    rw [hv] at h
    have hn : st.nobs - 1 = K.length := by rw [h.nobs]; simp
    dsimp only
    split
    · exact ⟨hn, h.same, h.prev⟩
    · exact ⟨hn, h.same, h.prev⟩

theorem varSt_cnt {w : Nat} (hw : 2 ≤ w) (x : Ser) : ∀ {t : Nat}, t < x.length →
    VCnt (varSt fl w x t) (win w x t) (hist x t).reverse (at_ x 0) := by
  intro t
  induction t with
  | zero =>
    intro ht
    rw [win_zero (by omega) ht, hist_zero ht]
    have := (VCnt.fresh (at_ x 0)).add (fl := fl) (at_ x 0)
    unfold num
    rw [toList_reverse]
    simpa [varSt] using this
  | succ t ih =>
    intro ht
    have ih := ih (by omega)
    obtain ⟨keep, h1, h2⟩ := win_step (show 1 ≤ w by omega) ht
    rw [h1, hist_step ht, List.reverse_append]
    rw [varSt, if_neg (by omega)]
    unfold num
    rw [toList_reverse]
    refine VCnt.add ?_ _
    rw [h2] at ih
    split at ih
    · rename_i hwt
      rw [if_pos hwt]
      exact ih.remove
    · rename_i hwt
      rw [if_neg hwt]
      simpa using ih

/-- The window of at most one value has no variance. -/
theorem varSt_one (x : Ser) (t : Nat) : (varSt fl 1 x t).calc fl 1 = .nan := by
  have h : varSt fl 1 x t = (VarSt.fresh (at_ x t)).add fl (at_ x t) := by
    cases t with
    | zero => rfl
    | succ t => rw [varSt, if_pos le_rfl]
  have hc := (VCnt.fresh (at_ x t)).add (fl := fl) (at_ x t)
  rw [h]
  unfold VarSt.calc
  rw [hc.nobs]
  cases (at_ x t).real? <;> simp

theorem vcalc_spec {st : VarSt} {W M : List ℝ} {p : XF} (h : VCnt st W M p) (hsuf : W.reverse <+: M) {w : Nat} (hw : w ≤ W.length)
    (h0 : 1 < W.length) :
    ((∃ c, ∀ v ∈ W, v = c) ∧ st.calc fl w = .fin 0) ∨
    ((¬ ∃ c, ∀ v ∈ W, v = c) ∧ st.calc fl w = .fin (fl (st.ssq / (W.length - 1 : Nat)))) := by
  have hM : W.reverse = M.take W.length := by
    have := List.prefix_iff_eq_take.mp hsuf
    rwa [List.length_reverse] at this
  have hlen : W.length ≤ M.length := by
    have := hsuf.length_le
    rwa [List.length_reverse] at this
  cases M with
  | nil => simp only [List.length_nil] at hlen; omega
  | cons b l =>
    have hmem : ∀ v, v ∈ W ↔ v ∈ (b :: l).take W.length := fun v => by rw [← hM, List.mem_reverse]
    have hb : b ∈ W := by
      rw [hmem]
      cases hW : W.length with
      | zero => omega
      | succ k => simp
    unfold VarSt.calc
    rw [h.nobs, h.same, if_pos ⟨hw, h0⟩]
    by_cases hs : W.length ≤ run (b :: l)
    · left
      rw [if_pos (.inr hs)]
      exact ⟨⟨b, fun v hv => run_spec b l _ hs v ((hmem v).mp hv)⟩, rfl⟩
    · right
      rw [if_neg (by omega)]
      refine ⟨?_, rfl⟩
      rintro ⟨c, hc⟩
      refine hs (le_run b l _ hlen fun a ha => ?_)
      rw [hc a ((hmem a).mpr ha), hc b hb]

theorem var_get {x u : Ser} {w : Int} (h : rollingVarR fl x w = .ok u) {t : Nat} (ht : t < x.length) :
    0 ≤ w ∧ u.length = x.length ∧ u[t]? = some (if w = 0 then .nan else (varSt fl w.toNat x t).calc fl w.toNat) := by
  unfold rollingVarR at h
  split at h
  · cases h
  · cases h
    exact ⟨by omega, by simp, by simp [ht]⟩

/-- C106. Rolling variances: NaN exactly for windows shorter than two and windows that are not full; 0 for equal values. -/
theorem var_shape {x u : Ser} {w : Int} (h : rollingVarR fl x w = .ok u) {t : Nat} (ht : t < x.length) :
    (w ≤ 1 ∨ (win w.toNat x t).length < w.toNat → u[t]? = some .nan) ∧
    (¬ (w ≤ 1 ∨ (win w.toNat x t).length < w.toNat) → ∃ r, u[t]? = some (.fin r) ∧
      ((∃ c, ∀ v ∈ win w.toNat x t, v = c) → r = 0)) := by
  obtain ⟨hw, -, he⟩ := var_get h ht
  rw [he]
  by_cases h0 : w = 0
  · simp [h0]
  rw [if_neg h0]
  by_cases h1 : w = 1
  · subst h1
    rw [show (1 : Int).toNat = 1 from rfl, varSt_one]
    simp
  have hc := varSt_cnt (fl := fl) (show 2 ≤ w.toNat by omega) x ht
  constructor
  · intro hs
    rcases hs with hs | hs
    · omega
    · unfold VarSt.calc
      rw [hc.nobs, if_neg (by omega)]
  · intro hs
    rcases vcalc_spec (fl := fl) hc (win_prefix _ _ _) (show w.toNat ≤ _ by omega) (by omega) with ⟨-, e⟩ | ⟨hne, e⟩
    · exact ⟨0, by rw [e], fun _ => rfl⟩
    · exact ⟨_, by rw [e], fun hc => absurd hc hne⟩

/-! ### Exact arithmetic -/

theorem ssd_eq (W : List ℝ) : ssd W = (W.map fun a => a ^ 2).sum - W.sum ^ 2 / W.length := by
  unfold ssd
  by_cases hW : W = []
  · simp [hW]
  have hn : (W.length : ℝ) ≠ 0 := by
    have := List.length_pos_of_ne_nil hW
    positivity
  have key : ∀ (m : ℝ) (L : List ℝ), (L.map fun a => (a - m) ^ 2).sum = (L.map fun a => a ^ 2).sum - 2 * m * L.sum + L.length * m ^ 2 := by
    intro m L
    induction L with
    | nil => simp
    | cons a L ih =>
      simp only [List.map_cons, List.sum_cons, List.length_cons, ih]
      push_cast
      ring
  rw [key]
  field_simp
  ring

theorem ssd_perm_cons (a : ℝ) (K : List ℝ) : ssd (K ++ [a]) = ssd (a :: K) := by
  rw [ssd_eq, ssd_eq]
  simp only [List.map_append, List.sum_append, List.map_cons, List.map_nil, List.sum_cons, List.sum_nil, List.length_append,
    List.length_cons, List.length_nil]
  push_cast
  ring

/-- How the mean and the sum of squares change with one more value (Welford). -/
theorem welford (a : ℝ) (K : List ℝ) :
    let m := K.sum / K.length
    let m' := (a :: K).sum / (a :: K).length
    m' = m + (a - m) / (K.length + 1 : Nat) ∧ ssd (a :: K) = ssd K + (a - m) * (a - m') := by
  intro m m'
  have hn1 : ((K.length : ℝ) + 1) ≠ 0 := by positivity
  by_cases hK : K = []
  · subst hK
    simp [m, m', ssd]
  have hn : (K.length : ℝ) ≠ 0 := by
    have := List.length_pos_of_ne_nil hK
    positivity
  constructor
  · simp only [m, m', List.sum_cons, List.length_cons]
    push_cast
    field_simp
    ring
  · rw [ssd_eq, ssd_eq]
    simp only [m, m', List.sum_cons, List.length_cons, List.map_cons]
    push_cast
    field_simp
    ring

/-- Mean and sum of squares are exact and there is nothing to compensate. -/
structure VEx (st : VarSt) (W : List ℝ) : Prop where
  nobs : st.nobs = W.length
  mean : st.mean = W.sum / W.length
  ssq : st.ssq = ssd W
  ca : st.ca = 0
  cr : st.cr = 0

theorem VEx.add {st : VarSt} {W : List ℝ} (h : VEx st W) (v : XF) : VEx (st.add id v) (W ++ v.real?.toList) := by
  unfold VarSt.add
  cases hv : v.real? with
  | none => simpa using h
  | some a =>
    obtain ⟨e1, e2⟩ := welford a W
    have hs : (W ++ [a]).sum = (a :: W).sum := by simp [add_comm]
    have hl : (W ++ [a]).length = (a :: W).length := by simp
    simp only [id_eq]
    rw [Option.toList_some]
    refine ⟨?_, ?_, ?_, ?_, h.cr⟩
    · simp [h.nobs]
    · dsimp only
      rw [hs, hl, e1, h.ca, h.mean, h.nobs, sub_zero]
    · dsimp only
      rw [ssd_perm_cons, e2, h.ca, h.mean, h.nobs, h.ssq, sub_zero, sub_zero, e1]
    · dsimp only
      rw [h.ca]
      ring

theorem VEx.remove {st : VarSt} {K : List ℝ} {v : XF} (h : VEx st (v.real?.toList ++ K)) : VEx (st.remove id v) K := by
  unfold VarSt.remove
  cases hv : v.real? with
  | none => simpa [hv] using h
  | some a =>
    rw [hv, Option.toList_some, List.singleton_append] at h
    obtain ⟨e1, e2⟩ := welford a K
    have hn : st.nobs - 1 = K.length := by rw [h.nobs]; simp
    simp only [id_eq]
    split
    · rename_i h0
      rw [hn] at h0
      obtain rfl := List.length_eq_zero_iff.mp h0
      refine ⟨hn, by simp, by simp [ssd], h.ca, h.cr⟩
    · rename_i h0
      rw [hn] at h0
      have hK : (K.length : ℝ) ≠ 0 := by exact_mod_cast h0
      have hK1 : ((K.length : ℝ) + 1) ≠ 0 := by positivity
      have em : (a :: K).sum / (a :: K).length - (a - (a :: K).sum / (a :: K).length) / K.length = K.sum / K.length := by
        simp only [List.sum_cons, List.length_cons]
        push_cast
        field_simp
        ring
      refine ⟨hn, ?_, ?_, h.ca, ?_⟩
      · dsimp only
        rw [h.cr, h.mean, hn, sub_zero, em]
      · dsimp only
        rw [h.cr, h.mean, hn, h.ssq, sub_zero, sub_zero, em, e2]
        ring
      · dsimp only
        rw [h.cr]
        ring

theorem varSt_ex {w : Nat} (hw : 2 ≤ w) (x : Ser) : ∀ {t : Nat}, t < x.length → VEx (varSt id w x t) (win w x t) := by
  intro t
  induction t with
  | zero =>
    intro ht
    rw [win_zero (by omega) ht]
    have hf : VEx (VarSt.fresh (at_ x 0)) [] := ⟨rfl, by simp [VarSt.fresh], by simp [VarSt.fresh, ssd], rfl, rfl⟩
    have := hf.add (at_ x 0)
    simpa [varSt, num] using this
  | succ t ih =>
    intro ht
    have ih := ih (by omega)
    obtain ⟨keep, h1, h2⟩ := win_step (show 1 ≤ w by omega) ht
    rw [h1]
    rw [varSt, if_neg (by omega)]
    refine VEx.add ?_ _
    rw [h2] at ih
    split at ih
    · rename_i hwt
      rw [if_pos hwt]
      exact ih.remove
    · rename_i hwt
      rw [if_neg hwt]
      simpa using ih

/-- C106. In exact arithmetic the running algorithm of pandas computes the sample variance of every window. -/
theorem var_exact (x : Ser) (w : Int) : rollingVarR id x w = rolling w varF x := by
  unfold rolling rollingVarR
  by_cases hw : w < 0
  · rw [if_pos hw, if_pos hw]
  rw [if_neg hw, if_neg hw]
  congr 1
  refine List.map_congr_left fun t ht => ?_
  have ht := List.mem_range.mp ht
  unfold rollAt
  have hle := win_length_le w.toNat x t
  by_cases h0 : w = 0
  · subst h0
    have : win (0 : Int).toNat x t = [] := List.length_eq_zero_iff.mp (Nat.le_zero.mp hle)
    rw [this]
    simp [varF]
  rw [if_neg h0]
  by_cases h1 : w = 1
  · subst h1
    rw [show (1 : Int).toNat = 1 from rfl, varSt_one]
    have : (win 1 x t).length ≤ 1 := hle
    split
    · rw [varF, if_pos this]
    · rfl
  have hc := varSt_cnt (fl := id) (show 2 ≤ w.toNat by omega) x ht
  have hx := varSt_ex (show 2 ≤ w.toNat by omega) x ht
  by_cases hl : w.toNat ≤ (win w.toNat x t).length
  · rw [if_pos hl, varF, if_neg (by omega)]
    rcases vcalc_spec (fl := id) hc (win_prefix _ _ _) hl (by omega) with ⟨⟨c, h1⟩, e⟩ | ⟨-, e⟩
    · rw [e]
      congr 1
      set W := win w.toNat x t
      have hlen : (0 : ℝ) < W.length := by exact_mod_cast (by omega : 0 < W.length)
      have hrep : W = List.replicate W.length c := List.eq_replicate_iff.mpr ⟨rfl, h1⟩
      have hsum : W.sum = W.length * c := by
        conv_lhs => rw [hrep]
        rw [List.sum_replicate, nsmul_eq_mul]
      have hm : W.sum / W.length = c := by rw [hsum, mul_div_cancel_left₀ _ hlen.ne']
      have : ssd W = 0 := by
        unfold ssd
        rw [hm]
        have : (W.map fun a => (a - c) ^ 2) = W.map fun _ => (0 : ℝ) := List.map_congr_left fun a ha => by rw [h1 a ha]; ring
        rw [this]
        simp
      rw [this, zero_div]
    · rw [e, hx.ssq]
      dsimp only [id]
      rw [Nat.cast_sub (by omega)]
      simp
  · rw [if_neg hl]
    unfold VarSt.calc
    rw [hc.nobs, if_neg (by omega)]

/-- C106. In exact arithmetic the rolling standard deviation of pandas is the sample standard deviation of every window. -/
theorem std_exact (x : Ser) (w : Int) : rollingStdR id x w = Ind.rollingStd x w := by
  unfold rollingStdR Ind.rollingStd
  rw [var_exact]
  unfold rolling
  by_cases hw : w < 0
  · rw [if_pos hw, if_pos hw]
    rfl
  rw [if_neg hw, if_neg hw]
  simp only [bind, Except.bind]
  rw [List.map_map]
  congr 1
  refine List.map_congr_left fun t _ => ?_
  dsimp only [Function.comp]
  unfold rollAt
  split
  · unfold stdF varF
    split
    · rfl
    · rename_i hlen
      push Not at hlen
      have hd : (0 : ℝ) < (win w.toNat x t).length - 1 := by
        have : (1 : ℝ) < (win w.toNat x t).length := by exact_mod_cast hlen
        linarith
      have hn := div_nonneg (ssd_nonneg (win w.toNat x t)) hd.le
      rw [XF.sqrt_fin hn]
      unfold zsqrt
      dsimp only
      rw [if_neg (not_lt.mpr hn)]
      rfl
  · rfl

/-- C106. Rolling standard deviations are NaN exactly where the variances are, never negative, and 0 for equal values: what the
rounding of the sums of squares leaves below zero is cut off. -/
theorem std_shape (R : Rounding fl) {x u : Ser} {w : Int} (h : rollingStdR fl x w = .ok u) {t : Nat} (ht : t < x.length) :
    (w ≤ 1 ∨ (win w.toNat x t).length < w.toNat → u[t]? = some .nan) ∧
    (¬ (w ≤ 1 ∨ (win w.toNat x t).length < w.toNat) → ∃ r, u[t]? = some (.fin r) ∧ 0 ≤ r ∧
      ((∃ c, ∀ v ∈ win w.toNat x t, v = c) → r = 0)) := by
  obtain ⟨v, hv, he⟩ := bind_ok h
  cases he
  have h0 : fl 0 = 0 := by simpa using R.int 0 (by norm_num)
  obtain ⟨s1, s2⟩ := var_shape hv ht
  rw [List.getElem?_map]
  refine ⟨fun hs => by rw [s1 hs]; rfl, fun hs => ?_⟩
  obtain ⟨r, hr, hc⟩ := s2 hs
  rw [hr]
  simp only [Option.map_some, Option.some.injEq]
  unfold zsqrt
  dsimp only
  by_cases hneg : r < 0
  · rw [if_pos hneg]
    exact ⟨0, rfl, le_rfl, fun _ => rfl⟩
  · rw [if_neg hneg]
    refine ⟨_, rfl, ?_, fun hcc => ?_⟩
    · rw [← h0]
      exact R.mono (Real.sqrt_nonneg r)
    · rw [hc hcc, Real.sqrt_zero, h0]

end Verif.Roll
