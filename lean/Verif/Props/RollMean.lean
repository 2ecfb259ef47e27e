import Verif.Model.RollR
import Verif.Lemmas.Series
import Verif.Lemmas.Round

/-!
# C106: rolling means as pandas computes them
-/

namespace Verif.Roll

open Verif Ser Round

variable {fl : ℝ → ℝ}

/-! ### Windows, one position after the other -/

theorem at_eq {x : Ser} {t : Nat} (ht : t < x.length) : at_ x t = x[t] := by
  unfold at_
  rw [List.getD_eq_getElem?_getD, List.getElem?_eq_getElem ht]
  rfl

/-- The numbers up to a position. -/
noncomputable def hist (x : Ser) (t : Nat) : List ℝ := (x.take (t + 1)).filterMap XF.real?

/-- The number at a position, if there is one. -/
noncomputable def num (x : Ser) (t : Nat) : List ℝ := (at_ x t).real?.toList

theorem filterMap_single (v : XF) : [v].filterMap XF.real? = v.real?.toList := by
  cases h : v.real? <;> simp [h]

theorem hist_step {x : Ser} {t : Nat} (ht : t + 1 < x.length) : hist x (t + 1) = hist x t ++ num x (t + 1) := by
  unfold hist num
  rw [List.take_succ_eq_append_getElem ht, List.filterMap_append, at_eq ht, filterMap_single]

theorem hist_zero {x : Ser} (ht : 0 < x.length) : hist x 0 = num x 0 := by
  unfold hist num
  rw [List.take_succ_eq_append_getElem ht, List.filterMap_append, at_eq ht, filterMap_single]
  simp

/-- The window loses its first value, if it has been full, and gets the new one. -/
theorem win_step {w : Nat} (hw : 1 ≤ w) {x : Ser} {t : Nat} (ht : t + 1 < x.length) :
    ∃ keep, win w x (t + 1) = keep ++ num x (t + 1) ∧ win w x t = (if w ≤ t + 1 then num x (t + 1 - w) else []) ++ keep := by
  refine ⟨((x.take (t + 1)).drop (t + 2 - w)).filterMap XF.real?, ?_, ?_⟩
  · unfold win num
    rw [List.take_succ_eq_append_getElem ht, List.drop_append_of_le_length (by simp; omega), List.filterMap_append, at_eq ht,
      filterMap_single]
  · unfold win num
    split
    · rename_i h
      have hl : t + 1 - w < (x.take (t + 1)).length := by simp; omega
      rw [List.drop_eq_getElem_cons hl, show t + 1 - w + 1 = t + 2 - w by omega, ← List.singleton_append, List.filterMap_append,
        filterMap_single, List.getElem_take, at_eq (by omega)]
    · rename_i h
      rw [show t + 1 - w = 0 by omega, show t + 2 - w = 0 by omega, List.nil_append]

theorem win_zero {w : Nat} (hw : 1 ≤ w) {x : Ser} (ht : 0 < x.length) : win w x 0 = num x 0 := by
  have := hist_zero ht
  unfold win
  rw [show 0 + 1 - w = 0 by omega, List.drop_zero]
  exact this

theorem win_suffix (w : Nat) (x : Ser) (t : Nat) : win w x t <:+ hist x t := by
  unfold win hist
  exact (List.drop_suffix _ _).filterMap _

/-! ### Runs of equal values -/

open Classical in
/-- The length of the run of equal values at the start of a list. -/
noncomputable def run : List ℝ → Nat
  | [] => 0
  | [_] => 1
  | v :: a :: l => if a = v then run (a :: l) + 1 else 1

theorem run_le : ∀ l, run l ≤ l.length := by
  intro l
  induction l with
  | nil => simp [run]
  | cons v l ih =>
    cases l with
    | nil => simp [run]
    | cons a l =>
      unfold run
      split
      · simp only [List.length_cons] at ih ⊢
        omega
      · simp

theorem run_spec : ∀ (v : ℝ) (l : List ℝ) (k : Nat), k ≤ run (v :: l) → ∀ a ∈ (v :: l).take k, a = v := by
  intro v l
  induction l generalizing v with
  | nil =>
    intro k hk a ha
    have := List.mem_of_mem_take ha
    simpa using this
  | cons b l ih =>
    intro k hk a ha
    cases k with
    | zero => simp at ha
    | succ k =>
      rw [List.take_succ_cons, List.mem_cons] at ha
      rcases ha with rfl | ha
      · rfl
      · unfold run at hk
        split at hk
        · rename_i hb
          subst hb
          exact ih b k (by omega) a ha
        · obtain rfl : k = 0 := by omega
          simp at ha

theorem le_run : ∀ (v : ℝ) (l : List ℝ) (k : Nat), k ≤ (v :: l).length → (∀ a ∈ (v :: l).take k, a = v) → k ≤ run (v :: l) := by
  intro v l
  induction l generalizing v with
  | nil =>
    intro k hk _
    simpa [run] using hk
  | cons b l ih =>
    intro k hk h
    unfold run
    rcases k with _ | _ | k
    · omega
    · split <;> omega
    · have hb : b = v := h b (by simp)
      rw [if_pos hb]
      subst hb
      have := ih b (k + 1) (by simpa using hk) (fun a ha => h a (by rw [List.take_succ_cons]; exact List.mem_cons_of_mem _ ha))
      omega

/-! ### The counters -/

/-- What the counters say about the values in the window `W` and about all values so far, newest first, `M`. -/
structure Cnt (st : MeanSt) (W M : List ℝ) (p : XF) : Prop where
  nobs : st.nobs = W.length
  neg : st.neg = W.countP fun v => decide (v < 0)
  same : st.same = run M
  prev : st.prev = (M.head?.map XF.fin).getD p

theorem Cnt.fresh (p : XF) : Cnt (MeanSt.fresh p) [] [] p := ⟨rfl, rfl, rfl, rfl⟩

theorem Cnt.add {st : MeanSt} {W M : List ℝ} {p : XF} (h : Cnt st W M p) (v : XF) :
    Cnt (st.add fl v) (W ++ v.real?.toList) (v.real?.toList ++ M) p := by
  unfold MeanSt.add
  cases hv : v.real? with
  | none => simpa using h
  | some a =>
    dsimp only
    refine ⟨?_, ?_, ?_, ?_⟩
    · simp [h.nobs]
    · dsimp only
      rw [h.neg, Option.toList_some, List.countP_append, List.countP_singleton]
      by_cases ha : a < 0
      · simp [ha]
      · simp [ha]
    · dsimp only
      rw [h.same, h.prev, Option.toList_some, List.singleton_append]
      cases M with
      | nil => simp only [run, zero_add, ite_self]
      | cons b l =>
        simp only [List.head?_cons, Option.map_some, Option.getD_some, XF.fin.injEq]
        rw [run]
    · simp

theorem Cnt.remove {st : MeanSt} {K M : List ℝ} {p v : XF} (h : Cnt st (v.real?.toList ++ K) M p) : Cnt (st.remove fl v) K M p := by
  unfold MeanSt.remove
  cases hv : v.real? with
  | none => simpa [hv] using h
  | some a =>
    rw [hv] at h
    dsimp only
    refine ⟨?_, ?_, h.same, h.prev⟩
    · dsimp only
      rw [h.nobs]
      simp
    · dsimp only
      rw [h.neg, Option.toList_some, List.countP_append, List.countP_singleton]
      by_cases ha : a < 0
      · simp [ha]
      · simp [ha]

theorem toList_reverse (o : Option ℝ) : o.toList.reverse = o.toList := by cases o <;> rfl

theorem meanSt_cnt {w : Nat} (hw : 2 ≤ w) (x : Ser) : ∀ {t : Nat}, t < x.length →
    Cnt (meanSt fl w x t) (win w x t) (hist x t).reverse (at_ x 0) := by
  intro t
  induction t with
  | zero =>
    intro ht
    rw [win_zero (by omega) ht, hist_zero ht]
    have := (Cnt.fresh (at_ x 0)).add (fl := fl) (at_ x 0)
    unfold num
    rw [toList_reverse]
    simpa [meanSt] using this
  | succ t ih =>
    intro ht
    have ih := ih (by omega)
    obtain ⟨keep, h1, h2⟩ := win_step (show 1 ≤ w by omega) ht
    rw [h1, hist_step ht, List.reverse_append]
    rw [meanSt, if_neg (by omega)]
    unfold num
    rw [toList_reverse]
    refine Cnt.add ?_ _
    rw [h2] at ih
    split at ih
    · rename_i hwt
      rw [if_pos hwt]
      exact ih.remove
    · rename_i hwt
      rw [if_neg hwt]
      simpa using ih

theorem win_one {x : Ser} {t : Nat} (ht : t < x.length) : win 1 x t = num x t := by
  cases t with
  | zero => exact win_zero le_rfl ht
  | succ t =>
    obtain ⟨keep, h1, h2⟩ := win_step (show 1 ≤ 1 from le_rfl) ht
    have hl := win_length_le 1 x (t + 1)
    have hd : (x.take (t + 1)).drop (t + 2 - 1) = [] := by simp
    unfold win num
    rw [List.take_succ_eq_append_getElem ht, List.drop_append_of_le_length (by simp; omega), List.filterMap_append, at_eq ht,
      filterMap_single, show t + 1 + 1 - 1 = t + 2 - 1 from rfl, hd]
    rfl

/-- The value of a state whose window is full and has the values `W`. -/
theorem calc_spec {st : MeanSt} {W M : List ℝ} {p : XF} (h : Cnt st W M p) (hsuf : W.reverse <+: M) {w : Nat} (hw : w ≤ W.length)
    (h0 : 0 < W.length) :
    (∃ c, (∀ v ∈ W, v = c) ∧ st.calc fl w = .fin c) ∨
    ((¬ ∃ c, ∀ v ∈ W, v = c) ∧ ∃ r, st.calc fl w = .fin r ∧
      ((r = fl (st.sum / W.length) ∧ ((∀ v ∈ W, 0 ≤ v) → 0 ≤ r) ∧ ((∀ v ∈ W, v < 0) → r ≤ 0)) ∨
        (r = 0 ∧ ((∀ v ∈ W, 0 ≤ v) ∧ fl (st.sum / W.length) < 0 ∨ (∀ v ∈ W, v < 0) ∧ 0 < fl (st.sum / W.length))))) := by
  have hM : W.reverse = M.take W.length := by
    have := List.prefix_iff_eq_take.mp hsuf
    rwa [List.length_reverse] at this
  have hlen : W.length ≤ M.length := by
    have := hsuf.length_le
    rwa [List.length_reverse] at this
  cases M with
  | nil => simp only [List.length_nil] at hlen; omega
  | cons b l =>
    have hmem : ∀ v, v ∈ W ↔ v ∈ (b :: l).take W.length := fun v => by rw [← hM, List.mem_reverse]
    have hb : b ∈ W := by
      rw [hmem]
      cases hW : W.length with
      | zero => omega
      | succ k => simp
    unfold MeanSt.calc
    rw [h.nobs, h.same, h.prev, h.neg, if_pos ⟨hw, h0⟩]
    dsimp only
    by_cases hs : W.length ≤ run (b :: l)
    · left
      rw [if_pos hs]
      refine ⟨b, fun v hv => run_spec b l _ hs v ((hmem v).mp hv), ?_⟩
      simp
    · right
      rw [if_neg hs]
      have hne : ¬ ∃ c, ∀ v ∈ W, v = c := by
        rintro ⟨c, hc⟩
        refine hs (le_run b l _ hlen fun a ha => ?_)
        rw [hc a ((hmem a).mpr ha), hc b hb]
      refine ⟨hne, ?_⟩
      have n1 : (W.countP fun v => decide (v < 0)) = 0 ↔ ∀ v ∈ W, 0 ≤ v := by
        rw [List.countP_eq_zero]
        simp
      have n2 : (W.countP fun v => decide (v < 0)) = W.length ↔ ∀ v ∈ W, v < 0 := by
        rw [List.countP_eq_length]
        simp
      by_cases c1 : (W.countP fun v => decide (v < 0)) = 0 ∧ fl (st.sum / W.length) < 0
      · rw [if_pos c1]
        exact ⟨0, rfl, .inr ⟨rfl, .inl ⟨n1.mp c1.1, c1.2⟩⟩⟩
      · rw [if_neg c1]
        by_cases c2 : (W.countP fun v => decide (v < 0)) = W.length ∧ 0 < fl (st.sum / W.length)
        · rw [if_pos c2]
          exact ⟨0, rfl, .inr ⟨rfl, .inr ⟨n2.mp c2.1, c2.2⟩⟩⟩
        · rw [if_neg c2]
          refine ⟨_, rfl, .inl ⟨rfl, fun hp => ?_, fun hn => ?_⟩⟩
          · by_contra hc
            exact c1 ⟨n1.mpr hp, not_le.mp hc⟩
          · by_contra hc
            exact c2 ⟨n2.mpr hn, not_le.mp hc⟩

/-- A window of one value. -/
theorem calc_one (x : Ser) (t : Nat) : (meanSt fl 1 x t).calc fl 1 = match (at_ x t).real? with
    | none => .nan
    | some v => .fin v := by
  have h : meanSt fl 1 x t = (MeanSt.fresh (at_ x t)).add fl (at_ x t) := by
    cases t with
    | zero => rfl
    | succ t => rw [meanSt, if_pos le_rfl]
  rw [h]
  have hc := (Cnt.fresh (at_ x t)).add (fl := fl) (at_ x t)
  cases hv : (at_ x t).real? with
  | none =>
    rw [hv] at hc
    unfold MeanSt.calc
    rw [hc.nobs]
    simp
  | some v =>
    rw [hv] at hc
    rcases calc_spec (fl := fl) hc (by simp) (w := 1) (by simp) (by simp) with ⟨c, h1, e⟩ | ⟨hne, -⟩
    · rw [e, h1 v (by simp)]
    · exact absurd ⟨v, by simp⟩ hne

theorem win_prefix (w : Nat) (x : Ser) (t : Nat) : (win w x t).reverse <+: (hist x t).reverse :=
  List.reverse_prefix.mpr (win_suffix w x t)

/-- The entry of the rolling mean at a position. -/
theorem mean_get {x u : Ser} {w : Int} (h : rollingMeanR fl x w = .ok u) {t : Nat} (ht : t < x.length) :
    0 ≤ w ∧ u.length = x.length ∧ u[t]? = some (if w = 0 then .nan else (meanSt fl w.toNat x t).calc fl w.toNat) := by
  unfold rollingMeanR at h
  split at h
  · cases h
  · cases h
    exact ⟨by omega, by simp, by simp [ht]⟩

/-- C106. NaN exactly where the window has fewer than `w` numbers. -/
theorem mean_nan_iff {x u : Ser} {w : Int} (h : rollingMeanR fl x w = .ok u) {t : Nat} (ht : t < x.length) :
    (u[t]? = some .nan ↔ w = 0 ∨ (win w.toNat x t).length < w.toNat) ∧ (u[t]? = some .nan ∨ ∃ r, u[t]? = some (.fin r)) := by
  obtain ⟨hw, -, he⟩ := mean_get h ht
  rw [he]
  by_cases h0 : w = 0
  · simp [h0]
  · rw [if_neg h0]
    have key : (meanSt fl w.toNat x t).calc fl w.toNat = .nan ∧ (win w.toNat x t).length < w.toNat ∨
        (∃ r, (meanSt fl w.toNat x t).calc fl w.toNat = .fin r) ∧ w.toNat ≤ (win w.toNat x t).length := by
      by_cases h1 : w = 1
      · subst h1
        rw [show (1 : Int).toNat = 1 from rfl, calc_one, win_one ht]
        unfold num
        cases (at_ x t).real? with
        | none => simp
        | some v => simp
      · have hc := meanSt_cnt (fl := fl) (show 2 ≤ w.toNat by omega) x ht
        by_cases hl : w.toNat ≤ (win w.toNat x t).length
        · right
          refine ⟨?_, hl⟩
          rcases calc_spec (fl := fl) hc (win_prefix _ _ _) hl (by omega) with ⟨c, -, e⟩ | ⟨-, r, e, -⟩
          · exact ⟨c, e⟩
          · exact ⟨r, e⟩
        · left
          refine ⟨?_, by omega⟩
          unfold MeanSt.calc
          rw [hc.nobs, if_neg (by omega)]
    rcases key with ⟨e, hl⟩ | ⟨⟨r, e⟩, hl⟩
    · rw [e]
      exact ⟨⟨fun _ => .inr hl, fun _ => rfl⟩, .inl rfl⟩
    · rw [e]
      refine ⟨⟨fun hn => by simp at hn, fun hn => ?_⟩, .inr ⟨r, rfl⟩⟩
      rcases hn with hn | hn <;> omega

/-- C106. A window of equal values has exactly this mean; the mean of a window without negative numbers is not negative, that of
negative numbers not positive. -/
theorem mean_sign {x u : Ser} {w : Int} (h : rollingMeanR fl x w = .ok u) {t : Nat} {r : ℝ} (hr : u[t]? = some (.fin r)) :
    (∀ c, (∀ v ∈ win w.toNat x t, v = c) → r = c) ∧ ((∀ v ∈ win w.toNat x t, 0 ≤ v) → 0 ≤ r) ∧
    ((∀ v ∈ win w.toNat x t, v < 0) → r ≤ 0) := by
  have ht : t < x.length := by
    have hl : u.length = x.length := by
      unfold rollingMeanR at h
      split at h
      · cases h
      · cases h
        simp
    rw [← hl]
    exact (List.getElem?_eq_some_iff.1 hr).1
  obtain ⟨hw, -, he⟩ := mean_get h ht
  rw [he] at hr
  by_cases h0 : w = 0
  · simp [h0] at hr
  rw [if_neg h0, Option.some.injEq] at hr
  by_cases h1 : w = 1
  · subst h1
    rw [show (1 : Int).toNat = 1 from rfl, calc_one] at hr
    rw [show (1 : Int).toNat = 1 from rfl, win_one ht]
    unfold num
    cases hv : (at_ x t).real? with
    | none => rw [hv] at hr; cases hr
    | some v =>
      rw [hv] at hr
      cases hr
      refine ⟨fun c hc => hc r (by simp), fun hc => hc r (by simp), fun hc => (hc r (by simp)).le⟩
  · have hc := meanSt_cnt (fl := fl) (show 2 ≤ w.toNat by omega) x ht
    have hl : w.toNat ≤ (win w.toNat x t).length := by
      by_contra hcon
      unfold MeanSt.calc at hr
      rw [hc.nobs, if_neg (by omega)] at hr
      cases hr
    have hpos : 0 < (win w.toNat x t).length := by omega
    obtain ⟨a, ha⟩ := List.exists_mem_of_length_pos hpos
    rcases calc_spec (fl := fl) hc (win_prefix _ _ _) hl hpos with ⟨c, h1, e⟩ | ⟨hne, r', e, h2⟩
    · rw [e] at hr
      cases hr
      refine ⟨fun c' hc' => ?_, fun hc' => ?_, fun hc' => ?_⟩
      · rw [← h1 a ha, hc' a ha]
      · rw [← h1 a ha]; exact hc' a ha
      · rw [← h1 a ha]; exact (hc' a ha).le
    · rw [e] at hr
      cases hr
      refine ⟨fun c hc' => absurd ⟨c, hc'⟩ hne, fun hc' => ?_, fun hc' => ?_⟩
      · rcases h2 with ⟨-, h2, -⟩ | ⟨h2, -⟩
        · exact h2 hc'
        · exact h2.ge
      · rcases h2 with ⟨-, -, h2⟩ | ⟨h2, -⟩
        · exact h2 hc'
        · exact h2.le

/-! ### Where nothing is rounded -/

/-- All sums of consecutive values are floats. -/
def Sums (fl : ℝ → ℝ) (W : List ℝ) : Prop := ∀ M, M <:+: W → fl M.sum = M.sum ∧ fl (-M.sum) = -M.sum

/-- The sum is exact and there is nothing to compensate. -/
structure Ex (st : MeanSt) (W : List ℝ) : Prop where
  sum : st.sum = W.sum
  ca : st.ca = 0
  cr : st.cr = 0

theorem Ex.add {st : MeanSt} {W : List ℝ} (h : Ex st W) {v : XF} (hs : Sums fl (W ++ v.real?.toList)) :
    Ex (st.add fl v) (W ++ v.real?.toList) := by
  unfold MeanSt.add
  cases hv : v.real? with
  | none => simpa using h
  | some a =>
    rw [hv, Option.toList_some] at hs
    have z : fl 0 = 0 := by simpa using (hs [] (List.nil_infix)).1
    have e1 : fl a = a := by simpa using (hs [a] (List.suffix_append W [a]).isInfix).1
    have e2 : fl (W.sum + a) = W.sum + a := by simpa using (hs (W ++ [a]) List.infix_rfl).1
    refine ⟨?_, ?_, h.cr⟩
    · simp [h.ca, h.sum, e1, e2]
    · dsimp only
      rw [h.ca, h.sum, sub_zero, e1, e2, add_sub_cancel_left, e1, sub_self, z]

theorem Ex.remove {st : MeanSt} {K : List ℝ} {v : XF} (h : Ex st (v.real?.toList ++ K)) (hs : Sums fl (v.real?.toList ++ K)) :
    Ex (st.remove fl v) K := by
  unfold MeanSt.remove
  cases hv : v.real? with
  | none => simpa [hv] using h
  | some a =>
    rw [hv, Option.toList_some] at hs
    rw [hv] at h
    have z : fl 0 = 0 := by simpa using (hs [] (List.nil_infix)).1
    have e1 : fl (-a) = -a := by simpa using (hs [a] (List.prefix_append [a] K).isInfix).2
    have e2 : fl K.sum = K.sum := (hs K (List.suffix_append [a] K).isInfix).1
    have e3 : st.sum = a + K.sum := by rw [h.sum]; simp
    have e4 : a + K.sum + -a = K.sum := by ring
    refine ⟨?_, h.ca, ?_⟩
    · dsimp only
      rw [h.cr, e3, sub_zero, e1, e4, e2]
    · dsimp only
      rw [h.cr, e3, sub_zero, e1, e4, e2, sub_add_cancel_right, e1, sub_self, z]

theorem Sums.infix {W W' : List ℝ} (h : Sums fl W) (h' : W' <:+: W) : Sums fl W' := fun M hM => h M (hM.trans h')

theorem meanSt_ex {w : Nat} (hw : 2 ≤ w) (x : Ser) : ∀ {t : Nat}, t < x.length → (∀ s ≤ t, Sums fl (win w x s)) →
    Ex (meanSt fl w x t) (win w x t) := by
  intro t
  induction t with
  | zero =>
    intro ht hs
    have h0 := hs 0 le_rfl
    rw [win_zero (by omega) ht] at h0 ⊢
    have hf : Ex (MeanSt.fresh (at_ x 0)) [] := ⟨by simp [MeanSt.fresh], rfl, rfl⟩
    have := hf.add (fl := fl) (v := at_ x 0) (by simpa [num] using h0)
    simpa [meanSt, num] using this
  | succ t ih =>
    intro ht hs
    have ih := ih (by omega) fun s h => hs s (by omega)
    obtain ⟨keep, h1, h2⟩ := win_step (show 1 ≤ w by omega) ht
    have hs1 := hs (t + 1) le_rfl
    have hs0 := hs t (by omega)
    rw [h1] at hs1 ⊢
    rw [meanSt, if_neg (by omega)]
    refine Ex.add ?_ hs1
    rw [h2] at ih hs0
    split at ih
    · rename_i hwt
      rw [if_pos hwt] at hs0 ⊢
      exact ih.remove hs0
    · rename_i hwt
      rw [if_neg hwt]
      simpa using ih

theorem sum_nonpos_of : ∀ {l : List ℝ}, (∀ v ∈ l, v ≤ 0) → l.sum ≤ 0 := by
  intro l
  induction l with
  | nil => simp
  | cons a l ih =>
    intro h
    rw [List.sum_cons]
    have := h a (by simp)
    have := ih fun v hv => h v (by simp [hv])
    linarith

/-- C106. If all sums of consecutive values in the windows so far are floats, the rolling mean is the correctly rounded mean of the
window. -/
theorem mean_correct (hmono : Monotone fl) {x u : Ser} {w : Int} (h : rollingMeanR fl x w = .ok u) {t : Nat} (ht : t < x.length)
    (hs : ∀ s ≤ t, Sums fl (win w.toNat x s)) :
    u[t]? = some (rollAt w.toNat (fun v => if v = [] then .nan else .fin (fl (v.sum / v.length))) x t) := by
  have z : fl 0 = 0 := by simpa using (hs 0 (by omega) [] (List.nil_infix)).1
  obtain ⟨hw, -, he⟩ := mean_get h ht
  rw [he]
  unfold rollAt
  by_cases h0 : w = 0
  · subst h0
    have : win (0 : Int).toNat x t = [] := List.length_eq_zero_iff.mp (Nat.le_zero.mp (win_length_le _ _ _))
    rw [this]
    simp
  rw [if_neg h0]
  by_cases h1 : w = 1
  · subst h1
    have hst := hs t le_rfl
    rw [show (1 : Int).toNat = 1 from rfl] at hst ⊢
    rw [calc_one, win_one ht]
    rw [win_one ht] at hst
    unfold num at hst ⊢
    cases hv : (at_ x t).real? with
    | none => simp
    | some v =>
      rw [hv] at hst
      have : fl v = v := by simpa using (hst [v] List.infix_rfl).1
      simp [this]
  have hc := meanSt_cnt (fl := fl) (show 2 ≤ w.toNat by omega) x ht
  have hx := meanSt_ex (fl := fl) (show 2 ≤ w.toNat by omega) x ht hs
  set W := win w.toNat x t with hW
  by_cases hl : w.toNat ≤ W.length
  · have hpos : 0 < W.length := by omega
    have hne : W ≠ [] := List.ne_nil_of_length_pos hpos
    have hn : (0 : ℝ) < W.length := by exact_mod_cast hpos
    rw [if_pos hl]
    dsimp only
    rw [if_neg hne]
    congr 1
    have hnonneg : (∀ v ∈ W, 0 ≤ v) → 0 ≤ fl (W.sum / W.length) := fun hp => by
      rw [← z]
      exact hmono (div_nonneg (List.sum_nonneg hp) hn.le)
    have hnonpos : (∀ v ∈ W, v < 0) → fl (W.sum / W.length) ≤ 0 := fun hp => by
      conv_rhs => rw [← z]
      exact hmono (div_nonpos_of_nonpos_of_nonneg (sum_nonpos_of fun v hv => (hp v hv).le) hn.le)
    rcases calc_spec (fl := fl) hc (win_prefix _ _ _) hl hpos with ⟨c, h1, e⟩ | ⟨-, r, e, h2⟩
    · rw [e]
      congr 1
      have hrep : W = List.replicate W.length c := List.eq_replicate_iff.mpr ⟨rfl, h1⟩
      have hsum : W.sum = W.length * c := by
        conv_lhs => rw [hrep]
        rw [List.sum_replicate, nsmul_eq_mul]
      obtain ⟨a, ha⟩ := List.exists_mem_of_length_pos hpos
      obtain ⟨l1, l2, hl12⟩ := List.append_of_mem ha
      have : fl c = c := by
        have := (hs t le_rfl [a] ⟨l1, l2, by rw [← hW, hl12]; simp⟩).1
        rw [← h1 a ha]
        simpa using this
      rw [hsum, mul_comm, mul_div_assoc, div_self hn.ne', mul_one, this]
    · rw [e]
      congr 1
      rw [hx.sum] at h2
      rcases h2 with ⟨h2, -⟩ | ⟨h2, h3⟩
      · exact h2
      · rcases h3 with ⟨h3, h4⟩ | ⟨h3, h4⟩
        · exact absurd (hnonneg h3) (not_le.mpr h4)
        · exact absurd (hnonpos h3) (not_le.mpr h4)
  · rw [if_neg hl]
    congr 1
    unfold MeanSt.calc
    rw [hc.nobs, if_neg (by omega)]

/-- C106. In exact arithmetic the running algorithm of pandas computes the mean of every window. -/
theorem mean_exact (x : Ser) (w : Int) : rollingMeanR id x w = Ind.rollingMean x w := by
  unfold Ind.rollingMean rolling
  by_cases hw : w < 0
  · rw [if_pos hw]
    unfold rollingMeanR
    rw [if_pos hw]
  · rw [if_neg hw]
    have h : rollingMeanR id x w = .ok ((List.range x.length).map fun t : Nat =>
        if w = 0 then .nan else (meanSt id w.toNat x t).calc id w.toNat) := by
      unfold rollingMeanR
      rw [if_neg hw]
    rw [h]
    congr 1
    refine List.map_congr_left fun t ht => ?_
    have ht := List.mem_range.mp ht
    have := mean_correct (fun _ _ h => h) h ht fun s _ M _ => ⟨rfl, rfl⟩
    rw [(mean_get h ht).2.2, Option.some.injEq] at this
    exact this

/-- C106. Whole numbers: as long as the absolute values of every window add up to at most `2 ^ 53`, the rolling mean is the
correctly rounded mean of the window, however long the series. -/
theorem mean_whole (R : Rounding fl) {x u : Ser} {w : Int} (h : rollingMeanR fl x w = .ok u) {t : Nat} (ht : t < x.length)
    (hint : ∀ s ≤ t, ∀ v ∈ win w.toNat x s, ∃ k : ℤ, v = k)
    (hsum : ∀ s ≤ t, ((win w.toNat x s).map abs).sum ≤ 2 ^ 53) :
    u[t]? = some (rollAt w.toNat (fun v => if v = [] then .nan else .fin (fl (v.sum / v.length))) x t) := by
  refine mean_correct R.mono h ht fun s hs M hM => ?_
  have hk : ∀ L : List ℝ, (∀ v ∈ L, ∃ k : ℤ, v = k) → ∃ k : ℤ, L.sum = k := by
    intro L
    induction L with
    | nil => exact fun _ => ⟨0, by simp⟩
    | cons a L ih =>
      intro hL
      obtain ⟨k, hk⟩ := hL a (by simp)
      obtain ⟨m, hm⟩ := ih fun v hv => hL v (by simp [hv])
      exact ⟨k + m, by rw [List.sum_cons, hk, hm]; push_cast; ring⟩
  obtain ⟨k, hk⟩ := hk M fun v hv => hint s hs v (hM.subset hv)
  have habs : |M.sum| ≤ (M.map abs).sum := by
    clear hk hM
    induction M with
    | nil => simp
    | cons a M ih =>
      rw [List.sum_cons, List.map_cons, List.sum_cons]
      exact (abs_add_le _ _).trans (by linarith)
  obtain ⟨l1, l2, hl⟩ := hM
  have hle : (M.map abs).sum ≤ ((win w.toNat x s).map abs).sum := by
    rw [← hl]
    have p1 : 0 ≤ (l1.map abs).sum := List.sum_nonneg fun a ha => by
      obtain ⟨b, -, rfl⟩ := List.mem_map.mp ha
      exact abs_nonneg b
    have p2 : 0 ≤ (l2.map abs).sum := List.sum_nonneg fun a ha => by
      obtain ⟨b, -, rfl⟩ := List.mem_map.mp ha
      exact abs_nonneg b
    simp only [List.map_append, List.sum_append]
    linarith
  have hb : |k| ≤ 2 ^ 53 := by
    have : |(k : ℝ)| ≤ 2 ^ 53 := by rw [← hk]; exact habs.trans (hle.trans (hsum s hs))
    exact_mod_cast this
  rw [hk]
  refine ⟨R.int k hb, ?_⟩
  rw [R.neg, R.int k hb]

end Verif.Roll
