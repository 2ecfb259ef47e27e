import Verif.Props.MicroEdge

/-!
# C69: microstructure features never look ahead
-/

namespace Verif.Props.MicroCausal

open Verif Ser Micro

/-- A function of `n` series of one length never looks ahead: the output is as long as the input, and cutting the inputs
at `t` cuts the output at `t`. -/
structure CausalN (n : Nat) (F : (Fin n → Ser) → Py Ser) : Prop where
  length : ∀ xs u m, (∀ i, (xs i).length = m) → F xs = .ok u → u.length = m
  cut : ∀ xs u t, F xs = .ok u → F (fun i => (xs i).take t) = .ok (u.take t)

/-- What it means: inputs that agree on the first `t` values give outputs that agree on the first `t` values. -/
theorem CausalN.agree {n : Nat} {F : (Fin n → Ser) → Py Ser} (h : CausalN n F) {xs ys : Fin n → Ser} {u v : Ser} {t : Nat}
    (hxy : ∀ i, (xs i).take t = (ys i).take t) (hx : F xs = .ok u) (hy : F ys = .ok v) : u.take t = v.take t := by
  have h1 := h.cut xs u t hx
  have h2 := h.cut ys v t hy
  rw [funext hxy, h2] at h1
  exact (Except.ok.inj h1).symm

/-- The same for functions without an error case. -/
structure CausalP (n : Nat) (G : (Fin n → Ser) → Ser) : Prop where
  length : ∀ xs m, (∀ i, (xs i).length = m) → (G xs).length = m
  cut : ∀ xs t, G (fun i => (xs i).take t) = (G xs).take t

section Build

variable {n : Nat} {G H : (Fin n → Ser) → Ser} {F K : (Fin n → Ser) → Py Ser}

theorem proj (i : Fin n) : CausalP n fun xs => xs i := ⟨fun _ _ h => h i, fun _ _ => rfl⟩

theorem CausalP.map (h : CausalP n G) (f : XF → XF) : CausalP n fun xs => (G xs).map f :=
  ⟨fun xs m hm => by simpa using h.length xs m hm, fun xs t => by rw [h.cut, map_take']⟩

theorem CausalP.op2 (f : XF → XF → XF) (h : CausalP n G) (k : CausalP n H) : CausalP n fun xs => op2 f (G xs) (H xs) :=
  ⟨fun xs m hm => by rw [op2_length, h.length xs m hm, k.length xs m hm, max_self],
    fun xs t => by rw [h.cut, k.cut, op2_take]⟩

theorem CausalP.shift1 (h : CausalP n G) : CausalP n fun xs => shift 1 (G xs) :=
  ⟨fun xs m hm => by rw [shift_length, h.length xs m hm], fun xs t => by rw [h.cut, shift_take (by decide)]⟩

theorem CausalP.diff1 (h : CausalP n G) : CausalP n fun xs => diff 1 (G xs) := h.op2 (· - ·) h.shift1

theorem CausalP.logRatio (h : CausalP n G) (k : CausalP n H) : CausalP n fun xs => logRatio (G xs) (H xs) :=
  (h.op2 (· / ·) k).map XF.log

theorem ffill_take (a : XF) (x : Ser) (t : Nat) : ffillGo a (x.take t) = (ffillGo a x).take t := by
  induction x generalizing a t with
  | nil => simp [ffillGo]
  | cons v x ih => cases t <;> cases v <;> simp [ffillGo, ih]

theorem CausalP.pct (h : CausalP n G) : CausalP n fun xs => pctChange (G xs) := by
  have hf : CausalP n fun xs => ffillGo .nan (G xs) :=
    ⟨fun xs m hm => by rw [MicroTrade.ffill_length, h.length xs m hm], fun xs t => by rw [h.cut, ffill_take]⟩
  exact (hf.op2 (· / ·) hf.shift1).map (· - .fin 1)

theorem CausalP.ok (h : CausalP n G) : CausalN n fun xs => .ok (G xs) :=
  ⟨fun xs u m hm hu => by cases hu; exact h.length xs m hm, fun xs u t hu => by cases hu; exact congrArg _ (h.cut xs t)⟩

theorem CausalP.rolling (h : CausalP n G) (w : Int) (f : List ℝ → XF) : CausalN n fun xs => rolling w f (G xs) :=
  ⟨fun xs u m hm hu => by rw [rolling_length hu, h.length xs m hm],
    fun xs u t hu => by rw [h.cut]; exact rolling_take hu t⟩

theorem CausalN.rolling (h : CausalN n F) (w : Int) (f : List ℝ → XF) :
    CausalN n fun xs => F xs >>= fun s => Ser.rolling w f s := by
  refine ⟨fun xs u m hm hu => ?_, fun xs u t hu => ?_⟩
  · obtain ⟨s, hs, hr⟩ := bind_ok hu
    rw [rolling_length hr, h.length xs s m hm hs]
  · obtain ⟨s, hs, hr⟩ := bind_ok hu
    show (F fun i => (xs i).take t) >>= _ = _
    rw [h.cut xs s t hs]
    exact rolling_take hr t

theorem CausalN.map (h : CausalN n F) (f : XF → XF) :
    CausalN n fun xs => F xs >>= fun s => .ok (s.map f) := by
  refine ⟨fun xs u m hm hu => ?_, fun xs u t hu => ?_⟩
  · obtain ⟨s, hs, hr⟩ := bind_ok hu
    cases hr
    simpa using h.length xs s m hm hs
  · obtain ⟨s, hs, hr⟩ := bind_ok hu
    cases hr
    show (F fun i => (xs i).take t) >>= _ = _
    rw [h.cut xs s t hs]
    exact congrArg Except.ok (map_take' f s t)

theorem CausalN.op2 (h : CausalN n F) (k : CausalN n K) (f : XF → XF → XF) :
    CausalN n fun xs => F xs >>= fun a => K xs >>= fun b => .ok (Ser.op2 f a b) := by
  refine ⟨fun xs u m hm hu => ?_, fun xs u t hu => ?_⟩
  · obtain ⟨a, ha, hu⟩ := bind_ok hu
    obtain ⟨b, hb, hu⟩ := bind_ok hu
    cases hu
    rw [op2_length, h.length xs a m hm ha, k.length xs b m hm hb, max_self]
  · obtain ⟨a, ha, hu⟩ := bind_ok hu
    obtain ⟨b, hb, hu⟩ := bind_ok hu
    cases hu
    show (F fun i => (xs i).take t) >>= _ = _
    rw [h.cut xs a t ha]
    show (K fun i => (xs i).take t) >>= _ = _
    rw [k.cut xs b t hb]
    exact congrArg Except.ok (op2_take f a b t)

end Build

/-! ## Prices -/

theorem closeClose_causal (w : Int) : CausalN 1 fun xs => closeClose (xs 0) w :=
  ((proj 0).op2 (· / ·) (proj 0).shift1).rolling w varF

theorem highLow_causal (w : Int) : CausalN 2 fun xs => highLow (xs 0) (xs 1) w :=
  ((((proj 0).logRatio (proj 1)).map sqF).rolling w meanF).map (· / .fin (4 * Real.log 2))

theorem garmanKlass_causal (w : Int) : CausalN 4 fun xs => garmanKlass (xs 0) (xs 1) (xs 2) (xs 3) w :=
  ((((proj 0).logRatio (proj 1)).map fun v => .fin (1 / 2) * sqF v).rolling w meanF).op2
    ((((proj 3).logRatio (proj 2)).map fun v => .fin (2 * Real.log 2 - 1) * sqF v).rolling w meanF) (· - ·)

theorem rogersSatchell_causal (w : Int) : CausalN 4 fun xs => rogersSatchell (xs 0) (xs 1) (xs 2) (xs 3) w :=
  ((((proj 0).logRatio (proj 3)).op2 (· * ·) ((proj 0).logRatio (proj 2))).op2 (· + ·)
    (((proj 1).logRatio (proj 3)).op2 (· * ·) ((proj 1).logRatio (proj 2)))).rolling w meanF

theorem yangZhang_causal (w : Int) : CausalN 4 fun xs => yangZhang (xs 0) (xs 1) (xs 2) (xs 3) w := by
  have h1 : CausalN 4 fun xs => rolling w meanF ((logRatio (xs 2) (shift 1 (xs 3))).map sqF) :=
    (((proj 2).logRatio (proj 3).shift1).map sqF).rolling w meanF
  have h2 : CausalN 4 fun xs => rolling w meanF ((logRatio (xs 3) (shift 1 (xs 2))).map sqF) :=
    (((proj 3).logRatio (proj 2).shift1).map sqF).rolling w meanF
  have h3 := rogersSatchell_causal w
  refine ⟨fun xs u m hm hu => ?_, fun xs u t hu => ?_⟩
  · obtain ⟨k, hk, hu⟩ := bind_ok hu
    obtain ⟨a, ha, hu⟩ := bind_ok hu
    obtain ⟨b, hb, hu⟩ := bind_ok hu
    obtain ⟨c, hc, hu⟩ := bind_ok hu
    cases hu
    simp only [op2_length, List.length_map]
    rw [h1.length xs a m hm ha, h2.length xs b m hm hb, h3.length xs c m hm hc, max_self, max_self]
  · obtain ⟨k, hk, hu⟩ := bind_ok hu
    obtain ⟨a, ha, hu⟩ := bind_ok hu
    obtain ⟨b, hb, hu⟩ := bind_ok hu
    obtain ⟨c, hc, hu⟩ := bind_ok hu
    cases hu
    have e1 := h1.cut xs a t ha
    have e2 := h2.cut xs b t hb
    have e3 := h3.cut xs c t hc
    simp only at e1 e2 e3
    simp only [yangZhang, hk, e1, e2, e3]
    show Except.ok _ = _
    rw [map_take', map_take', op2_take, op2_take]

theorem gamma_causal : CausalN 2 fun xs => gamma (xs 0) (xs 1) := by
  have h := (((proj (n := 2) 0).rolling 2 maxF).op2 ((proj 1).rolling 2 minF) (· / ·))
  refine ⟨fun xs u m hm hu => ?_, fun xs u t hu => ?_⟩
  · obtain ⟨a, ha, hu⟩ := bind_ok hu
    obtain ⟨b, hb, hu⟩ := bind_ok hu
    cases hu
    have := h.length xs (Ser.op2 (· / ·) a b) m hm (by show _ >>= _ = _; rw [ha]; show _ >>= _ = _; rw [hb]; rfl)
    simpa [logRatio] using this
  · obtain ⟨a, ha, hu⟩ := bind_ok hu
    obtain ⟨b, hb, hu⟩ := bind_ok hu
    cases hu
    simp only [gamma, rolling_take ha t, rolling_take hb t]
    show Except.ok _ = _
    rw [logRatio, op2_take, map_take', map_take', logRatio]

theorem beta_causal (w : Int) : CausalN 2 fun xs => beta (xs 0) (xs 1) w :=
  ((((proj 0).logRatio (proj 1)).map sqF).rolling 2 sumF).rolling w meanF

theorem beckerParkinson_causal (w : Int) : CausalN 2 fun xs => beckerParkinson (xs 0) (xs 1) w := by
  have h1 := beta_causal w
  have h2 := gamma_causal
  refine ⟨fun xs u m hm hu => ?_, fun xs u t hu => ?_⟩
  · obtain ⟨a, ha, hu⟩ := bind_ok hu
    obtain ⟨b, hb, hu⟩ := bind_ok hu
    cases hu
    simp only [sigma, op2_length, List.length_map]
    rw [h1.length xs a m hm ha, h2.length xs b m hm hb, max_self]
  · obtain ⟨a, ha, hu⟩ := bind_ok hu
    obtain ⟨b, hb, hu⟩ := bind_ok hu
    cases hu
    have e1 := h1.cut xs a t ha
    have e2 := h2.cut xs b t hb
    simp only at e1 e2
    simp only [beckerParkinson, e1, e2]
    show Except.ok _ = _
    simp only [sigma, map_take', op2_take]

theorem corwinSchultz_causal (w : Int) : CausalN 2 fun xs => corwinSchultz (xs 0) (xs 1) w := by
  have h1 := beta_causal w
  have h2 := gamma_causal
  refine ⟨fun xs u m hm hu => ?_, fun xs u t hu => ?_⟩
  · obtain ⟨a, ha, hu⟩ := bind_ok hu
    obtain ⟨b, hb, hu⟩ := bind_ok hu
    cases hu
    simp only [alpha, op2_length, List.length_map]
    rw [h1.length xs a m hm ha, h2.length xs b m hm hb, max_self]
  · obtain ⟨a, ha, hu⟩ := bind_ok hu
    obtain ⟨b, hb, hu⟩ := bind_ok hu
    cases hu
    have e1 := h1.cut xs a t ha
    have e2 := h2.cut xs b t hb
    simp only at e1 e2
    simp only [corwinSchultz, e1, e2]
    show Except.ok _ = _
    simp only [alpha, map_take', op2_take]

theorem rollingCov_take {x y u : Ser} {w : Int} (hu : rollingCov w x y = .ok u) (t : Nat) :
    rollingCov w (x.take t) (y.take t) = .ok (u.take t) := by
  rw [rollingCov] at hu ⊢
  by_cases hw : w < 0
  · rw [if_pos hw] at hu; cases hu
  rw [if_neg hw] at hu ⊢
  cases hu
  congr 1
  have hz : (x.take t).zip (y.take t) = (x.zip y).take t := (List.take_zipWith (f := Prod.mk)).symm
  apply List.ext_getElem?
  intro i
  by_cases hi : i < ((x.take t).zip (y.take t)).length
  · have hi' : i < t ∧ i < (x.zip y).length := by rw [hz] at hi; simpa using hi
    rw [List.getElem?_take, if_pos hi'.1]
    simp only [List.getElem?_map, List.getElem?_range hi, List.getElem?_range hi'.2, Option.map_some]
    have : win2 w.toNat (x.take t) (y.take t) i = win2 w.toNat x y i := by
      rw [win2, win2, hz, List.take_take, min_eq_left (by omega)]
    rw [this]
  · rw [List.getElem?_eq_none (by rw [List.length_map, List.length_range]; omega), List.getElem?_eq_none]
    rw [hz, List.length_take] at hi
    simp only [List.length_take, List.length_map, List.length_range]
    omega

theorem rollMeasure_causal (w : Int) : CausalN 1 fun xs => rollMeasure (xs 0) w := by
  have hd : CausalP 1 fun xs => diff 1 ((xs 0).map XF.log) := ((proj 0).map XF.log).diff1
  refine ⟨fun xs u m hm hu => ?_, fun xs u t hu => ?_⟩
  · obtain ⟨a, ha, hu⟩ := bind_ok hu
    cases hu
    rw [List.length_map, MicroRoll.rollingCov_length (shift_length _ _).symm ha]
    exact hd.length xs m hm
  · obtain ⟨a, ha, hu⟩ := bind_ok hu
    cases hu
    have e := hd.cut xs t
    simp only at e
    simp only [rollMeasure, e, shift_take (show (0 : Int) ≤ 1 by decide), rollingCov_take ha t]
    show Except.ok _ = _
    rw [map_take']

theorem rollImpact_causal (w : Int) : CausalN 2 fun xs => rollImpact (xs 0) (xs 1) w := by
  have h := rollMeasure_causal w
  refine ⟨fun xs u m hm hu => ?_, fun xs u t hu => ?_⟩
  · obtain ⟨a, ha, hu⟩ := bind_ok hu
    cases hu
    rw [op2_length, op2_length, h.length (fun _ => xs 0) a m (fun _ => hm 0) ha, hm, hm, max_self, max_self]
  · obtain ⟨a, ha, hu⟩ := bind_ok hu
    cases hu
    have e := h.cut (fun _ => xs 0) a t ha
    simp only at e
    simp only [rollImpact, e]
    show Except.ok _ = _
    rw [op2_take, op2_take]

theorem slice_take {i w t : Nat} (h : i + w ≤ t) (x : Ser) : slice i w (x.take t) = slice i w x := by
  rw [slice, slice, List.drop_take, List.take_take, min_eq_left (by omega)]

theorem edge_causal (w : Int) (sign : Bool) : CausalN 4 fun xs => edgeSpread (xs 0) (xs 1) (xs 2) (xs 3) w sign := by
  refine ⟨fun xs u m hm hu => ?_, fun xs u t hu => ?_⟩
  · simp only [edgeSpread] at hu
    by_cases hw : w ≤ 0
    · rw [if_pos hw] at hu; cases hu
    · rw [if_neg hw] at hu
      cases hu
      simp [hm 0]
  · simp only [edgeSpread] at hu ⊢
    by_cases hw : w ≤ 0
    · rw [if_pos hw] at hu; cases hu
    rw [if_neg hw] at hu ⊢
    cases hu
    congr 1
    apply List.ext_getElem?
    intro i
    by_cases hi : i < ((xs 0).take t).length
    · have hi' : i < t ∧ i < (xs 0).length := by simpa using hi
      rw [List.getElem?_take, if_pos hi'.1]
      simp only [List.getElem?_map, List.getElem?_range hi, List.getElem?_range hi'.2, Option.map_some]
      by_cases h : w.toNat ≤ i + 1
      · rw [if_pos h, if_pos h]
        have : i + 1 - w.toNat + w.toNat ≤ t := by omega
        simp only [slice_take this]
      · rw [if_neg h, if_neg h]
    · rw [List.length_take] at hi
      rw [List.getElem?_eq_none (by simp; omega), List.getElem?_eq_none]
      simp
      omega

/-! ## Trades -/

theorem vpin_causal (w : Int) : CausalN 2 fun xs => vpin (xs 0) (xs 1) w :=
  ((((proj 1).op2 (· - ·) ((proj 0).op2 (· - ·) (proj 1))).map XF.abs).op2 (· / ·) (proj 0)).rolling w meanF

theorem buyVolume_causal (F : XF → XF) : CausalN 3 fun xs => .ok (estimateBuyVolume F (xs 0) (xs 1) (xs 2)) :=
  ((proj 1).op2 (· * ·) (((proj 0).diff1.op2 (· / ·) (proj 2)).map F)).ok

theorem kyle_causal (w : Int) : CausalN 2 fun xs => kyle (xs 0) (xs 1) w :=
  ((proj 0).diff1.op2 (· / ·) (((proj 0).diff1.map XF.sign).op2 (· * ·) (proj 1))).rolling w meanF

theorem amihud_causal (w : Int) : CausalN 2 fun xs => amihud (xs 0) (xs 1) w :=
  (((proj 0).pct.map XF.abs).op2 (· / ·) ((proj 1).op2 (· * ·) (proj 0))).rolling w meanF

theorem hasbrouck_causal (w : Int) : CausalN 2 fun xs => hasbrouck (xs 0) (xs 1) w :=
  (((proj 0).logRatio (proj 0).shift1).op2 (· / ·) ((((proj 0).logRatio (proj 0).shift1).map XF.sign).op2 (· * ·)
    (((proj 1).op2 (· * ·) (proj 0)).map XF.sqrt))).rolling w meanF

/-- Concrete case, a function that does look ahead: a shift by -1 is not causal. -/
example : ¬ CausalN 1 fun xs => .ok (shift (-1) (xs 0)) := by
  intro h
  have := h.cut (fun _ => [.fin 0, .fin 1]) _ 1 rfl
  simp [shift, List.range_succ] at this

/-! ## Where errors come from -/

/-- With series of any content, the only errors are those of the window: negative (ValueError), 1 for Yang-Zhang
(ZeroDivisionError), zero or negative for EDGE (ValueError). -/
theorem ok_iff (h l o c v s : Ser) (w : Int) (sign : Bool) :
    ((∃ u, closeClose c w = .ok u) ↔ 0 ≤ w) ∧ ((∃ u, highLow h l w = .ok u) ↔ 0 ≤ w) ∧
      ((∃ u, garmanKlass h l o c w = .ok u) ↔ 0 ≤ w) ∧ ((∃ u, rogersSatchell h l o c w = .ok u) ↔ 0 ≤ w) ∧
      ((∃ u, yangZhang h l o c w = .ok u) ↔ 0 ≤ w ∧ w ≠ 1) ∧ ((∃ u, beckerParkinson h l w = .ok u) ↔ 0 ≤ w) ∧
      ((∃ u, corwinSchultz h l w = .ok u) ↔ 0 ≤ w) ∧ ((∃ u, rollMeasure c w = .ok u) ↔ 0 ≤ w) ∧
      ((∃ u, rollImpact c v w = .ok u) ↔ 0 ≤ w) ∧ ((∃ u, edgeSpread h l o c w sign = .ok u) ↔ 1 ≤ w) ∧
      ((∃ u, vpin v s w = .ok u) ↔ 0 ≤ w) ∧ ((∃ u, kyle c v w = .ok u) ↔ 0 ≤ w) ∧
      ((∃ u, amihud c v w = .ok u) ↔ 0 ≤ w) ∧ ((∃ u, hasbrouck c v w = .ok u) ↔ 0 ≤ w) := by
  have r : ∀ f x, (∃ u, rolling w f x = .ok u) ↔ 0 ≤ w := by
    intro f x
    constructor
    · rintro ⟨u, hu⟩; exact (rolling_inv hu).1
    · intro hw; exact ⟨_, rolling_ok hw f x⟩
  have rc : ∀ x y, (∃ u, rollingCov w x y = .ok u) ↔ 0 ≤ w := by
    intro x y
    constructor
    · rintro ⟨u, hu⟩
      by_contra hw
      rw [rollingCov, if_pos (by omega)] at hu
      cases hu
    · intro hw
      exact ⟨_, by rw [rollingCov, if_neg (by omega)]⟩
  have r2 : ∀ f x, ∃ u, rolling 2 f x = .ok u := fun f x => ⟨_, rolling_ok (by decide) f x⟩
  have rm : (∃ u, rollMeasure c w = .ok u) ↔ 0 ≤ w := by
    constructor
    · rintro ⟨u, hu⟩
      obtain ⟨a, ha, -⟩ := bind_ok hu
      exact (rc _ _).1 ⟨a, ha⟩
    · intro hw
      obtain ⟨a, ha⟩ := (rc (diff 1 (c.map XF.log)) (shift 1 (diff 1 (c.map XF.log)))).2 hw
      exact ⟨_, by rw [rollMeasure, ha]; rfl⟩
  have hb : (∃ u, beta h l w = .ok u) ↔ 0 ≤ w := by
    constructor
    · rintro ⟨u, hu⟩
      obtain ⟨a, -, ha⟩ := bind_ok hu
      exact (r _ _).1 ⟨u, ha⟩
    · intro hw
      obtain ⟨a, ha⟩ := r2 sumF ((logRatio h l).map sqF)
      obtain ⟨b, hb⟩ := (r meanF a).2 hw
      exact ⟨b, by rw [beta, ha]; exact hb⟩
  obtain ⟨g, hg⟩ : ∃ g, gamma h l = .ok g := by
    obtain ⟨a, ha⟩ := r2 maxF h
    obtain ⟨b, hb⟩ := r2 minF l
    exact ⟨_, by rw [gamma, ha]; show _ >>= _ = _; rw [hb]; rfl⟩
  refine ⟨r _ _, ?_, ?_, r _ _, ?_, ?_, ?_, rm, ?_, ?_, r _ _, r _ _, r _ _, r _ _⟩
  · constructor
    · rintro ⟨u, hu⟩
      obtain ⟨a, ha, -⟩ := bind_ok hu
      exact (r _ _).1 ⟨a, ha⟩
    · intro hw
      obtain ⟨a, ha⟩ := (r meanF ((logRatio h l).map sqF)).2 hw
      exact ⟨_, by rw [highLow, ha]; rfl⟩
  · constructor
    · rintro ⟨u, hu⟩
      obtain ⟨a, ha, -⟩ := bind_ok hu
      exact (r _ _).1 ⟨a, ha⟩
    · intro hw
      exact ⟨_, by
        rw [garmanKlass, rolling_ok hw]
        show _ >>= _ = _
        rw [rolling_ok hw]
        rfl⟩
  · constructor
    · rintro ⟨u, hu⟩
      obtain ⟨k, hk, hu⟩ := bind_ok hu
      obtain ⟨a, ha, -⟩ := bind_ok hu
      refine ⟨(r _ _).1 ⟨a, ha⟩, ?_⟩
      rintro rfl
      rw [yzCoeff, if_pos rfl] at hk
      cases hk
    · rintro ⟨hw, h1⟩
      exact ⟨_, by
        rw [yangZhang, yzCoeff, if_neg h1]
        show _ >>= _ = _
        rw [rolling_ok hw]
        show _ >>= _ = _
        rw [rolling_ok hw]
        show _ >>= _ = _
        rw [rogersSatchell, rolling_ok hw]
        rfl⟩
  · constructor
    · rintro ⟨u, hu⟩
      obtain ⟨a, ha, -⟩ := bind_ok hu
      exact hb.1 ⟨a, ha⟩
    · intro hw
      obtain ⟨a, ha⟩ := hb.2 hw
      exact ⟨_, by rw [beckerParkinson, ha]; show _ >>= _ = _; rw [hg]; rfl⟩
  · constructor
    · rintro ⟨u, hu⟩
      obtain ⟨a, ha, -⟩ := bind_ok hu
      exact hb.1 ⟨a, ha⟩
    · intro hw
      obtain ⟨a, ha⟩ := hb.2 hw
      exact ⟨_, by rw [corwinSchultz, ha]; show _ >>= _ = _; rw [hg]; rfl⟩
  · constructor
    · rintro ⟨u, hu⟩
      obtain ⟨a, ha, -⟩ := bind_ok hu
      exact rm.1 ⟨a, ha⟩
    · intro hw
      obtain ⟨a, ha⟩ := rm.2 hw
      exact ⟨_, by rw [rollImpact, ha]; rfl⟩
  · constructor
    · rintro ⟨u, hu⟩
      by_contra hw
      rw [edgeSpread, if_pos (by omega)] at hu
      cases hu
    · intro hw
      exact ⟨_, by rw [edgeSpread, if_neg (by omega)]⟩

end Verif.Props.MicroCausal
