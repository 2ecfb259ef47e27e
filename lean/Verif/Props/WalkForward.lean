import Verif.Lemmas.WalkForward
import Verif.Lemmas.KFoldFinish

/-!
# Properties of `WalkForward` (C10 – C14, C16)

`groups` with every label present between the first and the last ("gapless", in steps of the unit) give
exactly the documented scheme. With gaps only a weak ordering survives; the counterexamples are below.
-/

namespace Verif.Split

open List

variable {np : DeltaArg} {fr : Option Nat} {a b e G n u : Nat} {g0 : Int} {st : SplitType} {c : WFCfg}
variable {X : XArg} {y : YArg} {gs : Option GroupsArg}

/-- C12, C13, C14. The complete run on gapless groups: with `a` training labels, `b` test labels,
embargo `e < a` and `a + b ≤ G` the generator yields exactly `⌈(G - a) / b⌉` splits, the `k`-th being the
documented `k`-th split, then finishes; the object's counter grows by that number. -/
theorem walk_gapless_run (hc : wfInit (.ok (.int e)) np (.int a) (.int b) st fr = .ok c)
    (h : GaplessCall X y gs fr n g0 u G) (ha : 1 ≤ a) (hb : 1 ≤ b) (hab : a + b ≤ G) (hea : e < a)
    (o : WFObj) {fuel : Nat} (hfuel : (G - a + b - 1) / b < fuel) :
    ∃ l, wfDrive c X y gs fuel o .fresh = (l, some .stopped, ⟨o.nSplits + (G - a + b - 1) / b, true⟩) ∧
      l.length = (G - a + b - 1) / b ∧
      ∀ k s, l[k]? = some s →
        IsWFSplit (groupsInForce n gs).vals n g0 u a b e (st == .rolling) k s := by
  have hi := wfInit_int hc
  obtain ⟨d, hd⟩ : ∃ d, (G - a + b - 1) / b = d + 1 :=
    ⟨(G - a + b - 1) / b - 1, by
      have : 1 ≤ (G - a + b - 1) / b := by rw [Nat.le_div_iff_mul_le (by omega)]; omega
      omega⟩
  have hlo : (d + 1) * b ≤ G - a + b - 1 := by
    rw [← hd]; exact Nat.div_mul_le_self _ _
  have hhi : G - a + b - 1 < (d + 1 + 1) * b := by
    rw [← hd]; exact Nat.lt_mul_of_div_lt (by omega) (by omega)
  have e1 : (d + 1) * b = d * b + b := by ring
  have e2 : (d + 1 + 1) * b = d * b + b + b := by ring
  have hx : xRows X = n := by
    have := h.rows
    cases X <;> simp [XArg.rows] at this <;> simpa [xRows] using this
  rw [hd] at hfuel ⊢
  obtain ⟨fuel, rfl⟩ : ∃ f, fuel = f + 1 := ⟨fuel - 1, by omega⟩
  have hbase := baseSplit_accepted h.rows h.yok h.gok h.sorted
  have hst := wfStart_gapless hi h.fits h.sorted h.gapless (by omega) ha hb
  rw [if_pos hab] at hst
  obtain ⟨s, hs1, hs2⟩ := wfEnter_gapless (k := 0) hi h.fits h.len h.sorted h.gapless ha hb (by omega) hea
  obtain ⟨l, hl1, hl2, hl3⟩ := wfDrive_rest (X := X) (y := y) hi hx h.fits h.len h.sorted h.gapless ha hb hea d
    0 o fuel (by rw [Nat.zero_add]; omega) (by rw [Nat.zero_add]; omega) (by omega)
  refine ⟨s :: l, ?_, by simp [hl2], ?_⟩
  · rw [wfDrive]
    simp only [wfNext, wfBegin, hbase, groupsOrArange_eq, hst, hs1, hl1]
  · intro k s' hk
    cases k with
    | zero => simp at hk; subst hk; exact hs2
    | succ k =>
      have := hl3 k s' (by simpa using hk)
      rw [show 0 + 1 + k = k + 1 by omega] at this
      exact this

/-- C13 (errors). When one training and one test window do not fit, or the embargo swallows the first
training window, nothing is yielded: `IndexError` resp. `ValueError`. -/
theorem walk_gapless_errors (hc : wfInit (.ok (.int e)) np (.int a) (.int b) st fr = .ok c)
    (h : GaplessCall X y gs fr n g0 u G) (hG : 0 < G) (ha : 1 ≤ a) (hb : 1 ≤ b) (o : WFObj) (fuel : Nat) :
    (G < a + b → wfDrive c X y gs (fuel + 1) o .fresh = ([], some (.raised .indexError), o)) ∧
    (a + b ≤ G → a ≤ e → wfDrive c X y gs (fuel + 1) o .fresh = ([], some (.raised .valueError), o)) := by
  have hi := wfInit_int hc
  have hbase := baseSplit_accepted h.rows h.yok h.gok h.sorted
  have hst := wfStart_gapless hi h.fits h.sorted h.gapless hG ha hb
  have hu := h.fits.pos
  constructor
  · intro hlt
    rw [if_neg (by omega)] at hst
    rw [wfDrive]
    simp only [wfNext, wfBegin, hbase, groupsOrArange_eq, hst]
  · intro hle hae
    rw [if_pos hle] at hst
    have hsp := (wfSplit_gapless (k := 0) hi h.fits h.len h.sorted h.gapless ha hb (by omega)).2 hae (Or.inr rfl)
    have hen : wfEnter c n (groupsInForce n gs) (wfVars g0 u a b G (st == .rolling) 0) =
        (.raised .valueError, .done) := by
      unfold wfEnter
      rw [(groupLast_ok h.fits.positional h.sorted _).mpr (gapless_last hG h.gapless)]
      simp only
      rw [if_pos, hsp]
      simp only [wfVars]
      have := Nat.mul_lt_mul_of_pos_right (show a - 1 + 0 * b < G - 1 by omega) hu
      omega
    rw [wfDrive]
    simp only [wfNext, wfBegin, hbase, groupsOrArange_eq, hst, hen]

/-- Non-vacuity of C12/C13: ten days, windows 3 and 3, embargo 1, expanding, business labels repeated. -/
example : wfInit (.ok (.int 1)) (.ok (.int 0)) (.int 3) (.int 3) .expanding (some 5) =
      .ok ⟨.td 5, .int 0, .td 15, .td 15, false, some 5⟩ ∧
    (wfDrive ⟨.td 5, .int 0, .td 15, .td 15, false, some 5⟩ (.dataFrame 9) .none
      (some (.arr ⟨.dtIndex, [100, 100, 105, 110, 115, 115, 120, 125, 130]⟩)) 5 .init .fresh) =
      ([([0, 1, 2], [4, 5, 6, 7]), ([0, 1, 2, 3, 4, 5, 6], [8])], some .stopped, ⟨2, true⟩) := by
  decide

example : GaplessCall (.ndarray 4) .none (some (.arr ⟨.ndarray, [3, 4, 4, 5]⟩)) none 4 3 1 3 := by
  refine ⟨rfl, by decide, by decide, by decide, by decide, Or.inl ⟨rfl, rfl, rfl⟩, ?_⟩
  intro x
  simp only [groupsInForce, List.mem_cons, List.not_mem_nil, or_false]
  constructor
  · rintro (rfl | rfl | rfl | rfl)
    exacts [⟨0, by omega, rfl⟩, ⟨1, by omega, rfl⟩, ⟨1, by omega, rfl⟩, ⟨2, by omega, rfl⟩]
  · rintro ⟨k, hk, rfl⟩
    omega

/-- Every yielded split of a gapless call, whether or not the generator is driven to its end. -/
theorem walk_gapless_yield (hc : wfInit (.ok (.int e)) np (.int a) (.int b) st fr = .ok c)
    (h : GaplessCall X y gs fr n g0 u G) (ha : 1 ≤ a) (hb : 1 ≤ b) {o : WFObj} {fuel : Nat} {s : TrainTest}
    (hs : s ∈ (wfDrive c X y gs fuel o .fresh).1) :
    e < a ∧ ∃ k, a + k * b < G ∧
      IsWFSplit (groupsInForce n gs).vals n g0 u a b e (st == .rolling) k s := by
  have hi := wfInit_int hc
  have hu := h.fits.pos
  obtain ⟨fuel, rfl⟩ : ∃ f, fuel = f + 1 := by
    cases fuel with
    | zero => simp [wfDrive] at hs
    | succ f => exact ⟨f, rfl⟩
  have hG : 0 < G := by
    by_contra hcon
    have : G = 0 := by omega
    subst this
    have hnil : (groupsInForce n gs).vals = [] := by
      rw [List.eq_nil_iff_forall_not_mem]
      intro x hx
      obtain ⟨k, hk, -⟩ := (h.gapless x).mp hx
      omega
    rw [wfDrive] at hs
    have hst : wfStart c (groupsOrArange n gs) = .error .indexError := by
      unfold wfStart
      rw [groupsOrArange_eq, groupAt_positional h.fits.positional, hnil]
      rfl
    simp [wfNext, wfBegin, baseSplit_accepted h.rows h.yok h.gok h.sorted, hst] at hs
  have herr := walk_gapless_errors hc h hG ha hb o fuel
  have hab : a + b ≤ G := by
    by_contra hcon
    rw [herr.1 (by omega)] at hs
    simp at hs
  have hea : e < a := by
    by_contra hcon
    rw [herr.2 hab (by omega)] at hs
    simp at hs
  refine ⟨hea, ?_⟩
  obtain ⟨n', v, hn', -, ⟨k, hk, rfl⟩, hsp⟩ := wfDrive_inv (c := c) (y := y)
    (fun v => ∃ k, a + k * b < G ∧ v = wfVars g0 u a b G (st == .rolling) k)
    (by
      intro n' v hn' _ hv
      rw [h.rows] at hn'; cases hn'
      rw [groupsOrArange_eq, wfStart_gapless hi h.fits h.sorted h.gapless hG ha hb, if_pos hab] at hv
      cases hv
      exact ⟨0, by omega, rfl⟩)
    (by
      rintro n' v v' hn' _ ⟨k, hk, rfl⟩ hv
      rw [h.rows] at hn'; cases hn'
      rw [groupsOrArange_eq] at hv
      by_cases hk1 : a + (k + 1) * b < G
      · rw [wfAdvance_gapless hi h.fits h.sorted h.gapless hb hk1 ha] at hv
        cases hv
        exact ⟨k + 1, hk1, rfl⟩
      · exfalso
        unfold wfAdvance at hv
        rw [hi.test, hi.freq, windowAmount_fits h.fits] at hv
        simp only [bind, Except.bind] at hv
        have e2 : (wfVars g0 u a b G (st == .rolling) k).testStart + ((b * u : Nat) : Int) =
            g0 + (((a + (k + 1) * b) * u : Nat) : Int) := by
          simp only [wfVars]; push_cast; ring
        rw [e2, groupAt_left_err h.fits.positional (gapless_beyond hu h.gapless (by omega))] at hv
        cases hte : groupAt (groupsInForce n gs) (searchLeft (groupsInForce n gs).vals
          ((wfVars g0 u a b G (st == .rolling) k).trainEnd + ((b * u : Nat) : Int))) <;>
          rw [hte] at hv <;> simp at hv) hs
  rw [h.rows] at hn'; cases hn'
  obtain ⟨s', hs', hsp'⟩ := (wfSplit_gapless hi h.fits h.len h.sorted h.gapless ha hb hk).1 hea
  rw [groupsOrArange_eq, hs'] at hsp
  cases hsp
  exact ⟨k, hk, hsp'⟩

/-- C10, C11. On gapless groups every training label lies before every test label, by more than the
embargo; both sets are non-empty. -/
theorem walk_train_before_test (hc : wfInit (.ok (.int e)) np (.int a) (.int b) st fr = .ok c)
    (h : GaplessCall X y gs fr n g0 u G) (ha : 1 ≤ a) (hb : 1 ≤ b) {o : WFObj} {fuel : Nat} {s : TrainTest}
    (hs : s ∈ (wfDrive c X y gs fuel o .fresh).1) :
    s.1 ≠ [] ∧ s.2 ≠ [] ∧ ∀ i ∈ s.1, ∀ j ∈ s.2,
      label (groupsInForce n gs).vals i < label (groupsInForce n gs).vals j - u * e := by
  have hu := h.fits.pos
  obtain ⟨hea, k, hk, -, -, htr, hte⟩ := walk_gapless_yield hc h ha hb hs
  refine ⟨?_, ?_, ?_⟩
  · obtain ⟨i, hi, hl⟩ := exists_label ((h.gapless _).mpr
      ⟨if st == .rolling then k * b else 0, by split <;> omega, rfl⟩)
    apply List.ne_nil_of_mem (a := i)
    rw [htr]
    refine ⟨by rw [← h.len]; exact hi, ?_, ?_⟩
    · rw [hl]; push_cast; split <;> linarith [mul_comm (u : Int) (k * b)]
    · rw [hl]
      have h2 : (((if st == .rolling then k * b else 0 : Nat)) : Int) < (a : Int) + k * b - e := by
        have h1 : (if st == .rolling then k * b else 0 : Nat) + e < a + k * b := by split <;> omega
        have : (((if st == .rolling then k * b else 0 : Nat) + e : Nat) : Int) < ((a + k * b : Nat) : Int) := by
          exact_mod_cast h1
        push_cast at this ⊢
        linarith
      have h3 := mul_lt_mul_of_pos_left h2 (show (0 : Int) < u by exact_mod_cast hu)
      rw [Nat.cast_mul]
      linarith [mul_comm (u : Int) (if st == .rolling then k * b else 0 : Nat)]
  · obtain ⟨i, hi, hl⟩ := exists_label ((h.gapless _).mpr ⟨a + k * b, hk, rfl⟩)
    apply List.ne_nil_of_mem (a := i)
    rw [hte]
    refine ⟨by rw [← h.len]; exact hi, ?_, ?_⟩
    · rw [hl]; push_cast; linarith [mul_comm (u : Int) (a + k * b)]
    · rw [hl]
      have : (0 : Int) < (u : Int) * b := by positivity
      push_cast
      nlinarith
  · intro i hi j hj
    have h1 := ((htr i).mp hi).2.2
    have h2 := ((hte j).mp hj).2.1
    have : (u : Int) * ((a : Int) + k * b - e) = u * (a + k * b) - u * e := by ring
    linarith

/-- C12. On gapless groups, when `a + b ≤ G` and `e < a`: every sample after the first training window is
in exactly one test set of the exhausted generator, no sample of that window is in any, and test labels
increase from split to split. -/
theorem walk_tests_partition_tail (hc : wfInit (.ok (.int e)) np (.int a) (.int b) st fr = .ok c)
    (h : GaplessCall X y gs fr n g0 u G) (ha : 1 ≤ a) (hb : 1 ≤ b) {o o' : WFObj} {fuel : Nat}
    {l : List TrainTest} (hl : wfDrive c X y gs fuel o .fresh = (l, some .stopped, o')) :
    (∀ i < n, g0 + u * a ≤ label (groupsInForce n gs).vals i → ∃! k : Nat, ∃ s : TrainTest, l[k]? = some s ∧ i ∈ s.2) ∧
    (∀ s ∈ l, ∀ i ∈ s.2, i < n ∧ g0 + u * a ≤ label (groupsInForce n gs).vals i) ∧
    (∀ (k k' : Nat) (s s' : TrainTest), k < k' → l[k]? = some s → l[k']? = some s' → ∀ i ∈ s.2, ∀ j ∈ s'.2,
      label (groupsInForce n gs).vals i < label (groupsInForce n gs).vals j) := by
  have hu := h.fits.pos
  obtain ⟨fuel, rfl⟩ : ∃ f, fuel = f + 1 := by
    cases fuel with
    | zero => simp [wfDrive] at hl
    | succ f => exact ⟨f, rfl⟩
  have hG : 0 < G := by
    by_contra hcon
    have : G = 0 := by omega
    subst this
    have hnil : (groupsInForce n gs).vals = [] := by
      rw [List.eq_nil_iff_forall_not_mem]
      intro x hx
      obtain ⟨k, hk, -⟩ := (h.gapless x).mp hx
      omega
    rw [wfDrive] at hl
    have hst : wfStart c (groupsOrArange n gs) = .error .indexError := by
      unfold wfStart
      rw [groupsOrArange_eq, groupAt_positional h.fits.positional, hnil]
      rfl
    simp [wfNext, wfBegin, baseSplit_accepted h.rows h.yok h.gok h.sorted, hst] at hl
  have herr := walk_gapless_errors hc h hG ha hb o fuel
  have hab : a + b ≤ G := by
    by_contra hcon
    rw [herr.1 (by omega)] at hl
    simp at hl
  have hea : e < a := by
    by_contra hcon
    rw [herr.2 hab (by omega)] at hl
    simp at hl
  -- the same run with enough fuel
  have hfuel : (G - a + b - 1) / b < fuel + 1 := by
    by_contra hcon
    obtain ⟨l', h1, h2, -⟩ := walk_gapless_run hc h ha hb hab hea o (Nat.lt_succ_self _)
    exact absurd hl (wfDrive_short (by omega) h1 (by rw [h2]; omega))
  obtain ⟨l', h1, h2, h3⟩ := walk_gapless_run hc h ha hb hab hea o hfuel
  rw [h1] at hl
  cases hl
  have hspec : ∀ {k s}, l[k]? = some s → ∀ i, i ∈ s.2 ↔ InWFTest (groupsInForce n gs).vals n g0 u a b k i :=
    fun hk => (h3 _ _ hk).2.2.2
  have hcast : ∀ k : Nat, (u : Int) * ((a : Int) + (k : Int) * b) = ((u * (a + k * b) : Nat) : Int) := by
    intro k; push_cast; ring
  have hcast' : ∀ k : Nat, (u : Int) * ((a : Int) + ((k : Int) + 1) * b) = ((u * (a + (k + 1) * b) : Nat) : Int) := by
    intro k; push_cast; ring
  have horder : ∀ {k k' : Nat} {s s' : TrainTest}, k < k' → l[k]? = some s → l[k']? = some s' → ∀ i ∈ s.2, ∀ j ∈ s'.2,
      label (groupsInForce n gs).vals i < label (groupsInForce n gs).vals j := by
    intro k k' s s' hkk hk hk' i hi j hj
    have q1 := ((hspec hk i).mp hi).2.2
    have q2 := ((hspec hk' j).mp hj).2.1
    rw [hcast'] at q1; rw [hcast] at q2
    have : u * (a + (k + 1) * b) ≤ u * (a + k' * b) :=
      Nat.mul_le_mul_left _ (Nat.add_le_add_left (Nat.mul_le_mul_right _ (by omega)) _)
    omega
  refine ⟨?_, ?_, fun k k' s s' h1 h2 h3 => horder h1 h2 h3⟩
  · intro i hi hlab
    obtain ⟨j, hj, hjl⟩ := label_gapless h.gapless (i := i) (by rw [h.len]; exact hi)
    have haj : a ≤ j := by
      rw [hjl] at hlab
      have : u * a ≤ j * u := by
        have h' : ((u * a : Nat) : Int) ≤ ((j * u : Nat) : Int) := by push_cast at hlab ⊢; linarith
        exact_mod_cast h'
      rw [mul_comm] at this
      exact (mul_u_le hu).mp this
    have hkl : (j - a) / b < l.length := by
      rw [h2, Nat.div_lt_iff_lt_mul (by omega)]
      have := Nat.div_add_mod (G - a + b - 1) b
      have hm := Nat.mod_lt (G - a + b - 1) (show b > 0 by omega)
      rw [mul_comm]
      omega
    refine ⟨(j - a) / b, ⟨l[(j - a) / b], List.getElem?_eq_getElem hkl, ?_⟩, ?_⟩
    · rw [hspec (List.getElem?_eq_getElem hkl)]
      have hd := Nat.div_add_mod (j - a) b
      have hm := Nat.mod_lt (j - a) (show b > 0 by omega)
      have hmul : ((j - a) / b + 1) * b = b * ((j - a) / b) + b := by ring
      have hmul' : ((j - a) / b) * b = b * ((j - a) / b) := by ring
      refine ⟨hi, ?_, ?_⟩
      · rw [hcast, hjl]
        have : u * (a + (j - a) / b * b) ≤ j * u := by
          rw [mul_comm]; exact Nat.mul_le_mul_right _ (by omega)
        omega
      · rw [hcast', hjl]
        have : j * u < u * (a + ((j - a) / b + 1) * b) := by
          rw [mul_comm u]; exact Nat.mul_lt_mul_of_pos_right (by omega) hu
        omega
    · rintro k' ⟨s', hs', his'⟩
      rcases Nat.lt_trichotomy k' ((j - a) / b) with hlt | heq | hgt
      · exfalso
        have q := ((hspec hs' i).mp his').2.2
        rw [hcast', hjl] at q
        have q' : j * u < u * (a + (k' + 1) * b) := by omega
        rw [mul_comm u] at q'
        have := Nat.lt_of_mul_lt_mul_right q'
        have : (k' + 1) * b ≤ (j - a) / b * b := Nat.mul_le_mul_right _ (by omega)
        have := Nat.div_mul_le_self (j - a) b
        omega
      · exact heq
      · exfalso
        have q := ((hspec hs' i).mp his').2.1
        rw [hcast, hjl] at q
        have q' : u * (a + k' * b) ≤ j * u := by omega
        rw [mul_comm u] at q'
        have := (mul_u_le hu).mp q'
        have h1 : ((j - a) / b + 1) * b ≤ k' * b := Nat.mul_le_mul_right _ (by omega)
        have hd := Nat.div_add_mod (j - a) b
        have hm := Nat.mod_lt (j - a) (show b > 0 by omega)
        have hmul : ((j - a) / b + 1) * b = b * ((j - a) / b) + b := by ring
        omega
  · intro s hs i hi
    obtain ⟨k, hk⟩ := List.mem_iff_getElem?.mp hs
    obtain ⟨q0, q1, -⟩ := (hspec hk i).mp hi
    refine ⟨q0, ?_⟩
    have : (0 : Int) ≤ (u : Int) * ((k : Int) * b) := by positivity
    nlinarith

/-- C14. On gapless groups without embargo an expanding training set contains the previous one, and a
rolling training set is the previous one moved by the test window. -/
theorem walk_windows (hc : wfInit (.ok (.int 0)) np (.int a) (.int b) st fr = .ok c)
    (h : GaplessCall X y gs fr n g0 u G) (ha : 1 ≤ a) (hb : 1 ≤ b) (hab : a + b ≤ G) (o : WFObj)
    {fuel : Nat} (hfuel : (G - a + b - 1) / b < fuel) {k : Nat} {s s' : TrainTest}
    (hk : (wfDrive c X y gs fuel o .fresh).1[k]? = some s)
    (hk' : (wfDrive c X y gs fuel o .fresh).1[k + 1]? = some s') :
    (st = .expanding → (∀ i ∈ s.1, i ∈ s'.1) ∧ (∀ i ∈ s.2, i ∈ s'.1)) ∧
    (st = .rolling → ∀ i < n, i ∈ s'.1 ↔
      g0 + u * ((k + 1) * b) ≤ label (groupsInForce n gs).vals i ∧
      label (groupsInForce n gs).vals i < g0 + u * ((k + 1) * b + a)) := by
  obtain ⟨l, h1, h2, h3⟩ := walk_gapless_run (e := 0) hc h ha hb hab (by omega) o hfuel
  rw [h1] at hk hk'
  obtain ⟨-, -, htr, hte⟩ := h3 k s hk
  obtain ⟨-, -, htr', -⟩ := h3 (k + 1) s' hk'
  have hub : (0 : Int) ≤ (u : Int) * b := by positivity
  constructor
  · rintro rfl
    constructor
    · intro i hi
      obtain ⟨q1, q2, q3⟩ := (htr i).mp hi
      rw [htr']
      refine ⟨q1, by simpa using q2, ?_⟩
      push_cast at q3 ⊢
      nlinarith
    · intro i hi
      obtain ⟨q1, q2, q3⟩ := (hte i).mp hi
      rw [htr']
      have : (0 : Int) ≤ (u : Int) * (a + k * b) := by positivity
      refine ⟨q1, by simp; linarith, ?_⟩
      push_cast at q3 ⊢
      linarith
  · rintro rfl i hi
    rw [htr']
    unfold InWFTrain
    simp only [beq_self_eq_true, if_true]
    push_cast
    constructor
    · rintro ⟨-, q2, q3⟩
      exact ⟨q2, by linarith [mul_comm (u : Int) a, (by ring : (u : Int) * (a + (k + 1) * b - 0) = u * ((k + 1) * b + a))]⟩
    · rintro ⟨q2, q3⟩
      exact ⟨hi, q2, by linarith [(by ring : (u : Int) * (a + (k + 1) * b - 0) = u * ((k + 1) * b + a))]⟩

/-- Non-vacuity of C14: a rolling run of three splits. -/
example : (wfDrive ⟨.int 0, .int 0, .int 3, .int 2, true, none⟩ (.ndarray 8) .none none 9 .init .fresh).1 =
    [([0, 1, 2], [3, 4]), ([2, 3, 4], [5, 6]), ([4, 5, 6], [7])] := by
  decide

/-! ### Groups with gaps -/

/-- C10, C11 (any groups, any windows). In every yielded split no training label exceeds a test label,
and with a positive embargo (`k` label units) a training label within `k` of the first test label must be
equal to it. So a leak is confined to the first test label. -/
theorem walk_weak_order {c : WFCfg} {o : WFObj} {fuel : Nat} {s : TrainTest}
    (hs : s ∈ (wfDrive c X y gs fuel o .fresh).1) :
    ∃ n, X.rows = some n ∧ s.1.Pairwise (· < ·) ∧ s.2.Pairwise (· < ·) ∧ (∀ i ∈ s.1 ++ s.2, i < n) ∧
      (∀ i ∈ s.1, ∀ j ∈ s.2, label (groupsInForce n gs).vals i ≤ label (groupsInForce n gs).vals j) ∧
      (c.nEmbargo.pos = true → s.1 ≠ [] ∧
        ∃ k, deltaAmount (groupsInForce n gs).kind c.nEmbargo = .ok k ∧ ∀ i ∈ s.1, ∀ m,
          IsLeast (labelsOf (groupsInForce n gs).vals s.2) m →
          label (groupsInForce n gs).vals i < m - k ∨ label (groupsInForce n gs).vals i = m) := by
  by_cases hpos : ∀ n, X.rows = some n → (groupsInForce n gs).kind.positional = true
  · obtain ⟨n, v, hn, hbase, hP, hsp⟩ := wfDrive_inv (c := c) (y := y)
      (fun v => v.trainEnd ≤ v.testStart)
      (by
        intro n v hn hb hv
        have hsort := baseSplit_sorted hb
        have hp := hpos n hn
        rw [groupsOrArange_eq] at hv hsort
        unfold wfStart at hv
        obtain ⟨s0, _, hv⟩ := bind_ok_inv hv
        obtain ⟨a', _, hv⟩ := bind_ok_inv hv
        obtain ⟨te, hte, hv⟩ := bind_ok_inv hv
        obtain ⟨ts, hts, hv⟩ := bind_ok_inv hv
        obtain ⟨b', _, hv⟩ := bind_ok_inv hv
        obtain ⟨tn, _, hv⟩ := bind_ok_inv hv
        cases hv
        rw [groupAt_left hp hsort] at hte
        rw [groupAt_right hp hsort] at hts
        exact hte.2 ⟨hts.1.1, le_of_lt hts.1.2⟩)
      (by
        intro n v v' hn hb hP hv
        have hsort := baseSplit_sorted hb
        have hp := hpos n hn
        rw [groupsOrArange_eq] at hv hsort
        unfold wfAdvance at hv
        obtain ⟨b', _, hv⟩ := bind_ok_inv hv
        obtain ⟨te, hte, hv⟩ := bind_ok_inv hv
        obtain ⟨ts, hts, hv⟩ := bind_ok_inv hv
        obtain ⟨la, _, hv⟩ := bind_ok_inv hv
        obtain ⟨tn, _, hv⟩ := bind_ok_inv hv
        cases hv
        rw [groupAt_left hp hsort] at hte hts
        have := hts.1.2
        exact hte.2 ⟨hts.1.1, by simp only; omega⟩) hs
    rw [groupsOrArange_eq] at hsp
    obtain ⟨hlen, h1, h2, h3, h4, h5⟩ := wfSplit_inv hsp
    have htrain : ∀ i ∈ s.1, i < n ∧ label (groupsInForce n gs).vals i ≤ v.trainEnd := by
      intro i hi
      cases hpe : c.nEmbargo.pos with
      | false => exact ⟨((h4 hpe i).mp hi).1, ((h4 hpe i).mp hi).2.2⟩
      | true =>
        obtain ⟨-, k, -, -, h⟩ := h5 hpe
        exact ⟨((h i).mp hi).1.1, ((h i).mp hi).1.2.2⟩
    have hord : ∀ i ∈ s.1, ∀ j ∈ s.2,
        label (groupsInForce n gs).vals i ≤ label (groupsInForce n gs).vals j := fun i hi j hj =>
      le_trans (htrain i hi).2 (le_trans hP ((h3 j).mp hj).2.1)
    refine ⟨n, hn, h1, h2, ?_, hord, ?_⟩
    · intro i hi
      rcases List.mem_append.mp hi with hi | hi
      · exact (htrain i hi).1
      · exact ((h3 i).mp hi).1
    · intro hpe
      obtain ⟨hne, k, hk, -, h⟩ := h5 hpe
      refine ⟨hne, k, hk, fun i hi m hm => ?_⟩
      have hnot := ((h i).mp hi).2
      obtain ⟨j, hj, hjm⟩ := hm.1
      have hle := hord i hi j hj
      rw [← hjm] at hle
      by_contra hcon
      push Not at hcon
      exact hnot ⟨m, hm, hcon.1, lt_of_le_of_ne hle hcon.2⟩
  · -- `Series` groups never yield
    exfalso
    push Not at hpos
    obtain ⟨n, hn, hk⟩ := hpos
    obtain ⟨n', v, hn', hbase, -, hsp⟩ := wfDrive_inv (c := c) (y := y) (fun _ => True)
      (fun _ _ _ _ _ => trivial) (fun _ _ _ _ _ _ _ => trivial) hs
    have hlast : groupLast (groupsOrArange n gs) = .error .keyError := by
      rw [groupsOrArange_eq]
      unfold groupLast
      cases hkk : (groupsInForce n gs).kind <;> rw [hkk] at hk <;> simp [GKind.positional] at hk ⊢
    rw [hn] at hn'; cases hn'
    obtain ⟨fuel, rfl⟩ : ∃ f, fuel = f + 1 := by
      cases fuel with
      | zero => simp [wfDrive] at hs
      | succ f => exact ⟨f, rfl⟩
    rw [wfDrive] at hs
    simp only [wfNext, wfBegin, hbase] at hs
    cases hst : wfStart c (groupsOrArange n gs) with
    | error e => simp [hst] at hs
    | ok v' => simp [hst, wfEnter, hlast] at hs

/-- C10, exact condition for the first split: with integer `ndarray` groups and no embargo, train and
test of the first yielded split are label-disjoint iff the last label of the nominal training window,
`g₀ + a - 1`, occurs. -/
theorem walk_first_split_disjoint_iff {c : WFCfg} {g : GArr} {a b : Int} {n : Nat}
    (hnd : g.kind = .ndarray) (hfr : c.freq = none) (htw : c.trainWindow = .int a)
    (hsw : c.testWindow = .int b) (hb1 : 1 ≤ b) (he : c.nEmbargo.pos = false)
    (hX : X.rows = some n) {o : WFObj} {fuel : Nat} {s : TrainTest}
    (hs : (wfDrive c X y (some (.arr g)) fuel o .fresh).1[0]? = some s) :
    (∀ i ∈ s.1, ∀ j ∈ s.2, label g.vals i < label g.vals j) ↔ label g.vals 0 + a - 1 ∈ g.vals := by
  have hpos : g.kind.positional = true := by rw [hnd]; rfl
  obtain ⟨fuel, rfl⟩ : ∃ f, fuel = f + 1 := by
    cases fuel with
    | zero => simp [wfDrive] at hs
    | succ f => exact ⟨f, rfl⟩
  rw [wfDrive] at hs
  simp only [wfNext, wfBegin] at hs
  cases hbase : baseSplit X y (some (.arr g)) with
  | error e => simp [hbase] at hs
  | ok n' =>
    have hrows := (baseSplit_ok hbase).1
    rw [hX] at hrows; cases hrows
    have hsort : g.vals.Pairwise (· ≤ ·) := baseSplit_sorted hbase
    simp only [hbase, groupsOrArange] at hs
    cases hst : wfStart c g with
    | error e => simp [hst] at hs
    | ok v =>
      simp only [hst] at hs
      cases hl : groupLast g with
      | error e => simp [wfEnter, hl] at hs
      | ok last =>
        by_cases hlt : v.trainEnd < last
        · cases hsp : wfSplit c n g v with
          | error e => simp [wfEnter, hl, hlt, hsp] at hs
          | ok s' =>
            simp only [wfEnter, hl, if_pos hlt, hsp, List.getElem?_cons_zero, Option.some.injEq] at hs
            subst hs
            unfold wfStart at hst
            obtain ⟨s0, hs0, hst⟩ := bind_ok_inv hst
            obtain ⟨a', ha', hst⟩ := bind_ok_inv hst
            obtain ⟨te, hte, hst⟩ := bind_ok_inv hst
            obtain ⟨ts, hts, hst⟩ := bind_ok_inv hst
            obtain ⟨b', hb', hst⟩ := bind_ok_inv hst
            obtain ⟨tn, htn, hst⟩ := bind_ok_inv hst
            cases hst
            rw [htw, hnd, hfr] at ha'
            rw [hsw, hnd, hfr] at hb'
            cases ha'; cases hb'
            have hunit : timeUnit c.freq = 1 := by rw [hfr]; rfl
            rw [hunit] at hte hts htn
            rw [groupAt_left hpos hsort] at hte htn
            rw [groupAt_right hpos hsort] at hts
            have hs0' : s0 = label g.vals 0 := by
              rw [groupAt_positional hpos, pyGet_ok] at hs0
              simp [label, hs0]
            subst hs0'
            obtain ⟨hlen, -, -, h3, h4, -⟩ := wfSplit_inv hsp
            have h4 := h4 he
            simp only at h3 h4 hlt
            have hn0 : 0 < g.vals.length := by
              rcases Nat.eq_zero_or_pos g.vals.length with h | h
              · rw [List.length_eq_zero_iff] at h
                rw [h] at hte; exact absurd hte.1.1 (by simp)
              · exact h
            have h0le : ∀ i < n, label g.vals 0 ≤ label g.vals i := fun i hi =>
              sorted_label hsort (Nat.zero_le _) (by omega)
            obtain ⟨it, hit, hlit⟩ := exists_label hte.1.1
            obtain ⟨is, his, hlis⟩ := exists_label hts.1.1
            have hits : it ∈ s'.1 := (h4 it).mpr ⟨by omega, h0le it (by omega), by omega⟩
            have hiss : is ∈ s'.2 := (h3 is).mpr ⟨by omega, by omega, by rw [hlis]; have := htn.1.2; omega⟩
            constructor
            · intro hdis
              have hlt := hdis it hits is hiss
              rw [hlit, hlis] at hlt
              have hge := hte.1.2
              rcases lt_or_eq_of_le hge with hgt | heq
              · exfalso
                have := hts.2 ⟨hte.1.1, hgt⟩
                omega
              · rw [heq]; exact hte.1.1
            · intro hmem i hi j hj
              have h1 := ((h4 i).mp hi).2.2
              have h2 := ((h3 j).mp hj).2.1
              have h5 := hte.2 ⟨hmem, le_refl _⟩
              have h6 := hts.1.2
              omega
        · simp [wfEnter, hl, hlt] at hs

/-- C10 fails in general: daily data without the weekend, `freq` of one day, a training window of six
days. The Monday (`label 7`, sample 5) is in the training set and in the test set of the first split,
and an embargo of two days does not remove it. -/
theorem walk_business_day_leak :
    (wfDrive ⟨.td 2, .int 0, .td 6, .td 2, false, some 1⟩ (.dataFrame 10) .none
      (some (.arr ⟨.dtIndex, [0, 1, 2, 3, 4, 7, 8, 9, 10, 11]⟩)) 1 .init .fresh).1 =
      [([0, 1, 2, 3, 4, 5], [5, 6])] ∧
    wfInit (.ok (.int 2)) (.ok (.int 0)) (.int 6) (.int 2) .expanding (some 1) =
      .ok ⟨.td 2, .int 0, .td 6, .td 2, false, some 1⟩ := by
  decide

/-- C12 fails in general: with a gap in integer groups two test sets share samples 4 of label 10. -/
theorem walk_gap_tests_overlap :
    (wfDrive ⟨.int 0, .int 0, .int 3, .int 3, true, none⟩ (.ndarray 7) .none
      (some (.arr ⟨.ndarray, [0, 1, 2, 3, 10, 11, 12]⟩)) 9 .init .fresh).1 =
      [([0, 1, 2], [3, 4]), ([3, 4], [4, 5, 6])] := by
  decide

/-- `pd.Series` groups never work: the first `next` raises and nothing is ever yielded, although
`GroupType` lists `pd.Series`. -/
theorem walk_series_always_raises {c : WFCfg} {g : GArr} (hk : g.kind.positional = false)
    (o : WFObj) (fuel : Nat) :
    ∃ err, wfDrive c X y (some (.arr g)) (fuel + 1) o .fresh = ([], some (.raised err), o) := by
  rw [wfDrive]
  simp only [wfNext, wfBegin, groupsOrArange]
  cases baseSplit X y (some (.arr g)) with
  | error e => exact ⟨e, rfl⟩
  | ok n =>
    simp only
    cases wfStart c g with
    | error e => exact ⟨e, rfl⟩
    | ok v =>
      have hlast : groupLast g = .error .keyError := by
        unfold groupLast
        cases hkk : g.kind <;> rw [hkk] at hk <;> simp [GKind.positional] at hk ⊢
      exact ⟨.keyError, by simp [wfEnter, hlast]⟩

/-! ### C16: degenerate windows -/

/-- C16 (default `train_window = 0`). The first split trains on the samples of the first label, and all of
them are also test samples. -/
theorem walk_zero_train_window {c : WFCfg} {g : GArr} {b : Int} {n : Nat}
    (hnd : g.kind = .ndarray) (hfr : c.freq = none) (htw : c.trainWindow = .int 0)
    (hsw : c.testWindow = .int b) (he : c.nEmbargo.pos = false)
    (hX : X.rows = some n) {o : WFObj} {fuel : Nat} {s : TrainTest}
    (hs : (wfDrive c X y (some (.arr g)) fuel o .fresh).1[0]? = some s) :
    s.1 ≠ [] ∧ (∀ i, i ∈ s.1 ↔ i < n ∧ label g.vals i = label g.vals 0) ∧ ∀ i ∈ s.1, i ∈ s.2 := by
  have hpos : g.kind.positional = true := by rw [hnd]; rfl
  obtain ⟨fuel, rfl⟩ : ∃ f, fuel = f + 1 := by
    cases fuel with
    | zero => simp [wfDrive] at hs
    | succ f => exact ⟨f, rfl⟩
  rw [wfDrive] at hs
  simp only [wfNext, wfBegin] at hs
  cases hbase : baseSplit X y (some (.arr g)) with
  | error e => simp [hbase] at hs
  | ok n' =>
    have hrows := (baseSplit_ok hbase).1
    rw [hX] at hrows; cases hrows
    have hsort : g.vals.Pairwise (· ≤ ·) := baseSplit_sorted hbase
    simp only [hbase, groupsOrArange] at hs
    cases hst : wfStart c g with
    | error e => simp [hst] at hs
    | ok v =>
      simp only [hst] at hs
      cases hl : groupLast g with
      | error e => simp [wfEnter, hl] at hs
      | ok last =>
        by_cases hlt : v.trainEnd < last
        · cases hsp : wfSplit c n g v with
          | error e => simp [wfEnter, hl, hlt, hsp] at hs
          | ok s' =>
            simp only [wfEnter, hl, if_pos hlt, hsp, List.getElem?_cons_zero, Option.some.injEq] at hs
            subst hs
            unfold wfStart at hst
            obtain ⟨s0, hs0, hst⟩ := bind_ok_inv hst
            obtain ⟨a', ha', hst⟩ := bind_ok_inv hst
            obtain ⟨te, hte, hst⟩ := bind_ok_inv hst
            obtain ⟨ts, hts, hst⟩ := bind_ok_inv hst
            obtain ⟨b', hb', hst⟩ := bind_ok_inv hst
            obtain ⟨tn, htn, hst⟩ := bind_ok_inv hst
            cases hst
            rw [htw, hnd, hfr] at ha'
            rw [hsw, hnd, hfr] at hb'
            cases ha'; cases hb'
            have hunit : timeUnit c.freq = 1 := by rw [hfr]; rfl
            rw [hunit] at hte hts htn
            rw [groupAt_left hpos hsort] at hte htn
            rw [groupAt_right hpos hsort] at hts
            have hs0' : s0 = label g.vals 0 ∧ label g.vals 0 ∈ g.vals := by
              rw [groupAt_positional hpos, pyGet_ok] at hs0
              exact ⟨by simp [label, hs0], by simpa [label, hs0] using List.mem_of_getElem? hs0⟩
            obtain ⟨rfl, h0m⟩ := hs0'
            obtain ⟨hlen, -, -, h3, h4, -⟩ := wfSplit_inv hsp
            have h4 := h4 he
            simp only at h3 h4
            have h0le : ∀ x ∈ g.vals, label g.vals 0 ≤ x := by
              intro x hx
              obtain ⟨i, hi, rfl⟩ := exists_label hx
              exact sorted_label hsort (Nat.zero_le _) hi
            have ete : te = label g.vals 0 :=
              le_antisymm (hte.2 ⟨h0m, by omega⟩) (h0le te hte.1.1)
            have ets : ts = label g.vals 0 :=
              le_antisymm (hts.2 ⟨h0m, by omega⟩) (h0le ts hts.1.1)
            have htn0 : label g.vals 0 ≤ tn := h0le tn htn.1.1
            subst ete
            have hmem : ∀ i, i ∈ s'.1 ↔ i < n ∧ label g.vals i = label g.vals 0 := by
              intro i
              rw [h4]
              constructor
              · rintro ⟨q1, q2, q3⟩; exact ⟨q1, le_antisymm q3 q2⟩
              · rintro ⟨q1, q2⟩; exact ⟨q1, by omega, by omega⟩
            obtain ⟨i0, hi0, hli0⟩ := exists_label h0m
            refine ⟨List.ne_nil_of_mem ((hmem i0).mpr ⟨by omega, hli0⟩), hmem, fun i hi => ?_⟩
            obtain ⟨q1, q2⟩ := (hmem i).mp hi
            rw [h3]
            exact ⟨q1, by omega, by omega⟩
        · simp [wfEnter, hl, hlt] at hs

/-- C16 (`test_window = 0`). On gapless groups with `1 ≤ a < G` and no embargo the generator never ends:
after any number `m` of `next` calls it has yielded `m` splits, all with the same training set and an
empty test set. -/
theorem walk_zero_test_window_diverges
    (hc : wfInit (.ok (.int 0)) np (.int a) (.int (0 : Nat)) st fr = .ok c)
    (h : GaplessCall X y gs fr n g0 u G) (ha : 1 ≤ a) (haG : a < G) (o : WFObj) (m : Nat) :
    ∃ l o', wfDrive c X y gs m o .fresh = (l, none, o') ∧ l.length = m ∧
      ∀ s ∈ l, s.2 = [] ∧ ∀ i, i ∈ s.1 ↔ i < n ∧ label (groupsInForce n gs).vals i < g0 + u * a := by
  have hi := wfInit_int (e := 0) hc
  have hu := h.fits.pos
  have hpos := h.fits.positional
  have hG : 0 < G := by omega
  have hx : xRows X = n := by
    have := h.rows
    cases X <;> simp [XArg.rows] at this <;> simpa [xRows] using this
  have hbase := baseSplit_accepted h.rows h.yok h.gok h.sorted
  set g := groupsInForce n gs with hgdef
  set v : LoopVars := ⟨g0, g0 + ((a - 1) * u : Nat), g0 + (a * u : Nat), g0 + ((a - 1) * u : Nat)⟩ with hv
  have hau : a * u = (a - 1) * u + u := by
    conv => lhs; rw [show a = (a - 1) + 1 by omega]
    ring
  have hw0 : windowAmount g.kind c.freq c.testWindow = .ok 0 := by
    rw [hi.test, hi.freq, windowAmount_fits h.fits]; simp
  have h0 : groupAt g 0 = .ok g0 := by
    have hz : searchLeft g.vals g0 = 0 := by
      cases hvv : g.vals with
      | nil => rfl
      | cons x l =>
        rw [searchLeft_cons, if_neg]
        obtain ⟨j, -, hj⟩ := (h.gapless x).mp (by rw [hvv]; simp)
        omega
    have := (groupAt_left hpos h.sorted g0 g0).mpr (by
      have := gapless_least hu h.gapless (k := 0) hG
      simpa using this)
    rwa [hz] at this
  have hst : wfStart c g = .ok v := by
    unfold wfStart
    rw [h0, hw0, hi.train, hi.freq, windowAmount_fits h.fits, timeUnit_fits h.fits]
    simp only [bind, Except.bind]
    have e1 : g0 + ((a * u : Nat) : Int) - (u : Int) = g0 + (((a - 1) * u : Nat) : Int) := by omega
    have hab := gapless_above hu h.gapless (k := a - 1) (by omega)
    rw [show a - 1 + 1 = a by omega] at hab
    rw [e1, (groupAt_left hpos h.sorted _ _).mpr (gapless_least hu h.gapless (by omega)),
      (groupAt_right hpos h.sorted _ _).mpr hab]
    simp only
    have e2 : g0 + ((a * u : Nat) : Int) + 0 - (u : Int) = g0 + (((a - 1) * u : Nat) : Int) := by omega
    rw [e2, (groupAt_left hpos h.sorted _ _).mpr (gapless_least hu h.gapless (by omega))]
  have hlast := (groupLast_ok hpos h.sorted _).mpr (gapless_last hG h.gapless)
  have hlt : (a - 1) * u < (G - 1) * u := Nat.mul_lt_mul_of_pos_right (by omega) hu
  have hadv : wfAdvance c g v = .ok v := by
    unfold wfAdvance
    rw [hw0]
    simp only [bind, Except.bind, hv, Int.add_zero, hlast, ite_self]
    rw [(groupAt_left hpos h.sorted _ _).mpr (gapless_least hu h.gapless (by omega)),
      (groupAt_left hpos h.sorted _ _).mpr (gapless_least hu h.gapless haG)]
    simp only
    rw [min_eq_left (by omega), (groupAt_left hpos h.sorted _ _).mpr (gapless_least hu h.gapless (by omega))]
  have hpe : c.nEmbargo.pos = false := by
    have := (pos_fits hi h.fits h.sorted).1
    cases hp : c.nEmbargo.pos with
    | false => rfl
    | true => exact absurd (this.mp hp) (by omega)
  obtain ⟨s, hsp⟩ : ∃ s, wfSplit c n g v = .ok s := by
    unfold wfSplit
    dsimp only
    obtain ⟨tr, h1, -⟩ := npMask_range h.len (fun x => decide (v.trainStart ≤ x) && decide (x ≤ v.trainEnd))
    obtain ⟨te, k1, -⟩ := npMask_range h.len (fun x => decide (v.testStart ≤ x) && decide (x ≤ v.testEnd))
    rw [h1, k1, hpe]
    exact ⟨_, rfl⟩
  obtain ⟨hlen, -, -, h3, h4, -⟩ := wfSplit_inv hsp
  have h4 := h4 hpe
  have hs2 : s.2 = [] := by
    rw [List.eq_nil_iff_forall_not_mem]
    intro i hi
    have := ((h3 i).mp hi).2
    simp only [hv] at this
    omega
  have hs1 : ∀ i, i ∈ s.1 ↔ i < n ∧ label g.vals i < g0 + u * a := by
    intro i
    rw [h4]
    refine and_congr_right fun hin => ?_
    obtain ⟨j, hj, hjl⟩ := label_gapless h.gapless (i := i) (by rw [h.len]; exact hin)
    rw [hjl]
    have hc1 : (g0 + (u : Int) * (a : Int)) = g0 + ((a * u : Nat) : Int) := by push_cast; ring
    rw [hc1]
    simp only [hv]
    constructor
    · rintro ⟨_, q⟩; omega
    · intro q
      have : j * u < a * u := by omega
      have := Nat.lt_of_mul_lt_mul_right this
      have := (mul_u_le hu).mpr (show j ≤ a - 1 by omega)
      omega
  have hen : wfEnter c n g v = (.yielded s, .suspended v) := by
    unfold wfEnter
    rw [hlast]
    simp only
    rw [if_pos (by simp only [hv]; omega), hsp]
  have hrest : ∀ m o, ∃ l o', wfDrive c X y gs m o (.suspended v) = (l, none, o') ∧ l.length = m ∧
      ∀ s' ∈ l, s' = s := by
    intro m
    induction m with
    | zero => intro o; exact ⟨[], o, rfl, rfl, by simp⟩
    | succ m ih =>
      intro o
      obtain ⟨l, o', q1, q2, q3⟩ := ih { o with nSplits := o.nSplits + 1 }
      refine ⟨s :: l, o', ?_, by simp [q2], ?_⟩
      · rw [wfDrive]
        simp only [wfNext, wfResume, hx, groupsOrArange_eq, ← hgdef, hlast]
        rw [if_neg (by simp only [hv]; omega), hadv]
        simp only [hen, q1]
      · intro s' hs'
        rcases List.mem_cons.mp hs' with rfl | hs'
        · rfl
        · exact q3 s' hs'
  cases m with
  | zero => exact ⟨[], o, rfl, rfl, by simp⟩
  | succ m =>
    obtain ⟨l, o', q1, q2, q3⟩ := hrest m o
    refine ⟨s :: l, o', ?_, by simp [q2], ?_⟩
    · rw [wfDrive]
      simp only [wfNext, wfBegin, hbase, groupsOrArange_eq, ← hgdef, hst, hen, q1]
    · intro s' hs'
      rcases List.mem_cons.mp hs' with rfl | hs'
      · exact ⟨hs2, hs1⟩
      · rw [q3 s' hs']; exact ⟨hs2, hs1⟩

/-- Non-vacuity of C16. -/
example : (wfDrive ⟨.int 0, .int 0, .int 2, .int 0, false, none⟩ (.ndarray 5) .none none 3 .init .fresh).1 =
      [([0, 1], []), ([0, 1], []), ([0, 1], [])] ∧
    (wfDrive ⟨.int 0, .int 0, .int 0, .int 2, false, none⟩ (.ndarray 4) .none none 3 .init .fresh).1[0]? =
      some ([0], [0, 1]) := by
  decide

end Verif.Split
