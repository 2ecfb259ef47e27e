import Verif.Lemmas.WalkFloat
import Verif.Props.WalkForward
import Verif.Lemmas.Round

/-!
# C121: `WalkForward` with windows that are not whole numbers
-/

namespace Verif.Split

open List Verif.Round

variable {X : XArg} {y : YArg} {gs : Option GroupsArg} {n : Nat} {fl : ℝ → ℝ}

/-! ### Whole numbers -/

/-- The window of the model with integers. -/
noncomputable def Win.toInt : Win → Int
  | .int k => k
  | .flt r => ⌊r⌋

/-- A whole number, as an integer or a float. -/
def Win.Whole : Win → Prop
  | .int _ => True
  | .flt r => ∃ k : Int, r = k

theorem plus_whole (hfl : ∀ k : Int, fl k = k) {w : Win} (hw : w.Whole) (x : Int) : w.plus fl x = ((x + w.toInt : Int) : ℝ) := by
  cases w with
  | int k => simp [Win.plus, Win.toInt]
  | flt r =>
    obtain ⟨k, rfl⟩ := hw
    simp only [Win.plus, Win.toInt, Int.floor_intCast]
    rw [← Int.cast_add, hfl]

theorem less_whole (hfl : ∀ k : Int, fl k = k) (w : Win) (x : Int) : w.lessUnit fl x = ((x - 1 : Int) : ℝ) := by
  cases w with
  | int k => simp [Win.lessUnit]
  | flt r =>
    simp only [Win.lessUnit]
    rw [show (x : ℝ) - 1 = ((x - 1 : Int) : ℝ) by push_cast; ring, hfl]

/-- The generators that correspond to each other. -/
def FGen.ofInt : WFGen → FGen
  | .fresh => .fresh
  | .suspended v => .suspended ⟨v.trainStart, v.trainEnd, v.testStart, v.testEnd⟩
  | .done => .done

/-- The split of variables that are integers is that of the integer model. -/
theorem split_ofInt (c : WFCfgF) (c' : WFCfg) (hc : c'.nEmbargo = c.nEmbargo) (n : Nat) (g : GArr) (v : LoopVars) :
    wfSplitF c n g ⟨v.trainStart, v.trainEnd, v.testStart, v.testEnd⟩ = wfSplit c' n g v := by
  unfold wfSplitF wfSplit
  simp only [Int.cast_le]
  rw [hc]

theorem enter_ofInt (c : WFCfgF) (c' : WFCfg) (hc : c'.nEmbargo = c.nEmbargo) (n : Nat) (g : GArr) (v : LoopVars) :
    wfEnterF c n g ⟨v.trainStart, v.trainEnd, v.testStart, v.testEnd⟩ = ((wfEnter c' n g v).1, .ofInt (wfEnter c' n g v).2) := by
  unfold wfEnterF wfEnter
  cases groupLast g with
  | error e => rfl
  | ok last =>
    dsimp only
    split_ifs
    · rw [split_ofInt c c' hc]
      cases wfSplit c' n g v <;> rfl
    · rfl

/-- Windows that are whole numbers give the splits of integers; arithmetic that is exact on all integers. -/
theorem float_whole_exact (hfl : ∀ k : Int, fl k = k) {c : WFCfgF} (h1 : c.trainWindow.Whole) (h2 : c.testWindow.Whole) (np : Delta) (o : WFObj) (fuel : Nat) :
    wfDriveF fl c X y gs fuel .fresh =
      ((wfDrive ⟨c.nEmbargo, np, .int c.trainWindow.toInt, .int c.testWindow.toInt, c.rolling, none⟩ X y gs fuel o .fresh).1,
        (wfDrive ⟨c.nEmbargo, np, .int c.trainWindow.toInt, .int c.testWindow.toInt, c.rolling, none⟩ X y gs fuel o .fresh).2.1) := by
  classical
  set c' : WFCfg := ⟨c.nEmbargo, np, .int c.trainWindow.toInt, .int c.testWindow.toInt, c.rolling, none⟩ with hc'
  have henter := enter_ofInt c c' rfl
  have hstart : ∀ g : GArr, wfStartF fl c g = (wfStart c' g).map fun v => ⟨v.trainStart, v.trainEnd, v.testStart, v.testEnd⟩ := by
    intro g
    unfold wfStartF wfStart
    cases groupAt g 0 with
    | error e => rfl
    | ok s =>
      simp only [bind, Except.bind]
      have hk : windowAmount g.kind c'.freq c'.trainWindow = (numeric g.kind).map fun _ => c.trainWindow.toInt := by
        rw [hc']
        unfold windowAmount numeric
        cases g.kind <;> rfl
      have hk2 : windowAmount g.kind c'.freq c'.testWindow = (numeric g.kind).map fun _ => c.testWindow.toInt := by
        rw [hc']
        unfold windowAmount numeric
        cases g.kind <;> rfl
      rw [hk, hk2, plus_whole hfl h1, less_whole hfl]
      cases numeric g.kind with
      | error e => rfl
      | ok _ =>
        simp only [Except.map, leftOf_eq, rightOf_eq, Int.ceil_intCast, Int.floor_intCast]
        show _ = _
        have hu : timeUnit c'.freq = 1 := rfl
        rw [hu]
        cases groupAt g (searchLeft g.vals (s + c.trainWindow.toInt - 1)) with
        | error e => rfl
        | ok te =>
          dsimp only
          cases groupAt g (searchRight g.vals (s + c.trainWindow.toInt - 1)) with
          | error e => rfl
          | ok ts =>
            dsimp only
            rw [plus_whole hfl h2, less_whole hfl, Int.ceil_intCast]
            cases groupAt g (searchLeft g.vals (ts + c.testWindow.toInt - 1)) <;> rfl
  have hadv : ∀ (g : GArr) (v : LoopVars), numeric g.kind = .ok () → wfAdvanceF fl c g ⟨v.trainStart, v.trainEnd, v.testStart, v.testEnd⟩ =
      (wfAdvance c' g v).map fun v => ⟨v.trainStart, v.trainEnd, v.testStart, v.testEnd⟩ := by
    intro g v hg
    unfold wfAdvanceF wfAdvance
    have hk2 : windowAmount g.kind c'.freq c'.testWindow = .ok c.testWindow.toInt := by
      rw [hc']
      unfold windowAmount
      unfold numeric at hg
      cases hh : g.kind <;> rw [hh] at hg <;> first | rfl | cases hg
    rw [hk2]
    simp only [bind, Except.bind, plus_whole hfl h2, leftOf_eq, Int.ceil_intCast]
    cases groupAt g (searchLeft g.vals (v.trainEnd + c.testWindow.toInt)) with
    | error e => rfl
    | ok te =>
      dsimp only
      cases groupAt g (searchLeft g.vals (v.testStart + c.testWindow.toInt)) with
      | error e => rfl
      | ok ts =>
        dsimp only
        cases groupLast g with
        | error e => rfl
        | ok last =>
          dsimp only
          rw [← Int.cast_min, Int.ceil_intCast]
          cases groupAt g (searchLeft g.vals (min (v.testEnd + c.testWindow.toInt) last)) with
          | error e => rfl
          | ok tn =>
            simp only [Except.map]
            show Except.ok _ = Except.ok _
            congr 2
            show (if c.rolling then _ else _) = (((if c.rolling then _ else _ : Int)) : ℝ)
            split_ifs <;> rfl
  have rest : ∀ (fuel : Nat) (o : WFObj) (v : LoopVars), numeric (groupsOrArange (xRows X) gs).kind = .ok () →
      wfDriveF fl c X y gs fuel (.ofInt (.suspended v)) = ((wfDrive c' X y gs fuel o (.suspended v)).1, (wfDrive c' X y gs fuel o (.suspended v)).2.1) := by
    intro fuel
    induction fuel with
    | zero => intro o v _; rfl
    | succ fuel ih =>
      intro o v hk
      rw [wfDriveF, wfDrive]
      simp only [FGen.ofInt, wfNextF, wfNext, wfResume]
      cases groupLast (groupsOrArange (xRows X) gs) with
      | error e => rfl
      | ok last =>
        dsimp only
        by_cases hle : last ≤ v.testEnd
        · rw [if_pos hle, if_pos hle]
        · rw [if_neg hle, if_neg hle, hadv _ _ hk]
          cases wfAdvance c' (groupsOrArange (xRows X) gs) v with
          | error e => rfl
          | ok v' =>
            simp only [Except.map]
            rw [henter]
            have hgen : ∀ s, (wfEnter c' (xRows X) (groupsOrArange (xRows X) gs) v').1 = .yielded s →
                (wfEnter c' (xRows X) (groupsOrArange (xRows X) gs) v').2 = .suspended v' := by
              intro s hs
              unfold wfEnter at hs ⊢
              split at hs
              · cases hs
              · split_ifs at hs ⊢
                · split at hs
                  · cases hs
                  · rfl
            cases hres : (wfEnter c' (xRows X) (groupsOrArange (xRows X) gs) v').1 with
            | yielded s =>
              dsimp only
              rw [hgen s hres, ih _ v' hk]
            | stopped => rfl
            | raised e => rfl
  cases fuel with
  | zero => rfl
  | succ fuel =>
    rw [wfDriveF, wfDrive]
    simp only [wfNextF, wfNext, wfBegin]
    cases hb : baseSplit X y gs with
    | error e => rfl
    | ok n =>
      dsimp only
      have hx : xRows X = n := by
        have := (baseSplit_ok hb).1
        cases X <;> simp [XArg.rows] at this <;> simpa [xRows] using this
      rw [hstart]
      cases hs : wfStart c' (groupsOrArange n gs) with
      | error e => rfl
      | ok v =>
        simp only [Except.map]
        rw [henter]
        have hk : numeric (groupsOrArange (xRows X) gs).kind = .ok () := by
          rw [hx]
          unfold wfStart at hs
          obtain ⟨s, -, hs⟩ := bind_ok_inv hs
          obtain ⟨a, ha, -⟩ := bind_ok_inv hs
          unfold windowAmount at ha
          unfold numeric
          rw [hc'] at ha
          cases hh : (groupsOrArange n gs).kind <;> rw [hh] at ha <;> first | rfl | cases ha
        have hgen : ∀ s, (wfEnter c' n (groupsOrArange n gs) v).1 = .yielded s → (wfEnter c' n (groupsOrArange n gs) v).2 = .suspended v := by
          intro s hs
          unfold wfEnter at hs ⊢
          split at hs
          · cases hs
          · split_ifs at hs ⊢
            · split at hs
              · cases hs
              · rfl
        cases hres : (wfEnter c' n (groupsOrArange n gs) v).1 with
        | yielded s =>
          dsimp only
          rw [hgen s hres, rest _ o v hk]
        | stopped => rfl
        | raised e => rfl

/-! ### Other numbers -/

/-- The number. -/
def Win.val : Win → ℝ
  | .int k => k
  | .flt r => r

/-- A sample is in the training and in the test set. -/
def Leaks (s : TrainTest) : Prop := ∃ i ∈ s.1, i ∈ s.2

/-- The end of the first training window as computed: `label + train_window - 1`. -/
noncomputable def firstEnd (fl : ℝ → ℝ) (w : Win) (g0 : Int) : ℝ := w.lessUnit fl (w.plus fl g0)

theorem plus_mono (hfl : Monotone fl) (w : Win) {a b : ℝ} (hab : a ≤ b) : w.plus fl a ≤ w.plus fl b := by
  cases w with
  | int k => exact add_le_add_left hab _
  | flt r => exact hfl (add_le_add_left hab _)

theorem plus_ge (hfl : Monotone fl) (hint : ∀ k : Int, fl k = k) {w : Win} (hw : 1 ≤ w.val) (x : Int) : ((x + 1 : Int) : ℝ) ≤ w.plus fl x := by
  cases w with
  | int k => simp only [Win.plus, Win.val] at hw ⊢; push_cast; linarith
  | flt r =>
    simp only [Win.plus, Win.val] at hw ⊢
    rw [← hint (x + 1)]
    apply hfl
    push_cast; linarith

theorem firstEnd_ge (hfl : Monotone fl) (hint : ∀ k : Int, fl k = k) {w : Win} (hw : 1 ≤ w.val) (x : Int) : (x : ℝ) ≤ firstEnd fl w x := by
  have := plus_ge hfl hint hw x
  push_cast at this
  unfold firstEnd
  cases w with
  | int k => simp only [Win.lessUnit]; linarith
  | flt r =>
    simp only [Win.lessUnit]
    rw [← hint x]
    apply hfl
    rw [hint]
    linarith

theorem drive_positional {c : WFCfgF} (hX : X.rows = some n) {fuel : Nat} {s : TrainTest} (hs : s ∈ (wfDriveF fl c X y gs fuel .fresh).1) :
    (groupsInForce n gs).kind.positional = true := by
  cases fuel with
  | zero => simp [wfDriveF] at hs
  | succ fuel =>
    rw [wfDriveF] at hs
    simp only [wfNextF] at hs
    cases hb : baseSplit X y gs with
    | error e => simp [hb] at hs
    | ok m =>
      have hm := (baseSplit_ok hb).1
      rw [hX] at hm; cases hm
      simp only [hb] at hs
      rw [groupsOrArange_eq] at hs
      cases hst : wfStartF fl c (groupsInForce n gs) with
      | error e => simp [hst] at hs
      | ok v =>
        simp only [hst, wfEnterF, groupLast] at hs
        cases hk : (groupsInForce n gs).kind with
        | ndarray => rfl
        | dtIndex => rfl
        | seriesInt => simp [hk] at hs
        | seriesTime => simp [hk] at hs

theorem start_inv {c : WFCfgF} {g : GArr} {v : FVars} (h : wfStartF fl c g = .ok v) : ∃ s : Int, groupAt g 0 = .ok s ∧ v.trainStart = s ∧
    groupAt g (leftOf g.vals (firstEnd fl c.trainWindow s)) = .ok v.trainEnd ∧
    groupAt g (rightOf g.vals (firstEnd fl c.trainWindow s)) = .ok v.testStart ∧
    groupAt g (leftOf g.vals (firstEnd fl c.testWindow v.testStart)) = .ok v.testEnd := by
  unfold wfStartF at h
  obtain ⟨s, h1, h⟩ := bind_ok_inv h
  obtain ⟨-, -, h⟩ := bind_ok_inv h
  obtain ⟨te, h2, h⟩ := bind_ok_inv h
  obtain ⟨ts, h3, h⟩ := bind_ok_inv h
  obtain ⟨tn, h4, h⟩ := bind_ok_inv h
  cases h
  exact ⟨s, h1, rfl, h2, h3, h4⟩

theorem advance_inv {c : WFCfgF} {g : GArr} {v v' : FVars} (h : wfAdvanceF fl c g v = .ok v') : ∃ last : Int, groupLast g = .ok last ∧
    v'.trainStart = (if c.rolling then c.testWindow.plus fl v.trainStart else v.trainStart) ∧
    groupAt g (leftOf g.vals (c.testWindow.plus fl v.trainEnd)) = .ok v'.trainEnd ∧
    groupAt g (leftOf g.vals (c.testWindow.plus fl v.testStart)) = .ok v'.testStart ∧
    groupAt g (leftOf g.vals (min (c.testWindow.plus fl v.testEnd) last)) = .ok v'.testEnd := by
  unfold wfAdvanceF at h
  obtain ⟨te, h2, h⟩ := bind_ok_inv h
  obtain ⟨ts, h3, h⟩ := bind_ok_inv h
  obtain ⟨last, h5, h⟩ := bind_ok_inv h
  obtain ⟨tn, h4, h⟩ := bind_ok_inv h
  cases h
  exact ⟨last, h5, rfl, h2, h3, h4⟩

theorem groupAt_zero {g : GArr} (hk : g.kind.positional = true) (hs : g.vals.Pairwise (· ≤ ·)) {s : Int} (h : groupAt g 0 = .ok s) :
    s = label g.vals 0 ∧ ∀ x ∈ g.vals, s ≤ x := by
  rw [groupAt_positional hk, pyGet_ok] at h
  have hl : s = label g.vals 0 := by simp [label, h]
  refine ⟨hl, fun x hx => ?_⟩
  obtain ⟨i, hi, rfl⟩ := exists_label hx
  rw [hl]
  exact sorted_label hs (Nat.zero_le i) hi

/-- C121. If the end of the first training window, `label + train_window - 1` as computed, is none of the labels, the label after
it ends the training set and begins the test set, in all splits: whatever the embargo and the test window, every split
with a test set has samples in both. -/
theorem between_leaks (hfl : Monotone fl) {c : WFCfgF} (hX : X.rows = some n)
    (hb : ∀ x ∈ (groupsInForce n gs).vals, (x : ℝ) ≠ firstEnd fl c.trainWindow (label (groupsInForce n gs).vals 0))
    {fuel : Nat} {s : TrainTest} (hs : s ∈ (wfDriveF fl c X y gs fuel .fresh).1) (hne : s.2 ≠ []) : Leaks s := by
  have hpos := drive_positional hX hs
  obtain ⟨m, v, hm, hbase, ⟨p2, p3, p4, -⟩, hsp⟩ := wfDriveF_inv (y := y) (gs := gs) (c := c) (fl := fl)
    (fun v => v.trainEnd = v.testStart ∧ v.trainStart ≤ v.trainEnd ∧ v.trainEnd ∈ (groupsInForce n gs).vals ∧
      (c.rolling = false → ∀ x ∈ (groupsInForce n gs).vals, v.trainStart ≤ x))
    (by
      intro m v hm hbase hv
      rw [hX] at hm; cases hm
      rw [groupsOrArange_eq] at hv
      have hso := baseSplit_sorted hbase
      obtain ⟨s0, h1, h2, h3, h4, -⟩ := start_inv hv
      obtain ⟨hl, hmin⟩ := groupAt_zero hpos hso h1
      rw [← hl] at hb
      rw [rightOf_not_mem hb, h3] at h4
      have hmem := ((groupAt_leftOf hpos hso _ _).mp h3).1.1
      refine ⟨Except.ok.inj h4, ?_, hmem, fun _ x hx => ?_⟩
      · rw [h2]; exact_mod_cast hmin _ hmem
      · rw [h2]; exact_mod_cast hmin _ hx)
    (by
      intro m v v' hm hbase hv hv'
      rw [hX] at hm; cases hm
      rw [groupsOrArange_eq] at hv'
      have hso := baseSplit_sorted hbase
      obtain ⟨last, h1, h2, h3, h4, -⟩ := advance_inv hv'
      obtain ⟨q1, q2, q3, q4⟩ := hv
      rw [← q1, h3] at h4
      have hmem := ((groupAt_leftOf hpos hso _ _).mp h3).1
      refine ⟨Except.ok.inj h4, ?_, hmem.1, fun hr => ?_⟩
      · rw [h2]
        split
        · exact (plus_mono hfl _ q2).trans hmem.2
        · next hr => exact q4 (by simpa using hr) _ hmem.1
      · rw [h2, hr]
        exact q4 hr) hs
  rw [hX] at hm; cases hm
  rw [groupsOrArange_eq] at hsp
  obtain ⟨hlen, hte, hno, hpo⟩ := wfSplitF_inv hsp
  obtain ⟨j, hj⟩ := List.exists_mem_of_ne_nil _ hne
  obtain ⟨i, hi, hil⟩ := exists_label p4
  rw [hlen] at hi
  have hj' := (hte j).mp hj
  have hi2 : i ∈ s.2 := by
    rw [hte, hil]
    exact ⟨hi, p2.ge, by rw [p2]; exact hj'.2.1.trans hj'.2.2⟩
  refine ⟨i, ?_, hi2⟩
  cases he : c.nEmbargo.pos with
  | false =>
    rw [hno he, hil]
    exact ⟨hi, p3, le_rfl⟩
  | true =>
    obtain ⟨k, -, hk⟩ := hpo he
    rw [hk, hil]
    refine ⟨⟨hi, p3, le_rfl⟩, ?_⟩
    rintro ⟨q, hq, -, hlt⟩
    rw [hil] at hlt
    have : q ≤ label (groupsInForce n gs).vals i := hq.2 ⟨i, hi2, rfl⟩
    omega

/-- With a test window of at least 1, all splits have a test set; arithmetic that is exact on all integers. -/
theorem tests_nonempty_exact (hfl : Monotone fl) (hint : ∀ k : Int, fl k = k) {c : WFCfgF} (hw : 1 ≤ c.testWindow.val)
    {fuel : Nat} {s : TrainTest} (hs : s ∈ (wfDriveF fl c X y gs fuel .fresh).1) : s.2 ≠ [] := by
  obtain ⟨n, hX⟩ : ∃ n, X.rows = some n := by
    obtain ⟨n, -, hX, -⟩ := wfDriveF_inv (fun _ => True) (fun _ _ _ _ _ => trivial) (fun _ _ _ _ _ _ _ => trivial) hs
    exact ⟨n, hX⟩
  have hpos := drive_positional hX hs
  obtain ⟨m, v, hm, hbase, ⟨p1, p2⟩, hsp⟩ := wfDriveF_inv (y := y) (gs := gs) (c := c) (fl := fl)
    (fun v => v.testStart ≤ v.testEnd ∧ v.testStart ∈ (groupsInForce n gs).vals)
    (by
      intro m v hm hbase hv
      rw [hX] at hm; cases hm
      rw [groupsOrArange_eq] at hv
      have hso := baseSplit_sorted hbase
      obtain ⟨s0, h1, h2, h3, h4, h5⟩ := start_inv hv
      have hmem := ((groupAt_rightOf hpos hso _ _).mp h4).1.1
      have h6 := ((groupAt_leftOf hpos hso _ _).mp h5).1.2
      exact ⟨by exact_mod_cast (firstEnd_ge hfl hint hw v.testStart).trans h6, hmem⟩)
    (by
      intro m v v' hm hbase hv hv'
      rw [hX] at hm; cases hm
      rw [groupsOrArange_eq] at hv'
      have hso := baseSplit_sorted hbase
      obtain ⟨last, h1, h2, h3, h4, h5⟩ := advance_inv hv'
      have hl := (groupLast_ok hpos hso last).mp h1
      have h6 := (groupAt_leftOf hpos hso _ _).mp h4
      have h7 := (groupAt_leftOf hpos hso _ _).mp h5
      refine ⟨h6.2 ⟨h7.1.1, ?_⟩, h6.1.1⟩
      refine le_trans (le_min (plus_mono hfl _ (by exact_mod_cast hv.1)) ?_) h7.1.2
      exact h6.1.2.trans (by exact_mod_cast hl.2 h6.1.1)) hs
  rw [hX] at hm; cases hm
  rw [groupsOrArange_eq] at hsp
  obtain ⟨hlen, hte, -, -⟩ := wfSplitF_inv hsp
  obtain ⟨i, hi, hil⟩ := exists_label p2
  apply List.ne_nil_of_mem (a := i)
  rw [hte, hil, ← hlen]
  exact ⟨hi, le_rfl, p1⟩

/-- Adding the window to a label and to the next integer gives values with different next integers. -/
def Steps (fl : ℝ → ℝ) (w : Win) (vals : List Int) : Prop := ∀ x ∈ vals, ⌈w.plus fl x⌉ < ⌈w.plus fl ((x + 1 : Int) : ℝ)⌉

theorem steps_whole (hint : ∀ k : Int, fl k = k) {w : Win} (hw : w.Whole) (vals : List Int) : Steps fl w vals := by
  intro x _
  rw [plus_whole hint hw, plus_whole hint hw, Int.ceil_intCast, Int.ceil_intCast]
  omega

theorem steps_id (w : Win) (vals : List Int) : Steps id w vals := by
  intro x _
  have : w.plus id ((x + 1 : Int) : ℝ) = w.plus id x + 1 := by
    cases w <;> simp [Win.plus] <;> ring
  rw [this, Int.ceil_add_one]
  omega

/-- `disjoint_iff` for arithmetic that is exact on all integers. -/
theorem disjoint_exact (hfl : Monotone fl) (hint : ∀ k : Int, fl k = k) {c : WFCfgF} {g0 : Int} {G : Nat} (h : GaplessCall X y gs none n g0 1 G)
    (ha : 1 ≤ c.trainWindow.val) (hb : 1 ≤ c.testWindow.val) (hstep : Steps fl c.testWindow (groupsInForce n gs).vals)
    (fuel : Nat) :
    ((∃ k : Int, firstEnd fl c.trainWindow g0 = k) → ∀ s ∈ (wfDriveF fl c X y gs fuel .fresh).1, ¬ Leaks s) ∧
    ((¬ ∃ k : Int, firstEnd fl c.trainWindow g0 = k) → ∀ s ∈ (wfDriveF fl c X y gs fuel .fresh).1, Leaks s) := by
  have hX := h.rows
  have hpos := h.fits.positional
  have hso := h.sorted
  have hgap : ∀ x : Int, x ∈ (groupsInForce n gs).vals ↔ g0 ≤ x ∧ x < g0 + G := by
    intro x
    rw [h.gapless x]
    constructor
    · rintro ⟨k, hk, rfl⟩; omega
    · rintro ⟨h1, h2⟩; exact ⟨(x - g0).toNat, by omega, by omega⟩
  have hfirst : ∀ {s : Int}, groupAt (groupsInForce n gs) 0 = .ok s → s = g0 := by
    intro s hs
    have hq := (groupAt_zero hpos hso hs).2
    have hm : s ∈ (groupsInForce n gs).vals := by
      rw [groupAt_positional hpos, pyGet_ok] at hs
      exact List.mem_of_getElem? hs
    have h1 := (hgap s).mp hm
    have h2 := hq g0 ((hgap g0).mpr ⟨le_rfl, by omega⟩)
    omega
  constructor
  · rintro ⟨z, hz⟩ s hs
    have hzg : g0 ≤ z := by
      have := firstEnd_ge hfl hint ha g0
      rw [hz] at this
      exact_mod_cast this
    obtain ⟨m, v, hm, hbase, ⟨p1, p2⟩, hsp⟩ := wfDriveF_inv (y := y) (gs := gs) (c := c) (fl := fl)
      (fun v => v.trainEnd < v.testStart ∧ v.trainEnd ∈ (groupsInForce n gs).vals)
      (by
        intro m v hm hbase hv
        rw [hX] at hm; cases hm
        rw [groupsOrArange_eq] at hv
        obtain ⟨s0, h1, h2, h3, h4, -⟩ := start_inv hv
        cases hfirst h1
        rw [hz] at h3 h4
        have h5 := (groupAt_leftOf hpos hso _ _).mp h3
        have h6 := (groupAt_rightOf hpos hso _ _).mp h4
        have hlt : z < v.testStart := by exact_mod_cast h6.1.2
        have hzm : z ∈ (groupsInForce n gs).vals := (hgap z).mpr ⟨hzg, by have := (hgap _).mp h6.1.1; omega⟩
        have : v.trainEnd ≤ z := h5.2 ⟨hzm, le_rfl⟩
        exact ⟨by omega, h5.1.1⟩)
      (by
        intro m v v' hm hbase hv hv'
        rw [hX] at hm; cases hm
        rw [groupsOrArange_eq] at hv'
        obtain ⟨last, h1, h2, h3, h4, -⟩ := advance_inv hv'
        have h5 := (groupAt_leftOf hpos hso _ _).mp h3
        have h6 := (groupAt_leftOf hpos hso _ _).mp h4
        have hlt : ⌈c.testWindow.plus fl v.trainEnd⌉ < v'.testStart := by
          refine (hstep _ hv.2).trans_le (Int.ceil_le.mpr (le_trans (plus_mono hfl _ ?_) h6.1.2))
          exact_mod_cast hv.1
        have hge : v.trainEnd + 1 ≤ ⌈c.testWindow.plus fl v.trainEnd⌉ := by
          have := plus_ge hfl hint hb v.trainEnd
          exact_mod_cast this.trans (Int.le_ceil _)
        have h7 := (hgap _).mp h6.1.1
        have h8 := (hgap _).mp hv.2
        have : v'.trainEnd ≤ ⌈c.testWindow.plus fl v.trainEnd⌉ := h5.2 ⟨(hgap _).mpr ⟨by omega, by omega⟩, Int.le_ceil _⟩
        exact ⟨by omega, h5.1.1⟩) hs
    rw [hX] at hm; cases hm
    rw [groupsOrArange_eq] at hsp
    obtain ⟨hlen, hte, hno, hpo⟩ := wfSplitF_inv hsp
    rintro ⟨i, hi1, hi2⟩
    have h2 := ((hte i).mp hi2).2.1
    have h1 : label (groupsInForce n gs).vals i ≤ v.trainEnd := by
      cases he : c.nEmbargo.pos with
      | false => exact ((hno he i).mp hi1).2.2
      | true =>
        obtain ⟨k, -, hk⟩ := hpo he
        exact ((hk i).mp hi1).1.2.2
    omega
  · intro hno s hs
    refine between_leaks hfl hX (fun x hx heq => ?_) hs (tests_nonempty_exact hfl hint hb hs)
    have hlab : label (groupsInForce n gs).vals 0 = g0 := by
      have hlen : 0 < (groupsInForce n gs).vals.length := List.length_pos_of_mem hx
      apply hfirst
      rw [groupAt_positional hpos, pyGet_ok]
      simp [label, hlen]
    rw [hlab] at heq
    exact hno ⟨x, heq.symm⟩

/-! ### Floats: only integers up to `K` are exact -/

/-- Rounding that keeps the order and the integers up to `K`. -/
structure Floats (fl : ℝ → ℝ) (K : Int) : Prop where
  mono : Monotone fl
  exact : ∀ k : Int, |k| ≤ K → fl k = k

theorem floats_b64 : Floats b64 (2 ^ 53) where
  mono := b64_mono
  exact := fun k hk => by simpa using b64_exact hk 0

theorem floats_id (K : Int) : Floats id K := ⟨monotone_id, fun _ _ => rfl⟩

/-- Labels and windows are below half of `K`. -/
structure Small (K : Int) (c : WFCfgF) (vals : List Int) : Prop where
  labels : ∀ x ∈ vals, 2 * |x| + 2 ≤ K
  train : 2 * |c.trainWindow.val| + 2 ≤ K
  test : 2 * |c.testWindow.val| + 2 ≤ K
  nonneg : 0 ≤ c.testWindow.val

open Classical in
/-- The rounding, continued by exact arithmetic. -/
noncomputable def extend (fl : ℝ → ℝ) (K : Int) (x : ℝ) : ℝ := if |x| ≤ K then fl x else x

theorem extend_mono {K : Int} (h : Floats fl K) : Monotone (extend fl K) := by
  intro x y hxy
  have hb : ∀ z : ℝ, |z| ≤ K → -(K : ℝ) ≤ fl z ∧ fl z ≤ K := by
    intro z hz
    have hK : |K| ≤ K := by
      rw [abs_of_nonneg]
      exact_mod_cast (abs_nonneg z).trans hz
    have h1 := h.mono (abs_le.mp hz).2
    have h2 := h.mono (abs_le.mp hz).1
    rw [h.exact K hK] at h1
    have := h.exact (-K) (by rwa [abs_neg])
    push_cast at this
    rw [this] at h2
    exact ⟨h2, h1⟩
  unfold extend
  split_ifs with h1 h2 h2
  · exact h.mono hxy
  · have := (hb x h1).2
    by_contra hcon
    push Not at hcon
    have h3 := (abs_le.mp h1).1
    exact h2 (abs_le.mpr ⟨by linarith, by linarith⟩)
  · have := (hb y h2).1
    by_contra hcon
    push Not at hcon
    have h3 := (abs_le.mp h2).2
    exact h1 (abs_le.mpr ⟨by linarith, by linarith⟩)
  · exact hxy

theorem extend_exact {K : Int} (h : Floats fl K) (k : Int) : extend fl K k = k := by
  unfold extend
  split_ifs with h1
  · exact h.exact k (by exact_mod_cast h1)
  · rfl

theorem extend_eq {K : Int} {x : ℝ} (h : |x| ≤ K) : extend fl K x = fl x := by
  rw [extend, if_pos h]

theorem plus_extend {K : Int} {w : Win} {x : ℝ} (hw : 2 * |w.val| + 2 ≤ K) (hx : 2 * |x| + 2 ≤ K) :
    w.plus (extend fl K) x = w.plus fl x := by
  cases w with
  | int k => rfl
  | flt r =>
    simp only [Win.plus, Win.val] at hw ⊢
    apply extend_eq
    have := abs_add_le x r
    linarith

theorem firstEnd_extend {K : Int} (h : Floats fl K) {w : Win} {x : Int} (hw : 2 * |w.val| + 2 ≤ K) (hx : 2 * |x| + 2 ≤ K) :
    firstEnd (extend fl K) w x = firstEnd fl w x := by
  have hx' : 2 * |(x : ℝ)| + 2 ≤ K := by exact_mod_cast hx
  unfold firstEnd
  rw [plus_extend hw hx']
  cases w with
  | int k => rfl
  | flt r =>
    simp only [Win.plus, Win.val, Win.lessUnit] at hw ⊢
    apply extend_eq
    have h0 := abs_add_le (x : ℝ) r
    have h1 : |(x : ℝ) + r| ≤ ((K - 2 : Int) : ℝ) := by push_cast; linarith
    have hK : |K - 2| ≤ K := by
      have : (0 : ℝ) ≤ ((K - 2 : Int) : ℝ) := (abs_nonneg _).trans h1
      have : 0 ≤ K - 2 := by exact_mod_cast this
      rw [abs_of_nonneg this]; omega
    have h2 := h.mono (abs_le.mp h1).2
    have h3 := h.mono (abs_le.mp h1).1
    rw [h.exact _ hK] at h2
    have h4 := h.exact (-(K - 2)) (by rwa [abs_neg])
    rw [Int.cast_neg] at h4
    rw [h4] at h3
    push_cast at h2 h3
    rw [abs_le]
    constructor <;> linarith

theorem groupAt_mem {g : GArr} {i : Nat} {w : Int} (h : groupAt g i = .ok w) : w ∈ g.vals := by
  have : pyGet g.vals i = .ok w := by
    unfold groupAt at h
    cases hk : g.kind <;> rw [hk] at h <;> dsimp only at h <;> first | exact h | (split_ifs at h; exact h)
  rw [pyGet_ok] at this
  exact List.mem_of_getElem? this

/-- On such labels and windows both arithmetics give the same run. -/
theorem drive_extend {K : Int} (h : Floats fl K) {c : WFCfgF} (hsm : ∀ n, X.rows = some n → Small K c (groupsInForce n gs).vals) (fuel : Nat) :
    wfDriveF (extend fl K) c X y gs fuel .fresh = wfDriveF fl c X y gs fuel .fresh := by
  have hstart : ∀ n, X.rows = some n → wfStartF (extend fl K) c (groupsInForce n gs) = wfStartF fl c (groupsInForce n gs) := by
    intro n hn
    have hs := hsm n hn
    unfold wfStartF
    cases hg : groupAt (groupsInForce n gs) 0 with
    | error e => rfl
    | ok s =>
      have h1 := firstEnd_extend h hs.train (hs.labels s (groupAt_mem hg))
      unfold firstEnd at h1
      simp only [bind, Except.bind]
      rw [h1]
      cases numeric (groupsInForce n gs).kind with
      | error e => rfl
      | ok _ =>
        dsimp only
        cases groupAt (groupsInForce n gs) (leftOf (groupsInForce n gs).vals (c.trainWindow.lessUnit fl (c.trainWindow.plus fl s))) with
        | error e => rfl
        | ok te =>
          dsimp only
          cases hts : groupAt (groupsInForce n gs) (rightOf (groupsInForce n gs).vals (c.trainWindow.lessUnit fl (c.trainWindow.plus fl s))) with
          | error e => rfl
          | ok ts =>
            dsimp only
            have h2 := firstEnd_extend h hs.test (hs.labels ts (groupAt_mem hts))
            unfold firstEnd at h2
            rw [h2]
  have hadv : ∀ n (v : FVars), X.rows = some n → 2 * |v.trainStart| + 2 ≤ (K : ℝ) → (∀ x ∈ [v.trainEnd, v.testStart, v.testEnd], x ∈ (groupsInForce n gs).vals) →
      wfAdvanceF (extend fl K) c (groupsInForce n gs) v = wfAdvanceF fl c (groupsInForce n gs) v := by
    intro n v hn hv hm
    have hs := hsm n hn
    have hq : ∀ x ∈ [v.trainEnd, v.testStart, v.testEnd], c.testWindow.plus (extend fl K) x = c.testWindow.plus fl x := by
      intro x hx
      exact plus_extend hs.test (by exact_mod_cast hs.labels x (hm x hx))
    unfold wfAdvanceF
    rw [hq v.trainEnd (by simp), hq v.testStart (by simp), hq v.testEnd (by simp), plus_extend hs.test hv]
  have rest : ∀ n, X.rows = some n → baseSplit X y gs = .ok n → (groupsInForce n gs).kind.positional = true → ∀ (fuel : Nat) (v : FVars),
      ((∃ z ∈ (groupsInForce n gs).vals, (z : ℝ) ≤ v.trainStart) ∧ v.trainStart ≤ v.trainEnd ∧ (∀ x ∈ [v.trainEnd, v.testStart, v.testEnd], x ∈ (groupsInForce n gs).vals) ∧
        (c.rolling = false → ∀ x ∈ (groupsInForce n gs).vals, v.trainStart ≤ x)) →
      wfDriveF (extend fl K) c X y gs fuel (.suspended v) = wfDriveF fl c X y gs fuel (.suspended v) := by
    intro n hn hb hpos fuel
    have hx : xRows X = n := by
      cases X <;> simp [XArg.rows] at hn <;> simpa [xRows] using hn
    have hso := baseSplit_sorted hb
    have hs := hsm n hn
    induction fuel with
    | zero => intro v _; rfl
    | succ fuel ih =>
      intro v hv
      rw [wfDriveF, wfDriveF]
      simp only [wfNextF]
      rw [hx, groupsOrArange_eq]
      cases groupLast (groupsInForce n gs) with
      | error e => rfl
      | ok last =>
        dsimp only
        by_cases hle : last ≤ v.testEnd
        · rw [if_pos hle, if_pos hle]
        · rw [if_neg hle, if_neg hle]
          have hlab := hs.labels v.trainEnd (hv.2.2.1 _ (by simp))
          have hlab' : 2 * |(v.trainEnd : ℝ)| + 2 ≤ K := by exact_mod_cast hlab
          have hst : 2 * |v.trainStart| + 2 ≤ K := by
            have h1 := le_abs_self (v.trainEnd : ℝ)
            obtain ⟨z, hz, hzs⟩ := hv.1
            have h3 : 2 * |(z : ℝ)| + 2 ≤ K := by exact_mod_cast hs.labels z hz
            have h4 := neg_abs_le (z : ℝ)
            have h2 : |v.trainStart| ≤ ((K : ℝ) - 2) / 2 := abs_le.mpr ⟨by linarith, by linarith [hv.2.1]⟩
            linarith
          rw [hadv n v hn hst hv.2.2.1]
          cases ha : wfAdvanceF fl c (groupsInForce n gs) v with
          | error e => rfl
          | ok v' =>
            dsimp only
            have hinv : ((∃ z ∈ (groupsInForce n gs).vals, (z : ℝ) ≤ v'.trainStart) ∧ v'.trainStart ≤ v'.trainEnd ∧ (∀ x ∈ [v'.trainEnd, v'.testStart, v'.testEnd], x ∈ (groupsInForce n gs).vals) ∧
                (c.rolling = false → ∀ x ∈ (groupsInForce n gs).vals, v'.trainStart ≤ x)) := by
              obtain ⟨last, h1, h2, h3, h4, h5⟩ := advance_inv ha
              have h6 := (groupAt_leftOf hpos hso _ _).mp h3
              refine ⟨?_, ?_, ?_, ?_⟩
              · rw [h2]
                split
                · have h0 := hs.nonneg
                  obtain ⟨z, hz, hzs⟩ := hv.1
                  refine ⟨z, hz, ?_⟩
                  cases hw : c.testWindow with
                  | int k =>
                    rw [hw] at h0
                    simp only [Win.plus, Win.val] at h0 ⊢
                    linarith
                  | flt r =>
                    rw [hw] at h0
                    simp only [Win.plus, Win.val] at h0 ⊢
                    have hzK := hs.labels z hz
                    rw [← h.exact z (by have := abs_nonneg z; omega)]
                    exact h.mono (by linarith)
                · exact hv.1
              · rw [h2]
                split
                · exact (plus_mono h.mono _ hv.2.1).trans h6.1.2
                · next hr => exact hv.2.2.2 (by simpa using hr) _ h6.1.1
              · intro x hx
                simp only [List.mem_cons, List.not_mem_nil, or_false] at hx
                rcases hx with rfl | rfl | rfl
                · exact groupAt_mem h3
                · exact groupAt_mem h4
                · exact groupAt_mem h5
              · intro hr
                rw [h2, hr]
                exact hv.2.2.2 hr
            rcases hen : wfEnterF c n (groupsInForce n gs) v' with ⟨res, gen⟩
            cases res with
            | yielded s' =>
              have hg : gen = .suspended v' := by
                unfold wfEnterF at hen
                split at hen
                · simp at hen
                · split_ifs at hen
                  · split at hen
                    · simp at hen
                    · simp at hen; exact hen.2.symm
                  · simp at hen
              subst hg
              dsimp only
              rw [ih v' hinv]
            | stopped => rfl
            | raised e => rfl
  cases fuel with
  | zero => rfl
  | succ fuel =>
    rw [wfDriveF, wfDriveF]
    simp only [wfNextF]
    cases hb : baseSplit X y gs with
    | error e => rfl
    | ok n =>
      have hn := (baseSplit_ok hb).1
      have hso := baseSplit_sorted hb
      dsimp only
      rw [groupsOrArange_eq, hstart n hn]
      cases hst : wfStartF fl c (groupsInForce n gs) with
      | error e => rfl
      | ok v =>
        dsimp only
        rcases hen : wfEnterF c n (groupsInForce n gs) v with ⟨res, gen⟩
        cases res with
        | yielded s' =>
          obtain ⟨hg, hpos⟩ : gen = .suspended v ∧ (groupsInForce n gs).kind.positional = true := by
            unfold wfEnterF at hen
            split at hen
            · simp at hen
            · next hlast =>
              split_ifs at hen
              · split at hen
                · simp at hen
                · simp at hen
                  refine ⟨hen.2.symm, ?_⟩
                  unfold groupLast at hlast
                  cases hk : (groupsInForce n gs).kind <;> rw [hk] at hlast <;> first | rfl | cases hlast
              · simp at hen
          subst hg
          dsimp only
          obtain ⟨s0, h1, h2, h3, h4, h5⟩ := start_inv hst
          have hz := groupAt_zero hpos hso h1
          rw [rest n hn hb hpos fuel v ⟨⟨s0, groupAt_mem h1, h2.ge⟩, ?_, ?_, fun _ x hx => ?_⟩]
          · rw [h2]; exact_mod_cast hz.2 _ (groupAt_mem h3)
          · intro x hx
            simp only [List.mem_cons, List.not_mem_nil, or_false] at hx
            rcases hx with rfl | rfl | rfl
            · exact groupAt_mem h3
            · exact groupAt_mem h4
            · exact groupAt_mem h5
          · rw [h2]; exact_mod_cast hz.2 _ hx
        | stopped => rfl
        | raised e => rfl

/-- C121. Windows that are whole numbers give the splits of integers, whether they are integers or floats, for labels and windows below
half of the bound up to which integers are exact (`2 ^ 53` for floats). -/
theorem float_whole {K : Int} (h : Floats fl K) {c : WFCfgF} (hsm : ∀ n, X.rows = some n → Small K c (groupsInForce n gs).vals)
    (h1 : c.trainWindow.Whole) (h2 : c.testWindow.Whole) (np : Delta) (o : WFObj) (fuel : Nat) :
    wfDriveF fl c X y gs fuel .fresh =
      ((wfDrive ⟨c.nEmbargo, np, .int c.trainWindow.toInt, .int c.testWindow.toInt, c.rolling, none⟩ X y gs fuel o .fresh).1,
        (wfDrive ⟨c.nEmbargo, np, .int c.trainWindow.toInt, .int c.testWindow.toInt, c.rolling, none⟩ X y gs fuel o .fresh).2.1) := by
  rw [← drive_extend h hsm]
  exact float_whole_exact (extend_exact h) h1 h2 np o fuel

/-- C121. The constructor accepts the same arguments as with integers, and objects constructed with whole numbers give the same splits. -/
theorem float_whole_object {K : Int} (h : Floats fl K) {E P : DeltaArg} {tw sw : Win} {st : SplitType} (h1 : tw.Whole) (h2 : sw.Whole) :
    (∀ e, wfInitF E P tw sw st = .error e ↔ wfInit E P (.int tw.toInt) (.int sw.toInt) st none = .error e) ∧
    ∀ c c', wfInitF E P tw sw st = .ok c → wfInit E P (.int tw.toInt) (.int sw.toInt) st none = .ok c' → ∀ X y gs o fuel,
      (∀ n, X.rows = some n → Small K c (groupsInForce n gs).vals) →
      wfDriveF fl c X y gs fuel .fresh = ((wfDrive c' X y gs fuel o .fresh).1, (wfDrive c' X y gs fuel o .fresh).2.1) := by
  unfold wfInitF wfInit
  cases baseInit E P with
  | error e => exact ⟨fun e' => ⟨fun h => by cases h; rfl, fun h => by cases h; rfl⟩, fun c c' h => by cases h⟩
  | ok ep =>
    cases st with
    | other => exact ⟨fun e' => ⟨fun h => by cases h; rfl, fun h => by cases h; rfl⟩, fun c c' h => by cases h⟩
    | expanding =>
      refine ⟨fun e' => ⟨fun h => (nomatch h), fun h => (nomatch h)⟩, fun c c' hc hc' X y gs o fuel hsm => ?_⟩
      cases hc
      cases hc'
      exact float_whole h hsm h1 h2 ep.2 o fuel
    | rolling =>
      refine ⟨fun e' => ⟨fun h => (nomatch h), fun h => (nomatch h)⟩, fun c c' hc hc' X y gs o fuel hsm => ?_⟩
      cases hc
      cases hc'
      exact float_whole h hsm h1 h2 ep.2 o fuel

/-- C121. With a test window of at least 1, all splits have a test set. -/
theorem tests_nonempty {K : Int} (h : Floats fl K) {c : WFCfgF} (hsm : ∀ n, X.rows = some n → Small K c (groupsInForce n gs).vals)
    (hw : 1 ≤ c.testWindow.val) {fuel : Nat} {s : TrainTest} (hs : s ∈ (wfDriveF fl c X y gs fuel .fresh).1) : s.2 ≠ [] := by
  rw [← drive_extend h hsm] at hs
  exact tests_nonempty_exact (extend_mono h) (extend_exact h) hw hs

/-- C121. For labels without gaps, the computed end of the first training window decides: if it is an integer, no split of the run shares
a sample between training and test set; if it is not, all do. The embargo does not matter. -/
theorem disjoint_iff {K : Int} (h : Floats fl K) {c : WFCfgF} {g0 : Int} {G : Nat} (hcall : GaplessCall X y gs none n g0 1 G)
    (hsm : Small K c (groupsInForce n gs).vals) (hG : 0 < G)
    (ha : 1 ≤ c.trainWindow.val) (hb : 1 ≤ c.testWindow.val) (hstep : Steps fl c.testWindow (groupsInForce n gs).vals) (fuel : Nat) :
    ((∃ k : Int, firstEnd fl c.trainWindow g0 = k) → ∀ s ∈ (wfDriveF fl c X y gs fuel .fresh).1, ¬ Leaks s) ∧
    ((¬ ∃ k : Int, firstEnd fl c.trainWindow g0 = k) → ∀ s ∈ (wfDriveF fl c X y gs fuel .fresh).1, Leaks s) := by
  have hsm' : ∀ m, X.rows = some m → Small K c (groupsInForce m gs).vals := by
    intro m hm
    rw [hcall.rows] at hm
    cases hm
    exact hsm
  have hg0 : g0 ∈ (groupsInForce n gs).vals := (hcall.gapless g0).mpr ⟨0, hG, by simp⟩
  rw [← firstEnd_extend h hsm.train (hsm.labels g0 hg0), ← drive_extend h hsm']
  apply disjoint_exact (extend_mono h) (extend_exact h) hcall ha hb
  intro x hx
  have h1 : 2 * |(x : ℝ)| + 2 ≤ K := by exact_mod_cast hsm.labels x hx
  rw [plus_extend hsm.test h1]
  refine (hstep x hx).trans_le ?_
  apply Int.ceil_le_ceil
  cases hw : c.testWindow with
  | int k => exact le_rfl
  | flt r =>
    have h2 := hsm.test
    rw [hw] at h2
    simp only [Win.plus, Win.val] at h2 ⊢
    rw [extend_eq]
    have h3 := abs_add_le (x : ℝ) r
    have h4 := abs_add_le ((x : ℝ) + r) 1
    rw [abs_one] at h4
    push_cast
    rw [show (x : ℝ) + 1 + r = x + r + 1 by ring]
    linarith

/-- Whole test windows keep labels apart. -/
theorem steps_of_whole {K : Int} (h : Floats fl K) {c : WFCfgF} {vals : List Int} (hsm : Small K c vals) (hw : c.testWindow.Whole) :
    Steps fl c.testWindow vals := by
  intro x hx
  have h1 : 2 * |(x : ℝ)| + 2 ≤ K := by exact_mod_cast hsm.labels x hx
  cases hwin : c.testWindow with
  | int k => simp [Win.plus]
  | flt r =>
    rw [hwin] at hw
    have h2 := hsm.test
    rw [hwin] at h2
    obtain ⟨k, rfl⟩ := hw
    simp only [Win.plus, Win.val] at h2 ⊢
    have h3 : 2 * |k| + 2 ≤ K := by exact_mod_cast h2
    have h4 := hsm.labels x hx
    have h5 := abs_add_le x k
    have h6 := abs_add_le (x + k) 1
    rw [abs_one] at h6
    rw [← Int.cast_add, ← Int.cast_add, h.exact _ (by omega), h.exact _ (by rw [show x + 1 + k = x + k + 1 by ring]; omega),
      Int.ceil_intCast, Int.ceil_intCast]
    omega

/-- C121. In exact arithmetic, with windows of at least 1: the runs over gapless labels keep training and test sets apart exactly when the
training window is a whole number. The test window may be any number. -/
theorem disjoint_iff_whole {c : WFCfgF} {g0 : Int} {G : Nat} (hcall : GaplessCall X y gs none n g0 1 G)
    (ha : 1 ≤ c.trainWindow.val) (hb : 1 ≤ c.testWindow.val) {fuel : Nat} (hne : (wfDriveF id c X y gs fuel .fresh).1 ≠ []) :
    (∀ s ∈ (wfDriveF id c X y gs fuel .fresh).1, ¬ Leaks s) ↔ c.trainWindow.Whole := by
  have hex := disjoint_exact monotone_id (fun _ => rfl) hcall ha hb (steps_id _ _) fuel
  have hw : (∃ k : Int, firstEnd id c.trainWindow g0 = k) ↔ c.trainWindow.Whole := by
    unfold firstEnd
    cases c.trainWindow with
    | int k => simp only [Win.Whole, Win.plus, Win.lessUnit, iff_true]; exact ⟨g0 + k - 1, by push_cast; ring⟩
    | flt r =>
      simp only [Win.Whole, Win.plus, Win.lessUnit, id]
      constructor
      · rintro ⟨k, hk⟩; exact ⟨k + 1 - g0, by push_cast; linarith⟩
      · rintro ⟨k, hk⟩; exact ⟨k - 1 + g0, by push_cast; linarith⟩
  rw [← hw]
  constructor
  · intro h
    by_contra hcon
    obtain ⟨s, hs⟩ := List.exists_mem_of_ne_nil _ hne
    exact h s hs (hex.2 hcon s hs)
  · exact hex.1

theorem arange_call (n : Nat) : GaplessCall (.ndarray n) .none none none n 0 1 n where
  rows := rfl
  yok := by decide
  gok := by decide
  len := by simp [groupsInForce]
  sorted := by
    simp only [groupsInForce]
    rw [List.pairwise_map]
    exact List.pairwise_lt_range.imp fun h => by simpa using h.le
  fits := .inl ⟨rfl, rfl, rfl⟩
  gapless := by
    intro x
    simp only [groupsInForce, List.mem_map, List.mem_range]
    constructor
    · rintro ⟨k, hk, rfl⟩; exact ⟨k, hk, by simp⟩
    · rintro ⟨k, hk, rfl⟩; exact ⟨k, hk, by simp⟩

theorem arange_small {n : Nat} (hn : n ≤ 2 ^ 50) {c : WFCfgF} (h1 : |c.trainWindow.val| ≤ 2 ^ 50) (h2 : 0 ≤ c.testWindow.val) (h3 : c.testWindow.val ≤ 2 ^ 50) :
    Small (2 ^ 53) c (groupsInForce n none).vals where
  labels := by
    intro x hx
    obtain ⟨k, hk, rfl⟩ := ((arange_call n).gapless x).mp hx
    rw [abs_of_nonneg (by positivity)]
    simp only [zero_add, mul_one]
    have : (k : Int) < 2 ^ 50 := by exact_mod_cast hk.trans_le hn
    norm_num at this ⊢
    omega
  train := by push_cast; linarith
  test := by rw [abs_of_nonneg h2]; push_cast; linarith
  nonneg := h2

/-- `train_window = 0.5 * len(X)`, 101 rows, in floats: all splits share samples, with any embargo. -/
example (e : Delta) (fuel : Nat) : ∀ s ∈ (wfDriveF b64 ⟨e, .flt 50.5, .int 20, true⟩ (.ndarray 101) .none none fuel .fresh).1, Leaks s := by
  have hsm : Small (2 ^ 53) ⟨e, .flt 50.5, .int 20, true⟩ (groupsInForce 101 none).vals :=
    arange_small (by norm_num) (by norm_num [Win.val, abs_le]) (by norm_num [Win.val]) (by norm_num [Win.val])
  refine (disjoint_iff floats_b64 (arange_call 101) hsm (by norm_num) (by norm_num [Win.val]) (by norm_num [Win.val])
    (steps_of_whole floats_b64 hsm trivial) fuel).2 ?_
  rintro ⟨k, hk⟩
  simp only [firstEnd, Win.plus, Win.lessUnit] at hk
  have h1 : b64 (((0 : Int) : ℝ) + 50.5) = ((101 : ℤ) : ℝ) * 2 ^ (-1 : ℤ) := by
    rw [← b64_exact (m := 101) (by norm_num) (-1)]
    norm_num
  have h2 : b64 (((101 : ℤ) : ℝ) * 2 ^ (-1 : ℤ) - 1) = ((99 : ℤ) : ℝ) * 2 ^ (-1 : ℤ) := by
    rw [← b64_exact (m := 99) (by norm_num) (-1)]
    norm_num
  rw [h1, h2] at hk
  have : (2 * k : ℝ) = 99 := by rw [← hk]; norm_num
  have : 2 * k = 99 := by exact_mod_cast this
  omega

/-- `train_window = 0.5 * len(X)`, 100 rows: the splits of the integer 50. -/
example (e np : Delta) (o : WFObj) (fuel : Nat) : (wfDriveF b64 ⟨e, .flt 50, .int 20, true⟩ (.ndarray 100) .none none fuel .fresh).1 =
    (wfDrive ⟨e, np, .int 50, .int 20, true, none⟩ (.ndarray 100) .none none fuel o .fresh).1 := by
  have h := float_whole (X := .ndarray 100) (y := .none) (gs := none) (c := ⟨e, .flt 50, .int 20, true⟩) floats_b64
    (fun n hn => by
      cases hn
      exact arange_small (by norm_num) (by norm_num [Win.val, abs_le]) (by norm_num [Win.val]) (by norm_num [Win.val]))
    ⟨50, by norm_num⟩ trivial np o fuel
  rw [h]
  simp [Win.toInt]

/-- `WalkForward(n_embargo=2, n_purge=1, train_window=50.0, test_window=20, split_type="rolling")` keeps the embargo. -/
example (o : WFObj) (fuel : Nat) : ∃ c, wfInitF (.ok (.int 2)) (.ok (.int 1)) (.flt 50) (.int 20) .rolling = .ok c ∧
    (wfDriveF b64 c (.ndarray 100) .none none fuel .fresh).1 =
      (wfDrive ⟨.int 2, .int 1, .int 50, .int 20, true, none⟩ (.ndarray 100) .none none fuel o .fresh).1 := by
  have h := (float_whole_object floats_b64 (E := .ok (.int 2)) (P := .ok (.int 1)) (tw := .flt 50) (sw := .int 20) (st := .rolling)
    ⟨50, by norm_num⟩ trivial).2 _ _ rfl rfl (.ndarray 100) .none none o fuel
    (fun n hn => by
      cases hn
      exact arange_small (by norm_num) (by norm_num [Win.val, abs_le]) (by norm_num [Win.val]) (by norm_num [Win.val]))
  refine ⟨_, rfl, ?_⟩
  rw [h]
  simp [Win.toInt]

/-! ### Witnesses -/

theorem b64_57 : b64 (b64 (57 / 100) * 100) = ((57 * 2 ^ 47 - 1 : ℤ) : ℝ) * 2 ^ (-47 : ℤ) := by
  have h1 : b64 (57 / 100) = ((5134103575202365 : ℤ) : ℝ) * 2 ^ (-53 : ℤ) := by
    apply b64_eq <;> norm_num [abs_lt]
  rw [h1]
  apply b64_eq <;> norm_num [abs_lt]

theorem b64_55 : b64 (b64 (55 / 100) * 100) = ((55 * 2 ^ 47 + 1 : ℤ) : ℝ) * 2 ^ (-47 : ℤ) := by
  have h1 : b64 (55 / 100) = ((4953959590107546 : ℤ) : ℝ) * 2 ^ (-53 : ℤ) := by
    apply b64_eq <;> norm_num [abs_lt]
  rw [h1]
  apply b64_eq <;> norm_num [abs_lt]

theorem b64_64 : b64 (64 + 2 ^ (-47 : ℤ)) = 64 := by
  have hE : ulpExp (64 + 2 ^ (-47 : ℤ)) = -46 := by
    apply ulp_unique <;> rw [abs_of_pos (by positivity)] <;> norm_num
  have hq : ((64 : ℝ) + 2 ^ (-47 : ℤ)) / 2 ^ (-46 : ℤ) = ((2 ^ 52 : ℤ) : ℝ) + 1 / 2 := by norm_num
  have hf : ⌊(((2 ^ 52 : ℤ) : ℝ) + 1 / 2)⌋ = 2 ^ 52 := by rw [Int.floor_eq_iff]; norm_num
  have hr : rne (((2 ^ 52 : ℤ) : ℝ) + 1 / 2) = 2 ^ 52 := by
    unfold rne
    rw [hf]
    norm_num
    exact ⟨2251799813685248, by norm_num⟩
  rw [b64, hE, hq, hr]
  norm_num

theorem floor_below {x : ℝ} {k : Int} (h1 : (k : ℝ) < x) (h2 : x < k + 1) : ⌊x⌋ = k ∧ ⌈x⌉ = k + 1 := by
  constructor
  · rw [Int.floor_eq_iff]; exact ⟨h1.le, h2⟩
  · rw [Int.ceil_eq_iff]; push_cast; exact ⟨by linarith, h2.le⟩

/-- C121. `WalkForward(train_window=0.57 * 100, test_window=20, n_embargo=5)` on 100 rows: `0.57 * 100` is less than 57 in floats, so sample 56
is the first of the test set and the last of the training set, behind the embargo of 5 samples. -/
theorem percentage_leak : wfDriveF b64 ⟨.int 5, .flt (b64 (b64 (57 / 100) * 100)), .int 20, false⟩ (.ndarray 100) .none none 1 .fresh =
    ([(List.range 51 ++ [56], List.range' 56 20)], none) := by
  set c : WFCfgF := ⟨.int 5, .flt (b64 (b64 (57 / 100) * 100)), .int 20, false⟩ with hc
  have hend : firstEnd b64 c.trainWindow (0 : Int) = ((56 * 2 ^ 47 - 1 : ℤ) : ℝ) * 2 ^ (-47 : ℤ) := by
    rw [hc]
    simp only [firstEnd, Win.plus, Win.lessUnit]
    rw [b64_57, Int.cast_zero, zero_add, b64_exact (by norm_num [abs_le])]
    rw [show (((57 * 2 ^ 47 - 1 : ℤ) : ℝ) * 2 ^ (-47 : ℤ)) - 1 = ((56 * 2 ^ 47 - 1 : ℤ) : ℝ) * 2 ^ (-47 : ℤ) by norm_num]
    exact b64_exact (by norm_num [abs_le]) _
  obtain ⟨hf, hce⟩ := floor_below (x := ((56 * 2 ^ 47 - 1 : ℤ) : ℝ) * 2 ^ (-47 : ℤ)) (k := 55) (by norm_num) (by norm_num)
  have hstart : wfStartF b64 c ⟨.ndarray, (List.range 100).map Int.ofNat⟩ = .ok ⟨((0 : Int) : ℝ), 56, 56, 75⟩ := by
    unfold wfStartF
    rw [show groupAt ⟨.ndarray, (List.range 100).map Int.ofNat⟩ 0 = .ok 0 from rfl]
    simp only [bind, Except.bind, numeric]
    have : c.trainWindow.lessUnit b64 (c.trainWindow.plus b64 ((0 : Int) : ℝ)) = _ := hend
    rw [this, leftOf_eq, rightOf_eq, hf, hce]
    rw [show groupAt ⟨.ndarray, (List.range 100).map Int.ofNat⟩ (searchLeft ((List.range 100).map Int.ofNat) (55 + 1)) = .ok 56 by decide +kernel,
      show groupAt ⟨.ndarray, (List.range 100).map Int.ofNat⟩ (searchRight ((List.range 100).map Int.ofNat) 55) = .ok 56 by decide +kernel]
    dsimp only
    have h2 : c.testWindow.lessUnit b64 (c.testWindow.plus b64 ((56 : Int) : ℝ)) = ((75 : Int) : ℝ) := by
      rw [hc]; norm_num [Win.plus, Win.lessUnit]
    rw [h2, leftOf_eq, Int.ceil_intCast,
      show groupAt ⟨.ndarray, (List.range 100).map Int.ofNat⟩ (searchLeft ((List.range 100).map Int.ofNat) 75) = .ok 75 by decide +kernel]
  rw [wfDriveF]
  simp only [wfNextF]
  rw [show baseSplit (.ndarray 100) .none none = .ok 100 from rfl]
  dsimp only
  rw [groupsOrArange_eq, show groupsInForce 100 none = ⟨.ndarray, (List.range 100).map Int.ofNat⟩ from rfl, hstart]
  dsimp only
  have hen := enter_ofInt c ⟨.int 5, .int 0, .int 57, .int 20, false, none⟩ rfl 100 ⟨.ndarray, (List.range 100).map Int.ofNat⟩ ⟨0, 56, 56, 75⟩
  dsimp only at hen
  rw [hen]
  rw [show wfEnter ⟨.int 5, .int 0, .int 57, .int 20, false, none⟩ 100 ⟨.ndarray, (List.range 100).map Int.ofNat⟩ ⟨0, 56, 56, 75⟩ =
    (.yielded (List.range 51 ++ [56], List.range' 56 20), .suspended ⟨0, 56, 56, 75⟩) by decide +kernel]
  rfl

/-- C121. A whole training window does not protect from float test windows: `WalkForward(train_window=9, test_window=0.55 * 100)` on 100 rows. In
floats `0.55 * 100` is `55 + 2 ^ -47`; added to 8 it is more than 63, added to 9 it is 64, so the second training set ends with the sample
64 with which the test set begins. -/
theorem rounding_leak : wfDriveF b64 ⟨.int 0, .int 9, .flt (b64 (b64 (55 / 100) * 100)), false⟩ (.ndarray 100) .none none 2 .fresh =
    ([(List.range 9, List.range' 9 55), (List.range 65, List.range' 64 36)], none) := by
  set c : WFCfgF := ⟨.int 0, .int 9, .flt (b64 (b64 (55 / 100) * 100)), false⟩ with hc
  have hg : ∀ k : Int, k = 8 ∨ k = 63 ∨ k = 64 ∨ k = 99 →
      groupAt ⟨.ndarray, (List.range 100).map Int.ofNat⟩ (searchLeft ((List.range 100).map Int.ofNat) k) = .ok k := by
    rintro k (rfl | rfl | rfl | rfl) <;> decide +kernel
  have h9 : c.testWindow.plus b64 ((9 : Int) : ℝ) = ((64 : Int) : ℝ) := by
    rw [hc]
    simp only [Win.plus]
    rw [b64_55, show ((9 : Int) : ℝ) + ((55 * 2 ^ 47 + 1 : ℤ) : ℝ) * 2 ^ (-47 : ℤ) = 64 + 2 ^ (-47 : ℤ) by norm_num, b64_64]
    norm_num
  have h8 : ⌈c.testWindow.plus b64 ((8 : Int) : ℝ)⌉ = 64 := by
    rw [hc]
    simp only [Win.plus]
    rw [b64_55, show ((8 : Int) : ℝ) + ((55 * 2 ^ 47 + 1 : ℤ) : ℝ) * 2 ^ (-47 : ℤ) = ((63 * 2 ^ 47 + 1 : ℤ) : ℝ) * 2 ^ (-47 : ℤ) by norm_num,
      b64_exact (by norm_num [abs_le])]
    exact (floor_below (k := 63) (by norm_num) (by norm_num)).2
  have h63 : ((99 : Int) : ℝ) ≤ c.testWindow.plus b64 ((63 : Int) : ℝ) := by
    rw [hc]
    simp only [Win.plus]
    rw [b64_55, ← floats_b64.exact 99 (by norm_num)]
    exact b64_mono (by norm_num)
  have hstart : wfStartF b64 c ⟨.ndarray, (List.range 100).map Int.ofNat⟩ = .ok ⟨((0 : Int) : ℝ), 8, 9, 63⟩ := by
    unfold wfStartF
    rw [show groupAt ⟨.ndarray, (List.range 100).map Int.ofNat⟩ 0 = .ok 0 from rfl]
    simp only [bind, Except.bind, numeric]
    have h1 : c.trainWindow.lessUnit b64 (c.trainWindow.plus b64 ((0 : Int) : ℝ)) = ((8 : Int) : ℝ) := by
      rw [hc]; norm_num [Win.plus, Win.lessUnit]
    rw [h1, leftOf_eq, rightOf_eq, Int.ceil_intCast, Int.floor_intCast, hg 8 (by simp),
      show groupAt ⟨.ndarray, (List.range 100).map Int.ofNat⟩ (searchRight ((List.range 100).map Int.ofNat) 8) = .ok 9 by decide +kernel]
    dsimp only
    have h2 : c.testWindow.lessUnit b64 ((64 : Int) : ℝ) = ((63 : Int) : ℝ) := by
      rw [hc]
      simp only [Win.lessUnit]
      rw [show ((64 : Int) : ℝ) - 1 = ((63 : Int) : ℝ) by norm_num, floats_b64.exact 63 (by norm_num)]
    rw [h9, h2, leftOf_eq, Int.ceil_intCast, hg 63 (by simp)]
  have hadv : wfAdvanceF b64 c ⟨.ndarray, (List.range 100).map Int.ofNat⟩ ⟨((0 : Int) : ℝ), 8, 9, 63⟩ = .ok ⟨((0 : Int) : ℝ), 64, 64, 99⟩ := by
    unfold wfAdvanceF
    simp only [bind, Except.bind]
    rw [leftOf_eq, h8, leftOf_eq, h9, Int.ceil_intCast, hg 64 (by simp), show groupLast ⟨.ndarray, (List.range 100).map Int.ofNat⟩ = .ok 99 by decide +kernel]
    dsimp only
    rw [min_eq_right h63, leftOf_eq, Int.ceil_intCast, hg 99 (by simp)]
    rfl
  have hx : xRows (.ndarray 100) = 100 := rfl
  rw [wfDriveF]
  simp only [wfNextF]
  rw [show baseSplit (.ndarray 100) .none none = .ok 100 from rfl]
  dsimp only
  rw [groupsOrArange_eq, show groupsInForce 100 none = ⟨.ndarray, (List.range 100).map Int.ofNat⟩ from rfl, hstart]
  dsimp only
  have hen := enter_ofInt c ⟨.int 0, .int 0, .int 9, .int 55, false, none⟩ rfl 100 ⟨.ndarray, (List.range 100).map Int.ofNat⟩ ⟨0, 8, 9, 63⟩
  have hen2 := enter_ofInt c ⟨.int 0, .int 0, .int 9, .int 55, false, none⟩ rfl 100 ⟨.ndarray, (List.range 100).map Int.ofNat⟩ ⟨0, 64, 64, 99⟩
  dsimp only at hen hen2
  rw [show wfEnter ⟨.int 0, .int 0, .int 9, .int 55, false, none⟩ 100 ⟨.ndarray, (List.range 100).map Int.ofNat⟩ ⟨0, 8, 9, 63⟩ =
    (.yielded (List.range 9, List.range' 9 55), .suspended ⟨0, 8, 9, 63⟩) by decide +kernel] at hen
  rw [show wfEnter ⟨.int 0, .int 0, .int 9, .int 55, false, none⟩ 100 ⟨.ndarray, (List.range 100).map Int.ofNat⟩ ⟨0, 64, 64, 99⟩ =
    (.yielded (List.range 65, List.range' 64 36), .suspended ⟨0, 64, 64, 99⟩) by decide +kernel] at hen2
  rw [hen]
  simp only [FGen.ofInt]
  rw [wfDriveF]
  simp only [wfNextF]
  rw [hx, groupsOrArange_eq, show groupsInForce 100 none = ⟨.ndarray, (List.range 100).map Int.ofNat⟩ from rfl,
    show groupLast ⟨.ndarray, (List.range 100).map Int.ofNat⟩ = .ok 99 by decide +kernel]
  dsimp only
  rw [if_neg (by norm_num), hadv]
  dsimp only
  rw [hen2]
  rfl

/-! ### Gaps at the end of the first training window -/

/-- C121. The same for integers and `pd.Timedelta` windows (such as `train_window=2.5, freq="D"`, or a window that ends in a gap of the labels,
e.g. on a weekend): if `label + train_window - unit` is none of the labels, every split with a test set has samples in both sets, not only
the first, whatever the embargo. -/
theorem gap_leaks {c : WFCfg} (hX : X.rows = some n) {a : Int} (ha : windowAmount (groupsInForce n gs).kind c.freq c.trainWindow = .ok a)
    (hb : label (groupsInForce n gs).vals 0 + a - timeUnit c.freq ∉ (groupsInForce n gs).vals)
    {o : WFObj} {fuel : Nat} {s : TrainTest} (hs : s ∈ (wfDrive c X y gs fuel o .fresh).1) (hne : s.2 ≠ []) : Leaks s := by
  have hpos : (groupsInForce n gs).kind.positional = true := by
    by_contra hk
    have hk : (groupsInForce n gs).kind.positional = false := by simpa using hk
    cases gs with
    | none => simp [groupsInForce, GKind.positional] at hk
    | some ga =>
      cases ga with
      | other => simp [groupsInForce, GKind.positional] at hk
      | arr g =>
        cases fuel with
        | zero => simp [wfDrive] at hs
        | succ fuel =>
          obtain ⟨e, he⟩ := walk_series_always_raises (X := X) (y := y) (c := c) (g := g) hk o fuel
          rw [he] at hs
          simp at hs
  obtain ⟨m, v, hm, hbase, ⟨p2, p3, p4, -⟩, hsp⟩ := wfDrive_inv (y := y) (gs := gs) (c := c)
    (fun v => v.trainEnd = v.testStart ∧ v.trainStart ≤ v.trainEnd ∧ v.trainEnd ∈ (groupsInForce n gs).vals ∧
      (c.rolling = false → ∀ x ∈ (groupsInForce n gs).vals, v.trainStart ≤ x))
    (by
      intro m v hm hbase hv
      rw [hX] at hm; cases hm
      rw [groupsOrArange_eq] at hv
      have hso := baseSplit_sorted hbase
      unfold wfStart at hv
      obtain ⟨s0, h1, hv⟩ := bind_ok_inv hv
      obtain ⟨a', ha', hv⟩ := bind_ok_inv hv
      obtain ⟨te, hte, hv⟩ := bind_ok_inv hv
      obtain ⟨ts, hts, hv⟩ := bind_ok_inv hv
      obtain ⟨b', _, hv⟩ := bind_ok_inv hv
      obtain ⟨tn, _, hv⟩ := bind_ok_inv hv
      cases hv
      rw [ha] at ha'; cases ha'
      obtain ⟨hl, hmin⟩ := groupAt_zero hpos hso h1
      rw [← hl] at hb
      have h3 := (groupAt_left hpos hso _ _).mp hte
      have h4 := (groupAt_right hpos hso _ _).mp hts
      refine ⟨le_antisymm (h3.2 ⟨h4.1.1, h4.1.2.le⟩) (h4.2 ⟨h3.1.1, lt_of_le_of_ne h3.1.2 ?_⟩), hmin _ h3.1.1, h3.1.1, fun _ => hmin⟩
      intro heq
      rw [heq] at hb
      exact hb h3.1.1)
    (by
      intro m v v' hm hbase hq hv
      rw [hX] at hm; cases hm
      rw [groupsOrArange_eq] at hv
      have hso := baseSplit_sorted hbase
      unfold wfAdvance at hv
      obtain ⟨b', _, hv⟩ := bind_ok_inv hv
      obtain ⟨te, hte, hv⟩ := bind_ok_inv hv
      obtain ⟨ts, hts, hv⟩ := bind_ok_inv hv
      obtain ⟨la, _, hv⟩ := bind_ok_inv hv
      obtain ⟨tn, _, hv⟩ := bind_ok_inv hv
      cases hv
      obtain ⟨q1, q2, q3, q4⟩ := hq
      have h3 := (groupAt_left hpos hso _ _).mp hte
      rw [← q1, hte] at hts
      refine ⟨Except.ok.inj hts, ?_, h3.1.1, fun hr => ?_⟩
      · dsimp only
        split
        · have := h3.1.2; omega
        · next hr => exact q4 (by simpa using hr) _ h3.1.1
      · dsimp only
        rw [hr]
        exact q4 hr) hs
  rw [hX] at hm; cases hm
  rw [groupsOrArange_eq] at hsp
  obtain ⟨hlen, -, -, hte, hno, hpo⟩ := wfSplit_inv hsp
  obtain ⟨j, hj⟩ := List.exists_mem_of_ne_nil _ hne
  obtain ⟨i, hi, hil⟩ := exists_label p4
  rw [hlen] at hi
  have hj' := (hte j).mp hj
  have hi2 : i ∈ s.2 := by
    rw [hte, hil]
    exact ⟨hi, p2.ge, by rw [p2]; exact hj'.2.1.trans hj'.2.2⟩
  refine ⟨i, ?_, hi2⟩
  cases he : c.nEmbargo.pos with
  | false =>
    rw [hno he, hil]
    exact ⟨hi, p3, le_rfl⟩
  | true =>
    obtain ⟨-, k, -, -, hk⟩ := hpo he
    rw [hk, hil]
    refine ⟨⟨hi, p3, le_rfl⟩, ?_⟩
    rintro ⟨q, hq, -, hlt⟩
    rw [hil] at hlt
    have : q ≤ label (groupsInForce n gs).vals i := hq.2 ⟨i, hi2, rfl⟩
    omega

/-- The case of `walk_business_day_leak`, in all splits of its run: two weeks of business days, a training window of 6 days that ends on a
Saturday. -/
example : ∀ s ∈ (wfDrive ⟨.td 2, .int 0, .td 6, .td 2, false, some 1⟩ (.dataFrame 10) .none
    (some (.arr ⟨.dtIndex, [0, 1, 2, 3, 4, 7, 8, 9, 10, 11]⟩)) 9 .init .fresh).1, s.2 ≠ [] → Leaks s :=
  fun _ hs hne => gap_leaks (n := 10) rfl (a := 6) rfl (by decide) hs hne

end Verif.Split
