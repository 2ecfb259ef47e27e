import Verif.Props.WalkForward

/-!
# Construction of `WalkForward` and units of its windows (C13, C14)
-/

namespace Verif.Split

variable {E P : DeltaArg} {w v : Delta} {st : SplitType} {fr : Option Nat} {c : WFCfg} {X : XArg} {y : YArg} {gs : Option GroupsArg} {n : Nat}

/-- A non-negative integer or a non-negative time difference. -/
def GoodDelta (d : DeltaArg) : Prop := (∃ k : Nat, d = .ok (.int k)) ∨ ∃ k : Nat, d = .ok (.td k)

theorem goodDelta_iff (d : Delta) : GoodDelta (.ok d) ↔ d.neg = false := by
  cases d with
  | int k =>
    simp only [GoodDelta, DeltaArg.ok.injEq, Delta.int.injEq, reduceCtorEq, exists_false, or_false, Delta.neg, decide_eq_false_iff_not]
    exact ⟨by rintro ⟨m, rfl⟩; omega, fun h => ⟨k.toNat, by omega⟩⟩
  | td k =>
    simp only [GoodDelta, DeltaArg.ok.injEq, Delta.td.injEq, reduceCtorEq, exists_false, false_or, Delta.neg, decide_eq_false_iff_not]
    exact ⟨by rintro ⟨m, rfl⟩; omega, fun h => ⟨k.toNat, by omega⟩⟩

/-- C14. The constructor succeeds exactly with a non-negative embargo and purge and one of the two split types, whatever the windows;
otherwise it raises `TypeError` (embargo or purge of another type) or `ValueError`. -/
theorem walk_init_outcome (E P : DeltaArg) (w v : Delta) (st : SplitType) (fr : Option Nat) :
    ((∃ c, wfInit E P w v st fr = .ok c) ↔ GoodDelta E ∧ GoodDelta P ∧ st ≠ .other) ∧
    (wfInit E P w v st fr = .error .typeError ↔ E = .other ∨ P = .other) ∧
    (E ≠ .other → P ≠ .other → ¬ (GoodDelta E ∧ GoodDelta P ∧ st ≠ .other) → wfInit E P w v st fr = .error .valueError) := by
  have bad : ¬ GoodDelta .other := by rintro (⟨k, h⟩ | ⟨k, h⟩) <;> cases h
  cases E with
  | other => simp [wfInit, baseInit, bind, Except.bind, bad]
  | ok e => cases P with
    | other => simp [wfInit, baseInit, bind, Except.bind, bad]
    | ok p =>
      rw [goodDelta_iff, goodDelta_iff]
      cases he : e.neg <;> cases hp : p.neg <;> cases st <;> cases fr <;> simp [wfInit, baseInit, bind, Except.bind, he, hp]

/-- C13. With a `freq` of `u` nanoseconds an integer window of `k` is the same as the time difference `k * u`: the objects built from
either are the same. -/
theorem walk_init_units {u : Nat} (k m : Int) :
    wfInit E P (.int k) v st (some u) = wfInit E P (.td (k * u)) v st (some u) ∧
    wfInit E P w (.int m) st (some u) = wfInit E P w (.td (m * u)) st (some u) ∧
    ∀ c, wfInit E P (.td k) (.td m) st (some u) = .ok c → c.trainWindow = .td k ∧ c.testWindow = .td m ∧ c.freq = some u := by
  refine ⟨?_, ?_, ?_⟩
  · unfold wfInit; cases st <;> rfl
  · unfold wfInit; cases st <;> rfl
  · intro c h
    unfold wfInit at h
    obtain ⟨ep, -, h⟩ := bind_ok_inv h
    cases st <;> cases h <;> exact ⟨rfl, rfl, rfl⟩

/-- Labels, `freq` and a window can be added. -/
def Addable (k : GKind) (fr : Option Nat) (w : Delta) : Prop :=
  ((k = .ndarray ∨ k = .seriesInt) ∧ fr = none ∧ ∃ m, w = .int m) ∨ ((k = .dtIndex ∨ k = .seriesTime) ∧ fr ≠ none ∧ ∃ t, w = .td t)

theorem windowAmount_ok_iff (k : GKind) : (∃ a, windowAmount k fr w = .ok a) ↔ Addable k fr w := by
  cases k <;> cases fr <;> cases w <;> simp [windowAmount, Addable]

theorem windowAmount_err {k : GKind} (h : ¬ Addable k fr w) : windowAmount k fr w = .error .typeError := by
  rw [← windowAmount_ok_iff] at h
  cases k <;> cases fr <;> cases w <;> first | rfl | exact absurd ⟨_, rfl⟩ h

/-- C13. When labels, `freq` and training window do not fit together the first `next` raises `TypeError`. -/
theorem walk_units_mismatch (hX : X.rows = some n) (hy : y ≠ .other) (hg : gs ≠ some .other)
    (hs : (groupsInForce n gs).vals.Pairwise (· ≤ ·)) (hne : (groupsInForce n gs).vals ≠ [])
    (hbad : ¬ Addable (groupsInForce n gs).kind c.freq c.trainWindow) (o : WFObj) (fuel : Nat) :
    wfDrive c X y gs (fuel + 1) o .fresh = ([], some (.raised .typeError), o) := by
  have hbase := baseSplit_accepted hX hy hg hs
  have hst : wfStart c (groupsInForce n gs) = .error .typeError := by
    unfold wfStart
    have : ∃ s, groupAt (groupsInForce n gs) 0 = .ok s := by
      obtain ⟨a, l, hl⟩ := List.exists_cons_of_ne_nil hne
      refine ⟨a, ?_⟩
      unfold groupAt
      rw [hl]
      cases (groupsInForce n gs).kind <;> rfl
    obtain ⟨s, hs⟩ := this
    simp only [hs, bind, Except.bind, windowAmount_err hbad]
  rw [wfDrive]
  simp only [wfNext, wfBegin, hbase, groupsOrArange_eq, hst]

/-- C13. Time labels need `freq`: without it every call fails at the first `next`, with time differences as windows too. Integer labels
must not have it. -/
theorem walk_freq_needed (hc : wfInit E P w v st fr = .ok c) (hX : X.rows = some n) (hy : y ≠ .other) (hg : gs ≠ some .other)
    (hs : (groupsInForce n gs).vals.Pairwise (· ≤ ·)) (hne : (groupsInForce n gs).vals ≠ [])
    (hk : (fr = none ∧ ((groupsInForce n gs).kind = .dtIndex ∨ (groupsInForce n gs).kind = .seriesTime)) ∨
      (fr ≠ none ∧ ((groupsInForce n gs).kind = .ndarray ∨ (groupsInForce n gs).kind = .seriesInt))) (o : WFObj) (fuel : Nat) :
    wfDrive c X y gs (fuel + 1) o .fresh = ([], some (.raised .typeError), o) := by
  have hf : c.freq = fr := by
    unfold wfInit at hc
    obtain ⟨ep, -, hc⟩ := bind_ok_inv hc
    cases st <;> cases fr <;> cases hc <;> rfl
  refine walk_units_mismatch hX hy hg hs hne ?_ o fuel
  rw [hf]
  rintro (⟨h1, h2, -⟩ | ⟨h1, h2, -⟩)
  · rcases hk with ⟨-, h | h⟩ | ⟨h, -⟩
    · rw [h] at h1; simp at h1
    · rw [h] at h1; simp at h1
    · exact h h2
  · rcases hk with ⟨h, -⟩ | ⟨-, h | h⟩
    · exact h2 h
    · rw [h] at h1; simp at h1
    · rw [h] at h1; simp at h1

/-- Daily labels and windows of three days without `freq`. -/
example : (∃ c, wfInit (.ok (.int 0)) (.ok (.int 0)) (.td 15) (.td 5) .rolling none = .ok c ∧
    wfDrive c (.ndarray 3) .none (some (.arr ⟨.dtIndex, [100, 105, 110]⟩)) 1 .init .fresh = ([], some (.raised .typeError), .init)) ∧
    wfInit (.ok (.int 0)) (.ok (.int 0)) (.int 3) (.td 5) .rolling (some 5) = wfInit (.ok (.int 0)) (.ok (.int 0)) (.td 15) (.td 5) .rolling (some 5) ∧
    wfInit (.ok (.int 0)) (.ok (.td 0)) (.int 3) (.td 5) .other (some 5) = .error .valueError := by
  obtain ⟨c, hc⟩ := (walk_init_outcome (.ok (.int 0)) (.ok (.int 0)) (.td 15) (.td 5) .rolling none).1.mpr
    ⟨.inl ⟨0, rfl⟩, .inl ⟨0, rfl⟩, by decide⟩
  refine ⟨⟨c, hc, walk_freq_needed hc (n := 3) rfl (by decide) (by decide) (by decide) (by decide) (.inl ⟨rfl, .inl rfl⟩) _ _⟩,
    (walk_init_units (w := .td 15) 3 5).1, ?_⟩
  exact (walk_init_outcome _ _ _ _ _ _).2.2 (by decide) (by decide) (by simp)

end Verif.Split
