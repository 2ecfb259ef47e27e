import Verif.Model.WalkFloat
import Verif.Lemmas.WalkForward

/-!
# Runs of `WalkForward` with float windows
-/

namespace Verif.Split

open List

theorem leftOf_eq (vals : List Int) (v : ℝ) : leftOf vals v = searchLeft vals ⌈v⌉ := by
  unfold leftOf searchLeft
  congr 2
  funext x
  rw [decide_eq_decide]
  exact Int.lt_ceil.symm

theorem rightOf_eq (vals : List Int) (v : ℝ) : rightOf vals v = searchRight vals ⌊v⌋ := by
  unfold rightOf searchRight
  congr 2
  funext x
  rw [decide_eq_decide]
  exact Int.le_floor.symm

theorem groupAt_leftOf {g : GArr} (hk : g.kind.positional = true) (hs : g.vals.Pairwise (· ≤ ·)) (v : ℝ) (w : Int) :
    groupAt g (leftOf g.vals v) = .ok w ↔ IsLeast {x : Int | x ∈ g.vals ∧ v ≤ x} w := by
  rw [leftOf_eq, groupAt_left hk hs]
  simp only [Int.ceil_le]

theorem groupAt_rightOf {g : GArr} (hk : g.kind.positional = true) (hs : g.vals.Pairwise (· ≤ ·)) (v : ℝ) (w : Int) :
    groupAt g (rightOf g.vals v) = .ok w ↔ IsLeast {x : Int | x ∈ g.vals ∧ v < x} w := by
  rw [rightOf_eq, groupAt_right hk hs]
  simp only [Int.floor_lt]

/-- Between labels both sides of `searchsorted` agree. -/
theorem rightOf_not_mem {vals : List Int} {v : ℝ} (h : ∀ x ∈ vals, (x : ℝ) ≠ v) : rightOf vals v = leftOf vals v := by
  unfold leftOf rightOf
  congr 1
  induction vals with
  | nil => rfl
  | cons x l ih =>
    rw [List.takeWhile_cons, List.takeWhile_cons, ih fun y hy => h y (List.mem_cons_of_mem _ hy)]
    have : decide ((x : ℝ) ≤ v) = decide ((x : ℝ) < v) := by
      rw [decide_eq_decide]
      exact ⟨fun hle => lt_of_le_of_ne hle (h x List.mem_cons_self), le_of_lt⟩
    rw [this]

theorem wfSplitF_inv {c : WFCfgF} {n : Nat} {g : GArr} {v : FVars} {s : TrainTest} (h : wfSplitF c n g v = .ok s) :
    g.vals.length = n ∧
    (∀ i, i ∈ s.2 ↔ i < n ∧ v.testStart ≤ label g.vals i ∧ label g.vals i ≤ v.testEnd) ∧
    (c.nEmbargo.pos = false → ∀ i, i ∈ s.1 ↔ i < n ∧ v.trainStart ≤ label g.vals i ∧ label g.vals i ≤ v.trainEnd) ∧
    (c.nEmbargo.pos = true → ∃ k, deltaAmount g.kind c.nEmbargo = .ok k ∧
      ∀ i, i ∈ s.1 ↔ (i < n ∧ v.trainStart ≤ label g.vals i ∧ label g.vals i ≤ v.trainEnd) ∧ ¬ InEmbargo g.vals s.2 k i) := by
  classical
  unfold wfSplitF at h
  obtain ⟨tr, htr, h⟩ := bind_ok_inv h
  obtain ⟨te, hte, h⟩ := bind_ok_inv h
  have hn : g.vals.length = n := by
    by_contra hcon
    rw [npMask_range_ne hcon] at htr
    cases htr
  obtain ⟨tr', h1, h2, h3⟩ := npMask_range hn (fun x => decide (v.trainStart ≤ x) && decide (x ≤ v.trainEnd))
  obtain ⟨te', k1, k2, k3⟩ := npMask_range hn (fun x => decide (v.testStart ≤ x) && decide (x ≤ v.testEnd))
  have et : tr = tr' := by
    have : Except.ok (ε := PyErr) tr = .ok tr' := by
      rw [← htr, ← h1]
    exact Except.ok.inj this
  have ee : te = te' := by
    have : Except.ok (ε := PyErr) te = .ok te' := by
      rw [← hte, ← k1]
    exact Except.ok.inj this
  subst et ee
  have h3' : ∀ i, i ∈ tr ↔ i < n ∧ v.trainStart ≤ label g.vals i ∧ label g.vals i ≤ v.trainEnd := by
    intro i; rw [h3]; simp [label]
  have k3' : ∀ i, i ∈ te ↔ i < n ∧ v.testStart ≤ label g.vals i ∧ label g.vals i ≤ v.testEnd := by
    intro i; rw [k3]; simp [label]
  refine ⟨hn, ?_⟩
  split at h
  · next hpos =>
    obtain ⟨tr2, he, h⟩ := bind_ok_inv h
    cases h
    obtain ⟨-, k, hk, q1, q2, q3, q4⟩ := embargo_inv hn (fun i hi => ((k3' i).mp hi).1) he
    refine ⟨k3', fun hf => ?_, fun _ => ⟨k, hk, fun i => ?_⟩⟩
    · rw [hpos] at hf; cases hf
    rw [q4 i, h3' i]
    tauto
  · next hpos =>
    cases h
    exact ⟨k3', fun _ => h3', fun h => absurd h hpos⟩

theorem wfDriveF_inv {fl : ℝ → ℝ} {c : WFCfgF} {X : XArg} {y : YArg} {gs : Option GroupsArg} (P : FVars → Prop)
    (h0 : ∀ n v, X.rows = some n → baseSplit X y gs = .ok n → wfStartF fl c (groupsOrArange n gs) = .ok v → P v)
    (h1 : ∀ n v v', X.rows = some n → baseSplit X y gs = .ok n → P v → wfAdvanceF fl c (groupsOrArange n gs) v = .ok v' → P v')
    {fuel : Nat} {s : TrainTest} (hs : s ∈ (wfDriveF fl c X y gs fuel .fresh).1) :
    ∃ n v, X.rows = some n ∧ baseSplit X y gs = .ok n ∧ P v ∧ wfSplitF c n (groupsOrArange n gs) v = .ok s := by
  have hrows : ∀ n, baseSplit X y gs = .ok n → X.rows = some n ∧ xRows X = n := by
    intro n h
    have := (baseSplit_ok h).1
    refine ⟨this, ?_⟩
    cases X <;> simp [XArg.rows] at this <;> simpa [xRows] using this
  have henter : ∀ n v s gen, wfEnterF c n (groupsOrArange n gs) v = (.yielded s, gen) →
      gen = .suspended v ∧ wfSplitF c n (groupsOrArange n gs) v = .ok s := by
    intro n v s gen h
    unfold wfEnterF at h
    split at h
    · simp at h
    · split at h
      · split at h
        · simp at h
        · next hok => simp at h; exact ⟨h.2.symm, by rw [← h.1]; exact hok⟩
      · simp at h
  have main : ∀ n, baseSplit X y gs = .ok n → ∀ fuel v, P v → ∀ s ∈ (wfDriveF fl c X y gs fuel (.suspended v)).1,
      ∃ v', P v' ∧ wfSplitF c n (groupsOrArange n gs) v' = .ok s := by
    intro n hn fuel
    obtain ⟨hr, hx⟩ := hrows n hn
    induction fuel with
    | zero => intro v _ s hs; simp [wfDriveF] at hs
    | succ fuel ih =>
      intro v hv s hs
      rw [wfDriveF] at hs
      simp only [wfNextF, hx] at hs
      cases hl : groupLast (groupsOrArange n gs) with
      | error e => simp [hl] at hs
      | ok last =>
        simp only [hl] at hs
        by_cases hle : last ≤ v.testEnd
        · simp [hle] at hs
        · simp only [if_neg hle] at hs
          cases ha : wfAdvanceF fl c (groupsOrArange n gs) v with
          | error e => simp [ha] at hs
          | ok v' =>
            have hv' := h1 n v v' hr hn hv ha
            simp only [ha] at hs
            rcases hen : wfEnterF c n (groupsOrArange n gs) v' with ⟨res, gen⟩
            rw [hen] at hs
            cases res with
            | yielded s' =>
              obtain ⟨rfl, hsp⟩ := henter n v' s' gen hen
              simp only [List.mem_cons] at hs
              rcases hs with rfl | hs
              · exact ⟨v', hv', hsp⟩
              · exact ih v' hv' s hs
            | stopped => simp at hs
            | raised e => simp at hs
  cases fuel with
  | zero => simp [wfDriveF] at hs
  | succ fuel =>
    rw [wfDriveF] at hs
    simp only [wfNextF] at hs
    cases hb : baseSplit X y gs with
    | error e => simp [hb] at hs
    | ok n =>
      obtain ⟨hr, hx⟩ := hrows n hb
      simp only [hb] at hs
      cases hst : wfStartF fl c (groupsOrArange n gs) with
      | error e => simp [hst] at hs
      | ok v =>
        have hv := h0 n v hr hb hst
        simp only [hst] at hs
        rcases hen : wfEnterF c n (groupsOrArange n gs) v with ⟨res, gen⟩
        rw [hen] at hs
        cases res with
        | yielded s' =>
          obtain ⟨rfl, hsp⟩ := henter n v s' gen hen
          simp only [List.mem_cons] at hs
          rcases hs with rfl | hs
          · exact ⟨n, v, hr, rfl, hv, hsp⟩
          · obtain ⟨v', q1, q2⟩ := main n hb fuel v hv s hs
            exact ⟨n, v', hr, rfl, q1, q2⟩
        | stopped => simp at hs
        | raised e => simp at hs

end Verif.Split
