import Verif.Spec.WalkForward
import Verif.Lemmas.KFoldRun
import Mathlib.Tactic.Ring
import Mathlib.Tactic.Linarith

/-! # Lemmas about the walk-forward model -/

namespace Verif.Split

open List

theorem searchLeft_le (vals : List Int) (v : Int) : searchLeft vals v ≤ vals.length :=
  (List.takeWhile_sublist _).length_le

theorem searchLeft_cons (x : Int) (l : List Int) (v : Int) :
    searchLeft (x :: l) v = if x < v then searchLeft l v + 1 else 0 := by
  unfold searchLeft
  rw [List.takeWhile_cons]
  by_cases h : x < v <;> simp [h]

theorem searchRight_eq (vals : List Int) (v : Int) : searchRight vals v = searchLeft vals (v + 1) := by
  unfold searchRight searchLeft
  congr 2
  funext x
  simp only [Int.lt_add_one_iff]

/-- The element found by `searchsorted` on the left is the smallest label that is not below `v`. -/
theorem get_searchLeft {vals : List Int} (hs : vals.Pairwise (· ≤ ·)) (v w : Int) :
    vals[searchLeft vals v]? = some w ↔ IsLeast {x | x ∈ vals ∧ v ≤ x} w := by
  induction vals with
  | nil => simp [IsLeast]
  | cons x l ih =>
    rw [searchLeft_cons]
    have hs' := List.pairwise_cons.mp hs
    by_cases hx : x < v
    · rw [if_pos hx, List.getElem?_cons_succ, ih hs'.2]
      unfold IsLeast lowerBounds
      simp only [Set.mem_ofPred_eq, List.mem_cons]
      constructor
      · rintro ⟨⟨h1, h2⟩, h3⟩
        refine ⟨⟨Or.inr h1, h2⟩, fun y hy => ?_⟩
        rcases hy.1 with rfl | hy1
        · omega
        · exact h3 ⟨hy1, hy.2⟩
      · rintro ⟨⟨h1, h2⟩, h3⟩
        refine ⟨⟨?_, h2⟩, fun y hy => h3 ⟨Or.inr hy.1, hy.2⟩⟩
        rcases h1 with rfl | h1
        · omega
        · exact h1
    · rw [if_neg hx, List.getElem?_cons_zero]
      unfold IsLeast lowerBounds
      simp only [Set.mem_ofPred_eq, List.mem_cons, Option.some.injEq]
      constructor
      · rintro rfl
        refine ⟨⟨Or.inl rfl, by omega⟩, fun y hy => ?_⟩
        rcases hy.1 with rfl | hy1
        · exact le_refl _
        · exact hs'.1 y hy1
      · rintro ⟨⟨h1, h2⟩, h3⟩
        have h4 := h3 (a := x) ⟨Or.inl rfl, by omega⟩
        rcases h1 with rfl | h1
        · rfl
        · exact le_antisymm (hs'.1 w h1) h4

theorem get_searchLeft_none {vals : List Int} (v : Int) (h : ∀ x ∈ vals, x < v) :
    vals[searchLeft vals v]? = none := by
  rw [List.getElem?_eq_none_iff]
  induction vals with
  | nil => simp
  | cons x l ih =>
    rw [searchLeft_cons, if_pos (h x (by simp))]
    have := ih (fun y hy => h y (by simp [hy]))
    simp only [List.length_cons]
    omega

theorem groupAt_positional {g : GArr} (hk : g.kind.positional = true) (i : Nat) :
    groupAt g i = pyGet g.vals i := by
  unfold groupAt
  cases hkk : g.kind <;> rw [hkk] at hk <;> simp [GKind.positional] at hk ⊢

theorem groupAt_left {g : GArr} (hk : g.kind.positional = true) (hs : g.vals.Pairwise (· ≤ ·)) (v w : Int) :
    groupAt g (searchLeft g.vals v) = .ok w ↔ IsLeast {x | x ∈ g.vals ∧ v ≤ x} w := by
  rw [groupAt_positional hk, pyGet_ok, get_searchLeft hs]

theorem groupAt_right {g : GArr} (hk : g.kind.positional = true) (hs : g.vals.Pairwise (· ≤ ·)) (v w : Int) :
    groupAt g (searchRight g.vals v) = .ok w ↔ IsLeast {x | x ∈ g.vals ∧ v < x} w := by
  rw [searchRight_eq, groupAt_left hk hs]
  simp only [Int.add_one_le_iff]

theorem groupAt_left_err {g : GArr} (hk : g.kind.positional = true) {v : Int} (h : ∀ x ∈ g.vals, x < v) :
    groupAt g (searchLeft g.vals v) = .error .indexError := by
  have := get_searchLeft_none v h
  rw [groupAt_positional hk, pyGet, this]

theorem groupLast_ok {g : GArr} (hk : g.kind.positional = true) (hs : g.vals.Pairwise (· ≤ ·)) (w : Int) :
    groupLast g = .ok w ↔ IsGreatest {x | x ∈ g.vals} w := by
  have : groupLast g = pyLast g.vals := by
    unfold groupLast
    cases hkk : g.kind <;> rw [hkk] at hk <;> simp [GKind.positional] at hk ⊢
  rw [this, pyLast_ok]
  constructor
  · intro h
    refine ⟨List.mem_of_getLast? h, fun x hx => ?_⟩
    obtain ⟨ys, hys⟩ := List.getLast?_eq_some_iff.mp h
    rw [hys] at hs hx
    simp only [Set.mem_ofPred_eq, List.mem_append, List.mem_singleton] at hx
    rcases hx with hx | rfl
    · exact (List.pairwise_append.mp hs).2.2 x hx w (by simp)
    · exact le_refl _
  · rintro ⟨h1, h2⟩
    cases hl : g.vals.getLast? with
    | none =>
      rw [List.getLast?_eq_none_iff] at hl
      rw [hl] at h1; simp at h1
    | some z =>
      obtain ⟨ys, hys⟩ := List.getLast?_eq_some_iff.mp hl
      rw [hys] at hs h1 h2
      simp only [Set.mem_ofPred_eq, List.mem_append, List.mem_singleton] at h1
      have hz := h2 (a := z) (by simp)
      rcases h1 with h1 | rfl
      · have := (List.pairwise_append.mp hs).2.2 w h1 z (by simp)
        rw [le_antisymm hz this]
      · rfl

/-! ### One split -/

theorem wfSplit_inv {c : WFCfg} {n : Nat} {g : GArr} {v : LoopVars} {s : TrainTest}
    (h : wfSplit c n g v = .ok s) :
    g.vals.length = n ∧ s.1.Pairwise (· < ·) ∧ s.2.Pairwise (· < ·) ∧
    (∀ i, i ∈ s.2 ↔ i < n ∧ v.testStart ≤ label g.vals i ∧ label g.vals i ≤ v.testEnd) ∧
    (c.nEmbargo.pos = false → ∀ i, i ∈ s.1 ↔
      i < n ∧ v.trainStart ≤ label g.vals i ∧ label g.vals i ≤ v.trainEnd) ∧
    (c.nEmbargo.pos = true → s.1 ≠ [] ∧ ∃ k, deltaAmount g.kind c.nEmbargo = .ok k ∧
      (g.kind = .ndarray → s.2 ≠ []) ∧
      ∀ i, i ∈ s.1 ↔ (i < n ∧ v.trainStart ≤ label g.vals i ∧ label g.vals i ≤ v.trainEnd) ∧
        ¬ InEmbargo g.vals s.2 k i) := by
  unfold wfSplit at h
  obtain ⟨tr, htr, h⟩ := bind_ok_inv h
  obtain ⟨te, hte, h⟩ := bind_ok_inv h
  have hn : g.vals.length = n := by
    by_contra hcon
    rw [npMask_range_ne hcon] at htr
    cases htr
  obtain ⟨tr', h1, h2, h3⟩ := npMask_range hn
    (fun x => decide (v.trainStart ≤ x) && decide (x ≤ v.trainEnd))
  obtain ⟨te', k1, k2, k3⟩ := npMask_range hn
    (fun x => decide (v.testStart ≤ x) && decide (x ≤ v.testEnd))
  rw [h1] at htr; cases htr
  rw [k1] at hte; cases hte
  have h3' : ∀ i, i ∈ tr ↔ i < n ∧ v.trainStart ≤ label g.vals i ∧ label g.vals i ≤ v.trainEnd := by
    intro i; rw [h3]; simp [label]
  have k3' : ∀ i, i ∈ te ↔ i < n ∧ v.testStart ≤ label g.vals i ∧ label g.vals i ≤ v.testEnd := by
    intro i; rw [k3]; simp [label]
  refine ⟨hn, ?_⟩
  split at h
  · next hpos =>
    obtain ⟨tr2, he, h⟩ := bind_ok_inv h
    cases h
    obtain ⟨-, k, hk, q1, q2, q3, q4⟩ := embargo_inv hn (fun i hi => ((k3' i).mp hi).1) he
    refine ⟨q1, k2, k3', fun hf => ?_, fun _ => ⟨q2, k, hk, q3, fun i => ?_⟩⟩
    · rw [hpos] at hf; cases hf
    rw [q4 i, h3' i]
    tauto
  · next hpos =>
    cases h
    exact ⟨h2, k2, k3', fun _ => h3', fun h => absurd h hpos⟩

/-! ### All runs: an induction principle -/

theorem wfDrive_inv {c : WFCfg} {X : XArg} {y : YArg} {gs : Option GroupsArg} (P : LoopVars → Prop)
    (h0 : ∀ n v, X.rows = some n → baseSplit X y gs = .ok n →
      wfStart c (groupsOrArange n gs) = .ok v → P v)
    (h1 : ∀ n v v', X.rows = some n → baseSplit X y gs = .ok n → P v →
      wfAdvance c (groupsOrArange n gs) v = .ok v' → P v')
    {fuel : Nat} {o : WFObj} {s : TrainTest} (hs : s ∈ (wfDrive c X y gs fuel o .fresh).1) :
    ∃ n v, X.rows = some n ∧ baseSplit X y gs = .ok n ∧ P v ∧
      wfSplit c n (groupsOrArange n gs) v = .ok s := by
  have hrows : ∀ n, baseSplit X y gs = .ok n → X.rows = some n ∧ xRows X = n := by
    intro n h
    have := (baseSplit_ok h).1
    refine ⟨this, ?_⟩
    cases X <;> simp [XArg.rows] at this <;> simpa [xRows] using this
  have henter : ∀ n v s gen, wfEnter c n (groupsOrArange n gs) v = (.yielded s, gen) →
      gen = .suspended v ∧ wfSplit c n (groupsOrArange n gs) v = .ok s := by
    intro n v s gen h
    unfold wfEnter at h
    split at h
    · simp at h
    · split at h
      · split at h
        · simp at h
        · next hok => simp at h; exact ⟨h.2.symm, by rw [← h.1]; exact hok⟩
      · simp at h
  have main : ∀ n, baseSplit X y gs = .ok n → ∀ fuel o v, P v →
      ∀ s ∈ (wfDrive c X y gs fuel o (.suspended v)).1,
      ∃ v', P v' ∧ wfSplit c n (groupsOrArange n gs) v' = .ok s := by
    intro n hn fuel
    obtain ⟨hr, hx⟩ := hrows n hn
    induction fuel with
    | zero => intro o v _ s hs; simp [wfDrive] at hs
    | succ fuel ih =>
      intro o v hv s hs
      rw [wfDrive] at hs
      simp only [wfNext, wfResume, hx] at hs
      cases hl : groupLast (groupsOrArange n gs) with
      | error e => simp [hl] at hs
      | ok last =>
        simp only [hl] at hs
        by_cases hle : last ≤ v.testEnd
        · simp [hle] at hs
        · simp only [if_neg hle] at hs
          cases ha : wfAdvance c (groupsOrArange n gs) v with
          | error e => simp [ha] at hs
          | ok v' =>
            have hv' := h1 n v v' hr hn hv ha
            simp only [ha] at hs
            rcases hen : wfEnter c n (groupsOrArange n gs) v' with ⟨res, gen⟩
            rw [hen] at hs
            cases res with
            | yielded s' =>
              obtain ⟨rfl, hsp⟩ := henter n v' s' gen hen
              simp only [List.mem_cons] at hs
              rcases hs with rfl | hs
              · exact ⟨v', hv', hsp⟩
              · exact ih _ v' hv' s hs
            | stopped => simp at hs
            | raised e => simp at hs
  cases fuel with
  | zero => simp [wfDrive] at hs
  | succ fuel =>
    rw [wfDrive] at hs
    simp only [wfNext, wfBegin] at hs
    cases hb : baseSplit X y gs with
    | error e => simp [hb] at hs
    | ok n =>
      obtain ⟨hr, hx⟩ := hrows n hb
      simp only [hb] at hs
      cases hst : wfStart c (groupsOrArange n gs) with
      | error e => simp [hst] at hs
      | ok v =>
        have hv := h0 n v hr hb hst
        simp only [hst] at hs
        rcases hen : wfEnter c n (groupsOrArange n gs) v with ⟨res, gen⟩
        rw [hen] at hs
        cases res with
        | yielded s' =>
          obtain ⟨rfl, hsp⟩ := henter n v s' gen hen
          simp only [List.mem_cons] at hs
          rcases hs with rfl | hs
          · exact ⟨n, v, hr, rfl, hv, hsp⟩
          · obtain ⟨v', q1, q2⟩ := main n hb fuel _ v hv s hs
            exact ⟨n, v', hr, rfl, q1, q2⟩
        | stopped => simp at hs
        | raised e => simp at hs

theorem groupsOrArange_eq (n : Nat) (gs : Option GroupsArg) : groupsOrArange n gs = groupsInForce n gs := rfl

theorem baseSplit_sorted {X : XArg} {y : YArg} {gs : Option GroupsArg} {n : Nat}
    (h : baseSplit X y gs = .ok n) : (groupsOrArange n gs).vals.Pairwise (· ≤ ·) :=
  (baseSplit_ok h).2.1

/-! ### Gapless groups: the loop variables in closed form -/

/-- The loop variables of iteration `k`. -/
def wfVars (g0 : Int) (u a b G : Nat) (rolling : Bool) (k : Nat) : LoopVars :=
  ⟨g0 + ((if rolling then k * b else 0) * u : Nat), g0 + ((a - 1 + k * b) * u : Nat),
    g0 + ((a + k * b) * u : Nat), g0 + (min (a + (k + 1) * b - 1) (G - 1) * u : Nat)⟩

theorem Fits.positional {g : GArr} {fr : Option Nat} {u : Nat} (h : Fits g fr u) :
    g.kind.positional = true := by
  rcases h with ⟨h, -⟩ | ⟨h, -⟩ <;> rw [h] <;> rfl

theorem Fits.pos {g : GArr} {fr : Option Nat} {u : Nat} (h : Fits g fr u) : 0 < u := by
  rcases h with ⟨_, _, h⟩ | ⟨_, _, h⟩ <;> omega

theorem mul_u_le {u k k' : Nat} (hu : 0 < u) : k * u ≤ k' * u ↔ k ≤ k' :=
  Nat.mul_le_mul_right_iff hu

theorem gapless_least {vals : List Int} {g0 : Int} {u G : Nat} (_hu : 0 < u) (hg : Gapless vals g0 u G)
    {k : Nat} (hk : k < G) : IsLeast {x | x ∈ vals ∧ g0 + (k * u : Nat) ≤ x} (g0 + (k * u : Nat)) :=
  ⟨⟨(hg _).mpr ⟨k, hk, rfl⟩, le_refl _⟩, fun _ hx => hx.2⟩

theorem gapless_above {vals : List Int} {g0 : Int} {u G : Nat} (hu : 0 < u) (hg : Gapless vals g0 u G)
    {k : Nat} (hk : k + 1 < G) :
    IsLeast {x | x ∈ vals ∧ g0 + (k * u : Nat) < x} (g0 + ((k + 1) * u : Nat)) := by
  refine ⟨⟨(hg _).mpr ⟨k + 1, hk, rfl⟩, ?_⟩, ?_⟩
  · have : (k + 1) * u = k * u + u := by ring
    omega
  · rintro x ⟨hx, hlt⟩
    obtain ⟨j, -, rfl⟩ := (hg x).mp hx
    have : k * u < j * u := by omega
    have : k < j := Nat.lt_of_mul_lt_mul_right this
    have : (k + 1) * u ≤ j * u := Nat.mul_le_mul_right _ (by omega)
    omega

theorem gapless_last {vals : List Int} {g0 : Int} {u G : Nat} (hG : 0 < G)
    (hg : Gapless vals g0 u G) : IsGreatest {x | x ∈ vals} (g0 + ((G - 1) * u : Nat)) := by
  refine ⟨(hg _).mpr ⟨G - 1, by omega, rfl⟩, ?_⟩
  intro x hx
  obtain ⟨j, hj, rfl⟩ := (hg x).mp hx
  have : j * u ≤ (G - 1) * u := Nat.mul_le_mul_right _ (by omega)
  omega

theorem gapless_beyond {vals : List Int} {g0 : Int} {u G : Nat} (hu : 0 < u) (hg : Gapless vals g0 u G)
    {k : Nat} (hk : G ≤ k) : ∀ x ∈ vals, x < g0 + (k * u : Nat) := by
  intro x hx
  obtain ⟨j, hj, rfl⟩ := (hg x).mp hx
  have : (j + 1) * u ≤ k * u := Nat.mul_le_mul_right _ (by omega)
  have : (j + 1) * u = j * u + u := by ring
  omega

/-- `k` units as the constructor stores them. -/
def units (fr : Option Nat) (k : Nat) : Delta :=
  match fr with
  | some u => .td (k * u)
  | none => .int k

theorem windowAmount_fits {g : GArr} {fr : Option Nat} {u : Nat} (h : Fits g fr u) (k : Nat) :
    windowAmount g.kind fr (units fr k) = .ok (k * u : Nat) := by
  rcases h with ⟨h1, h2, h3⟩ | ⟨h1, h2, -⟩
  · subst h2 h3; rw [h1]; simp [windowAmount, units]
  · subst h2; rw [h1]; simp [windowAmount, units]

theorem timeUnit_fits {g : GArr} {fr : Option Nat} {u : Nat} (h : Fits g fr u) : timeUnit fr = u := by
  rcases h with ⟨h1, h2, h3⟩ | ⟨h1, h2, -⟩
  · subst h2 h3; rfl
  · subst h2; rfl

/-- What the constructor stores for integer windows. -/
structure WFInt (c : WFCfg) (fr : Option Nat) (a b e : Nat) (rolling : Bool) : Prop where
  freq : c.freq = fr
  train : c.trainWindow = units fr a
  test : c.testWindow = units fr b
  emb : c.nEmbargo = units fr e
  roll : c.rolling = rolling

theorem wfInit_int {np : DeltaArg} {fr : Option Nat} {a b e : Nat} {st : SplitType} {c : WFCfg}
    (hc : wfInit (.ok (.int e)) np (.int a) (.int b) st fr = .ok c) :
    WFInt c fr a b e (st == .rolling) := by
  unfold wfInit at hc
  obtain ⟨ep, hep, hc⟩ := bind_ok_inv hc
  have : ep.1 = .int e := by
    unfold baseInit at hep
    cases np with
    | other => cases hep
    | ok p =>
      simp only at hep
      split at hep
      · cases hep
      · cases hep; rfl
  cases st <;> cases fr <;> simp only [this] at hc <;> cases hc <;>
    exact ⟨rfl, rfl, rfl, rfl, rfl⟩

theorem wfStart_gapless {c : WFCfg} {g : GArr} {fr : Option Nat} {u a b e G : Nat} {g0 : Int} {r : Bool}
    (hc : WFInt c fr a b e r) (hf : Fits g fr u) (hs : g.vals.Pairwise (· ≤ ·))
    (hg : Gapless g.vals g0 u G) (hG : 0 < G) (ha : 1 ≤ a) (hb : 1 ≤ b) :
    wfStart c g = if a + b ≤ G then .ok (wfVars g0 u a b G r 0) else .error .indexError := by
  have hu := hf.pos
  have hpos := hf.positional
  have h0 : groupAt g 0 = .ok g0 := by
    have hne : ∃ x, x ∈ g.vals := ⟨g0, (hg g0).mpr ⟨0, hG, by simp⟩⟩
    have hz : searchLeft g.vals g0 = 0 := by
      cases hv : g.vals with
      | nil => rw [hv] at hne; simp at hne
      | cons x l =>
        rw [searchLeft_cons, if_neg]
        obtain ⟨j, -, hj⟩ := (hg x).mp (by rw [hv]; simp)
        omega
    have := (groupAt_left hpos hs g0 g0).mpr (by
      have := gapless_least hu hg (k := 0) hG
      simpa using this)
    rwa [hz] at this
  unfold wfStart
  rw [h0, hc.train, hc.test, hc.freq, windowAmount_fits hf, windowAmount_fits hf, timeUnit_fits hf]
  simp only [bind, Except.bind]
  have hv : g0 + ((a * u : Nat) : Int) - (u : Int) = g0 + (((a - 1) * u : Nat) : Int) := by
    have : a * u = (a - 1) * u + u := by
      conv => lhs; rw [show a = (a - 1) + 1 by omega]
      ring
    omega
  rw [hv]
  by_cases haG : a - 1 < G
  · rw [(groupAt_left hpos hs _ _).mpr (gapless_least hu hg haG)]
    simp only
    by_cases haG' : a < G
    · have hab := gapless_above hu hg (k := a - 1) (by omega)
      rw [show a - 1 + 1 = a by omega] at hab
      rw [(groupAt_right hpos hs _ _).mpr hab]
      simp only
      have hw : g0 + ((a * u : Nat) : Int) + ((b * u : Nat) : Int) - (u : Int) =
          g0 + (((a + b - 1) * u : Nat) : Int) := by
        have : a * u + b * u = (a + b - 1) * u + u := by
          conv => lhs; rw [show b = (b - 1) + 1 by omega]
          rw [show a + b - 1 = a + (b - 1) by omega]
          ring
        omega
      rw [hw]
      by_cases hab' : a + b ≤ G
      · rw [(groupAt_left hpos hs _ _).mpr (gapless_least hu hg (by omega)), if_pos hab']
        simp only [wfVars, Except.ok.injEq]
        congr 1
        · simp
        · simp
        · simp
        · rw [Nat.min_eq_left (by omega)]; simp
      · rw [groupAt_left_err hpos (gapless_beyond hu hg (by omega)), if_neg hab']
    · have : G = a := by omega
      have hr : groupAt g (searchRight g.vals (g0 + (((a - 1) * u : Nat) : Int))) = .error .indexError := by
        rw [searchRight_eq]
        apply groupAt_left_err hpos
        intro x hx
        have h1 := (gapless_last hG hg).2 hx
        rw [this] at h1
        omega
      rw [hr, if_neg (by omega)]
  · rw [groupAt_left_err hpos (gapless_beyond hu hg (by omega)), if_neg (by omega)]

theorem wfAdvance_gapless {c : WFCfg} {g : GArr} {fr : Option Nat} {u a b e G : Nat} {g0 : Int} {r : Bool}
    (hc : WFInt c fr a b e r) (hf : Fits g fr u) (hs : g.vals.Pairwise (· ≤ ·))
    (hg : Gapless g.vals g0 u G) (hb : 1 ≤ b) {k : Nat} (hk : a + (k + 1) * b < G) (ha : 1 ≤ a) :
    wfAdvance c g (wfVars g0 u a b G r k) = .ok (wfVars g0 u a b G r (k + 1)) := by
  have hu := hf.pos
  have hpos := hf.positional
  have hkb : (k + 1) * b = k * b + b := by ring
  have hkb2 : (k + 1 + 1) * b = (k + 1) * b + b := by ring
  unfold wfAdvance
  rw [hc.test, hc.freq, windowAmount_fits hf, hc.roll]
  simp only [bind, Except.bind]
  have e1 : (wfVars g0 u a b G r k).trainEnd + ((b * u : Nat) : Int) =
      g0 + (((a - 1 + (k + 1) * b) * u : Nat) : Int) := by
    simp only [wfVars]; rw [hkb]; push_cast; ring
  have e2 : (wfVars g0 u a b G r k).testStart + ((b * u : Nat) : Int) =
      g0 + (((a + (k + 1) * b) * u : Nat) : Int) := by
    simp only [wfVars]; rw [hkb]; push_cast; ring
  have e3 : min ((wfVars g0 u a b G r k).testEnd + ((b * u : Nat) : Int)) (g0 + ((G - 1) * u : Nat)) =
      g0 + ((min (a + (k + 1 + 1) * b - 1) (G - 1) * u : Nat) : Int) := by
    simp only [wfVars]
    rw [Nat.min_eq_left (by omega)]
    have h1 : g0 + (((a + (k + 1) * b - 1) * u : Nat) : Int) + ((b * u : Nat) : Int) =
        g0 + (((a + (k + 1 + 1) * b - 1) * u : Nat) : Int) := by
      rw [show a + (k + 1 + 1) * b - 1 = (a + (k + 1) * b - 1) + b by omega]
      push_cast; ring
    rw [h1]
    rcases Nat.le_total (a + (k + 1 + 1) * b - 1) (G - 1) with h | h
    · rw [Nat.min_eq_left h]
      have := (mul_u_le hu).mpr h
      omega
    · rw [Nat.min_eq_right h]
      have := (mul_u_le hu).mpr h
      omega
  rw [e1, e2, (groupAt_left hpos hs _ _).mpr (gapless_least hu hg (by omega)),
    (groupAt_left hpos hs _ _).mpr (gapless_least hu hg (by omega)),
    (groupLast_ok hpos hs _).mpr (gapless_last (by omega) hg)]
  simp only
  rw [e3, (groupAt_left hpos hs _ _).mpr (gapless_least hu hg (by omega))]
  simp only [wfVars, Except.ok.injEq]
  congr 1
  cases r
  · simp
  · simp only [if_true]; push_cast; ring

theorem pos_fits {c : WFCfg} {fr : Option Nat} {a b e : Nat} {r : Bool} {g : GArr} {u : Nat}
    (hc : WFInt c fr a b e r) (hf : Fits g fr u) (hs : g.vals.Pairwise (· ≤ ·)) :
    (c.nEmbargo.pos = true ↔ 0 < e) ∧ validatePE g c.nEmbargo = .ok () ∧
      deltaAmount g.kind c.nEmbargo = .ok ((e * u : Nat) : Int) := by
  have hso := isSortedAsc_iff.mpr hs
  rw [hc.emb]
  rcases hf with ⟨h1, h2, h3⟩ | ⟨h1, h2, h3⟩
  · subst h2 h3
    refine ⟨by simp [Delta.pos, units], ?_, by simp [deltaAmount, units]⟩
    simp [validatePE, h1, hso, units]
  · subst h2
    refine ⟨?_, ?_, by simp [deltaAmount, h1, units]⟩
    · simp only [Delta.pos, units, decide_eq_true_eq]
      constructor
      · intro h
        by_contra hc
        have : e = 0 := by omega
        subst this; simp at h
      · intro h; positivity
    · simp only [validatePE, units, h1, hso, if_true]
      rw [if_neg]
      have : (0 : Int) ≤ (e : Int) * (u : Int) := by positivity
      omega

theorem label_gapless {vals : List Int} {g0 : Int} {u G : Nat} (hg : Gapless vals g0 u G) {i : Nat}
    (hi : i < vals.length) : ∃ k < G, label vals i = g0 + (k * u : Nat) := by
  rw [← hg, label, List.getD_eq_getElem?_getD, List.getElem?_eq_getElem hi]
  exact List.getElem_mem hi

theorem exists_label {vals : List Int} {x : Int} (h : x ∈ vals) : ∃ i < vals.length, label vals i = x := by
  obtain ⟨i, hi, rfl⟩ := List.getElem_of_mem h
  exact ⟨i, hi, by rw [label, List.getD_eq_getElem?_getD, List.getElem?_eq_getElem hi]; rfl⟩

/-- The split of iteration `k` for gapless groups. -/
theorem wfSplit_gapless {c : WFCfg} {g : GArr} {fr : Option Nat} {u a b e G n : Nat} {g0 : Int} {r : Bool}
    (hc : WFInt c fr a b e r) (hf : Fits g fr u) (hn : g.vals.length = n) (hs : g.vals.Pairwise (· ≤ ·))
    (hg : Gapless g.vals g0 u G) (ha : 1 ≤ a) (hb : 1 ≤ b) {k : Nat} (hk : a + k * b < G) :
    (e < a → ∃ s : TrainTest, wfSplit c n g (wfVars g0 u a b G r k) = .ok s ∧
      s.1.Pairwise (· < ·) ∧ s.2.Pairwise (· < ·) ∧
      (∀ i, i ∈ s.1 ↔ InWFTrain g.vals n g0 u a b e r k i) ∧
      (∀ i, i ∈ s.2 ↔ InWFTest g.vals n g0 u a b k i)) ∧
    (a ≤ e → r = true ∨ k = 0 → wfSplit c n g (wfVars g0 u a b G r k) = .error .valueError) := by
  have hu := hf.pos
  obtain ⟨hpe, hval, hamt⟩ := pos_fits hc hf hs
  set v := wfVars g0 u a b G r k with hv
  obtain ⟨tr, h1, h2, h3⟩ := npMask_range hn
    (fun x => decide (v.trainStart ≤ x) && decide (x ≤ v.trainEnd))
  obtain ⟨te, k1, k2, k3⟩ := npMask_range hn
    (fun x => decide (v.testStart ≤ x) && decide (x ≤ v.testEnd))
  have hkb : (k + 1) * b = k * b + b := by ring
  have h3' : ∀ i, i ∈ tr ↔ i < n ∧ v.trainStart ≤ label g.vals i ∧ label g.vals i ≤ v.trainEnd := by
    intro i; rw [h3]; simp [label]
  have k3' : ∀ i, i ∈ te ↔ i < n ∧ v.testStart ≤ label g.vals i ∧ label g.vals i ≤ v.testEnd := by
    intro i; rw [k3]; simp [label]
  have hte : ∀ i, i ∈ te ↔ InWFTest g.vals n g0 u a b k i := by
    intro i
    rw [k3']
    unfold InWFTest
    refine and_congr_right fun hi => ?_
    obtain ⟨j, hj, hl⟩ := label_gapless hg (hn ▸ hi)
    rw [hl, hv]
    simp only [wfVars]
    have c1 : (g0 + (u : Int) * ((a : Int) + (k : Int) * (b : Int))) = g0 + (((a + k * b) * u : Nat) : Int) := by
      push_cast; ring
    have c2 : (g0 + (u : Int) * ((a : Int) + ((k : Int) + 1) * (b : Int))) =
        g0 + (((a + (k + 1) * b) * u : Nat) : Int) := by
      push_cast; ring
    rw [c1, c2]
    refine and_congr_right fun _ => ?_
    constructor
    · intro h
      have h' : j * u ≤ min (a + (k + 1) * b - 1) (G - 1) * u := by omega
      have := (mul_u_le hu).mp h'
      have : (j + 1) * u ≤ (a + (k + 1) * b) * u := (mul_u_le hu).mpr (by omega)
      have : (j + 1) * u = j * u + u := by ring
      omega
    · intro h
      have h' : j * u < (a + (k + 1) * b) * u := by omega
      have := Nat.lt_of_mul_lt_mul_right h'
      have := (mul_u_le hu).mpr (show j ≤ min (a + (k + 1) * b - 1) (G - 1) by omega)
      omega
  have htr : ∀ i, i < n → ((v.trainStart ≤ label g.vals i ∧ label g.vals i ≤ v.trainEnd ∧
      (0 < e → label g.vals i < g0 + (((a + k * b) * u : Nat) : Int) - ((e * u : Nat) : Int))) ↔
      g0 + (u : Int) * (if r then k * b else 0 : Nat) ≤ label g.vals i ∧
        label g.vals i < g0 + (u : Int) * ((a : Int) + (k : Int) * (b : Int) - (e : Int))) := by
    intro i hi
    obtain ⟨j, hj, hl⟩ := label_gapless hg (hn ▸ hi)
    rw [hl, hv]
    simp only [wfVars]
    have c1 : (g0 + (u : Int) * ((if r then k * b else 0 : Nat) : Int)) =
        g0 + (((if r then k * b else 0) * u : Nat) : Int) := by
      push_cast; ring
    have c2 : (g0 + (u : Int) * ((a : Int) + (k : Int) * (b : Int) - (e : Int))) =
        g0 + (((a + k * b) * u : Nat) : Int) - ((e * u : Nat) : Int) := by
      push_cast; ring
    rw [c1, c2]
    refine and_congr_right fun _ => ?_
    have hsucc : (a + k * b) * u = (a - 1 + k * b) * u + u := by
      conv => lhs; rw [show a + k * b = (a - 1 + k * b) + 1 by omega]
      ring
    constructor
    · rintro ⟨q1, q2⟩
      rcases Nat.eq_zero_or_pos e with rfl | he
      · omega
      · exact q2 he
    · intro q
      refine ⟨?_, fun _ => q⟩
      have h' : j * u < (a + k * b) * u := by omega
      have := Nat.lt_of_mul_lt_mul_right h'
      have := (mul_u_le hu).mpr (show j ≤ a - 1 + k * b by omega)
      omega
  have hcast : ∀ i, InWFTrain g.vals n g0 u a b e r k i ↔
      i < n ∧ g0 + (u : Int) * (if r then k * b else 0 : Nat) ≤ label g.vals i ∧
        label g.vals i < g0 + (u : Int) * ((a : Int) + (k : Int) * (b : Int) - (e : Int)) := by
    intro i; unfold InWFTrain; cases r <;> simp
  -- the smallest test label
  have hmin : IsLeast (labelsOf g.vals te) (g0 + (((a + k * b) * u : Nat) : Int)) := by
    constructor
    · obtain ⟨i, hi, hl⟩ := exists_label ((hg _).mpr ⟨a + k * b, hk, rfl⟩)
      refine ⟨i, (hte i).mpr ⟨by omega, ?_, ?_⟩, hl.symm⟩
      · rw [hl]; push_cast; linarith [mul_comm (u : Int) (a + k * b)]
      · rw [hl]
        push_cast
        have : (0 : Int) < (u : Int) * b := by positivity
        nlinarith
    · rintro x ⟨i, hi, rfl⟩
      have := ((hte i).mp hi).2.1
      push_cast at this ⊢
      linarith [mul_comm (u : Int) (a + k * b)]
  have hne : te ≠ [] := by
    obtain ⟨i, hi, -⟩ := hmin.1
    intro h; rw [h] at hi; simp at hi
  have hsplit : wfSplit c n g v = if c.nEmbargo.pos then
      (do let t ← embargo tr te (List.range n) g c.nEmbargo; .ok (t, te)) else .ok (tr, te) := by
    unfold wfSplit
    dsimp only
    rw [h1, k1]
    rfl
  rw [hsplit]
  rcases Nat.eq_zero_or_pos e with he | he
  · subst he
    have : c.nEmbargo.pos = false := by
      cases h : c.nEmbargo.pos with
      | false => rfl
      | true => exact absurd (hpe.mp h) (by omega)
    rw [this]
    refine ⟨fun _ => ⟨_, rfl, h2, k2, fun i => ?_, hte⟩, fun h => by omega⟩
    rw [hcast, h3']
    refine and_congr_right fun hi => ?_
    rw [← htr i hi]
    simp
  · rw [hpe.mpr he, if_pos rfl]
    have hmo : ∃ mo, extreme g.kind (listMin? (te.map fun i => g.vals.getD i 0)) = .ok mo := by
      cases te with
      | nil => exact absurd rfl hne
      | cons x l => exact ⟨_, rfl⟩
    obtain ⟨mo, hmo⟩ := hmo
    obtain ⟨t, ht1, ht2, ht3⟩ := embargo_eq hn (train := tr) (fun i hi => ((k3' i).mp hi).1) hval hamt hmo
    have hmem : ∀ i, i ∈ t ↔ InWFTrain g.vals n g0 u a b e r k i := by
      intro i
      rw [ht2, hcast, h3']
      constructor
      · rintro ⟨⟨hi, q1, q2⟩, q3⟩
        refine ⟨hi, (htr i hi).mp ⟨q1, q2, fun _ => ?_⟩⟩
        by_contra hcon
        apply q3
        refine ⟨hi, _, hmin, by omega, ?_⟩
        have : v.trainEnd < g0 + (((a + k * b) * u : Nat) : Int) := by
          rw [hv]; simp only [wfVars]
          have : (a + k * b) * u = (a - 1 + k * b) * u + u := by
            conv => lhs; rw [show a + k * b = (a - 1 + k * b) + 1 by omega]
            ring
          omega
        omega
      · rintro ⟨hi, q⟩
        obtain ⟨q1, q2, q3⟩ := (htr i hi).mpr q
        refine ⟨⟨hi, q1, q2⟩, ?_⟩
        rintro ⟨-, m, hm, q4, q5⟩
        have := IsLeast.unique hm hmin
        have := q3 he
        omega
    rw [ht3]
    constructor
    · intro hea
      have hex : ∃ i, i ∈ t := by
        obtain ⟨i, hi, hl⟩ := exists_label ((hg _).mpr ⟨if r then k * b else 0, by split <;> omega, rfl⟩)
        refine ⟨i, (hmem i).mpr ((hcast i).mpr ⟨by omega, ?_, ?_⟩)⟩
        · rw [hl]; push_cast; linarith [mul_comm (u : Int) (if r then k * b else 0 : Nat)]
        · rw [hl]
          have h1 : (if r then k * b else 0 : Nat) + e < a + k * b := by split <;> omega
          have h2 : ((if r then k * b else 0 : Nat) : Int) < (a : Int) + k * b - e := by
            have : (((if r then k * b else 0 : Nat) + e : Nat) : Int) < ((a + k * b : Nat) : Int) := by
              exact_mod_cast h1
            push_cast at this ⊢
            linarith
          have h3 := mul_lt_mul_of_pos_left h2 (show (0 : Int) < u by exact_mod_cast hu)
          push_cast at h3 ⊢
          linarith [mul_comm (u : Int) (if r then (k : Int) * b else 0)]
      have htne : t ≠ [] := by rintro rfl; obtain ⟨i, hi⟩ := hex; simp at hi
      rw [if_neg htne]
      exact ⟨_, rfl, ht1, k2, hmem, hte⟩
    · intro hae hr
      have hempty : t = [] := by
        rw [List.eq_nil_iff_forall_not_mem]
        intro i hi
        obtain ⟨_, q1, q2⟩ := (hcast i).mp ((hmem i).mp hi)
        have h1 : a + k * b ≤ (if r then k * b else 0 : Nat) + e := by
          rcases hr with rfl | rfl
          · simp; omega
          · simp; omega
        have h2 : (a : Int) + k * b - e ≤ ((if r then k * b else 0 : Nat) : Int) := by
          have : ((a + k * b : Nat) : Int) ≤ (((if r then k * b else 0 : Nat) + e : Nat) : Int) := by
            exact_mod_cast h1
          push_cast at this ⊢
          linarith
        have h3 := mul_le_mul_of_nonneg_left h2 (show (0 : Int) ≤ u by omega)
        linarith
      rw [if_pos hempty]
      rfl

/-! ### Whole runs -/

theorem wfEnter_gapless {c : WFCfg} {g : GArr} {fr : Option Nat} {u a b e G n : Nat} {g0 : Int} {r : Bool}
    (hc : WFInt c fr a b e r) (hf : Fits g fr u) (hn : g.vals.length = n) (hs : g.vals.Pairwise (· ≤ ·))
    (hg : Gapless g.vals g0 u G) (ha : 1 ≤ a) (hb : 1 ≤ b) {k : Nat} (hk : a + k * b < G) (hea : e < a) :
    ∃ s, wfEnter c n g (wfVars g0 u a b G r k) = (.yielded s, .suspended (wfVars g0 u a b G r k)) ∧
      IsWFSplit g.vals n g0 u a b e r k s := by
  have hu := hf.pos
  obtain ⟨s, h1, h2⟩ := (wfSplit_gapless hc hf hn hs hg ha hb hk).1 hea
  refine ⟨s, ?_, h2⟩
  unfold wfEnter
  rw [(groupLast_ok hf.positional hs _).mpr (gapless_last (by omega) hg)]
  simp only
  rw [if_pos, h1]
  simp only [wfVars]
  have := Nat.mul_lt_mul_of_pos_right (show a - 1 + k * b < G - 1 by omega) hu
  omega

/-- The rest of a run from iteration `k` on; `d` is the number of iterations still to come. -/
theorem wfDrive_rest {c : WFCfg} {X : XArg} {y : YArg} {gs : Option GroupsArg}
    {fr : Option Nat} {u a b e G n : Nat} {g0 : Int} {r : Bool}
    (hc : WFInt c fr a b e r) (hx : xRows X = n) (hf : Fits (groupsOrArange n gs) fr u)
    (hn : (groupsOrArange n gs).vals.length = n) (hs : (groupsOrArange n gs).vals.Pairwise (· ≤ ·))
    (hg : Gapless (groupsOrArange n gs).vals g0 u G) (ha : 1 ≤ a) (hb : 1 ≤ b) (hea : e < a) (d : Nat) :
    ∀ (k : Nat) (o : WFObj) (fuel : Nat), a + (k + d) * b < G → G ≤ a + (k + d + 1) * b → d < fuel →
    ∃ l, wfDrive c X y gs fuel o (.suspended (wfVars g0 u a b G r k)) =
        (l, some .stopped, ⟨o.nSplits + (d + 1), true⟩) ∧ l.length = d ∧
      ∀ j s, l[j]? = some s → IsWFSplit (groupsOrArange n gs).vals n g0 u a b e r (k + 1 + j) s := by
  have hu := hf.pos
  induction d with
  | zero =>
    intro k o fuel h1 h2 hfu
    obtain ⟨fuel, rfl⟩ : ∃ f, fuel = f + 1 := ⟨fuel - 1, by omega⟩
    refine ⟨[], ?_, rfl, by simp⟩
    rw [wfDrive]
    simp only [wfNext, wfResume, hx]
    rw [(groupLast_ok hf.positional hs _).mpr (gapless_last (by omega) hg)]
    simp only
    rw [if_pos]
    simp only [wfVars]
    simp only [Nat.add_zero] at h2
    rw [Nat.min_eq_right (by omega)]
  | succ d ih =>
    intro k o fuel h1 h2 hfu
    obtain ⟨fuel, rfl⟩ : ∃ f, fuel = f + 1 := ⟨fuel - 1, by omega⟩
    have hk1 : a + (k + 1) * b < G := by
      have : (k + 1) * b ≤ (k + (d + 1)) * b := Nat.mul_le_mul_right _ (by omega)
      omega
    obtain ⟨s, hs1, hs2⟩ := wfEnter_gapless hc hf hn hs hg ha hb hk1 hea
    obtain ⟨l, hl1, hl2, hl3⟩ := ih (k + 1) { o with nSplits := o.nSplits + 1 } fuel
      (by rw [show k + 1 + d = k + (d + 1) by omega]; exact h1)
      (by rw [show k + 1 + d + 1 = k + (d + 1) + 1 by omega]; exact h2) (by omega)
    refine ⟨s :: l, ?_, by simp [hl2], ?_⟩
    · rw [wfDrive]
      simp only [wfNext, wfResume, hx]
      rw [(groupLast_ok hf.positional hs _).mpr (gapless_last (by omega) hg)]
      simp only
      rw [if_neg, wfAdvance_gapless hc hf hs hg hb hk1 ha]
      · simp only [hs1, hl1]
        congr 3
        omega
      · simp only [wfVars]
        rw [Nat.min_eq_left (by omega)]
        have := Nat.mul_lt_mul_of_pos_right (show a + (k + 1) * b - 1 < G - 1 by omega) hu
        omega
    · intro j s' hj
      cases j with
      | zero => simp at hj; subst hj; exact hs2
      | succ j =>
        have := hl3 j s' (by simpa using hj)
        rw [show k + 1 + (j + 1) = k + 1 + 1 + j by omega]
        exact this

/-- A run that ends within `fuel` calls after yielding `fuel` or more pairs does not exist; with less fuel
the generator has not ended yet. -/
theorem wfDrive_short {c : WFCfg} {X : XArg} {y : YArg} {gs : Option GroupsArg} {fuel fuel' : Nat}
    {o o' o'' : WFObj} {gen : WFGen} {l l' : List TrainTest} {r r' : NextRes}
    (hle : fuel ≤ fuel') (h : wfDrive c X y gs fuel' o gen = (l, some r, o')) (hlen : fuel ≤ l.length) :
    wfDrive c X y gs fuel o gen ≠ (l', some r', o'') := by
  induction fuel generalizing fuel' o gen l l' with
  | zero => simp [wfDrive]
  | succ fuel ih =>
    obtain ⟨f', rfl⟩ : ∃ f, fuel' = f + 1 := ⟨fuel' - 1, by omega⟩
    intro hcon
    rw [wfDrive] at h hcon
    rcases hn : wfNext c X y gs o gen with ⟨res, gen', o1⟩
    rw [hn] at h hcon
    cases res with
    | yielded s =>
      simp only at h hcon
      rcases hd : wfDrive c X y gs f' o1 gen' with ⟨l1, r1, o2⟩
      rw [hd] at h
      simp only [Prod.mk.injEq] at h
      obtain ⟨rfl, rfl, rfl⟩ := h
      rcases hd' : wfDrive c X y gs fuel o1 gen' with ⟨l2, r2, o3⟩
      rw [hd'] at hcon
      simp only [Prod.mk.injEq] at hcon
      obtain ⟨rfl, rfl, rfl⟩ := hcon
      exact ih (by omega) hd (by simpa using hlen) hd'
    | stopped =>
      simp only [Prod.mk.injEq] at h
      obtain ⟨rfl, -⟩ := h
      simp at hlen
    | raised e =>
      simp only [Prod.mk.injEq] at h
      obtain ⟨rfl, -⟩ := h
      simp at hlen

end Verif.Split
