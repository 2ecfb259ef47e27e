import Verif.Spec.WalkForwardHistory
import Verif.Props.WalkForward
import Mathlib.Data.List.Induction

/-!
# C15: the split counter of a `WalkForward` object over arbitrary interleavings of its generators
-/

namespace Verif.Split

open List

/-- A generator is waiting at its `yield`. -/
def WFGen.isSuspended : WFGen → Bool
  | .suspended _ => true
  | _ => false

theorem wfEnter_susp (c : WFCfg) (n : Nat) (g : GArr) (v : LoopVars) :
    (wfEnter c n g v).2.isSuspended = isYield (some (wfEnter c n g v).1) := by
  unfold wfEnter
  cases groupLast g with
  | error e => rfl
  | ok last =>
    simp only
    split
    · cases wfSplit c n g v <;> rfl
    · rfl

theorem wfNext_facts (c : WFCfg) (X : XArg) (y : YArg) (gs : Option GroupsArg) (o : WFObj) (gen : WFGen) :
    (wfNext c X y gs o gen).2.1.isSuspended = isYield (some (wfNext c X y gs o gen).1) ∧
    (wfNext c X y gs o gen).2.2.nSplits = o.nSplits + (if gen.isSuspended then 1 else 0) ∧
    ((wfNext c X y gs o gen).2.2.finalized = true ↔ o.finalized = true ∨
      (gen.isSuspended = true ∧ (wfNext c X y gs o gen).1 = .stopped ∧
        (wfNext c X y gs o gen).2.2.finalized = true)) := by
  cases gen with
  | fresh =>
    refine ⟨?_, rfl, by simp [wfNext, WFGen.isSuspended]⟩
    simp only [wfNext, wfBegin]
    cases baseSplit X y gs with
    | error e => rfl
    | ok n =>
      simp only
      cases wfStart c (groupsOrArange n gs) with
      | error e => rfl
      | ok v => exact wfEnter_susp _ _ _ _
  | done => exact ⟨rfl, rfl, by simp [wfNext, WFGen.isSuspended]⟩
  | suspended v =>
    simp only [wfNext, wfResume]
    cases groupLast (groupsOrArange (xRows X) gs) with
    | error e => exact ⟨rfl, rfl, by simp [WFGen.isSuspended]⟩
    | ok last =>
      simp only
      split
      · exact ⟨rfl, rfl, by simp [WFGen.isSuspended]⟩
      · cases wfAdvance c (groupsOrArange (xRows X) gs) v with
        | error e => exact ⟨rfl, rfl, by simp [WFGen.isSuspended]⟩
        | ok v' =>
          refine ⟨wfEnter_susp _ _ _ _, rfl, ?_⟩
          constructor
          · intro h; exact Or.inl h
          · rintro (h | ⟨-, -, h⟩) <;> exact h

theorem run_snoc (c : WFCfg) (w : WFWorld) (es : List WFEvent) (e : WFEvent) :
    w.run c (es ++ [e]) = ((w.run c es).1 ++ [((w.run c es).2.step c e).1], ((w.run c es).2.step c e).2) := by
  induction es generalizing w with
  | nil => rfl
  | cons x es ih => simp only [List.cons_append, WFWorld.run, ih]

theorem run_length (c : WFCfg) (w : WFWorld) (es : List WFEvent) : (w.run c es).1.length = es.length := by
  induction es generalizing w with
  | nil => rfl
  | cons x es ih => simp [WFWorld.run, ih]

theorem log_snoc (c : WFCfg) (w : WFWorld) (es : List WFEvent) (e : WFEvent) :
    w.log c (es ++ [e]) = w.log c es ++ [(e, ((w.run c es).2.step c e).1)] := by
  unfold WFWorld.log
  rw [run_snoc]
  simp only
  rw [List.zip_append (run_length c w es).symm]
  rfl

theorem latest_snoc (l : WFLog) (e : WFEvent) (r : Option NextRes) (i : Nat) :
    latest (l ++ [(e, r)]) i = if e = .next i then r else latest l i := by
  unfold latest
  rw [List.filter_append]
  by_cases h : e = .next i
  · simp [h]
  · simp [h]

/-- The invariant that links the world with the log. -/
structure WFLinked (l : WFLog) (w : WFWorld) : Prop where
  len : w.gens.length = generators l
  gens : ∀ i, (w.gens[i]?.any fun x => x.gen.isSuspended) = isYield (latest l i)
  count : w.obj.nSplits + w.gens.countP (fun x => x.gen.isSuspended) = delivered l
  fin : w.obj.finalized = true → some NextRes.stopped ∈ l.map Prod.snd

theorem linked (c : WFCfg) (es : List WFEvent) : WFLinked (WFWorld.init.log c es) (WFWorld.init.run c es).2 := by
  induction es using List.reverseRecOn with
  | nil =>
    exact ⟨rfl, fun i => by simp [WFWorld.run, WFWorld.init, latest, WFWorld.log, isYield], rfl,
      by simp [WFWorld.run, WFWorld.init, WFObj.init]⟩
  | append_singleton es e ih =>
    rw [log_snoc, run_snoc]
    generalize (WFWorld.init.run c es).2 = w at ih ⊢
    generalize WFWorld.init.log c es = l at ih ⊢
    obtain ⟨h1, h2, h3, h4⟩ := ih
    cases e with
    | split X y gs =>
      refine ⟨by simp [WFWorld.step, generators, isSplitEvent] at h1 ⊢; omega, fun i => ?_,
        by simpa [WFWorld.step, delivered, isYield, WFGen.isSuspended] using h3,
        fun h => by simpa [WFWorld.step] using h4 (by simpa [WFWorld.step] using h)⟩
      rw [latest_snoc, if_neg (by simp), ← h2 i]
      simp only [WFWorld.step]
      rcases Nat.lt_trichotomy i w.gens.length with hi | hi | hi
      · rw [List.getElem?_append_left hi]
      · subst hi
        simp [WFGen.isSuspended]
      · rw [List.getElem?_eq_none (by simp; omega), List.getElem?_eq_none (by omega)]
    | next i =>
      cases hg : w.gens[i]? with
      | none =>
        simp only [WFWorld.step, hg]
        refine ⟨by simpa [generators, isSplitEvent] using h1, fun j => ?_,
          by simpa [delivered, isYield] using h3, fun h => by simpa using h4 h⟩
        rw [latest_snoc]
        by_cases hij : WFEvent.next i = .next j
        · cases hij
          simp [hg, isYield]
        · rw [if_neg hij, h2]
      | some x =>
        obtain ⟨f1, f2, f3⟩ := wfNext_facts c x.X x.y x.groups w.obj x.gen
        simp only [WFWorld.step, hg]
        generalize wfNext c x.X x.y x.groups w.obj x.gen = r at f1 f2 f3 ⊢
        have hi : i < w.gens.length := by
          by_contra hcon
          rw [List.getElem?_eq_none (by omega)] at hg
          cases hg
        have hgi : w.gens[i] = x := by
          rw [List.getElem?_eq_getElem hi] at hg
          exact Option.some.inj hg
        refine ⟨by simpa [generators, isSplitEvent] using h1, fun j => ?_, ?_, fun h => ?_⟩
        · rw [latest_snoc]
          by_cases hij : i = j
          · subst hij
            rw [if_pos rfl, List.getElem?_set_self hi]
            simpa using f1
          · rw [if_neg (by simpa using hij), ← h2 j, List.getElem?_set_ne hij]
        · simp only [delivered, List.countP_append, List.countP_singleton] at h3 ⊢
          rw [List.countP_set (by exact hi), hgi]
          have hmem : x.gen.isSuspended = true → 1 ≤ w.gens.countP (fun x => x.gen.isSuspended) := by
            intro hx
            exact List.countP_pos_iff.mpr ⟨x, hgi ▸ List.getElem_mem hi, hx⟩
          simp only [f2, ← f1]
          cases hx : x.gen.isSuspended
          · simp only [Bool.false_eq_true, if_false] at *
            omega
          · have := hmem hx
            simp only [if_true] at *
            omega
        · rcases f3.mp h with h | ⟨-, h, -⟩
          · simpa using Or.inl (by simpa using h4 h)
          · simp [h]

theorem countP_range_get {α : Type} (l : List α) (p : α → Bool) :
    (List.range l.length).countP (fun i => l[i]?.any p) = l.countP p := by
  induction l using List.reverseRecOn with
  | nil => rfl
  | append_singleton l x ih =>
    rw [List.length_append, List.length_singleton, List.range_succ, List.countP_append, List.countP_append]
    congr 1
    · rw [← ih]
      apply List.countP_congr
      intro i hi
      rw [List.getElem?_append_left (by simpa using hi)]
    · simp

/-- C15. After any history of a `WalkForward` object — any interleaving of any number of `split`
generators, abandoned, failed or exhausted ones included — the internal counter plus the number of
generators waiting at a `yield` is the number of pairs delivered so far over all generators;
`get_n_splits` returns this counter or 0; it returns 0 as long as no `next` has ended a generator. -/
theorem walk_history_counter (c : WFCfg) (es : List WFEvent) :
    (WFWorld.init.run c es).2.obj.nSplits + waiting (WFWorld.init.log c es) =
      delivered (WFWorld.init.log c es) ∧
    ((WFWorld.init.run c es).2.obj.getNSplits = 0 ∨
      (WFWorld.init.run c es).2.obj.getNSplits + waiting (WFWorld.init.log c es) =
        delivered (WFWorld.init.log c es)) ∧
    (some .stopped ∉ (WFWorld.init.log c es).map Prod.snd →
      (WFWorld.init.run c es).2.obj.getNSplits = 0) := by
  obtain ⟨h1, h2, h3, h4⟩ := linked c es
  generalize (WFWorld.init.run c es).2 = w at *
  generalize WFWorld.init.log c es = l at *
  have key : w.obj.nSplits + waiting l = delivered l := by
    rw [← h3, waiting, ← h1, ← countP_range_get w.gens]
    congr 1
    exact List.countP_congr fun i _ => by rw [h2]
  refine ⟨key, ?_, ?_⟩
  · unfold WFObj.getNSplits
    split
    · exact Or.inr key
    · exact Or.inl rfl
  · intro hn
    unfold WFObj.getNSplits
    rw [if_neg]
    intro hf
    exact hn (h4 hf)

/-- C15: once `get_n_splits` has been released by a finished run, every later history keeps it released:
it reports the running counter, also while other generators are in the middle of their run. -/
theorem walk_history_finalized_stays (c : WFCfg) (w : WFWorld) (es : List WFEvent)
    (h : w.obj.finalized = true) :
    (w.run c es).2.obj.finalized = true ∧ w.obj.nSplits ≤ (w.run c es).2.obj.getNSplits := by
  have key : (w.run c es).2.obj.finalized = true ∧ w.obj.nSplits ≤ (w.run c es).2.obj.nSplits := by
    induction es generalizing w with
    | nil => exact ⟨h, le_refl _⟩
    | cons e es ih =>
      have hstep : (w.step c e).2.obj.finalized = true ∧ w.obj.nSplits ≤ (w.step c e).2.obj.nSplits := by
        cases e with
        | split X y gs => exact ⟨h, le_refl _⟩
        | next i =>
          cases hg : w.gens[i]? with
          | none => simp only [WFWorld.step, hg]; exact ⟨h, le_refl _⟩
          | some x =>
            obtain ⟨-, f2, f3⟩ := wfNext_facts c x.X x.y x.groups w.obj x.gen
            simp only [WFWorld.step, hg]
            exact ⟨f3.mpr (Or.inl h), by omega⟩
      obtain ⟨k1, k2⟩ := ih _ hstep.1
      simp only [WFWorld.run]
      exact ⟨k1, le_trans hstep.2 k2⟩
  refine ⟨key.1, ?_⟩
  unfold WFObj.getNSplits
  rw [if_pos key.1]
  exact key.2

/-- C15: exhausting two generators in a row on gapless groups makes `get_n_splits` report twice the number
of splits of a run. -/
theorem walk_second_run_doubles {np : DeltaArg} {fr : Option Nat} {a b e G n u : Nat} {g0 : Int}
    {st : SplitType} {c : WFCfg} {X : XArg} {y : YArg} {gs : Option GroupsArg}
    (hc : wfInit (.ok (.int e)) np (.int a) (.int b) st fr = .ok c)
    (h : GaplessCall X y gs fr n g0 u G) (ha : 1 ≤ a) (hb : 1 ≤ b) (hab : a + b ≤ G) (hea : e < a)
    {fuel : Nat} (hfuel : (G - a + b - 1) / b < fuel) :
    let first := wfDrive c X y gs fuel .init .fresh
    let second := wfDrive c X y gs fuel first.2.2 .fresh
    first.2.2.getNSplits = first.1.length ∧ second.1.length = first.1.length ∧
      second.2.2.getNSplits = 2 * second.1.length ∧ 0 < second.1.length := by
  obtain ⟨l, h1, h2, -⟩ := walk_gapless_run hc h ha hb hab hea .init hfuel
  obtain ⟨l', h1', h2', -⟩ := walk_gapless_run hc h ha hb hab hea
    ⟨WFObj.init.nSplits + (G - a + b - 1) / b, true⟩ hfuel
  have hK : 1 ≤ (G - a + b - 1) / b := by rw [Nat.le_div_iff_mul_le (by omega)]; omega
  intro first second
  have e1 : first = (l, some .stopped, ⟨WFObj.init.nSplits + (G - a + b - 1) / b, true⟩) := h1
  have e2 : second = (l', some .stopped, ⟨WFObj.init.nSplits + (G - a + b - 1) / b + (G - a + b - 1) / b, true⟩) := by
    simp only [second, e1]; exact h1'
  rw [e2, e1]
  simp only [WFObj.getNSplits, if_true, WFObj.init]
  omega

/-- Non-vacuity: two interleaved generators; the second is abandoned at its `yield`. -/
example : WFWorld.init.log ⟨.int 0, .int 0, .int 1, .int 1, false, none⟩
      [.split (.ndarray 3) .none none, .next 0, .split (.ndarray 3) .none none, .next 1, .next 0, .next 0] =
    [(.split (.ndarray 3) .none none, none), (.next 0, some (.yielded ([0], [1]))),
     (.split (.ndarray 3) .none none, none), (.next 1, some (.yielded ([0], [1]))),
     (.next 0, some (.yielded ([0, 1], [2]))), (.next 0, some .stopped)] ∧
    (WFWorld.init.run ⟨.int 0, .int 0, .int 1, .int 1, false, none⟩
      [.split (.ndarray 3) .none none, .next 0, .split (.ndarray 3) .none none, .next 1, .next 0,
       .next 0]).2.obj.getNSplits = 2 := by
  decide

/-- C15: a run can end without releasing `get_n_splits`: no pair is delivered when the training window
already reaches the last label. -/
theorem walk_empty_run_not_finalized :
    wfDrive ⟨.int 0, .int 0, .int 3, .int 1, false, none⟩ (.ndarray 2) .none
      (some (.arr ⟨.ndarray, [0, 10]⟩)) 5 .init .fresh = ([], some .stopped, ⟨0, false⟩) := by
  decide

end Verif.Split
