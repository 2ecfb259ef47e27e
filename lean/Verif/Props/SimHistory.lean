import Verif.Props.SimFormat
import Verif.Props.Timeseries
import Verif.Props.SimPaths

/-!
# C29: what a model object remembers
-/

namespace Verif.Sim

variable {P : Type} {pd : Pandas} {m : ModelOps P}

/-- The object after a call (whether it returned or raised). -/
noncomputable def step (pd : Pandas) (m : ModelOps P) (o : Obj P) : Call → Obj P
  | .fit x dt => (fit pd m o x dt).1
  | .score k x dt => (score pd m k o x dt).1
  | .sample _ => o

/-- The object after a history of calls. -/
noncomputable def run (pd : Pandas) (m : ModelOps P) (o : Obj P) (h : List Call) : Obj P := h.foldl (step pd m) o

/-- The result of preprocessing does not depend on the state before, and neither does the state afterwards when
it succeeds. -/
theorem preprocessFit_result (s t : FitState) (x : SimData) (dt : Option ℝ) :
    (preprocessFit pd s x dt).2 = (preprocessFit pd t x dt).2 ∧
    (∀ r, (preprocessFit pd s x dt).2 = .ok r → (preprocessFit pd s x dt).1 = (preprocessFit pd t x dt).1) := by
  unfold preprocessFit
  dsimp only
  cases indexInfo pd x with
  | error e => exact ⟨rfl, fun r h => by cases h⟩
  | ok info =>
    dsimp only
    cases x.toMatrix with
    | error e => exact ⟨rfl, fun r h => by cases h⟩
    | ok a =>
      dsimp only
      by_cases hr : a.rows = 0
      · rw [if_pos hr, if_pos hr]; exact ⟨rfl, fun r h => by cases h⟩
      · rw [if_neg hr, if_neg hr]
        cases resolveDt info.freq dt with
        | error e => exact ⟨rfl, fun r h => by cases h⟩
        | ok d => exact ⟨rfl, fun r h => rfl⟩

/-- The recorded attributes after a successful preprocessing, spelled out. -/
theorem preprocessFit_ok {s : FitState} {x : SimData} {dt : Option ℝ} {a : Arr} {d : ℝ}
    (h : (preprocessFit pd s x dt).2 = .ok (a, d)) :
    ∃ info, indexInfo pd x = .ok info ∧ x.toMatrix = .ok a ∧ 0 < a.rows ∧ resolveDt info.freq dt = .ok d ∧
      (preprocessFit pd s x dt).1 = ⟨some x.container, x.columnNames, info, some a.cols, some a.rows,
        some (a.row 0), some (a.row (a.rows - 1)), some d⟩ := by
  unfold preprocessFit at h ⊢
  dsimp only at h ⊢
  cases hi : indexInfo pd x with
  | error e => rw [hi] at h; cases h
  | ok info =>
    rw [hi] at h
    dsimp only at h ⊢
    cases hm : x.toMatrix with
    | error e => rw [hm] at h; cases h
    | ok b =>
      rw [hm] at h
      dsimp only at h ⊢
      by_cases hr : b.rows = 0
      · rw [if_pos hr] at h; cases h
      · rw [if_neg hr] at h ⊢
        cases hd : resolveDt info.freq dt with
        | error e => rw [hd] at h; cases h
        | ok e =>
          rw [hd] at h
          cases h
          exact ⟨info, rfl, rfl, by omega, hd, rfl⟩

private theorem fit_state (o : Obj P) (x : SimData) (dt : Option ℝ) :
    (fit pd m o x dt).1.state = (preprocessFit pd o.state x dt).1 := by
  unfold fit
  rcases hp : preprocessFit pd o.state x dt with ⟨s, e | ⟨a, d⟩⟩ <;> rfl

private theorem score_state (k : Score) (o : Obj P) (x : SimData) (dt : Option ℝ) :
    (score pd m k o x dt).1.state = (preprocessFit pd o.state x dt).1 ∧ (score pd m k o x dt).1.params = o.params := by
  unfold score
  rcases hp : preprocessFit pd o.state x dt with ⟨s, e | ⟨a, d⟩⟩ <;> exact ⟨rfl, rfl⟩

/-- The data of a call, if it has any. -/
def Call.data : Call → Option (SimData × Option ℝ)
  | .fit x dt => some (x, dt)
  | .score _ x dt => some (x, dt)
  | .sample _ => none

/-- C29, history. Whatever happened before, after a data call (`fit`, `nll`, `aic` or `bic`) whose
preprocessing succeeds, and any samples, the remembered attributes are those of that call alone. -/
theorem history_last_data (o : Obj P) (before after : List Call) {c : Call} {x : SimData} {dt : Option ℝ}
    (hc : c.data = some (x, dt)) (hafter : ∀ d ∈ after, d.data = none) {r : Arr × ℝ}
    (hok : (preprocessFit pd .init x dt).2 = .ok r) :
    (run pd m o (before ++ c :: after)).state = (preprocessFit pd .init x dt).1 := by
  unfold run
  rw [List.foldl_append, List.foldl_cons]
  have hafter' : ∀ o' : Obj P, List.foldl (step pd m) o' after = o' := by
    intro o'
    induction after with
    | nil => rfl
    | cons d l ih =>
      rw [List.foldl_cons]
      have hd := hafter d (by simp)
      cases d with
      | fit x dt => cases hd
      | score k x dt => cases hd
      | sample g => exact ih (fun e he => hafter e (by simp [he]))
  rw [hafter']
  generalize List.foldl (step pd m) o before = o'
  have hst : (step pd m o' c).state = (preprocessFit pd o'.state x dt).1 := by
    cases c with
    | fit y e => cases hc; exact fit_state o' x dt
    | score k y e => cases hc; exact (score_state k o' x dt).1
    | sample g => cases hc
  rw [hst]
  have h1 := preprocessFit_result (pd := pd) .init o'.state x dt
  exact (h1.2 r hok).symm

/-- C29. Scores leave the parameters alone, samples leave everything alone. -/
theorem score_keeps_params (k : Score) (o : Obj P) (x : SimData) (dt : Option ℝ) (g : SampleArgs) :
    (score pd m k o x dt).1.params = o.params ∧ step pd m o (.sample g) = o := ⟨(score_state k o x dt).2, rfl⟩

/-- C29, effect of a score. After `nll`, `aic` or `bic` on data `a` a sample without arguments starts at the
first row of the scored data, uses the scored `dt` (if positive) and is dated like the scored data; `"last"`
starts at its last row. -/
theorem sample_after_score {k : Score} {o : Obj P} {x : SimData} {dt : Option ℝ} {a : Arr} {d : ℝ}
    (h : (preprocessFit pd o.state x dt).2 = .ok (a, d)) (hd : 0 < d) {info : IndexInfo} (hi : indexInfo pd x = .ok info) :
    preprocessSim (score pd m k o x dt).1.state m.x0Default .none none none none =
      .ok (a.row 0, d, info.min, info.freq) ∧
    preprocessSim (score pd m k o x dt).1.state m.x0Default (.str "last") none none none =
      .ok (a.row (a.rows - 1), d, info.max, info.freq) := by
  obtain ⟨info', hi', -, -, -, hst⟩ := preprocessFit_ok h
  rw [hi] at hi'
  cases hi'
  rw [(score_state k o x dt).1, hst]
  have hdates : info.has = false → info.min = none ∧ info.max = none ∧ info.freq = none := by
    intro hf
    unfold indexInfo at hi
    split at hi
    · cases hi; exact ⟨rfl, rfl, rfl⟩
    · split at hi
      · cases hi
      · cases hi; cases hf
  have hdt : resolveSimDt ⟨some x.container, x.columnNames, info, some a.cols, some a.rows, some (a.row 0),
      some (a.row (a.rows - 1)), some d⟩ none = .ok d := by
    unfold resolveSimDt
    simp only [Option.isSome, if_true]
    rw [if_pos hd]
  constructor
  · unfold preprocessSim
    rw [hdt]
    cases hh : info.has with
    | true => simp only [resolveX0, hh, Option.isSome, Option.isNone]; rfl
    | false =>
      obtain ⟨e1, e2, e3⟩ := hdates hh
      simp only [resolveX0, hh, e1, e3, Option.isSome, Option.isNone]; rfl
  · unfold preprocessSim
    rw [hdt]
    cases hh : info.has with
    | true => simp only [resolveX0, hh, Option.isSome, Option.isNone]; rfl
    | false =>
      obtain ⟨e1, e2, e3⟩ := hdates hh
      simp only [resolveX0, hh, e2, e3, Option.isSome, Option.isNone]; rfl

/-- C29. Explicit arguments are not affected by anything remembered: with `x0`, `dt`, `label_start`,
`label_freq` and `columns` given, two objects with the same parameters, container kind and index name return the
same. -/
theorem explicit_args_ignore_history {p : P} {s t : FitState} {x : SimData} {d : ℝ} {a : Int} {f : String}
    {c : List Label} {n k : Int} {inc : Bool} (hc : s.container = t.container) (hname : s.index.name = t.index.name) :
    pathSample pd m ⟨p, s⟩ ⟨.data x, some d, n, k, some a, some f, some c, inc⟩ =
      pathSample pd m ⟨p, t⟩ ⟨.data x, some d, n, k, some a, some f, some c, inc⟩ := by
  have hp : preprocessSim s m.x0Default (.data x) (some d) (some a) (some f) =
      preprocessSim t m.x0Default (.data x) (some d) (some a) (some f) := by
    unfold preprocessSim
    simp only [resolveX0, resolveSimDt, Option.isSome, Option.isNone, Bool.true_or, Bool.and_false, Bool.false_eq_true, if_false]
  unfold pathSample
  dsimp only
  rw [hp]
  cases hr : preprocessSim t m.x0Default (.data x) (some d) (some a) (some f) with
  | error e => rfl
  | ok r =>
    obtain ⟨-, -, h3, h4, -⟩ := preprocessSim_ok hr
    have e3 := h3 (by simp)
    have e4 := h4 (by simp)
    change (m.sample p r.1 r.2.1 n k >>= fun b => formatAns pd s b r.2.2.1 r.2.2.2 (some c) inc k) =
      (m.sample p r.1 r.2.1 n k >>= fun b => formatAns pd t b r.2.2.1 r.2.2.2 (some c) inc k)
    congr 1
    funext b
    rw [e3, e4]
    unfold formatAns
    have hnd : ∀ u : FitState, needDates u (some a) (some f) = true := fun u => by simp [needDates]
    rw [if_pos (hnd s), if_pos (hnd t)]
    simp only [makeDateIndex, makeColumnNames, baseColumns, labelled, Option.or, hc, hname]

/-- The invariant of reachable states: without dates nothing is known about an index, and first and last row are
known together; a known `dt` implies known rows. -/
theorem reachable_state (p : P) (h : List Call) :
    ((run pd m ⟨p, .init⟩ h).state.index.has = false → (run pd m ⟨p, .init⟩ h).state.index = .empty) ∧
    (run pd m ⟨p, .init⟩ h).state.x0.isSome = (run pd m ⟨p, .init⟩ h).state.xn.isSome ∧
    ((run pd m ⟨p, .init⟩ h).state.dt.isSome = true → (run pd m ⟨p, .init⟩ h).state.x0.isSome = true) := by
  let I : FitState → Prop := fun s => (s.index.has = false → s.index = .empty) ∧ s.x0.isSome = s.xn.isSome ∧
    (s.dt.isSome = true → s.x0.isSome = true)
  have hpre : ∀ s x dt, I s → I (preprocessFit pd s x dt).1 := by
    intro s x dt hs
    unfold preprocessFit
    dsimp only
    cases hi : indexInfo pd x with
    | error e => exact hs
    | ok info =>
      have hinfo : info.has = false → info = .empty := by
        unfold indexInfo at hi
        split at hi
        · cases hi; exact fun _ => rfl
        · split at hi
          · cases hi
          · cases hi; exact fun hf => by cases hf
      dsimp only
      cases x.toMatrix with
      | error e => exact ⟨hinfo, hs.2⟩
      | ok a =>
        dsimp only
        by_cases hr : a.rows = 0
        · rw [if_pos hr]; exact ⟨hinfo, hs.2⟩
        · rw [if_neg hr]
          cases resolveDt info.freq dt with
          | error e => exact ⟨hinfo, rfl, fun _ => rfl⟩
          | ok d => exact ⟨hinfo, rfl, fun _ => rfl⟩
  have hall : ∀ (l : List Call) (o : Obj P), I o.state → I (run pd m o l).state := by
    intro l
    induction l with
    | nil => exact fun o ho => ho
    | cons c l ih =>
      intro o ho
      change I (run pd m (step pd m o c) l).state
      apply ih
      cases c with
      | fit x dt => change I (fit pd m o x dt).1.state; rw [fit_state]; exact hpre _ _ _ ho
      | score k x dt => change I (score pd m k o x dt).1.state; rw [(score_state k o x dt).1]; exact hpre _ _ _ ho
      | sample g => exact ho
  exact hall h _ ⟨fun _ => rfl, rfl, fun hf => by cases hf⟩

/-- C28 over histories. After any history whose last data had no dates, giving only one of `label_start` and
`label_freq` never returns. -/
theorem history_half_labels (p : P) (h : List Call) {g : SampleArgs}
    (hidx : (run pd m ⟨p, .init⟩ h).state.index.has = false)
    (hhalf : (g.labelStart = none ∧ g.labelFreq ≠ none) ∨ (g.labelStart ≠ none ∧ g.labelFreq = none)) (out : Out) :
    pathSample pd m (run pd m ⟨p, .init⟩ h) g ≠ .ok out :=
  sample_half_labels ((reachable_state p h).1 hidx) hhalf out

/-! ### Failed calls -/

/-- C29, defect. When the frequency of dated data has no duration (as for the anchored codes `W-SUN`, `QE-DEC`,
`YE-DEC` of `pd.infer_freq`) and no `dt` is given, `fit` raises `ValueError` — after having replaced the start
values, while `dt` is still that of the previous data. -/
theorem failed_fit_mixes (o : Obj P) {l : List ℝ} {name : Label} {ts : List Int} {iname : Option String} {f : String}
    (h3 : 3 ≤ ts.length) (hl : l ≠ []) (hf : pd.inferFreq ts = some f) (hdur : TS.freqToDuration f = none) :
    (fit pd m o (.series l name (.dates ts iname)) none).2 = .error .valueError ∧
    (fit pd m o (.series l name (.dates ts iname)) none).1.params = o.params ∧
    (fit pd m o (.series l name (.dates ts iname)) none).1.state.x0 = some [l.headD 0] ∧
    (fit pd m o (.series l name (.dates ts iname)) none).1.state.index.freq = some f ∧
    (fit pd m o (.series l name (.dates ts iname)) none).1.state.dt = o.state.dt := by
  have hi : indexInfo pd (.series l name (.dates ts iname)) = .ok ⟨true, iname, listMin? ts, listMax? ts, some f⟩ := by
    simp only [indexInfo, SimData.dateIndex]
    rw [if_neg (by omega), hf]
  have hlen : l.length ≠ 0 := by simpa using hl
  have hp : preprocessFit pd o.state (.series l name (.dates ts iname)) none =
      (⟨some .series, some [name], ⟨true, iname, listMin? ts, listMax? ts, some f⟩, some 1, some l.length,
        some ((Arr.ofList l.length 1 l).row 0), some ((Arr.ofList l.length 1 l).row (l.length - 1)), o.state.dt⟩,
        .error .valueError) := by
    unfold preprocessFit
    rw [hi]
    simp only [SimData.toMatrix, SimData.container, SimData.columnNames, resolveDt, hdur]
    rw [if_neg (by simpa [Arr.ofList] using hlen)]
    rfl
  have hrow : (Arr.ofList l.length 1 l).row 0 = [l.headD 0] := by
    cases l with
    | nil => exact absurd rfl hl
    | cons a l => simp [Arr.row, Arr.ofList, Arr.get]
  unfold fit
  rw [hp]
  exact ⟨rfl, rfl, by rw [← hrow], rfl, rfl⟩

/-- C29, defect. On a fresh object the failed `fit` above even blocks default sampling: the object counts as
fitted but has no `dt`. -/
theorem failed_fit_blocks_sampling (p : P) {l : List ℝ} {name : Label} {ts : List Int} {iname : Option String} {f : String}
    (h3 : 3 ≤ ts.length) (hl : l ≠ []) (hf : pd.inferFreq ts = some f) (hdur : TS.freqToDuration f = none) :
    pathSample pd m (fit pd m ⟨p, .init⟩ (.series l name (.dates ts iname)) none).1 {} = .error .assertionError := by
  obtain ⟨-, -, h0, -, hdt⟩ := failed_fit_mixes (pd := pd) (m := m) ⟨p, .init⟩ (name := name) (iname := iname) h3 hl hf hdur
  unfold pathSample
  have : preprocessSim (fit pd m ⟨p, .init⟩ (.series l name (.dates ts iname)) none).1.state m.x0Default .none none none none =
      .error .assertionError := by
    unfold preprocessSim resolveX0 resolveSimDt
    rw [h0, hdt]
    rfl
  rw [this]
  rfl

/-- The hypotheses are met by three weekly dates. -/
example (z : Nat → ℝ) (p : BMParams) :
    pathSample ⟨fun _ => some "W-SUN", fun _ _ _ => .ok []⟩ (demoModel z)
      (fit ⟨fun _ => some "W-SUN", fun _ _ _ => .ok []⟩ (demoModel z) ⟨p, .init⟩
        (.series [1, 2, 4] .none (.dates [0, 7, 14] none)) none).1 {} = .error .assertionError := by
  apply failed_fit_blocks_sampling (f := "W-SUN") p (by decide) (by simp) rfl
  rw [TS.freqToDuration_eq_none_iff]; decide

/-- C29. A `dt` given to `fit` is not checked: any number is remembered, and a non-positive one makes every
later default sample an `AssertionError`. -/
theorem fit_nonpositive_dt {o : Obj P} {x : SimData} {d : ℝ} {a : Arr} (hd : d ≤ 0)
    (h : (preprocessFit pd o.state x (some d)).2 = .ok (a, d)) {g : SampleArgs} (hx : g.x0 = .none) (hg : g.dt = none) :
    pathSample pd m (fit pd m o x (some d)).1 g = .error .assertionError := by
  obtain ⟨info, -, -, -, -, hst⟩ := preprocessFit_ok h
  unfold pathSample
  rw [fit_state, hst, hx, hg]
  have : ∀ ls lf, preprocessSim ⟨some x.container, x.columnNames, info, some a.cols, some a.rows,
      some (a.row 0), some (a.row (a.rows - 1)), some d⟩ m.x0Default .none none ls lf = .error .assertionError := by
    intro ls lf
    unfold preprocessSim resolveX0 resolveSimDt
    simp only [Option.isSome, if_true]
    rw [if_neg (not_lt.mpr hd)]
    rfl
  rw [this]
  rfl

/-- C29. A plain list of `n` numbers is one observation of `n` variates, not a series. -/
theorem list_is_one_row (s : FitState) (l : List ℝ) (dt : Option ℝ) :
    ∃ d, (preprocessFit pd s (.list l) dt).2 = .ok (Arr.ofList 1 l.length l, d) ∧
      (preprocessFit pd s (.list l) dt).1.numRows = some 1 ∧
      (preprocessFit pd s (.list l) dt).1.numCols = some l.length := by
  cases dt with
  | some d => exact ⟨d, rfl, rfl, rfl⟩
  | none => exact ⟨1 / 252, rfl, rfl, rfl⟩

/-! ### Scores -/

/-- C68. `aic` and `bic` of a list raise `AttributeError` although `nll` accepts it; the object has been changed
by then. -/
theorem score_of_list (k : Score) (o : Obj P) (l : List ℝ) (dt : Option ℝ) (hk : k ≠ .nll) :
    (score pd m k o (.list l) dt).2 = .error .attributeError ∧
    (score pd m k o (.list l) dt).1.state.x0 = some ((Arr.ofList 1 l.length l).row 0) := by
  obtain ⟨d, h1, -, -⟩ := list_is_one_row (pd := pd) o.state l dt
  obtain ⟨info, -, -, -, -, hst⟩ := preprocessFit_ok h1
  refine ⟨?_, by rw [(score_state k o _ dt).1, hst]⟩
  unfold score
  rcases hp : preprocessFit pd o.state (.list l) dt with ⟨s, e | ⟨a, d'⟩⟩
  · rw [hp] at h1; cases h1
  · dsimp only
    rw [if_neg hk]
    rfl

/-- C68. The scores of an array, `Series` or frame with `n` rows, `k` parameters and total negative
log-likelihood `l`: the likelihood term is multiplied by `n` a second time, and the penalty of `bic` is doubled. -/
theorem score_formulas {o : Obj P} {x : SimData} {dt : Option ℝ} {a : Arr} {d l : ℝ} {n : Nat}
    (h : (preprocessFit pd o.state x dt).2 = .ok (a, d)) (hn : x.shape0 = .ok n) (hl : m.nllNp o.params a d = .ok l) :
    (score pd m .nll o x dt).2 = .ok l ∧
    (score pd m .aic o x dt).2 = .ok ((2 * m.numParams o.params + 2 * l) + 2 * (n - 1) * l) ∧
    (score pd m .bic o x dt).2 = .ok ((Real.log n * m.numParams o.params + 2 * l) +
      (Real.log n * m.numParams o.params + 2 * (n - 1) * l)) := by
  unfold score
  rcases hp : preprocessFit pd o.state x dt with ⟨s, e | ⟨b, d'⟩⟩
  · rw [hp] at h; cases h
  · rw [hp] at h
    cases h
    dsimp only
    rw [if_pos rfl, if_neg (by decide), if_neg (by decide), hn, hl]
    refine ⟨rfl, ?_, ?_⟩
    · change Except.ok (scoreValue _ n l .aic) = _
      simp only [scoreValue]
      congr 1; ring
    · change Except.ok (scoreValue _ n l .bic) = _
      simp only [scoreValue]
      congr 1; ring

/-- C68. `aic` equals the Akaike criterion `2 k + 2 nll` only for a single observation or a likelihood of
one. -/
theorem aic_standard_iff {k l : ℝ} {n : Nat} : scoreValue k n l .aic = 2 * k + 2 * l ↔ n = 1 ∨ l = 0 := by
  have e : scoreValue k n l .aic - (2 * k + 2 * l) = 2 * l * ((n : ℝ) - 1) := by simp only [scoreValue]; ring
  rw [← sub_eq_zero, e]
  constructor
  · intro h
    rcases mul_eq_zero.mp h with h' | h'
    · right; linarith
    · left
      have : (n : ℝ) = 1 := by linarith
      exact_mod_cast this
  · rintro (h | h)
    · subst h; simp
    · subst h; simp

/-- C68, defect. The ranking by `aic` can contradict the Akaike criterion: for every number `n ≥ 2` of rows there
are two models, the one with the smaller criterion having the larger `aic`. -/
theorem aic_ranking_wrong (n : Nat) (hn : 2 ≤ n) : ∃ k₁ l₁ k₂ l₂ : ℝ, 0 < k₁ ∧ 0 < k₂ ∧
    2 * k₁ + 2 * l₁ < 2 * k₂ + 2 * l₂ ∧ scoreValue k₂ n l₂ .aic < scoreValue k₁ n l₁ .aic := by
  have h2 : (2 : ℝ) ≤ n := by exact_mod_cast hn
  refine ⟨2, 3, 4, 3 / 2, by norm_num, by norm_num, by norm_num, ?_⟩
  simp only [scoreValue]
  nlinarith

/-- C68, defect. Even with the likelihood multiplied as in the code, `bic` with its doubled penalty can
contradict the Bayesian criterion: for every `n ≥ 2` there are two models ranked oppositely. -/
theorem bic_ranking_wrong (n : Nat) (hn : 2 ≤ n) : ∃ k₁ l₁ k₂ l₂ : ℝ, 0 < k₁ ∧ 0 < k₂ ∧
    Real.log n * k₁ + 2 * (l₁ * n) < Real.log n * k₂ + 2 * (l₂ * n) ∧
    scoreValue k₂ n l₂ .bic < scoreValue k₁ n l₁ .bic := by
  have h2 : (2 : ℝ) ≤ n := by exact_mod_cast hn
  have hlog : 0 < Real.log n := Real.log_pos (by linarith)
  have hn0 : (n : ℝ) ≠ 0 := by positivity
  refine ⟨2, 0, 1, 3 / 4 * Real.log n / n, by norm_num, by norm_num, ?_, ?_⟩
  · have : 3 / 4 * Real.log n / n * n = 3 / 4 * Real.log n := by field_simp
    rw [this]; linarith
  · simp only [scoreValue]
    have : 2 * (3 / 4 * Real.log n / n) * n = 3 / 2 * Real.log n := by field_simp; ring
    rw [this]; linarith

/-- A history: a fit, a score on other data, a sample. The start row is that of the scored data. -/
example (z : Nat → ℝ) (p : BMParams) :
    (run demoPandas (demoModel z) ⟨p, .init⟩ [.fit (.nd1 [1, 2]) (some 1), .score .nll (.nd1 [5, 6]) (some 2),
      .sample {}]).state.x0 = some [5] := by
  rw [show [Call.fit (.nd1 [1, 2]) (some 1), .score .nll (.nd1 [5, 6]) (some 2), .sample {}] =
    [Call.fit (.nd1 [1, 2]) (some 1)] ++ Call.score .nll (.nd1 [5, 6]) (some 2) :: [.sample {}] from rfl,
    history_last_data (r := (Arr.ofList 2 1 [5, 6], 2)) _ _ _ rfl]
  · simp [preprocessFit, indexInfo, SimData.dateIndex, SimData.toMatrix, resolveDt, Arr.row, Arr.ofList, Arr.get]
  · intro d hd
    simp only [List.mem_singleton] at hd
    subst hd
    rfl
  · rfl

/-- A model fitted on dated data and sampled without arguments returns a dated `Series`. -/
example (z : Nat → ℝ) : ∃ out, pathSample demoPandas (demoModel z)
    (fit demoPandas (demoModel z) ⟨⟨[0], [1], none⟩, .init⟩ (.series [1, 2, 4] (.str "x") (.dates [0, 1, 2] none)) none).1
    { numSteps := 2 } = .ok out ∧ out.labels = some [0, 1, 2] ∧ out.names = some [.str "x"] := by
  have hfit : (fit demoPandas (demoModel z) ⟨⟨[0], [1], none⟩, .init⟩
      (.series [1, 2, 4] (.str "x") (.dates [0, 1, 2] none)) none).1 =
      ⟨⟨[0], [1], none⟩, ⟨some .series, some [.str "x"], ⟨true, none, some 0, some 2, some "D"⟩, some 1, some 3,
        some ((Arr.ofList 3 1 [1, 2, 4]).row 0), some ((Arr.ofList 3 1 [1, 2, 4]).row 2), some (1 / 365)⟩⟩ := rfl
  rw [hfit]
  obtain ⟨a, ha⟩ := (bm_succeeds_iff (p := ⟨[0], [1], none⟩) (x0 := (Arr.ofList 3 1 [1, 2, 4]).row 0) (dt := 1 / 365)
    (z := z) 2 1).mpr ⟨by omega, by omega, by simp, by simp, by simp, by simp [Arr.row, Arr.ofList], by simp [Arr.row, Arr.ofList]⟩
  obtain ⟨⟨hr, hc⟩, -⟩ := bm_increments (s := 2) (n := 1) ha
  have hr : a.rows = 3 := hr
  have hc : a.cols = 1 := by simpa using hc
  refine dated_sample_returns (a := a) (idx := [0, 1, 2]) (names := [.str "x"])
    (r := ((Arr.ofList 3 1 [1, 2, 4]).row 0, 1 / 365, some 0, some "D")) (Or.inl rfl) ?_ ha ?_ ?_ (Or.inl rfl)
  · have : resolveSimDt ⟨some .series, some [.str "x"], ⟨true, none, some 0, some 2, some "D"⟩, some 1, some 3,
        some ((Arr.ofList 3 1 [1, 2, 4]).row 0), some ((Arr.ofList 3 1 [1, 2, 4]).row 2), some (1 / 365)⟩ none = .ok (1 / 365) := by
      simp only [resolveSimDt, Option.isSome, if_true]
      rw [if_pos (by norm_num)]
    unfold preprocessSim
    dsimp only
    rw [this]
    rfl
  · rw [hr]; rfl
  · rw [hc]; rfl

end Verif.Sim
