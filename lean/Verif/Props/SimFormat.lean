import Verif.Props.SimNames
import Verif.Spec.SimBase

/-!
# C28: what `path_sample` returns
-/

namespace Verif.Sim

variable {P : Type} {pd : Pandas} {m : ModelOps P} {o : Obj P} {g : SampleArgs}

/-- Facts about the preprocessed arguments. -/
theorem preprocessSim_ok {s : FitState} {x0d : ℝ} {x0 : X0Arg} {dt : Option ℝ} {ls : Option Int}
    {lf : Option String} {r : List ℝ × ℝ × Option Int × Option String}
    (h : preprocessSim s x0d x0 dt ls lf = .ok r) :
    0 < r.2.1 ∧ (∀ d, dt = some d → r.2.1 = d) ∧ (ls ≠ none → r.2.2.1 = ls) ∧ (lf ≠ none → r.2.2.2 = lf) ∧
    (s.index.has = false → ls = none → lf = none → r.2.2.1 = none ∧ r.2.2.2 = none) := by
  unfold preprocessSim at h
  obtain ⟨⟨v, l⟩, h1, h⟩ := bind_inv h
  obtain ⟨d, h2, h⟩ := bind_inv h
  cases h
  dsimp only
  have hd : 0 < d ∧ ∀ e, dt = some e → d = e := by
    unfold resolveSimDt at h2
    cases dt with
    | some e =>
      dsimp only at h2
      by_cases he : 0 < e
      · rw [if_pos he] at h2; cases h2; exact ⟨he, fun e' h' => by cases h'; rfl⟩
      · rw [if_neg he] at h2; cases h2
    | none =>
      dsimp only at h2
      by_cases hx : s.x0.isSome = true
      · rw [if_pos hx] at h2
        cases hs : s.dt with
        | none => rw [hs] at h2; cases h2
        | some e =>
          rw [hs] at h2
          dsimp only at h2
          by_cases he : 0 < e
          · rw [if_pos he] at h2; cases h2; exact ⟨he, fun e' h' => by cases h'⟩
          · rw [if_neg he] at h2; cases h2
      · rw [if_neg hx] at h2
        dsimp only at h2
        rw [if_pos (by norm_num)] at h2
        cases h2
        exact ⟨by norm_num, fun e' h' => by cases h'⟩
  have hl : (ls ≠ none → l = ls) ∧ (s.index.has = false → ls = none → lf = none → l = none) := by
    cases x0 with
    | none =>
      unfold resolveX0 at h1
      cases hx : s.x0 with
      | none => rw [hx] at h1; cases h1; exact ⟨fun _ => rfl, fun _ e _ => e⟩
      | some w =>
        rw [hx] at h1
        cases h1
        constructor
        · intro hne
          cases ls with
          | none => exact absurd rfl hne
          | some a => simp
        · rintro hh rfl rfl; simp [hh]
    | str t =>
      unfold resolveX0 at h1
      dsimp only at h1
      by_cases hf : t = "first"
      · rw [if_pos hf] at h1
        cases hx : s.x0 with
        | none => rw [hx] at h1; cases h1
        | some w =>
          rw [hx] at h1
          cases h1
          constructor
          · intro hne
            cases ls with
            | none => exact absurd rfl hne
            | some a => simp
          · rintro hh rfl rfl; simp [hh]
      · rw [if_neg hf] at h1
        by_cases hla : t = "last"
        · rw [if_pos hla] at h1
          cases hx : s.x0 with
          | none => rw [hx] at h1; cases h1
          | some w =>
            cases hxn : s.xn with
            | none => rw [hx, hxn] at h1; cases h1
            | some w' =>
              rw [hx, hxn] at h1
              cases h1
              constructor
              · intro hne
                cases ls with
                | none => exact absurd rfl hne
                | some a => simp
              · rintro hh rfl rfl; simp [hh]
        · rw [if_neg hla] at h1; cases h1
    | data x =>
      unfold resolveX0 at h1
      obtain ⟨w, hw, h1⟩ := bind_inv h1
      cases h1
      exact ⟨fun _ => rfl, fun _ e _ => e⟩
  refine ⟨hd.1, hd.2, hl.1, ?_, fun hh e1 e2 => ⟨hl.2 hh e1 e2, ?_⟩⟩
  · intro hne
    cases lf with
    | none => exact absurd rfl hne
    | some a => simp
  · subst e1 e2; simp [hh]

theorem needDates_iff {s : FitState} {ls : Option Int} {lf : Option String} :
    needDates s ls lf = true ↔ s.index.has = true ∨ ls ≠ none ∨ lf ≠ none := by
  unfold needDates
  cases ls <;> cases lf <;> simp

/-- The dates needed by the formatting are those wanted by the caller. -/
theorem needDates_preprocess {s : FitState} {x0d : ℝ} {r : List ℝ × ℝ × Option Int × Option String}
    (h : preprocessSim s x0d g.x0 g.dt g.labelStart g.labelFreq = .ok r) :
    needDates s r.2.2.1 r.2.2.2 = true ↔ WantsLabels s g := by
  obtain ⟨-, -, h3, h4, h5⟩ := preprocessSim_ok h
  rw [needDates_iff]
  unfold WantsLabels
  constructor
  · rintro (h' | h' | h')
    · exact Or.inl h'
    · by_contra hne
      rw [not_or, not_or, not_not, not_not] at hne
      obtain ⟨n1, n2, n3⟩ := hne
      exact h' (h5 (by simpa using n1) n2 n3).1
    · by_contra hne
      rw [not_or, not_or, not_not, not_not] at hne
      obtain ⟨n1, n2, n3⟩ := hne
      exact h' (h5 (by simpa using n1) n2 n3).2
  · rintro (h' | h' | h')
    · exact Or.inl h'
    · exact Or.inr (Or.inl (by rw [h3 h']; exact h'))
    · exact Or.inr (Or.inr (by rw [h4 h']; exact h'))

theorem pathSample_inv {out : Out} (h : pathSample pd m o g = .ok out) :
    ∃ r a, preprocessSim o.state m.x0Default g.x0 g.dt g.labelStart g.labelFreq = .ok r ∧
      m.sample o.params r.1 r.2.1 g.numSteps g.numPaths = .ok a ∧
      formatAns pd o.state a r.2.2.1 r.2.2.2 g.columns g.includeX0 g.numPaths = .ok out := by
  unfold pathSample at h
  obtain ⟨⟨v, d, ls, lf⟩, h1, h⟩ := bind_inv h
  obtain ⟨a, h2, h⟩ := bind_inv h
  exact ⟨_, a, h1, h2, h⟩

/-- C28. A returned sample is labelled exactly when the caller asked for dates (by `label_start`, `label_freq`
or by fitting dated data); otherwise it is a bare array. -/
theorem sample_labelled_iff {out : Out} (h : pathSample pd m o g = .ok out) :
    out.labels.isSome = true ↔ WantsLabels o.state g := by
  obtain ⟨r, a, h1, -, h⟩ := pathSample_inv h
  rw [← needDates_preprocess h1]
  unfold formatAns at h
  dsimp only at h
  by_cases hn : needDates o.state r.2.2.1 r.2.2.2 = true
  · rw [if_pos hn] at h
    obtain ⟨idx, -, h⟩ := bind_inv h
    obtain ⟨names, -, h⟩ := bind_inv h
    simp only [hn, iff_true]
    unfold labelled at h
    by_cases hs : names.length = 1 ∧ (o.state.container = some .series ∨ o.state.container = none)
    · rw [if_pos hs] at h
      cases hi : g.includeX0 with
      | true => rw [hi, if_pos rfl] at h; cases h; rfl
      | false => rw [hi, if_neg (by simp)] at h; cases h
    · rw [if_neg hs] at h
      cases hi : g.includeX0 with
      | true => rw [hi, if_pos rfl] at h; cases h; rfl
      | false => rw [hi, if_neg (by simp)] at h; cases h; rfl
  · rw [if_neg hn] at h
    simp only [hn, iff_false]
    by_cases hc : needColumns o.state r.2.2.1 r.2.2.2 g.columns = true
    · rw [if_pos hc] at h
      obtain ⟨names, -, h⟩ := bind_inv h
      cases h
    · rw [if_neg hc] at h
      cases hi : g.includeX0 with
      | true => rw [hi, if_pos rfl] at h; cases h; simp [Out.labels]
      | false => rw [hi, if_neg (by simp)] at h; cases h; simp [Out.labels]

/-- C28. The returned values are those of the sampler, without the first row if `include_x0=False`; time labels
and column names have the matching lengths; a `Series` is returned exactly for a single column when nothing or a
`Series` was fitted, and never with `include_x0=False`. -/
theorem sample_values (hpd : pd.Sound) {out : Out} (h : pathSample pd m o g = .ok out)
    {v p : Nat} (hv : 0 < v) (hp : 0 < p) (hgp : g.numPaths = p)
    (hcols : ∀ w d a, m.sample o.params w d g.numSteps g.numPaths = .ok a → a.cols = v * p) :
    ∃ w d a, m.sample o.params w d g.numSteps g.numPaths = .ok a ∧ 0 < d ∧
      out.rows = (if g.includeX0 then a.rows else a.rows - 1) ∧ out.cols = v * p ∧
      (∀ i j, i < out.rows → j < v * p → out.value i j = a.get (if g.includeX0 then i else i + 1) j) ∧
      (∀ l, out.labels = some l → l.length = out.rows) ∧ (∀ l, out.names = some l → l.length = v * p) ∧
      ((∃ l i n1 n2, out = .series l i n1 n2) ↔ WantsLabels o.state g ∧ v * p = 1 ∧
        (o.state.container = some .series ∨ o.state.container = none)) ∧
      ((∃ l i n1 n2, out = .series l i n1 n2) → g.includeX0 = true) := by
  obtain ⟨r, a, h1, h2, h⟩ := pathSample_inv h
  have hac := hcols _ _ _ h2
  have hvp : 0 < v * p := Nat.mul_pos hv hp
  refine ⟨r.1, r.2.1, a, h2, (preprocessSim_ok h1).1, ?_⟩
  have htail : ∀ i j, j < v * p → a.tail.get i j = a.get (i + 1) j := by
    intro i j _
    unfold Arr.tail Arr.get
    dsimp only
    congr 1
    ring
  unfold formatAns at h
  dsimp only at h
  rw [← needDates_preprocess h1]
  by_cases hn : needDates o.state r.2.2.1 r.2.2.2 = true
  · rw [if_pos hn] at h
    obtain ⟨idx, hidx, h⟩ := bind_inv h
    obtain ⟨names, hnames, h⟩ := bind_inv h
    rw [hac, hgp] at hnames
    have hnl := (column_names_entries hv hp hnames).1
    have hil : idx.length = a.rows := by
      unfold makeDateIndex at hidx
      split at hidx
      · exact hpd _ _ _ _ hidx
      · cases hidx
    unfold labelled at h
    by_cases hs : names.length = 1 ∧ (o.state.container = some .series ∨ o.state.container = none)
    · rw [if_pos hs] at h
      cases hi : g.includeX0 with
      | false => rw [hi, if_neg (by simp)] at h; cases h
      | true =>
        rw [hi, if_pos rfl] at h
        cases h
        have hvp1 : v * p = 1 := by omega
        have hac1 : a.cols = 1 := by omega
        have hfl : (Arr.flat a).length = a.rows := by simp [Arr.flat, hac1]
        refine ⟨by simpa [Out.rows] using hfl, by simp [Out.cols, hvp1], ?_, ?_, ?_, ?_, fun _ => rfl⟩
        · intro i j hir hj
          have hj0 : j = 0 := by omega
          subst hj0
          simp only [Out.rows, hfl] at hir
          simp only [Out.value, if_true, Arr.get, hac1, Nat.mul_one, Nat.add_zero]
          simp only [Arr.flat, hac1, Nat.mul_one]
          simp [hir]
        · intro l hl
          simp only [Out.labels, Option.some.injEq] at hl
          subst hl
          simp [Out.rows, hfl, hil]
        · intro l hl
          simp only [Out.names, Option.some.injEq] at hl
          subst hl
          simp [hvp1]
        · exact ⟨fun _ => ⟨hn, hvp1, hs.2⟩, fun _ => ⟨_, _, _, _, rfl⟩⟩
    · rw [if_neg hs] at h
      have hnot : ¬ (v * p = 1 ∧ (o.state.container = some .series ∨ o.state.container = none)) := by
        rwa [hnl] at hs
      cases hi : g.includeX0 with
      | true =>
        rw [hi, if_pos rfl] at h
        cases h
        refine ⟨by simp [Out.rows], by simp [Out.cols, hac], fun i j _ _ => by simp [Out.value], ?_, ?_, ?_, ?_⟩
        · intro l hl
          simp only [Out.labels, Option.some.injEq] at hl
          subst hl
          simp [Out.rows, hil]
        · intro l hl
          simp only [Out.names, Option.some.injEq] at hl
          subst hl
          exact hnl
        · exact ⟨fun ⟨_, _, _, _, e⟩ => (by cases e), fun ⟨_, hh⟩ => absurd hh hnot⟩
        · rintro ⟨_, _, _, _, e⟩; cases e
      | false =>
        rw [hi, if_neg (by simp)] at h
        cases h
        refine ⟨by simp [Out.rows, Arr.tail], by simp [Out.cols, Arr.tail, hac], ?_, ?_, ?_, ?_, ?_⟩
        · intro i j _ hj
          simp only [Out.value, Bool.false_eq_true, if_false]
          exact htail i j hj
        · intro l hl
          simp only [Out.labels, Option.some.injEq] at hl
          subst hl
          simp [Out.rows, Arr.tail, hil]
        · intro l hl
          simp only [Out.names, Option.some.injEq] at hl
          subst hl
          exact hnl
        · exact ⟨fun ⟨_, _, _, _, e⟩ => (by cases e), fun ⟨_, hh⟩ => absurd hh hnot⟩
        · rintro ⟨_, _, _, _, e⟩; cases e
  · rw [if_neg hn] at h
    by_cases hc : needColumns o.state r.2.2.1 r.2.2.2 g.columns = true
    · rw [if_pos hc] at h
      obtain ⟨names, -, h⟩ := bind_inv h
      cases h
    · rw [if_neg hc] at h
      cases hi : g.includeX0 with
      | true =>
        rw [hi, if_pos rfl] at h
        cases h
        refine ⟨by simp [Out.rows], by simp [Out.cols, hac], fun i j _ _ => by simp [Out.value], ?_, ?_, ?_, ?_⟩
        · intro l hl; cases hl
        · intro l hl; cases hl
        · exact ⟨fun ⟨_, _, _, _, e⟩ => (by cases e), fun ⟨hh, _⟩ => absurd hh hn⟩
        · rintro ⟨_, _, _, _, e⟩; cases e
      | false =>
        rw [hi, if_neg (by simp)] at h
        cases h
        refine ⟨by simp [Out.rows, Arr.tail], by simp [Out.cols, Arr.tail, hac], ?_, ?_, ?_, ?_, ?_⟩
        · intro i j _ hj
          simp only [Out.value, Bool.false_eq_true, if_false]
          exact htail i j hj
        · intro l hl; cases hl
        · intro l hl; cases hl
        · exact ⟨fun ⟨_, _, _, _, e⟩ => (by cases e), fun ⟨hh, _⟩ => absurd hh hn⟩
        · rintro ⟨_, _, _, _, e⟩; cases e

/-- C28, defect. Without dates, a model fitted on a pandas object, or given `columns`, cannot be sampled: the
call never returns. -/
theorem sample_needs_dates (hno : ¬ WantsLabels o.state g)
    (hc : o.state.container = some .series ∨ o.state.container = some .frame ∨ g.columns ≠ none) (out : Out) :
    pathSample pd m o g ≠ .ok out := by
  intro h
  obtain ⟨r, a, h1, -, h⟩ := pathSample_inv h
  have hn : ¬ needDates o.state r.2.2.1 r.2.2.2 = true := by rw [needDates_preprocess h1]; exact hno
  have hcol : needColumns o.state r.2.2.1 r.2.2.2 g.columns = true := by
    unfold needColumns
    rcases hc with hc | hc | hc
    · simp [hc]
    · simp [hc]
    · cases hg : g.columns with
      | none => exact absurd hg hc
      | some c => simp
  unfold formatAns at h
  rw [if_neg hn, if_pos hcol] at h
  obtain ⟨names, -, h⟩ := bind_inv h
  cases h

/-- … and when the simulation itself succeeds, the error is `UnboundLocalError`. -/
theorem sample_needs_dates_error (hno : ¬ WantsLabels o.state g)
    (hc : o.state.container = some .series ∨ o.state.container = some .frame ∨ g.columns ≠ none)
    {r : List ℝ × ℝ × Option Int × Option String} {a : Arr} {names : List Label}
    (h1 : preprocessSim o.state m.x0Default g.x0 g.dt g.labelStart g.labelFreq = .ok r)
    (h2 : m.sample o.params r.1 r.2.1 g.numSteps g.numPaths = .ok a)
    (h3 : makeColumnNames o.state a.cols g.numPaths g.columns = .ok names) :
    pathSample pd m o g = .error .unboundLocalError := by
  have hn : ¬ needDates o.state r.2.2.1 r.2.2.2 = true := by rw [needDates_preprocess h1]; exact hno
  have hcol : needColumns o.state r.2.2.1 r.2.2.2 g.columns = true := by
    unfold needColumns
    rcases hc with hc | hc | hc
    · simp [hc]
    · simp [hc]
    · cases hg : g.columns with
      | none => exact absurd hg hc
      | some c => simp
  unfold pathSample
  rw [h1]
  change (m.sample o.params r.1 r.2.1 g.numSteps g.numPaths >>= fun a =>
    formatAns pd o.state a r.2.2.1 r.2.2.2 g.columns g.includeX0 g.numPaths) = _
  rw [h2]
  change formatAns pd o.state a r.2.2.1 r.2.2.2 g.columns g.includeX0 g.numPaths = _
  unfold formatAns
  rw [if_neg hn, if_pos hcol, h3]
  rfl

/-- C28. A sample can be labelled only with both a start and a frequency: giving just one of `label_start`,
`label_freq` on a model not fitted on dated data never returns. -/
theorem sample_half_labels (hidx : o.state.index = .empty)
    (hhalf : (g.labelStart = none ∧ g.labelFreq ≠ none) ∨ (g.labelStart ≠ none ∧ g.labelFreq = none)) (out : Out) :
    pathSample pd m o g ≠ .ok out := by
  intro h
  obtain ⟨r, a, h1, -, h⟩ := pathSample_inv h
  have hn : needDates o.state r.2.2.1 r.2.2.2 = true := by
    rw [needDates_preprocess h1]
    rcases hhalf with ⟨-, h'⟩ | ⟨h', -⟩
    · exact Or.inr (Or.inr h')
    · exact Or.inr (Or.inl h')
  unfold formatAns at h
  rw [if_pos hn] at h
  obtain ⟨idx, hidx', -⟩ := bind_inv h
  -- one of the two labels is missing
  have hmiss : r.2.2.1 = none ∨ r.2.2.2 = none := by
    unfold preprocessSim at h1
    obtain ⟨⟨v, l⟩, e1, h1⟩ := bind_inv h1
    obtain ⟨d, e2, h1⟩ := bind_inv h1
    cases h1
    dsimp only
    rcases hhalf with ⟨h', -⟩ | ⟨-, h'⟩
    · left
      rw [h'] at e1
      have hmin : o.state.index.min = none := by rw [hidx]; rfl
      have hmax : o.state.index.max = none := by rw [hidx]; rfl
      cases hg : g.x0 with
      | none =>
        rw [hg] at e1
        unfold resolveX0 at e1
        cases hx : o.state.x0 with
        | none => rw [hx] at e1; cases e1; rfl
        | some w =>
          rw [hx, hmin] at e1
          simp only [ite_self, Except.ok.injEq, Prod.mk.injEq] at e1
          exact e1.2.symm
      | str t =>
        rw [hg] at e1
        unfold resolveX0 at e1
        dsimp only at e1
        by_cases hf : t = "first"
        · rw [if_pos hf] at e1
          cases hx : o.state.x0 with
          | none => rw [hx] at e1; cases e1
          | some w =>
            rw [hx, hmin] at e1
            simp only [ite_self, Except.ok.injEq, Prod.mk.injEq] at e1
            exact e1.2.symm
        · rw [if_neg hf] at e1
          by_cases hla : t = "last"
          · rw [if_pos hla] at e1
            cases hx : o.state.x0 with
            | none => rw [hx] at e1; cases e1
            | some w =>
              cases hxn : o.state.xn with
              | none => rw [hx, hxn] at e1; cases e1
              | some w' =>
                rw [hx, hxn, hmax] at e1
                simp only [ite_self, Except.ok.injEq, Prod.mk.injEq] at e1
                exact e1.2.symm
          · rw [if_neg hla] at e1; cases e1
      | data x =>
        rw [hg] at e1
        unfold resolveX0 at e1
        obtain ⟨w, -, e1⟩ := bind_inv e1
        cases e1
        rfl
    · right
      rw [h', hidx]
      simp [IndexInfo.empty]
  unfold makeDateIndex at hidx'
  rw [hidx] at hidx'
  rcases hmiss with e | e
  · rw [e] at hidx'; simp [IndexInfo.empty] at hidx'
  · rw [e] at hidx'
    simp only [IndexInfo.empty, Option.or_none] at hidx'
    split at hidx'
    · rename_i heq; cases heq
    · cases hidx'

/-- C28, defect. A univariate model fitted on a dated `Series` cannot produce a single path without its first
row. -/
theorem series_without_x0_fails (hidx : o.state.index.has = true) (hc : o.state.container = some .series)
    (hp : g.numPaths = 1) (hx : g.includeX0 = false)
    (hcols : ∀ w d a, m.sample o.params w d g.numSteps g.numPaths = .ok a → a.cols = 1) (out : Out) :
    pathSample pd m o g ≠ .ok out := by
  intro h
  obtain ⟨r, a, h1, h2, h⟩ := pathSample_inv h
  have hn : needDates o.state r.2.2.1 r.2.2.2 = true := by
    rw [needDates_iff]; exact Or.inl hidx
  unfold formatAns at h
  dsimp only at h
  rw [if_pos hn] at h
  obtain ⟨idx, -, h⟩ := bind_inv h
  obtain ⟨names, hnames, h⟩ := bind_inv h
  have hl : names.length = 1 := by
    rw [hcols _ _ _ h2, hp] at hnames
    exact (column_names_entries (v := 1) (p := 1) (by omega) (by omega) hnames).1
  unfold labelled at h
  rw [hx, if_neg (by simp), if_pos ⟨hl, Or.inl hc⟩] at h
  cases h

/-- C28, restated positively: on an object fitted on dated data with consistent columns, every sample whose
simulation and date range succeed is returned (unless it is a `Series` without its first row). -/
theorem dated_sample_returns {a : Arr} {idx : List Int} {names : List Label}
    {r : List ℝ × ℝ × Option Int × Option String} (hw : WantsLabels o.state g)
    (h1 : preprocessSim o.state m.x0Default g.x0 g.dt g.labelStart g.labelFreq = .ok r)
    (h2 : m.sample o.params r.1 r.2.1 g.numSteps g.numPaths = .ok a)
    (h3 : makeDateIndex pd o.state a.rows r.2.2.1 r.2.2.2 = .ok idx)
    (h4 : makeColumnNames o.state a.cols g.numPaths g.columns = .ok names)
    (h5 : g.includeX0 = true ∨ o.state.container = some .frame ∨ names.length ≠ 1) :
    ∃ out, pathSample pd m o g = .ok out ∧ out.labels = some (if g.includeX0 then idx else idx.tail) ∧
      out.names = some names := by
  have hn : needDates o.state r.2.2.1 r.2.2.2 = true := by rw [needDates_preprocess h1]; exact hw
  have e : pathSample pd m o g =
      if g.includeX0 then .ok (labelled o.state a names idx) else dropFirst (labelled o.state a names idx) := by
    unfold pathSample
    rw [h1]
    change (m.sample o.params r.1 r.2.1 g.numSteps g.numPaths >>= fun a =>
      formatAns pd o.state a r.2.2.1 r.2.2.2 g.columns g.includeX0 g.numPaths) = _
    rw [h2]
    change formatAns pd o.state a r.2.2.1 r.2.2.2 g.columns g.includeX0 g.numPaths = _
    unfold formatAns
    dsimp only
    rw [if_pos hn, h3]
    change (makeColumnNames o.state a.cols g.numPaths g.columns >>= _) = _
    rw [h4]
    rfl
  rw [e]
  unfold labelled
  by_cases hs : names.length = 1 ∧ (o.state.container = some .series ∨ o.state.container = none)
  · rw [if_pos hs]
    have hi : g.includeX0 = true := by
      rcases h5 with h5 | h5 | h5
      · exact h5
      · rw [h5] at hs; rcases hs.2 with h' | h' <;> cases h'
      · exact absurd hs.1 h5
    rw [if_pos hi]
    refine ⟨_, rfl, by simp [Out.labels, hi], ?_⟩
    obtain ⟨n, rfl⟩ := List.length_eq_one_iff.mp hs.1
    rfl
  · rw [if_neg hs]
    cases hi : g.includeX0 with
    | true => exact ⟨_, if_pos rfl, by simp [Out.labels], rfl⟩
    | false => exact ⟨_, by rw [if_neg (by simp)]; rfl, by simp [Out.labels], rfl⟩

/-! ### A concrete model -/

/-- A Brownian motion without drift, fitted by doing nothing, as a concrete instance. -/
noncomputable def demoModel (z : Nat → ℝ) : ModelOps BMParams :=
  ⟨0, fun p x0 dt n k => bmSample p x0 dt n k z, fun p _ _ => (p, .ok ()), fun _ _ _ => .ok 0, fun _ => 2⟩

/-- Daily dates from the start. -/
def demoPandas : Pandas := ⟨fun _ => some "D", fun a _ n => .ok ((List.range n).map fun (i : Nat) => a + i)⟩

theorem demoPandas_sound : demoPandas.Sound := by
  intro a f n l h
  cases h
  simp

/-- The hypotheses of `sample_needs_dates` are met by an unfitted model and an explicit list of columns. -/
example (z : Nat → ℝ) (out : Out) : pathSample demoPandas (demoModel z) ⟨⟨[0], [1], none⟩, .init⟩
    { columns := some [.str "x"] } ≠ .ok out := by
  apply sample_needs_dates
  · rintro (h | h | h)
    · cases h
    · exact h rfl
    · exact h rfl
  · right; right; simp

end Verif.Sim
