import Verif.Lemmas.KFoldFinish

/-!
# Properties of `TimeAwareKFold` (C01 - C09)

`c` is always an object built by the constructor (`kfoldInit … = .ok c`); the run is the generator driven
to its end. `groupsInForce` are the labels the call uses (the argument, or `0, 1, 2, …`).
-/

namespace Verif.Split

open List

variable {nf : FoldsArg} {ne np : DeltaArg} {lf : Bool} {fr : Option Nat} {c : KFoldCfg}
variable {X : XArg} {y : YArg} {gs : Option GroupsArg}

/-! ### C01 -/

/-- C01 (first half). When the generator finishes, the test sets written one after the other are exactly
the sample indices in order (after one more, unyielded, leading fold when `look_forward`): every index is
in exactly one fold, folds are runs of consecutive indices, and they come in increasing order. -/
theorem kfold_tests_partition (hc : kfoldInit nf ne np lf fr = .ok c) {n : Nat}
    (hX : X.rows = some n) (hfin : (c.split X y gs).err = none) :
    (lf = false → ((c.split X y gs).yields.map Prod.snd).flatten = List.range n) ∧
    (lf = true → ∃ first, (first :: (c.split X y gs).yields.map Prod.snd).flatten = List.range n) := by
  obtain ⟨hk, -, -, hlf, -⟩ := kfoldInit_ok hc
  rcases split_cases c hk X y gs with ⟨e, he⟩ | ⟨n', bs, hX', hlen, hsort, hkn, _, _, _, hcontig, hbl, hrun⟩
  · rw [he] at hfin; cases hfin
  · rw [hX] at hX'; cases hX'
    rw [hrun] at hfin ⊢
    have hfa := kfoldLoop_done hfin
    have hmap : (kfoldLoop (kfoldOne (List.range n) (groupsInForce n gs) c.lookForward
        (effectiveDelta gs.isSome c.freq c.nEmbargo) (effectiveDelta gs.isSome c.freq c.nPurge))
        (testsOf c.lookForward bs)).yields.map Prod.snd = testsOf c.lookForward bs := by
      have : List.Forall₂ (fun t s => t = Prod.snd s) (testsOf c.lookForward bs) (kfoldLoop (kfoldOne
          (List.range n) (groupsInForce n gs) c.lookForward
          (effectiveDelta gs.isSome c.freq c.nEmbargo) (effectiveDelta gs.isSome c.freq c.nPurge))
          (testsOf c.lookForward bs)).yields := by
        refine hfa.imp ?_
        intro t s h
        unfold kfoldOne at h
        obtain ⟨_, _, h⟩ := bind_ok_inv h
        obtain ⟨_, _, h⟩ := bind_ok_inv h
        obtain ⟨_, _, h⟩ := bind_ok_inv h
        cases h; rfl
      have h2 := (List.forall₂_map_right_iff (R := fun a b => a = b)).mpr this
      exact (List.forall₂_eq_eq_eq ▸ h2 : _ = _).symm
    rw [hmap]
    have hflat := contig_flatten hcontig
    rw [hlen, Nat.sub_zero, ← List.range_eq_range'] at hflat
    constructor
    · rintro rfl
      unfold testsOf; rw [hlf]; exact hflat
    · rintro rfl
      unfold testsOf; rw [hlf]
      cases bs with
      | nil => simp at hbl; omega
      | cons b bs => exact ⟨npArange b.1 (b.2 + 1), by simpa using hflat⟩

/-- C01 (second half). Each yielded test set is exactly the specified fold, in increasing order; it is
never empty when the groups are an `ndarray` (or `None`), or when `look_forward` is set. -/
theorem kfold_test_is_fold (hc : kfoldInit nf ne np lf fr = .ok c) {j : Nat} {s : TrainTest}
    (hs : (c.split X y gs).yields[j]? = some s) :
    ∃ n, X.rows = some n ∧ s.2.Pairwise (· < ·) ∧
      (∀ i, i ∈ s.2 ↔ InFold (groupsInForce n gs).vals n c.nFolds (if lf then j + 1 else j) i) ∧
      ((groupsInForce n gs).kind = .ndarray ∨ lf = true → s.2 ≠ []) := by
  obtain ⟨hk, -, -, hlf, -⟩ := kfoldInit_ok hc
  obtain ⟨n, f, a, b, h1, _, _, _, hf, _, h2, _, _, _, _, _, _, h3, h4, h5, _⟩ := split_yield hk hs
  refine ⟨n, h1, h2 ▸ npArange_sorted a b, ?_, ?_⟩
  · rw [hlf] at hf
    have : (if lf then j + 1 else j) = f := by rw [hf]; cases lf <;> rfl
    rw [this]; exact h5
  · rintro (h | h)
    · exact h3 h
    · exact h4 (by rw [hlf, h])

/-- Non-vacuity of C01: repeated labels straddling both even borders. -/
example : kfoldInit (.int 3) (.ok (.int 1)) (.ok (.int 1)) false none
      = .ok ⟨3, .int 1, .int 1, false, none⟩ ∧
    (KFoldCfg.split ⟨3, .int 1, .int 1, false, none⟩ (.ndarray 9) .none
      (some (.arr ⟨.ndarray, [0, 0, 1, 1, 2, 3, 3, 5, 6]⟩))) =
      ⟨[([5, 6, 7, 8], [0, 1, 2, 3]), ([0, 1, 7, 8], [4, 5, 6]), ([0, 1, 2, 3, 4, 5, 6], [7, 8])], none⟩ := by
  decide

/-- C01 fails for `DatetimeIndex` groups in one point: a test set may be EMPTY (numpy raises on the
maximum of an empty array, pandas returns `NaT`). Here the second of three folds is empty and its
training set is the whole data set. -/
theorem kfold_dtindex_empty_test :
    (KFoldCfg.split ⟨3, .int 0, .int 0, false, some 1⟩ (.ndarray 6) .none
      (some (.arr ⟨.dtIndex, [0, 1, 1, 1, 1, 2]⟩))) =
      ⟨[([5], [0, 1, 2, 3, 4]), ([0, 1, 2, 3, 4, 5], []), ([0, 1, 2, 3, 4], [5])], none⟩ := by
  decide

/-! ### C02 -/

/-- C02. In every yielded split no label occurs on both sides. -/
theorem kfold_no_shared_label (hc : kfoldInit nf ne np lf fr = .ok c) {s : TrainTest}
    (hs : s ∈ (c.split X y gs).yields) :
    ∃ n, X.rows = some n ∧ ∀ i ∈ s.1, ∀ j ∈ s.2,
      label (groupsInForce n gs).vals i ≠ label (groupsInForce n gs).vals j := by
  obtain ⟨hk, -, -, hlf, -⟩ := kfoldInit_ok hc
  obtain ⟨j, hj⟩ := List.mem_iff_getElem?.mp hs
  obtain ⟨n, f, a, b, h1, hlen, hsort, _, _, _, h2, hab, hbn, hca, hcb, _, _, _, _, _, hmem⟩ :=
    split_yield hk hj
  refine ⟨n, h1, ?_⟩
  intro i hi t ht
  have hi' := (hmem i).mp hi
  have hin : i < n := hi'.1
  have hit : i ∉ s.2 := hi'.2.1
  rw [h2, mem_npArange] at ht hit
  rcases Nat.lt_or_ge i a with h | h
  · exact ne_of_lt (hca i t h ht.1 (by omega))
  · exact ne_of_gt (hcb t i ht.2 (by omega) (by omega))

/-- C02 (test sets). Labels of an earlier test set are smaller than labels of a later one. -/
theorem kfold_tests_no_shared_label (hc : kfoldInit nf ne np lf fr = .ok c) {j j' : Nat}
    {s s' : TrainTest} (hjj : j < j') (hs : (c.split X y gs).yields[j]? = some s)
    (hs' : (c.split X y gs).yields[j']? = some s') :
    ∃ n, X.rows = some n ∧ ∀ i ∈ s.2, ∀ i' ∈ s'.2,
      label (groupsInForce n gs).vals i < label (groupsInForce n gs).vals i' := by
  obtain ⟨hk, -, -, hlf, -⟩ := kfoldInit_ok hc
  obtain ⟨n, f, _, _, h1, hlen, hsort, hkn, hf, hfk, _, _, _, _, _, _, _, _, _, h5, _⟩ := split_yield hk hs
  obtain ⟨n', f', _, _, h1', _, _, _, hf', hfk', _, _, _, _, _, _, _, _, _, h5', _⟩ := split_yield hk hs'
  rw [h1] at h1'; cases h1'
  refine ⟨n, h1, ?_⟩
  intro i hi i' hi'
  have hi1 := ((h5 i).mp hi).2.2
  obtain ⟨g, rfl⟩ : ∃ g, f' = g + 1 := ⟨f' - 1, by omega⟩
  have hi2 := ((h5' i').mp hi').2.1 g rfl
  have hle : label (groupsInForce n gs).vals (evenEnd n c.nFolds f)
      ≤ label (groupsInForce n gs).vals (evenEnd n c.nFolds g) := by
    apply sorted_label hsort
    · unfold evenEnd
      have : (f + 1) * (n / c.nFolds) ≤ (g + 1) * (n / c.nFolds) :=
        Nat.mul_le_mul_right _ (by omega)
      omega
    · rw [hlen]; exact evenEnd_lt (by omega) hkn (by omega)
  omega

/-! ### C03 -/

/-- C03. The training set of every yielded split is exactly the specified set, strictly increasing and
non-empty. -/
theorem kfold_train_exact (hc : kfoldInit nf ne np lf fr = .ok c) {s : TrainTest}
    (hs : s ∈ (c.split X y gs).yields) :
    ∃ n, X.rows = some n ∧ s.1.Pairwise (· < ·) ∧ s.1 ≠ [] ∧
      ∀ i, i ∈ s.1 ↔ InTrain (groupsInForce n gs).vals n (inLabelUnits fr gs c.nPurge)
        (inLabelUnits fr gs c.nEmbargo) lf {i | i ∈ s.2} i := by
  obtain ⟨hk, -, -, hlf, hfr, -⟩ := kfoldInit_ok hc
  obtain ⟨j, hj⟩ := List.mem_iff_getElem?.mp hs
  obtain ⟨n, f, a, b, h1, _, _, _, _, _, _, _, _, _, _, h2, h3, _, _, _, h4⟩ := split_yield hk hj
  rw [hlf, hfr] at h4
  exact ⟨n, h1, h2, h3, h4⟩

/-- Non-vacuity of C02/C03 with time-valued groups and units: two-nanosecond units. -/
example : (KFoldCfg.split ⟨2, .int 1, .int 1, false, some 2⟩ (.dataFrame 8) .series
      (some (.arr ⟨.dtIndex, [0, 1, 2, 5, 5, 6, 7, 9]⟩))) =
      ⟨[([7], [0, 1, 2, 3, 4]), ([0, 1, 2], [5, 6, 7])], none⟩ := by
  decide

/-! ### C04 -/

/-- C04. With `look_forward` every training sample lies more than `n_embargo` before the first test label
and has a smaller index than every test sample. -/
theorem kfold_look_forward (hc : kfoldInit nf ne np true fr = .ok c) {s : TrainTest}
    (hs : s ∈ (c.split X y gs).yields) :
    ∃ n, X.rows = some n ∧ ∀ i ∈ s.1, ∀ t ∈ s.2, i < t ∧
      label (groupsInForce n gs).vals i <
        label (groupsInForce n gs).vals t - inLabelUnits fr gs c.nEmbargo := by
  obtain ⟨hk, hen, -, hlf, hfr, -⟩ := kfoldInit_ok hc
  obtain ⟨j, hj⟩ := List.mem_iff_getElem?.mp hs
  obtain ⟨n, f, a, b, h1, hlen, hsort, _, _, _, h2, hab, hbn, hca, hcb, _, _, _, hne, _, hmem⟩ :=
    split_yield hk hj
  refine ⟨n, h1, ?_⟩
  intro i hi t ht
  obtain ⟨hi1, hi2, -, hi4, hi5⟩ := (hmem i).mp hi
  have ht0 := ht
  rw [h2, mem_npArange] at ht
  have hleast : IsLeast (labelSet (groupsInForce n gs).vals {i | i ∈ s.2})
      (label (groupsInForce n gs).vals a) := by
    refine ⟨⟨a, ?_, rfl⟩, ?_⟩
    · change a ∈ s.2; rw [h2, mem_npArange]; omega
    · rintro _ ⟨j, hj, rfl⟩
      have hj' : j ∈ s.2 := hj
      rw [h2, mem_npArange] at hj'
      exact sorted_label hsort hj'.1 (by omega)
  have h5 := hi5 hlf _ hleast
  have h4 := hi4 _ hleast
  rw [hfr] at h4
  have hat := sorted_label hsort ht.1 (show t < (groupsInForce n gs).vals.length by omega)
  have hia : i < a := by
    by_contra hcon
    have hi2' : i ∉ s.2 := hi2
    rw [h2, mem_npArange] at hi2'
    have := hcb a i (by omega) (by omega) (by omega)
    omega
  have hia' := hca i a hia (le_refl _) (by omega)
  exact ⟨by omega, by omega⟩

/-- Non-vacuity of C04. -/
example : (KFoldCfg.split ⟨3, .int 2, .int 0, true, none⟩ (.ndarray 9) .none
      (some (.arr ⟨.ndarray, [0, 0, 1, 1, 4, 5, 5, 5, 9]⟩))) =
      ⟨[([0, 1, 2, 3], [4, 5, 6, 7]), ([0, 1, 2, 3, 4, 5, 6, 7], [8])], none⟩ := by
  decide

/-! ### C05 -/

/-- C05. A finished generator has yielded exactly `get_n_splits()` splits; one that raised has yielded
fewer. -/
theorem kfold_split_count (hc : kfoldInit nf ne np lf fr = .ok c) :
    ((c.split X y gs).err = none → (c.split X y gs).yields.length = c.getNSplits) ∧
    ((c.split X y gs).err ≠ none → (c.split X y gs).yields.length < c.getNSplits) := by
  obtain ⟨hk, -, -, hlf, -⟩ := kfoldInit_ok hc
  have hpos : 0 < c.getNSplits := by unfold KFoldCfg.getNSplits; split <;> omega
  rcases split_cases c hk X y gs with ⟨e, he⟩ | ⟨n, bs, _, _, _, _, _, _, _, _, hbl, hrun⟩
  · rw [he]
    refine ⟨fun h => ?_, fun _ => hpos⟩
    cases h
  · have hl : (testsOf c.lookForward bs).length = c.getNSplits := by
      unfold testsOf KFoldCfg.getNSplits
      cases c.lookForward <;> simp [hbl]
    rw [hrun, ← hl]
    refine ⟨kfoldLoop_length, fun h => ?_⟩
    obtain ⟨pre, suf, h1, h2, h3⟩ := kfoldLoop_prefix (f := kfoldOne (List.range n)
      (groupsInForce n gs) c.lookForward (effectiveDelta gs.isSome c.freq c.nEmbargo)
      (effectiveDelta gs.isSome c.freq c.nPurge)) (ts := testsOf c.lookForward bs)
    rw [← h2.length_eq]
    conv => rhs; rw [h1]
    rw [List.length_append]
    cases herr : (kfoldLoop (kfoldOne (List.range n)
      (groupsInForce n gs) c.lookForward (effectiveDelta gs.isSome c.freq c.nEmbargo)
      (effectiveDelta gs.isSome c.freq c.nPurge)) (testsOf c.lookForward bs)).err with
    | none => exact absurd herr h
    | some e =>
      rw [herr] at h3
      obtain ⟨t, suf', rfl, -⟩ := h3
      simp

/-- Non-vacuity of C05: an early error after one yielded split. -/
example : (KFoldCfg.split ⟨2, .int 3, .int 0, false, none⟩ (.ndarray 6) .none none).yields.length = 1 ∧
    (KFoldCfg.split ⟨2, .int 3, .int 0, false, none⟩ (.ndarray 6) .none none).err = some .valueError := by
  decide

/-! ### C06 and C07 -/

/-- C07. Complete description of when a run on `ndarray` labels (or without groups) finishes. -/
theorem kfold_finishes_iff {p e : Int}
    (hc : kfoldInit nf (.ok (.int e)) (.ok (.int p)) lf fr = .ok c) {n : Nat}
    (hX : X.rows = some n) (hnd : (groupsInForce n gs).kind = .ndarray) (hfr : fr = none ∨ gs = none) :
    (c.split X y gs).err = none ↔
      y ≠ .other ∧ gs ≠ some .other ∧ (groupsInForce n gs).vals.length = n ∧
      (groupsInForce n gs).vals.Pairwise (· ≤ ·) ∧ c.nFolds ≤ n ∧ p + e < n ∧
      p + e ≤ (n : Int) - (n / c.nFolds : Nat) ∧
      label (groupsInForce n gs).vals (evenEnd n c.nFolds (c.nFolds - 2)) ≠
        label (groupsInForce n gs).vals (n - 1) ∧
      ∀ f < c.nFolds, (lf = true → 1 ≤ f) →
        (∃ i, InFold (groupsInForce n gs).vals n c.nFolds f i) ∧
        ∃ i, InTrain (groupsInForce n gs).vals n p e lf
          {i | InFold (groupsInForce n gs).vals n c.nFolds f i} i := by
  obtain ⟨hk, hen, hpn, hlf, hfr', -, he, hp⟩ := kfoldInit_ok hc
  replace he : c.nEmbargo = .int e := by injection he with h; exact h.symm
  replace hp : c.nPurge = .int p := by injection hp with h; exact h.symm
  have he0 : 0 ≤ e := by rw [he] at hen; simpa [Delta.neg] using hen
  have hp0 : 0 ≤ p := by rw [hp] at hpn; simpa [Delta.neg] using hpn
  subst hlf hfr'
  have hposn : (groupsInForce n gs).kind.positional = true := by rw [hnd]; rfl
  constructor
  · intro hfin
    obtain ⟨n', hacc⟩ := accepted_of_run hk hp he hp0 he0 (Or.inl hfin)
    have := hacc.rows; rw [hX] at this; cases this
    have hall := modify_all hk hacc.folds hacc.len hacc.sorted hposn
    refine ⟨hacc.yok, hacc.gok, hacc.len, hacc.sorted, hacc.folds, hacc.sum, hacc.maxTrain, ?_, ?_⟩
    · intro hcon
      rw [split_accepted hk hp he hp0 he0 hacc, hall.2 hcon] at hfin
      cases hfin
    · intro f hf hlf1
      rcases split_cases c hk X y gs with ⟨err, herr⟩ | ⟨n', bs, hX', _, _, _, _, _, hm, hcontig, hbl, hrun⟩
      · rw [herr] at hfin; cases hfin
      · rw [hX] at hX'; cases hX'
        rw [hrun, kfoldLoop_none_iff] at hfin
        have hb : bs[f]? = some (bs[f]'(by omega)) := List.getElem?_eq_getElem (by omega)
        have hout := fold_outcome hk hp he hp0 he0 hacc hnd hfr hm hcontig hbl hb
        exact hout.1.mp (hfin _ (mem_testsOf_iff.mpr ⟨f, _, hlf1, hb, rfl⟩))
  · rintro ⟨h1, h2, h3, h4, h5, h6, h7, h8, h9⟩
    have hacc : Accepted c p e X y gs n := ⟨hX, h1, h2, h3, h4, h5, h6, h7⟩
    obtain ⟨bs, hm, hcontig, hbl, hrun⟩ := run_of_accepted hk hp he hp0 he0 hacc hposn h8
    rw [hrun, kfoldLoop_none_iff]
    intro t ht
    obtain ⟨f, b, hf1, hb, rfl⟩ := mem_testsOf_iff.mp ht
    have hfk : f < c.nFolds := by
      rw [← hbl]; by_contra hcon
      rw [List.getElem?_eq_none (by omega)] at hb; cases hb
    exact (fold_outcome hk hp he hp0 he0 hacc hnd hfr hm hcontig hbl hb).1.mpr (h9 f hfk hf1)

/-- Non-vacuity of C07: the condition on the last label matters. -/
example : (KFoldCfg.split ⟨2, .int 0, .int 0, false, none⟩ (.ndarray 4) .none
      (some (.arr ⟨.ndarray, [0, 7, 7, 7]⟩))).err = some .indexError ∧
    (KFoldCfg.split ⟨2, .int 0, .int 0, false, none⟩ (.ndarray 4) .none
      (some (.arr ⟨.ndarray, [0, 7, 7, 8]⟩))).err = none := by
  decide

/-- C07 (error classes). For accepted arguments: `IndexError` before any split when the last label
already occupies the end of the last-but-one even section; otherwise, if no fold is swallowed by a single
label, the only possible error is `ValueError` (an emptied training set). -/
theorem kfold_error_class {p e : Int}
    (hc : kfoldInit nf (.ok (.int e)) (.ok (.int p)) lf fr = .ok c) {n : Nat}
    (hacc : Accepted c p e X y gs n)
    (hnd : (groupsInForce n gs).kind = .ndarray) (hfr : fr = none ∨ gs = none) :
    (label (groupsInForce n gs).vals (evenEnd n c.nFolds (c.nFolds - 2)) =
        label (groupsInForce n gs).vals (n - 1) → c.split X y gs = ⟨[], some .indexError⟩) ∧
    (label (groupsInForce n gs).vals (evenEnd n c.nFolds (c.nFolds - 2)) ≠
        label (groupsInForce n gs).vals (n - 1) →
      (∀ f < c.nFolds, ∃ i, InFold (groupsInForce n gs).vals n c.nFolds f i) →
      ∀ err, (c.split X y gs).err = some err → err = .valueError) := by
  obtain ⟨hk, hen, hpn, hlf, hfr', -, he, hp⟩ := kfoldInit_ok hc
  replace he : c.nEmbargo = .int e := by injection he with h; exact h.symm
  replace hp : c.nPurge = .int p := by injection hp with h; exact h.symm
  have he0 : 0 ≤ e := by rw [he] at hen; simpa [Delta.neg] using hen
  have hp0 : 0 ≤ p := by rw [hp] at hpn; simpa [Delta.neg] using hpn
  subst hlf hfr'
  have hposn : (groupsInForce n gs).kind.positional = true := by rw [hnd]; rfl
  have hall := modify_all hk hacc.folds hacc.len hacc.sorted hposn
  constructor
  · intro h
    rw [split_accepted hk hp he hp0 he0 hacc, hall.2 h]; rfl
  · intro h hfolds err herr
    obtain ⟨bs, hm, hcontig, hbl, hrun⟩ := run_of_accepted hk hp he hp0 he0 hacc hposn h
    rw [hrun] at herr
    obtain ⟨t, ht, hft⟩ := kfoldLoop_err herr
    obtain ⟨f, b, hf1, hb, rfl⟩ := mem_testsOf_iff.mp ht
    have hfk : f < c.nFolds := by
      rw [← hbl]; by_contra hcon
      rw [List.getElem?_eq_none (by omega)] at hb; cases hb
    exact (fold_outcome hk hp he hp0 he0 hacc hnd hfr hm hcontig hbl hb).2 (hfolds f hfk) err hft

end Verif.Split
