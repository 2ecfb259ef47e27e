import Verif.Props.KFold
import Verif.Props.WalkForward
import Verif.Lemmas.KFoldMore
import Verif.Spec.SplitWindows
import Mathlib.Data.Finset.Max

/-!
# How long purge and embargo must be (C116)

Which purge and embargo lengths keep training and test samples from sharing data, when a sample looks
back `b` and ahead `h` label units. The code's purge acts after the test set and its embargo before it
(`_base.py` 86 and 127); both sides need `b + h`.
-/

namespace Verif.Split

open List

variable {nf : FoldsArg} {ne np : DeltaArg} {lf : Bool} {fr : Option Nat} {c : KFoldCfg}
variable {X : XArg} {y : YArg} {gs : Option GroupsArg}

/-- Two windows meet exactly when their labels are at most `b + h` apart. -/
theorem windows_meet (b h : Nat) (g g' : Int) :
    (∃ t : Int, (g - b ≤ t ∧ t ≤ g + h) ∧ (g' - b ≤ t ∧ t ≤ g' + h)) ↔
      g - g' ≤ b + h ∧ g' - g ≤ b + h := by
  constructor
  · rintro ⟨t, ⟨h1, h2⟩, h3, h4⟩
    omega
  · rintro ⟨h1, h2⟩
    exact ⟨max (g - b) (g' - b), by omega, by omega⟩

private theorem greatest_of (vals : List Int) {T : List Nat} (h : T ≠ []) :
    ∃ j ∈ T, IsGreatest (labelSet vals {i | i ∈ T}) (label vals j) := by
  obtain ⟨j, hj, hm⟩ := T.toFinset.exists_max_image (label vals) (by
    obtain ⟨x, hx⟩ := List.exists_mem_of_ne_nil T h
    exact ⟨x, by simpa using hx⟩)
  refine ⟨j, by simpa using hj, ⟨j, by simpa using hj, rfl⟩, ?_⟩
  rintro _ ⟨i, hi, rfl⟩
  exact hm i (by simpa using hi)

private theorem least_of (vals : List Int) {T : List Nat} (h : T ≠ []) :
    ∃ j ∈ T, IsLeast (labelSet vals {i | i ∈ T}) (label vals j) := by
  obtain ⟨j, hj, hm⟩ := T.toFinset.exists_min_image (label vals) (by
    obtain ⟨x, hx⟩ := List.exists_mem_of_ne_nil T h
    exact ⟨x, by simpa using hx⟩)
  refine ⟨j, by simpa using hj, ⟨j, by simpa using hj, rfl⟩, ?_⟩
  rintro _ ⟨i, hi, rfl⟩
  exact hm i (by simpa using hi)

/-- C116. Any labels, gaps included: every training label is more than the embargo before every test
label, or more than the purge after it (never after it when looking forward). -/
theorem kfold_distance (hc : kfoldInit nf ne np lf fr = .ok c) {s : TrainTest}
    (hs : s ∈ (c.split X y gs).yields) :
    ∃ n, X.rows = some n ∧ ∀ i ∈ s.1, ∀ j ∈ s.2,
      label (groupsInForce n gs).vals i + inLabelUnits fr gs c.nEmbargo <
          label (groupsInForce n gs).vals j ∨
      lf = false ∧ label (groupsInForce n gs).vals j + inLabelUnits fr gs c.nPurge <
          label (groupsInForce n gs).vals i := by
  obtain ⟨hk, -, -, hlf, hfr, -⟩ := kfoldInit_ok hc
  obtain ⟨k, hj⟩ := List.mem_iff_getElem?.mp hs
  obtain ⟨n, f, _, _, h1, _, _, _, _, _, _, _, _, _, _, _, _, _, _, hin, htr⟩ := split_yield hk hj
  rw [hlf, hfr] at htr
  refine ⟨n, h1, fun i hi j hj => ?_⟩
  obtain ⟨hin', hiT, hp, he, hl⟩ := (htr i).mp hi
  have hne : s.2 ≠ [] := List.ne_nil_of_mem hj
  obtain ⟨a, ha, hla⟩ := least_of (groupsInForce n gs).vals hne
  obtain ⟨z, hz, hgz⟩ := greatest_of (groupsInForce n gs).vals hne
  have haj := hla.2 ⟨j, hj, rfl⟩
  have hjz := hgz.2 ⟨j, hj, rfl⟩
  have hnot : ¬ InFold (groupsInForce n gs).vals n c.nFolds f i := fun hcon => hiT ((hin i).mpr hcon)
  have hside : label (groupsInForce n gs).vals i < label (groupsInForce n gs).vals a ∨
      label (groupsInForce n gs).vals z < label (groupsInForce n gs).vals i := by
    by_contra hcon
    push Not at hcon
    refine hnot ⟨hin', fun f' hf' => ?_, hcon.2.trans ((hin z).mp hz).2.2⟩
    exact lt_of_lt_of_le (((hin a).mp ha).2.1 f' hf') hcon.1
  rcases hside with hb | hb
  · left
    have := he _ hla
    push Not at this
    by_contra hcon
    have h2 := this (by omega)
    omega
  · right
    have := hp _ hgz
    push Not at this
    refine ⟨?_, ?_⟩
    · by_contra hcon
      have := hl (by simpa using hcon) _ hla
      omega
    · have := this hb
      omega

/-- C116. Long enough purge and embargo keep the sides apart, for any labels. -/
theorem kfold_windows_apart (hc : kfoldInit nf ne np lf fr = .ok c) {s : TrainTest}
    (hs : s ∈ (c.split X y gs).yields) {b h : Nat}
    (hp : lf = false → (b + h : Int) ≤ inLabelUnits fr gs c.nPurge)
    (he : (b + h : Int) ≤ inLabelUnits fr gs c.nEmbargo) :
    ∃ n, X.rows = some n ∧ ¬ SharesData (groupsInForce n gs).vals b h s := by
  obtain ⟨n, hn, hd⟩ := kfold_distance hc hs
  refine ⟨n, hn, ?_⟩
  rintro ⟨i, hi, j, hj, ht⟩
  have := (windows_meet _ _ _ _).mp ht
  rcases hd i hi j hj with h1 | ⟨hf, h1⟩
  · omega
  · have := hp hf
    omega

/-- Non-vacuity of `kfold_windows_apart`: samples looking back 1 and ahead 1, purge and embargo 2. -/
example : (kfoldInit (.int 3) (.ok (.int 2)) (.ok (.int 2)) false none).toOption.map (fun c =>
    (c.split (.ndarray 12) .none none).yields) =
    some [([6, 7, 8, 9, 10, 11], [0, 1, 2, 3]), ([0, 1, 10, 11], [4, 5, 6, 7]),
      ([0, 1, 2, 3, 4, 5], [8, 9, 10, 11])] := by
  decide

/-! ### Gapless labels: exactly this long -/

variable {n G u : Nat} {g0 : Int} {p e : Nat}

private theorem unitsOf (h : Fits (groupsInForce n gs) fr u) (k : Nat) :
    inLabelUnits fr gs (.int k) = k * u := by
  rcases h with ⟨-, hfr, rfl⟩ | ⟨hk, hfr, -⟩
  · subst hfr
    cases gs <;> simp [inLabelUnits]
  · cases gs with
    | none => simp [groupsInForce] at hk
    | some g => rw [hfr]; rfl

/-- If anything before the test set is trained on, so is the last label the embargo leaves. -/
private theorem train_before {vals : List Int} (hlen : vals.length = n) (hg : Gapless vals g0 u G)
    (hu : 0 < u) {P : Int} {T : Set Nat} {a i : Nat} (ha : a ∈ T) (han : a < n)
    (hla : IsLeast (labelSet vals T) (label vals a)) (hi : InTrain vals n P (e * u) lf T i)
    (hlt : label vals i < label vals a) :
    ∃ i', InTrain vals n P (e * u) lf T i' ∧ label vals i' = label vals a - (e + 1) * u := by
  obtain ⟨hin, -, -, he, -⟩ := hi
  have hfar := he _ hla
  push Not at hfar
  have hmem : ∀ i < n, label vals i ∈ vals := fun i hi => by
    rw [label, List.getD_eq_getElem?_getD, List.getElem?_eq_getElem (by omega)]
    exact List.getElem_mem _
  obtain ⟨k, hk, hik⟩ := (hg _).mp (hmem i hin)
  obtain ⟨k', hk', hak⟩ := (hg _).mp (hmem a han)
  have hlt2 : label vals i < label vals a - e * u := by
    by_contra hcon
    have := hfar (by omega)
    omega
  have hkk : k + e < k' := by
    rw [hik, hak] at hlt2
    have h2 : ((k * u : Nat) : Int) + e * u < (k' * u : Nat) := by omega
    have h3 : (k + e) * u < k' * u := by
      rw [add_mul]; exact_mod_cast h2
    exact lt_of_mul_lt_mul_right h3 (Nat.zero_le u)
  obtain ⟨d, rfl⟩ : ∃ d, k' = d + e + 1 := ⟨k' - e - 1, by omega⟩
  obtain ⟨i', hi', hl'⟩ := exists_label ((hg _).mpr ⟨d, by omega, rfl⟩)
  have hval : label vals i' = label vals a - (e + 1) * u := by
    rw [hl', hak]; push_cast; ring
  have hpos : (0 : Int) < (e + 1) * u := by positivity
  have hlt' : label vals i' < label vals a := by omega
  have hsplit : ((e : Int) + 1) * u = e * u + u := by ring
  have huI : (0 : Int) < u := by exact_mod_cast hu
  refine ⟨i', ⟨by omega, ?_, ?_, ?_, ?_⟩, hval⟩
  · intro hcon
    have := hla.2 ⟨i', hcon, rfl⟩
    omega
  · intro m hm hcon
    have := hm.2 ⟨a, ha, rfl⟩
    omega
  · intro m hm
    rw [hm.unique hla]
    intro hcon
    omega
  · intro _ m hm
    rw [hm.unique hla]
    omega

/-- If anything after the test set is trained on, so is the first label the purge leaves. -/
private theorem train_after {vals : List Int} (hlen : vals.length = n) (hg : Gapless vals g0 u G)
    (hu : 0 < u) {E : Int} {T : Set Nat} {z i : Nat} (hz : z ∈ T) (hzn : z < n)
    (hgz : IsGreatest (labelSet vals T) (label vals z)) (hi : InTrain vals n (p * u) E false T i)
    (hlt : label vals z < label vals i) :
    ∃ i', InTrain vals n (p * u) E false T i' ∧ label vals i' = label vals z + (p + 1) * u := by
  obtain ⟨hin, -, hp, -, -⟩ := hi
  have hfar := hp _ hgz
  push Not at hfar
  have hfar := hfar hlt
  have hmem : ∀ i < n, label vals i ∈ vals := fun i hi => by
    rw [label, List.getD_eq_getElem?_getD, List.getElem?_eq_getElem (by omega)]
    exact List.getElem_mem _
  obtain ⟨k, hk, hik⟩ := (hg _).mp (hmem i hin)
  obtain ⟨k', hk', hzk⟩ := (hg _).mp (hmem z hzn)
  have hkk : k' + p < k := by
    rw [hik, hzk] at hfar
    have h2 : ((k' * u : Nat) : Int) + p * u < (k * u : Nat) := by omega
    have h3 : (k' + p) * u < k * u := by
      rw [add_mul]; exact_mod_cast h2
    exact lt_of_mul_lt_mul_right h3 (Nat.zero_le u)
  obtain ⟨i', hi', hl'⟩ := exists_label ((hg _).mpr ⟨k' + p + 1, by omega, rfl⟩)
  have hval : label vals i' = label vals z + (p + 1) * u := by
    rw [hl', hzk]; push_cast; ring
  have hpos : (0 : Int) < (p + 1) * u := by positivity
  have hsplit : ((p : Int) + 1) * u = p * u + u := by ring
  have huI : (0 : Int) < u := by exact_mod_cast hu
  refine ⟨i', ⟨by omega, ?_, ?_, ?_, ?_⟩, hval⟩
  · intro hcon
    have := hgz.2 ⟨i', hcon, rfl⟩
    omega
  · intro m hm
    rw [hm.unique hgz]
    intro hcon
    omega
  · intro m hm hcon
    have := hm.2 ⟨z, hz, rfl⟩
    omega
  · intro hcon
    cases hcon

/-- C116. Looking forward only, gapless labels of unit `u`: every yielded split shares data exactly when
`b + h` reaches the first label that the embargo leaves. The purge has no influence. -/
theorem kfold_forward_windows_iff (hc : kfoldInit nf (.ok (.int e)) np true fr = .ok c)
    (hX : X.rows = some n) (hfit : Fits (groupsInForce n gs) fr u)
    (hg : Gapless (groupsInForce n gs).vals g0 u G) {s : TrainTest}
    (hs : s ∈ (c.split X y gs).yields) (b h : Nat) :
    SharesData (groupsInForce n gs).vals b h s ↔ (e + 1) * u ≤ b + h := by
  have hu : 0 < u := by rcases hfit with ⟨-, -, rfl⟩ | ⟨-, -, hu⟩ <;> omega
  obtain ⟨hk, -, -, hlf, hfr, -, he, -⟩ := kfoldInit_ok hc
  replace he : c.nEmbargo = .int e := by injection he with h; exact h.symm
  obtain ⟨k, hj⟩ := List.mem_iff_getElem?.mp hs
  obtain ⟨n', f, _, _, h1, hlen, _, _, _, _, _, _, _, _, _, _, hne1, _, hne2, hin, htr⟩ :=
    split_yield hk hj
  rw [hX] at h1; cases h1
  rw [hlf, hfr, he, unitsOf hfit] at htr
  have hne := hne2 hlf
  obtain ⟨a, ha, hla⟩ := least_of (groupsInForce n gs).vals hne
  have hmin : ∀ i ∈ s.1, label (groupsInForce n gs).vals i + (e : Int) * u <
      label (groupsInForce n gs).vals a := by
    intro i hi
    obtain ⟨n'', h2, hd⟩ := kfold_distance hc hs
    rw [hX] at h2; cases h2
    rcases hd i hi a ha with h3 | ⟨h3, -⟩
    · rwa [he, unitsOf hfit] at h3
    · cases h3
  constructor
  · rintro ⟨i, hi, j, hj', ht⟩
    obtain ⟨-, h2⟩ := (windows_meet _ _ _ _).mp ht
    obtain ⟨i', hi', hval⟩ := train_before hlen hg hu ha ((hin a).mp ha).1 hla ((htr i).mp hi) (by
      have := hmin i hi
      have : (0 : Int) ≤ (e : Int) * u := by positivity
      omega)
    have hmem : ∀ i < n, label (groupsInForce n gs).vals i ∈ (groupsInForce n gs).vals := fun i hi => by
      rw [label, List.getD_eq_getElem?_getD, List.getElem?_eq_getElem (by omega)]
      exact List.getElem_mem _
    obtain ⟨x, hx, hix⟩ := (hg _).mp (hmem i ((htr i).mp hi).1)
    obtain ⟨x', hx', hax⟩ := (hg _).mp (hmem a ((hin a).mp ha).1)
    have h3 := hmin i hi
    rw [hix, hax] at h3
    have h4 : (x + e) * u < x' * u := by
      rw [add_mul]; have : ((x * u : Nat) : Int) + e * u < (x' * u : Nat) := by omega
      exact_mod_cast this
    have h5 : x + e + 1 ≤ x' := lt_of_mul_lt_mul_right h4 (Nat.zero_le u)
    have h6 : (x + e + 1) * u ≤ x' * u := Nat.mul_le_mul_right u h5
    have h7 := hla.2 ⟨j, hj', rfl⟩
    have h8 : (x + e + 1) * u = x * u + (e + 1) * u := by ring
    rw [h8] at h6
    omega
  · intro hle
    obtain ⟨i, hi⟩ := List.exists_mem_of_ne_nil _ hne1
    obtain ⟨i', hi', hval⟩ := train_before hlen hg hu ha ((hin a).mp ha).1 hla ((htr i).mp hi) (by
      have := hmin i hi
      have : (0 : Int) ≤ (e : Int) * u := by positivity
      omega)
    refine ⟨i', (htr i').mpr hi', a, ha, (windows_meet _ _ _ _).mpr ?_⟩
    have h2 : ((e : Int) + 1) * u ≤ b + h := by exact_mod_cast hle
    have h3 : (0 : Int) ≤ ((e : Int) + 1) * u := by positivity
    omega

/-- Non-vacuity of `kfold_forward_windows_iff`: 9 samples, 3 folds, embargo 1. A look-ahead of 1 is
separated, one of 2 is not. -/
example : (kfoldInit (.int 3) (.ok (.int 1)) (.ok (.int 0)) true none).toOption.map (fun c =>
    (c.split (.ndarray 9) .none none).yields) =
    some [([0, 1], [3, 4, 5]), ([0, 1, 2, 3, 4], [6, 7, 8])] := by
  decide

/-- The first fold of a finished run: all samples up to some label, and training samples after it. -/
private theorem first_split (hc : kfoldInit nf (.ok (.int e)) (.ok (.int p)) false fr = .ok c)
    (hX : X.rows = some n) (hfit : Fits (groupsInForce n gs) fr u)
    (hg : Gapless (groupsInForce n gs).vals g0 u G) (hfin : (c.split X y gs).err = none) :
    ∃ s ∈ (c.split X y gs).yields, ∃ i ∈ s.1, ∃ j ∈ s.2,
      label (groupsInForce n gs).vals i = label (groupsInForce n gs).vals j + (p + 1) * u := by
  have hu : 0 < u := by rcases hfit with ⟨-, -, rfl⟩ | ⟨-, -, hu⟩ <;> omega
  obtain ⟨hk, -, -, hlf, hfr, -, he, hp⟩ := kfoldInit_ok hc
  replace he : c.nEmbargo = .int e := by injection he with h; exact h.symm
  replace hp : c.nPurge = .int p := by injection hp with h; exact h.symm
  have hcount := (kfold_split_count (X := X) (y := y) (gs := gs) hc).1 hfin
  have hpos : 0 < (c.split X y gs).yields.length := by
    rw [hcount, KFoldCfg.getNSplits, hlf]; simp; omega
  have hj : (c.split X y gs).yields[0]? = some ((c.split X y gs).yields[0]) :=
    List.getElem?_eq_getElem hpos
  generalize (c.split X y gs).yields[0] = s at hj
  have hs : s ∈ (c.split X y gs).yields := List.mem_of_getElem? hj
  obtain ⟨n', f, _, _, h1, hlen, hsort, hkn, hf, _, _, _, _, _, _, _, hne1, _, _, hin, htr⟩ :=
    split_yield hk hj
  rw [hX] at h1; cases h1
  rw [hlf, hfr, he, hp, unitsOf hfit, unitsOf hfit] at htr
  rw [hlf] at hf
  have hf0 : f = 0 := by simpa using hf
  subst hf0
  have h0 : 0 ∈ s.2 := (hin 0).mpr ⟨by omega, fun f' hf' => by omega, sorted_label hsort (by omega) (by
    rw [hlen]; exact evenEnd_lt (by omega) hkn (by omega))⟩
  obtain ⟨z, hz, hgz⟩ := greatest_of (groupsInForce n gs).vals (List.ne_nil_of_mem h0)
  obtain ⟨i, hi⟩ := List.exists_mem_of_ne_nil _ hne1
  have hti := (htr i).mp hi
  have hlt : label (groupsInForce n gs).vals z < label (groupsInForce n gs).vals i := by
    by_contra hcon
    push Not at hcon
    exact hti.2.1 ((hin i).mpr ⟨hti.1, fun f' hf' => by omega, hcon.trans ((hin z).mp hz).2.2⟩)
  obtain ⟨i', hi', hval⟩ := train_after hlen hg hu hz ((hin z).mp hz).1 hgz hti hlt
  exact ⟨s, hs, i', (htr i').mpr hi', z, hz, hval⟩

/-- The last fold of a finished run. -/
private theorem last_split (hc : kfoldInit nf (.ok (.int e)) (.ok (.int p)) false fr = .ok c)
    (hX : X.rows = some n) (hfit : Fits (groupsInForce n gs) fr u)
    (hg : Gapless (groupsInForce n gs).vals g0 u G) (hfin : (c.split X y gs).err = none) :
    ∃ s ∈ (c.split X y gs).yields, ∃ i ∈ s.1, ∃ j ∈ s.2,
      label (groupsInForce n gs).vals i = label (groupsInForce n gs).vals j - (e + 1) * u := by
  have hu : 0 < u := by rcases hfit with ⟨-, -, rfl⟩ | ⟨-, -, hu⟩ <;> omega
  obtain ⟨hk, -, -, hlf, hfr, -, he, hp⟩ := kfoldInit_ok hc
  replace he : c.nEmbargo = .int e := by injection he with h; exact h.symm
  replace hp : c.nPurge = .int p := by injection hp with h; exact h.symm
  have hcount := (kfold_split_count (X := X) (y := y) (gs := gs) hc).1 hfin
  have hlen' : (c.split X y gs).yields.length = c.nFolds := by
    rw [hcount, KFoldCfg.getNSplits, hlf]; simp
  have hj : (c.split X y gs).yields[c.nFolds - 1]? = some ((c.split X y gs).yields[c.nFolds - 1]) :=
    List.getElem?_eq_getElem (by omega)
  generalize (c.split X y gs).yields[c.nFolds - 1] = s at hj
  have hs : s ∈ (c.split X y gs).yields := List.mem_of_getElem? hj
  obtain ⟨n', f, _, _, h1, hlen, hsort, hkn, hf, _, _, _, _, _, _, _, hne1, _, _, hin, htr⟩ :=
    split_yield hk hj
  rw [hX] at h1; cases h1
  rw [hlf, hfr, he, hp, unitsOf hfit, unitsOf hfit] at htr
  rw [hlf] at hf
  have hf0 : f = c.nFolds - 1 := by simpa using hf
  subst hf0
  have hpos : (groupsInForce n gs).kind.positional = true := by
    rcases hfit with ⟨h, -⟩ | ⟨h, -⟩ <;> rw [h] <;> rfl
  have hne : label (groupsInForce n gs).vals (evenEnd n c.nFolds (c.nFolds - 2)) ≠
      label (groupsInForce n gs).vals (n - 1) := by
    intro hcon
    obtain ⟨n', hacc⟩ := accepted_of_run hk hp he (by omega) (by omega) (Or.inl hfin)
    have := hacc.rows; rw [hX] at this; cases this
    rw [split_accepted hk hp he (by omega) (by omega) hacc,
      (modify_all hk hacc.folds hacc.len hacc.sorted hpos).2 hcon] at hfin
    cases hfin
  have hlast : label (groupsInForce n gs).vals (evenEnd n c.nFolds (c.nFolds - 1)) =
      label (groupsInForce n gs).vals (n - 1) := by
    rw [evenEnd_final hk hkn]
  have h0 : n - 1 ∈ s.2 := (hin _).mpr ⟨by omega, fun f' hf' => by
    obtain rfl : f' = c.nFolds - 2 := by omega
    exact lt_of_le_of_ne (sorted_label hsort (by
      have := evenEnd_lt (f := c.nFolds - 2) (by omega) hkn (by omega)
      omega) (by omega)) hne, hlast.ge⟩
  obtain ⟨a, ha, hla⟩ := least_of (groupsInForce n gs).vals (List.ne_nil_of_mem h0)
  obtain ⟨i, hi⟩ := List.exists_mem_of_ne_nil _ hne1
  have hti := (htr i).mp hi
  have hlt : label (groupsInForce n gs).vals i < label (groupsInForce n gs).vals a := by
    by_contra hcon
    push Not at hcon
    exact hti.2.1 ((hin i).mpr ⟨hti.1, fun f' hf' => lt_of_lt_of_le (((hin a).mp ha).2.1 f' hf') hcon,
      by rw [hlast]; exact sorted_label hsort (by have := hti.1; omega) (by omega)⟩)
  obtain ⟨i', hi', hval⟩ := train_before hlen hg hu ha ((hin a).mp ha).1 hla hti hlt
  exact ⟨s, hs, i', (htr i').mpr hi', a, ha, hval⟩

/-- C116. `TimeAwareKFold` on gapless labels of unit `u`: a finished run has no split that shares data
exactly when `b + h` stays below both the first label left by the purge and the one left by the
embargo. With integer labels (`u = 1`) this says `b + h ≤ n_purge` and `b + h ≤ n_embargo`. -/
theorem kfold_windows_iff (hc : kfoldInit nf (.ok (.int e)) (.ok (.int p)) false fr = .ok c)
    (hX : X.rows = some n) (hfit : Fits (groupsInForce n gs) fr u)
    (hg : Gapless (groupsInForce n gs).vals g0 u G) (hfin : (c.split X y gs).err = none) (b h : Nat) :
    (∀ s ∈ (c.split X y gs).yields, ¬ SharesData (groupsInForce n gs).vals b h s) ↔
      b + h < (p + 1) * u ∧ b + h < (e + 1) * u := by
  constructor
  · intro hno
    refine ⟨?_, ?_⟩
    · by_contra hcon
      obtain ⟨s, hs, i, hi, j, hj, hv⟩ := first_split hc hX hfit hg hfin
      refine hno s hs ⟨i, hi, j, hj, (windows_meet _ _ _ _).mpr ?_⟩
      have h1 : (((p + 1) * u : Nat) : Int) ≤ b + h := by exact_mod_cast not_lt.mp hcon
      push_cast at h1
      have h2 : (0 : Int) ≤ ((p : Int) + 1) * u := by positivity
      omega
    · by_contra hcon
      obtain ⟨s, hs, i, hi, j, hj, hv⟩ := last_split hc hX hfit hg hfin
      refine hno s hs ⟨i, hi, j, hj, (windows_meet _ _ _ _).mpr ?_⟩
      have h1 : (((e + 1) * u : Nat) : Int) ≤ b + h := by exact_mod_cast not_lt.mp hcon
      push_cast at h1
      have h2 : (0 : Int) ≤ ((e : Int) + 1) * u := by positivity
      omega
  · rintro ⟨hbp, hbe⟩ s hs ⟨i, hi, j, hj, ht⟩
    obtain ⟨-, -, -, -, -, -, he, hp⟩ := kfoldInit_ok hc
    replace he : c.nEmbargo = .int e := by injection he with h; exact h.symm
    replace hp : c.nPurge = .int p := by injection hp with h; exact h.symm
    obtain ⟨n', hX', hd⟩ := kfold_distance hc hs
    rw [hX] at hX'; cases hX'
    have hlen : (groupsInForce n gs).vals.length = n := by
      obtain ⟨hk, -⟩ := kfoldInit_ok hc
      obtain ⟨k, hk'⟩ := List.mem_iff_getElem?.mp hs
      obtain ⟨n', _, _, _, h1, hlen, _⟩ := split_yield hk hk'
      rw [hX] at h1; cases h1; exact hlen
    have hlt : i < n ∧ j < n := by
      obtain ⟨n', h1, -, -, htr⟩ := kfold_train_exact hc hs
      rw [hX] at h1; cases h1
      obtain ⟨k, hk'⟩ := List.mem_iff_getElem?.mp hs
      obtain ⟨n', h2, -, hte, -⟩ := kfold_test_is_fold hc hk'
      rw [hX] at h2; cases h2
      exact ⟨((htr i).mp hi).1, ((hte j).mp hj).1⟩
    obtain ⟨x, -, hx⟩ := label_gapless hg (i := i) (by omega)
    obtain ⟨z, -, hz⟩ := label_gapless hg (i := j) (by omega)
    have hm := (windows_meet _ _ _ _).mp ht
    have hd := hd i hi j hj
    rw [he, hp, unitsOf hfit, unitsOf hfit] at hd
    rw [hx, hz] at hd hm
    rcases hd with h1 | ⟨-, h1⟩
    · have h4 : (x + e) * u < z * u := by
        rw [add_mul]; have : ((x * u : Nat) : Int) + e * u < (z * u : Nat) := by omega
        exact_mod_cast this
      have h5 : x + e + 1 ≤ z := lt_of_mul_lt_mul_right h4 (Nat.zero_le u)
      have h6 : (x + e + 1) * u ≤ z * u := Nat.mul_le_mul_right u h5
      rw [show (x + e + 1) * u = x * u + (e + 1) * u by ring] at h6
      omega
    · have h4 : (z + p) * u < x * u := by
        rw [add_mul]; have : ((z * u : Nat) : Int) + p * u < (x * u : Nat) := by omega
        exact_mod_cast this
      have h5 : z + p + 1 ≤ x := lt_of_mul_lt_mul_right h4 (Nat.zero_le u)
      have h6 : (z + p + 1) * u ≤ x * u := Nat.mul_le_mul_right u h5
      rw [show (z + p + 1) * u = z * u + (p + 1) * u by ring] at h6
      omega

/-- C116, the finding. Purging alone never separates a look-ahead of one label: without embargo the last
label before the last test set is trained on, whatever the purge. (In the literature the purge removes
training samples whose target reaches into the test set, which here only the embargo does.) -/
theorem kfold_purge_alone (hc : kfoldInit nf (.ok (.int (0 : Nat))) (.ok (.int p)) false fr = .ok c)
    (hX : X.rows = some n) (hfit : Fits (groupsInForce n gs) fr u)
    (hg : Gapless (groupsInForce n gs).vals g0 u G) (hfin : (c.split X y gs).err = none) {b h : Nat}
    (hbh : u ≤ b + h) :
    ∃ s ∈ (c.split X y gs).yields, SharesData (groupsInForce n gs).vals b h s := by
  by_contra hcon
  push Not at hcon
  have := ((kfold_windows_iff (e := 0) hc hX hfit hg hfin b h).mp hcon).2
  omega

/-- Non-vacuity of `kfold_purge_alone`: purge 3, no embargo, targets one label ahead. -/
example : (kfoldInit (.int 2) (.ok (.int (0 : Nat))) (.ok (.int (3 : Nat))) false none).toOption.map (fun c =>
    c.split (.ndarray 10) .none none) =
    some ⟨[([8, 9], [0, 1, 2, 3, 4]), ([0, 1, 2, 3, 4], [5, 6, 7, 8, 9])], none⟩ ∧
    SharesData ((List.range 10).map Int.ofNat) 0 1 ([0, 1, 2, 3, 4], [5, 6, 7, 8, 9]) := by
  refine ⟨by decide, 4, by decide, 5, by decide, 5, by decide, by decide⟩

/-- C116 for `WalkForward` on gapless labels: every yielded split shares data exactly when `b + h`
reaches the first label that the embargo leaves. -/
theorem walk_windows_iff {st : SplitType} {c : WFCfg} {a w : Nat}
    (hc : wfInit (.ok (.int e)) np (.int a) (.int w) st fr = .ok c)
    (hcall : GaplessCall X y gs fr n g0 u G) (ha : 1 ≤ a) (hw : 1 ≤ w) {o : WFObj} {fuel : Nat}
    {s : TrainTest} (hs : s ∈ (wfDrive c X y gs fuel o .fresh).1) (b h : Nat) :
    SharesData (groupsInForce n gs).vals b h s ↔ (e + 1) * u ≤ b + h := by
  have hu := hcall.fits.pos
  have hbef := (walk_train_before_test hc hcall ha hw hs).2.2
  obtain ⟨hea, k, hk, -, -, htr, hte⟩ := walk_gapless_yield hc hcall ha hw hs
  have hlen := hcall.len
  constructor
  · rintro ⟨i, hi, j, hj, ht⟩
    have hm := (windows_meet _ _ _ _).mp ht
    have h1 := hbef i hi j hj
    obtain ⟨x, -, hx⟩ := label_gapless hcall.gapless (i := i) (by have := ((htr i).mp hi).1; omega)
    obtain ⟨z, -, hz⟩ := label_gapless hcall.gapless (i := j) (by have := ((hte j).mp hj).1; omega)
    rw [hx, hz] at h1 hm
    have h4 : (x + e) * u < z * u := by
      rw [add_mul, mul_comm e u]
      have : ((x * u : Nat) : Int) + u * e < (z * u : Nat) := by omega
      exact_mod_cast this
    have h5 : x + e + 1 ≤ z := lt_of_mul_lt_mul_right h4 (Nat.zero_le u)
    have h6 : (x + e + 1) * u ≤ z * u := Nat.mul_le_mul_right u h5
    rw [show (x + e + 1) * u = x * u + (e + 1) * u by ring] at h6
    omega
  · intro hle
    obtain ⟨d, hd⟩ : ∃ d, a + k * w = d + e + 1 := ⟨a + k * w - e - 1, by
      have := Nat.le_add_right a (k * w); omega⟩
    obtain ⟨i, hi, hli⟩ := exists_label ((hcall.gapless _).mpr ⟨d, by omega, rfl⟩)
    obtain ⟨j, hj, hlj⟩ := exists_label ((hcall.gapless _).mpr ⟨a + k * w, hk, rfl⟩)
    have huI : (0 : Int) < u := by exact_mod_cast hu
    have hi' : i ∈ s.1 := by
      refine (htr i).mpr ⟨by omega, ?_, ?_⟩
      · rw [hli]
        have : (if (st == .rolling) = true then k * w else 0) ≤ d := by split <;> omega
        have h2 := Nat.mul_le_mul_left u this
        have h3 : d * u = u * d := mul_comm _ _
        push_cast at h2 ⊢
        have h4 : (((u * (if (st == .rolling) = true then k * w else 0) : Nat)) : Int) ≤ (u * d : Nat) := by
          exact_mod_cast h2
        push_cast at h4
        linarith [mul_comm (u : Int) d]
      · rw [hli]
        have h3 : ((a : Int) + k * w - e) = d + 1 := by
          have : ((a + k * w : Nat) : Int) = (d + e + 1 : Nat) := by rw [hd]
          push_cast at this
          linarith
        rw [h3]
        push_cast
        nlinarith
    have hj' : j ∈ s.2 := by
      refine (hte j).mpr ⟨by omega, ?_, ?_⟩
      · rw [hlj]; push_cast; linarith [mul_comm (u : Int) (a + k * w)]
      · rw [hlj]
        push_cast
        have h1 : (0 : Int) < u * w := by positivity
        have h2 : (u : Int) * (a + (k + 1) * w) = u * (a + k * w) + u * w := by ring
        linarith [mul_comm (u : Int) (a + k * w)]
    refine ⟨i, hi', j, hj', (windows_meet _ _ _ _).mpr ?_⟩
    rw [hli, hlj, hd]
    have h2 : (((e + 1) * u : Nat) : Int) ≤ b + h := by exact_mod_cast hle
    have h3 : (((d + e + 1) * u : Nat) : Int) = (d * u : Nat) + ((e + 1) * u : Nat) := by
      push_cast; ring
    rw [h3]
    omega

/-- Non-vacuity of `walk_windows_iff`: window 3, test window 2, embargo 1. -/
example : (wfInit (.ok (.int (1 : Nat))) (.ok (.int 0)) (.int (3 : Nat)) (.int (2 : Nat)) .expanding
      none).toOption.map (fun c => (wfDrive c (.ndarray 7) .none none 5 .init .fresh).1) =
    some [([0, 1], [3, 4]), ([0, 1, 2, 3], [5, 6])] := by
  decide

end Verif.Split
