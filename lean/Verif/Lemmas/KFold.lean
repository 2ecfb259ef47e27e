import Verif.Lemmas.Np
import Verif.Spec.KFold

/-! # Lemmas about the K-fold model -/

namespace Verif.Split

open List

theorem sorted_label {vals : List Int} (hs : vals.Pairwise (· ≤ ·)) {i j : Nat} (hij : i ≤ j)
    (hj : j < vals.length) : label vals i ≤ label vals j := by
  rcases Nat.eq_or_lt_of_le hij with h | h
  · subst h; exact le_refl _
  · have := List.pairwise_iff_getElem.mp hs i j (by omega) hj h
    simpa [label, List.getD, hj, (by omega : i < vals.length)] using this

theorem label_lt_imp {vals : List Int} (hs : vals.Pairwise (· ≤ ·)) {i j : Nat}
    (hi : i < vals.length) (h : label vals i < label vals j) : i < j := by
  by_contra hc
  have := sorted_label hs (Nat.le_of_not_lt hc) hi
  omega

theorem isSortedAsc_iff {l : List Int} : isSortedAsc l = true ↔ l.Pairwise (· ≤ ·) := npDiff_all

/-- Consecutive sections starting at `a`. -/
def pieces : Nat → List Nat → List (List Nat)
  | _, [] => []
  | a, s :: ss => List.range' a s :: pieces (a + s) ss

theorem splitBySizes_range' (ss : List Nat) (a m : Nat) (h : ss.sum ≤ m) :
    splitBySizes (List.range' a m) ss = pieces a ss := by
  induction ss generalizing a m with
  | nil => simp [splitBySizes, pieces]
  | cons s ss ih =>
    simp only [List.sum_cons] at h
    have hr : List.range' a m = List.range' a s ++ List.range' (a + s) (m - s) := by
      have := List.range'_append (s := a) (m := s) (n := m - s) (step := 1)
      rw [Nat.one_mul] at this
      rw [this, show s + (m - s) = m by omega]
    simp only [splitBySizes, pieces]
    rw [hr, List.take_left' (by simp), List.drop_left' (by simp), ih _ _ (by omega)]

/-- First and last index of consecutive sections. -/
def bnds : Nat → List Nat → List (Nat × Nat)
  | _, [] => []
  | a, s :: ss => (a, a + s - 1) :: bnds (a + s) ss

theorem sectionBounds_pieces (ss : List Nat) (a : Nat) (h : ∀ s ∈ ss, 0 < s) :
    sectionBounds (pieces a ss) = .ok (bnds a ss) := by
  unfold sectionBounds
  induction ss generalizing a with
  | nil => rfl
  | cons s ss ih =>
    have hs : 0 < s := h s (by simp)
    have h0 : pyGet (List.range' a s) 0 = .ok a := by
      rw [pyGet_ok]; simp [hs]
    have h1 : pyLast (List.range' a s) = .ok (a + s - 1) := by
      rw [pyLast_ok, List.getLast?_range']; simp; omega
    simp only [pieces, bnds, List.mapM_cons, h0, h1, ih (a + s) (fun x hx => h x (by simp [hx]))]
    rfl

theorem splitSizes_sum {n k : Nat} (hk : 0 < k) : (splitSizes n k).sum = n := by
  have h1 : n % k < k := Nat.mod_lt _ hk
  have h2 := Nat.div_add_mod n k
  simp only [splitSizes, List.sum_append, List.sum_replicate_nat]
  obtain ⟨d, hd⟩ : ∃ d, k = n % k + d := ⟨k - n % k, by omega⟩
  have : k - n % k = d := by omega
  rw [this]
  generalize n / k = q at *
  generalize n % k = r at *
  subst hd
  nlinarith

theorem splitSizes_pos {n k : Nat} (hk : 0 < k) (h : k ≤ n) : ∀ s ∈ splitSizes n k, 0 < s := by
  intro s hs
  have : 0 < n / k := Nat.div_pos h hk
  simp only [splitSizes, List.mem_append, List.mem_replicate] at hs
  omega

theorem splitSizes_length {n k : Nat} (hk : 0 < k) : (splitSizes n k).length = k := by
  have h1 : n % k < k := Nat.mod_lt _ hk
  simp [splitSizes]; omega

theorem sectionBounds_range {n k : Nat} (hk : 0 < k) (h : k ≤ n) :
    sectionBounds (npArraySplit (List.range n) k) = .ok (bnds 0 (splitSizes n k)) := by
  rw [npArraySplit, List.length_range, List.range_eq_range',
    splitBySizes_range' _ _ _ (by rw [splitSizes_sum hk]), sectionBounds_pieces _ _ (splitSizes_pos hk h)]

/-- The last position with the label of `i`. -/
theorem exists_last {vals : List Int} (hs : vals.Pairwise (· ≤ ·)) {i : Nat} (hi : i < vals.length) :
    ∃ e, i ≤ e ∧ e < vals.length ∧ label vals e = label vals i ∧
      (∀ j, e < j → j < vals.length → label vals i < label vals j) ∧
      pyLast (npWhere (vals.map fun x => decide (x = label vals i))) = .ok e := by
  have hex : ∃ d, i + d < vals.length ∧ label vals (i + d) = label vals i ∧
      ∀ j, i + d < j → j < vals.length → label vals i < label vals j := by
    by_contra hno
    push Not at hno
    have : ∀ d, i + d < vals.length ∧ label vals (i + d) = label vals i := by
      intro d
      induction d with
      | zero => exact ⟨hi, rfl⟩
      | succ d ih =>
        obtain ⟨j, h1, h2, h3⟩ := hno d ih.1 ih.2
        have h4 := sorted_label hs (show i ≤ i + (d+1) by omega) (show i + (d+1) < vals.length by omega)
        have h5 := sorted_label hs (show i + (d+1) ≤ j by omega) h2
        exact ⟨by omega, by omega⟩
    have := this vals.length
    omega
  obtain ⟨d, h1, h2, h3⟩ := hex
  refine ⟨i + d, by omega, h1, h2, h3, ?_⟩
  rw [last_npWhere]
  refine ⟨?_, ?_⟩
  · simp only [label, List.getD] at h2
    simp only [List.getElem?_map, List.getElem?_eq_getElem h1, Option.map_some, Option.some.injEq,
      label, List.getD]
    simp only [h1, List.getElem?_eq_getElem, Option.getD_some] at h2
    simp [h2]
  · intro j hj hc
    by_cases hjl : j < vals.length
    · have := h3 j hj hjl
      simp only [List.getElem?_map, List.getElem?_eq_getElem hjl, Option.map_some, Option.some.injEq,
        decide_eq_true_eq] at hc
      simp only [label, List.getD] at this hc
      simp [hjl] at this
      omega
    · simp [hjl] at hc

theorem label_eq_getElem {vals : List Int} {i : Nat} (h : i < vals.length) :
    label vals i = vals[i] := by simp [label, List.getD, h]

/-- Filtering keeps the first element satisfying the predicate. -/
theorem maskZip_head {vals : List Int} {p : Int → Bool} {s : Nat} (hs : s < vals.length)
    (hp : p vals[s] = true) (hlt : ∀ j (h : j < s), p (vals[j]'(by omega)) = false) :
    (maskZip vals (vals.map p))[0]? = some vals[s] := by
  induction vals generalizing s with
  | nil => simp at hs
  | cons a l ih =>
    cases s with
    | zero =>
      simp only [List.getElem_cons_zero] at hp
      simp [maskZip, hp]
    | succ s =>
      have h0 : p a = false := hlt 0 (by omega)
      simp only [List.map_cons, h0, maskZip, List.getElem_cons_succ]
      exact ih (by simpa using hs) (by simpa using hp) (fun j h => by
        have := hlt (j+1) (by omega); simpa using this)

theorem maskZip_none {vals : List Int} {p : Int → Bool} (h : ∀ x ∈ vals, p x = false) :
    maskZip vals (vals.map p) = [] := by
  induction vals with
  | nil => rfl
  | cons a l ih =>
    simp only [List.map_cons, h a (by simp), maskZip]
    exact ih (fun x hx => h x (by simp [hx]))

/-- The kinds of groups for which `groups[mask][0]` is positional. -/
def GKind.positional : GKind → Bool
  | .ndarray | .dtIndex => true
  | _ => false

theorem nextGroup_ok {g : GArr} (hk : g.kind.positional = true) (hs : g.vals.Pairwise (· ≤ ·))
    {e : Nat} (he : e + 1 < g.vals.length)
    (hgt : ∀ j, e < j → j < g.vals.length → label g.vals e < label g.vals j) :
    nextGroup g (label g.vals e) = .ok (label g.vals (e + 1)) := by
  have key : (do
      let sel ← npMask g.vals (g.vals.map fun x => decide (label g.vals e < x))
      pyGet sel 0) = Except.ok (label g.vals (e + 1)) := by
    simp only [npMask, List.length_map, if_true]
    change pyGet (maskZip _ _) 0 = _
    rw [pyGet_ok, label_eq_getElem he]
    apply maskZip_head he
    · have := hgt (e+1) (by omega) he
      rw [label_eq_getElem he] at this
      simpa using this
    · intro j hj
      have := sorted_label hs (show j ≤ e by omega) (by omega)
      rw [label_eq_getElem (show j < g.vals.length by omega)] at this
      simpa using this
  unfold nextGroup
  cases hkk : g.kind <;> simp [hkk, GKind.positional] at hk ⊢ <;> exact key

theorem nextGroup_err {g : GArr} (hk : g.kind.positional = true) {v : Int}
    (hle : ∀ x ∈ g.vals, x ≤ v) : nextGroup g v = .error .indexError := by
  have key : (do
      let sel ← npMask g.vals (g.vals.map fun x => decide (v < x))
      pyGet sel 0) = Except.error .indexError := by
    simp only [npMask, List.length_map, if_true]
    change pyGet (maskZip _ _) 0 = _
    rw [maskZip_none]
    · rfl
    · intro x hx; simpa using hle x hx
  unfold nextGroup
  cases hkk : g.kind <;> simp [hkk, GKind.positional] at hk ⊢ <;> exact key

/-- `c` separates labels: everything before `c` has a smaller label than everything from `c` on. -/
def IsCut (vals : List Int) (c : Nat) : Prop :=
  ∀ i j, i < c → c ≤ j → j < vals.length → label vals i < label vals j

/-- Consecutive, possibly empty folds `[a, b]` from `s` to `n`, with label-separating inner borders. -/
def ContigFolds (vals : List Int) : Nat → List (Nat × Nat) → Prop
  | s, [] => s = vals.length
  | s, (a, b) :: rest => a = s ∧ s ≤ b + 1 ∧ b + 1 ≤ vals.length ∧ IsCut vals (b + 1) ∧
      ContigFolds vals (b + 1) rest

theorem bnds_cons_of {a : Nat} {s : Nat} {ss : List Nat} :
    bnds a (s :: ss) = (a, a + s - 1) :: bnds (a + s) ss := rfl

/-- The outcome of the border repair: how one iteration acts on sorted labels. -/
theorem modifyFrom_step {g : GArr} (hs : g.vals.Pairwise (· ≤ ·)) {s0 e0 : Nat} {b1 : Nat × Nat}
    {rest : List (Nat × Nat)} (hb : b1.1 = e0 + 1) (he : e0 + 1 < g.vals.length) :
    ∃ L, e0 ≤ L ∧ L < g.vals.length ∧ label g.vals L = label g.vals e0 ∧
      (∀ j, L < j → j < g.vals.length → label g.vals e0 < label g.vals j) ∧
      modifyFrom g (s0, e0) (b1 :: rest) =
        if L = e0 then (modifyFrom g b1 rest).map ((s0, L) :: ·)
        else if g.kind.positional = false then .error .keyError
        else if L + 1 = g.vals.length then .error .indexError
        else (modifyFrom g (L + 1, b1.2) rest).map ((s0, L) :: ·) := by
  obtain ⟨L, h1, h2, h3, h4, h5⟩ := exists_last hs (show e0 < g.vals.length by omega)
  refine ⟨L, h1, h2, h3, h4, ?_⟩
  have hg0 : pyGet g.vals e0 = .ok (label g.vals e0) := by
    rw [label_eq_getElem (by omega)]; exact pyGet_lt _
  have hg1 : pyGet g.vals b1.1 = .ok (label g.vals (e0 + 1)) := by
    rw [hb, label_eq_getElem (by omega)]; exact pyGet_lt _
  rw [modifyFrom]
  simp only [hg0, hg1]
  by_cases hL : L = e0
  · have hlt := h4 (e0 + 1) (by omega) he
    have : label g.vals e0 ≠ label g.vals (e0 + 1) := by omega
    subst hL
    simp only [if_true]
    change (if _ then _ else _) = _
    rw [if_neg this]
    cases modifyFrom g b1 rest <;> rfl
  · have hle1 := sorted_label hs (show e0 ≤ e0 + 1 by omega) he
    have hle2 := sorted_label hs (show e0 + 1 ≤ L by omega) h2
    have heq : label g.vals e0 = label g.vals (e0 + 1) := by omega
    change (if _ then _ else _) = _
    rw [if_pos heq, if_neg hL]
    by_cases hp : g.kind.positional = true
    · rw [if_neg (by simp [hp])]
      by_cases hend : L + 1 = g.vals.length
      · rw [if_pos hend, nextGroup_err hp]
        · rfl
        · intro x hx
          obtain ⟨i, hi, rfl⟩ := List.mem_iff_getElem.mp hx
          have := sorted_label hs (show i ≤ L by omega) h2
          rw [label_eq_getElem hi] at this; omega
      · rw [if_neg hend]
        have hn := nextGroup_ok hp hs (e := L) (by omega) (by rw [h3]; exact h4)
        rw [h3] at hn
        have hfirst : pyGet (npWhere (g.vals.map fun x => decide (x = label g.vals (L+1)))) 0
            = .ok (L + 1) := by
          rw [head_npWhere]
          have hl : L + 1 < g.vals.length := by omega
          refine ⟨?_, ?_⟩
          · simp only [List.getElem?_map, List.getElem?_eq_getElem hl, Option.map_some,
              label_eq_getElem hl]; simp
          · intro j hj hc
            have hj' : j < g.vals.length := by omega
            have h6 := sorted_label hs (show j ≤ L by omega) h2
            have h7 := h4 (L+1) (by omega) hl
            simp only [List.getElem?_map, List.getElem?_eq_getElem hj', Option.map_some,
              Option.some.injEq, decide_eq_true_eq] at hc
            rw [label_eq_getElem hj'] at h6
            omega
        rw [hn, h5]
        change ((pyGet (npWhere _) 0).bind _) = _
        rw [hfirst]
        change ((modifyFrom g (L + 1, b1.2) rest).bind _) = _
        cases modifyFrom g (L + 1, b1.2) rest <;> rfl
    · rw [if_pos (by simpa using hp)]
      have : nextGroup g (label g.vals e0) = .error .keyError := by
        unfold nextGroup
        cases hkk : g.kind <;> simp [hkk, GKind.positional] at hp ⊢
      rw [this]; rfl

theorem modifyFrom_contig {g : GArr} (hs : g.vals.Pairwise (· ≤ ·)) (ss : List Nat)
    (hpos : ∀ s ∈ ss, 0 < s) (s0 e0 : Nat) (hsum : e0 + 1 + ss.sum = g.vals.length)
    (hst : s0 ≤ e0 + 1 ∨ (0 < s0 ∧ s0 ≤ g.vals.length ∧ label g.vals (s0 - 1) = label g.vals e0))
    {bs : List (Nat × Nat)} (h : modifyFrom g (s0, e0) (bnds (e0 + 1) ss) = .ok bs) :
    ContigFolds g.vals s0 bs ∧ bs.length = ss.length + 1 := by
  induction ss generalizing s0 e0 bs with
  | nil =>
    simp only [bnds, modifyFrom, Except.ok.injEq] at h
    subst h
    simp only [List.sum_nil, Nat.add_zero] at hsum
    refine ⟨⟨rfl, by rcases hst with h | h <;> omega, by omega, ?_, ?_⟩, rfl⟩
    · intro i j hi hj hjl; omega
    · exact hsum
  | cons s1 ss ih =>
    have hs1 : 0 < s1 := hpos s1 (by simp)
    simp only [List.sum_cons] at hsum
    rw [bnds_cons_of] at h
    obtain ⟨L, hL1, hL2, hL3, hL4, heq⟩ := modifyFrom_step (g := g) hs (s0 := s0) (e0 := e0)
      (b1 := (e0 + 1, e0 + 1 + s1 - 1)) (rest := bnds (e0 + 1 + s1) ss) rfl (by omega)
    rw [heq] at h
    have hsL : s0 ≤ L + 1 := by
      rcases hst with h | ⟨h1, h2, h3⟩
      · omega
      · by_contra hc
        have := hL4 (s0 - 1) (by omega) (by omega)
        omega
    have hcut : IsCut g.vals (L + 1) := by
      intro i j hi hj hjl
      have h1 := sorted_label hs (show i ≤ L by omega) hL2
      have h2 := hL4 j (by omega) hjl
      omega
    have hst' : L + 1 ≤ e0 + s1 + 1 ∨ (0 < L + 1 ∧ L + 1 ≤ g.vals.length ∧
        label g.vals (L + 1 - 1) = label g.vals (e0 + s1)) := by
      by_cases hc : L + 1 ≤ e0 + s1 + 1
      · exact Or.inl hc
      · right
        refine ⟨by omega, by omega, ?_⟩
        have h1 := sorted_label hs (show e0 ≤ e0 + s1 by omega) (by omega)
        have h2 := sorted_label hs (show e0 + s1 ≤ L by omega) hL2
        rw [Nat.add_sub_cancel]; omega
    have hrec : ∀ bs', modifyFrom g (L + 1, e0 + s1) (bnds (e0 + s1 + 1) ss) = .ok bs' →
        ContigFolds g.vals (L + 1) bs' ∧ bs'.length = ss.length + 1 := fun bs' hb =>
      ih (fun s hs => hpos s (by simp [hs])) (L + 1) (e0 + s1) (by omega) hst' hb
    rw [show e0 + 1 + s1 - 1 = e0 + s1 by omega, show e0 + 1 + s1 = e0 + s1 + 1 by omega] at h
    have hfin : ∀ r, (Except.map ((s0, L) :: ·) r : Py _) = .ok bs →
        r = modifyFrom g (L + 1, e0 + s1) (bnds (e0 + s1 + 1) ss) →
        ContigFolds g.vals s0 bs ∧ bs.length = (s1 :: ss).length + 1 := by
      intro r hr hr'
      cases hcase : r with
      | error e => rw [hcase] at hr; cases hr
      | ok bs' =>
        rw [hcase] at hr hr'
        simp only [Except.map, Except.ok.injEq] at hr
        subst hr
        obtain ⟨h1, h2⟩ := hrec bs' hr'.symm
        exact ⟨⟨rfl, hsL, by omega, hcut, h1⟩, by simp [h2]⟩
    by_cases hLe : L = e0
    · rw [if_pos hLe] at h
      exact hfin _ h (by rw [hLe])
    · rw [if_neg hLe] at h
      split at h
      · cases h
      · split at h
        · cases h
        · exact hfin _ h rfl

/-- For positionally indexed groups the border repair succeeds iff the label at the end of the last
but one section differs from the last label; otherwise it raises `IndexError`. -/
theorem modifyFrom_ok_iff {g : GArr} (hs : g.vals.Pairwise (· ≤ ·)) (hk : g.kind.positional = true)
    (ss : List Nat) (z : Nat) (hpos : ∀ s ∈ ss ++ [z], 0 < s) (s0 e0 : Nat)
    (hsum : e0 + 1 + (ss ++ [z]).sum = g.vals.length) :
    (label g.vals (g.vals.length - 1 - z) ≠ label g.vals (g.vals.length - 1) →
      ∃ bs, modifyFrom g (s0, e0) (bnds (e0 + 1) (ss ++ [z])) = .ok bs) ∧
    (label g.vals (g.vals.length - 1 - z) = label g.vals (g.vals.length - 1) →
      modifyFrom g (s0, e0) (bnds (e0 + 1) (ss ++ [z])) = .error .indexError) := by
  induction ss generalizing s0 e0 with
  | nil =>
    have hz : 0 < z := hpos z (by simp)
    simp only [List.nil_append, List.sum_cons, List.sum_nil, Nat.add_zero] at hsum
    simp only [List.nil_append, bnds_cons_of]
    obtain ⟨L, hL1, hL2, hL3, hL4, heq⟩ := modifyFrom_step (g := g) hs (s0 := s0) (e0 := e0)
      (b1 := (e0 + 1, e0 + 1 + z - 1)) (rest := bnds (e0 + 1 + z) []) rfl (by omega)
    rw [heq, show g.vals.length - 1 - z = e0 by omega]
    constructor
    · intro hne
      have hLn : L + 1 ≠ g.vals.length := fun h => hne (by rw [← hL3]; congr 1; omega)
      simp only [hk, hLn, bnds, modifyFrom]
      by_cases hLe : L = e0
      · simp only [hLe, if_true]; exact ⟨_, rfl⟩
      · simp only [hLe, if_false]; exact ⟨_, rfl⟩
    · intro he
      have hLn : L + 1 = g.vals.length := by
        by_contra hc
        have := hL4 (g.vals.length - 1) (by omega) (by omega)
        omega
      have hLe : L ≠ e0 := by omega
      simp [hk, hLn, hLe]
  | cons s1 ss ih =>
    have hs1 : 0 < s1 := hpos s1 (by simp)
    have hz : 0 < z := hpos z (by simp)
    simp only [List.cons_append, List.sum_cons] at hsum
    have hzle : z ≤ (ss ++ [z]).sum := by simp
    simp only [List.cons_append, bnds_cons_of]
    obtain ⟨L, hL1, hL2, hL3, hL4, heq⟩ := modifyFrom_step (g := g) hs (s0 := s0) (e0 := e0)
      (b1 := (e0 + 1, e0 + 1 + s1 - 1)) (rest := bnds (e0 + 1 + s1) (ss ++ [z])) rfl (by omega)
    rw [heq]
    simp only [show e0 + 1 + s1 = e0 + s1 + 1 by omega, Nat.add_sub_cancel]
    obtain ⟨ih1, ih2⟩ := ih (fun s hs => hpos s (by simp only [List.cons_append, List.mem_cons]; right; exact hs))
      (L + 1) (e0 + s1) (by omega)
    constructor
    · intro hne
      have hLn : L + 1 ≠ g.vals.length := by
        intro h
        apply hne
        have h1 := sorted_label hs (show e0 ≤ g.vals.length - 1 - z by omega) (by omega)
        have h2 := sorted_label hs (show g.vals.length - 1 - z ≤ g.vals.length - 1 by omega) (by omega)
        have h3 : label g.vals (g.vals.length - 1) = label g.vals e0 := by
          rw [← hL3]; congr 1; omega
        omega
      obtain ⟨bs, hbs⟩ := ih1 hne
      by_cases hLe : L = e0
      · simp only [hLe, if_true] at hbs ⊢
        rw [hbs]; exact ⟨_, rfl⟩
      · simp only [hLe, hk, hLn, if_false, hbs]; exact ⟨_, rfl⟩
    · intro he
      have hbs := ih2 he
      by_cases hLe : L = e0
      · simp only [hLe, if_true] at hbs ⊢
        rw [hbs]; rfl
      · simp only [hLe, hk, if_false, hbs]
        split
        · next h => simp at h
        · split <;> rfl

/-! ### Purging and embargoing -/

theorem bind_ok_inv {α β : Type _} {x : Py α} {f : α → Py β} {b : β} (h : (x >>= f) = .ok b) :
    ∃ a, x = .ok a ∧ f a = .ok b := by
  cases x with
  | error e => cases h
  | ok a => exact ⟨a, rfl, h⟩

/-- In the purge zone of the test set. -/
def InPurge (vals : List Int) (test : List Nat) (k : Int) (i : Nat) : Prop :=
  ∃ m, IsGreatest (labelsOf vals test) m ∧ m < label vals i ∧ label vals i ≤ m + k

/-- In the embargo zone of the test set. -/
def InEmbargo (vals : List Int) (test : List Nat) (k : Int) (i : Nat) : Prop :=
  ∃ m, IsLeast (labelsOf vals test) m ∧ m - k ≤ label vals i ∧ label vals i < m

theorem labelsOf_eq (vals : List Int) (test : List Nat) :
    labelsOf vals test = {x | x ∈ test.map fun i => vals.getD i 0} := by
  ext x; simp [labelsOf, label, eq_comm]

theorem max_spec {vals : List Int} {test : List Nat} {kind : GKind} {mo : Option Int}
    (h : extreme kind (listMax? (test.map fun i => vals.getD i 0)) = .ok mo) (m : Int) :
    mo = some m ↔ IsGreatest (labelsOf vals test) m := by
  rw [labelsOf_eq]
  generalize test.map (fun i => vals.getD i 0) = l at *
  cases hl : listMax? l with
  | none =>
    have hnil := listMax?_none.mp hl
    have : mo = none := by
      rw [hl] at h; cases kind <;> simp [extreme] at h <;> exact h.symm
    subst hnil
    simp [this, IsGreatest]
  | some v =>
    have hv := listMax?_some hl
    rw [hl] at h
    simp only [extreme, Except.ok.injEq] at h
    subst h
    simp only [Option.some.injEq]
    constructor
    · rintro rfl; exact hv
    · intro h'; exact IsGreatest.unique hv h'

theorem min_spec {vals : List Int} {test : List Nat} {kind : GKind} {mo : Option Int}
    (h : extreme kind (listMin? (test.map fun i => vals.getD i 0)) = .ok mo) (m : Int) :
    mo = some m ↔ IsLeast (labelsOf vals test) m := by
  rw [labelsOf_eq]
  generalize test.map (fun i => vals.getD i 0) = l at *
  cases hl : listMin? l with
  | none =>
    have hnil := listMin?_none.mp hl
    have : mo = none := by
      rw [hl] at h; cases kind <;> simp [extreme] at h <;> exact h.symm
    subst hnil
    simp [this, IsLeast]
  | some v =>
    have hv := listMin?_some hl
    rw [hl] at h
    simp only [extreme, Except.ok.injEq] at h
    subst h
    simp only [Option.some.injEq]
    constructor
    · rintro rfl; exact hv
    · intro h'; exact IsLeast.unique hv h'

theorem purge_eq {n : Nat} {g : GArr} (hn : g.vals.length = n) {train test : List Nat}
    (ht : ∀ i ∈ test, i < n) {d : Delta} {k : Int} {mo : Option Int}
    (hv : validatePE g d = .ok ()) (hk : deltaAmount g.kind d = .ok k)
    (hm : extreme g.kind (listMax? (test.map fun i => g.vals.getD i 0)) = .ok mo) :
    ∃ r, r.Pairwise (· < ·) ∧ (∀ i, i ∈ r ↔ i ∈ train ∧ ¬ (i < n ∧ InPurge g.vals test k i)) ∧
      purge train test (List.range n) g d = if r = [] then .error .valueError else .ok r := by
  obtain ⟨w, hw1, hw2, hw3⟩ := npMask_range hn (purgeHit mo k)
  have hw : ∀ i, i ∈ w ↔ i < n ∧ InPurge g.vals test k i := by
    intro i
    rw [hw3 i]
    refine and_congr_right fun _ => ?_
    unfold InPurge purgeHit label
    constructor
    · intro h
      cases hmo : mo with
      | none => rw [hmo] at h; simp at h
      | some m =>
        rw [hmo] at h
        simp only [Bool.and_eq_true, decide_eq_true_eq] at h
        exact ⟨m, (max_spec hm m).mp hmo, h.2, h.1⟩
    · rintro ⟨m, h1, h2, h3⟩
      rw [(max_spec hm m).mpr h1]
      simp only [Bool.and_eq_true, decide_eq_true_eq]
      exact ⟨h3, h2⟩
  refine ⟨npSetdiff1d (npSetdiff1d train w) w, npSetdiff1d_sorted _ _, ?_, ?_⟩
  · intro i
    rw [mem_npSetdiff1d, mem_npSetdiff1d, hw]
    tauto
  · have hidem : npSetdiff1d (npSetdiff1d train w) w = npSetdiff1d train w :=
      sorted_ext (npSetdiff1d_sorted _ _) (npSetdiff1d_sorted _ _) (fun i => by
        simp only [mem_npSetdiff1d]; tauto)
    unfold purge
    rw [hv]
    simp only [npTake_ok (fun i hi => by rw [hn]; exact ht i hi), bind, Except.bind, hm, hk]
    rw [hw1]
    simp only [hidem, List.length_eq_zero_iff]

theorem embargo_eq {n : Nat} {g : GArr} (hn : g.vals.length = n) {train test : List Nat}
    (ht : ∀ i ∈ test, i < n) {d : Delta} {k : Int} {mo : Option Int}
    (hv : validatePE g d = .ok ()) (hk : deltaAmount g.kind d = .ok k)
    (hm : extreme g.kind (listMin? (test.map fun i => g.vals.getD i 0)) = .ok mo) :
    ∃ r, r.Pairwise (· < ·) ∧ (∀ i, i ∈ r ↔ i ∈ train ∧ ¬ (i < n ∧ InEmbargo g.vals test k i)) ∧
      embargo train test (List.range n) g d = if r = [] then .error .valueError else .ok r := by
  obtain ⟨w, hw1, hw2, hw3⟩ := npMask_range hn (embargoHit mo k)
  have hw : ∀ i, i ∈ w ↔ i < n ∧ InEmbargo g.vals test k i := by
    intro i
    rw [hw3 i]
    refine and_congr_right fun _ => ?_
    unfold InEmbargo embargoHit label
    constructor
    · intro h
      cases hmo : mo with
      | none => rw [hmo] at h; simp at h
      | some m =>
        rw [hmo] at h
        simp only [Bool.and_eq_true, decide_eq_true_eq] at h
        exact ⟨m, (min_spec hm m).mp hmo, h.1, h.2⟩
    · rintro ⟨m, h1, h2, h3⟩
      rw [(min_spec hm m).mpr h1]
      simp only [Bool.and_eq_true, decide_eq_true_eq]
      exact ⟨h2, h3⟩
  refine ⟨npSetdiff1d train w, npSetdiff1d_sorted _ _, ?_, ?_⟩
  · intro i
    rw [mem_npSetdiff1d, hw]
  · unfold embargo
    rw [hv]
    simp only [npTake_ok (fun i hi => by rw [hn]; exact ht i hi), bind, Except.bind, hm, hk]
    rw [hw1]
    simp only [List.length_eq_zero_iff]

theorem purge_inv {n : Nat} {g : GArr} (hn : g.vals.length = n) {train test r : List Nat}
    (ht : ∀ i ∈ test, i < n) {d : Delta} (h : purge train test (List.range n) g d = .ok r) :
    validatePE g d = .ok () ∧ ∃ k, deltaAmount g.kind d = .ok k ∧ r.Pairwise (· < ·) ∧ r ≠ [] ∧
      (g.kind = .ndarray → test ≠ []) ∧
      ∀ i, i ∈ r ↔ i ∈ train ∧ ¬ (i < n ∧ InPurge g.vals test k i) := by
  have h0 := h
  unfold purge at h0
  obtain ⟨_, hv, h0⟩ := bind_ok_inv h0
  obtain ⟨l, hl, h0⟩ := bind_ok_inv h0
  obtain ⟨mo, hm, h0⟩ := bind_ok_inv h0
  obtain ⟨k, hk, h0⟩ := bind_ok_inv h0
  rw [npTake_ok (fun i hi => by rw [hn]; exact ht i hi)] at hl
  cases hl
  obtain ⟨r', hr1, hr2, hr3⟩ := purge_eq hn (train := train) ht hv hk hm
  rw [hr3] at h
  split at h
  · cases h
  · next hne =>
    cases h
    refine ⟨hv, k, hk, hr1, hne, ?_, hr2⟩
    rintro hnd rfl
    rw [hnd] at hm
    cases hm

theorem embargo_inv {n : Nat} {g : GArr} (hn : g.vals.length = n) {train test r : List Nat}
    (ht : ∀ i ∈ test, i < n) {d : Delta} (h : embargo train test (List.range n) g d = .ok r) :
    validatePE g d = .ok () ∧ ∃ k, deltaAmount g.kind d = .ok k ∧ r.Pairwise (· < ·) ∧ r ≠ [] ∧
      (g.kind = .ndarray → test ≠ []) ∧
      ∀ i, i ∈ r ↔ i ∈ train ∧ ¬ (i < n ∧ InEmbargo g.vals test k i) := by
  have h0 := h
  unfold embargo at h0
  obtain ⟨_, hv, h0⟩ := bind_ok_inv h0
  obtain ⟨l, hl, h0⟩ := bind_ok_inv h0
  obtain ⟨mo, hm, h0⟩ := bind_ok_inv h0
  obtain ⟨k, hk, h0⟩ := bind_ok_inv h0
  rw [npTake_ok (fun i hi => by rw [hn]; exact ht i hi)] at hl
  cases hl
  obtain ⟨r', hr1, hr2, hr3⟩ := embargo_eq hn (train := train) ht hv hk hm
  rw [hr3] at h
  split at h
  · cases h
  · next hne =>
    cases h
    refine ⟨hv, k, hk, hr1, hne, ?_, hr2⟩
    rintro hnd rfl
    rw [hnd] at hm
    cases hm

theorem getTrain_eq {n : Nat} {g : GArr} (hn : g.vals.length = n) {test : List Nat}
    (ht : ∀ i ∈ test, i < n) (lf : Bool) (hne : lf = true → test ≠ []) :
    ∃ r, getTrainIndex (List.range n) test g lf = .ok r ∧ ∀ i, i ∈ r ↔ i < n ∧ i ∉ test ∧
      (lf = true → ∀ t, test.head? = some t → label g.vals i ≤ label g.vals t) := by
  cases lf with
  | false =>
    refine ⟨_, rfl, ?_⟩
    intro i; rw [mem_npSetdiff1d]; simp
  | true =>
    cases test with
    | nil => simp at hne
    | cons t ts =>
      obtain ⟨w, hw1, hw2, hw3⟩ := npMask_range hn (fun x => decide (label g.vals t < x))
      have htn : t < g.vals.length := by rw [hn]; exact ht t (by simp)
      refine ⟨npSetdiff1d (npSetdiff1d (List.range n) (t :: ts)) w, ?_, ?_⟩
      · have h1 : pyGet (t :: ts) 0 = .ok t := rfl
        have h2 : pyGet g.vals t = .ok (label g.vals t) := by
          rw [label_eq_getElem htn]; exact pyGet_lt htn
        simp only [getTrainIndex, if_true, h1, h2, bind, Except.bind, hw1]
      · intro i
        have hw3' : i ∈ w ↔ i < n ∧ label g.vals t < label g.vals i := by
          rw [hw3 i]; simp [label]
        rw [mem_npSetdiff1d, mem_npSetdiff1d, hw3']
        simp only [List.mem_range, List.head?_cons, Option.some.injEq]
        constructor
        · rintro ⟨⟨h1, h2⟩, h3⟩
          refine ⟨h1, h2, ?_⟩
          rintro - _ rfl
          by_contra hc
          exact h3 ⟨h1, by omega⟩
        · rintro ⟨h1, h2, h3⟩
          refine ⟨⟨h1, h2⟩, ?_⟩
          rintro ⟨_, h4⟩
          have := h3 trivial t rfl
          omega

/-- The training set in terms of the test index array (as the loop computes it). -/
def InTrainL (vals : List Int) (n : Nat) (p e : Int) (lookForward : Bool) (test : List Nat) (i : Nat) :
    Prop :=
  i < n ∧ i ∉ test ∧
  (∀ m, IsGreatest (labelsOf vals test) m → ¬ (m < label vals i ∧ label vals i ≤ m + p)) ∧
  (∀ m, IsLeast (labelsOf vals test) m → ¬ (m - e ≤ label vals i ∧ label vals i < m)) ∧
  (lookForward = true → ∀ t, test.head? = some t → label vals i ≤ label vals t)

theorem inTrainL_iff {vals : List Int} {n : Nat} {p e : Int} {lf : Bool} {test : List Nat} {i : Nat} :
    InTrainL vals n p e lf test i ↔ ((i < n ∧ i ∉ test ∧
      (lf = true → ∀ t, test.head? = some t → label vals i ≤ label vals t)) ∧
      ¬ (i < n ∧ InPurge vals test p i)) ∧ ¬ (i < n ∧ InEmbargo vals test e i) := by
  unfold InTrainL InPurge InEmbargo
  constructor
  · rintro ⟨h1, h2, h3, h4, h5⟩
    exact ⟨⟨⟨h1, h2, h5⟩, fun ⟨_, m, hm, h⟩ => h3 m hm h⟩, fun ⟨_, m, hm, h⟩ => h4 m hm h⟩
  · rintro ⟨⟨⟨h1, h2, h5⟩, h3⟩, h4⟩
    exact ⟨h1, h2, fun m hm h => h3 ⟨h1, m, hm, h⟩, fun m hm h => h4 ⟨h1, m, hm, h⟩, h5⟩

/-- What a successful loop iteration returns. -/
theorem kfoldOne_inv {n : Nat} {g : GArr} (hn : g.vals.length = n) {lf : Bool} {ne np : Delta}
    {test : List Nat} (ht : ∀ i ∈ test, i < n) {s : TrainTest}
    (h : kfoldOne (List.range n) g lf ne np test = .ok s) :
    s.2 = test ∧ s.1.Pairwise (· < ·) ∧ s.1 ≠ [] ∧ (g.kind = .ndarray → test ≠ []) ∧
      (lf = true → test ≠ []) ∧
      validatePE g np = .ok () ∧ validatePE g ne = .ok () ∧
      ∃ p e, deltaAmount g.kind np = .ok p ∧ deltaAmount g.kind ne = .ok e ∧
        ∀ i, i ∈ s.1 ↔ InTrainL g.vals n p e lf test i := by
  unfold kfoldOne at h
  obtain ⟨t0, h0, h⟩ := bind_ok_inv h
  obtain ⟨t1, h1, h⟩ := bind_ok_inv h
  obtain ⟨t2, h2, h⟩ := bind_ok_inv h
  cases h
  have hne : lf = true → test ≠ [] := by
    rintro rfl rfl
    simp [getTrainIndex, pyGet] at h0
    cases h0
  obtain ⟨r, hr, hr'⟩ := getTrain_eq hn ht lf hne
  rw [hr] at h0; cases h0
  obtain ⟨hv1, p, hp, _, _, hnd, hmem1⟩ := purge_inv hn ht h1
  obtain ⟨hv2, e, he, hs2, hne2, _, hmem2⟩ := embargo_inv hn ht h2
  refine ⟨rfl, hs2, hne2, hnd, hne, hv1, hv2, p, e, hp, he, ?_⟩
  intro i
  rw [hmem2, hmem1, hr', inTrainL_iff]

/-- When a loop iteration succeeds, for matching types. -/
theorem kfoldOne_eq {n : Nat} {g : GArr} (hn : g.vals.length = n) {lf : Bool} {ne np : Delta}
    {test : List Nat} (ht : ∀ i ∈ test, i < n) (hnd : g.kind = .ndarray → test ≠ [])
    (hlf : lf = true → test ≠ []) {p e : Int}
    (hv1 : validatePE g np = .ok ()) (hv2 : validatePE g ne = .ok ())
    (hp : deltaAmount g.kind np = .ok p) (he : deltaAmount g.kind ne = .ok e) :
    ((∃ i, InTrainL g.vals n p e lf test i) →
      ∃ tr, kfoldOne (List.range n) g lf ne np test = .ok (tr, test)) ∧
    ((¬ ∃ i, InTrainL g.vals n p e lf test i) →
      kfoldOne (List.range n) g lf ne np test = .error .valueError) := by
  obtain ⟨t0, h0, h0'⟩ := getTrain_eq hn ht lf hlf
  have hmx : ∃ mo, extreme g.kind (listMax? (test.map fun i => g.vals.getD i 0)) = .ok mo := by
    cases test with
    | nil => cases hkk : g.kind <;> first | exact ⟨_, rfl⟩ | exact absurd rfl (hnd hkk)
    | cons a l => exact ⟨_, rfl⟩
  have hmn : ∃ mo, extreme g.kind (listMin? (test.map fun i => g.vals.getD i 0)) = .ok mo := by
    cases test with
    | nil => cases hkk : g.kind <;> first | exact ⟨_, rfl⟩ | exact absurd rfl (hnd hkk)
    | cons a l => exact ⟨_, rfl⟩
  obtain ⟨mx, hmx⟩ := hmx
  obtain ⟨mn, hmn⟩ := hmn
  obtain ⟨r1, hr1, hr1', hpe⟩ := purge_eq hn (train := t0) ht hv1 hp hmx
  obtain ⟨r2, hr2, hr2', hee⟩ := embargo_eq hn (train := r1) ht hv2 he hmn
  have hmem : ∀ i, i ∈ r2 ↔ InTrainL g.vals n p e lf test i := by
    intro i; rw [hr2', hr1', h0', inTrainL_iff]
  unfold kfoldOne
  rw [h0]
  simp only [bind, Except.bind, hpe]
  constructor
  · rintro ⟨i, hi⟩
    have hi2 := (hmem i).mpr hi
    have hn2 : r2 ≠ [] := fun h => by rw [h] at hi2; simp at hi2
    have hn1 : r1 ≠ [] := fun h => by
      have := ((hr2' i).mp hi2).1
      rw [h] at this; simp at this
    rw [if_neg hn1]
    simp only [hee]
    rw [if_neg hn2]
    exact ⟨_, rfl⟩
  · intro hno
    have hn2 : r2 = [] := by
      rw [List.eq_nil_iff_forall_not_mem]
      intro i hi
      exact hno ⟨i, (hmem i).mp hi⟩
    by_cases hn1 : r1 = []
    · rw [if_pos hn1]
    · rw [if_neg hn1]
      simp only [hee]
      rw [if_pos hn2]

/-! ### The loop -/

theorem kfoldLoop_yields {f : List Nat → Py TrainTest} {ts : List (List Nat)} {s : TrainTest}
    (h : s ∈ (kfoldLoop f ts).yields) : ∃ t ∈ ts, f t = .ok s := by
  induction ts with
  | nil => simp [kfoldLoop] at h
  | cons t ts ih =>
    rw [kfoldLoop] at h
    cases hf : f t with
    | error e => rw [hf] at h; simp at h
    | ok s' =>
      rw [hf] at h
      rcases List.mem_cons.mp h with h | h
      · exact ⟨t, by simp, by rw [hf, h]⟩
      · obtain ⟨t', ht', hf'⟩ := ih h
        exact ⟨t', by simp [ht'], hf'⟩

theorem kfoldLoop_done {f : List Nat → Py TrainTest} {ts : List (List Nat)}
    (h : (kfoldLoop f ts).err = none) :
    List.Forall₂ (fun t s => f t = .ok s) ts (kfoldLoop f ts).yields := by
  induction ts with
  | nil => exact .nil
  | cons t ts ih =>
    rw [kfoldLoop] at h ⊢
    cases hf : f t with
    | error e => rw [hf] at h; simp at h
    | ok s' =>
      rw [hf] at h
      exact .cons hf (ih h)

/-- A yielded prefix: the yields are the results for the first folds, in order. -/
theorem kfoldLoop_prefix {f : List Nat → Py TrainTest} {ts : List (List Nat)} :
    ∃ pre suf, ts = pre ++ suf ∧ List.Forall₂ (fun t s => f t = .ok s) pre (kfoldLoop f ts).yields ∧
      (match (kfoldLoop f ts).err with
       | none => suf = []
       | some e => ∃ t suf', suf = t :: suf' ∧ f t = .error e) := by
  induction ts with
  | nil => exact ⟨[], [], rfl, .nil, rfl⟩
  | cons t ts ih =>
    rw [kfoldLoop]
    cases hf : f t with
    | error e => exact ⟨[], t :: ts, rfl, .nil, t, ts, rfl, hf⟩
    | ok s' =>
      obtain ⟨pre, suf, h1, h2, h3⟩ := ih
      exact ⟨t :: pre, suf, by rw [h1]; rfl, .cons hf h2, h3⟩

end Verif.Split
