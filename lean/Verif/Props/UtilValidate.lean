import Verif.Model.Util
import Mathlib.Data.List.Nodup

/-!
# C64: the validation decorators, `to_numpy`, and the annotations for arrays, frames and series
-/

namespace Verif.Props.UtilValidate

open Verif Util

/-! ### The checks of one argument -/

/-- What `validate_series_or_1Darray` documents, with `None` let through. -/
def Valid1 (k : Kind) : Prop := k = .none_ ∨ ∃ n, 2 ≤ n ∧ (k = .series n ∨ k = .array [n])

/-- What `validate_frame_or_2Darray` documents, with `None` let through. Nothing is asked of the number of rows. -/
def Valid2 (k : Kind) : Prop := k = .none_ ∨ ∃ r c, 2 ≤ c ∧ (k = .frame r c ∨ k = .array [r, c])

theorem check1_spec (k : Kind) : (check1 k = .ok () ↔ Valid1 k) ∧ (¬ Valid1 k → check1 k = .error .valueError) := by
  have key : (Valid1 k ∧ check1 k = .ok ()) ∨ (¬ Valid1 k ∧ check1 k = .error .valueError) := by
    unfold Valid1 check1
    cases k with
    | none_ => left; simp
    | other => right; simp; rfl
    | frame r c => right; simp; rfl
    | series n =>
      by_cases h : n < 2
      · right
        refine ⟨by simp; omega, ?_⟩
        rw [if_neg (by simp)]
        show (if n < 2 then _ else _) = _
        rw [if_pos h]
      · left
        refine ⟨.inr ⟨n, by omega, .inl rfl⟩, ?_⟩
        rw [if_neg (by simp)]
        show (if n < 2 then _ else _) = _
        rw [if_neg h]
    | array sh =>
      rw [if_neg (by simp)]
      match sh with
      | [] => right; simp; rfl
      | [n] =>
        by_cases h : n < 2
        · right
          refine ⟨by simp; omega, ?_⟩
          show (if n < 2 then _ else _) = _
          rw [if_pos h]
        · left
          refine ⟨.inr ⟨n, by omega, .inr rfl⟩, ?_⟩
          show (if n < 2 then _ else _) = _
          rw [if_neg h]
      | a :: b :: t => right; simp; rfl
  rcases key with ⟨h1, h2⟩ | ⟨h1, h2⟩
  · exact ⟨⟨fun _ => h1, fun _ => h2⟩, fun h => absurd h1 h⟩
  · refine ⟨⟨fun h => ?_, fun h => absurd h h1⟩, fun _ => h2⟩
    rw [h2] at h
    cases h

theorem check2_spec (k : Kind) : (check2 k = .ok () ↔ Valid2 k) ∧ (¬ Valid2 k → check2 k = .error .valueError) := by
  have key : (Valid2 k ∧ check2 k = .ok ()) ∨ (¬ Valid2 k ∧ check2 k = .error .valueError) := by
    unfold Valid2 check2
    cases k with
    | none_ => left; simp
    | other => right; simp; rfl
    | series n => right; simp; rfl
    | frame r c =>
      by_cases h : c < 2
      · right
        refine ⟨by simp; omega, ?_⟩
        rw [if_neg (by simp)]
        show (if c < 2 then _ else _) = _
        rw [if_pos h]
      · left
        refine ⟨.inr ⟨r, c, by omega, .inl rfl⟩, ?_⟩
        rw [if_neg (by simp)]
        show (if c < 2 then _ else _) = _
        rw [if_neg h]
    | array sh =>
      rw [if_neg (by simp)]
      match sh with
      | [] => right; simp; rfl
      | [n] => right; simp; rfl
      | [r, c] =>
        by_cases h : c < 2
        · right
          refine ⟨by simp; omega, ?_⟩
          show (if c < 2 then _ else _) = _
          rw [if_pos h]
        · left
          refine ⟨.inr ⟨r, c, by omega, .inr rfl⟩, ?_⟩
          show (if c < 2 then _ else _) = _
          rw [if_neg h]
      | a :: b :: d :: t => right; simp; rfl
  rcases key with ⟨h1, h2⟩ | ⟨h1, h2⟩
  · exact ⟨⟨fun _ => h1, fun _ => h2⟩, fun h => absurd h1 h⟩
  · refine ⟨⟨fun h => ?_, fun h => absurd h h1⟩, fun _ => h2⟩
    rw [h2] at h
    cases h

/-! ### The wrapper -/

variable {V R : Type}

/-- The call fits the signature: not too many arguments, none given twice, no unknown name. -/
def Fits (sig : Sig) (args : List V) (kw : List (String × V)) : Prop :=
  args.length ≤ sig.params.length ∧
  ∀ p ∈ kw, p.1 ∉ sig.params.take args.length ∧ (sig.varKw = true ∨ p.1 ∈ sig.params)

/-- The value given in a call for a parameter, by position or by name. -/
def Given (sig : Sig) (args : List V) (kw : List (String × V)) (a : String) (v : V) : Prop :=
  (∃ i : Nat, sig.params[i]? = some a ∧ args[i]? = some v) ∨ (a ∈ sig.params ∧ (a, v) ∈ kw)

theorem bind_fits {sig : Sig} {args : List V} {kw : List (String × V)} (h : Fits sig args kw) :
    bindPartial sig args kw = .ok (sig.params.zip args ++ kw.filter fun p => sig.params.contains p.1) := by
  obtain ⟨h1, h2⟩ := h
  unfold bindPartial
  rw [if_neg (by omega), if_neg, if_neg]
  · simp only [Bool.and_eq_true, Bool.not_eq_true', List.any_eq_true, not_and, not_exists]
    intro hv p hp
    rcases (h2 p hp).2 with h3 | h3
    · rw [h3] at hv; cases hv
    · simp [h3]
  · simp only [List.any_eq_true, not_exists, not_and]
    intro p hp
    have := (h2 p hp).1
    simpa using this

theorem bind_not_fits {sig : Sig} {args : List V} {kw : List (String × V)} (h : ¬ Fits sig args kw) :
    bindPartial sig args kw = .error .typeError := by
  unfold bindPartial
  by_cases h1 : sig.params.length < args.length
  · rw [if_pos h1]
  rw [if_neg h1]
  by_cases h2 : (kw.any fun p => (sig.params.take args.length).contains p.1) = true
  · rw [if_pos h2]
  rw [if_neg h2, if_pos]
  simp only [List.any_eq_true, not_exists, not_and] at h2
  unfold Fits at h
  simp only [not_and, not_forall] at h
  obtain ⟨p, hp, h3⟩ := h (by omega)
  have h4 : p.1 ∉ sig.params.take args.length := by simpa using h2 p hp
  have h5 := h3 h4
  simp only [not_or] at h5
  simp only [Bool.and_eq_true, Bool.not_eq_true', List.any_eq_true]
  refine ⟨by simpa using h5.1, p, hp, ?_⟩
  simpa using h5.2

theorem lookup_iff {l : List (String × V)} (h : (l.map Prod.fst).Nodup) (a : String) (v : V) :
    l.lookup a = some v ↔ (a, v) ∈ l := by
  induction l with
  | nil => simp
  | cons p l ih =>
    obtain ⟨b, w⟩ := p
    rw [List.map_cons, List.nodup_cons] at h
    rw [List.lookup_cons, List.mem_cons]
    by_cases hab : a = b
    · subst hab
      simp only [beq_self_eq_true, Option.some.injEq, Prod.mk.injEq, true_and]
      constructor
      · exact fun h => .inl h.symm
      · rintro (h1 | h1)
        · exact h1.symm
        · exact absurd (List.mem_map_of_mem (f := Prod.fst) h1) h.1
    · rw [beq_eq_false_iff_ne.mpr hab]
      dsimp only
      rw [ih h.2]
      simp [hab]

theorem bound_lookup {sig : Sig} {args : List V} {kw : List (String × V)} (hs : sig.params.Nodup)
    (hk : (kw.map Prod.fst).Nodup) (h : Fits sig args kw) (a : String) (v : V) :
    (sig.params.zip args ++ kw.filter fun p => sig.params.contains p.1).lookup a = some v ↔ Given sig args kw a v := by
  rw [lookup_iff]
  · rw [List.mem_append]
    unfold Given
    apply or_congr
    · rw [List.mem_iff_getElem?]
      simp only [List.getElem?_zip_eq_some]
    · rw [List.mem_filter]
      simp [and_comm]
  · rw [List.map_append, List.nodup_append]
    have hz : (sig.params.zip args).map Prod.fst = sig.params.take args.length := by
      rw [List.zip_eq_zip_take_min, List.map_fst_zip (by simp)]
      congr 1
      have := h.1
      omega
    refine ⟨?_, ?_, ?_⟩
    · rw [hz]
      exact hs.sublist (List.take_sublist _ _)
    · exact hk.sublist (List.filter_sublist.map _)
    · rw [hz]
      intro x hx y hy hxy
      subst hxy
      obtain ⟨p, hp, rfl⟩ := List.mem_map.mp hy
      exact (h.2 p (List.mem_filter.mp hp).1).1 hx

theorem checkNames_ok {check : V → Py Unit} {bound : List (String × V)} : ∀ {names : List String},
    (∀ a ∈ names, ∀ v, bound.lookup a = some v → check v = .ok ()) → checkNames check bound names = .ok ()
  | [], _ => rfl
  | a :: rest, h => by
    unfold checkNames
    have hr := checkNames_ok fun b hb => h b (List.mem_cons_of_mem _ hb)
    cases hl : bound.lookup a with
    | none => exact hr
    | some v =>
      dsimp only
      rw [h a List.mem_cons_self v hl]
      exact hr

theorem checkNames_error {check : V → Py Unit} {e : PyErr} (hc : ∀ v, check v = .ok () ∨ check v = .error e)
    {bound : List (String × V)} : ∀ {names : List String},
    (∃ a ∈ names, ∃ v, bound.lookup a = some v ∧ check v ≠ .ok ()) → checkNames check bound names = .error e
  | [], h => by simp at h
  | a :: rest, h => by
    unfold checkNames
    have hr : (∃ b ∈ rest, ∃ v, bound.lookup b = some v ∧ check v ≠ .ok ()) → checkNames check bound rest = .error e :=
      checkNames_error hc
    cases hl : bound.lookup a with
    | none =>
      obtain ⟨b, hb, v, h1, h2⟩ := h
      rcases List.mem_cons.mp hb with rfl | hb
      · rw [hl] at h1; cases h1
      · exact hr ⟨b, hb, v, h1, h2⟩
    | some w =>
      dsimp only
      rcases hc w with hw | hw
      · rw [hw]
        obtain ⟨b, hb, v, h1, h2⟩ := h
        rcases List.mem_cons.mp hb with rfl | hb
        · rw [hl] at h1
          cases h1
          exact absurd hw h2
        · exact hr ⟨b, hb, v, h1, h2⟩
      · rw [hw]
        rfl

/-- C64. A decorated function: a call that does not fit the signature is a TypeError, a call in which a named argument is
given and not valid is the error of the check, and every other call is handed on unchanged, so its outcome is the
outcome of the function (result or exception). -/
theorem wrap_spec {check : V → Py Unit} {e : PyErr} (hc : ∀ v, check v = .ok () ∨ check v = .error e) (names : List String)
    {sig : Sig} (hs : sig.params.Nodup) (f : List V → List (String × V) → Py R) (args : List V) {kw : List (String × V)}
    (hk : (kw.map Prod.fst).Nodup) :
    (¬ Fits sig args kw → wrap check names sig f args kw = .error .typeError) ∧
    (Fits sig args kw → (∃ a ∈ names, ∃ v, Given sig args kw a v ∧ check v ≠ .ok ()) →
      wrap check names sig f args kw = .error e) ∧
    (Fits sig args kw → (∀ a ∈ names, ∀ v, Given sig args kw a v → check v = .ok ()) →
      wrap check names sig f args kw = f args kw) := by
  refine ⟨fun h => ?_, fun h hbad => ?_, fun h hgood => ?_⟩
  · unfold wrap
    rw [bind_not_fits h]
    rfl
  · unfold wrap
    rw [bind_fits h]
    show (checkNames check _ names).bind _ = _
    rw [checkNames_error hc]
    · rfl
    · obtain ⟨a, ha, v, h1, h2⟩ := hbad
      exact ⟨a, ha, v, (bound_lookup hs hk h a v).mpr h1, h2⟩
  · unfold wrap
    rw [bind_fits h]
    show (checkNames check _ names).bind _ = _
    rw [checkNames_ok]
    · rfl
    · exact fun a ha v hv => hgood a ha v ((bound_lookup hs hk h a v).mp hv)

/-- C64 for the two decorators: the function is called if and only if every named argument that is given is valid;
otherwise the outcome is a ValueError. -/
theorem decorators (kind : V → Kind) (names : List String) {sig : Sig} (hs : sig.params.Nodup)
    (f : List V → List (String × V) → Py R) (args : List V) {kw : List (String × V)} (hk : (kw.map Prod.fst).Nodup)
    (hfit : Fits sig args kw) :
    ((∀ a ∈ names, ∀ v, Given sig args kw a v → Valid1 (kind v)) →
      wrap (check1 ∘ kind) names sig f args kw = f args kw) ∧
    ((∃ a ∈ names, ∃ v, Given sig args kw a v ∧ ¬ Valid1 (kind v)) →
      wrap (check1 ∘ kind) names sig f args kw = .error .valueError) ∧
    ((∀ a ∈ names, ∀ v, Given sig args kw a v → Valid2 (kind v)) →
      wrap (check2 ∘ kind) names sig f args kw = f args kw) ∧
    ((∃ a ∈ names, ∃ v, Given sig args kw a v ∧ ¬ Valid2 (kind v)) →
      wrap (check2 ∘ kind) names sig f args kw = .error .valueError) := by
  have hc1 : ∀ v, (check1 ∘ kind) v = .ok () ∨ (check1 ∘ kind) v = .error .valueError := fun v => by
    by_cases h : Valid1 (kind v)
    · exact .inl ((check1_spec (kind v)).1.mpr h)
    · exact .inr ((check1_spec (kind v)).2 h)
  have hc2 : ∀ v, (check2 ∘ kind) v = .ok () ∨ (check2 ∘ kind) v = .error .valueError := fun v => by
    by_cases h : Valid2 (kind v)
    · exact .inl ((check2_spec (kind v)).1.mpr h)
    · exact .inr ((check2_spec (kind v)).2 h)
  obtain ⟨-, h1, h2⟩ := wrap_spec hc1 names hs f args hk
  obtain ⟨-, h3, h4⟩ := wrap_spec hc2 names hs f args hk
  refine ⟨fun h => h2 hfit fun a ha v hv => (check1_spec _).1.mpr (h a ha v hv), fun ⟨a, ha, v, hv, hn⟩ =>
    h1 hfit ⟨a, ha, v, hv, fun ho => hn ((check1_spec _).1.mp ho)⟩, fun h => h4 hfit fun a ha v hv =>
    (check2_spec _).1.mpr (h a ha v hv), fun ⟨a, ha, v, hv, hn⟩ =>
    h3 hfit ⟨a, ha, v, hv, fun ho => hn ((check2_spec _).1.mp ho)⟩⟩

/-- C64. It does not matter whether an argument is given by position or by name: the same values are checked. -/
theorem position_or_name {sig : Sig} {args : List V} {kw : List (String × V)} {a : String} {v : V}
    (hs : sig.params.Nodup) (ha : sig.params[args.length]? = some a) :
    (Fits sig (args ++ [v]) kw ↔ Fits sig args ((a, v) :: kw) ∧ ∀ p ∈ kw, p.1 ≠ a) ∧
    ∀ b w, Given sig (args ++ [v]) kw b w ↔ Given sig args ((a, v) :: kw) b w := by
  obtain ⟨hlt, hget⟩ := List.getElem?_eq_some_iff.mp ha
  have htake : sig.params.take (args.length + 1) = sig.params.take args.length ++ [a] := by
    rw [List.take_add_one, ha]
    rfl
  have hnot : a ∉ sig.params.take args.length := by
    have := (hs.sublist (List.take_sublist (args.length + 1) _))
    rw [htake, List.nodup_append] at this
    intro h
    exact this.2.2 a h a (by simp) rfl
  have hmem : a ∈ sig.params := List.mem_of_getElem? ha
  constructor
  · unfold Fits
    simp only [List.length_append, List.length_singleton, htake, List.mem_append, not_or, List.mem_cons,
      forall_eq_or_imp]
    constructor
    · rintro ⟨h1, h2⟩
      exact ⟨⟨by omega, ⟨hnot, .inr hmem⟩, fun p hp => ⟨(h2 p hp).1.1, (h2 p hp).2⟩⟩, fun p hp => (h2 p hp).1.2.1⟩
    · rintro ⟨⟨h1, _, h3⟩, h4⟩
      exact ⟨by omega, fun p hp => ⟨⟨(h3 p hp).1, h4 p hp, by simp⟩, (h3 p hp).2⟩⟩
  · intro b w
    unfold Given
    constructor
    · rintro (⟨i, h1, h2⟩ | ⟨h1, h2⟩)
      · by_cases hi : i < args.length
        · rw [List.getElem?_append_left hi] at h2
          exact .inl ⟨i, h1, h2⟩
        · have hlen := (List.getElem?_eq_some_iff.mp h2).1
          rw [List.length_append, List.length_singleton] at hlen
          have : i = args.length := by omega
          subst this
          rw [ha] at h1
          cases h1
          rw [List.getElem?_append_right (le_refl _)] at h2
          simp at h2
          subst h2
          exact .inr ⟨hmem, by simp⟩
      · exact .inr ⟨h1, List.mem_cons_of_mem _ h2⟩
    · rintro (⟨i, h1, h2⟩ | ⟨h1, h2⟩)
      · refine .inl ⟨i, h1, ?_⟩
        rw [List.getElem?_append_left (List.getElem?_eq_some_iff.mp h2).1]
        exact h2
      · rcases List.mem_cons.mp h2 with h3 | h3
        · cases h3
          exact .inl ⟨args.length, ha, by rw [List.getElem?_append_right (le_refl _)]; simp⟩
        · exact .inr ⟨h1, h3⟩

/-- The order of two stacked decorators (`metrics.py:22-23`, `91-92`) does not matter. -/
theorem wrap_comm {c1 c2 : V → Py Unit} {e : PyErr} (h1 : ∀ v, c1 v = .ok () ∨ c1 v = .error e)
    (h2 : ∀ v, c2 v = .ok () ∨ c2 v = .error e) (n1 n2 : List String) {sig : Sig} (hs : sig.params.Nodup)
    (f : List V → List (String × V) → Py R) (args : List V) {kw : List (String × V)} (hk : (kw.map Prod.fst).Nodup) :
    wrap c1 n1 sig (wrap c2 n2 sig f) args kw = wrap c2 n2 sig (wrap c1 n1 sig f) args kw := by
  by_cases hf : Fits sig args kw
  · have p1 := fun g : List V → List (String × V) → Py R => wrap_spec h1 n1 hs g args hk
    have p2 := fun g : List V → List (String × V) → Py R => wrap_spec h2 n2 hs g args hk
    by_cases b1 : ∃ a ∈ n1, ∃ v, Given sig args kw a v ∧ c1 v ≠ .ok ()
    · rw [(p1 _).2.1 hf b1]
      by_cases b2 : ∃ a ∈ n2, ∃ v, Given sig args kw a v ∧ c2 v ≠ .ok ()
      · rw [(p2 _).2.1 hf b2]
      · push Not at b2
        rw [(p2 _).2.2 hf b2, (p1 _).2.1 hf b1]
    · push Not at b1
      rw [(p1 _).2.2 hf b1]
      by_cases b2 : ∃ a ∈ n2, ∃ v, Given sig args kw a v ∧ c2 v ≠ .ok ()
      · rw [(p2 _).2.1 hf b2, (p2 _).2.1 hf b2]
      · push Not at b2
        rw [(p2 _).2.2 hf b2, (p2 _).2.2 hf b2, (p1 _).2.2 hf b1]
  · rw [(wrap_spec h1 n1 hs _ args hk).1 hf, (wrap_spec h2 n2 hs _ args hk).1 hf]

/-- Limits of C64. A name that is not a parameter checks nothing (a misspelt name in the decorator is silent), and an
argument that is left out is not checked (its default is used unchecked). -/
theorem unknown_name (check : V → Py Unit) {sig : Sig} {a : String} (ha : a ∉ sig.params)
    (f : List V → List (String × V) → Py R) (args : List V) {kw : List (String × V)}
    (hfit : Fits sig args kw) : wrap check [a] sig f args kw = f args kw := by
  unfold wrap
  rw [bind_fits hfit]
  show (checkNames check _ [a]).bind _ = _
  rw [checkNames_ok]
  · rfl
  · intro b hb v hv
    rw [List.mem_singleton] at hb
    subst hb
    have hm : (b, v) ∈ sig.params.zip args ++ kw.filter fun p => sig.params.contains p.1 := by
      revert hv
      generalize sig.params.zip args ++ kw.filter (fun p => sig.params.contains p.1) = l
      intro hv
      induction l with
      | nil => cases hv
      | cons p l ih =>
        obtain ⟨c, w⟩ := p
        rw [List.lookup_cons] at hv
        by_cases hbc : b = c
        · subst hbc
          simp at hv
          subst hv
          exact List.mem_cons_self
        · rw [beq_eq_false_iff_ne.mpr hbc] at hv
          exact List.mem_cons_of_mem _ (ih hv)
    rcases List.mem_append.mp hm with h | h
    · exact absurd (List.of_mem_zip h).1 ha
    · rw [List.mem_filter] at h
      have := h.2
      simp at this
      exact absurd this ha

/-- A frame without any row passes the check of the two-dimensional decorator. -/
theorem no_rows_accepted (c : Nat) (hc : 2 ≤ c) : check2 (.frame 0 c) = .ok () ∧ check2 (.array [0, c]) = .ok () :=
  ⟨(check2_spec _).1.mpr (.inr ⟨0, c, hc, .inl rfl⟩), (check2_spec _).1.mpr (.inr ⟨0, c, hc, .inr rfl⟩)⟩

/-- `gap_statistic(dist, labels, n_bootstraps)`, called with a valid table and labels by name: the call goes through. -/
example : Fits ⟨["dist", "labels", "n_bootstraps", "random_state"], false⟩ [Kind.frame 3 3] [("labels", .array [3])] ∧
    wrap check1 ["labels"] ⟨["dist", "labels", "n_bootstraps", "random_state"], false⟩
      (wrap check2 ["dist"] ⟨["dist", "labels", "n_bootstraps", "random_state"], false⟩ fun _ _ => Except.ok 5)
      [Kind.frame 3 3] [("labels", .array [3])] = .ok 5 ∧
    wrap check1 ["labels"] ⟨["dist", "labels", "n_bootstraps", "random_state"], false⟩ (fun _ _ => Except.ok 5)
      [Kind.frame 3 3] [("labels", .array [3, 1])] = .error .valueError := by
  refine ⟨⟨by decide, by simp⟩, ?_, ?_⟩ <;> rfl

/-! ### `to_numpy` -/

/-- The result is never a series or a frame, keeps the shape, and a second conversion changes nothing; valid arguments
stay valid. -/
theorem toNumpy_spec (k : Kind) : (∀ n, toNumpy k ≠ .series n) ∧ (∀ r c, toNumpy k ≠ .frame r c) ∧
    (toNumpy k).shape = k.shape ∧ toNumpy (toNumpy k) = toNumpy k ∧ (Valid1 k ↔ Valid1 (toNumpy k) ∧ ∀ r c, k ≠ .frame r c) ∧
    (Valid2 k ↔ Valid2 (toNumpy k) ∧ ∀ n, k ≠ .series n) := by
  unfold Valid1 Valid2
  cases k <;> simp [toNumpy, Kind.shape]

/-! ### `_custom_types.py` -/

variable {D : Type}

/-- An entry of the expected shape admits a length. -/
def Dim.Admits (e : Dim) (d : Nat) : Prop := e = .star ∨ e = .num d

theorem checkDims_ok_iff : ∀ (sh : List Nat) (es : List Dim), es.length = sh.length →
    (checkDims sh es = .ok () ↔ List.Forall₂ Dim.Admits es sh)
  | [], [], _ => by simp [checkDims]
  | d :: ds, .star :: es, h => by
    rw [checkDims, checkDims_ok_iff ds es (by simpa using h)]
    simp [Dim.Admits]
  | d :: ds, .num n :: es, h => by
    rw [checkDims]
    have ih := checkDims_ok_iff ds es (by simpa using h)
    by_cases hd : (d : Int) ≠ n
    · rw [if_pos hd]
      simp [Dim.Admits]
      intro hn
      exact absurd hn.symm hd
    · rw [if_neg hd, ih]
      push Not at hd
      simp [Dim.Admits, hd]
  | d :: ds, .bad :: es, h => by simp [checkDims, Dim.Admits]
  | [], _ :: _, h => by simp at h
  | _ :: _, [], h => by simp at h

/-- C64. The array annotation accepts exactly the arrays whose type can be cast and whose shape fits; the value comes back
unchanged (it is not cast). With a shape that is not a tuple every shape is accepted. -/
theorem array_accepts (canCast : D → D → Bool) (shape : ShapeArg) (dtype : Option D) (v w : Val D) :
    validateArray canCast shape dtype v = .ok w ↔ w = v ∧ ∃ dt sh, v = .array dt sh ∧ (∀ d, dtype = some d → canCast dt d = true) ∧
      ∀ es, shape = .tuple es → List.Forall₂ Dim.Admits es sh := by
  cases v with
  | frame r c => simp [validateArray]
  | series d n => simp [validateArray]
  | other => simp [validateArray]
  | array dt sh =>
    unfold validateArray
    dsimp only
    have hcast : castFails canCast dt dtype = true ↔
        ¬ ∀ d, dtype = some d → canCast dt d = true := by
      cases dtype <;> simp [castFails]
    by_cases hc : ∀ d, dtype = some d → canCast dt d = true
    · rw [if_neg (by rw [hcast]; exact not_not.mpr hc)]
      cases shape with
      | other =>
        constructor
        · intro h
          cases h
          exact ⟨rfl, dt, sh, rfl, hc, fun es h => by cases h⟩
        · rintro ⟨rfl, _⟩
          rfl
      | tuple es =>
        dsimp only
        by_cases hl : es.length ≠ sh.length
        · rw [if_pos hl]
          constructor
          · intro h; cases h
          · rintro ⟨_, dt', sh', h1, _, h3⟩
            cases h1
            exact absurd (h3 es rfl).length_eq hl
        · rw [if_neg hl]
          push Not at hl
          have key := checkDims_ok_iff sh es hl
          constructor
          · intro h
            cases hd : checkDims sh es with
            | error e => rw [hd] at h; cases h
            | ok u =>
              rw [hd] at h
              cases h
              refine ⟨rfl, dt, sh, rfl, hc, fun es' h' => ?_⟩
              cases h'
              exact key.mp hd
          · rintro ⟨rfl, dt', sh', h1, _, h3⟩
            cases h1
            rw [key.mpr (h3 es rfl)]
            rfl
    · rw [if_pos (hcast.mpr hc)]
      constructor
      · intro h; cases h
      · rintro ⟨_, dt', sh', h1, h2, _⟩
        cases h1
        exact absurd h2 hc

/-- Every rejection is a TypeError, except that an entry of the expected shape which is no number gives a ValueError. -/
theorem array_rejects (canCast : D → D → Bool) (shape : ShapeArg) (dtype : Option D) (v : Val D) {e : PyErr}
    (h : validateArray canCast shape dtype v = .error e) :
    e = .typeError ∨ (e = .valueError ∧ ∃ es, shape = .tuple es ∧ .bad ∈ es) := by
  have hdims : ∀ (sh : List Nat) (es : List Dim), checkDims sh es = .error e → e = .typeError ∨ (e = .valueError ∧ .bad ∈ es) := by
    intro sh
    induction sh with
    | nil => intro es h; simp [checkDims] at h
    | cons d ds ih =>
      intro es h
      cases es with
      | nil => simp [checkDims] at h
      | cons x es =>
        cases x with
        | star =>
          rw [checkDims] at h
          rcases ih es h with h | ⟨h, h'⟩
          · exact .inl h
          · exact .inr ⟨h, List.mem_cons_of_mem _ h'⟩
        | num n =>
          rw [checkDims] at h
          by_cases hd : (d : Int) ≠ n
          · rw [if_pos hd] at h; cases h; exact .inl rfl
          · rw [if_neg hd] at h
            rcases ih es h with h | ⟨h, h'⟩
            · exact .inl h
            · exact .inr ⟨h, List.mem_cons_of_mem _ h'⟩
        | bad =>
          rw [checkDims] at h
          cases h
          exact .inr ⟨rfl, by simp⟩
  cases v with
  | frame r c => cases h; exact .inl rfl
  | series d n => cases h; exact .inl rfl
  | other => cases h; exact .inl rfl
  | array dt sh =>
    unfold validateArray at h
    dsimp only at h
    by_cases hc : castFails canCast dt dtype = true
    · rw [if_pos hc] at h; cases h; exact .inl rfl
    · rw [if_neg hc] at h
      cases shape with
      | other => cases h
      | tuple es =>
        dsimp only at h
        by_cases hl : es.length ≠ sh.length
        · rw [if_pos hl] at h; cases h; exact .inl rfl
        · rw [if_neg hl] at h
          cases hd : checkDims sh es with
          | ok u => rw [hd] at h; cases h
          | error e' =>
            rw [hd] at h
            cases h
            rcases hdims sh es hd with h | ⟨h, h'⟩
            · exact .inl h
            · exact .inr ⟨h, es, rfl, h'⟩

variable [DecidableEq D]

theorem checkColumns_ok_iff (cols : List (String × D)) : ∀ l : List (String × D),
    checkColumns cols l = .ok () ↔ ∀ p ∈ l, cols.lookup p.1 = some p.2
  | [] => by simp [checkColumns]
  | (c, d) :: rest => by
    rw [checkColumns]
    cases hl : cols.lookup c with
    | none => simp [hl]
    | some d' =>
      dsimp only
      by_cases hd : d' ≠ d
      · rw [if_pos hd]
        simp [hl, hd]
      · rw [if_neg hd, checkColumns_ok_iff cols rest]
        push Not at hd
        simp [hl, hd]

theorem checkColumns_error (cols : List (String × D)) : ∀ (l : List (String × D)) {e : PyErr},
    checkColumns cols l = .error e → e = .typeError
  | [], e, h => by cases h
  | (c, d) :: rest, e, h => by
    rw [checkColumns] at h
    cases hl : cols.lookup c with
    | none => rw [hl] at h; cases h; rfl
    | some d' =>
      rw [hl] at h
      dsimp only at h
      by_cases hd : d' ≠ d
      · rw [if_pos hd] at h; cases h; rfl
      · rw [if_neg hd] at h
        exact checkColumns_error cols rest h

/-- The types of the columns fit: given types per column decide alone, otherwise the common type, if given. -/
def TypesFit (columns : ColumnsArg D) (dtype : Option D) (cols : List (String × D)) : Prop :=
  (∃ l, columns = .dict l ∧ ∀ p ∈ l, cols.lookup p.1 = some p.2) ∨
  (columns = .none_ ∧ ∀ d, dtype = some d → ∀ p ∈ cols, p.2 = d)

/-- The shape fits: `"*"`, or the exact pair of numbers; tuples, lists and strings of other lengths are not looked at. -/
def ShapeFits (shape : FrameShape) (r c : Nat) : Prop :=
  shape = .star ∨ shape = .tuple [.num r, .num c] ∨ (∃ l, shape = .tuple l ∧ l.length ≠ 2) ∨ ∃ n, shape = .sized n ∧ n ≠ 2

/-- C64. The frame annotation accepts exactly the frames whose column types and shape fit; the value comes back unchanged
and every rejection is a TypeError. -/
theorem frame_accepts (columns : ColumnsArg D) (dtype : Option D) (shape : FrameShape) (v : Val D) :
    (∀ w, validateFrame columns dtype shape v = .ok w ↔
      w = v ∧ ∃ r cols, v = .frame r cols ∧ TypesFit columns dtype cols ∧ ShapeFits shape r cols.length) ∧
    ∀ e, validateFrame columns dtype shape v = .error e → e = .typeError := by
  cases v with
  | array d s => simp [validateFrame, eq_comm]
  | series d n => simp [validateFrame, eq_comm]
  | other => simp [validateFrame, eq_comm]
  | frame r cols =>
    have hT : (checkTypes cols columns dtype = .ok () ∧ TypesFit columns dtype cols) ∨
        (checkTypes cols columns dtype = .error .typeError ∧ ¬ TypesFit columns dtype cols) := by
      unfold checkTypes
      unfold TypesFit
      cases columns with
      | other => right; simp
      | dict l =>
        dsimp only
        cases h : checkColumns cols l with
        | ok u => left; exact ⟨rfl, .inl ⟨l, rfl, (checkColumns_ok_iff cols l).mp h⟩⟩
        | error e =>
          right
          refine ⟨by rw [checkColumns_error cols l h], ?_⟩
          rintro (⟨l', h1, h2⟩ | ⟨h1, _⟩)
          · cases h1
            rw [(checkColumns_ok_iff cols l).mpr h2] at h
            cases h
          · cases h1
      | none_ =>
        cases dtype with
        | none => left; simp
        | some d =>
          dsimp only
          by_cases h : (cols.all fun p => decide (p.2 = d)) = true
          · rw [if_pos h]
            left
            refine ⟨rfl, .inr ⟨rfl, fun d' hd' p hp => ?_⟩⟩
            cases hd'
            simpa using List.all_eq_true.mp h p hp
          · rw [if_neg h]
            right
            refine ⟨rfl, ?_⟩
            rintro (⟨l', h1, _⟩ | ⟨_, h2⟩)
            · cases h1
            · exact h (List.all_eq_true.mpr fun p hp => by simpa using h2 d rfl p hp)
    have hS : (checkShape r cols.length shape = .ok () ∧ ShapeFits shape r cols.length) ∨
        (checkShape r cols.length shape = .error .typeError ∧ ¬ ShapeFits shape r cols.length) := by
      unfold checkShape
      unfold ShapeFits
      cases shape with
      | star => left; simp
      | unsized => right; simp
      | sized n =>
        by_cases h : n = 2
        · right; simp [h]
        · left; simp [h]
      | tuple l =>
        dsimp only
        by_cases hl : l.length = 2
        · obtain ⟨a, b, rfl⟩ : ∃ a b, l = [a, b] := by
            match l, hl with
            | [a, b], _ => exact ⟨a, b, rfl⟩
          cases a <;> cases b
          case num.num a b =>
            by_cases hab : (r : Int) = a ∧ (cols.length : Int) = b
            · left
              obtain ⟨rfl, rfl⟩ := hab
              simp [shapeEq]
            · right
              have : shapeEq r cols.length [.num a, .num b] = false := by
                unfold shapeEq
                exact decide_eq_false hab
              simp [this]
              rintro rfl rfl
              exact hab ⟨rfl, rfl⟩
          all_goals right; simp [shapeEq]
        · left
          simp [hl]
    unfold validateFrame
    dsimp only
    rcases hT with ⟨t1, t2⟩ | ⟨t1, t2⟩
    · rw [t1]
      rcases hS with ⟨s1, s2⟩ | ⟨s1, s2⟩
      · rw [s1]
        refine ⟨fun w => ⟨fun h => ?_, fun h => by rw [h.1]; rfl⟩, fun e h => by cases h⟩
        cases h
        exact ⟨rfl, r, cols, rfl, t2, s2⟩
      · rw [s1]
        refine ⟨fun w => ⟨(fun h => by cases h), fun ⟨_, r', c', h1, _, h3⟩ => ?_⟩, fun e h => by cases h; rfl⟩
        cases h1
        exact absurd h3 s2
    · rw [t1]
      refine ⟨fun w => ⟨(fun h => by cases h), fun ⟨_, r', c', h1, h2, _⟩ => ?_⟩, fun e h => by cases h; rfl⟩
      cases h1
      exact absurd h2 t2

/-- The wildcard works only as the whole shape: a tuple of two entries with a wildcard rejects every frame. -/
theorem frame_wildcard_rejects (columns : ColumnsArg D) (dtype : Option D) (a b : Dim) (h : a = .star ∨ b = .star) (v : Val D) :
    validateFrame columns dtype (.tuple [a, b]) v = .error .typeError := by
  obtain ⟨h1, h2⟩ := frame_accepts columns dtype (.tuple [a, b]) v
  cases hv : validateFrame columns dtype (.tuple [a, b]) v with
  | error e => rw [h2 e hv]
  | ok w =>
    obtain ⟨_, r, cols, _, _, h3⟩ := (h1 w).mp hv
    rcases h3 with h3 | h3 | ⟨l, h3, h4⟩ | ⟨n, h3, _⟩
    · cases h3
    · injection h3 with h3
      simp only [List.cons.injEq, and_true] at h3
      obtain ⟨rfl, rfl⟩ := h3
      rcases h with h | h <;> cases h
    · injection h3 with h3
      subst h3
      exact absurd rfl h4
    · cases h3

/-- Given `columns`, even an empty dictionary, the common type is not looked at. -/
theorem frame_dtype_ignored (l : List (String × D)) (d d' : Option D) (shape : FrameShape) (v : Val D) :
    validateFrame (.dict l) d shape v = validateFrame (.dict l) d' shape v := rfl

/-- C64. The series annotation accepts exactly the series of the given type and length; the value comes back unchanged
and every rejection is a TypeError. In particular it rejects every value that is not a series, which makes the annotation
of `DatetimeIndex` groups (`train_test_split/_dtypes.py:33`) unsatisfiable for an index. -/
theorem series_accepts (dtype : Option D) (shape : SeriesShape) (v : Val D) :
    (∀ w, validateSeries dtype shape v = .ok w ↔ w = v ∧ ∃ dt n, v = .series dt n ∧ (∀ d, dtype = some d → dt = d) ∧
      (shape = .star ∨ shape = .int n)) ∧
    ∀ e, validateSeries dtype shape v = .error e → e = .typeError := by
  cases v with
  | array d s => simp [validateSeries, eq_comm]
  | frame d n => simp [validateSeries, eq_comm]
  | other => simp [validateSeries, eq_comm]
  | series dt n =>
    unfold validateSeries
    dsimp only
    have hd : typeFails dt dtype = true ↔ ¬ ∀ d, dtype = some d → dt = d := by
      cases dtype <;> simp [typeFails]
    by_cases hc : ∀ d, dtype = some d → dt = d
    · rw [if_neg (by rw [hd]; exact not_not.mpr hc)]
      cases shape with
      | star =>
        refine ⟨fun w => ⟨fun h => ?_, fun h => by rw [h.1]⟩, fun e h => by cases h⟩
        cases h
        exact ⟨rfl, dt, n, rfl, hc, .inl rfl⟩
      | other => simp [eq_comm]
      | int k =>
        dsimp only
        by_cases hk : (n : Int) ≠ k
        · rw [if_pos hk]
          refine ⟨fun w => ⟨(fun h => by cases h), ?_⟩, fun e h => by cases h; rfl⟩
          rintro ⟨_, dt', n', h1, _, h3 | h3⟩
          · cases h3
          · cases h1
            injection h3 with h3
            exact absurd h3.symm hk
        · rw [if_neg hk]
          push Not at hk
          subst hk
          refine ⟨fun w => ⟨fun h => ?_, fun h => by rw [h.1]⟩, fun e h => by cases h⟩
          cases h
          exact ⟨rfl, dt, n, rfl, hc, .inr rfl⟩
    · rw [if_pos (hd.mpr hc)]
      refine ⟨fun w => ⟨(fun h => by cases h), ?_⟩, fun e h => by cases h; rfl⟩
      rintro ⟨_, dt', n', h1, h2, _⟩
      cases h1
      exact absurd h2 hc

/-- `BoundPerFoldType`: integer arrays with two columns (with the type names as strings). -/
example : validateArray (fun a b : String => a == b || (a == "int32" && b == "int64")) (.tuple [.star, .num 2]) (some "int64")
    (.array "int32" [7, 2]) = .ok (.array "int32" [7, 2]) ∧
    validateArray (fun a b : String => a == b) (.tuple [.star, .num 2]) (some "int64") (.array "int64" [7, 3]) = .error .typeError ∧
    validateFrame (.dict [("a", "f8")]) none (.tuple [.num 3, .num 2]) (.frame 3 [("b", "O"), ("a", "f8")]) =
      .ok (.frame 3 [("b", "O"), ("a", "f8")]) := ⟨rfl, rfl, rfl⟩

end Verif.Props.UtilValidate
