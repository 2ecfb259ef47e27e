import Verif.Model.Util

/-!
# C63: the configuration of the logger

Whatever happened to the logger before (any history of configurations, handlers of the user, imports), a successful call of
`configure_logger` leaves exactly the handlers it asks for, and every message at or above the verbosity is written exactly
once to each of them.
-/

namespace Verif.Props.UtilLog

open Verif Util

theorem fold_remove (l : List Handler) : ∀ s : Log, (l.foldl Log.remove s) = { s with handlers := l.foldl List.erase s.handlers } := by
  induction l with
  | nil => intro s; rfl
  | cons h l ih =>
    intro s
    rw [List.foldl_cons, ih]
    rfl

theorem erase_all (l : List Handler) : l.foldl List.erase l = [] := by
  induction l with
  | nil => rfl
  | cons h l ih => rw [List.foldl_cons, List.erase_cons_head]; exact ih

/-- A level that `setLevel` accepts, and its number. -/
def Level (v : LevelArg) (n : Int) : Prop :=
  v = .int n ∨ ∃ s, v = .str s ∧ (s, n) ∈ nameToLevel

theorem level_iff (v : LevelArg) (n : Int) : checkLevel v = .ok n ↔ Level v n := by
  unfold Level
  cases v with
  | int m => simp [checkLevel]
  | other => simp [checkLevel]
  | str s =>
    have key : nameToLevel.lookup s = some n ↔ (s, n) ∈ nameToLevel := by
      unfold nameToLevel
      simp only [List.lookup_cons, List.lookup_nil, List.mem_cons, Prod.mk.injEq, List.not_mem_nil, or_false]
      by_cases h1 : s = "CRITICAL"
      · subst h1; simp [eq_comm]
      by_cases h2 : s = "FATAL"
      · subst h2; simp [eq_comm]
      by_cases h3 : s = "ERROR"
      · subst h3; simp [eq_comm]
      by_cases h4 : s = "WARN"
      · subst h4; simp [eq_comm]
      by_cases h5 : s = "WARNING"
      · subst h5; simp [eq_comm]
      by_cases h6 : s = "INFO"
      · subst h6; simp [eq_comm]
      by_cases h7 : s = "DEBUG"
      · subst h7; simp [eq_comm]
      by_cases h8 : s = "NOTSET"
      · subst h8; simp [eq_comm]
      rw [beq_eq_false_iff_ne.mpr h1, beq_eq_false_iff_ne.mpr h2, beq_eq_false_iff_ne.mpr h3, beq_eq_false_iff_ne.mpr h4,
        beq_eq_false_iff_ne.mpr h5, beq_eq_false_iff_ne.mpr h6, beq_eq_false_iff_ne.mpr h7, beq_eq_false_iff_ne.mpr h8]
      simp [h1, h2, h3, h4, h5, h6, h7, h8]
    unfold checkLevel
    dsimp only
    cases hl : nameToLevel.lookup s with
    | none =>
      rw [hl] at key
      simpa using key
    | some m =>
      rw [hl] at key
      simpa using key

theorem configure_eq (openErr : String → Option PyErr) {v : LevelArg} {n : Int} (hv : checkLevel v = .ok n) (f : Bool) (p : String)
    (s : Log) : configure openErr v f p s =
      if f then
        match openErr p with
        | some e => (.error e, ⟨n, [⟨s.next, .console, n⟩], s.propagate, s.next + 1⟩)
        | none => (.ok (), ⟨n, [⟨s.next, .console, n⟩, ⟨s.next + 1, .file p, n⟩], s.propagate, s.next + 2⟩)
      else (.ok (), ⟨n, [⟨s.next, .console, n⟩], s.propagate, s.next + 1⟩) := by
  unfold configure
  rw [hv]
  dsimp only
  rw [fold_remove]
  dsimp only
  rw [erase_all]
  have e1 : Log.addNew ⟨n, [], s.propagate, s.next⟩ .console n = ⟨n, [⟨s.next, .console, n⟩], s.propagate, s.next + 1⟩ := by
    simp [Log.addNew, Log.add]
  rw [e1]
  have e2 : Log.addNew ⟨n, [⟨s.next, .console, n⟩], s.propagate, s.next + 1⟩ (.file p) n =
      ⟨n, [⟨s.next, .console, n⟩, ⟨s.next + 1, .file p, n⟩], s.propagate, s.next + 2⟩ := by
    simp [Log.addNew, Log.add]
  rw [e2]
  cases f <;> cases openErr p <;> rfl

/-- C63. A call succeeds if and only if the verbosity is a level and, if a file is asked for, the file can be opened. -/
theorem configure_ok_iff (openErr : String → Option PyErr) (v : LevelArg) (f : Bool) (p : String) (s : Log) :
    (configure openErr v f p s).1 = .ok () ↔ (∃ n, Level v n) ∧ (f = true → openErr p = none) := by
  cases hv : checkLevel v with
  | error e =>
    have h1 : (configure openErr v f p s).1 = .error e := by unfold configure; rw [hv]
    rw [h1]
    constructor
    · intro h; cases h
    · rintro ⟨⟨n, hn⟩, _⟩
      rw [(level_iff v n).mpr hn] at hv
      cases hv
  | ok n =>
    rw [configure_eq openErr hv]
    have hn := (level_iff v n).mp hv
    cases f with
    | false => simp; exact ⟨n, hn⟩
    | true =>
      cases ho : openErr p with
      | none => simp; exact ⟨n, hn⟩
      | some e => simp

/-- The handlers that a configuration asks for, without their identities. -/
def wanted (n : Int) (f : Bool) (p : String) : List (Sink × Int) :=
  (.console, n) :: if f then [(.file p, n)] else []

/-- C63. After a successful call the logger has exactly the console handler and, if asked for, the file handler, both with
the level of the call, whatever the history before; the handlers are new objects. -/
theorem configure_handlers (openErr : String → Option PyErr) (s0 : Log) (hist : List LogOp) (v : LevelArg) (n : Int)
    (hv : Level v n) (f : Bool) (p : String)
    (h : (configure openErr v f p (s0.run openErr hist)).1 = .ok ()) :
    let s := (configure openErr v f p (s0.run openErr hist)).2
    s.level = n ∧ s.handlers.map (fun h => (h.sink, h.level)) = wanted n f p ∧
      (∀ h ∈ s.handlers, (s0.run openErr hist).next ≤ h.id) ∧ (s.handlers.map Handler.id).Nodup := by
  have hv := (level_iff v n).mpr hv
  have he := configure_eq openErr hv f p (s0.run openErr hist)
  cases f with
  | false =>
    rw [if_neg (by simp)] at he
    rw [he]
    simp [wanted]
  | true =>
    have ho : openErr p = none := ((configure_ok_iff openErr v true p _).mp h).2 rfl
    rw [if_pos rfl, ho] at he
    rw [he]
    simp [wanted]

/-- C63. A second identical call changes nothing but the identities of the handlers. -/
theorem configure_twice (openErr : String → Option PyErr) (v : LevelArg) (f : Bool) (p : String) (s : Log) :
    let once := configure openErr v f p s
    let twice := configure openErr v f p once.2
    twice.1 = once.1 ∧ twice.2.level = once.2.level ∧ (once.1 = .ok () →
      twice.2.handlers.map (fun h => (h.sink, h.level)) = once.2.handlers.map fun h => (h.sink, h.level)) := by
  cases hv : checkLevel v with
  | error e =>
    have h1 : ∀ s, configure openErr v f p s = (.error e, s) := by intro s; unfold configure; rw [hv]
    simp [h1]
  | ok n =>
    simp only [configure_eq openErr hv]
    cases f with
    | false => simp
    | true =>
      cases ho : openErr p with
      | none => simp
      | some e => simp

/-- C63. A bad verbosity changes nothing. -/
theorem configure_bad_level (openErr : String → Option PyErr) {v : LevelArg} (hv : ¬ ∃ n, Level v n) (f : Bool) (p : String)
    (s : Log) : (configure openErr v f p s).2 = s ∧
      ((configure openErr v f p s).1 = .error .typeError ∨ (configure openErr v f p s).1 = .error .valueError) := by
  cases hc : checkLevel v with
  | ok n => exact absurd ⟨n, (level_iff v n).mp hc⟩ hv
  | error e =>
    have h1 : configure openErr v f p s = (.error e, s) := by unfold configure; rw [hc]
    rw [h1]
    refine ⟨rfl, ?_⟩
    unfold checkLevel at hc
    cases v with
    | int m => cases hc
    | other => cases hc; exact .inl rfl
    | str w =>
      dsimp only at hc
      cases hl : nameToLevel.lookup w with
      | some m => rw [hl] at hc; cases hc
      | none => rw [hl] at hc; cases hc; exact .inr rfl

/-- A file that cannot be opened: the exception comes after the old handlers are gone; the console handler is in place. -/
theorem configure_bad_file (openErr : String → Option PyErr) {v : LevelArg} {n : Int} (hv : Level v n) {p : String} {e : PyErr}
    (ho : openErr p = some e) (s : Log) : (configure openErr v true p s).1 = .error e ∧
      (configure openErr v true p s).2.level = n ∧
      (configure openErr v true p s).2.handlers.map (fun h => (h.sink, h.level)) = wanted n false p := by
  rw [configure_eq openErr ((level_iff v n).mpr hv), if_pos rfl, ho]
  simp [wanted]

/-- How often a message is written to a sink by the handlers of the logger. -/
def copies (ds : List Dest) (k : Sink) : Nat :=
  ds.countP fun d =>
    match d with
    | .own h => h.sink = k
    | _ => false

/-- C63. After a successful call with a verbosity other than `NOTSET`, in every history: a message is written to the
console exactly once if its level is at least the verbosity, and not otherwise; the same for the file if one was asked for;
and to no other file. -/
theorem message_once (env : Env) (openErr : String → Option PyErr) (s0 : Log) (hist : List LogOp) (v : LevelArg) (n : Int)
    (hv : Level v n) (hn : n ≠ 0) (f : Bool) (p : String)
    (h : (configure openErr v f p (s0.run openErr hist)).1 = .ok ()) (l : Int) (hl : env.disable < l) :
    let out := emit env (configure openErr v f p (s0.run openErr hist)).2 l
    copies out .console = (if n ≤ l then 1 else 0) ∧
    (∀ q, copies out (.file q) = if n ≤ l ∧ f = true ∧ q = p then 1 else 0) ∧ copies out .user = 0 := by
  have hv := (level_iff v n).mpr hv
  have hroot : ∀ (g : Dest → Bool) (l : List Handler), (∀ h, g (.root h) = false) → (l.map Dest.root).countP g = 0 := by
    intro g l hg
    rw [List.countP_map, List.countP_eq_zero]
    intro a _
    simp [hg]
  have he := configure_eq openErr hv f p (s0.run openErr hist)
  have main : ∀ (b : Bool) (nx : Nat) (hs : List Handler), (∀ h ∈ hs, h.level = n) → hs ≠ [] → ∀ k,
      copies (emit env ⟨n, hs, b, nx⟩ l) k = if n ≤ l then hs.countP (fun h => h.sink = k) else 0 := by
    intro b nx hs h1 h2 k
    unfold emit enabled effLevel
    dsimp only
    rw [if_pos hn, decide_eq_true hl]
    by_cases hnl : n ≤ l
    · rw [if_pos hnl, if_pos (by simp [hnl]), if_neg (by
        have : 0 < hs.length := List.length_pos_of_ne_nil h2
        omega)]
      have hfil : hs.filter (fun h => decide (h.level ≤ l)) = hs :=
        List.filter_eq_self.mpr fun a ha => by simp [h1 a ha, hnl]
      unfold copies
      rw [hfil, List.countP_append, List.countP_map]
      have : List.countP (fun d => match d with | .own h => decide (h.sink = k) | _ => false)
          (if b = true then List.map Dest.root (List.filter (fun x => decide (x.level ≤ l)) env.rootHandlers) else []) = 0 := by
        split
        · exact hroot _ _ fun _ => rfl
        · rfl
      rw [this]
      rfl
    · rw [if_neg hnl, if_neg (by simp [hnl])]
      rfl
  cases f with
  | false =>
    rw [if_neg (by simp)] at he
    rw [he]
    dsimp only
    refine ⟨?_, fun q => ?_, ?_⟩
    all_goals rw [main _ _ _ (by simp) (by simp)]
    all_goals simp
  | true =>
    have ho : openErr p = none := ((configure_ok_iff openErr v true p _).mp h).2 rfl
    rw [if_pos rfl, ho] at he
    rw [he]
    dsimp only
    refine ⟨?_, fun q => ?_, ?_⟩
    all_goals rw [main _ _ _ (by simp) (by simp)]
    · simp
    · by_cases hq : q = p
      · subst hq; simp
      · have : p ≠ q := fun h => hq h.symm
        simp [hq, this]
    · simp

/-- The limits of C63. With `NOTSET`, which asks for everything, the level of the root logger decides: messages below it
are not written. A message is also written by the handlers of the root logger if there are any. -/
theorem notset_silent (env : Env) (openErr : String → Option PyErr) (s : Log) (p : String) (l : Int) (hl : l < env.rootLevel) :
    emit env (configure openErr (.int 0) false p s).2 l = [] := by
  rw [configure_eq openErr (n := 0) rfl, if_neg (by simp)]
  unfold emit enabled effLevel
  simp
  omega

theorem root_duplicates (env : Env) (openErr : String → Option PyErr) (s : Log) (hp : s.propagate = true) (p : String)
    {n l : Int} (hn : n ≠ 0) (hl : n ≤ l) (hd : env.disable < l) (r : Handler) (hr : r ∈ env.rootHandlers) (hrl : r.level ≤ l) :
    Dest.root r ∈ emit env (configure openErr (.int n) false p s).2 l ∧
    ∃ h, Dest.own h ∈ emit env (configure openErr (.int n) false p s).2 l ∧ h.sink = .console := by
  rw [configure_eq openErr (n := n) rfl, if_neg (by simp)]
  unfold emit enabled effLevel
  simp [hn, hl, hd, hp, hr, hrl]

/-- The limit of C63. Importing the distance module after a configuration sets the level back to `WARNING`: messages that
were asked for are lost although the handlers would write them. -/
theorem import_resets (env : Env) (openErr : String → Option PyErr) (s : Log) (p : String) {n l : Int}
    (hl : l < 30) :
    emit env (((configure openErr (.int n) false p s).2.step openErr .importDistance).2) l = [] ∧
    (((configure openErr (.int n) false p s).2.step openErr .importDistance).2).handlers =
      (configure openErr (.int n) false p s).2.handlers := by
  refine ⟨?_, rfl⟩
  unfold Log.step emit enabled effLevel
  simp
  omega

/-- Before any configuration and without handlers of the root logger, warnings go to the handler of last resort and
information goes nowhere. -/
theorem unconfigured (env : Env) (hr : env.rootHandlers = []) (l : Int) (hd : env.disable < l) :
    emit env Log.fresh l = if 30 ≤ l then [.lastResort] else [] := by
  unfold emit enabled effLevel Log.fresh
  by_cases h : 30 ≤ l <;> simp [hr, hd, h]

/-- A history with a handler of the user and three configurations, of which the second fails. -/
example : let openErr : String → Option PyErr := fun p => if p = "/no/such.log" then some .fileNotFoundError else none
    (Log.fresh.run openErr [.configure (.str "INFO") true "a.log", .add ⟨77, .user, 0⟩, .configure (.int 10) true "/no/such.log",
      .importDistance, .configure (.str "DEBUG") true "b.log"]).handlers.map (fun h => (h.sink, h.level)) =
      [(.console, 10), (.file "b.log", 10)] := by decide

end Verif.Props.UtilLog
