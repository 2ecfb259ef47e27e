import Verif.Model.Util
import Mathlib.Data.List.Nodup

/-!
# C72: the project root and the data set loaders
-/

namespace Verif.Props.UtilData

open Verif Util

/-! ### `get_project_root` -/

/-- For every place of installation: the root is three levels above the file; a relative path is appended to it. -/
theorem root_relative (isAbs : Bool) (base : List String) (a b c : String) :
    projectRoot ⟨isAbs, base ++ [a, b, c]⟩ none = ⟨isAbs, base⟩ ∧
    ∀ rel : List String, projectRoot ⟨isAbs, base ++ [a, b, c]⟩ (some ⟨false, rel⟩) = ⟨isAbs, base ++ rel⟩ := by
  have h : (⟨isAbs, base ++ [a, b, c]⟩ : PPath).parent.parent.parent = ⟨isAbs, base⟩ := by
    have e : base ++ [a, b, c] = ((base ++ [a]) ++ [b]) ++ [c] := by simp
    unfold PPath.parent
    dsimp only
    rw [e, List.dropLast_concat, List.dropLast_concat, List.dropLast_concat]
  unfold projectRoot
  dsimp only
  rw [h]
  exact ⟨rfl, fun rel => by simp [PPath.join]⟩

/-- An absolute path replaces the root, although the parameter is documented as relative. -/
theorem root_absolute (file : PPath) (parts : List String) : projectRoot file (some ⟨true, parts⟩) = ⟨true, parts⟩ := rfl

/-- The empty string gives the root, and a path in two steps is the path in one step. -/
theorem root_join (file p q : PPath) : projectRoot file (some (.ofComponents false [""])) = projectRoot file none ∧
    (projectRoot file (some p)).join q = projectRoot file (some (p.join q)) := by
  constructor
  · simp [projectRoot, PPath.ofComponents, PPath.join]
  · unfold projectRoot PPath.join
    dsimp only
    by_cases hq : q.isAbs = true
    · rw [if_pos hq, if_pos hq, if_pos hq]
    · rw [if_neg hq, if_neg hq]
      by_cases hp : p.isAbs = true
      · rw [if_pos hp, if_pos hp]
      · rw [if_neg hp, if_neg hp]
        simp

/-- `..` is not resolved: the path begins with the root and leaves it. -/
theorem root_dotdot (isAbs : Bool) (base : List String) (a b c x : String) :
    (projectRoot ⟨isAbs, base ++ [a, b, c]⟩ (some (.ofComponents false ["..", x]))).parts.take (base.length + 1) = base ++ [".."] := by
  have h := (root_relative isAbs base a b c).2 (["..", x].filter fun c => c ≠ "" && c ≠ ".")
  unfold PPath.ofComponents
  rw [h]
  have : ((["..", x].filter fun c => c ≠ "" && c ≠ ".")) = ".." :: [x].filter fun c => c ≠ "" && c ≠ "." := by
    rw [List.filter_cons_of_pos (by decide)]
  rw [this, List.append_cons, List.take_left' (by simp)]

/-! ### The loaders -/

variable {L V : Type}

/-- C72. A loader raises FileNotFoundError without touching the file when it is not there; otherwise it succeeds if and
only if the file can be read, and then returns the rows, in order and unchanged. -/
theorem load_outcome (env : Env) (s : Log) (ex : PPath → Bool) (read : PPath → Py (Frame L V)) (file : PPath) :
    let go (load : Env → Log → (PPath → Bool) → (PPath → Py (Frame L V)) → PPath → Loaded L V) (name : String) :=
      (ex (resource file name) = false → load env s ex read file = (.error .fileNotFoundError, [])) ∧
      (ex (resource file name) = true → ∀ e, read (resource file name) = .error e → (load env s ex read file).1 = .error e) ∧
      (ex (resource file name) = true → ∀ f, read (resource file name) = .ok f →
        ∃ g, (load env s ex read file).1 = .ok g ∧ g.rows = f.rows ∧ g.indexName = f.indexName ∧
          g.columns.length = f.columns.length)
    go loadVix "vix_ohlc.csv.gz" ∧ go loadTreasury "daily_treasury_rates.csv.gz" ∧ go loadEquity "multi_index_close.csv.gz" := by
  have key : ∀ (post : Frame L V → Frame L V) (p : PPath), (∀ f, (post f).rows = f.rows ∧ (post f).indexName = f.indexName ∧
      (post f).columns.length = f.columns.length) →
      (ex p = false → loadWith post env s ex read p = (.error .fileNotFoundError, [])) ∧
      (ex p = true → ∀ e, read p = .error e → (loadWith post env s ex read p).1 = .error e) ∧
      (ex p = true → ∀ f, read p = .ok f → ∃ g, (loadWith post env s ex read p).1 = .ok g ∧ g.rows = f.rows ∧
        g.indexName = f.indexName ∧ g.columns.length = f.columns.length) := by
    intro post p hpost
    refine ⟨fun h => ?_, fun h e he => ?_, fun h f hf => ?_⟩
    · unfold loadWith
      rw [if_neg (by simp [h])]
    · unfold loadWith
      rw [if_pos h, he]
    · refine ⟨post f, ?_, hpost f⟩
      unfold loadWith
      rw [if_pos h, hf]
  exact ⟨key id _ fun _ => ⟨rfl, rfl, rfl⟩, key (·.rename treasuryNames) _ fun f => ⟨rfl, rfl, by simp [Frame.rename]⟩,
    key id _ fun _ => ⟨rfl, rfl, rfl⟩⟩

/-- The data do not depend on the state of the logger, and messages are written only at verbosity `INFO` or below. -/
theorem load_logger (post : Frame L V → Frame L V) (env env' : Env) (s s' : Log) (ex : PPath → Bool)
    (read : PPath → Py (Frame L V)) (p : PPath) :
    (loadWith post env s ex read p).1 = (loadWith post env' s' ex read p).1 ∧
    (20 < effLevel env s → ∀ m ∈ (loadWith post env s ex read p).2, m = []) := by
  unfold loadWith
  have hq : 20 < effLevel env s → emit env s 20 = [] := by
    intro h
    have : ¬ effLevel env s ≤ 20 := by omega
    unfold emit enabled
    simp [this]
  by_cases h : ex p = true
  · rw [if_pos h, if_pos h]
    cases read p with
    | error e => exact ⟨rfl, fun hl m hm => by simp at hm; rw [hm, hq hl]⟩
    | ok f => exact ⟨rfl, fun hl m hm => by simp at hm; rw [hm, hq hl]⟩
  · rw [if_neg h, if_neg h]
    exact ⟨rfl, fun _ m hm => by simp at hm⟩

/-- The documented maturities. -/
def maturities : List String := ["1m", "2m", "3m", "4m", "6m", "1y", "2y", "3y", "5y", "7y", "10y", "20y", "30y"]

theorem lookup_mem {l : List (String × String)} {a b : String} (h : l.lookup a = some b) : (a, b) ∈ l := by
  induction l with
  | nil => cases h
  | cons p l ih =>
    obtain ⟨c, d⟩ := p
    rw [List.lookup_cons] at h
    by_cases hac : a = c
    · subst hac
      simp at h
      subst h
      exact List.mem_cons_self
    · rw [beq_eq_false_iff_ne.mpr hac] at h
      exact List.mem_cons_of_mem _ (ih h)

/-- C72. The renaming of the treasury columns keeps distinct columns distinct, as long as the file does not contain one of
the new names already; it leaves other columns alone, and a second renaming changes nothing. -/
theorem treasury_rename (f : Frame L V) (h : f.columns.Nodup) (hnew : ∀ c ∈ f.columns, c ∉ maturities ∧ c ≠ "DATE") :
    (f.rename treasuryNames).columns.Nodup ∧
    (∀ c ∈ f.columns, (∀ p ∈ treasuryNames, p.1 ≠ c) → c ∈ (f.rename treasuryNames).columns) ∧
    (f.rename treasuryNames).rename treasuryNames = f.rename treasuryNames := by
  have hvals : ∀ p ∈ treasuryNames, p.2 ∈ maturities ∨ p.2 = "DATE" := by decide
  have hinj : ∀ p ∈ treasuryNames, ∀ q ∈ treasuryNames, p.2 = q.2 → p.1 = q.1 := by decide
  have hfix : ∀ p ∈ treasuryNames, treasuryNames.lookup p.2 = none := by decide
  refine ⟨?_, ?_, ?_⟩
  · unfold Frame.rename
    dsimp only
    refine List.Nodup.map_on ?_ h
    intro x hx y hy hxy
    cases hlx : treasuryNames.lookup x with
    | none =>
      cases hly : treasuryNames.lookup y with
      | none => rw [hlx, hly] at hxy; exact hxy
      | some b =>
        rw [hlx, hly] at hxy
        have hb : x = b := hxy
        subst hb
        rcases hvals _ (lookup_mem hly) with h1 | h1
        · exact absurd h1 (hnew x hx).1
        · exact absurd h1 (hnew x hx).2
    | some a =>
      cases hly : treasuryNames.lookup y with
      | none =>
        rw [hlx, hly] at hxy
        have hb : a = y := hxy
        subst hb
        rcases hvals _ (lookup_mem hlx) with h1 | h1
        · exact absurd h1 (hnew a hy).1
        · exact absurd h1 (hnew a hy).2
      | some b =>
        rw [hlx, hly] at hxy
        exact hinj _ (lookup_mem hlx) _ (lookup_mem hly) hxy
  · intro c hc hp
    unfold Frame.rename
    refine List.mem_map.mpr ⟨c, hc, ?_⟩
    cases hl : treasuryNames.lookup c with
    | none => rfl
    | some b => exact absurd rfl (hp _ (lookup_mem hl))
  · unfold Frame.rename
    dsimp only
    rw [List.map_map]
    congr 1
    refine List.map_congr_left fun c _ => ?_
    show (treasuryNames.lookup ((treasuryNames.lookup c).getD c)).getD ((treasuryNames.lookup c).getD c) = _
    cases hl : treasuryNames.lookup c with
    | none => rw [Option.getD_none, hl]; rfl
    | some b => rw [Option.getD_some, hfix _ (lookup_mem hl)]; rfl

/-- C72. For every file with the header of the shipped one (whatever its rows): the columns are the documented maturities.
The index keeps the name `Date`, although the documentation and the renaming say `DATE`. -/
theorem treasury_header (env : Env) (s : Log) (ex : PPath → Bool) (read : PPath → Py (Frame L V)) (file : PPath)
    (rows : List (L × List V)) (he : ex (resource file "daily_treasury_rates.csv.gz") = true)
    (hr : read (resource file "daily_treasury_rates.csv.gz") = .ok ⟨"Date", ["1 Mo", "2 Mo", "3 Mo", "4 Mo", "6 Mo", "1 Yr",
      "2 Yr", "3 Yr", "5 Yr", "7 Yr", "10 Yr", "20 Yr", "30 Yr"], rows⟩) :
    (loadTreasury env s ex read file).1 = .ok ⟨"Date", maturities, rows⟩ := by
  unfold loadTreasury loadWith
  rw [if_pos he, hr]
  rfl

/-- A file system with the treasury file only. -/
example : let file : PPath := ⟨true, ["opt", "quantfinlib", "util", "_fs_utils.py"]⟩
    resource file "vix_ohlc.csv.gz" = ⟨true, ["opt", "quantfinlib", "datasets", "resources", "vix_ohlc.csv.gz"]⟩ ∧
    (loadVix (L := Nat) (V := Nat) ⟨30, [], 0⟩ Log.fresh (fun p => p = resource file "daily_treasury_rates.csv.gz")
      (fun _ => .ok ⟨"Date", ["1 Mo"], [(1, [2])]⟩) file).1 = .error .fileNotFoundError := by
  exact ⟨rfl, rfl⟩

end Verif.Props.UtilData
