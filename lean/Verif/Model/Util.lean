import Verif.Prelude

/-!
# `quantfinlib/util/*` and `quantfinlib/datasets/_dataloader.py`

The part of the standard library that is used (levels, handlers and loggers of `logging`, binding of arguments of
`inspect`, joining of paths of `pathlib`) is written down here. Text of messages is left out.
-/

namespace Verif.Util

/-! ### `_logging.py` -/

/-- The argument `verbosity`: an integer (a bool is one), a string, or anything else. -/
inductive LevelArg
  | int (n : Int)
  | str (s : String)
  | other

/-- `logging._nameToLevel` without levels added by `addLevelName`. -/
def nameToLevel : List (String × Int) :=
  [("CRITICAL", 50), ("FATAL", 50), ("ERROR", 40), ("WARN", 30), ("WARNING", 30), ("INFO", 20), ("DEBUG", 10), ("NOTSET", 0)]

/-- `logging._checkLevel`. -/
def checkLevel : LevelArg → Py Int
  | .int n => .ok n
  | .str s =>
    match nameToLevel.lookup s with
    | some n => .ok n
    | none => .error .valueError
  | .other => .error .typeError

/-- What a handler writes to: the console, a file, or something else (handlers of the user). -/
inductive Sink
  | console
  | file (path : String)
  | user
  deriving DecidableEq, Repr

/-- A handler object: its identity, its sink and its level. -/
structure Handler where
  id : Nat
  sink : Sink
  level : Int
  deriving DecidableEq, Repr

/-- The logger `quantfinlib` (`_logging.py:7`); `next` numbers the handlers that are created. -/
structure Log where
  level : Int
  handlers : List Handler
  propagate : Bool
  next : Nat
  deriving DecidableEq, Repr

/-- The logger after `_logging.py:7-8` has been executed. -/
def Log.fresh : Log := ⟨30, [], true, 0⟩

/-- `logger.addHandler`: nothing happens if the object is already there. -/
def Log.add (s : Log) (h : Handler) : Log := if h ∈ s.handlers then s else { s with handlers := s.handlers ++ [h] }

/-- `logger.removeHandler`. -/
def Log.remove (s : Log) (h : Handler) : Log := { s with handlers := s.handlers.erase h }

/-- Create a handler and add it. -/
def Log.addNew (s : Log) (k : Sink) (level : Int) : Log := { s with next := s.next + 1 }.add ⟨s.next, k, level⟩

/-- `configure_logger` (`_logging.py:11-42`) up to the last message; `openErr path` is the exception raised when the file
cannot be opened. -/
def configure (openErr : String → Option PyErr) (verbosity : LevelArg) (toFile : Bool) (path : String) (s : Log) :
    Py Unit × Log :=
  match checkLevel verbosity with
  | .error e => (.error e, s)
  | .ok n =>
    let s1 := { s with level := n }
    let s2 := s1.handlers.foldl Log.remove s1
    let s3 := s2.addNew .console n
    if toFile then
      match openErr path with
      | some e => (.error e, s3)
      | none => (.ok (), s3.addNew (.file path) n)
    else (.ok (), s3)

/-- The rest of `logging`: the root logger and `logging.disable`. -/
structure Env where
  rootLevel : Int
  rootHandlers : List Handler
  disable : Int

/-- Where a message is written: by a handler of the logger, by one of the root logger, or by `logging.lastResort`. -/
inductive Dest
  | own (h : Handler)
  | root (h : Handler)
  | lastResort
  deriving DecidableEq, Repr

/-- `Logger.getEffectiveLevel`. -/
def effLevel (env : Env) (s : Log) : Int := if s.level ≠ 0 then s.level else env.rootLevel

/-- `Logger.isEnabledFor`. -/
def enabled (env : Env) (s : Log) (l : Int) : Bool := decide (env.disable < l) && decide (effLevel env s ≤ l)

/-- A message of level `l`: `Logger._log` with `callHandlers`. -/
def emit (env : Env) (s : Log) (l : Int) : List Dest :=
  if enabled env s l then
    if s.handlers.length + (if s.propagate then env.rootHandlers.length else 0) = 0 then
      if 30 ≤ l then [.lastResort] else []
    else ((s.handlers.filter (·.level ≤ l)).map .own) ++
      (if s.propagate then (env.rootHandlers.filter (·.level ≤ l)).map .root else [])
  else []

/-- What can happen to the logger: a call of `configure_logger`, changes by the user, and the first import of
`quantfinlib.distance.distance_matrix`, which sets the level (`distance_matrix.py:22-23`). -/
inductive LogOp
  | configure (verbosity : LevelArg) (toFile : Bool) (path : String)
  | add (h : Handler)
  | remove (h : Handler)
  | setLevel (v : LevelArg)
  | setPropagate (b : Bool)
  | importDistance

/-- One event: its outcome and the logger afterwards. -/
def Log.step (openErr : String → Option PyErr) (s : Log) : LogOp → Py Unit × Log
  | .configure v f p => Util.configure openErr v f p s
  | .add h => (.ok (), s.add h)
  | .remove h => (.ok (), s.remove h)
  | .setLevel v =>
    match checkLevel v with
    | .error e => (.error e, s)
    | .ok n => (.ok (), { s with level := n })
  | .setPropagate b => (.ok (), { s with propagate := b })
  | .importDistance => (.ok (), { s with level := 30 })

/-- A history of events (an exception does not end it). -/
def Log.run (openErr : String → Option PyErr) (s : Log) (ops : List LogOp) : Log :=
  ops.foldl (fun s op => (s.step openErr op).2) s

/-! ### `_validate.py` -/

/-- What the checks see of an argument: `None`, a series with its length, a data frame or an array with its shape, or
anything else. -/
inductive Kind
  | none_
  | series (n : Nat)
  | frame (r c : Nat)
  | array (shape : List Nat)
  | other
  deriving DecidableEq, Repr

/-- `x.shape` for the types that have passed the type check. -/
def Kind.shape : Kind → List Nat
  | .none_ => []
  | .series n => [n]
  | .frame r c => [r, c]
  | .array sh => sh
  | .other => []

/-- `_check_dtype_series_or_array` (`_validate.py:11-13`). -/
def checkDtype1 : Kind → Py Unit
  | .series _ => .ok ()
  | .array _ => .ok ()
  | _ => .error .valueError

/-- `_check_ndim_shape_1Darray` (`_validate.py:16-20`). -/
def checkNdim1 (k : Kind) : Py Unit :=
  match k.shape with
  | [n] => if n < 2 then .error .valueError else .ok ()
  | _ => .error .valueError

/-- `_check_dtype_frame_or_array` (`_validate.py:47-49`). -/
def checkDtype2 : Kind → Py Unit
  | .frame _ _ => .ok ()
  | .array _ => .ok ()
  | _ => .error .valueError

/-- `_check_ndim_shape_2Darray` (`_validate.py:52-56`). -/
def checkNdim2 (k : Kind) : Py Unit :=
  match k.shape with
  | [_, c] => if c < 2 then .error .valueError else .ok ()
  | _ => .error .valueError

/-- The two checks of `validate_series_or_1Darray`, skipped for `None` (`_validate.py:36-38`). -/
def check1 (k : Kind) : Py Unit := if k = .none_ then .ok () else do checkDtype1 k; checkNdim1 k

/-- The two checks of `validate_frame_or_2Darray`, skipped for `None` (`_validate.py:72-74`). -/
def check2 (k : Kind) : Py Unit := if k = .none_ then .ok () else do checkDtype2 k; checkNdim2 k

/-- A signature: the names of the parameters (all can be given by position or by name), and whether there is a
`**kwargs`. Signatures with other kinds of parameters do not occur at decorated functions. -/
structure Sig where
  params : List String
  varKw : Bool

/-- `inspect.signature(func).bind_partial(*args, **kwargs).arguments`, without the entry for `**kwargs`. -/
def bindPartial {V : Type} (sig : Sig) (args : List V) (kw : List (String × V)) : Py (List (String × V)) :=
  if sig.params.length < args.length then .error .typeError
  else if kw.any fun p => (sig.params.take args.length).contains p.1 then .error .typeError
  else if !sig.varKw && kw.any fun p => !sig.params.contains p.1 then .error .typeError
  else .ok (sig.params.zip args ++ kw.filter fun p => sig.params.contains p.1)

/-- The loop over the names (`_validate.py:33-38`). -/
def checkNames {V : Type} (check : V → Py Unit) (bound : List (String × V)) : List String → Py Unit
  | [] => .ok ()
  | a :: rest => do
    match bound.lookup a with
    | some v => check v
    | none => .ok ()
    checkNames check bound rest

/-- The wrapper that both decorators build (`_validate.py:28-40`, `64-76`). -/
def wrap {V R : Type} (check : V → Py Unit) (names : List String) (sig : Sig) (f : List V → List (String × V) → Py R)
    (args : List V) (kw : List (String × V)) : Py R := do
  let bound ← bindPartial sig args kw
  checkNames check bound names
  f args kw

/-! ### `_dtypes.py` -/

/-- `to_numpy` (`_dtypes.py:13-17`), seen through the kinds. -/
def toNumpy : Kind → Kind
  | .series n => .array [n]
  | .frame r c => .array [r, c]
  | k => k

/-! ### `_custom_types.py` -/

/-- One entry of an expected shape: the wildcard, something `int` accepts, or something it rejects. -/
inductive Dim
  | star
  | num (n : Int)
  | bad
  deriving DecidableEq

/-- An expected shape: a tuple, or anything else (the string `"*"`, any other string, a list). -/
inductive ShapeArg
  | tuple (l : List Dim)
  | other

/-- The loop over the dimensions (`_custom_types.py:46-48`). -/
def checkDims : List Nat → List Dim → Py Unit
  | _ :: ds, .star :: es => checkDims ds es
  | d :: ds, .num n :: es => if (d : Int) ≠ n then .error .typeError else checkDims ds es
  | _ :: _, .bad :: _ => .error .valueError
  | _, _ => .ok ()

/-- A value as the validators see it. -/
inductive Val (D : Type)
  | array (dtype : D) (shape : List Nat)
  | frame (rows : Nat) (cols : List (String × D))
  | series (dtype : D) (len : Nat)
  | other

/-- The test of the type of an array (`_custom_types.py:38-39`); `none` is `Any`. -/
def castFails {D : Type} (canCast : D → D → Bool) (dt : D) : Option D → Bool
  | none => false
  | some d => !canCast dt d

/-- `validate_numpy_array` (`_custom_types.py:34-50`); `dtype = none` is `Any`, `canCast` is `np.can_cast`. -/
def validateArray {D : Type} (canCast : D → D → Bool) (shape : ShapeArg) (dtype : Option D) (v : Val D) : Py (Val D) :=
  match v with
  | .array dt sh =>
    if castFails canCast dt dtype then .error .typeError
    else
      match shape with
      | .tuple es =>
        if es.length ≠ sh.length then .error .typeError
        else do
          checkDims sh es
          .ok v
      | .other => .ok v
  | _ => .error .typeError

/-- The argument `shape` for data frames: `"*"`, a tuple, an object without a length, or a list or string of a given
length. -/
inductive FrameShape
  | star
  | tuple (l : List Dim)
  | sized (n : Nat)
  | unsized

/-- The argument `columns`: `None`, a dictionary, or anything else. -/
inductive ColumnsArg (D : Type)
  | none_
  | dict (l : List (String × D))
  | other

/-- The loop over the expected columns (`_custom_types.py:98-104`), for a frame with distinct column names. -/
def checkColumns {D : Type} [DecidableEq D] (cols : List (String × D)) : List (String × D) → Py Unit
  | [] => .ok ()
  | (c, d) :: rest =>
    match cols.lookup c with
    | none => .error .typeError
    | some d' => if d' ≠ d then .error .typeError else checkColumns cols rest

/-- `value.shape != self.shape` for a tuple. -/
def shapeEq (r c : Nat) : List Dim → Bool
  | [.num a, .num b] => decide ((r : Int) = a ∧ (c : Int) = b)
  | _ => false

/-- The tests of the types of the columns (`_custom_types.py:94-109`). -/
def checkTypes {D : Type} [DecidableEq D] (cols : List (String × D)) : ColumnsArg D → Option D → Py Unit
  | .dict l, _ => checkColumns cols l
  | .other, _ => .error .typeError
  | .none_, some d => if cols.all fun p => decide (p.2 = d) then .ok () else .error .typeError
  | .none_, none => .ok ()

/-- The test of the shape (`_custom_types.py:112-114`). -/
def checkShape (r c : Nat) : FrameShape → Py Unit
  | .star => .ok ()
  | .tuple l => if l.length = 2 ∧ shapeEq r c l = false then .error .typeError else .ok ()
  | .sized n => if n = 2 then .error .typeError else .ok ()
  | .unsized => .error .typeError

/-- `validate_dataframe` (`_custom_types.py:90-116`). -/
def validateFrame {D : Type} [DecidableEq D] (columns : ColumnsArg D) (dtype : Option D) (shape : FrameShape)
    (v : Val D) : Py (Val D) :=
  match v with
  | .frame r cols => do
    checkTypes cols columns dtype
    checkShape r cols.length shape
    .ok v
  | _ => .error .typeError

/-- The argument `shape` for series: `"*"`, an integer, or anything else. -/
inductive SeriesShape
  | star
  | int (n : Int)
  | other

/-- The test of the type of a series (`_custom_types.py:162-163`). -/
def typeFails {D : Type} [DecidableEq D] (dt : D) : Option D → Bool
  | none => false
  | some d => decide (dt ≠ d)

/-- `validate_series` (`_custom_types.py:157-172`). -/
def validateSeries {D : Type} [DecidableEq D] (dtype : Option D) (shape : SeriesShape) (v : Val D) : Py (Val D) :=
  match v with
  | .series dt n =>
    if typeFails dt dtype then .error .typeError
    else
      match shape with
      | .star => .ok v
      | .int k => if (n : Int) ≠ k then .error .typeError else .ok v
      | .other => .error .typeError
  | _ => .error .typeError

/-! ### `_fs_utils.py` -/

/-- A `PurePosixPath`: absolute or not, and its parts. -/
structure PPath where
  isAbs : Bool
  parts : List String
  deriving DecidableEq, Repr

/-- The path of a string already cut at the slashes: empty and `.` components are dropped. `isAbs` tells whether the
string begins with a slash. -/
def PPath.ofComponents (isAbs : Bool) (l : List String) : PPath := ⟨isAbs, l.filter fun c => c ≠ "" && c ≠ "."⟩

/-- `p.parent`. -/
def PPath.parent (p : PPath) : PPath := ⟨p.isAbs, p.parts.dropLast⟩

/-- `p / q`. -/
def PPath.join (p q : PPath) : PPath := if q.isAbs then q else ⟨p.isAbs, p.parts ++ q.parts⟩

/-- `get_project_root` (`_fs_utils.py:5-20`); `file` is `__file__`. -/
def projectRoot (file : PPath) (rel : Option PPath) : PPath :=
  match rel with
  | none => file.parent.parent.parent
  | some r => file.parent.parent.parent.join r

/-! ### `datasets/_dataloader.py` -/

/-- A data frame: the name of the index, the names of the columns, and the rows. -/
structure Frame (L V : Type) where
  indexName : String
  columns : List String
  rows : List (L × List V)

/-- The renaming of `load_treasury_rates` (`_dataloader.py:100-117`). -/
def treasuryNames : List (String × String) :=
  [("Date", "DATE"), ("1 Mo", "1m"), ("2 Mo", "2m"), ("3 Mo", "3m"), ("4 Mo", "4m"), ("6 Mo", "6m"), ("1 Yr", "1y"),
   ("2 Yr", "2y"), ("3 Yr", "3y"), ("5 Yr", "5y"), ("7 Yr", "7y"), ("10 Yr", "10y"), ("20 Yr", "20y"), ("30 Yr", "30y")]

/-- `df.rename(columns=mapping)`: the columns, not the index. -/
def Frame.rename {L V : Type} (f : Frame L V) (mapping : List (String × String)) : Frame L V :=
  { f with columns := f.columns.map fun c => (mapping.lookup c).getD c }

/-- The outcome of a loader: the result, where the messages went, in the order of the messages. -/
abbrev Loaded (L V : Type) := Py (Frame L V) × List (List Dest)

/-- The common shape of the three loaders: existence check, a message, reading with `_load_csv_gz_to_df`
(`_dataloader.py:15-19`, the parameter `read`), a step `post`, a message. -/
def loadWith {L V : Type} (post : Frame L V → Frame L V) (env : Env) (s : Log) (exists_ : PPath → Bool)
    (read : PPath → Py (Frame L V)) (path : PPath) : Loaded L V :=
  if exists_ path then
    match read path with
    | .error e => (.error e, [emit env s 20])
    | .ok f => (.ok (post f), [emit env s 20, emit env s 20])
  else (.error .fileNotFoundError, [])

/-- The paths of the three files (`_dataloader.py:10-12`). -/
def resource (file : PPath) (name : String) : PPath :=
  projectRoot file (some (.ofComponents false ["quantfinlib", "datasets", "resources", name]))

/-- `load_vix` (`_dataloader.py:22-62`). -/
def loadVix {L V : Type} (env : Env) (s : Log) (exists_ : PPath → Bool) (read : PPath → Py (Frame L V)) (file : PPath) :
    Loaded L V := loadWith id env s exists_ read (resource file "vix_ohlc.csv.gz")

/-- `load_treasury_rates` (`_dataloader.py:65-122`). -/
def loadTreasury {L V : Type} (env : Env) (s : Log) (exists_ : PPath → Bool) (read : PPath → Py (Frame L V)) (file : PPath) :
    Loaded L V := loadWith (·.rename treasuryNames) env s exists_ read (resource file "daily_treasury_rates.csv.gz")

/-- `load_equity_indices` (`_dataloader.py:125-195`). -/
def loadEquity {L V : Type} (env : Env) (s : Log) (exists_ : PPath → Bool) (read : PPath → Py (Frame L V)) (file : PPath) :
    Loaded L V := loadWith id env s exists_ read (resource file "multi_index_close.csv.gz")

end Verif.Util
