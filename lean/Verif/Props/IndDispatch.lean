import Verif.Model.Indicators

/-!
# C54: arrays in, arrays out; series in, series out; nothing else
-/

namespace Verif.Props.IndDispatch

open Verif Ind

variable {ι : Type}

/-- The values of an argument. -/
def vals : Arg ι → Ser
  | .nd v => v
  | .ser _ v => v
  | .other => []

def IsNd : Arg ι → Prop
  | .nd _ => True
  | _ => False

def IsSer : Arg ι → Prop
  | .ser _ _ => True
  | _ => False

theorem npArgs_other {args : List (Arg ι)} (h : Arg.other ∈ args) : npArgs args = .error .typeError := by
  induction args with
  | nil => cases h
  | cons a l ih =>
    cases a with
    | other => rfl
    | nd v =>
      rw [npArgs, ih (by simpa using h)]
      rfl
    | ser i v =>
      rw [npArgs, ih (by simpa using h)]

theorem npArgs_ok {args : List (Arg ι)} (h : Arg.other ∉ args) :
    ∃ np, npArgs args = .ok np ∧ np.length ≤ args.length ∧ (np.length = 0 ↔ ∀ a ∈ args, IsSer a) ∧
      (np.length = args.length ↔ ∀ a ∈ args, IsNd a) := by
  induction args with
  | nil => exact ⟨[], rfl, le_rfl, by simp, by simp⟩
  | cons a l ih =>
    obtain ⟨np, h1, h2, h3, h4⟩ := ih fun hm => h (List.mem_cons_of_mem _ hm)
    cases a with
    | other => exact absurd List.mem_cons_self h
    | nd v =>
      refine ⟨v :: np, by rw [npArgs, h1]; rfl, by simpa using h2, ?_, ?_⟩
      · simp [IsSer]
      · simpa [IsNd] using h4
    | ser i v =>
      refine ⟨np, by rw [npArgs, h1], by simp; omega, ?_, ?_⟩
      · simpa [IsSer] using h3
      · constructor
        · intro he
          simp only [List.length_cons] at he
          omega
        · intro hall
          exact absurd (hall _ List.mem_cons_self) (by simp [IsNd])

theorem map_nd (e : Py (ι × Ser)) : (e.map fun r => Arg.nd (ι := ι) r.2).map vals = e.map Prod.snd := by
  rcases e with e | r <;> rfl

/-- Arguments that are neither array nor series, or a mixture of both: TypeError, whatever the function would do (it is not
called). -/
theorem dispatch_reject (rng : Nat → ι) (func : List (ι × Ser) → Py (ι × Ser)) {args : List (Arg ι)}
    (h : Arg.other ∈ args ∨ ((∃ a ∈ args, IsNd a) ∧ ∃ a ∈ args, IsSer a)) :
    numpyIoSupport rng func args = .error .typeError := by
  by_cases ho : Arg.other ∈ args
  · rw [numpyIoSupport, npArgs_other ho]
    rfl
  · obtain ⟨⟨a, ha, hna⟩, b, hb, hsb⟩ := h.resolve_left ho
    obtain ⟨np, h1, -, h3, h4⟩ := npArgs_ok ho
    rw [numpyIoSupport, h1]
    show (if np.length = 0 then _ else _) = _
    rw [if_neg, if_neg]
    · intro he
      have := h4.1 he b hb
      cases b <;> simp_all [IsNd, IsSer]
    · intro he
      have := h3.1 he a ha
      cases a <;> simp_all [IsNd, IsSer]

/-- Series: the function sees exactly the given series and its result, or its exception, is passed through. -/
theorem dispatch_series (rng : Nat → ι) (func : List (ι × Ser) → Py (ι × Ser)) (args : List (ι × Ser)) :
    numpyIoSupport rng func (args.map fun p => .ser p.1 p.2) = (func args).map fun r => .ser r.1 r.2 := by
  have ho : Arg.other ∉ args.map fun p => Arg.ser p.1 p.2 := by simp
  obtain ⟨np, h1, -, h3, -⟩ := npArgs_ok ho
  rw [numpyIoSupport, h1]
  show (if np.length = 0 then _ else _) = _
  rw [if_pos (h3.2 fun a ha => by obtain ⟨p, -, rfl⟩ := List.mem_map.1 ha; trivial), List.map_map]
  have : (args.map (toSer rng ∘ fun p => Arg.ser p.1 p.2)) = args := by
    conv_rhs => rw [← List.map_id args]
    rfl
  rw [this]
  rcases func args with e | r <;> rfl

/-- Arrays: the function sees them as series over `0 … n-1`, and the values of its result are returned as an array. -/
theorem dispatch_arrays (rng : Nat → ι) (func : List (ι × Ser) → Py (ι × Ser)) {args : List Ser} (h : args ≠ []) :
    numpyIoSupport rng func (args.map .nd) = (func (args.map fun v => (rng v.length, v))).map fun r => .nd r.2 := by
  have ho : Arg.other ∉ args.map (Arg.nd (ι := ι)) := by simp
  obtain ⟨np, h1, -, h3, h4⟩ := npArgs_ok ho
  have hn : np.length = (args.map (Arg.nd (ι := ι))).length := h4.2 fun a ha => by obtain ⟨p, -, rfl⟩ := List.mem_map.1 ha; trivial
  rw [numpyIoSupport, h1]
  show (if np.length = 0 then _ else _) = _
  rw [if_neg, if_pos hn, List.map_map]
  · have : (args.map (toSer rng ∘ Arg.nd)) = args.map fun v => (rng v.length, v) := rfl
    rw [this]
    rcases func (args.map fun v => (rng v.length, v)) with e | r <;> rfl
  · rw [hn]
    simpa using h

/-- Success tells the kind: the result is an array exactly if all arguments are arrays, otherwise a series and all arguments
are series. -/
theorem dispatch_kind {rng : Nat → ι} {func : List (ι × Ser) → Py (ι × Ser)} {args : List (Arg ι)} {out : Arg ι}
    (h : numpyIoSupport rng func args = .ok out) :
    (IsNd out ∧ ∀ a ∈ args, IsNd a) ∨ (IsSer out ∧ ∀ a ∈ args, IsSer a) := by
  by_cases ho : Arg.other ∈ args
  · rw [dispatch_reject rng func (.inl ho)] at h
    cases h
  · obtain ⟨np, h1, -, h3, h4⟩ := npArgs_ok ho
    rw [numpyIoSupport, h1] at h
    change (if np.length = 0 then _ else _) = _ at h
    by_cases hz : np.length = 0
    · rw [if_pos hz] at h
      rcases hf : func (args.map (toSer rng)) with e | r
      · rw [hf] at h; cases h
      · rw [hf] at h; cases h
        exact .inr ⟨trivial, h3.1 hz⟩
    · rw [if_neg hz] at h
      by_cases hl : np.length = args.length
      · rw [if_pos hl] at h
        rcases hf : func (args.map (toSer rng)) with e | r
        · rw [hf] at h; cases h
        · rw [hf] at h; cases h
          exact .inl ⟨trivial, h4.1 hl⟩
      · rw [if_neg hl] at h
        cases h

/-- For a function that works position by position (all indicators: the values of the result depend on the values of the
arguments only) arrays and series give the same values and the same exceptions. -/
theorem dispatch_same_values (rng : Nat → ι) {func : List (ι × Ser) → Py (ι × Ser)} {F : List Ser → Py Ser}
    (hF : ∀ args, (func args).map Prod.snd = F (args.map Prod.snd)) {args : List (ι × Ser)} (h : args ≠ []) :
    (numpyIoSupport rng func (args.map fun p => .ser p.1 p.2)).map vals = F (args.map Prod.snd) ∧
      (numpyIoSupport rng func (args.map fun p => .nd p.2)).map vals = F (args.map Prod.snd) := by
  constructor
  · rw [dispatch_series, ← hF]
    rcases func args with e | r <;> rfl
  · have e : (args.map fun p => Arg.nd (ι := ι) p.2) = (args.map Prod.snd).map .nd := by
      rw [List.map_map]
      rfl
    rw [e, dispatch_arrays rng func (by simpa using h)]
    have := hF ((args.map Prod.snd).map fun v => (rng v.length, v))
    rw [List.map_map, List.map_map] at this
    rw [show (args.map Prod.snd) = args.map (Prod.snd ∘ (fun v => (rng v.length, v)) ∘ Prod.snd) from rfl, ← this,
      List.map_map]
    exact map_nd _

/-- Concrete case: the true range of three one-bar arrays, and of a mixture. -/
example : numpyIoSupport (fun n => List.range n) (fun _ => .ok ([0], [.fin 1]))
      [.nd [.fin 2], .nd [.fin 1], .nd [.fin 1]] = .ok (.nd [.fin 1]) ∧
    numpyIoSupport (fun n => List.range n) (fun _ => .ok ([0], [.fin 1]))
      [.nd [.fin 2], .ser [0] [.fin 1], .nd [.fin 1]] = .error .typeError :=
  ⟨dispatch_arrays _ _ (args := [[.fin 2], [.fin 1], [.fin 1]]) (by simp),
    dispatch_reject _ _ (.inr ⟨⟨_, List.mem_cons_self, trivial⟩, ⟨_, List.mem_cons_of_mem _ List.mem_cons_self, trivial⟩⟩)⟩

end Verif.Props.IndDispatch
