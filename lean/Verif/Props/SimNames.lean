import Verif.Model.SimBase
import Verif.Lemmas.Sim
import Mathlib.Data.List.Nodup

/-!
# C27: column names of simulated paths
-/

namespace Verif.Sim

theorem repr_injective {m n : Nat} (h : m.repr = n.repr) : m = n := by
  have e : Nat.toDigits 10 m = Nat.toDigits 10 n := by
    rw [← Nat.toList_repr, ← Nat.toList_repr, h]
  have h1 := Nat.ofDigitChars_toDigits (b := 10) (n := m) (by omega) (by omega)
  have h2 := Nat.ofDigitChars_toDigits (b := 10) (n := n) (by omega) (by omega)
  rw [e] at h1
  exact h1.symm.trans h2

theorem underscore_split {a b c d : List Char} (hb : '_' ∉ b) (hd : '_' ∉ d)
    (h : a ++ '_' :: b = c ++ '_' :: d) : a = c ∧ b = d := by
  induction a generalizing c with
  | nil =>
    cases c with
    | nil => simpa using h
    | cons y c =>
      simp only [List.nil_append, List.cons_append, List.cons.injEq] at h
      obtain ⟨-, rfl⟩ := h
      simp at hb
  | cons x a ih =>
    cases c with
    | nil =>
      simp only [List.nil_append, List.cons_append, List.cons.injEq] at h
      obtain ⟨-, rfl⟩ := h
      simp at hd
    | cons y c =>
      simp only [List.cons_append, List.cons.injEq] at h
      obtain ⟨rfl, h⟩ := h
      obtain ⟨rfl, rfl⟩ := ih h
      exact ⟨rfl, rfl⟩

/-- The suffixed name determines the rendered variate name and the path number, even when variate names contain
underscores and digits themselves. -/
theorem suffixed_inj {c d : Label} {i j : Nat} (h : suffixed c i = suffixed d j) :
    c.render = d.render ∧ i = j := by
  unfold suffixed at h
  have h := congrArg String.toList (Label.str.inj h)
  simp only [String.toList_append, List.append_assoc] at h
  have e : "_".toList = ['_'] := rfl
  rw [e, List.cons_append, List.nil_append, List.cons_append, List.nil_append] at h
  have hu : ∀ n : Nat, '_' ∉ n.repr.toList := fun n => by
    rw [Nat.toList_repr]; exact Nat.underscore_not_in_toDigits
  obtain ⟨h1, h2⟩ := underscore_split (hu i) (hu j) h
  exact ⟨String.toList_injective h1, repr_injective (String.toList_injective h2)⟩

/-- The variate names used for `v` variates, as the docstring describes them: the argument, else the names of
the fitted data, else `S` or `S0, S1, …`. -/
def variateNames (s : FitState) (v : Nat) : Option (List Label) → List Label
  | some c => c
  | none =>
    match s.columns with
    | some (a :: l) => a :: l
    | _ => if v = 1 then [.str "S"] else (List.range v).map fun i => .str ("S" ++ i.repr)

private theorem baseColumns_eq {s : FitState} {v : Nat} (hv : 0 < v) (columns : Option (List Label)) :
    baseColumns s v columns = if (variateNames s v columns).length = v then .ok (variateNames s v columns)
      else .error .assertionError := by
  have dflt : (if (1 : Int) < v then (.ok ((List.range (v : Int).toNat).map fun i => Label.str ("S" ++ i.repr)) : Py (List Label))
      else .ok [.str "S"]) =
      if (if v = 1 then [Label.str "S"] else (List.range v).map fun i => Label.str ("S" ++ i.repr)).length = v then
        .ok (if v = 1 then [Label.str "S"] else (List.range v).map fun i => Label.str ("S" ++ i.repr))
      else .error .assertionError := by
    by_cases h1 : v = 1
    · subst h1; rfl
    · rw [if_pos (by omega)]
      simp only [if_neg h1, List.length_map, List.length_range, if_true, Int.toNat_natCast]
  cases columns with
  | some c =>
    unfold baseColumns variateNames
    dsimp only
    by_cases h : c.length = v
    · rw [if_pos (by exact_mod_cast h), if_pos h]
    · rw [if_neg (by exact_mod_cast h), if_neg h]
  | none =>
    unfold baseColumns variateNames
    cases hs : s.columns with
    | none => exact dflt
    | some l =>
      cases l with
      | nil => exact dflt
      | cons a l =>
        dsimp only
        by_cases h : (a :: l).length = v
        · rw [if_pos (by exact_mod_cast h), if_pos h]
        · rw [if_neg (by exact_mod_cast h), if_neg h]

/-- C27, outcome. For `v ≥ 1` variates and `p ≥ 1` paths the names are made iff the variate names number `v`;
otherwise the call is an `AssertionError`. They are the variate names, and for several paths the variate names
with the path number, path by path. -/
theorem column_names {s : FitState} {v p : Nat} (hv : 0 < v) (hp : 0 < p) (columns : Option (List Label)) :
    makeColumnNames s (v * p) p columns =
      if (variateNames s v columns).length = v then
        .ok (if p = 1 then variateNames s v columns
          else (List.range p).flatMap fun i => (variateNames s v columns).map fun c => suffixed c i)
      else .error .assertionError := by
  have hdiv : ((v * p : Nat) : Int).fdiv p = v := by
    push_cast
    rw [Int.fdiv_eq_ediv_of_nonneg _ (by omega)]
    exact Int.mul_ediv_cancel _ (by omega)
  unfold makeColumnNames
  rw [if_neg (by omega)]
  simp only [hdiv]
  rw [if_neg (by push_cast; rw [mul_comm]; simp), baseColumns_eq hv]
  by_cases h : (variateNames s v columns).length = v
  · rw [if_pos h, if_pos h]
    by_cases h1 : p = 1
    · subst h1; rfl
    · change (if (p : Int) = 1 then _ else _) = _
      rw [if_neg (by omega), if_neg h1, Int.toNat_natCast]
  · rw [if_neg h, if_neg h]; rfl

/-- C27. No paths: `ZeroDivisionError`, whatever the rest. -/
theorem column_names_no_paths (s : FitState) (n : Nat) (columns : Option (List Label)) :
    makeColumnNames s n 0 columns = .error .zeroDivisionError := rfl

private theorem flatMap_length {α β : Type} (l : List α) (f : α → List β) {v : Nat} (h : ∀ a ∈ l, (f a).length = v) :
    (l.flatMap f).length = l.length * v := by
  induction l with
  | nil => simp
  | cons a l ih =>
    rw [List.flatMap_cons, List.length_append, h a (by simp), ih fun b hb => h b (by simp [hb])]
    simp [Nat.add_mul, Nat.add_comm]

private theorem flatMap_range_get {β : Type} (f : Nat → List β) {v : Nat} (h : ∀ i, (f i).length = v) (p i j : Nat)
    (hi : i < p) (hj : j < v) : ((List.range p).flatMap f)[i * v + j]? = (f i)[j]? := by
  induction p with
  | zero => omega
  | succ p ih =>
    rw [List.range_succ, List.flatMap_append]
    have hl : ((List.range p).flatMap f).length = p * v := by
      rw [flatMap_length _ _ fun a _ => h a, List.length_range]
    by_cases hip : i < p
    · have : i * v + j < p * v := by
        calc i * v + j < i * v + v := by omega
          _ = (i + 1) * v := by ring
          _ ≤ p * v := Nat.mul_le_mul_right _ hip
      rw [List.getElem?_append_left (by omega)]
      exact ih hip
    · have : i = p := by omega
      subst this
      rw [List.getElem?_append_right (by omega), hl]
      simp

/-- C27. The names number `v * p`; the name at column `i * v + j` belongs to variate `j` and path `i`. -/
theorem column_names_entries {s : FitState} {v p : Nat} (hv : 0 < v) (hp : 0 < p) {columns : Option (List Label)}
    {r : List Label} (h : makeColumnNames s (v * p) p columns = .ok r) :
    r.length = v * p ∧ ∀ i j, i < p → j < v → r[i * v + j]? =
      (variateNames s v columns)[j]?.map fun c => if p = 1 then c else suffixed c i := by
  rw [column_names hv hp] at h
  by_cases hl : (variateNames s v columns).length = v
  · rw [if_pos hl] at h
    have h := Except.ok.inj h
    by_cases h1 : p = 1
    · subst h1
      rw [if_pos rfl] at h
      subst h
      refine ⟨by omega, fun i j hi hj => ?_⟩
      have : i = 0 := by omega
      subst this
      simp
    · rw [if_neg h1] at h
      subst h
      constructor
      · rw [flatMap_length (v := v) _ _ (fun a _ => by simp [hl]), List.length_range, Nat.mul_comm]
      · intro i j hi hj
        rw [flatMap_range_get (v := v) _ (fun a => by simp [hl]) p i j hi hj, List.getElem?_map]
        simp only [if_neg h1]
  · rw [if_neg hl] at h; cases h

/-- C27. The names are pairwise distinct when the variate names are printed differently. -/
theorem column_names_nodup {s : FitState} {v p : Nat} (hv : 0 < v) (hp : 0 < p) {columns : Option (List Label)}
    {r : List Label} (h : makeColumnNames s (v * p) p columns = .ok r)
    (hd : ((variateNames s v columns).map Label.render).Nodup) : r.Nodup := by
  obtain ⟨hlen, hent⟩ := column_names_entries hv hp h
  rw [List.nodup_iff_getElem?_ne_getElem?]
  intro a b hab hb heq
  rw [hlen, Nat.mul_comm] at hb
  have ha' := hent (a / v) (a % v) (Nat.div_lt_of_lt_mul (by rw [Nat.mul_comm]; omega)) (Nat.mod_lt _ hv)
  have hb' := hent (b / v) (b % v) (Nat.div_lt_of_lt_mul (by rw [Nat.mul_comm]; omega)) (Nat.mod_lt _ hv)
  rw [Nat.div_add_mod'] at ha' hb'
  rw [ha', hb'] at heq
  have hmod : ∀ k : Nat, k % v < v := fun k => Nat.mod_lt _ hv
  have hl : (variateNames s v columns).length = v := by
    rw [column_names hv hp] at h
    by_contra hne
    rw [if_neg hne] at h
    cases h
  rw [List.getElem?_eq_getElem (by rw [hl]; exact hmod a), List.getElem?_eq_getElem (by rw [hl]; exact hmod b)] at heq
  simp only [Option.map_some, Option.some.injEq] at heq
  have key : ((variateNames s v columns)[a % v]'(by rw [hl]; exact hmod a)).render =
      ((variateNames s v columns)[b % v]'(by rw [hl]; exact hmod b)).render ∧ a / v = b / v := by
    by_cases h1 : p = 1
    · simp only [if_pos h1] at heq
      refine ⟨by rw [heq], ?_⟩
      subst h1
      rw [Nat.div_eq_of_lt (by omega), Nat.div_eq_of_lt (by omega)]
    · simp only [if_neg h1] at heq
      exact suffixed_inj heq
  obtain ⟨k1, k2⟩ := key
  have hidx : a % v = b % v := by
    have := (List.nodup_iff_injective_get.mp hd)
    have e : (⟨a % v, by simp [hl, hmod]⟩ : Fin ((variateNames s v columns).map Label.render).length) =
        ⟨b % v, by simp [hl, hmod]⟩ := by
      apply this
      simpa using k1
    simpa using e
  have : a = b := by
    rw [← Nat.div_add_mod' a v, ← Nat.div_add_mod' b v, k2, hidx]
  omega

/-- C27. The default names are printed differently, so default-named samples have distinct columns. -/
theorem default_names_nodup {s : FitState} {v : Nat} (hs : s.columns = none) :
    ((variateNames s v none).map Label.render).Nodup := by
  unfold variateNames
  rw [hs]
  by_cases h1 : v = 1
  · subst h1; simp
  · simp only [if_neg h1, List.map_map]
    apply List.Nodup.map_on _ List.nodup_range
    intro a _ b _ hab
    simp only [Function.comp_apply, Label.render] at hab
    have := congrArg String.toList hab
    simp only [String.toList_append, List.append_cancel_left_eq] at this
    exact repr_injective (String.toList_injective this)

/-- C27, limit. Distinct labels that are printed alike (`None` and `"None"`, `0` and `"0"`) give equal column
names as soon as there are two paths. -/
theorem column_names_collision : ∃ s : FitState, ∃ c : List Label, c.Nodup ∧
    ∃ r, makeColumnNames s 4 2 (some c) = .ok r ∧ ¬ r.Nodup := by
  refine ⟨.init, [.none, .str "None"], by decide, _, column_names (v := 2) (p := 2) (by omega) (by omega) _, ?_⟩
  decide

/-- Two variates with awkward names and three paths. -/
example : makeColumnNames .init 6 3 (some [.str "a", .str "a_1"]) =
    .ok [.str "a_0", .str "a_1_0", .str "a_1", .str "a_1_1", .str "a_2", .str "a_1_2"] := by
  rw [show (6 : Nat) = 2 * 3 from rfl, show (3 : Int) = ((3 : Nat) : Int) from rfl, column_names (by omega) (by omega)]
  decide

/-- … are pairwise distinct. -/
example {r : List Label} (h : makeColumnNames .init (2 * 3) (3 : Nat) (some [.str "a", .str "a_1"]) = .ok r) : r.Nodup :=
  column_names_nodup (by omega) (by omega) h (by decide)

end Verif.Sim
