import Verif.Props.IndBands

/-!
# The true range of bars with missing values (C50)
-/

namespace Verif.Props.IndBands

open Verif Ser Ind

/-- C50. Missing prices are skipped: without a high (low) the true range is the distance of the low (high) from the previous close,
without a previous close it is `high - low`, and with two of the three missing it is missing. -/
theorem trueRange_gaps {hi lo cl : Ser} {h l c : XF} {t : Nat} (hl : cl.length = hi.length) (ht : 1 ≤ t) (hh : hi[t]? = some h)
    (hlo : lo[t]? = some l) (hc : cl[t - 1]? = some c) :
    (∀ y z, h = .nan → l = .fin y → c = .fin z → (trueRange hi lo cl)[t]? = some (.fin |y - z|)) ∧
    (∀ x z, h = .fin x → l = .nan → c = .fin z → (trueRange hi lo cl)[t]? = some (.fin |x - z|)) ∧
    (∀ x y, h = .fin x → l = .fin y → c = .nan → (trueRange hi lo cl)[t]? = some (.fin (x - y))) ∧
    ((h = .nan ∧ l = .nan) ∨ (h = .nan ∧ c = .nan) ∨ (l = .nan ∧ c = .nan) → (trueRange hi lo cl)[t]? = some .nan) := by
  have ht' : t < cl.length := by rw [hl]; exact (List.getElem?_eq_some_iff.1 hh).1
  have hs := shift_one_get cl ht'
  obtain ⟨s, rfl⟩ : ∃ s, t = s + 1 := ⟨t - 1, by omega⟩
  have hc' : cl[s]? = some c := hc
  simp only [hc', Option.getD_some] at hs
  have f2 : ((op2 (· - ·) hi (shift 1 cl)).map XF.abs)[s + 1]? = some (h - c).abs := by
    rw [List.getElem?_map, op2_get (· - ·) hh hs]; simp
  have f3 : ((op2 (· - ·) lo (shift 1 cl)).map XF.abs)[s + 1]? = some (l - c).abs := by
    rw [List.getElem?_map, op2_get (· - ·) hlo hs]; simp
  have e : (trueRange hi lo cl)[s + 1]? = some (maxSkip (maxSkip (h - l) (h - c).abs) (l - c).abs) := by
    rw [trueRange, op2_get _ (op2_get _ (op2_get _ hh hlo) f2) f3]
  have n1 : ∀ a : XF, XF.nan - a = .nan := fun a => by cases a <;> rfl
  have n2 : ∀ a : XF, a - XF.nan = .nan := fun a => by cases a <;> rfl
  have n3 : ∀ a : XF, maxSkip .nan a = a := fun a => by cases a <;> rfl
  have n4 : XF.abs .nan = .nan := rfl
  refine ⟨?_, ?_, ?_, ?_⟩
  · rintro y z rfl rfl rfl
    rw [e, n1, n1, n4, n3, n3]
    simp
  · rintro x z rfl rfl rfl
    rw [e, n1, n2, n4, n3, maxSkip_nan]
    simp
  · rintro x y rfl rfl rfl
    rw [e, n2, n2, n4, maxSkip_nan, maxSkip_nan]
    simp
  · rintro (⟨rfl, rfl⟩ | ⟨rfl, rfl⟩ | ⟨rfl, rfl⟩) <;> rw [e] <;> simp only [n1, n2, n3, n4]

/-- A bar without a high. -/
example : (trueRange [.fin 3, .nan] [.fin 1, .fin 2] [.fin 5, .fin 2])[1]? = some (.fin 3) := by
  rw [(trueRange_gaps (by simp) le_rfl rfl rfl rfl).1 2 5 rfl rfl rfl]
  norm_num

end Verif.Props.IndBands
