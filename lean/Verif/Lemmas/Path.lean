import Mathlib.Data.List.TakeWhile
import Verif.Model.Path

/-!
# Extensions of file names
-/

namespace PiCF.Spec
open PiCF.Hashtable

/-- The file name has the extension `ext`: something other than dots comes before `.ext`. -/
def HasExt (ext f : Str) : Prop := ∃ root, f = root ++ '.' :: ext ∧ ∃ c ∈ root, c ≠ '.'

end PiCF.Spec

namespace PiCF.Path
open PiCF.Hashtable PiCF.Spec

theorem splitext_ext {f ext : Str} (hf : '/' ∉ f) (he : '.' ∉ ext) : (splitext f).2 = '.' :: ext ↔ HasExt ext f := by
  have hall : ∀ c ∈ f.reverse, decide (c ≠ '/') = true := by
    intro c hc
    simpa using fun e : c = '/' => hf (e ▸ List.mem_reverse.1 hc)
  have hr : rsplitSlash f = ([], f) := by
    rw [rsplitSlash, List.takeWhile_eq_self_iff.2 hall, List.dropWhile_eq_nil_iff.2 hall, List.reverse_reverse]
    rfl
  rw [splitext, hr]
  simp only
  constructor
  · intro h
    split at h
    · rename_i hc
      simp only [List.cons.injEq, true_and] at h
      have e : f = (f.reverse.dropWhile (· ≠ '.')).reverse ++ (f.reverse.takeWhile (· ≠ '.')).reverse := by
        rw [← List.reverse_append, List.takeWhile_append_dropWhile, List.reverse_reverse]
      have hd : ∃ r, f.reverse.dropWhile (· ≠ '.') = '.' :: r := by
        cases hd : f.reverse.dropWhile (· ≠ '.') with
        | nil =>
          rw [List.dropWhile_eq_nil_iff] at hd
          have := hd '.' (List.mem_reverse.2 hc.1)
          simp at this
        | cons c r =>
          have h0 : f.reverse.dropWhile (· ≠ '.') ≠ [] := by rw [hd]; simp
          have := List.head_dropWhile_not (fun c => decide (c ≠ '.')) h0
          simp only [hd, List.head_cons] at this
          exact ⟨r, by rw [show c = '.' by simpa using this]⟩
      obtain ⟨r, hr⟩ := hd
      refine ⟨r.reverse, ?_, ?_⟩
      · rw [h, hr] at e
        rw [e]
        simp
      · have := hc.2
        rw [hr] at this
        simpa using this
    · cases h
  · rintro ⟨root, rfl, c, hc, hne⟩
    have hx : ∀ x ∈ ext.reverse, decide (x ≠ '.') = true := by
      intro x hx
      simpa using fun e : x = '.' => he (e ▸ List.mem_reverse.1 hx)
    have ht : (root ++ '.' :: ext).reverse = ext.reverse ++ '.' :: root.reverse := by simp
    have hT : (ext.reverse ++ '.' :: root.reverse).takeWhile (fun c => decide (c ≠ '.')) = ext.reverse := by
      rw [List.takeWhile_append_of_pos hx]
      simp
    have hD : (ext.reverse ++ '.' :: root.reverse).dropWhile (fun c => decide (c ≠ '.')) = '.' :: root.reverse := by
      rw [List.dropWhile_append_of_pos hx]
      simp
    rw [ht, hT, hD, if_pos]
    · show '.' :: ext.reverse.reverse = _
      rw [List.reverse_reverse]
    · refine ⟨by simp, ?_⟩
      simp only [List.reverse_cons, List.reverse_reverse, List.dropLast_concat]
      exact List.any_eq_true.2 ⟨c, hc, by simpa using hne⟩

theorem splitext_slash {f : Str} (hf : '/' ∉ f) : rsplitSlash f = ([], f) := by
  have hall : ∀ c ∈ f.reverse, decide (c ≠ '/') = true := by
    intro c hc
    simpa using fun e : c = '/' => hf (e ▸ List.mem_reverse.1 hc)
  rw [rsplitSlash, List.takeWhile_eq_self_iff.2 hall, List.dropWhile_eq_nil_iff.2 hall, List.reverse_reverse]
  rfl

example : HasExt "ini".toList "a.b.ini".toList ∧ ¬ HasExt "ini".toList ".ini".toList := by
  refine ⟨⟨"a.b".toList, by decide, 'a', by decide, by decide⟩, ?_⟩
  rw [← splitext_ext (by decide) (by decide)]
  decide

end PiCF.Path
