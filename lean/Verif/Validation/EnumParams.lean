import Verif.Props.MitmClicks
import Verif.Props.MitmLhs

/-!
# The test of `find_clicks`

tests/test_enum_params.py:37-46.  At this commit the test fails: `find_clicks` raises before it looks into the table.
-/

namespace PiCF.Validation
open PiCF.Lhs PiCF.Mitm PiCF.Hashtable

/-- tests/test_enum_params.py:37-44: with the ranges of the test, for every target that is not zero and every table,
`find_clicks` raises AttributeError (`mpf` numbers have no `to_eng_string`). -/
example (x : ℚ) (hx : x ≠ 0) (t : Table (Val Entry)) : ∃ e, UlcdEnum.init (.two 0 1) (.two 4 5) (.two 0 1) (.two 1 2) x = .ok e ∧
    findClicks ulcdClass mpfEngN true t e.generator [] = ([], .error .attributeError) := by
  refine ⟨_, rfl, ?_⟩
  have e1 : Ulcd.init (1, 1, 1, 1) x = .ok ⟨(1, 1, 1, 1), x, (1 / x + x / 1 + 1) / 1⟩ := by simp [Ulcd.init, ulcdVal, hx]
  have e2 : UlcdEnum.generator ⟨[0], [4], [0], [1], x, 1⟩ = ([⟨(0, 4, 0, 1), x, (0 / x + x / 4 + 0) / 1⟩], .ok ()) := by
    simp [UlcdEnum.generator, e1, product4, ulcdLoop, Ulcd.reinitParams, Ulcd.assign, ulcdVal, hx]
  exact (congrArg (fun g => findClicks ulcdClass mpfEngN true t g []) e2).trans
    (C54_clicks_violated ulcdClass true t _ [] [] (.ok ()) _ rfl)

end PiCF.Validation
