import Verif.Model.RoundedPost
import Verif.Model.RoundedInfo
import Verif.Model.RoundedLhs
import Verif.Props.RoundedRf

/-!
# The models with rounding, without rounding

`Model/Rounded*.lean` repeat definitions of the exact models with a rounding function.  If that function does nothing, they are the exact
models.  These are checks of the models against each other, not properties.
-/

namespace PiCF.Validation
open PiCF.ContFrac PiCF.Lhs PiCF.Postproc PiCF.Rounded PiCF.Mitm

theorem foldl_id : ∀ (l : List ℚ) (a : ℚ), l.foldl (fun acc t => id (acc + t)) a = a + l.sum
  | [], a => by simp
  | t :: l, a => by rw [List.foldl_cons, foldl_id l, id, List.sum_cons, add_assoc]

/-- utils.py:69-75 -/
theorem subsR_id (cs : List ℚ) (x : ℤ) : subsR id cs x = Utils.subsInPolynom cs (x : ℚ) := by
  rw [subsR, foldl_id, zero_add, Utils.subsInPolynom]
  rfl

/-- cont_fracs.py:396-397 -/
theorem evalLoopR_id : ∀ (xs : List (ℚ × ℚ)) (r : ℚ), evalLoopR id xs r = evalLoop xs r
  | [], _ => rfl
  | (a, b) :: xs, r => by
    rw [evalLoopR, evalLoop]
    split_ifs
    · rfl
    · exact evalLoopR_id xs _

/-- cont_fracs.py:378-398 -/
theorem evalContfracR_id (a b : List ℚ) : evalContfracR id a b = evalContfrac a (some b) := by
  rw [evalContfracR, evalContfrac]
  simp only [evalLoopR_id]

/-- cont_fracs.py:414-428 -/
theorem evalByPolysR_id (a b : Coeffs) (n : ℕ) : evalByPolysR id a b n = evalByPolys a b n := by
  rw [evalByPolysR, evalByPolys, evalContfracR_id]
  simp only [subsR_id, id, Int.cast_natCast]

/-- enum_params.py:239-240 -/
theorem evalConstR_id (n : ℕ) : evalConstR id n = evalConst n := by
  funext a b t
  rw [evalConstR, evalConst, evalByPolysR_id]

/-- postprocfuncs.py:152 -/
theorem evaluatedFuncsR_id (A : Postproc.Analysis) : evaluatedFuncsR id A = evaluatedFuncs A := by
  have h1 : recipR id = recip := by funext v; cases v <;> rfl
  have h2 : safeInverseR id = safeInverse := by funext v; cases v <;> simp only [safeInverseR, safeInverse, h1]
  have h3 : inverseOfR id = inverseOf := by funext f x; rw [inverseOfR, inverseOf, h2]; cases f x <;> rfl
  have h4 : powNumR id = powNum := by funext n v; cases v <;> rfl
  have h5 : powerR id = power := by funext n v; cases v <;> simp only [powerR, power, h4]
  rw [evaluatedFuncsR, evaluatedFuncs, h2, h3, h5]

/-- lhs_evaluators.py:98-124 -/
theorem ulcdR_id : ulcdInitR id = Ulcd.init ∧ assignR id = Ulcd.assign ∧ flipSignR id = Ulcd.flipSign ∧ addIntR id = Ulcd.addInt := by
  have h1 : ulcdValR id = ulcdVal := by funext x p; rfl
  have h2 : assignR id = Ulcd.assign := by funext p s; rw [assignR, Ulcd.assign, h1]; cases ulcdVal s.x p <;> rfl
  exact ⟨by funext p x; rw [ulcdInitR, Ulcd.init, h1]; cases ulcdVal x p <;> rfl, h2, by funext s; rw [flipSignR, Ulcd.flipSign, h2],
    by funext i s; rw [addIntR, Ulcd.addInt, h2]⟩

/-- lhs_evaluators.py:257-336, 433-460, 525-557 -/
theorem rfR_id : rfInitR id = RF.init ∧ rfUpdateR id = RF.updateParams ∧ rfFlipR id = RF.flipSign ∧ rfAddR id = RF.addInt ∧
    rfCanonR id = RF.canonalizeParams ∧ rfIsDegenerateR id = RF.isDegenerate ∧ rfGeneratorR id = RFEnum.generator := by
  have h0 : rfInitR id = RF.init := by funext p x; rw [rfInitR, RF.init, calcValR_id]
  have h1 : rfUpdateR id = RF.updateParams := by funext s; rw [rfUpdateR, RF.updateParams, calcValR_id]
  refine ⟨h0, h1, by rw [rfFlipR, RF.flipSign, h1, calcValR_id], by funext n; rw [rfAddR, RF.addInt, h1],
    by rw [rfCanonR, RF.canonalizeParams, h1], rfIsDegenerateR_id, ?_⟩
  funext e
  rw [rfGeneratorR, RFEnum.generator]
  simp only [rfBodyR, RFEnum.body, subsAtR_id, h0]

end PiCF.Validation
