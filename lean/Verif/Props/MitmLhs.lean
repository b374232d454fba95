import Verif.Model.Mitm
import Verif.Props.RationalFunc
import Verif.Props.Ulcd

/-!
# The two LHS classes as instances of the interface used by `MITM`
-/

namespace PiCF
open PiCF.Spec PiCF.Mitm PiCF.Lhs PiCF.EnumPoly

/-- What the refinement relies on, for objects satisfying an invariant: the methods do not raise, keep the invariant and have
the documented effect on the value; only integer values may be lost (become NaN) by `canonalize_params`, and copies
have the same value. -/
structure LhsLaws {L : Type} (C : LhsClass L) (Inv : L → Prop) : Prop where
  flip : ∀ l, Inv l → ∃ l', C.flipSign l = (l', .ok ()) ∧ Inv l' ∧ C.val l' = numEffect .flip (C.val l)
  add : ∀ l n, Inv l → ∃ l', C.addInt n l = (l', .ok ()) ∧ Inv l' ∧ C.val l' = numEffect (.add n) (C.val l)
  canon : ∀ l, Inv l → ∃ l', C.canon l = (l', .ok ()) ∧ Inv l' ∧
    ∀ v, C.val l = .fin v → C.val l' = .fin v ∨ (C.val l' = .nan ∧ IsInteger v)
  degenerate : ∀ l, Inv l → ∃ l' b, C.isDegenerate l = (l', .ok b)

/-- The methods succeed on objects with the invariant and preserve it; nothing is said about the values (which are rounded in
`Model/Rounded`). -/
structure LhsTotal {L : Type} (C : LhsClass L) (Inv : L → Prop) : Prop where
  flip : ∀ l, Inv l → ∃ l', C.flipSign l = (l', .ok ()) ∧ Inv l'
  add : ∀ l n, Inv l → ∃ l', C.addInt n l = (l', .ok ()) ∧ Inv l'
  canon : ∀ l, Inv l → ∃ l', C.canon l = (l', .ok ()) ∧ Inv l'

theorem LhsLaws.total {L : Type} {C : LhsClass L} {Inv : L → Prop} (h : LhsLaws C Inv) : LhsTotal C Inv where
  flip l hl := by obtain ⟨l', e, i, -⟩ := h.flip l hl; exact ⟨l', e, i⟩
  add l n hl := by obtain ⟨l', e, i, -⟩ := h.add l n hl; exact ⟨l', e, i⟩
  canon l hl := by obtain ⟨l', e, i, -⟩ := h.canon l hl; exact ⟨l', e, i⟩

/-- lhs_evaluators.py:95-193 `ULCDEvaluator` -/
def ulcdClass : LhsClass Ulcd where
  val s := .fin s.val
  copy := Ulcd.copy
  isDegenerate := fun s => (s, .ok s.isDegenerate)
  flipSign := Ulcd.flipSign
  addInt := Ulcd.addInt
  canon := Ulcd.canonalizeParams
  equiv c c' := (c.lhs, c'.lhs, ulcdIsEquiv ⟨c.a, c.b, c.lhs.params, c.post⟩ ⟨c'.a, c'.b, c'.lhs.params, c'.post⟩)

/-- lhs_evaluators.py:255-460 `RationalFuncEvaluator` -/
noncomputable def rfClass : LhsClass RF where
  val := RF.val
  copy s := .ok (RF.copy s)
  isDegenerate := RF.isDegenerate
  flipSign := RF.flipSign
  addInt := RF.addInt
  canon := RF.canonalizeParams
  equiv c c' := rfIsEquiv c.a c.b c.lhs c.post c'.a c'.b c'.lhs c'.post

theorem ulcd_laws (x : ℚ) : LhsLaws ulcdClass (UlcdOk x) where
  flip l h := by
    obtain ⟨l', e, h', v⟩ := ulcdCall_ok h .flip
    exact ⟨l', e, h', congrArg Num.fin v⟩
  add l n h := by
    obtain ⟨l', e, h', v⟩ := ulcdCall_ok h (.add n)
    exact ⟨l', e, h', congrArg Num.fin v⟩
  canon l h := ⟨l, rfl, h, fun _ hv => .inl hv⟩
  degenerate l _ := ⟨l, _, rfl⟩

theorem rf_laws : LhsLaws rfClass RF.Inv where
  flip l h := by
    obtain ⟨l', e, h', -, -, v⟩ := RF.flipSign_val h
    exact ⟨l', e, h', v⟩
  add l n h := by
    obtain ⟨l', e, h', -, -, v⟩ := RF.addInt_val h n
    exact ⟨l', e, h', v⟩
  canon l h := by
    obtain ⟨l', e, h', -, -, v, -⟩ := RF.canon_val h
    exact ⟨l', e, h', v⟩
  degenerate l h := by
    obtain ⟨l', e, -⟩ := RF.canon_val h
    exact ⟨l', _, by show RF.isDegenerate l = _; rw [RF.isDegenerate, PyM.bind_ok e]; rfl⟩

end PiCF
