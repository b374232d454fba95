import Verif.Model.Hashtable

/-!
# Specification of texts of options
-/

namespace PiCF.Spec
open PiCF.Hashtable

/-- The code points of white space (Unicode, as python's `str.isspace`). -/
def spaceCodes : List ℕ :=
  [0x9, 0xA, 0xB, 0xC, 0xD, 0x1C, 0x1D, 0x1E, 0x1F, 0x20, 0x85, 0xA0, 0x1680, 0x2000, 0x2001, 0x2002, 0x2003, 0x2004, 0x2005,
   0x2006, 0x2007, 0x2008, 0x2009, 0x200A, 0x2028, 0x2029, 0x202F, 0x205F, 0x3000]

/-- White space. -/
def Space (c : Char) : Prop := c.toNat ∈ spaceCodes

/-- `t` is `s` without the white space around it. -/
structure Trimmed (s t : Str) : Prop where
  split : ∃ a b, s = a ++ t ++ b ∧ (∀ c ∈ a, Space c) ∧ (∀ c ∈ b, Space c)
  first : ∀ c ∈ t.head?, ¬ Space c
  last : ∀ c ∈ t.getLast?, ¬ Space c

/-- A capital letter (ASCII). -/
def Upper (c : Char) : Prop := 'A' ≤ c ∧ c ≤ 'Z'

/-- `t` is `s` with its capital letters replaced by the small ones. -/
def Lowered (s t : Str) : Prop :=
  List.Forall₂ (fun a b => if 65 ≤ a.toNat ∧ a.toNat ≤ 90 then b.toNat = a.toNat + 32 else b = a) s t

end PiCF.Spec
