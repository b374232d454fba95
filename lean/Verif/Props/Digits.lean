import Mathlib.Tactic.Ring
import Mathlib.Tactic.Linarith
import Mathlib.Tactic.FieldSimp
import Mathlib.Data.Rat.Floor
import Verif.Model.DecStr
import Verif.Lemmas.Json
import Verif.Props.ConfigFile

/-!
# C79: comparison of digits
-/

namespace PiCF.DecStr
open PiCF.Hashtable PiCF.PyStr PiCF.Mitm

/-- The numbers (in `[0, 1)`) have the same first `n` digits after the decimal point. -/
def SameDigits (x y : ℚ) (n : ℕ) : Prop := ⌊x * 10 ^ n⌋ = ⌊y * 10 ^ n⌋

/-- The value of a list of digits. -/
def digVal (ds : List ℕ) : ℕ := ds.foldl (fun n d => 10 * n + d) 0

theorem foldl_digits (ds : List ℕ) (a : ℕ) : ds.foldl (fun n d => 10 * n + d) a = a * 10 ^ ds.length + digVal ds := by
  induction ds generalizing a with
  | nil => simp [digVal]
  | cons d ds ih =>
    have e : digVal (d :: ds) = (10 * 0 + d) * 10 ^ ds.length + digVal ds := ih (10 * 0 + d)
    rw [List.foldl_cons, ih, e, List.length_cons, pow_succ]
    ring

theorem digVal_append (ds es : List ℕ) : digVal (ds ++ es) = digVal ds * 10 ^ es.length + digVal es := by
  rw [digVal, List.foldl_append, foldl_digits]
  rfl

theorem digVal_lt {ds : List ℕ} (h : ∀ d ∈ ds, d < 10) : digVal ds < 10 ^ ds.length := by
  have := (Config.foldl_digits_bounds h 0).2
  simpa [digVal] using this

theorem digVal_inj : ∀ {ds es : List ℕ}, ds.length = es.length → (∀ d ∈ ds, d < 10) → (∀ d ∈ es, d < 10) → digVal ds = digVal es →
    ds = es
  | [], [], _, _, _, _ => rfl
  | [], _ :: _, hl, _, _, _ => by simp at hl
  | _ :: _, [], hl, _, _, _ => by simp at hl
  | d :: ds, e :: es, hl, h1, h2, h => by
    have hl' : ds.length = es.length := by simpa using hl
    have h1' : ∀ x ∈ ds, x < 10 := fun x hx => h1 x (List.mem_cons_of_mem _ hx)
    have h2' : ∀ x ∈ es, x < 10 := fun x hx => h2 x (List.mem_cons_of_mem _ hx)
    have b1 := digVal_lt h1'
    have b2 := digVal_lt h2'
    have e1 : ∀ d (ds : List ℕ), digVal (d :: ds) = d * 10 ^ ds.length + digVal ds := by
      intro d ds
      rw [digVal, List.foldl_cons, foldl_digits]
      ring
    rw [e1, e1, hl'] at h
    rw [hl'] at b1
    have hde : d = e := by
      rcases Nat.lt_trichotomy d e with hlt | heq | hlt
      · exfalso
        have : (d + 1) * 10 ^ es.length ≤ e * 10 ^ es.length := Nat.mul_le_mul_right _ hlt
        rw [add_mul] at this
        omega
      · exact heq
      · exfalso
        have : (e + 1) * 10 ^ es.length ≤ d * 10 ^ es.length := Nat.mul_le_mul_right _ hlt
        rw [add_mul] at this
        omega
    subst hde
    rw [digVal_inj hl' h1' h2' (by omega)]

theorem digVal_zeros (k : ℕ) : digVal (List.replicate k 0) = 0 := by
  induction k with
  | zero => rfl
  | succ k ih =>
    rw [List.replicate_succ, digVal, List.foldl_cons]
    exact ih

theorem map_digitChar_inj {ds es : List ℕ} (h1 : ∀ d ∈ ds, d < 10) (h2 : ∀ d ∈ es, d < 10)
    (h : ds.map digitChar = es.map digitChar) : ds = es := by
  induction ds generalizing es with
  | nil =>
    cases es with
    | nil => rfl
    | cons e es => cases h
  | cons d ds ih =>
    cases es with
    | nil => cases h
    | cons e es =>
      rw [List.map_cons, List.map_cons] at h
      injection h with h3 h4
      have hd := h1 d List.mem_cons_self
      have he := h2 e List.mem_cons_self
      have := Config.digitChar_toNat hd
      rw [h3, Config.digitChar_toNat he] at this
      rw [ih (fun x hx => h1 x (List.mem_cons_of_mem _ hx)) (fun x hx => h2 x (List.mem_cons_of_mem _ hx)) h4]
      congr 1
      omega

/-- A Decimal in `[0, 1)` with at least `n` digits after the point, at least one, that is printed without exponent: it is at least
`10^-6`, or has at most six digits after the point. -/
structure Plain (d : Dec) (n : ℕ) : Prop where
  lt : d.value < 1
  sign : d.neg = false
  digits : (n : ℤ) ≤ -d.exp
  point : d.exp < 0
  plain : 1 / 10 ^ 6 ≤ d.value ∨ -6 ≤ d.exp

/-- The text of such a number, and the meaning of its digits. -/
theorem plain_text {d : Dec} {n : ℕ} (h : Plain d n) : ∃ G : List ℕ, (∀ x ∈ G, x < 10) ∧ (G.length : ℤ) = -d.exp ∧
    d.eng = '0' :: '.' :: G.map digitChar ∧ (digVal (G.take n) : ℤ) = ⌊d.value * 10 ^ n⌋ := by
  obtain ⟨m, hm⟩ : ∃ m : ℕ, d.exp = -(m : ℤ) := ⟨(-d.exp).toNat, by have := h.point; omega⟩
  have hmpos : 0 < m := by have := h.point; omega
  have hnm : n ≤ m := by have := h.digits; omega
  have hval : d.value = d.coef / (10 : ℚ) ^ m := by
    rw [Dec.value, h.sign, hm, zpow_neg, zpow_natCast]
    simp [div_eq_mul_inv]
  have hcoef : d.coef < 10 ^ m := by
    have := h.lt
    rw [hval, div_lt_one (by positivity)] at this
    exact_mod_cast this
  obtain ⟨x, ds, hx, hds, hnz, htext, hfold⟩ := exists_strNat d.coef
  have hdig : ∀ y ∈ x :: ds, y < 10 := by
    intro y hy
    rcases List.mem_cons.1 hy with rfl | hy
    · exact hx
    · exact hds y hy
  have hlen : (strNat d.coef).length = ds.length + 1 := by rw [htext]; simp
  have hv : digVal (x :: ds) = d.coef := hfold
  have hle : ds.length + 1 ≤ m := by
    by_contra hcon
    by_cases h0 : d.coef = 0
    · have : ds.length = 0 := by
        have e : strNat d.coef = ['0'] := by rw [h0]; rfl
        rw [e] at hlen
        simpa using hlen.symm
      omega
    · have hx0 := hnz h0
      have : digVal (x :: ds) = x * 10 ^ ds.length + digVal ds := by
        rw [digVal, List.foldl_cons, foldl_digits]
        ring
      rw [hv] at this
      have h1 : 1 * 10 ^ ds.length ≤ x * 10 ^ ds.length := Nat.mul_le_mul_right _ (Nat.pos_of_ne_zero hx0)
      have h2 : 10 ^ m ≤ 10 ^ ds.length := Nat.pow_le_pow_right (by omega) (by omega)
      omega
  have hleft : d.left = (ds.length : ℤ) + 1 - m := by
    rw [Dec.left, hlen, hm]; push_cast; ring
  have hplain : -6 < d.left := by
    rcases h.plain with hp | hp
    · by_contra hcon
      have hk : ds.length + 7 ≤ m := by omega
      have h1 : d.coef < 10 ^ (ds.length + 1) := by
        rw [← hv]
        have := digVal_lt hdig
        simpa using this
      have h2 : (10 : ℕ) ^ (ds.length + 1) * 10 ^ 6 ≤ 10 ^ m := by
        rw [← pow_add]
        exact Nat.pow_le_pow_right (by omega) (by omega)
      rw [hval, div_le_div_iff₀ (by positivity) (by positivity)] at hp
      have h3 : (10 : ℕ) ^ m ≤ d.coef * 10 ^ 6 := by
        have : ((10 ^ m : ℕ) : ℚ) ≤ ((d.coef * 10 ^ 6 : ℕ) : ℚ) := by push_cast; linarith
        exact_mod_cast this
      have h4 : d.coef * 10 ^ 6 < 10 ^ (ds.length + 1) * 10 ^ 6 := Nat.mul_lt_mul_of_pos_right h1 (by positivity)
      omega
    · have := h.digits
      omega
  have hdot : d.dot = d.left := by
    rw [Dec.dot, if_pos ⟨by have := h.point; omega, hplain⟩]
  refine ⟨List.replicate (m - (ds.length + 1)) 0 ++ (x :: ds), ?_, ?_, ?_, ?_⟩
  · intro y hy
    rcases List.mem_append.1 hy with hy | hy
    · rw [List.eq_of_mem_replicate hy]; omega
    · exact hdig y hy
  · rw [hm]; simp only [List.length_append, List.length_replicate, List.length_cons]; omega
  · rw [Dec.eng, h.sign, hdot]
    simp only [Bool.false_eq_true, if_false, if_true, List.nil_append, List.append_nil]
    rw [placed, if_pos (by omega), htext]
    have : (-d.left).toNat = m - (ds.length + 1) := by omega
    rw [this, List.map_append, List.map_replicate]
    rfl
  · generalize hG : List.replicate (m - (ds.length + 1)) 0 ++ (x :: ds) = G
    have hGl : G.length = m := by
      rw [← hG]
      simp only [List.length_append, List.length_replicate, List.length_cons]; omega
    have hGv : digVal G = d.coef := by
      rw [← hG, digVal_append, digVal_zeros, hv]; simp
    have hGd : ∀ y ∈ G, y < 10 := by
      rw [← hG]
      intro y hy
      rcases List.mem_append.1 hy with hy | hy
      · rw [List.eq_of_mem_replicate hy]; omega
      · exact hdig y hy
    have hsplit : digVal G = digVal (G.take n) * 10 ^ (m - n) + digVal (G.drop n) := by
      conv_lhs => rw [← List.take_append_drop n G]
      rw [digVal_append, List.length_drop, hGl]
    have hlt : digVal (G.drop n) < 10 ^ (m - n) := by
      have := digVal_lt (ds := G.drop n) fun y hy => hGd y (List.mem_of_mem_drop hy)
      rwa [List.length_drop, hGl] at this
    have hq : d.coef / 10 ^ (m - n) = digVal (G.take n) := by
      rw [← hGv, hsplit, Nat.add_comm, Nat.add_mul_div_right _ _ (by positivity), Nat.div_eq_of_lt hlt, Nat.zero_add]
    have hx : d.value * 10 ^ n = (d.coef : ℚ) / ((10 ^ (m - n) : ℕ) : ℚ) := by
      rw [hval]
      have : (10 : ℚ) ^ m = 10 ^ (m - n) * 10 ^ n := by rw [← pow_add]; congr 1; omega
      push_cast
      rw [this]
      field_simp
    rw [hx, Rat.floor_natCast_div_natCast, ← hq]
    push_cast
    rfl

/-- **C79 (partial).** For all Decimals in `[0, 1)` that are printed without exponent and have at least `n` digits after the
point: the comparison with accuracy `n` is true exactly when the first `n` digits after the point are the same.
Missing: fewer digits and small numbers, see `C79_zeros_violated`, `C79_small_violated` and `C79_exponent_violated`; and numbers of the type
`mpf` used by the current code, see `C79_mpf_violated`. -/
theorem C79_digits_partial {eng : EngN} {x y : Num} {d e : Dec} {n : ℕ} (hx : eng x = .ok d.eng) (hy : eng y = .ok e.eng)
    (hd : Plain d n) (he : Plain e n) : ∃ r, compareDec eng x y n = .ok r ∧ (r = true ↔ SameDigits d.value e.value n) := by
  obtain ⟨G, g1, g2, g3, g4⟩ := plain_text hd
  obtain ⟨H, h1, h2, h3, h4⟩ := plain_text he
  have g2 : n ≤ G.length := by have := hd.digits; omega
  have h2 : n ≤ H.length := by have := he.digits; omega
  have cut : ∀ (K : List ℕ), sliceTo ('0' :: '.' :: K.map digitChar) ((n : ℤ) + 1 + 1) = '0' :: '.' :: (K.take n).map digitChar := by
    intro K
    rw [sliceTo, if_pos (by omega), show ((n : ℤ) + 1 + 1).toNat = n + 1 + 1 by omega, List.take_succ_cons, List.take_succ_cons, List.map_take]
  refine ⟨_, by rw [compareDec, hx, hy], ?_⟩
  rw [decide_eq_true_iff, g3, h3, cut, cut, SameDigits, ← g4, ← h4]
  constructor
  · intro h
    injection h with _ h
    injection h with _ h
    rw [map_digitChar_inj (fun y hy => g1 y (List.mem_of_mem_take hy)) (fun y hy => h1 y (List.mem_of_mem_take hy)) h]
  · intro h
    have : G.take n = H.take n := digVal_inj (by rw [List.length_take, List.length_take]; omega)
      (fun y hy => g1 y (List.mem_of_mem_take hy)) (fun y hy => h1 y (List.mem_of_mem_take hy)) (by exact_mod_cast h)
    rw [this]

/-- The text function of a representation for each number. -/
def engOf (rep : Num → Dec) : EngN := fun x => .ok (rep x).eng

example : Plain ⟨false, 14159265, -8⟩ 5 ∧ Plain ⟨false, 14159999, -8⟩ 5 ∧
    SameDigits (Dec.mk false 14159265 (-8)).value (Dec.mk false 14159999 (-8)).value 5 ∧
    ¬ SameDigits (Dec.mk false 14159265 (-8)).value (Dec.mk false 14159999 (-8)).value 6 := by
  have e1 : (Dec.mk false 14159265 (-8)).value = 14159265 / 10 ^ 8 := by simp [Dec.value, zpow_neg]; norm_num
  have e2 : (Dec.mk false 14159999 (-8)).value = 14159999 / 10 ^ 8 := by simp [Dec.value, zpow_neg]; norm_num
  refine ⟨⟨by rw [e1]; norm_num, rfl, by norm_num, by norm_num, .inl (by rw [e1]; norm_num)⟩,
    ⟨by rw [e2]; norm_num, rfl, by norm_num, by norm_num, .inl (by rw [e2]; norm_num)⟩, ?_, ?_⟩
  · rw [SameDigits, e1, e2]; norm_num
  · rw [SameDigits, e1, e2]; norm_num

/-- What the beginning of a text says about the number: the digits after "0." -/
def textVal : Str → ℚ
  | '0' :: '.' :: cs =>
    let ds := (cs.takeWhile (· ≠ 'E')).map fun c => c.toNat - 48
    digVal ds / 10 ^ ds.length
  | _ => 0

theorem takeWhile_all {α : Type} {p : α → Bool} : ∀ {l : List α}, (∀ x ∈ l, p x = true) → l.takeWhile p = l
  | [], _ => rfl
  | a :: l, h => by
    rw [List.takeWhile_cons_of_pos (h a List.mem_cons_self), takeWhile_all fun x hx => h x (List.mem_cons_of_mem _ hx)]

theorem textVal_digits {G : List ℕ} (hG : ∀ x ∈ G, x < 10) : textVal ('0' :: '.' :: G.map digitChar) = digVal G / 10 ^ G.length := by
  have h1 : (G.map digitChar).takeWhile (· ≠ 'E') = G.map digitChar := by
    refine takeWhile_all fun c hc => ?_
    obtain ⟨x, hx, rfl⟩ := List.mem_map.1 hc
    have hx := hG x hx
    have h := Config.digitChar_toNat hx
    rw [decide_eq_true_iff]
    intro e
    rw [e] at h
    simp at h
    omega
  have h2 : (G.map digitChar).map (fun c => c.toNat - 48) = G := by
    rw [List.map_map]
    conv_rhs => rw [← List.map_id G]
    refine List.map_congr_left fun x hx => ?_
    have := Config.digitChar_toNat (hG x hx)
    simp only [Function.comp, id]
    omega
  rw [textVal, h1, h2]

theorem sliceTo_cons2 (a b : Char) (cs : Str) (n : ℕ) : sliceTo (a :: b :: cs) ((n : ℤ) + 1 + 1) = a :: b :: cs.take n := by
  rw [sliceTo, if_pos (by omega), show ((n : ℤ) + 1 + 1).toNat = n + 1 + 1 by omega, List.take_succ_cons, List.take_succ_cons]

theorem sliceTo_cons (a : Char) (cs : Str) (n : ℕ) : sliceTo (a :: cs) ((n : ℤ) + 1 + 1) = a :: cs.take (n + 1) := by
  rw [sliceTo, if_pos (by omega), show ((n : ℤ) + 1 + 1).toNat = n + 1 + 1 by omega, List.take_succ_cons]

theorem textVal_not_zero {a : Char} (ha : a ≠ '0') (cs : Str) : textVal (a :: cs) = 0 := by
  rw [textVal]
  rintro cs' h
  injection h with h _
  exact ha h

theorem textVal_zeros (k n : ℕ) (r : Str) : textVal ('0' :: '.' :: (List.replicate k '0' ++ 'E' :: r).take n) = 0 := by
  have h : ∀ k n, ∃ j, ((List.replicate k '0' ++ 'E' :: r).take n).takeWhile (· ≠ 'E') = List.replicate j '0' := by
    intro k
    induction k with
    | zero =>
      intro n
      refine ⟨0, ?_⟩
      cases n <;> simp
    | succ k ih =>
      intro n
      cases n with
      | zero => exact ⟨0, by simp⟩
      | succ n =>
        obtain ⟨j, hj⟩ := ih n
        refine ⟨j + 1, ?_⟩
        rw [List.replicate_succ, List.cons_append, List.take_succ_cons, List.takeWhile_cons_of_pos (by decide), hj, List.replicate_succ]
  obtain ⟨j, hj⟩ := h k n
  rw [textVal]
  simp only [hj, List.map_replicate]
  rw [show ('0' : Char).toNat - 48 = 0 from rfl, digVal_zeros]
  simp

/-- The number is the one written at the beginning of its text, up to the precision. -/
theorem value_textVal {d : Dec} (hs : d.neg = false) (hlt : d.value < 1) (n : ℕ) :
    textVal (sliceTo d.eng ((n : ℤ) + 1 + 1)) ≤ d.value ∧
      d.value < textVal (sliceTo d.eng ((n : ℤ) + 1 + 1)) + max (1 / 10 ^ n) (1 / 10 ^ 6) := by
  have hv0 : d.value = d.coef * (10 : ℚ) ^ d.exp := by rw [Dec.value, hs]; simp
  have hz10 : (0 : ℚ) < 10 ^ d.exp := zpow_pos (by norm_num) _
  have hnn : 0 ≤ d.value := by rw [hv0]; positivity
  have hmax : (0 : ℚ) < max (1 / 10 ^ n) (1 / 10 ^ 6) := lt_max_of_lt_right (by norm_num)
  by_cases hp : d.exp < 0 ∧ (1 / 10 ^ 6 ≤ d.value ∨ -6 ≤ d.exp)
  · obtain ⟨m, hm⟩ : ∃ m : ℕ, d.exp = -(m : ℤ) := ⟨(-d.exp).toNat, by have := hp.1; omega⟩
    obtain ⟨G, g1, g2, g3, g4⟩ := plain_text (d := d) (n := min n m) ⟨hlt, hs, by omega, hp.1, hp.2⟩
    have hl : G.length = m := by omega
    have ht : G.take (min n m) = G.take n := by
      rcases Nat.le_total n m with h | h
      · rw [Nat.min_eq_left h]
      · rw [Nat.min_eq_right h, List.take_of_length_le (by omega), List.take_of_length_le (by omega)]
    rw [ht] at g4
    rw [g3, sliceTo_cons2, ← List.map_take, textVal_digits fun x hx => g1 x (List.mem_of_mem_take hx), List.length_take, hl]
    have g5 : (digVal (G.take n) : ℚ) = (⌊d.value * 10 ^ min n m⌋ : ℤ) := by exact_mod_cast g4
    rw [g5]
    have hpos : (0 : ℚ) < 10 ^ min n m := by positivity
    refine ⟨by rw [div_le_iff₀ hpos]; exact Int.floor_le _, ?_⟩
    rcases Nat.le_total n m with h | h
    · rw [Nat.min_eq_left h] at hpos ⊢
      have h1 := Int.lt_floor_add_one (d.value * 10 ^ n)
      have h2 : d.value < (⌊d.value * 10 ^ n⌋ + 1) / 10 ^ n := by rw [lt_div_iff₀ hpos]; exact h1
      rw [add_div] at h2
      exact h2.trans_le (by gcongr; exact le_max_left _ _)
    · rw [Nat.min_eq_right h] at hpos ⊢
      have h1 : d.value * 10 ^ m = (d.coef : ℤ) := by
        rw [hv0, hm, zpow_neg, zpow_natCast]
        field_simp
        push_cast
        rfl
      have h2 : (⌊d.value * 10 ^ m⌋ : ℚ) = d.value * 10 ^ m := by rw [h1, Int.floor_intCast]
      rw [h2, mul_div_assoc, div_self hpos.ne', mul_one]
      linarith
  by_cases h0 : d.coef = 0
  · have hz : d.value = 0 := by rw [hv0, h0]; simp
    have hn : strNat d.coef = ['0'] := by rw [h0]; rfl
    have : textVal (sliceTo d.eng ((n : ℤ) + 1 + 1)) = 0 := by
      have key : ∀ dot : ℤ, -1 ≤ dot → dot ≤ 1 → ∀ t : Str, (t = [] → dot = 1) → (t = [] ∨ ∃ r, t = 'E' :: r) →
          textVal (sliceTo (placed ['0'] dot ++ t) ((n : ℤ) + 1 + 1)) = 0 := by
        intro dot h1 h2 t ht1 ht2
        rw [placed]
        split
        · rename_i hd
          rcases ht2 with rfl | ⟨r, rfl⟩
          · have := ht1 rfl; omega
          · rw [List.cons_append, List.cons_append, sliceTo_cons2, ← List.replicate_succ' (a := '0')]
            exact textVal_zeros _ _ _
        · rename_i hd
          obtain rfl : dot = 1 := by omega
          rcases ht2 with rfl | ⟨r, rfl⟩
          · rw [show sliceTo ((if ((['0'] : Str).length : ℤ) ≤ 1 then _ else _) ++ []) _ = ['0'] from by
              rw [if_pos (by simp)]; exact sliceTo_cons '0' [] n]
            rfl
          · rw [if_pos (by simp)]
            simp only [List.length_singleton, Nat.cast_one, sub_self, Int.toNat_zero, List.replicate_zero, List.append_nil,
              List.cons_append, List.nil_append]
            rw [sliceTo_cons2, textVal]
            rintro cs' h
            injection h with _ h
            injection h with h _
            cases h
      rw [Dec.eng, hs, hn]
      simp only [Bool.false_eq_true, if_false, List.nil_append]
      have hleft : d.left = d.exp + 1 := by rw [Dec.left, hn]; rfl
      refine key _ ?_ ?_ _ ?_ ?_
      · rw [Dec.dot]
        split
        · have := not_and.1 hp
          rcases lt_or_ge d.exp 0 with h | h
          · have := this h; push Not at this; omega
          · omega
        · omega
      · rw [Dec.dot]
        split
        · omega
        · omega
      · intro h
        rw [Dec.dot] at h ⊢
        split
        · rename_i hc
          have := not_and.1 hp
          rcases lt_or_ge d.exp 0 with h | h
          · have := this h; push Not at this; omega
          · omega
        · rename_i hc
          by_cases hq : d.left = (d.left + 1) % 3 - 1
          · omega
          · rw [if_neg hc, if_pos h0, if_neg hq] at h; cases h
      · split
        · exact .inl rfl
        · exact .inr ⟨_, rfl⟩
    rw [this, hz]
    exact ⟨le_rfl, by linarith⟩
  · have hexp : d.exp < 0 := by
      by_contra hc
      have h1 : (1 : ℚ) ≤ d.coef := by exact_mod_cast Nat.pos_of_ne_zero h0
      have h2 : (1 : ℚ) ≤ 10 ^ d.exp := one_le_zpow₀ (by norm_num) (by omega)
      rw [hv0] at hlt
      nlinarith
    have hsm := not_and.1 hp hexp
    push Not at hsm
    obtain ⟨x, ds, hx, hds, hnz, htext, hfold⟩ := exists_strNat d.coef
    have hx0 := hnz h0
    have hlen : (strNat d.coef).length = ds.length + 1 := by rw [htext]; simp
    have hcoef : 10 ^ ds.length ≤ d.coef := by
      have e : digVal (x :: ds) = x * 10 ^ ds.length + digVal ds := by
        rw [digVal, List.foldl_cons, foldl_digits]
        ring
      have hv : digVal (x :: ds) = d.coef := hfold
      have h1 : 1 * 10 ^ ds.length ≤ x * 10 ^ ds.length := Nat.mul_le_mul_right _ (Nat.pos_of_ne_zero hx0)
      omega
    have hleft : d.left ≤ -6 := by
      have h1 : (10 : ℚ) ^ (ds.length + d.exp) ≤ d.value := by
        rw [hv0, zpow_add₀ (by norm_num), zpow_natCast]
        exact mul_le_mul_of_nonneg_right (by exact_mod_cast hcoef) hz10.le
      have h2 : (10 : ℚ) ^ (ds.length + d.exp) < 10 ^ (-6 : ℤ) := h1.trans_lt (by
        have := hsm.1
        norm_num at this ⊢
        exact this)
      have h3 := (zpow_lt_zpow_iff_right₀ (by norm_num : (1 : ℚ) < 10)).1 h2
      rw [Dec.left, hlen]
      push_cast
      omega
    have : textVal (sliceTo d.eng ((n : ℤ) + 1 + 1)) = 0 := by
      have hdot : 0 < d.dot := by
        rw [Dec.dot, if_neg (by omega), if_neg h0]
        omega
      have hne : digitChar x ≠ '0' := by
        intro h
        have := Config.digitChar_toNat hx
        rw [h] at this
        simp at this
        exact hx0 this
      have : ∃ t, d.eng = digitChar x :: t := by
        rw [Dec.eng, hs, htext]
        simp only [Bool.false_eq_true, if_false, List.nil_append, List.map_cons]
        rw [placed, if_neg (by omega)]
        split
        · exact ⟨_, rfl⟩
        · obtain ⟨k, hk⟩ : ∃ k, d.dot.toNat = k + 1 := ⟨d.dot.toNat - 1, by omega⟩
          rw [hk, List.take_succ_cons]
          exact ⟨_, rfl⟩
      obtain ⟨t, ht⟩ := this
      rw [ht, sliceTo_cons, textVal_not_zero hne]
    rw [this, zero_add]
    exact ⟨hnn, hsm.1.trans_le (le_max_right _ _)⟩

/-- **C79 (partial, distance).** For all Decimals in `[0, 1)`: if the comparison with accuracy `n` is true, the numbers differ by less
than `10^-n` or by less than `10^-6`. (Less than `10^-n` is not guaranteed, see `C79_exponent_violated`.) -/
theorem C79_close_partial {eng : EngN} {x y : Num} {d e : Dec} {n : ℕ} (hx : eng x = .ok d.eng) (hy : eng y = .ok e.eng)
    (hd : d.neg = false) (hd1 : d.value < 1) (he : e.neg = false) (he1 : e.value < 1) (h : compareDec eng x y n = .ok true) :
    |d.value - e.value| < max (1 / 10 ^ n) (1 / 10 ^ 6) := by
  rw [compareDec, hx, hy] at h
  have h : sliceTo d.eng ((n : ℤ) + 1 + 1) = sliceTo e.eng ((n : ℤ) + 1 + 1) := by simpa using h
  obtain ⟨h1, h2⟩ := value_textVal hd hd1 n
  obtain ⟨h3, h4⟩ := value_textVal he he1 n
  rw [h] at h1 h2
  rw [abs_lt]
  constructor <;> linarith

example : compareDec (engOf fun x => if x = .fin 1 then ⟨false, 14159265, -8⟩ else ⟨false, 14159999, -8⟩) (.fin 1) (.fin 2) 5 = .ok true ∧
    (Dec.mk false 14159265 (-8)).value < 1 := by
  refine ⟨by decide +kernel, ?_⟩
  simp [Dec.value, zpow_neg]
  norm_num

/-- **C79 (violated, zeros at the end).** 0.5 and 0.50 are the same number, but compared with accuracy 2 they are different. -/
theorem C79_zeros_violated (eng : EngN) (x y : Num) (hx : eng x = .ok (Dec.mk false 5 (-1)).eng)
    (hy : eng y = .ok (Dec.mk false 50 (-2)).eng) :
    compareDec eng x y 2 = .ok false ∧ (Dec.mk false 5 (-1)).value = (Dec.mk false 50 (-2)).value := by
  have e1 : (Dec.mk false 5 (-1)).eng = "0.5".toList := by decide +kernel
  have e2 : (Dec.mk false 50 (-2)).eng = "0.50".toList := by decide +kernel
  constructor
  · rw [compareDec, hx, hy, e1, e2]
    rfl
  · simp only [Dec.value, Bool.false_eq_true, if_false]
    norm_num

/-- **C79 (violated, small numbers).** 1E-9 and 2E-9 have the same first 8 digits after the point, all zero, but compared with
accuracy 1 they are different. -/
theorem C79_small_violated (eng : EngN) (x y : Num) (hx : eng x = .ok (Dec.mk false 1 (-9)).eng)
    (hy : eng y = .ok (Dec.mk false 2 (-9)).eng) :
    compareDec eng x y 1 = .ok false ∧ SameDigits (Dec.mk false 1 (-9)).value (Dec.mk false 2 (-9)).value 8 := by
  have e1 : (Dec.mk false 1 (-9)).eng = "1E-9".toList := by decide +kernel
  have e2 : (Dec.mk false 2 (-9)).eng = "2E-9".toList := by decide +kernel
  constructor
  · rw [compareDec, hx, hy, e1, e2]
    rfl
  · simp only [SameDigits, Dec.value, Bool.false_eq_true, if_false]
    norm_num

/-- **C79 (violated, exponents).** 1.2345678E-9 and 1.2345678E-12 have different ninth digits after the point, but compared with accuracy 9 they
are equal: the exponent is cut off. -/
theorem C79_exponent_violated (eng : EngN) (x y : Num) (hx : eng x = .ok (Dec.mk false 12345678 (-16)).eng)
    (hy : eng y = .ok (Dec.mk false 12345678 (-19)).eng) :
    compareDec eng x y 9 = .ok true ∧ ¬ SameDigits (Dec.mk false 12345678 (-16)).value (Dec.mk false 12345678 (-19)).value 9 := by
  have e1 : (Dec.mk false 12345678 (-16)).eng = "1.2345678E-9".toList := by decide +kernel
  have e2 : (Dec.mk false 12345678 (-19)).eng = "1.2345678E-12".toList := by decide +kernel
  constructor
  · rw [compareDec, hx, hy, e1, e2]
    rfl
  · simp only [SameDigits, Dec.value, Bool.false_eq_true, if_false]
    norm_num

/-- **C79 (violated, mpf).** With the numbers of the current code every comparison raises AttributeError. -/
theorem C79_mpf_violated (x y : Num) (n : ℤ) : compareDec mpfEngN x y n = .error .attributeError := rfl

end PiCF.DecStr
