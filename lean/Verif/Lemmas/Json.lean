import Verif.Model.Json
import Verif.Lemmas.Latex

/-!
# Reading back the text of lists of integers
-/

namespace PiCF.Json
open PiCF.Hashtable PiCF.PyStr

/-- Nested lists of integers (and single integers). -/
inductive IntLists : Val → Prop where
  | int (n : ℤ) : IntLists (.int n)
  | arr {l : List Val} (h : ∀ v ∈ l, IntLists v) : IntLists (.arr l)

theorem digitChar_facts {d : ℕ} (h : d < 10) :
    isDigit (digitChar d) = true ∧ (digitChar d).toNat - 48 = d ∧ (d ≠ 0 → digitChar d ≠ '0') ∧ isWs (digitChar d) = false := by
  interval_cases d <;> decide

theorem digitsVal_map {ds : List ℕ} (h : ∀ d ∈ ds, d < 10) (n : ℕ) :
    (ds.map digitChar).foldl (fun n c => 10 * n + (c.toNat - 48)) n = ds.foldl (fun n d => 10 * n + d) n := by
  induction ds generalizing n with
  | nil => rfl
  | cons d ds ih =>
    rw [List.map_cons, List.foldl_cons, List.foldl_cons, (digitChar_facts (h d List.mem_cons_self)).2.1,
      ih fun x hx => h x (List.mem_cons_of_mem _ hx)]

/-- The text after a number does not go on with a digit. -/
def NoDigit (r : Str) : Prop := ∀ c ∈ r.head?, isDigit c = false

theorem takeWhile_append_digits {ds : List ℕ} (h : ∀ d ∈ ds, d < 10) {r : Str} (hr : NoDigit r) :
    (ds.map digitChar ++ r).takeWhile isDigit = ds.map digitChar ∧ (ds.map digitChar ++ r).dropWhile isDigit = r := by
  induction ds with
  | nil =>
    cases r with
    | nil => simp
    | cons c r => have := hr c (by simp); simp [this]
  | cons d ds ih =>
    have hd := (digitChar_facts (h d List.mem_cons_self)).1
    have := ih fun x hx => h x (List.mem_cons_of_mem _ hx)
    simp [hd, this]

theorem scanNat_strNat (n : ℕ) {r : Str} (hr : NoDigit r) : scanNat (strNat n ++ r) = some (n, r) := by
  by_cases h0 : n = 0
  · subst h0; rfl
  · obtain ⟨d, ds, h1, h2, h3, e1, e2⟩ := exists_strNat n
    have hd := digitChar_facts h1
    have ht := takeWhile_append_digits h2 hr
    rw [e1, List.map_cons, List.cons_append, scanNat, if_neg (hd.2.2.1 (h3 h0)), if_pos hd.1, ht.1, ht.2, digitsVal,
      ← List.map_cons, digitsVal_map (by simpa using ⟨h1, h2⟩), e2]

theorem exists_strNat_cons (n : ℕ) : ∃ c s, strNat n = c :: s ∧ isDigit c = true := by
  obtain ⟨d, ds, h1, -, -, e1, -⟩ := exists_strNat n
  exact ⟨_, _, e1, (digitChar_facts h1).1⟩

theorem scanInt_digit {c : Char} (hc : isDigit c = true) (s : Str) : scanInt (c :: s) = match scanNat (c :: s) with
    | some (n, r) => .ok (.int n, r)
    | none => .error .jsonDecodeError := by
  unfold scanInt
  split
  · rename_i e
    simp only [List.cons.injEq] at e
    rw [e.1] at hc
    exact absurd hc (by decide)
  · rfl

theorem scanInt_strInt (n : ℤ) {r : Str} (hr : NoDigit r) : scanInt (strInt n ++ r) = .ok (.int n, r) := by
  unfold strInt
  split
  · show scanInt ('-' :: (strNat n.natAbs ++ r)) = _
    rw [scanInt, scanNat_strNat _ hr]
    show Except.ok (Val.int (-(n.natAbs : ℤ)), r) = _
    rw [show -(n.natAbs : ℤ) = n by omega]
  · obtain ⟨c, s, e, hc⟩ := exists_strNat_cons n.natAbs
    have h1 := scanNat_strNat n.natAbs hr
    rw [e, List.cons_append] at h1 ⊢
    rw [scanInt_digit hc, h1]
    show Except.ok (Val.int (n.natAbs : ℤ), r) = _
    rw [show (n.natAbs : ℤ) = n by omega]

theorem exists_strInt_cons (n : ℤ) : ∃ c s, strInt n = c :: s ∧ (c = '-' ∨ isDigit c = true) := by
  unfold strInt
  split
  · exact ⟨_, _, rfl, .inl rfl⟩
  · obtain ⟨c, s, e, hc⟩ := exists_strNat_cons n.natAbs
    exact ⟨c, s, e, .inr hc⟩

theorem scanOnce_number (fuel : ℕ) {c : Char} (hc : c = '-' ∨ isDigit c = true) (s : Str) :
    scanOnce (fuel + 1) (c :: s) = scanInt (c :: s) := by
  rw [scanOnce]
  all_goals (intro r e; simp only [List.cons.injEq] at e; rw [e.1] at hc; exact absurd hc (by decide))

/-- The text of a value starts with a character that is neither white space nor a closing bracket. -/
theorem repr_head {v : Val} (h : IntLists v) : ∃ c s, v.repr = c :: s ∧ isWs c = false ∧ c ≠ ']' := by
  cases h with
  | int n =>
    obtain ⟨c, s, e, hc⟩ := exists_strInt_cons n
    refine ⟨c, s, by rw [Val.repr, e], ?_, ?_⟩
    · rcases hc with rfl | hc
      · decide
      · by_contra hw
        simp only [isWs, Bool.not_eq_false, Bool.or_eq_true, decide_eq_true_eq] at hw
        rcases hw with ((rfl | rfl) | rfl) | rfl <;> exact absurd hc (by decide)
    · rintro rfl
      exact absurd hc (by decide)
  | arr h =>
    rename_i l
    cases l with
    | nil => exact ⟨'[', [']'], by rw [Val.repr]; rfl, by decide, by decide⟩
    | cons v l => exact ⟨'[', v.repr ++ reprTail l, by rw [Val.repr]; rfl, by decide, by decide⟩

theorem skipWs_of_head {c : Char} {s : Str} (h : isWs c = false) : skipWs (c :: s) = c :: s := by
  rw [skipWs, List.dropWhile_cons, if_neg (by simp [h])]

theorem reprTail_noDigit (l : List Val) (r : Str) : NoDigit (reprTail l ++ r) := by
  cases l <;> rw [reprTail] <;> intro c hc <;> simp at hc <;> subst hc <;> decide

/-- The text of a value is read back, whatever follows. -/
theorem scanOnce_repr {v : Val} (h : IntLists v) : ∀ (fuel : ℕ) (r : Str), 2 * v.repr.length + 1 ≤ fuel → NoDigit r →
    scanOnce fuel (v.repr ++ r) = .ok (v, r) := by
  induction h with
  | int n =>
    intro fuel r hf hr
    obtain ⟨fuel, rfl⟩ : ∃ f, fuel = f + 1 := ⟨fuel - 1, by omega⟩
    obtain ⟨c, s, e, hc⟩ := exists_strInt_cons n
    have h1 := scanInt_strInt n hr
    rw [Val.repr]
    rw [e, List.cons_append] at h1 ⊢
    rw [scanOnce_number _ hc, h1]
  | @arr l hl ih =>
    intro fuel r hf hr
    have items : ∀ (l : List Val) (v : Val), IntLists v → (∀ w ∈ l, IntLists w) →
        (∀ w ∈ v :: l, ∀ (fuel : ℕ) (r : Str), 2 * w.repr.length + 1 ≤ fuel → NoDigit r → scanOnce fuel (w.repr ++ r) = .ok (w, r)) →
        ∀ fuel : ℕ, 2 * (v.repr.length + (reprTail l).length) + 2 ≤ fuel →
        scanItems fuel (v.repr ++ (reprTail l ++ r)) = .ok (v :: l, r) := by
      intro l
      induction l with
      | nil =>
        intro v hv _ ih fuel hf
        obtain ⟨fuel, rfl⟩ : ∃ f, fuel = f + 1 := ⟨fuel - 1, by omega⟩
        rw [scanItems, ih v List.mem_cons_self fuel _ (by omega) (reprTail_noDigit _ _)]
        simp only [reprTail]
        rfl
      | cons w l ihl =>
        intro v hv hl ih fuel hf
        obtain ⟨fuel, rfl⟩ : ∃ f, fuel = f + 1 := ⟨fuel - 1, by omega⟩
        rw [scanItems, ih v List.mem_cons_self fuel _ (by omega) (reprTail_noDigit _ _)]
        have hw := hl w List.mem_cons_self
        obtain ⟨c, s, e, h1, -⟩ := repr_head hw
        have hs : skipWs (' ' :: (w.repr ++ (reprTail l ++ r))) = w.repr ++ (reprTail l ++ r) := by
          rw [e]
          show skipWs (c :: _) = _
          rw [skipWs_of_head h1]
          rfl
        have hlen : (reprTail (w :: l)).length = w.repr.length + (reprTail l).length + 2 := by
          rw [reprTail]; simp [Nat.add_assoc]
        have := ihl w hw (fun x hx => hl x (List.mem_cons_of_mem _ hx)) (fun x hx => ih x (List.mem_cons_of_mem _ hx)) fuel (by omega)
        rw [reprTail]
        simp only [List.cons_append, List.append_assoc]
        rw [skipWs_of_head (by decide)]
        simp only [hs, this]
    obtain ⟨fuel, rfl⟩ : ∃ f, fuel = f + 1 := ⟨fuel - 1, by omega⟩
    cases l with
    | nil => rw [Val.repr]; rfl
    | cons v l =>
      have hv := hl v List.mem_cons_self
      obtain ⟨c, s, e, h1, h2⟩ := repr_head hv
      have hlen : (Val.arr (v :: l)).repr.length = v.repr.length + (reprTail l).length + 1 := by
        rw [Val.repr]; simp
      have := items l v hv (fun x hx => hl x (List.mem_cons_of_mem _ hx)) ih fuel (by omega)
      rw [Val.repr]
      simp only [List.cons_append, List.append_assoc]
      rw [scanOnce]
      have hs : skipWs (v.repr ++ (reprTail l ++ r)) = v.repr ++ (reprTail l ++ r) := by
        rw [e]
        exact skipWs_of_head h1
      rw [hs]
      split
      · rename_i e2
        rw [e] at e2
        simp only [List.cons_append, List.cons.injEq] at e2
        exact absurd e2.1 h2
      · rw [this]

/-- `json.loads(str(v)) = v` for nested lists of integers. -/
theorem loads_repr {v : Val} (h : IntLists v) : loads v.repr = .ok v := by
  obtain ⟨c, s, e, h1, -⟩ := repr_head h
  have hs : skipWs v.repr = v.repr := by rw [e]; exact skipWs_of_head h1
  have := scanOnce_repr h (2 * v.repr.length + 2) [] (by omega) (by intro c hc; simp at hc)
  rw [List.append_nil] at this
  rw [loads, hs, this]
  rfl

end PiCF.Json
