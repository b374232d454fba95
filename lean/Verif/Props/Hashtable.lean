import Verif.Lemmas.Hashtable

/-!
# C24-C33: the decimal hashtable
-/

namespace PiCF
open PiCF.Hashtable PiCF.Hashtable.Table PiCF.Spec

variable {V : Type}

/-! ### C24 -/

/-- Writing succeeds exactly for keys with a decimal text. -/
theorem C24_write_succeeds_iff (eng : Eng) (t : Table V) (k : Key) (v : V) :
    (setItem eng k v t).2 = .ok () ↔ (text eng k).isSome := by
  cases h : text eng k with
  | some s => simp [setItem_eq v h]
  | none =>
    obtain ⟨e, he, -⟩ := manipulate_of_no_text (t := t) h
    simp [setItem, he]

/-- **C24.** After a successful `t[k] = v`, `t[k]` is `v` and `k in t`, for every table state. -/
theorem C24_read_your_write (eng : Eng) (t : Table V) (k : Key) (v : V) (h : (setItem eng k v t).2 = .ok ()) :
    getItem eng (setItem eng k v t).1 k = .ok v ∧ containsItem eng (setItem eng k v t).1 k = .ok true := by
  obtain ⟨s, hs⟩ := Option.isSome_iff_exists.1 ((C24_write_succeeds_iff eng t k v).1 h)
  have hold : oldKeys (setItem eng k v t).1 s = oldKeys t s := by rw [setItem_eq v hs]; rfl
  have hcur : curKey (setItem eng k v t).1 s = curKey t s := by rw [setItem_eq v hs]; rfl
  have key : (setItem eng k v t).1.data.get?
      ((firstOld (setItem eng k v t).1.data (oldKeys (setItem eng k v t).1 s)).getD
        (curKey (setItem eng k v t).1 s)) = some v := by
    rw [hold, hcur, get?_setItem v hs]
    cases hf : firstOld (setItem eng k v t).1.data (oldKeys t s) with
    | none => simp
    | some c =>
      obtain ⟨hm, w, hw⟩ := firstOld_some hf
      rw [get?_setItem v hs] at hw
      by_cases hc : c = curKey t s
      · simp [hc]
      · simp [hc, hm] at hw
  refine ⟨?_, ?_⟩
  · rw [getItem_eq hs]; exact rawGet_ok.2 key
  · rw [containsItem_eq hs, key]; rfl

/-- A table with two accuracies, one of them lower. -/
def exTable : Table ℕ :=
  { accuracy := 6, history := [3], data := [(.str "3.14".toList, 1), (.str "2.71828".toList, 2)] }

example : (setItem mpfEng (.str "3.14159265".toList) 7 exTable).2 = .ok () ∧
    (setItem mpfEng (.str "3.14159265".toList) 7 exTable).1 =
      { exTable with data := [(.str "2.71828".toList, 2), (.str "3.14159".toList, 7)] } := by decide +kernel

/-! ### C25 -/

/-- The writes `t[k1] = v1; t[k2] = v2; …` -/
def writes (eng : Eng) (t : Table V) : List (Key × V) → Table V
  | [] => t
  | (k, v) :: ws => writes eng (setItem eng k v t).1 ws

/-- **C25.** With a constant accuracy `n` the table is a map keyed by the first `n + 2` characters: after any
history of writes, reading `k` gives the last value written to a key with the same first `n + 2`
characters, and `KeyError` if there was none. -/
theorem C25_prefix_map (eng : Eng) (n : ℕ) (ws : List (Key × V)) (log : List (Str × V))
    (hlog : List.Forall₂ (fun w l => text eng w.1 = some l.1 ∧ w.2 = l.2) ws log)
    (k : Key) (s : Str) (hk : text eng k = some s) :
    getItem eng (writes eng (Table.init n) ws) k =
      match lastWrite (n + 2) log s with
      | some v => .ok v
      | none => .error .keyError := by
  have hcur : ∀ (t : Table V) (s : Str), t.accuracy = n + 1 → curKey t s = .str (s.take (n + 2)) := by
    intro t s ht
    have h1 : t.accuracy + 1 = ((n + 2 : ℕ) : ℤ) := by rw [ht]; push_cast; ring
    rw [curKey, h1, sliceTo, if_pos (by positivity), Int.toNat_natCast]
  have main : ∀ (t : Table V) (acc : Option V), t.accuracy = n + 1 → t.history = [] →
      t.data.get? (.str (s.take (n + 2))) = acc →
      getItem eng (writes eng t ws) k =
        match log.foldl (fun acc w => if w.1.take (n + 2) = s.take (n + 2) then some w.2 else acc) acc with
        | some v => .ok v
        | none => .error .keyError := by
    induction hlog with
    | nil =>
      intro t acc ht hh hacc
      rw [writes, getItem_eq hk, oldKeys, hh, hcur t s ht]
      simp [firstOld, rawGet, hacc]
      cases acc <;> rfl
    | @cons w l ws log hw _ ih =>
      obtain ⟨k', v⟩ := w
      obtain ⟨s', v'⟩ := l
      obtain ⟨h1, h2⟩ := hw
      simp only at h1 h2
      subst h2
      intro t acc ht hh hacc
      rw [writes, List.foldl_cons]
      apply ih
      · rw [setItem_eq v h1]; exact ht
      · rw [setItem_eq v h1]; exact hh
      · rw [get?_setItem v h1, hcur t s' ht, oldKeys, hh]
        by_cases hp : s'.take (n + 2) = s.take (n + 2)
        · simp [hp]
        · simp [hp, Ne.symm hp, hacc]
  exact main (Table.init n) none rfl rfl rfl

example : getItem mpfEng (writes mpfEng (Table.init 2)
    [(.str "3.141".toList, 1), (.str "2.71".toList, 2), (.str "3.149".toList, 3)]) (.str "3.14159".toList)
      = .ok 3 := by decide +kernel

/-- **C25, negative accuracies.** `Table.init n` with `n < -2` cuts characters off the end: a value written to `k` is found
under `k'` exactly when the texts without their last `-(n + 2)` characters agree. -/
theorem C25_negative_accuracy (eng : Eng) (m : ℕ) (hm : 0 < m) (k k' : Key) (s s' : Str) (v : V) (hk : text eng k = some s)
    (hk' : text eng k' = some s') :
    getItem eng (setItem eng k v (Table.init (-(m : ℤ) - 2))).1 k' =
      if (s.reverse.drop m).reverse = (s'.reverse.drop m).reverse then .ok v else .error .keyError := by
  have cut : ∀ u : Str, sliceTo u (-(m : ℤ) - 2 + 1 + 1) = (u.reverse.drop m).reverse := by
    intro u
    rw [sliceTo, if_neg (by omega), List.drop_reverse, List.reverse_reverse]
    congr 1
    omega
  set t : Table V := Table.init (-(m : ℤ) - 2) with ht
  have hcur : ∀ u, curKey t u = .str (u.reverse.drop m).reverse := fun u => by rw [curKey, ← cut u]; rfl
  have h1 : oldKeys (setItem eng k v t).1 s' = [] := by rw [setItem_eq v hk]; rfl
  have h2 : curKey (setItem eng k v t).1 s' = curKey t s' := by rw [setItem_eq v hk]; rfl
  rw [getItem_eq hk', h1, h2, show firstOld (setItem eng k v t).1.data [] = none from rfl, Option.getD_none, rawGet,
    get?_setItem v hk, hcur, hcur]
  by_cases hp : (s.reverse.drop m).reverse = (s'.reverse.drop m).reverse
  · rw [if_pos (by rw [hp]), if_pos hp]
  · rw [if_neg (by simpa [eq_comm] using hp), if_neg hp]
    rfl

example : getItem mpfEng (setItem mpfEng (.str "3.14".toList) 1 (Table.init (-3))).1 (.str "3.15".toList) = .ok 1 ∧
    getItem mpfEng (setItem mpfEng (.str "3.14".toList) 1 (Table.init (-3))).1 (.str "3.2".toList) = .error .keyError := by
  decide +kernel

/-! ### C26 -/

theorem getItem_updateAccuracy {eng : Eng} {t : Table V} {k : Key} {v : V} (acc : ℤ)
    (h : getItem eng t k = .ok v) : getItem eng (t.updateAccuracy acc) k = .ok v := by
  cases hs : text eng k with
  | none =>
    obtain ⟨e, he, -⟩ := manipulate_of_no_text (t := t) hs
    simp [getItem, he] at h
  | some s =>
    rw [getItem_eq hs] at h ⊢
    have ho : oldKeys (t.updateAccuracy acc) s = oldKeys t s ++ [curKey t s] := by
      simp [oldKeys, updateAccuracy, curKey]
    have hd : (t.updateAccuracy acc).data = t.data := rfl
    rw [ho, hd, firstOld, List.find?_append]
    rw [firstOld] at h
    cases hf : (oldKeys t s).find? t.data.contains with
    | some c => rw [hf] at h; simpa using h
    | none =>
      rw [hf] at h
      simp only [Option.getD_none] at h
      have hc : t.data.contains (curKey t s) = true := by
        rw [Dict.contains, rawGet_ok.1 h]; rfl
      simpa [List.find?, hc] using h

/-- **C26.** Every value found under `k` is still found there after any sequence of `update_accuracy` calls, so a
value written before them is not lost. -/
theorem C26_accuracy_change_keeps_values (eng : Eng) (t : Table V) (k : Key) (v : V) (accs : List ℤ) :
    (getItem eng t k = .ok v → getItem eng (accs.foldl updateAccuracy t) k = .ok v) ∧
    ((setItem eng k v t).2 = .ok () → getItem eng (accs.foldl updateAccuracy (setItem eng k v t).1) k = .ok v) := by
  have main : ∀ (accs : List ℤ) (t : Table V), getItem eng t k = .ok v →
      getItem eng (accs.foldl updateAccuracy t) k = .ok v := by
    intro accs
    induction accs with
    | nil => exact fun _ h => h
    | cons a accs ih => exact fun t h => ih _ (getItem_updateAccuracy a h)
  exact ⟨main accs t, fun h => main accs _ (C24_read_your_write eng t k v h).1⟩

example : getItem mpfEng exTable (.str "3.14159".toList) = .ok 1 ∧
    ([2, 9, -3].foldl updateAccuracy exTable).history = [3, 6, 3, 10] := by decide +kernel

/-! ### C27 -/

/-- **C27 (negated).** Writing `3.14159265` at accuracy 5 deletes the entry written for `3.14999999` at the
earlier accuracy 2, although the two keys differ within the current accuracy. -/
theorem C27_violated : ∃ (t : Table ℕ) (k k' : Str),
    sliceTo k (t.accuracy + 1) ≠ sliceTo k' (t.accuracy + 1) ∧
    getItem mpfEng t (.str k') = .ok 1 ∧
    getItem mpfEng (setItem mpfEng (.str k) 7 t).1 (.str k') = .error .keyError ∧
    t = ((setItem mpfEng (.str k') 1 (Table.init 2)).1).updateAccuracy 5 :=
  ⟨{ accuracy := 6, history := [3], data := [(.str "3.14".toList, 1)] }, "3.14159265".toList,
    "3.14999999".toList, by decide +kernel, by decide +kernel, by decide +kernel, by decide +kernel⟩

/-- **C27 (partial).** Writing `k` leaves the value (or its absence) at `k'` unchanged if no entry of an earlier
accuracy is shared by both and the entry written is not one consulted for `k'`.  Missing: keys sharing an
entry written at an earlier, lower accuracy (see `C27_violated`). -/
theorem C27_others_undisturbed_partial (eng : Eng) (t : Table V) (k k' : Key) (s s' : Str) (v : V)
    (hk : text eng k = some s) (hk' : text eng k' = some s')
    (hshared : ∀ i ∈ t.history, ∀ j ∈ t.accuracy :: t.history, sliceTo s (i + 1) = sliceTo s' (j + 1) →
      ¬ present t (.str (sliceTo s (i + 1))))
    (hcur : ∀ j ∈ t.accuracy :: t.history, sliceTo s (t.accuracy + 1) ≠ sliceTo s' (j + 1)) :
    getItem eng (setItem eng k v t).1 k' = getItem eng t k' ∧
    containsItem eng (setItem eng k v t).1 k' = containsItem eng t k' := by
  have hg : ∀ j ∈ t.accuracy :: t.history, (setItem eng k v t).1.data.get? (.str (sliceTo s' (j + 1))) =
      t.data.get? (.str (sliceTo s' (j + 1))) := by
    intro j hj
    rw [get?_setItem v hk, if_neg]
    · split
      · rename_i hm
        obtain ⟨i, hi, he⟩ := List.mem_map.1 hm
        simp only [Key.str.injEq] at he
        have := hshared i hi j hj he
        rw [he] at this
        exact ((Dict.get?_eq_none_iff _ _).2 this).symm
      · rfl
    · rw [curKey, Key.str.injEq]
      exact fun e => hcur j hj e.symm
  have hold : oldKeys (setItem eng k v t).1 s' = oldKeys t s' := by rw [setItem_eq v hk]; rfl
  have hcu : curKey (setItem eng k v t).1 s' = curKey t s' := by rw [setItem_eq v hk]; rfl
  have hfirst : firstOld (setItem eng k v t).1.data (oldKeys t s') = firstOld t.data (oldKeys t s') := by
    rw [firstOld, firstOld, oldKeys]
    apply find?_congr'
    intro c hc
    obtain ⟨i, hi, rfl⟩ := List.mem_map.1 hc
    rw [Dict.contains, Dict.contains, hg i (List.mem_cons_of_mem _ hi)]
  have hsel : (setItem eng k v t).1.data.get? ((firstOld t.data (oldKeys t s')).getD (curKey t s')) =
      t.data.get? ((firstOld t.data (oldKeys t s')).getD (curKey t s')) := by
    cases hf : firstOld t.data (oldKeys t s') with
    | none => exact hg _ List.mem_cons_self
    | some c =>
      obtain ⟨hm, -⟩ := firstOld_some hf
      obtain ⟨i, hi, rfl⟩ := List.mem_map.1 hm
      exact hg i (List.mem_cons_of_mem _ hi)
  constructor
  · rw [getItem_eq hk', getItem_eq hk', hold, hcu, hfirst, rawGet, rawGet, hsel]
  · rw [containsItem_eq hk', containsItem_eq hk', hold, hcu, hfirst, hsel]

example : (∀ i ∈ exTable.history, ∀ j ∈ exTable.accuracy :: exTable.history,
      sliceTo "2.999".toList (i + 1) = sliceTo "3.14159".toList (j + 1) →
      ¬ .str (sliceTo "2.999".toList (i + 1)) ∈ exTable.data.keys) ∧
    (∀ j ∈ exTable.accuracy :: exTable.history,
      sliceTo "2.999".toList (exTable.accuracy + 1) ≠ sliceTo "3.14159".toList (j + 1)) := by decide +kernel

/-! ### C28 -/

/-- **C28 (negated).** `del t[k]` of an entry written at the current accuracy succeeds and removes nothing: for every
table in which no entry of an earlier accuracy matches `k`. -/
theorem C28_violated (eng : Eng) (t : Table V) (k : Key) (s : Str) (v : V) (hk : text eng k = some s)
    (hv : getItem eng t k = .ok v) (hold : ∀ i ∈ t.history, ¬ present t (.str (sliceTo s (i + 1)))) :
    delItem eng k t = (t, .ok ()) ∧ containsItem eng t k = .ok true := by
  have hf : firstOld t.data (oldKeys t s) = none := by
    rw [firstOld_none]
    intro c hc
    obtain ⟨i, hi, rfl⟩ := List.mem_map.1 hc
    exact (Dict.get?_eq_none_iff _ _).2 (hold i hi)
  rw [getItem_eq hk, hf, Option.getD_none] at hv
  constructor
  · rw [delItem, manipulate_of_text hk]
    simp only [hf, hv]
  · rw [containsItem_eq hk, hf, Option.getD_none, rawGet_ok.1 hv]; rfl

example : getItem mpfEng (setItem mpfEng (.str "3.14159".toList) 1 (Table.init 2)).1 (.str "3.14159".toList) = .ok 1 ∧
    delItem mpfEng (.str "3.14159".toList) (setItem mpfEng (.str "3.14159".toList) 1 (Table.init 2)).1
      = ((setItem mpfEng (.str "3.14159".toList) 1 (Table.init 2)).1, .ok ()) := by decide +kernel

/-- **C28 (partial).** If `k` is found through exactly one of the consulted keys and that one belongs to an earlier
accuracy, `del t[k]` removes it and changes no other entry.  If `k` is not in the table, `del` raises
`KeyError` and changes nothing.  Missing: entries of the current accuracy, which are never deleted
(`C28_violated`). -/
theorem C28_delete_partial (eng : Eng) (t : Table V) (k : Key) (s : Str) (hk : text eng k = some s) :
    (∀ i ∈ t.history, present t (.str (sliceTo s (i + 1))) →
      (∀ j ∈ t.accuracy :: t.history, sliceTo s (j + 1) ≠ sliceTo s (i + 1) → ¬ present t (.str (sliceTo s (j + 1)))) →
      (delItem eng k t).2 = .ok () ∧
      containsItem eng (delItem eng k t).1 k = .ok false ∧
      (delItem eng k t).1.accuracy = t.accuracy ∧ (delItem eng k t).1.history = t.history ∧
      ∀ c, c ≠ .str (sliceTo s (i + 1)) → (delItem eng k t).1.data.get? c = t.data.get? c) ∧
    (containsItem eng t k = .ok false → delItem eng k t = (t, .error .keyError)) := by
  constructor
  · intro i hi hp hu
    have hf : firstOld t.data (oldKeys t s) = some (.str (sliceTo s (i + 1))) := by
      cases hf : firstOld t.data (oldKeys t s) with
      | none =>
        have := firstOld_none.1 hf _ (List.mem_map.2 ⟨i, hi, rfl⟩)
        exact absurd hp ((Dict.get?_eq_none_iff _ _).1 this)
      | some c =>
        obtain ⟨hm, v, hv⟩ := firstOld_some hf
        obtain ⟨j, hj, rfl⟩ := List.mem_map.1 hm
        by_cases he : sliceTo s (j + 1) = sliceTo s (i + 1)
        · rw [he]
        · exact absurd ((Dict.mem_keys_iff _ _).2 ⟨v, hv⟩) (hu j (List.mem_cons_of_mem _ hj) he)
    have hdel : delItem eng k t = ({ t with data := t.data.erase (.str (sliceTo s (i + 1))) }, .ok ()) := by
      rw [delItem, manipulate_of_text hk]
      simp only [hf]
    rw [hdel]
    refine ⟨rfl, ?_, rfl, rfl, fun c hc => Dict.get?_erase_ne _ hc⟩
    have hnone : ∀ j ∈ t.accuracy :: t.history,
        Dict.get? (t.data.erase (.str (sliceTo s (i + 1)))) (.str (sliceTo s (j + 1))) = none := by
      intro j hj
      rw [Dict.get?_erase]
      split
      · rfl
      · rename_i hne
        exact (Dict.get?_eq_none_iff _ _).2 (hu j hj (fun e => hne (by rw [e])))
    rw [containsItem_eq hk]
    have hf2 : firstOld (t.data.erase (.str (sliceTo s (i + 1))))
        (oldKeys { t with data := t.data.erase (.str (sliceTo s (i + 1))) } s) = none := by
      rw [firstOld_none]
      intro c hc
      obtain ⟨j, hj, rfl⟩ := List.mem_map.1 hc
      exact hnone j (List.mem_cons_of_mem _ hj)
    simp only [hf2, Option.getD_none]
    have := hnone t.accuracy List.mem_cons_self
    rw [curKey]
    simp only [this, Option.isSome_none]
  · intro h
    rw [containsItem_eq hk] at h
    cases hf : firstOld t.data (oldKeys t s) with
    | some c =>
      obtain ⟨-, v, hv⟩ := firstOld_some hf
      simp [hf, hv] at h
    | none =>
      rw [hf] at h
      simp only [Option.getD_none, Except.ok.injEq, Option.isSome_eq_false_iff, Option.isNone_iff_eq_none] at h
      rw [delItem, manipulate_of_text hk]
      simp only [hf, rawGet, h]

example : (delItem mpfEng (.str "3.14159".toList) exTable).1.data = [(.str "2.71828".toList, 2)] := by decide +kernel

/-! ### C29 -/

/-- **C29 (negated).** After `t['3.14159'] = 1` at accuracy 2, `t['3.14159']` is 1 but `get` returns the default,
`setdefault` stores a second entry, and `pop` raises `KeyError`. -/
theorem C29_violated : ∃ (t : Table ℕ) (k : Key), t = (setItem mpfEng k 1 (Table.init 2)).1 ∧
    getItem mpfEng t k = .ok 1 ∧ t.get k 9 = 9 ∧ (setDefault k 9 t).2 = .ok 9 ∧
    (pop k t).2 = .error .keyError :=
  ⟨_, .str "3.14159".toList, rfl, by decide +kernel, by decide +kernel, by decide +kernel, by decide +kernel⟩

/-- **C29 (negated, numbers).** A number stored with `setdefault` — as the hashtable builder does — is never seen by
`t[k]` or `k in t`: with `mpf` keys these raise AttributeError, and with any number type that has
`to_eng_string` the entry is not consulted. -/
theorem C29_violated_numbers (eng : Eng) (t : Table V) (x : ℚ) (v : V) :
    (eng = mpfEng → getItem eng (setDefault (.num x) v t).1 (.num x) = .error .attributeError ∧
      containsItem eng (setDefault (.num x) v t).1 (.num x) = .error .attributeError) ∧
    (∀ s, eng x = .ok s → getItem eng (setDefault (.num x) v t).1 (.num x) = getItem eng t (.num x) ∧
      containsItem eng (setDefault (.num x) v t).1 (.num x) = containsItem eng t (.num x)) := by
  constructor
  · rintro rfl
    exact ⟨rfl, rfl⟩
  · intro s hs
    have ht : text eng (.num x) = some s := by simp [text, hs, Except.toOption]
    have hacc : (setDefault (.num x) v t).1.accuracy = t.accuracy := by rw [setDefault]; split <;> rfl
    have hhist : (setDefault (.num x) v t).1.history = t.history := by rw [setDefault]; split <;> rfl
    have hget : ∀ c : Str, (setDefault (.num x) v t).1.data.get? (.str c) = t.data.get? (.str c) := by
      intro c
      rw [setDefault]
      split
      · rfl
      · exact Dict.get?_set_ne _ _ (by simp)
    have hfirst : firstOld (setDefault (.num x) v t).1.data (oldKeys (setDefault (.num x) v t).1 s) =
        firstOld t.data (oldKeys t s) := by
      rw [firstOld, firstOld, oldKeys, oldKeys, hhist]
      apply find?_congr'
      intro c hc
      obtain ⟨i, _, rfl⟩ := List.mem_map.1 hc
      rw [Dict.contains, Dict.contains, hget]
    have hcur : curKey (setDefault (.num x) v t).1 s = curKey t s := by rw [curKey, curKey, hacc]
    have hsel : (setDefault (.num x) v t).1.data.get? ((firstOld t.data (oldKeys t s)).getD (curKey t s)) =
        t.data.get? ((firstOld t.data (oldKeys t s)).getD (curKey t s)) := by
      cases hf : firstOld t.data (oldKeys t s) with
      | none => exact hget _
      | some c =>
        obtain ⟨hm, -⟩ := firstOld_some hf
        obtain ⟨i, _, rfl⟩ := List.mem_map.1 hm
        exact hget _
    constructor
    · rw [getItem_eq ht, getItem_eq ht, hfirst, hcur, rawGet, rawGet, hsel]
    · rw [containsItem_eq ht, containsItem_eq ht, hfirst, hcur, hsel]

/-- **C29 (partial).** For string keys not longer than the current accuracy and without a matching entry of an earlier
accuracy, `get`, `setdefault` and `pop` address the entry of `t[k]`.  Missing: longer strings, numbers, and
entries of earlier accuracies. -/
theorem C29_inherited_methods_partial (eng : Eng) (t : Table V) (s : Str) (d : V)
    (hlen : (s.length : ℤ) ≤ t.accuracy + 1) (hold : ∀ i ∈ t.history, ¬ present t (.str (sliceTo s (i + 1)))) :
    (∀ v, getItem eng t (.str s) = .ok v → t.get (.str s) d = v ∧ setDefault (.str s) d t = (t, .ok v) ∧
      (pop (.str s) t).2 = .ok v ∧ containsItem eng (pop (.str s) t).1 (.str s) = .ok false) ∧
    (getItem eng t (.str s) = .error .keyError → t.get (.str s) d = d ∧
      (setDefault (.str s) d t).2 = .ok d ∧ getItem eng (setDefault (.str s) d t).1 (.str s) = .ok d ∧
      pop (.str s) t = (t, .error .keyError)) := by
  have ht : text eng (.str s) = some s := rfl
  have hslice : sliceTo s (t.accuracy + 1) = s := by
    rw [sliceTo, if_pos (by omega)]
    exact List.take_of_length_le (by omega)
  have hcur : curKey t s = .str s := by rw [curKey, hslice]
  have hf : firstOld t.data (oldKeys t s) = none := by
    rw [firstOld_none]
    intro c hc
    obtain ⟨i, hi, rfl⟩ := List.mem_map.1 hc
    exact (Dict.get?_eq_none_iff _ _).2 (hold i hi)
  have hget : getItem eng t (.str s) = rawGet t.data (.str s) := by
    rw [getItem_eq ht, hf, hcur, Option.getD_none]
  have hne : t.data.get? (.str s) = none → ∀ c ∈ oldKeys t s, c = .str s → t.data.get? c = none := by
    rintro h c _ rfl; exact h
  constructor
  · intro v hv
    rw [hget, rawGet_ok] at hv
    refine ⟨by simp [Table.get, hv], by simp [setDefault, hv], by simp [pop, hv], ?_⟩
    have hp : (pop (.str s) t).1 = { t with data := t.data.erase (.str s) } := by simp [pop, hv]
    rw [hp, containsItem_eq ht]
    have hf2 : firstOld (t.data.erase (.str s)) (oldKeys { t with data := t.data.erase (.str s) } s) = none := by
      rw [firstOld_none]
      intro c hc
      rw [Dict.get?_erase]
      split
      · rfl
      · exact firstOld_none.1 hf c hc
    have hc2 : curKey { t with data := t.data.erase (.str s) } s = .str s := hcur
    simp only [hf2, hc2, Option.getD_none, Dict.get?_erase_self, Option.isSome_none]
  · intro hv
    have hn : t.data.get? (.str s) = none := by
      rw [hget, rawGet] at hv
      cases h : t.data.get? (.str s) with
      | none => rfl
      | some v => rw [h] at hv; cases hv
    refine ⟨by simp [Table.get, hn], by simp [setDefault, hn], ?_, by simp [pop, hn]⟩
    have hp : (setDefault (.str s) d t).1 = { t with data := t.data.set (.str s) d } := by simp [setDefault, hn]
    rw [hp, getItem_eq ht, rawGet_ok]
    have hc2 : curKey { t with data := t.data.set (.str s) d } s = .str s := hcur
    simp only [hc2]
    cases hf2 : firstOld (t.data.set (.str s) d) (oldKeys { t with data := t.data.set (.str s) d } s) with
    | none => simp
    | some c =>
      obtain ⟨hm, w, hw⟩ := firstOld_some hf2
      have h3 := firstOld_none.1 hf c hm
      rw [Dict.get?_set] at hw
      split at hw
      · rename_i hcs; simp [hcs]
      · rw [h3] at hw; cases hw

example : (("2.71828".toList.length : ℤ) ≤ exTable.accuracy + 1) ∧
    (∀ i ∈ exTable.history, ¬ .str (sliceTo "2.71828".toList (i + 1)) ∈ exTable.data.keys) ∧
    getItem mpfEng exTable (.str "2.71828".toList) = .ok 2 := by decide +kernel

/-! ### C30 -/

/-- Every operation keeps the keys of the dict distinct, so the hypothesis of C30-C33 holds for every table that
the code can build. -/
theorem C30_wf (eng : Eng) {α : Type} (t : Table V) (h : WF t) (k : Key) (v : V) (a : ℤ) (o u : Table (Val α))
    (hu : WF u) :
    WF (Table.init a : Table V) ∧ WF (t.updateAccuracy a) ∧ WF (setItem eng k v t).1 ∧ WF (delItem eng k t).1 ∧
    WF (setDefault k v t).1 ∧ WF (pop k t).1 ∧ WF (appendDict o u).1 := by
  refine ⟨List.nodup_nil, h, ?_, ?_, ?_, ?_, ?_⟩
  · rw [setItem]
    split
    · exact h
    · exact Dict.nodup_set (dropOld_nodup _ h) _ _
  · rw [delItem]
    split
    · exact h
    · split
      · exact Dict.nodup_erase h _
      · split <;> exact h
  · rw [setDefault]
    split
    · exact h
    · exact Dict.nodup_set h _ _
  · rw [pop]
    split
    · exact Dict.nodup_erase h _
    · exact h
  · rw [appendDict]
    split
    · exact hu
    · exact appendLoop_nodup _ _ hu

theorem foldl_set_nodup (l d : Dict Key V) (h : (d ++ l).keys.Nodup) :
    l.foldl (fun d kv => d.set kv.1 kv.2) d = d ++ l := by
  induction l generalizing d with
  | nil => simp
  | cons x l ih =>
    obtain ⟨k, v⟩ := x
    have hk : k ∉ d.keys := by
      intro hk
      rw [Dict.keys, List.map_append, List.nodup_append] at h
      exact h.2.2 k hk k (by simp) rfl
    have hset : ∀ d : Dict Key V, k ∉ d.keys → d.set k v = d ++ [(k, v)] := by
      intro d
      induction d with
      | nil => intro _; rfl
      | cons y d ih2 =>
        obtain ⟨k', v'⟩ := y
        intro hn
        have h1 : k' ≠ k := by rintro rfl; exact hn (by simp [Dict.keys])
        have h2 : k ∉ Dict.keys d := fun hm => hn (List.mem_cons_of_mem _ hm)
        simp only [Dict.set, h1, if_false, ih2 h2, List.cons_append]
    rw [List.foldl_cons, hset d hk, ih]
    · simp
    · simpa using h

/-- **C30.** Pickling and unpickling gives the same table: same accuracy, history, entries and order. -/
theorem C30_pickle_round_trip (t : Table V) (h : WF t) : unpickle (reduce t) = t := by
  have : t.data.foldl (fun d kv => Dict.set d kv.1 kv.2) ([] : Dict Key V) = t.data := by
    rw [foldl_set_nodup]
    · rfl
    · exact h
  simp only [unpickle, reduce, update, Table.init, this]

example : WF exTable ∧ unpickle (reduce exTable) = exTable :=
  ⟨by unfold WF; decide +kernel, C30_pickle_round_trip _ (by unfold WF; decide +kernel)⟩

/-! ### C31 -/

/-- **C31.** `append_dict(other)` raises TypeError exactly when the accuracies differ (changing nothing); otherwise every
key of either table is present afterwards, no other key is, the entries are the old ones followed by the appended
ones, and every lookup that succeeded in either table succeeds in the result. -/
theorem C31_append_dict {α : Type} (eng : Eng) (t o : Table (Val α)) (ho : WF o) :
    (t.accuracy ≠ o.accuracy → appendDict o t = (t, .error .typeError)) ∧
    (t.accuracy = o.accuracy → ∃ r, appendDict o t = (r, .ok ()) ∧ r.accuracy = t.accuracy ∧
      (∀ k, present r k ↔ present t k ∨ present o k) ∧
      (∀ k, entries r k = entries t k ++ entries o k) ∧
      (∀ k v, getItem eng t k = .ok v ∨ getItem eng o k = .ok v → ∃ v', getItem eng r k = .ok v')) := by
  constructor
  · intro h; rw [appendDict, if_pos h]
  intro h
  refine ⟨⟨t.accuracy, t.history ++ o.history.filter (fun a => !t.history.contains a),
    appendLoop t.data o.data⟩, by rw [appendDict, if_neg (by simpa using h)], rfl, ?_, ?_, ?_⟩
  · intro k
    rw [present, present, present, Dict.mem_keys_iff, Dict.mem_keys_iff, Dict.mem_keys_iff]
    simp only [get?_appendLoop _ _ ho]
    cases t.data.get? k <;> cases o.data.get? k <;> simp
  · intro k
    rw [Val.toList_entries, Val.toList_entries, Val.toList_entries]
    simp only [get?_appendLoop _ _ ho]
    cases t.data.get? k <;> cases o.data.get? k <;> simp [Val.toList]
  · intro k v hv
    cases hs : text eng k with
    | none =>
      obtain ⟨e, he, he'⟩ := manipulate_of_no_text (t := t) hs
      simp [getItem, he, he' o] at hv
    | some s =>
      set r : Table (Val α) := ⟨t.accuracy, t.history ++ o.history.filter (fun a => !t.history.contains a),
        appendLoop t.data o.data⟩ with hr
      have hpres : ∀ c, (∃ w, t.data.get? c = some w) ∨ (∃ w, o.data.get? c = some w) →
          ∃ w, r.data.get? c = some w := by
        intro c hc
        show ∃ w, (appendLoop t.data o.data).get? c = some w
        rw [get?_appendLoop _ _ ho]
        rcases hc with ⟨w, hw⟩ | ⟨w, hw⟩
        · rw [hw]; cases o.data.get? c <;> simp
        · rw [hw]; cases t.data.get? c <;> simp
      have hfin : ∀ c ∈ oldKeys r s ++ [curKey r s], (∃ w, r.data.get? c = some w) →
          ∃ v', getItem eng r k = .ok v' := by
        rintro c hc ⟨w, hw⟩
        rw [getItem_eq hs]
        cases hf : firstOld r.data (oldKeys r s) with
        | some c' =>
          obtain ⟨-, w', hw'⟩ := firstOld_some hf
          exact ⟨w', rawGet_ok.2 hw'⟩
        | none =>
          rcases List.mem_append.1 hc with hc | hc
          · rw [firstOld_none.1 hf c hc] at hw; cases hw
          · rw [List.mem_singleton] at hc; subst hc
            exact ⟨w, rawGet_ok.2 hw⟩
      have hsub : ∀ u : Table (Val α), (∀ a ∈ u.history, a ∈ r.history) → u.accuracy = r.accuracy →
          (∀ c w, u.data.get? c = some w → ∃ w, r.data.get? c = some w) →
          getItem eng u k = .ok v → ∃ v', getItem eng r k = .ok v' := by
        intro u h1 h2 h3 h4
        rw [getItem_eq hs, rawGet_ok] at h4
        refine hfin _ ?_ (h3 _ _ h4)
        cases hf : firstOld u.data (oldKeys u s) with
        | none => simp [curKey, h2]
        | some c =>
          obtain ⟨hm, -⟩ := firstOld_some hf
          obtain ⟨i, hi, rfl⟩ := List.mem_map.1 hm
          exact List.mem_append_left _ (List.mem_map.2 ⟨i, h1 i hi, rfl⟩)
      rcases hv with hv | hv
      · exact hsub t (fun a ha => List.mem_append_left _ ha) rfl (fun c w hw => hpres c (.inl ⟨w, hw⟩)) hv
      · refine hsub o (fun a ha => ?_) h.symm (fun c w hw => hpres c (.inr ⟨w, hw⟩)) hv
        by_cases hm : a ∈ t.history
        · exact List.mem_append_left _ hm
        · exact List.mem_append_right _ (List.mem_filter.2 ⟨ha, by simpa using hm⟩)

/-- Two tables with a common key, one value not being a list. -/
def exJoin1 : Table (Val ℕ) := { accuracy := 3, history := [], data := [(.str "3.14".toList, .list [1, 2]), (.num 5, .item 9)] }
def exJoin2 : Table (Val ℕ) := { accuracy := 3, history := [7], data := [(.num 5, .list [4]), (.str "2.71".toList, .list [3])] }

example : WF exJoin2 ∧ exJoin1.accuracy = exJoin2.accuracy ∧ (appendDict exJoin2 exJoin1).1 =
    { accuracy := 3, history := [7], data := [(.str "3.14".toList, .list [1, 2]), (.num 5, .list [9, 4]),
        (.str "2.71".toList, .list [3])] } := by
  refine ⟨by unfold WF; decide +kernel, rfl, by decide +kernel⟩

/-! ### C32 -/

theorem joinLoop_spec {α : Type} (ts : List (Table (Val α))) (t : Table (Val α)) (hwf : ∀ u ∈ ts, WF u) :
    if ∀ u ∈ ts, u.accuracy = t.accuracy then
      ∃ r, joinLoop t ts = .ok r ∧ r.accuracy = t.accuracy ∧
        (∀ k, entries r k = entries t k ++ ts.flatMap (entries · k)) ∧
        (∀ k, present r k ↔ ∃ u ∈ t :: ts, present u k)
    else joinLoop t ts = .error .typeError := by
  induction ts generalizing t with
  | nil => simp [joinLoop]
  | cons o ts ih =>
    obtain ⟨h1, h2⟩ := C31_append_dict mpfEng t o (hwf o List.mem_cons_self)
    by_cases ha : t.accuracy = o.accuracy
    · obtain ⟨r, hr, hra, hrp, hre, -⟩ := h2 ha
      have := ih r (fun u hu => hwf u (List.mem_cons_of_mem _ hu))
      rw [joinLoop, hr]
      simp only
      rw [hra] at this
      by_cases hall : ∀ u ∈ ts, u.accuracy = t.accuracy
      · rw [if_pos hall] at this
        rw [if_pos (by simpa [ha] using hall)]
        obtain ⟨r', h3, h4, h5, h6⟩ := this
        refine ⟨r', h3, h4, ?_, ?_⟩
        · intro k; rw [h5, hre]; simp
        · intro k
          rw [h6]
          simp only [List.mem_cons, exists_eq_or_imp, hrp]
          tauto
      · rw [if_neg hall] at this
        rw [if_neg (fun h => hall fun u hu => h u (List.mem_cons_of_mem _ hu)), this]
    · rw [if_neg (fun h => ha (h o List.mem_cons_self).symm), joinLoop, h1 ha]

/-- **C32.** For every two listing orders of the same hashtable files, the join fails for both (with the same
exception: no file, or files of different accuracy) or succeeds for both, and then the two results have the
same keys and, key by key, the same collection of entries. -/
theorem C32_join_order {α : Type} (l₁ l₂ : List (Table (Val α))) (hwf : ∀ u ∈ l₁, WF u) (hp : l₁.Perm l₂) :
    (∃ e, joinTables l₁ = .error e ∧ joinTables l₂ = .error e) ∨
    ∃ r₁ r₂, joinTables l₁ = .ok r₁ ∧ joinTables l₂ = .ok r₂ ∧ r₁.accuracy = r₂.accuracy ∧
      (∀ k, present r₁ k ↔ present r₂ k) ∧
      ∀ k, (entries r₁ k).Perm (entries r₂ k) ∧ (entries r₁ k).Perm (l₁.flatMap (entries · k)) := by
  cases l₁ with
  | nil =>
    rw [List.nil_perm.1 hp]
    exact .inl ⟨_, rfl, rfl⟩
  | cons t₁ ts₁ =>
    cases l₂ with
    | nil => exact absurd hp.symm.nil_eq (by simp)
    | cons t₂ ts₂ =>
      have hwf2 : ∀ u ∈ ts₂, WF u := fun u hu => hwf u (hp.mem_iff.2 (List.mem_cons_of_mem _ hu))
      have s₁ := joinLoop_spec ts₁ t₁ (fun u hu => hwf u (List.mem_cons_of_mem _ hu))
      have s₂ := joinLoop_spec ts₂ t₂ hwf2
      by_cases hall : ∀ u ∈ t₁ :: ts₁, ∀ w ∈ t₁ :: ts₁, u.accuracy = w.accuracy
      · have m2 : t₂ ∈ t₁ :: ts₁ := hp.mem_iff.2 List.mem_cons_self
        rw [if_pos (fun u hu => hall u (List.mem_cons_of_mem _ hu) t₁ List.mem_cons_self)] at s₁
        rw [if_pos (fun u hu => hall u (hp.mem_iff.2 (List.mem_cons_of_mem _ hu)) t₂ m2)] at s₂
        obtain ⟨r₁, a1, a2, a3, a4⟩ := s₁
        obtain ⟨r₂, b1, b2, b3, b4⟩ := s₂
        refine .inr ⟨r₁, r₂, a1, b1, ?_, ?_, ?_⟩
        · rw [a2, b2]; exact hall _ List.mem_cons_self _ m2
        · intro k
          rw [a4, b4]
          exact ⟨fun ⟨u, hu, h⟩ => ⟨u, hp.mem_iff.1 hu, h⟩, fun ⟨u, hu, h⟩ => ⟨u, hp.mem_iff.2 hu, h⟩⟩
        · intro k
          have e1 : entries r₁ k = (t₁ :: ts₁).flatMap (entries · k) := by rw [a3]; rfl
          have e2 : entries r₂ k = (t₂ :: ts₂).flatMap (entries · k) := by rw [b3]; rfl
          rw [e1, e2]
          exact ⟨hp.flatMap_right _, .refl _⟩
      · left
        refine ⟨.typeError, ?_, ?_⟩
        · rw [if_neg] at s₁
          · exact s₁
          · intro h
            apply hall
            have : ∀ u ∈ t₁ :: ts₁, u.accuracy = t₁.accuracy := by
              intro u hu
              rcases List.mem_cons.1 hu with rfl | hu
              · rfl
              · exact h u hu
            intro u hu w hw
            rw [this u hu, this w hw]
        · rw [if_neg] at s₂
          · exact s₂
          · intro h
            apply hall
            have : ∀ u ∈ t₂ :: ts₂, u.accuracy = t₂.accuracy := by
              intro u hu
              rcases List.mem_cons.1 hu with rfl | hu
              · rfl
              · exact h u hu
            intro u hu w hw
            rw [this u (hp.mem_iff.1 hu), this w (hp.mem_iff.1 hw)]

example : (∀ u ∈ [exJoin1, exJoin2], WF u) ∧ ∃ r₁ r₂, joinTables [exJoin1, exJoin2] = .ok r₁ ∧
    joinTables [exJoin2, exJoin1] = .ok r₂ ∧ r₁ ≠ r₂ ∧ entries r₁ (.num 5) = [9, 4] ∧
    entries r₂ (.num 5) = [4, 9] :=
  ⟨by unfold WF; decide +kernel, _, _, rfl, rfl, by decide +kernel, by decide +kernel, by decide +kernel⟩

/-! ### C33 -/

theorem fixLoop_eq (bad : List ℤ → Bool) (orig kept : List Entry) (i removed : ℕ) (h : kept.length + removed = i) :
    fixLoop bad orig i removed (kept ++ orig) = kept ++ orig.filter (fun e => e.1.2.all fun b => !bad b) := by
  induction orig generalizing kept i removed with
  | nil => simp [fixLoop]
  | cons e orig ih =>
    rw [fixLoop]
    have hi : i - removed = kept.length := by omega
    by_cases hb : e.1.2.any bad = true
    · have hg : (e.1.2.all fun b => !bad b) = false := by
        rw [List.all_eq_false]
        obtain ⟨x, hx, hbx⟩ := List.any_eq_true.1 hb
        exact ⟨x, hx, by simp [hbx]⟩
      rw [if_pos hb, hi, List.eraseIdx_append_of_length_le (le_refl _), Nat.sub_self]
      rw [List.eraseIdx_cons_zero, ih kept (i + 1) (removed + 1) (by omega), List.filter_cons, hg]
      simp
    · have hg : (e.1.2.all fun b => !bad b) = true := by
        rw [List.all_eq_true]
        intro x hx
        have : ¬ bad x = true := fun hbx => hb (List.any_eq_true.2 ⟨x, hx, hbx⟩)
        simpa using this
      rw [if_neg hb, List.filter_cons, hg, if_pos rfl]
      have := ih (kept ++ [e]) (i + 1) removed (by simp; omega)
      simpa using this

theorem dict_set_mid {W : Type} (pre rest : Dict Key W) (k : Key) (v w : W) (h : k ∉ pre.keys) :
    Dict.set (pre ++ (k, v) :: rest) k w = pre ++ (k, w) :: rest := by
  induction pre with
  | nil => simp [Dict.set]
  | cons x pre ih =>
    obtain ⟨k', v'⟩ := x
    have h1 : k' ≠ k := by rintro rfl; exact h List.mem_cons_self
    have h2 : k ∉ Dict.keys pre := fun hm => h (List.mem_cons_of_mem _ hm)
    simp only [List.cons_append, Dict.set, h1, if_false, ih h2]

theorem dict_erase_absent {W : Type} (d : Dict Key W) (k : Key) (h : k ∉ d.keys) : d.erase k = d := by
  induction d with
  | nil => rfl
  | cons x d ih =>
    obtain ⟨k', v'⟩ := x
    have h1 : k' ≠ k := by rintro rfl; exact h List.mem_cons_self
    have h2 : k ∉ Dict.keys d := fun hm => h (List.mem_cons_of_mem _ hm)
    simp only [Dict.erase, h1, if_false, ih h2]

theorem dict_erase_mid {W : Type} (pre rest : Dict Key W) (k : Key) (v : W) (h : k ∉ pre.keys) (h' : k ∉ rest.keys) :
    Dict.erase (pre ++ (k, v) :: rest) k = pre ++ rest := by
  induction pre with
  | nil => simp [Dict.erase, dict_erase_absent rest k h']
  | cons x pre ih =>
    obtain ⟨k', v'⟩ := x
    have h1 : k' ≠ k := by rintro rfl; exact h List.mem_cons_self
    have h2 : k ∉ Dict.keys pre := fun hm => h (List.mem_cons_of_mem _ hm)
    simp only [List.cons_append, Dict.erase, h1, if_false, ih h2]

theorem dict_get?_mid {W : Type} (pre rest : Dict Key W) (k : Key) (v : W) (h : k ∉ pre.keys) :
    Dict.get? (pre ++ (k, v) :: rest) k = some v := by
  induction pre with
  | nil => simp [Dict.get?]
  | cons x pre ih =>
    obtain ⟨k', v'⟩ := x
    have h1 : k' ≠ k := by rintro rfl; exact h List.mem_cons_self
    have h2 : k ∉ Dict.keys pre := fun hm => h (List.mem_cons_of_mem _ hm)
    simp only [List.cons_append, Dict.get?, h1, if_false, ih h2]

theorem cleaned_keys (bad : List ℤ → Bool) (d : Dict Key (List Entry)) (k : Key)
    (h : k ∈ Dict.keys (cleaned bad d)) : k ∈ d.keys := by
  obtain ⟨x, hx, rfl⟩ := List.mem_map.1 h
  obtain ⟨⟨k', es⟩, hy, he⟩ := List.mem_filterMap.1 hx
  refine List.mem_map.2 ⟨(k', es), hy, ?_⟩
  simp only at he
  split at he
  · simp only [Option.some.injEq] at he; rw [← he]
  · split at he
    · cases he
    · simp only [Option.some.injEq] at he; rw [← he]

theorem fixKeys_spec (eng : Eng) (bad : List ℤ → Bool) (acc : ℤ) (rest pre : Dict Key (List Entry))
    (hn : (pre ++ rest).keys.Nodup) (hkeys : ∀ k ∈ rest.keys, ∃ s, k = .str s ∧ (s.length : ℤ) ≤ acc + 1) :
    fixKeys eng bad (rest.keys.erase paramsKey) ⟨acc, [], pre ++ rest⟩ =
      (⟨acc, [], pre ++ cleaned bad rest⟩, .ok ()) := by
  induction rest generalizing pre with
  | nil => rfl
  | cons x rest ih =>
    obtain ⟨k, es⟩ := x
    have hn0 := hn
    rw [Dict.keys, List.map_append, List.nodup_append] at hn0
    obtain ⟨n1, n2, n3⟩ := hn0
    have hkpre : k ∉ Dict.keys pre := fun hk => n3 k hk k (by simp) rfl
    have hkrest : k ∉ Dict.keys rest := (List.nodup_cons.1 n2).1
    have hrest : ∀ k ∈ Dict.keys rest, ∃ s, k = .str s ∧ (s.length : ℤ) ≤ acc + 1 :=
      fun k hk => hkeys k (List.mem_cons_of_mem _ hk)
    have ek : Dict.keys ((k, es) :: rest) = k :: Dict.keys rest := rfl
    by_cases hp : k = paramsKey
    · subst hp
      rw [ek, List.erase_cons_head]
      have := ih (pre ++ [(paramsKey, es)]) (by simpa using hn) hrest
      rw [List.erase_of_not_mem hkrest] at this
      have hc : cleaned bad ((paramsKey, es) :: rest) =
          (paramsKey, es) :: cleaned bad rest := by
        simp [cleaned]
      rw [hc]
      simpa using this
    · rw [ek, List.erase_cons_tail (by simpa using hp), fixKeys]
      obtain ⟨s, rfl, hs⟩ := hkeys k List.mem_cons_self
      have hcur : sliceTo s (acc + 1) = s := by
        rw [sliceTo, if_pos (by omega)]
        exact List.take_of_length_le (by omega)
      have hmid := dict_get?_mid pre rest (.str s) es hkpre
      have hloop : fixLoop bad es 0 0 es = es.filter (fun e => e.1.2.all fun b => !bad b) := by
        simpa using fixLoop_eq bad es [] 0 0 rfl
      by_cases hes : es.filter (fun e => e.1.2.all fun b => !bad b) = []
      · have hstep : fixKey eng bad (.str s) ⟨acc, [], pre ++ (.str s, es) :: rest⟩ = (⟨acc, [], pre ++ rest⟩, .ok ()) := by
          have h1 := dict_get?_mid pre rest (.str s) ([] : List Entry) hkpre
          have h2 := dict_erase_mid pre rest (.str s) ([] : List Entry) hkpre hkrest
          simp [fixKey, manipulateKey, hcur, firstOld, hmid, hloop, hes,
            dict_set_mid pre rest (.str s) es [] hkpre, pop, h1, h2]
        rw [PyM.bind_ok hstep, ih pre (hn.sublist ?_) hrest]
        · have hc : cleaned bad ((.str s, es) :: rest) = cleaned bad rest := by
            rw [cleaned, List.filterMap_cons_none]
            · rfl
            · simp only [hp, if_false, hes]
          rw [hc]
        · exact List.Sublist.map _ (List.Sublist.append_left (List.sublist_cons_self _ _) _)
      · have hstep : fixKey eng bad (.str s) ⟨acc, [], pre ++ (.str s, es) :: rest⟩ =
            (⟨acc, [], pre ++ (.str s, es.filter (fun e => e.1.2.all fun b => !bad b)) :: rest⟩, .ok ()) := by
          have hl : (es.filter (fun e => e.1.2.all fun b => !bad b)).length ≠ 0 := by
            rw [Ne, List.length_eq_zero_iff]; exact hes
          simp only [fixKey, manipulateKey, hcur, firstOld, List.map_nil, List.find?_nil, Option.getD_none, hmid,
            hloop, dict_set_mid pre rest (.str s) es _ hkpre]
          rw [if_neg hl]
        rw [PyM.bind_ok hstep]
        have := ih (pre ++ [(.str s, es.filter (fun e => e.1.2.all fun b => !bad b))])
          (by simpa [Dict.keys] using hn) hrest
        have hc : cleaned bad ((.str s, es) :: rest) =
            (.str s, es.filter (fun e => e.1.2.all fun b => !bad b)) :: cleaned bad rest := by
          rw [cleaned, List.filterMap_cons_some (b := (.str s, es.filter (fun e => e.1.2.all fun b => !bad b)))]
          · rfl
          · simp only [hp, if_false]
        rw [hc]
        simpa using this

/-- **C33 (partial).** On a hashtable filled through `t[k] = v` at one accuracy the script keeps exactly the entries
without an offending b polynomial, in order, and drops the keys that become empty.  Missing: numeric keys and
tables with several accuracies (see `C33_violated`), and tables without a `'parameters'` key, for which
the script raises ValueError. -/
theorem C33_cleanup_partial (eng : Eng) (bad : List ℤ → Bool) (t : Table (List Entry)) (hwf : WF t)
    (hh : t.history = []) (hkeys : ∀ k ∈ t.data.keys, ∃ s, k = .str s ∧ (s.length : ℤ) ≤ t.accuracy + 1)
    (hp : present t paramsKey) :
    fixMain eng bad t = ({ t with data := cleaned bad t.data }, .ok ()) := by
  obtain ⟨acc, hist, d⟩ := t
  simp only at hh
  subst hh
  rw [fixMain]
  have hp' : paramsKey ∈ Dict.keys d := hp
  simp only [if_pos hp']
  exact fixKeys_spec eng bad acc d [] hwf hkeys

/-- A hashtable with two keys, one of which loses everything. -/
def exFix : Table (List Entry) :=
  { accuracy := 9, history := [],
    data := [(.str "3.14159265".toList, [(([[1]], [[0]]), 0), (([[1]], [[1, 1]]), 2), (([[2]], [[0]]), 1)]),
      (paramsKey, []), (.str "2.71828".toList, [(([[1]], [[0]]), 0)])] }

example : (WF exFix ∧ exFix.history = [] ∧ present exFix paramsKey) ∧
    (∀ k ∈ exFix.data.keys, ∃ s, k = .str s ∧ (s.length : ℤ) ≤ exFix.accuracy + 1) ∧
    (fixMain mpfEng (fun b => b == [0]) exFix).1.data =
      [(.str "3.14159265".toList, [(([[1]], [[1, 1]]), 2)]), (paramsKey, [])] := by
  refine ⟨by unfold WF present; decide +kernel, ?_, rfl⟩
  intro k hk
  have : k = .str "3.14159265".toList ∨ k = paramsKey ∨ k = .str "2.71828".toList := by
    simpa [exFix, Dict.keys] using hk
  rcases this with rfl | rfl | rfl
  · exact ⟨_, rfl, by decide⟩
  · exact ⟨_, rfl, by decide⟩
  · exact ⟨_, rfl, by decide⟩

/-- **C33 (negated).** (1) The builder stores numeric keys with `setdefault`; for such a table the script raises
AttributeError and removes nothing.  (2) With an accuracy history the offending entry of a key can
survive: the script looks at an entry of an earlier accuracy instead. -/
theorem C33_violated (x : ℚ) (e : Entry) (bad : List ℤ → Bool) :
    (∃ t : Table (List Entry), t.data = [(.num x, [e]), (paramsKey, [])] ∧ t.accuracy = 9 ∧
      t.history = [] ∧ fixMain mpfEng bad t = (t, .error .attributeError)) ∧
    (∃ t : Table (List Entry), t.accuracy = 9 ∧ t.history = [3] ∧
      t.data.keys = [.str "3.14".toList, .str "3.14159265".toList, paramsKey] ∧
      t.data.get? (.str "3.14159265".toList) = some [(([[1]], [[0]]), 0)] ∧
      (fixMain mpfEng (fun b => b == [0]) t).2 = .ok () ∧
      (fixMain mpfEng (fun b => b == [0]) t).1.data.get? (.str "3.14159265".toList) = some [(([[1]], [[0]]), 0)]) := by
  refine ⟨⟨⟨9, [], [(.num x, [e]), (paramsKey, [])]⟩, rfl, rfl, rfl, ?_⟩, ?_⟩
  · rfl
  · exact ⟨⟨9, [3], [(.str "3.14".toList, [(([[1]], [[1]]), 0)]),
      (.str "3.14159265".toList, [(([[1]], [[0]]), 0)]), (paramsKey, [])]⟩, rfl, rfl, rfl, rfl,
      by decide +kernel, by decide +kernel⟩

end PiCF
