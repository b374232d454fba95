import Mathlib.Tactic.Linarith
import Mathlib.Tactic.Ring
import Mathlib.Data.List.Perm.Basic
import Mathlib.Algebra.Order.Ring.Rat
import Verif.Spec.Hashtable

/-!
# Lemmas about the decimal hashtable
-/

namespace PiCF
open PiCF.Hashtable PiCF.Hashtable.Table PiCF.Spec

variable {V : Type}

/-! ### Basic facts -/

/-- The keys consulted for a text: those of the earlier accuracies. -/
def oldKeys (t : Table V) (s : Str) : List Key := t.history.map fun i => Key.str (sliceTo s (i + 1))

/-- The key consulted for a text at the current accuracy. -/
def curKey (t : Table V) (s : Str) : Key := Key.str (sliceTo s (t.accuracy + 1))

theorem manipulate_of_text {eng : Eng} {t : Table V} {k : Key} {s : Str} (h : text eng k = some s) :
    t.manipulateKey eng k = .ok (oldKeys t s, curKey t s) := by
  cases k with
  | str s' => simp only [text, Option.some.injEq] at h; subst h; rfl
  | other n => cases h
  | num x =>
    simp only [text] at h
    cases hx : eng x with
    | error e => rw [hx] at h; cases h
    | ok s' =>
      rw [hx] at h
      simp only [Except.toOption, Option.some.injEq] at h
      subst h
      simp [manipulateKey, hx, oldKeys, curKey]

theorem manipulate_of_no_text {eng : Eng} {t : Table V} {k : Key} (h : text eng k = none) :
    ∃ e, t.manipulateKey eng k = .error e ∧ (∀ t' : Table V, t'.manipulateKey eng k = .error e) := by
  cases k with
  | str s' => cases h
  | other n => exact ⟨.typeError, rfl, fun _ => rfl⟩
  | num x =>
    simp only [text] at h
    cases hx : eng x with
    | error e => exact ⟨e, by simp [manipulateKey, hx], fun _ => by simp [manipulateKey, hx]⟩
    | ok s' => rw [hx] at h; cases h

theorem dropOld_get? (old : List Key) (d : Dict Key V) (k : Key) :
    (dropOld d old).get? k = if k ∈ old then none else d.get? k := by
  induction old generalizing d with
  | nil => simp [dropOld]
  | cons o old ih =>
    rw [dropOld, ih]
    by_cases hk : k ∈ old
    · simp [hk]
    · simp only [hk, if_false, List.mem_cons, or_false]
      by_cases ho : k = o
      · subst ho
        rw [if_pos rfl]
        split
        · exact Dict.get?_erase_self _ _
        · rename_i hc
          rw [Dict.contains] at hc
          simpa using hc
      · rw [if_neg ho]
        split
        · exact Dict.get?_erase_ne _ ho
        · rfl

theorem dropOld_nodup (old : List Key) {d : Dict Key V} (h : d.keys.Nodup) : (dropOld d old).keys.Nodup := by
  induction old generalizing d with
  | nil => exact h
  | cons o old ih =>
    rw [dropOld]
    apply ih
    split
    · exact Dict.nodup_erase h _
    · exact h

theorem firstOld_some {d : Dict Key V} {old : List Key} {k : Key} (h : firstOld d old = some k) :
    k ∈ old ∧ ∃ v, d.get? k = some v :=
  ⟨List.mem_of_find?_eq_some h, (Dict.contains_iff d k).1 (List.find?_some h)⟩

theorem firstOld_none {d : Dict Key V} {old : List Key} :
    firstOld d old = none ↔ ∀ k ∈ old, d.get? k = none := by
  rw [firstOld, List.find?_eq_none]
  simp [Dict.contains]

theorem find?_congr' {α : Type} {p q : α → Bool} {l : List α} (h : ∀ x ∈ l, p x = q x) : l.find? p = l.find? q := by
  induction l with
  | nil => rfl
  | cons x l ih =>
    rw [List.find?_cons, List.find?_cons, h x List.mem_cons_self, ih fun y hy => h y (List.mem_cons_of_mem _ hy)]

/-- Reading is reading the first present one of the consulted keys. -/
theorem getItem_eq {eng : Eng} {t : Table V} {k : Key} {s : Str} (h : text eng k = some s) :
    t.getItem eng k = rawGet t.data ((firstOld t.data (oldKeys t s)).getD (curKey t s)) := by
  rw [getItem, manipulate_of_text h]
  cases hf : firstOld t.data (oldKeys t s) <;> simp [hf]


/-- `k in t` says whether `t[k]` finds something. -/
theorem containsItem_eq {eng : Eng} {t : Table V} {k : Key} {s : Str} (h : text eng k = some s) :
    t.containsItem eng k =
      .ok (t.data.get? ((firstOld t.data (oldKeys t s)).getD (curKey t s))).isSome := by
  rw [containsItem, manipulate_of_text h]
  cases hf : firstOld t.data (oldKeys t s) with
  | some k' =>
    obtain ⟨_, v, hv⟩ := firstOld_some hf
    simp [hf, hv]
  | none => simp [hf, Dict.contains]

theorem rawGet_ok {d : Dict Key V} {k : Key} {v : V} : rawGet d k = .ok v ↔ d.get? k = some v := by
  rw [rawGet]; cases d.get? k <;> simp

theorem setItem_eq {eng : Eng} {t : Table V} {k : Key} {s : Str} (v : V) (h : text eng k = some s) :
    setItem eng k v t = ({ t with data := (dropOld t.data (oldKeys t s)).set (curKey t s) v }, .ok ()) := by
  rw [setItem, manipulate_of_text h]

/-- Reading after a write. -/
theorem get?_setItem {eng : Eng} {t : Table V} {k : Key} {s : Str} (v : V) (h : text eng k = some s) (c : Key) :
    (setItem eng k v t).1.data.get? c =
      if c = curKey t s then some v else if c ∈ oldKeys t s then none else t.data.get? c := by
  rw [setItem_eq v h]
  simp only [Dict.get?_set, dropOld_get?]

/-- `append_dict` on the raw entries. -/
theorem get?_appendLoop {α : Type} (o d : Dict Key (Val α)) (ho : o.keys.Nodup) (k : Key) :
    (appendLoop d o).get? k =
      match d.get? k, o.get? k with
      | some w, some v => some (.list (w.toList ++ v.toList))
      | some w, none => some w
      | none, x => x := by
  induction o generalizing d with
  | nil => rw [appendLoop]; cases hd : d.get? k <;> simp [Dict.get?]
  | cons x o ih =>
    obtain ⟨k', v'⟩ := x
    have hn : k' ∉ Dict.keys o ∧ (Dict.keys o).Nodup := by simpa [Dict.keys] using ho
    have step : ∀ w, (appendLoop (d.set k' w) o).get? k =
        if k = k' then some w else
      match d.get? k, Dict.get? o k with
      | some w, some v => some (.list (w.toList ++ v.toList))
      | some w, none => some w
      | none, x => x := by
      intro w
      rw [ih _ hn.2, Dict.get?_set]
      by_cases hk : k = k'
      · subst hk
        rw [if_pos rfl, if_pos rfl, (Dict.get?_eq_none_iff o k).2 hn.1]
      · rw [if_neg hk, if_neg hk]
    rw [appendLoop]
    cases hd : d.get? k' with
    | some w =>
      simp only
      rw [step]
      by_cases hk : k = k'
      · subst hk; simp [Dict.get?, hd]
      · simp [Dict.get?, hk, Ne.symm hk]
    | none =>
      simp only
      rw [step]
      by_cases hk : k = k'
      · subst hk; simp [Dict.get?, hd]
      · simp [Dict.get?, hk, Ne.symm hk]

theorem appendLoop_nodup {α : Type} (o d : Dict Key (Val α)) (hd : d.keys.Nodup) : (appendLoop d o).keys.Nodup := by
  induction o generalizing d with
  | nil => exact hd
  | cons x o ih =>
    obtain ⟨k', v'⟩ := x
    rw [appendLoop]
    split <;> exact ih _ (Dict.nodup_set hd _ _)

theorem Val.toList_entries {α : Type} (t : Table (Val α)) (k : Key) :
    entries t k = ((t.data.get? k).map Val.toList).getD [] := by
  rw [entries]
  cases t.data.get? k with
  | none => rfl
  | some w => cases w <;> rfl

end PiCF
