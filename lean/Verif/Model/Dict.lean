import Mathlib.Data.List.Basic
import Mathlib.Data.List.Nodup

/-!
# Python dictionaries

A `dict` is an association list in insertion order.  Overwriting a key keeps its position, deleting
removes it.  Keys are compared with `==` (decidable equality here).
-/

namespace PiCF

/-- A python `dict`, in iteration order. -/
abbrev Dict (K V : Type) := List (K × V)

namespace Dict
variable {K V : Type} [DecidableEq K]

/-- `d[k]` / `d.get(k)` -/
def get? : Dict K V → K → Option V
  | [], _ => none
  | (k', v) :: d, k => if k' = k then some v else get? d k

/-- `k in d` -/
def contains (d : Dict K V) (k : K) : Bool := (get? d k).isSome

/-- `d[k] = v` -/
def set : Dict K V → K → V → Dict K V
  | [], k, v => [(k, v)]
  | (k', v') :: d, k, v => if k' = k then (k', v) :: d else (k', v') :: set d k v

/-- `del d[k]` -/
def erase : Dict K V → K → Dict K V
  | [], _ => []
  | (k', v') :: d, k => if k' = k then erase d k else (k', v') :: erase d k

/-- `d.keys()` -/
def keys (d : Dict K V) : List K := d.map (·.1)

@[simp] theorem get?_set_self (d : Dict K V) (k : K) (v : V) : get? (set d k v) k = some v := by
  induction d with
  | nil => simp [set, get?]
  | cons x d ih =>
    obtain ⟨k', v'⟩ := x
    by_cases h : k' = k
    · simp [set, get?, h]
    · simp [set, get?, h, ih]

theorem get?_set_ne (d : Dict K V) {k k' : K} (v : V) (h : k' ≠ k) : get? (set d k v) k' = get? d k' := by
  induction d with
  | nil => simp [set, get?, h.symm]
  | cons x d ih =>
    obtain ⟨k'', v'⟩ := x
    by_cases h2 : k'' = k
    · subst h2; simp [set, get?, h.symm]
    · by_cases h3 : k'' = k'
      · subst h3; simp [set, get?, h]
      · simp [set, get?, h2, h3, ih]

theorem get?_set (d : Dict K V) (k k' : K) (v : V) : get? (set d k v) k' = if k' = k then some v else get? d k' := by
  by_cases h : k' = k
  · subst h; simp
  · rw [get?_set_ne d v h, if_neg h]

@[simp] theorem get?_erase_self (d : Dict K V) (k : K) : get? (erase d k) k = none := by
  induction d with
  | nil => simp [erase, get?]
  | cons x d ih =>
    obtain ⟨k', v'⟩ := x
    by_cases h : k' = k
    · simp [erase, h, ih]
    · simp [erase, get?, h, ih]

theorem get?_erase_ne (d : Dict K V) {k k' : K} (h : k' ≠ k) : get? (erase d k) k' = get? d k' := by
  induction d with
  | nil => simp [erase, get?]
  | cons x d ih =>
    obtain ⟨k'', v'⟩ := x
    by_cases h2 : k'' = k
    · subst h2; simp [erase, get?, h.symm, ih]
    · by_cases h3 : k'' = k'
      · subst h3; simp [erase, get?, h]
      · simp [erase, get?, h2, h3, ih]

theorem get?_erase (d : Dict K V) (k k' : K) : get? (erase d k) k' = if k' = k then none else get? d k' := by
  by_cases h : k' = k
  · subst h; simp
  · rw [get?_erase_ne d h, if_neg h]

theorem contains_iff (d : Dict K V) (k : K) : contains d k = true ↔ ∃ v, get? d k = some v := by
  rw [contains, Option.isSome_iff_exists]

theorem mem_keys_iff (d : Dict K V) (k : K) : k ∈ keys d ↔ ∃ v, get? d k = some v := by
  induction d with
  | nil => simp [keys, get?]
  | cons x d ih =>
    obtain ⟨k', v'⟩ := x
    by_cases h : k' = k
    · simp [keys, get?, h]
    · simp only [keys, List.map_cons, List.mem_cons, get?, h, if_false] at ih ⊢
      rw [← ih]
      simp [Ne.symm h]

theorem get?_eq_none_iff (d : Dict K V) (k : K) : get? d k = none ↔ k ∉ keys d := by
  rw [mem_keys_iff]
  cases get? d k <;> simp

theorem keys_set (d : Dict K V) (k : K) (v : V) : keys (set d k v) = if k ∈ keys d then keys d else keys d ++ [k] := by
  induction d with
  | nil => simp [set, keys]
  | cons x d ih =>
    obtain ⟨k', v'⟩ := x
    by_cases h : k' = k
    · simp [set, keys, h]
    · simp only [set, h, if_false]
      have e1 : ∀ (y : K × V) (l : Dict K V), keys (y :: l) = y.1 :: keys l := fun _ _ => rfl
      rw [e1, e1, ih]
      by_cases h2 : k ∈ keys d
      · rw [if_pos h2, if_pos (List.mem_cons_of_mem _ h2)]
      · rw [if_neg h2, if_neg (by rw [List.mem_cons]; rintro (h3 | h3); exacts [h h3.symm, h2 h3])]; rfl

theorem nodup_set {d : Dict K V} (h : (keys d).Nodup) (k : K) (v : V) : (keys (set d k v)).Nodup := by
  rw [keys_set]
  split
  · exact h
  · rename_i hk
    exact List.nodup_append.2 ⟨h, by simp, by simp; rintro a ha rfl; exact hk ha⟩

theorem keys_erase (d : Dict K V) (k : K) : keys (erase d k) = (keys d).filter (· ≠ k) := by
  induction d with
  | nil => simp [erase, keys]
  | cons x d ih =>
    obtain ⟨k', v'⟩ := x
    simp only [keys] at ih
    by_cases h : k' = k
    · simp [erase, keys, h, ih]
    · simp [erase, keys, h, ih]

theorem nodup_erase {d : Dict K V} (h : (keys d).Nodup) (k : K) : (keys (erase d k)).Nodup := by
  rw [keys_erase]; exact h.filter _

/-- An entry of a dict with distinct keys is what lookup gives. -/
theorem get?_of_mem {d : Dict K V} (h : (keys d).Nodup) {k : K} {v : V} (hm : (k, v) ∈ d) : get? d k = some v := by
  induction d with
  | nil => cases hm
  | cons x d ih =>
    obtain ⟨k', v'⟩ := x
    simp only [keys, List.map_cons, List.nodup_cons] at h ih
    rcases List.mem_cons.1 hm with h1 | h1
    · cases h1; simp [get?]
    · have : k' ≠ k := by
        rintro rfl
        exact h.1 (List.mem_map.2 ⟨_, h1, rfl⟩)
      simp [get?, this, ih h.2 h1]

theorem mem_of_get? {d : Dict K V} {k : K} {v : V} (h : get? d k = some v) : (k, v) ∈ d := by
  induction d with
  | nil => cases h
  | cons x d ih =>
    obtain ⟨k', v'⟩ := x
    by_cases hk : k' = k
    · simp only [get?, hk, if_true, Option.some.injEq] at h
      subst h; subst hk; exact List.mem_cons_self
    · simp only [get?, hk, if_false] at h
      exact List.mem_cons_of_mem _ (ih h)

end Dict

end PiCF
