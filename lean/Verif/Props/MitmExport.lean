import Verif.Props.MitmFilters
import Verif.Props.Hashtable
import Mathlib.Algebra.Ring.Int.Parity

/-!
# C60-C63: root filter, approach type filter, settings, CSV export
-/

namespace PiCF
open PiCF.Spec PiCF.Hashtable PiCF.Mitm PiCF.EnumPoly PiCF.Lhs PiCF.ContFrac

variable {L : Type}

/-! ### C60 -/

theorem isPosIntRoot_iff (r : ℚ × ℚ) : isPosIntRoot r = true ↔ TakenForPosInt r := by
  obtain ⟨x, y⟩ := r
  simp only [isPosIntRoot, TakenForPosInt, Bool.and_eq_true, decide_eq_true_eq, and_assoc]
  refine and_congr_right fun _ => ?_
  have hf := Int.floor_le x
  have hf' := Int.lt_floor_add_one x
  constructor
  · rintro ⟨h1, h2⟩
    have hpos : ∀ n : ℤ, x - n < 1 / 1000 → (1 : ℤ) ≤ n := by
      intro n hn
      have : (0 : ℚ) < n := by linarith
      exact_mod_cast this
    refine ⟨roundEven x, hpos _ h1, by linarith, ?_⟩
    rw [roundEven] at h1 ⊢
    split
    · left; linarith
    · rename_i h3
      split
      · left; push_cast; linarith
      · rename_i h4
        have h5 : x - ⌊x⌋ = 1 / 2 := le_antisymm (not_lt.1 h4) (not_lt.1 h3)
        split
        · rename_i h6
          rw [if_neg h3, if_neg h4, if_pos h6] at h1
          exfalso
          rw [h5] at h1
          norm_num at h1
        · rename_i h6
          right
          refine ⟨by push_cast; linarith, ?_⟩
          rw [Int.even_iff]
          omega
  · rintro ⟨n, hn, h1, h2⟩
    have hn' : (1 : ℚ) ≤ n := by exact_mod_cast hn
    have hx : n - 1 / 2 ≤ x := by
      rcases h2 with h2 | ⟨h2, -⟩
      · exact h2.le
      · exact h2.ge
    refine ⟨?_, by linarith⟩
    have hcases : ⌊x⌋ = n ∨ ⌊x⌋ = n - 1 := by
      have a : n - 1 ≤ ⌊x⌋ := Int.le_floor.2 (by push_cast; linarith)
      have b : ⌊x⌋ < n + 1 := Int.floor_lt.2 (by push_cast; linarith)
      omega
    rw [roundEven]
    rcases hcases with h | h
    · rw [h, if_pos (by linarith)]; linarith
    · rw [h]
      push_cast
      rw [if_neg (by linarith)]
      rcases h2 with h2 | ⟨h2, h3⟩
      · rw [if_pos (by linarith)]; linarith
      · rw [if_neg (by linarith), if_neg (by rw [Int.even_iff] at h3; omega)]; linarith

theorem nearPosInt_taken {r : ℚ × ℚ} (h : NearPosInt r) : TakenForPosInt r := by
  obtain ⟨n, hn, h1, h2⟩ := h
  rw [abs_lt] at h1
  exact ⟨h2, n, hn, by linarith, .inl (by linarith)⟩

/-- **C60 (partial).** For every click list and root finder the filter returns normally and keeps, in order, exactly the
clicks none of whose b polynomials has a root that is taken for a positive integer; all roots within 0.001 of a positive
integer are.
Missing: others are too (anything less than 1/2 below a positive integer), see `C60_roots_violated`. -/
theorem C60_roots_partial (roots : List ℤ → List (ℚ × ℚ)) (cs : List (Click L)) :
    ∃ keep : Click L → Bool, filterPosIntRoots roots cs = (cs.filter keep, .ok ()) ∧
      (∀ c, keep c = false ↔ ∃ p ∈ c.b, ∃ r ∈ roots p.reverse, TakenForPosInt r) ∧
      (∀ c, (∃ p ∈ c.b, ∃ r ∈ roots p.reverse, NearPosInt r) → keep c = false) := by
  have hk : ∀ c : Click L, (!((c.b.flatMap fun p => roots p.reverse).any isPosIntRoot)) = false ↔
      ∃ p ∈ c.b, ∃ r ∈ roots p.reverse, TakenForPosInt r := by
    intro c
    simp only [Bool.not_eq_false', List.any_eq_true, List.mem_flatMap, isPosIntRoot_iff]
    constructor
    · rintro ⟨r, ⟨p, hp, hr⟩, h⟩; exact ⟨p, hp, r, hr, h⟩
    · rintro ⟨p, hp, r, hr, h⟩; exact ⟨r, ⟨p, hp, hr⟩, h⟩
  exact ⟨_, rfl, hk, fun c ⟨p, hp, r, hr, h⟩ => (hk c).2 ⟨p, hp, r, hr, nearPosInt_taken h⟩⟩

/-- **C60 (what it is for).** If the root finder finds every positive integer root of a polynomial within 0.001, then no b
polynomial of a click that is kept vanishes at a positive integer. -/
theorem C60_no_zero_numerators {roots : List ℤ → List (ℚ × ℚ)}
    (hr : ∀ (p : List ℤ) (n : ℤ), 1 ≤ n → (∃ c ∈ p, c ≠ 0) → horner p n = 0 →
      ∃ r ∈ roots p.reverse, |r.1 - n| < 1 / 1000 ∧ |r.2| < 1 / 1000)
    {cs cs' : List (Click L)} (h : filterPosIntRoots roots cs = (cs', .ok ())) {c : Click L} (hc : c ∈ cs')
    {p : List ℤ} (hp : p ∈ c.b) (hp0 : ∃ x ∈ p, x ≠ 0) {n : ℤ} (hn : 1 ≤ n) : horner p n ≠ 0 := by
  intro h0
  obtain ⟨keep, e, -, hkeep⟩ := C60_roots_partial roots cs
  rw [h] at e
  cases e
  obtain ⟨r, hr, h1, h2⟩ := hr p n hn hp0 h0
  have := hkeep c ⟨p, hp, r, hr, n, hn, h1, h2⟩
  rw [(List.mem_filter.1 hc).2] at this
  cases this

/-- The positive integer roots, as a root finder. -/
def intRoots (q : List ℤ) : List (ℚ × ℚ) :=
  ((List.range ((q.map Int.natAbs).sum + 1)).filter fun n : ℕ => decide (1 ≤ n ∧ horner q.reverse (n : ℤ) = 0)).map
    fun n : ℕ => ((n : ℚ), 0)

theorem root_le_sum {n : ℤ} (hn : 1 ≤ n) : ∀ {p : List ℤ}, (∃ c ∈ p, c ≠ 0) → horner p n = 0 → n.natAbs ≤ (p.map Int.natAbs).sum
  | [], h, _ => by obtain ⟨c, hc, -⟩ := h; cases hc
  | c :: p, h, h0 => by
    rw [horner] at h0
    rw [List.map_cons, List.sum_cons]
    by_cases hc : c = 0
    · subst hc
      rw [zero_add] at h0
      have hp : horner p n = 0 := (mul_eq_zero.1 h0).resolve_left (by omega)
      have : ∃ c ∈ p, c ≠ 0 := by
        obtain ⟨c, hc, h⟩ := h
        rcases List.mem_cons.1 hc with rfl | hc
        · exact absurd rfl h
        · exact ⟨c, hc, h⟩
      have := root_le_sum hn this hp
      omega
    · have hd : n ∣ c := ⟨-horner p n, by linarith⟩
      have := Nat.le_of_dvd (Int.natAbs_pos.2 hc) (Int.natAbs_dvd_natAbs.2 hd)
      omega

/-- A root finder as in `C60_no_zero_numerators`, and a click it keeps. -/
example : (∀ (p : List ℤ) (n : ℤ), 1 ≤ n → (∃ c ∈ p, c ≠ 0) → horner p n = 0 →
      ∃ r ∈ intRoots p.reverse, |r.1 - n| < 1 / 1000 ∧ |r.2| < 1 / 1000) ∧
    (filterPosIntRoots intRoots [⟨[[1]], [[-3, 1]], (), 0, none⟩, ⟨[[1]], [[3, 1]], (), 1, none⟩]).1.map (·.post) = [1] := by
  refine ⟨fun p n hn hp h0 => ⟨((n.toNat : ℚ), 0), ?_, ?_, by norm_num⟩, by decide +kernel⟩
  · refine List.mem_map.2 ⟨n.toNat, List.mem_filter.2 ⟨List.mem_range.2 ?_, ?_⟩, rfl⟩
    · have := root_le_sum hn hp h0
      rw [List.map_reverse, List.sum_reverse]
      omega
    · rw [List.reverse_reverse, decide_eq_true_eq, Int.toNat_of_nonneg (by omega)]
      exact ⟨by omega, h0⟩
  · have : ((n.toNat : ℤ) : ℚ) = n := by rw [Int.toNat_of_nonneg (by omega)]
    have h2 : ((n.toNat : ℕ) : ℚ) = n := by exact_mod_cast this
    rw [h2, sub_self]
    norm_num

/-- `numpy.roots` for `5 x - 8` and nothing else. -/
def exRoots : List ℤ → List (ℚ × ℚ) := fun p => if p = [5, -8] then [(8 / 5, 0)] else []

/-- **C60 (violated).** A click whose only b polynomial is `5 x - 8`, with the only root 1.6, is dropped, although 1.6 is far
from every integer (the absolute value around `r.real - r.real.round()` is missing). -/
theorem C60_roots_violated :
    (filterPosIntRoots exRoots [⟨[[1]], [[-8, 5]], (), 0, none⟩]).1.length = 0 ∧
    ∀ r ∈ exRoots [5, -8], ¬ NearPosInt r := by
  refine ⟨by decide +kernel, ?_⟩
  intro r hr
  simp only [exRoots, if_pos, List.mem_singleton] at hr
  subst hr
  rintro ⟨n, hn, h, -⟩
  rw [abs_lt] at h
  have h1 : (n : ℚ) < 2 := by linarith [h.1]
  have h2 : (1 : ℚ) < n := by linarith [h.2]
  have h1' : n < 2 := by exact_mod_cast h1
  have h2' : 1 < n := by exact_mod_cast h2
  omega

example : (filterPosIntRoots (fun p => if p = [1, -3] then [(3, 0)] else if p = [5, -6] then [(6 / 5, 0)] else [])
    [⟨[[1]], [[-3, 1]], (), 0, none⟩, ⟨[[1]], [[-6, 5]], (), 1, none⟩]).1.map (·.post) = [1] := by decide +kernel

/-! ### C61 -/

/-- The clicks to be kept, with the estimate recorded: those whose estimation succeeds with an accepted type. -/
def acceptedClicks (estimate : Polys → Polys → Except PyErr Conv) (accept : ApproachType → Bool) (cs : List (Click L)) :
    List (Click L) :=
  cs.filterMap fun c =>
    match estimate c.a c.b with
    | .ok e => if accept e.1 then some { c with conv := some e } else none
    | .error _ => none

theorem approachLoop_eq {build : Polys → Polys → Except PyErr Unit} {estimate : Polys → Polys → Except PyErr Conv}
    {white black : List ApproachType} {accept : ApproachType → Bool}
    (hacc : ∀ t, accept t = true ↔ (white ≠ [] ∧ t ∈ white) ∨ (black ≠ [] ∧ t ∉ black)) {cs : List (Click L)}
    (hb : ∀ c ∈ cs, build c.a c.b = .ok ()) (he : ∀ c ∈ cs, estimate c.a c.b ≠ .error .keyboardInterrupt) :
    approachLoop build estimate white black cs = .ok (acceptedClicks estimate accept cs) := by
  induction cs with
  | nil => rfl
  | cons c cs ih =>
    have ih := ih (fun x hx => hb x (List.mem_cons_of_mem _ hx)) (fun x hx => he x (List.mem_cons_of_mem _ hx))
    have hk := he c List.mem_cons_self
    rw [approachLoop, hb c List.mem_cons_self, acceptedClicks, List.filterMap_cons]
    cases hest : estimate c.a c.b with
    | error e =>
      cases e <;> first | exact absurd hest hk | exact ih
    | ok conv =>
      simp only [ih]
      by_cases h : accept conv.1 = true
      · rw [if_pos ((hacc _).1 h), if_pos h]; rfl
      · rw [if_neg fun h' => h ((hacc _).2 h'), if_neg h]; rfl

/-- **C61 (partial).** With exactly one non-empty list (and `whitelist=None` passed for a blacklist), if all the continued
fractions can be constructed and nobody presses Ctrl-C, the filter returns normally and keeps, in order, exactly the
clicks whose estimation succeeds with a type on the whitelist (not on the blacklist), with the estimate recorded; a failing
estimation just skips the click.  With no list or two lists it raises ValueError and leaves the clicks alone.
Missing: passing just a blacklist, see `C61_approach_violated`. -/
theorem C61_approach_partial (build : Polys → Polys → Except PyErr Unit) (estimate : Polys → Polys → Except PyErr Conv)
    (types : List ApproachType) (ht : types ≠ []) (cs : List (Click L)) (hb : ∀ c ∈ cs, build c.a c.b = .ok ())
    (he : ∀ c ∈ cs, estimate c.a c.b ≠ .error .keyboardInterrupt) :
    filterByApproach build estimate (some types) none cs =
      (acceptedClicks estimate (fun t => decide (t ∈ types)) cs, .ok ()) ∧
    filterByApproach build estimate none (some types) cs =
      (acceptedClicks estimate (fun t => decide (t ∉ types)) cs, .ok ()) ∧
    filterByApproach build estimate none none cs = (cs, .error .valueError) ∧
    (∀ types', types' ≠ [] → filterByApproach build estimate (some types) (some types') cs = (cs, .error .valueError)) := by
  refine ⟨?_, ?_, ?_, ?_⟩
  · rw [filterByApproach]
    simp only [Option.getD_some, Option.getD_none, ht, false_and, if_false, ne_eq, not_true, and_false]
    rw [approachLoop_eq (accept := fun t => decide (t ∈ types)) (by intro t; simp [ht]) hb he]
  · rw [filterByApproach]
    simp only [Option.getD_some, Option.getD_none, ht, and_false, if_false, ne_eq, not_true, false_and]
    rw [approachLoop_eq (accept := fun t => decide (t ∉ types)) (by intro t; simp [ht]) hb he]
  · rfl
  · intro types' ht'
    rw [filterByApproach]
    simp [ht, ht']

/-- **C61 (failure).** Whatever is raised, the click list is the one from before. -/
theorem C61_failure {build : Polys → Polys → Except PyErr Unit} {estimate : Polys → Polys → Except PyErr Conv}
    {white black : Option (List ApproachType)} {cs cs' : List (Click L)} {e : PyErr}
    (h : filterByApproach build estimate white black cs = (cs', .error e)) : cs' = cs := by
  rw [filterByApproach] at h
  split at h
  · exact (Prod.mk.inj h).1.symm
  · split at h
    · exact (Prod.mk.inj h).1.symm
    · split at h
      · exact (Prod.mk.inj h).1.symm
      · cases h

/-- Ctrl-C during the second estimate: the first click has not been removed. -/
example : (match filterByApproach (L := Unit) (fun _ _ => .ok ()) (fun a _ => if a = [[1]] then .ok (.fast, none) else .error .keyboardInterrupt)
      (some [.exp]) none [⟨[[1]], [[1]], (), 5, none⟩, ⟨[[3]], [[1]], (), 6, none⟩] with
    | (cs, .error .keyboardInterrupt) => cs.map (·.post)
    | _ => []) = [5, 6] := by
  decide +kernel

/-- **C61 (violated).** `filter_clicks_by_approach_type(blacklist=[...])` with any non-empty blacklist raises ValueError,
because the default whitelist counts as given. -/
theorem C61_approach_violated (build : Polys → Polys → Except PyErr Unit) (estimate : Polys → Polys → Except PyErr Conv)
    (types : List ApproachType) (ht : types ≠ []) (cs : List (Click L)) :
    (filterByApproach build estimate (blacklist := some types) : PyM (List (Click L)) Unit) cs = (cs, .error .valueError) := by
  rw [filterByApproach]
  simp [ht, defaultWhitelist]

/-- **C61 (violated, construction).** The constructor is outside the `try`: a click whose continued fraction cannot be
constructed is not skipped, the filter raises. -/
theorem C61_construction_violated (build : Polys → Polys → Except PyErr Unit) (estimate : Polys → Polys → Except PyErr Conv)
    (types : List ApproachType) (ht : types ≠ []) (c : Click L) (cs : List (Click L)) (e : PyErr)
    (hc : build c.a c.b = .error e) :
    filterByApproach build estimate (some types) none (c :: cs) = (c :: cs, .error e) := by
  rw [filterByApproach]
  simp only [Option.getD_some, Option.getD_none, ht, false_and, if_false, ne_eq, not_true, and_false]
  rw [approachLoop, hc]

example : (filterByApproach (L := Unit) (fun _ _ => .ok ()) (fun a _ => if a = [[1]] then .ok (.exp, none) else
      if a = [[2]] then .error .zeroDivision else .ok (.superExp, none)) (some [.exp]) none
    [⟨[[2]], [[1]], (), 0, none⟩, ⟨[[3]], [[1]], (), 0, none⟩, ⟨[[1]], [[1]], (), 7, none⟩]).1.map (fun c => (c.post, c.conv)) =
    [(7, some (.exp, none))] := by decide +kernel

/-! ### C62 -/

/-- **C62 (partial).** For every state, table and requested class: if `redefine_settings` returns, the enumerator is of the
requested class or a subclass of it, and exactly the requested one unless the plain class is requested while a subclass is in
use; everything that could be read from the table before can still be read (also after further changes).
It raises only for the sparse class without special parameters.
Missing: switching back to the plain class, see `C62_settings_violated`. -/
theorem C62_settings_partial {V : Type} (cls : PolyClass) (special : Option (ℕ × ℕ)) (prec : ℤ) (filter : List ℕ)
    (trunc : Bool) (s : Settings V) :
    (∀ s', redefineSettings cls special prec filter trunc s = (s', .ok ()) →
      isInstance s'.polyClass cls = true ∧
      (cls ≠ .basic ∨ s.polyClass = .basic → s'.polyClass = cls) ∧
      s'.filter = filter ∧ s'.trunc = trunc ∧ s'.hashtablePrec = prec ∧ s'.table.accuracy = prec + 1 ∧
      (∀ eng k v, s.table.getItem eng k = .ok v → s'.table.getItem eng k = .ok v)) ∧
    (∀ s' e, redefineSettings cls special prec filter trunc s = (s', .error e) →
      s' = s ∧ cls = .sparse ∧ special = none ∧ e = .typeError) := by
  have hget : ∀ (eng : Eng) (k : Key) (v : V), s.table.getItem eng k = .ok v →
      (s.table.updateAccuracy prec).getItem eng k = .ok v := fun eng k v hv =>
    (C26_accuracy_change_keeps_values eng s.table k v [prec]).1 hv
  rw [redefineSettings]
  by_cases hi : isInstance s.polyClass cls = true
  · rw [if_pos hi]
    refine ⟨?_, by intro s' e h; cases h⟩
    intro s' h
    cases h
    refine ⟨hi, ?_, rfl, rfl, rfl, rfl, hget⟩
    intro h
    simp only
    rw [isInstance] at hi
    rcases h with h | h
    · simpa [h] using hi
    · rw [h] at hi ⊢
      revert hi
      cases cls <;> simp
  · rw [if_neg hi, makeEnumer]
    by_cases hc : cls = .sparse ∧ special = none
    · rw [if_pos hc]
      refine ⟨(by intro s' h; cases h), ?_⟩
      intro s' e h
      cases h
      exact ⟨rfl, hc.1, hc.2, rfl⟩
    · rw [if_neg hc]
      refine ⟨?_, by intro s' e h; cases h⟩
      intro s' h
      cases h
      exact ⟨by simp [isInstance], fun _ => rfl, rfl, rfl, rfl, rfl, hget⟩

/-- **C62 (violated).** Asking for the plain class while the sparse (or indexed) one is in use changes nothing, for every state:
the enumerator stays; and asking for other special parameters of the sparse class does not change them either. -/
theorem C62_settings_violated {V : Type} (special : Option (ℕ × ℕ)) (prec : ℤ) (filter : List ℕ) (trunc : Bool)
    (s : Settings V) :
    (s.polyClass ≠ .basic →
      (redefineSettings .basic special prec filter trunc s).1.polyClass = s.polyClass ∧
      (redefineSettings .basic special prec filter trunc s).1.polyClass ≠ .basic) ∧
    (s.polyClass = .sparse → (redefineSettings .sparse special prec filter trunc s).1.special = s.special) := by
  constructor
  · intro h
    rw [redefineSettings, if_pos (by simp [isInstance])]
    exact ⟨rfl, h⟩
  · intro h
    rw [redefineSettings, if_pos (by simp [isInstance, h])]

example : (redefineSettings .sparse (some (3, 2)) 9 [0, 1] true
    (⟨.indexed, none, Table.init 3, 3, [0], false⟩ : Settings ℕ)).1.polyClass = .sparse := by decide +kernel

/-! ### C63 -/

theorem exportLoop_ok {R : Type} {row : Click L → Except PyErr R} : ∀ (cs : List (Click L)) (buffer out : List R),
    exportCsv.loop row buffer cs = .ok out ↔ ∃ rows, List.Forall₂ (fun c r => row c = .ok r) cs rows ∧ out = buffer ++ rows := by
  intro cs
  induction cs with
  | nil =>
    intro buffer out
    rw [exportCsv.loop]
    constructor
    · intro h; cases h; exact ⟨[], .nil, by simp⟩
    · rintro ⟨rows, h, rfl⟩; cases h; simp
  | cons c cs ih =>
    intro buffer out
    rw [exportCsv.loop]
    cases hr : row c with
    | error e =>
      constructor
      · intro h; cases h
      · rintro ⟨rows, h, rfl⟩
        cases h with
        | cons h _ => rw [hr] at h; cases h
    | ok r =>
      simp only
      rw [ih]
      constructor
      · rintro ⟨rows, h, rfl⟩
        exact ⟨r :: rows, .cons hr h, by simp⟩
      · rintro ⟨rows, h, rfl⟩
        cases h with
        | cons h h' =>
          rw [hr] at h
          cases h
          exact ⟨_, h', by simp⟩

theorem exportLoop_error {R : Type} {row : Click L → Except PyErr R} (cs : List (Click L)) (buffer : List R) (e : PyErr) :
    exportCsv.loop row buffer cs = .error e ↔
      ∃ l1 c l2, cs = l1 ++ c :: l2 ∧ (∀ x ∈ l1, ∃ r, row x = .ok r) ∧ row c = .error e := by
  induction cs generalizing buffer with
  | nil =>
    rw [exportCsv.loop]
    constructor
    · intro h; cases h
    · rintro ⟨l1, c, l2, h, -⟩; cases l1 <;> cases h
  | cons c cs ih =>
    rw [exportCsv.loop]
    cases hr : row c with
    | error e' =>
      constructor
      · intro h; cases h; exact ⟨[], c, cs, rfl, by simp, hr⟩
      · rintro ⟨l1, c', l2, h, h1, h2⟩
        cases l1 with
        | nil => cases h; rw [hr] at h2; cases h2; rfl
        | cons x l1 =>
          cases h
          obtain ⟨r, h1⟩ := h1 c List.mem_cons_self
          rw [hr] at h1
          cases h1
    | ok r =>
      simp only
      rw [ih]
      constructor
      · rintro ⟨l1, c', l2, rfl, h1, h2⟩
        refine ⟨c :: l1, c', l2, rfl, ?_, h2⟩
        intro x hx
        rcases List.mem_cons.1 hx with rfl | hx
        · exact ⟨r, hr⟩
        · exact h1 x hx
      · rintro ⟨l1, c', l2, h, h1, h2⟩
        cases l1 with
        | nil => cases h; rw [hr] at h2; cases h2
        | cons x l1 =>
          cases h
          exact ⟨l1, c', l2, rfl, fun y hy => h1 y (List.mem_cons_of_mem _ hy), h2⟩

/-- **C63.** For all results, row producers (with any failures) and previous contents of the file: either every row can be
produced, and then the file afterwards consists of the header and exactly one row per result, in order; or the exception of
the first failing row is raised and the file is untouched. -/
theorem C63_all_or_nothing {R : Type} (header : List R) (row : Click L → Except PyErr R) (cs : List (Click L))
    (file : Option (List R)) :
    (∃ rows, List.Forall₂ (fun c r => row c = .ok r) cs rows ∧
      exportCsv header row cs file = (some (header ++ rows), .ok ())) ∨
    (∃ l1 c l2 e, cs = l1 ++ c :: l2 ∧ (∀ x ∈ l1, ∃ r, row x = .ok r) ∧ row c = .error e ∧
      exportCsv header row cs file = (file, .error e)) := by
  rw [exportCsv]
  cases h : exportCsv.loop row header cs with
  | ok out =>
    obtain ⟨rows, h1, rfl⟩ := (exportLoop_ok cs header out).1 h
    exact .inl ⟨rows, h1, rfl⟩
  | error e =>
    obtain ⟨l1, c, l2, h1, h2, h3⟩ := (exportLoop_error cs header e).1 h
    exact .inr ⟨l1, c, l2, e, h1, h2, h3, rfl⟩

/-- **C63 (the rows of the code).** A row that is produced shows the parameters of the click, its recorded convergence, and the
texts of the value of the LHS object and of the post-processed value of the continued fraction after 400
iterations. -/
theorem C63_row_content {P : Type} (C : LhsClass L) (params : L → P) (funcs : List (Num → Except PyErr Num)) (eng : EngN)
    (c : Click L) (r : Row P) (h : csvRow C params funcs eng c = .ok r) :
    r.a = c.a ∧ r.b = c.b ∧ r.post = c.post ∧ r.params = params c.lhs ∧ c.conv = some (r.convType, r.convRate) ∧
      eng (C.val c.lhs) = .ok r.lhs ∧
      ∃ cf cf' f v, ContFrac.init c.a c.b = .ok cf ∧ genIterations 400 true cf = (cf', .ok ()) ∧ funcs[c.post]? = some f ∧
        f (getResult cf') = .ok v ∧ eng v = .ok r.rhs := by
  rw [csvRow] at h
  split at h
  · cases h
  · rename_i lhs hl
    rw [buildFromParams] at h
    cases hi : ContFrac.init c.a c.b with
    | error e => rw [hi] at h; cases h
    | ok cf =>
      rw [hi] at h
      simp only at h
      rcases hg : genIterations 400 true cf with ⟨cf', r'⟩
      rw [hg] at h
      cases r' with
      | error e => cases h
      | ok u =>
        simp only at h
        cases hf : funcs[c.post]? with
        | none => rw [hf] at h; cases h
        | some f =>
          rw [hf] at h
          simp only at h
          cases hv : f (getResult cf') with
          | error e => rw [hv] at h; cases h
          | ok v =>
            rw [hv] at h
            simp only at h
            cases hc : c.conv with
            | none => rw [hc] at h; cases h
            | some conv =>
              rw [hc] at h
              simp only at h
              cases he : eng v with
              | error e => rw [he] at h; cases h
              | ok rhs =>
                rw [he] at h
                cases h
                exact ⟨rfl, rfl, rfl, rfl, rfl, hl, cf, cf', f, v, rfl, hg, rfl, hv, he⟩

/-- **C63 (with the numbers of the code).** `mpf` has no `to_eng_string`: exporting any non-empty result list raises and
leaves the file untouched. -/
theorem C63_mpf {P : Type} (C : LhsClass L) (params : L → P) (funcs : List (Num → Except PyErr Num)) (header : List (Row P))
    (c : Click L) (cs : List (Click L)) (file : Option (List (Row P))) :
    exportCsv header (csvRow C params funcs mpfEngN) (c :: cs) file = (file, .error .attributeError) := rfl

example : exportCsv (L := Unit) [0] (fun c => if c.post = 3 then .error .typeError else .ok c.post)
      [⟨[[1]], [[1]], (), 1, none⟩, ⟨[[1]], [[1]], (), 3, none⟩] (some [9]) = (some [9], .error .typeError) ∧
    exportCsv (L := Unit) [0] (fun c => if c.post = 3 then .error .typeError else .ok c.post)
      [⟨[[1]], [[1]], (), 1, none⟩, ⟨[[1]], [[1]], (), 2, none⟩] (some [9]) = (some [0, 1, 2], .ok ()) := ⟨rfl, rfl⟩

end PiCF
