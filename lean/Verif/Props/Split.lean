import Mathlib.Data.Nat.Log
import Mathlib.Algebra.BigOperators.Group.List.Basic
import Verif.Lemmas.EnumPoly
import Verif.Lemmas.Latex
import Verif.Model.Distribute

/-!
# C76, C77: splitting a search
-/

namespace PiCF
open PiCF.Spec PiCF.EnumPoly PiCF.Distribute PiCF.Hashtable PiCF.PyStr

/-- A pair of coefficient tuples lies in a pair of ranges. -/
def Contains (r : Ranges × Ranges) (x : Polys × Polys) : Prop := InRanges r.1 x.1 ∧ InRanges r.2 x.2

/-! ### One range -/

theorem newBound_bounds (r : Rng) : r.2 + r.1 - 1 ≤ 2 * newBound r ∧ 2 * newBound r ≤ r.2 + r.1 + 1 := by
  rw [newBound]
  generalize r.2 + r.1 = x
  rcases le_total 0 x with h | h
  · rw [Int.tdiv_eq_ediv_of_nonneg h]; omega
  · have : x.tdiv 2 = -((-x) / 2) := by rw [← Int.tdiv_eq_ediv_of_nonneg (by omega), Int.neg_tdiv, neg_neg]
    omega

theorem newBound_lt {r : Rng} (h : r.2 - r.1 > 1) : r.1 < newBound r ∧ newBound r < r.2 := by
  have := newBound_bounds r
  omega

theorem splitIndex_some {rs : List Rng} {i : ℕ} (h : splitIndex rs = some i) :
    ∃ pre r post, rs = pre ++ r :: post ∧ pre.length = i ∧ r.2 - r.1 > 1 ∧ ∀ x ∈ pre, x.2 - x.1 ≤ 1 := by
  rw [splitIndex, List.findIdx?_eq_some_iff_getElem] at h
  obtain ⟨hi, h1, h2⟩ := h
  refine ⟨rs.take i, rs[i], rs.drop (i + 1), ?_, by simp; omega, by simpa using h1, ?_⟩
  · rw [List.getElem_cons_drop, List.take_append_drop]
  · intro x hx
    obtain ⟨j, hj, rfl⟩ := List.getElem_of_mem hx
    have hj' : j < i := by simp at hj; omega
    have := h2 j hj'
    rw [List.getElem_take]
    simpa using this

theorem splitIndex_none {rs : List Rng} (h : splitIndex rs = none) : ∀ x ∈ rs, x.2 - x.1 ≤ 1 := by
  rw [splitIndex, List.findIdx?_eq_none_iff] at h
  intro x hx
  simpa using h x hx

theorem halves_eq (pre : List Rng) (r : Rng) (post : List Rng) :
    halves (pre ++ r :: post) pre.length = (pre ++ (r.1, newBound r) :: post, pre ++ (newBound r, r.2) :: post) := by
  have key : ∀ f : Rng → Rng, (pre ++ r :: post).modify pre.length f = pre ++ f r :: post := by
    intro f
    induction pre with
    | nil => rfl
    | cons x pre ih => simpa using ih
  rw [halves, key, key]

/-- A list of coefficients lies in a list of ranges. -/
def InRow (rs : List Rng) (cs : List ℤ) : Prop := List.Forall₂ (fun (r : Rng) (c : ℤ) => r.1 ≤ c ∧ c < r.2) rs cs

theorem inRow_split {pre : List Rng} {r : Rng} {post : List Rng} (h : r.2 - r.1 > 1) (cs : List ℤ) :
    (InRow (pre ++ r :: post) cs ↔ InRow (pre ++ (r.1, newBound r) :: post) cs ∨ InRow (pre ++ (newBound r, r.2) :: post) cs) ∧
    ¬ (InRow (pre ++ (r.1, newBound r) :: post) cs ∧ InRow (pre ++ (newBound r, r.2) :: post) cs) := by
  obtain ⟨h1, h2⟩ := newBound_lt h
  induction pre generalizing cs with
  | nil =>
    cases cs with
    | nil => simp [InRow]
    | cons c cs =>
      simp only [InRow, List.nil_append, List.forall₂_cons]
      constructor
      · constructor
        · rintro ⟨⟨h3, h4⟩, h5⟩
          by_cases hc : c < newBound r
          · exact .inl ⟨⟨h3, hc⟩, h5⟩
          · exact .inr ⟨⟨by omega, h4⟩, h5⟩
        · rintro (⟨⟨h3, h4⟩, h5⟩ | ⟨⟨h3, h4⟩, h5⟩)
          · exact ⟨⟨h3, by omega⟩, h5⟩
          · exact ⟨⟨by omega, h4⟩, h5⟩
      · rintro ⟨⟨⟨_, h3⟩, -⟩, ⟨h4, _⟩, -⟩
        omega
  | cons x pre ih =>
    cases cs with
    | nil => simp [InRow]
    | cons c cs =>
      obtain ⟨i1, i2⟩ := ih cs
      simp only [InRow, List.cons_append, List.forall₂_cons] at i1 i2 ⊢
      constructor
      · rw [i1]; tauto
      · tauto

/-- One step: the parts of a split. -/
theorem halves_spec {rs : List Rng} {i : ℕ} (h : splitIndex rs = some i) :
    (∀ cs, InRow rs cs ↔ InRow (halves rs i).1 cs ∨ InRow (halves rs i).2 cs) ∧
    (∀ cs, ¬ (InRow (halves rs i).1 cs ∧ InRow (halves rs i).2 cs)) ∧
    ((∀ x ∈ rs, x.1 < x.2) → (∀ x ∈ (halves rs i).1, x.1 < x.2) ∧ ∀ x ∈ (halves rs i).2, x.1 < x.2) := by
  obtain ⟨pre, r, post, rfl, rfl, hr, -⟩ := splitIndex_some h
  rw [halves_eq]
  refine ⟨fun cs => (inRow_split hr cs).1, fun cs => (inRow_split hr cs).2, fun hx => ?_⟩
  obtain ⟨h1, h2⟩ := newBound_lt hr
  constructor <;>
  · intro x hm
    simp only [List.mem_append, List.mem_cons] at hm
    rcases hm with hm | rfl | hm
    · exact hx x (by simp [hm])
    · simpa
    · exact hx x (by simp [hm])

/-! ### Assignments exist iff no range is empty -/

theorem inRow_nonempty {rs : List Rng} : (∃ cs, InRow rs cs) ↔ ∀ x ∈ rs, x.1 < x.2 := by
  constructor
  · rintro ⟨cs, h⟩ x hx
    induction h with
    | nil => cases hx
    | cons h1 _ ih =>
      rcases List.mem_cons.1 hx with rfl | hx
      · omega
      · exact ih hx
  · intro h
    refine ⟨rs.map (·.1), ?_⟩
    rw [InRow, List.forall₂_map_right_iff, List.forall₂_same]
    exact fun x hx => ⟨le_rfl, h x hx⟩

theorem inRanges_nonempty {rs : Ranges} : (∃ ps, InRanges rs ps) ↔ ∀ r ∈ rs, ∀ x ∈ r, x.1 < x.2 := by
  constructor
  · rintro ⟨ps, h⟩
    intro r hr
    rw [InRanges] at h
    induction h with
    | nil => cases hr
    | @cons a b _ _ h1 _ ih =>
      rcases List.mem_cons.1 hr with rfl | hr
      · exact inRow_nonempty.1 ⟨_, h1⟩
      · exact ih hr
  · intro h
    refine ⟨rs.map fun r => r.map (·.1), ?_⟩
    rw [InRanges, List.forall₂_map_right_iff, List.forall₂_same]
    intro r hr
    rw [List.forall₂_map_right_iff, List.forall₂_same]
    exact fun x hx => ⟨le_rfl, h r hr x hx⟩

theorem contains_nonempty {r : Ranges × Ranges} :
    (∃ x, Contains r x) ↔ (∀ p ∈ r.1, ∀ x ∈ p, x.1 < x.2) ∧ ∀ p ∈ r.2, ∀ x ∈ p, x.1 < x.2 := by
  rw [← inRanges_nonempty, ← inRanges_nonempty]
  exact ⟨fun ⟨x, h⟩ => ⟨⟨_, h.1⟩, _, h.2⟩, fun ⟨⟨a, h⟩, b, h'⟩ => ⟨(a, b), h, h'⟩⟩

theorem inRanges_cons {r : List Rng} {rs : Ranges} {ps : Polys} :
    InRanges (r :: rs) ps ↔ ∃ p ps', ps = p :: ps' ∧ InRow r p ∧ InRanges rs ps' := by
  rw [InRanges, List.forall₂_cons_left_iff]
  constructor
  · rintro ⟨p, ps', h1, h2, h3⟩; exact ⟨p, ps', h3, h1, h2⟩
  · rintro ⟨p, ps', h3, h1, h2⟩; exact ⟨p, ps', h1, h2, h3⟩

theorem inRanges_split {r r1 r2 : List Rng} (h : ∀ cs, InRow r cs ↔ InRow r1 cs ∨ InRow r2 cs)
    (h' : ∀ cs, ¬ (InRow r1 cs ∧ InRow r2 cs)) (rs : Ranges) (ps : Polys) :
    (InRanges (r :: rs) ps ↔ InRanges (r1 :: rs) ps ∨ InRanges (r2 :: rs) ps) ∧
    ¬ (InRanges (r1 :: rs) ps ∧ InRanges (r2 :: rs) ps) := by
  simp only [inRanges_cons]
  constructor
  · constructor
    · rintro ⟨p, ps', e, h1, h2⟩
      exact ((h p).1 h1).imp (fun h1 => ⟨p, ps', e, h1, h2⟩) fun h1 => ⟨p, ps', e, h1, h2⟩
    · rintro (⟨p, ps', e, h1, h2⟩ | ⟨p, ps', e, h1, h2⟩)
      · exact ⟨p, ps', e, (h p).2 (.inl h1), h2⟩
      · exact ⟨p, ps', e, (h p).2 (.inr h1), h2⟩
  · rintro ⟨⟨p, ps', rfl, h1, h2⟩, q, qs', e, h3, h4⟩
    cases e
    exact h' p ⟨h1, h3⟩

/-! ### The recursion -/

/-- The parts form a partition of the assignments. -/
structure Partition (r : Ranges × Ranges) (parts : List (Ranges × Ranges)) : Prop where
  cover : ∀ x, Contains r x ↔ ∃ p ∈ parts, Contains p x
  disjoint : parts.Pairwise fun p q => ∀ x, ¬ (Contains p x ∧ Contains q x)
  nonempty : (∃ x, Contains r x) → ∀ p ∈ parts, ∃ x, Contains p x

theorem Partition.append {r r1 r2 : Ranges × Ranges} {l1 l2 : List (Ranges × Ranges)} (h1 : Partition r1 l1) (h2 : Partition r2 l2)
    (hc : ∀ x, Contains r x ↔ Contains r1 x ∨ Contains r2 x) (hd : ∀ x, ¬ (Contains r1 x ∧ Contains r2 x))
    (hn : (∃ x, Contains r x) → (∃ x, Contains r1 x) ∧ ∃ x, Contains r2 x) : Partition r (l1 ++ l2) where
  cover x := by
    rw [hc, h1.cover, h2.cover]
    simp only [List.mem_append, or_and_right, exists_or]
  disjoint := List.pairwise_append.2 ⟨h1.disjoint, h2.disjoint, fun p hp q hq x hx =>
    hd x ⟨(h1.cover x).2 ⟨p, hp, hx.1⟩, (h2.cover x).2 ⟨q, hq, hx.2⟩⟩⟩
  nonempty hx p hp := (List.mem_append.1 hp).elim (h1.nonempty (hn hx).1 p) (h2.nonempty (hn hx).2 p)

theorem append_ok {α : Type} {x y : Except PyErr (List α)} {l : List α} :
    Distribute.append x y = .ok l ↔ ∃ l1 l2, x = .ok l1 ∧ y = .ok l2 ∧ l = l1 ++ l2 := by
  cases x <;> cases y <;> simp [Distribute.append, eq_comm]

theorem split_partition : ∀ (k : ℕ) (r : Ranges × Ranges) (parts : List (Ranges × Ranges)), splitParams k r = .ok parts →
    Partition r parts ∧ parts.length = 2 ^ k
  | 0, r, parts, h => by
    cases h
    exact ⟨⟨by simp, by simp, by simp⟩, rfl⟩
  | k + 1, ([], b), parts, h => by cases h
  | k + 1, (a :: as, []), parts, h => by cases h
  | k + 1, (a :: as, b :: bs), parts, h => by
    rw [splitParams] at h
    split at h
    · rename_i i hi
      obtain ⟨l1, l2, e1, e2, rfl⟩ := append_ok.1 h
      obtain ⟨p1, n1⟩ := split_partition k _ _ e1
      obtain ⟨p2, n2⟩ := split_partition k _ _ e2
      obtain ⟨s1, s2, s3⟩ := halves_spec hi
      refine ⟨p1.append p2 (fun x => ?_) (fun x => ?_) fun hx => ?_, by simp [n1, n2]; ring⟩
      · simp only [Contains]
        rw [(inRanges_split s1 s2 as x.1).1, or_and_right]
      · exact fun hx => (inRanges_split s1 s2 as x.1).2 ⟨hx.1.1, hx.2.1⟩
      · rw [contains_nonempty] at hx
        simp only [List.forall_mem_cons] at hx
        simp only [contains_nonempty, List.forall_mem_cons]
        exact ⟨⟨⟨(s3 hx.1.1).1, hx.1.2⟩, hx.2⟩, ⟨(s3 hx.1.1).2, hx.1.2⟩, hx.2⟩
    · split at h
      · rename_i i hi
        obtain ⟨l1, l2, e1, e2, rfl⟩ := append_ok.1 h
        obtain ⟨p1, n1⟩ := split_partition k _ _ e1
        obtain ⟨p2, n2⟩ := split_partition k _ _ e2
        obtain ⟨s1, s2, s3⟩ := halves_spec hi
        refine ⟨p1.append p2 (fun x => ?_) (fun x => ?_) fun hx => ?_, by simp [n1, n2]; ring⟩
        · simp only [Contains]
          rw [(inRanges_split s1 s2 bs x.2).1, and_or_left]
        · exact fun hx => (inRanges_split s1 s2 bs x.2).2 ⟨hx.1.2, hx.2.2⟩
        · rw [contains_nonempty] at hx
          simp only [List.forall_mem_cons] at hx
          simp only [contains_nonempty, List.forall_mem_cons]
          exact ⟨⟨hx.1, (s3 hx.2.1).1, hx.2.2⟩, hx.1, (s3 hx.2.1).2, hx.2.2⟩
      · cases h

/-- **C76.** Whenever `split_params` returns, there are `2^k` parts; an assignment of coefficients lies in the original ranges
iff it lies in some part; no assignment lies in two of them; and if there are assignments at all, then every part has some. -/
theorem C76_partition {k : ℕ} {ra rb : Ranges} {parts : List (Ranges × Ranges)} (h : splitParams k (ra, rb) = .ok parts) :
    parts.length = 2 ^ k ∧
    (∀ pas pbs, (InRanges ra pas ∧ InRanges rb pbs) ↔ ∃ p ∈ parts, InRanges p.1 pas ∧ InRanges p.2 pbs) ∧
    parts.Pairwise (fun p q => ∀ pas pbs, ¬ ((InRanges p.1 pas ∧ InRanges p.2 pbs) ∧ InRanges q.1 pas ∧ InRanges q.2 pbs)) ∧
    ((∃ pas pbs, InRanges ra pas ∧ InRanges rb pbs) → ∀ p ∈ parts, ∃ pas pbs, InRanges p.1 pas ∧ InRanges p.2 pbs) := by
  obtain ⟨hp, hl⟩ := split_partition k _ _ h
  refine ⟨hl, fun pas pbs => hp.cover (pas, pbs), hp.disjoint.imp fun hx pas pbs => hx (pas, pbs), ?_⟩
  rintro ⟨pas, pbs, hx⟩ p hm
  obtain ⟨⟨a, b⟩, hab⟩ := hp.nonempty ⟨(pas, pbs), hx⟩ p hm
  exact ⟨a, b, hab⟩

/-! ### When it is possible -/

/-- How often a range can be halved, always keeping the smaller half, until it has one element. -/
def rowLog (rs : List Rng) : ℕ := (rs.map fun r => Nat.log 2 (r.2 - r.1).toNat).sum

theorem rowLog_zero {rs : List Rng} (h : ∀ x ∈ rs, x.2 - x.1 ≤ 1) : rowLog rs = 0 := by
  rw [rowLog]
  refine List.sum_eq_zero fun n hn => ?_
  obtain ⟨r, hr, rfl⟩ := List.mem_map.1 hn
  rw [Nat.log_eq_zero_iff]
  left
  have := h r hr
  omega

theorem rowLog_halves {rs : List Rng} {i : ℕ} (h : splitIndex rs = some i) :
    min (rowLog (halves rs i).1) (rowLog (halves rs i).2) + 1 = rowLog rs := by
  obtain ⟨pre, r, post, rfl, rfl, hr, -⟩ := splitIndex_some h
  rw [halves_eq]
  simp only [rowLog, List.map_append, List.map_cons, List.sum_append, List.sum_cons]
  have hlog : ∀ w : ℕ, 1 < w → Nat.log 2 w = Nat.log 2 (w / 2) + 1 := fun w hw => Nat.log_of_one_lt_of_le (by omega) (by omega)
  have hw := hlog (r.2 - r.1).toNat (by omega)
  have key : min (Nat.log 2 (newBound r - r.1).toNat) (Nat.log 2 (r.2 - newBound r).toNat) = Nat.log 2 ((r.2 - r.1).toNat / 2) := by
    have hcase : ((newBound r - r.1).toNat = (r.2 - r.1).toNat / 2 ∧ (r.2 - r.1).toNat / 2 ≤ (r.2 - newBound r).toNat) ∨
        ((r.2 - newBound r).toNat = (r.2 - r.1).toNat / 2 ∧ (r.2 - r.1).toNat / 2 ≤ (newBound r - r.1).toNat) := by
      have := newBound_bounds r
      omega
    rcases hcase with ⟨e, hle⟩ | ⟨e, hle⟩
    · rw [e, min_eq_left (Nat.log_mono_right hle)]
    · rw [e, min_eq_right (Nat.log_mono_right hle)]
  omega

/-- **C76 (when).** `split_params` into `2^k` parts succeeds iff `k` is at most the number of halvings the ranges of the first
polynomials of `a` and `b` allow (`⌊log₂ width⌋` each); otherwise it raises ValueError ("Non-dividable"), or IndexError if there
is no polynomial. -/
theorem C76_when : ∀ (k : ℕ) (a b : List Rng) (as bs : Ranges),
    ((∃ parts, splitParams k (a :: as, b :: bs) = .ok parts) ↔ k ≤ rowLog a + rowLog b) ∧
    (rowLog a + rowLog b < k → splitParams k (a :: as, b :: bs) = .error .valueError)
  | 0, a, b, as, bs => ⟨⟨fun _ => Nat.zero_le _, fun _ => ⟨_, rfl⟩⟩, by omega⟩
  | k + 1, a, b, as, bs => by
    have comb : ∀ {x y : Except PyErr (List (Ranges × Ranges))} {m n : ℕ},
        ((∃ l, x = .ok l) ↔ k ≤ m) ∧ (m < k → x = .error .valueError) →
        ((∃ l, y = .ok l) ↔ k ≤ n) ∧ (n < k → y = .error .valueError) →
        ((∃ l, Distribute.append x y = .ok l) ↔ k ≤ min m n) ∧ (min m n < k → Distribute.append x y = .error .valueError) := by
      rintro x y m n ⟨h1, h2⟩ ⟨h3, h4⟩
      constructor
      · rw [le_min_iff, ← h1, ← h3]
        constructor
        · rintro ⟨l, hl⟩
          obtain ⟨l1, l2, e1, e2, -⟩ := append_ok.1 hl
          exact ⟨⟨l1, e1⟩, l2, e2⟩
        · rintro ⟨⟨l1, rfl⟩, l2, rfl⟩
          exact ⟨_, rfl⟩
      · intro hlt
        by_cases hm : m < k
        · rw [h2 hm]; rfl
        · obtain ⟨l, rfl⟩ := h1.2 (by omega)
          rw [h4 (by omega)]; rfl
    rw [splitParams]
    cases ha : splitIndex a with
    | some i =>
      have hl := rowLog_halves ha
      obtain ⟨c1, c2⟩ := comb (C76_when k (halves a i).1 b as bs) (C76_when k (halves a i).2 b as bs)
      rw [min_add_add_right] at c1 c2
      exact ⟨c1.trans (by omega), fun h => c2 (by omega)⟩
    | none =>
      have h0 := rowLog_zero (splitIndex_none ha)
      cases hb : splitIndex b with
      | some i =>
        have hl := rowLog_halves hb
        obtain ⟨c1, c2⟩ := comb (C76_when k a (halves b i).1 as bs) (C76_when k a (halves b i).2 as bs)
        rw [min_add_add_left] at c1 c2
        exact ⟨c1.trans (by omega), fun h => c2 (by omega)⟩
      | none =>
        have h1 := rowLog_zero (splitIndex_none hb)
        refine ⟨iff_of_false ?_ (by omega), fun _ => rfl⟩
        rintro ⟨l, h⟩
        cases h

theorem C76_no_polynomial (k : ℕ) (r : Ranges × Ranges) (h : r.1 = [] ∨ r.2 = []) :
    splitParams (k + 1) r = .error .indexError := by
  obtain ⟨a, b⟩ := r
  cases a with
  | nil => rfl
  | cons a as =>
    cases b with
    | nil => rfl
    | cons b bs => simp at h

/-- Nine assignments in two ranges of width 3: 4 parts are possible, 8 are refused. -/
example : splitParams 2 ([[(-1, 2), (0, 3)]], [[(1, 2)]]) =
      .ok [([[(-1, 0), (0, 1)]], [[(1, 2)]]), ([[(-1, 0), (1, 3)]], [[(1, 2)]]), ([[(0, 1), (0, 3)]], [[(1, 2)]]),
        ([[(1, 2), (0, 3)]], [[(1, 2)]])] ∧
    splitParams 3 ([[(-1, 2), (0, 3)]], [[(1, 2)]]) = .error .valueError ∧ rowLog [(-1, 2), (0, 3)] = 2 :=
  ⟨by rfl, by rfl, by decide⟩

/-! ### C77 -/

theorem digitChar_inj {d e : ℕ} (hd : d < 10) (he : e < 10) (h : digitChar d = digitChar e) : d = e := by
  have h1 := charToks_digitChar hd
  rw [h, charToks_digitChar he] at h1
  injection h1 with h1
  injection h1 with h1
  exact h1.symm

theorem map_digitChar_inj : ∀ {l l' : List ℕ}, (∀ d ∈ l, d < 10) → (∀ d ∈ l', d < 10) → l.map digitChar = l'.map digitChar → l = l'
  | [], [], _, _, _ => rfl
  | [], _ :: _, _, _, h => by simp at h
  | _ :: _, [], _, _, h => by simp at h
  | d :: l, e :: l', h1, h2, h => by
    simp only [List.map_cons, List.cons.injEq] at h
    simp only [List.forall_mem_cons] at h1 h2
    rw [digitChar_inj h1.1 h2.1 h.1, map_digitChar_inj h1.2 h2.2 h.2]

theorem strNat_inj {i j : ℕ} (h : strNat i = strNat j) : i = j := by
  obtain ⟨d, ds, h1, h2, -, e1, e2⟩ := exists_strNat i
  obtain ⟨d', ds', h1', h2', -, e1', e2'⟩ := exists_strNat j
  rw [e1, e1'] at h
  have : d :: ds = d' :: ds' := by
    exact map_digitChar_inj (by simpa using ⟨h1, h2⟩) (by simpa using ⟨h1', h2'⟩) h
  rw [← e2, ← e2', this]

theorem digitChar_ne_slash {d : ℕ} (hd : d < 10) : digitChar d ≠ '/' := by
  interval_cases d <;> decide

theorem strNat_zero_head {n : ℕ} {s : Str} (h : strNat n = '0' :: s) : n = 0 := by
  obtain ⟨d, ds, h1, h2, h3, e1, -⟩ := exists_strNat n
  rw [e1, List.map_cons, List.cons.injEq] at h
  by_contra hn
  exact h3 hn (digitChar_inj h1 (by omega) (h.1.trans (by decide)))

/-- `os.path.join` with a fixed directory tells apart names starting alike. -/
theorem Path.join_right_inj {a x y : Str} (hxy : x.head? = y.head?) (h : Path.join a x = Path.join a y) : x = y := by
  have key : ∀ z : Str, Path.join a z = if z.head? = some '/' then z else
      if a = [] ∨ a.getLast? = some '/' then a ++ z else a ++ '/' :: z := by
    intro z
    cases z with
    | nil => simp [Path.join]
    | cons c z =>
      by_cases hc : c = '/'
      · subst hc; simp [Path.join]
      · simp only [List.head?_cons, Option.some.injEq, if_neg hc]
        unfold Path.join
        split
        · rename_i e; simp at e; exact absurd e.1 hc
        · rfl
  rw [key, key, hxy] at h
  split at h
  · exact h
  · split at h
    · exact List.append_cancel_left h
    · have := List.append_cancel_left h
      simpa using this

/-- **C77 (hashtables).** For every hashtable file name, different parts get different hashtable files. -/
theorem C77_hashtable_names (file : Str) {i j : ℕ} (h : partHashtable file i = partHashtable file j) : i = j := by
  have h1 : pad2 i = pad2 j := by
    simp only [partHashtable, PyStr.join] at h
    simpa [List.append_assoc] using h
  have mixed : ∀ {m n : ℕ}, (strNat m).length < 2 → ¬ (strNat n).length < 2 → '0' :: strNat m ≠ strNat n := by
    intro m n _ hn e
    have h0 := strNat_zero_head e.symm
    subst h0
    exact hn (by decide)
  rw [pad2, pad2] at h1
  split at h1 <;> split at h1
  · simp only [List.cons.injEq, true_and] at h1
    exact strNat_inj h1
  · exact (mixed ‹_› ‹_› h1).elim
  · exact (mixed ‹_› ‹_› h1.symm).elim
  · exact strNat_inj h1

/-- **C77 (configurations).** For every configuration file name, different parts get different configuration files, including
for absolute paths (where `os.path.join` drops the directory of the parts). -/
theorem C77_config_names (configfile : Str) (k : ℕ) {i j : ℕ} (h : partConfig configfile k i = partConfig configfile k j) : i = j := by
  rw [partConfig, partConfig] at h
  have := Path.join_right_inj (x := (Path.splitext configfile).1 ++ ('_' :: strNat i) ++ (Path.splitext configfile).2)
    (y := (Path.splitext configfile).1 ++ ('_' :: strNat j) ++ (Path.splitext configfile).2) ?_ h
  · simp only [List.append_assoc, List.cons_append, List.append_cancel_left_eq, List.cons.injEq, true_and] at this
    exact strNat_inj (List.append_cancel_right this)
  · cases (Path.splitext configfile).1 with
    | nil => simp
    | cons c l => simp

/-- Parts 3 and 10 of a search whose hashtable is `db/h.pkl`; configuration files given by a relative and an absolute name. -/
example : partHashtable "db/h.pkl".toList 3 = "db/h_part03.pkl".toList ∧ partHashtable "db/h.pkl".toList 110 = "db/h_part110.pkl".toList ∧
    partConfig "c.ini".toList 2 3 = "c_dist_4/c_3.ini".toList ∧ partConfig "/x/c.ini".toList 2 3 = "/x/c_3.ini".toList := by
  decide

end PiCF
