import Verif.Props.EnumPoly
import Verif.Model.Mitm

/-!
# C145: an empty search is noticed
-/

namespace PiCF
open PiCF.Spec PiCF.Hashtable PiCF.Mitm PiCF.EnumPoly PiCF.ContFrac

theorem prod_pos_int : ∀ {l : List ℤ}, (∀ x ∈ l, 0 < x) → 0 < l.prod
  | [], _ => by decide
  | x :: l, h => by
    rw [List.prod_cons]
    exact mul_pos (h x List.mem_cons_self) (prod_pos_int fun y hy => h y (List.mem_cons_of_mem _ hy))

/-- There is nothing between the bounds of one of the coefficients. -/
def HasEmpty (rs : Ranges) : Prop := ∃ r ∈ rs, ∃ p ∈ r, p.2 ≤ p.1

theorem not_inRanges {rs : Ranges} (h : HasEmpty rs) (ps : Polys) : ¬ InRanges rs ps := by
  intro hp
  obtain ⟨r, hr, p, hp', hle⟩ := h
  induction hp with
  | nil => cases hr
  | cons h1 _ ih =>
    rcases List.mem_cons.1 hr with rfl | hr
    · clear ih
      induction h1 with
      | nil => cases hp'
      | cons h2 _ ih2 =>
        rcases List.mem_cons.1 hp' with rfl | hp'
        · omega
        · exact ih2 hp' (by simp)
    · exact ih hr

theorem coeffTuples_empty {rs : Ranges} (h : HasEmpty rs) : coeffTuples rs = [] := by
  rw [List.eq_nil_iff_forall_not_mem]
  intro ps hps
  exact not_inRanges h ps ((mem_coeffTuples rs ps).1 hps)

theorem init_one (z : Bool) : ∃ cf, ContFrac.init [[1]] [[1]] z none false = .ok cf := by
  cases z <;> exact ⟨_, rfl⟩

/-- The loops end at once if there is no `b`, as long as the class makes something of every `a`. -/
theorem loopA_noB {cfg : Config} {manip : Manip} {rb : Ranges} (hb : coeffTuples rb = []) :
    ∀ (pss : List Polys) (s : St), (∀ ps ∈ pss, ∀ x ∈ manip .a ps, ∃ qs, x = .ok qs) → loopA cfg manip rb pss s = (s, .ok ()) := by
  have inner : ∀ (xs : List (Except PyErr Polys)) (s : St), (∀ x ∈ xs, ∃ qs, x = .ok qs) → manipLoopA cfg manip rb xs s = (s, .ok ()) := by
    intro xs
    induction xs with
    | nil => intro s _; rfl
    | cons x xs ih =>
      intro s h
      obtain ⟨qs, rfl⟩ := h x List.mem_cons_self
      rw [manipLoopA, hb]
      exact ih s fun y hy => h y (List.mem_cons_of_mem _ hy)
  intro pss
  induction pss with
  | nil => intro s _; rfl
  | cons ps pss ih =>
    intro s h
    rw [loopA, PyM.bind_ok (inner _ s (h ps List.mem_cons_self))]
    exact ih s fun y hy => h y (List.mem_cons_of_mem _ hy)

/-- What the enumeration yields with an empty range: nothing, without an exception. -/
theorem generator_empty {manip : Manip} {cfg : Config} {ra rb : Ranges}
    (h : HasEmpty ra ∨ HasEmpty rb ∧ ∀ ps, InRanges ra ps → ∀ x ∈ manip .a ps, ∃ qs, x = .ok qs) : polysGenerator manip cfg ra rb = ([], .ok ()) := by
  obtain ⟨cf, hcf⟩ := init_one cfg.avoidZeroB
  rw [polysGenerator, hcf]
  rcases h with h | ⟨h, hm⟩
  · simp only [coeffTuples_empty h]
    rfl
  · simp only [loopA_noB (coeffTuples_empty h) (coeffTuples ra) _ fun ps hps => hm ps ((mem_coeffTuples ra ps).1 hps)]

/-- **C145 (violated).** If a range for a coefficient of `a` is empty, or one for a coefficient of `b` with the basic or the indexed class, then building the
table changes nothing, and the only exceptions are those that do not depend on the ranges. -/
theorem C145_empty_violated (env : Env) (cfg : Config) (validate : Bool) {ra rb : Ranges} {manip : Manip}
    (h : HasEmpty ra ∨ HasEmpty rb ∧ (manip = manipBasic ∨ manip = manipIndexed)) (t : Table (Val Entry)) :
    (buildHashtable env manip cfg validate ra rb t).1 = t ∧
    ∀ ra' rb', (buildHashtable env manip cfg validate ra' rb' t).2 = .ok () → (buildHashtable env manip cfg validate ra rb t).2 = .ok () := by
  have hg : ∀ cfg, polysGenerator manip cfg ra rb = ([], .ok ()) := by
    intro cfg
    refine generator_empty (h.imp id fun ⟨h1, h2⟩ => ⟨h1, ?_⟩)
    rcases h2 with rfl | rfl
    · intro ps _ x hx; exact ⟨_, List.mem_singleton.1 hx⟩
    · intro ps _ x hx; exact ⟨_, List.mem_singleton.1 hx⟩
  constructor
  · rw [buildHashtable, hg]
    simp only [iter2hashtable, List.map_nil]
    cases selected env with
    | error e => rfl
    | ok sel =>
      simp only
      cases (if validate = true then blacklist t.data else .ok []) with
      | error e => rfl
      | ok bl => rfl
  · intro ra' rb' h'
    rw [buildHashtable] at h' ⊢
    rw [hg]
    simp only [iter2hashtable, List.map_nil] at h' ⊢
    cases hs : selected env with
    | error e => rw [hs] at h'; cases h'
    | ok sel =>
      rw [hs] at h'
      simp only at h' ⊢
      cases hb : (if validate = true then blacklist t.data else .ok []) with
      | error e => rw [hb] at h'; cases h'
      | ok bl => rfl

/-- The ranges of config_apery_extend_hashtable.ini:24 contain the empty range `[7, 7]`. -/
example : HasEmpty [[(0, 7), (7, 7), (0, 7), (5, 8)]] := ⟨_, List.mem_singleton_self _, (7, 7), by decide, by decide⟩

/-- **C145.** Otherwise there is something to search: if no range is empty, the basic class yields at least one continued fraction, unless the integer root test,
the test of the degrees or the test for zeros drops them all; and the estimated length is positive. -/
theorem C145_nonempty_partial {cfg : Config} {ra rb : Ranges} (hs : ShapeOK cfg ra rb) (ha : ¬ HasEmpty ra) (hb : ¬ HasEmpty rb) :
    (∃ pas pbs, InRanges ra pas ∧ InRanges rb pbs) ∧
    (cfg.avoidIntRoots = false → cfg.expOnly = false → (cfg.genContFrac && cfg.avoidZeroB) = false → (polysGenerator manipBasic cfg ra rb).1 ≠ []) ∧
    0 < lenEstimate ra rb := by
  have ex : ∀ rs : Ranges, ¬ HasEmpty rs → ∃ ps, InRanges rs ps := by
    intro rs
    induction rs with
    | nil => intro _; exact ⟨[], .nil⟩
    | cons r rs ih =>
      intro h
      obtain ⟨ps, hps⟩ := ih fun ⟨r', hr', x⟩ => h ⟨r', List.mem_cons_of_mem _ hr', x⟩
      refine ⟨r.map (·.1) :: ps, .cons ?_ hps⟩
      have : ∀ p ∈ r, p.1 < p.2 := fun p hp => by
        by_contra hn
        exact h ⟨r, List.mem_cons_self, p, hp, not_lt.1 hn⟩
      rw [List.forall₂_map_right_iff]
      exact List.forall₂_same.2 fun p hp => ⟨le_rfl, this p hp⟩
  have pos : ∀ rs : Ranges, ¬ HasEmpty rs → 0 < (rs.map fun ar => (ar.map fun r => r.2 - r.1).prod).prod := by
    intro rs h
    refine prod_pos_int ?_
    intro x hx
    obtain ⟨r, hr, rfl⟩ := List.mem_map.1 hx
    refine prod_pos_int ?_
    intro y hy
    obtain ⟨p, hp, rfl⟩ := List.mem_map.1 hy
    have : p.1 < p.2 := by
      by_contra hn
      exact h ⟨r, hr, p, hp, not_lt.1 hn⟩
    omega
  obtain ⟨pas, h1⟩ := ex ra ha
  obtain ⟨pbs, h2⟩ := ex rb hb
  refine ⟨⟨pas, pbs, h1, h2⟩, ?_, mul_pos (pos ra ha) (pos rb hb)⟩
  intro e1 e2 e3 hn
  have sq : ∀ ps : Polys, ∃ ps', Squeezed ps ps' := by
    intro ps
    by_cases h : ∃ m p, ps = List.replicate (m + 2) p
    · obtain ⟨m, p, h⟩ := h
      exact ⟨[p], .inl ⟨m, p, h, rfl⟩⟩
    · exact ⟨ps, .inr ⟨h, rfl⟩⟩
  obtain ⟨pas', h3⟩ := sq pas
  obtain ⟨pbs', h4⟩ := sq pbs
  have := ((C34_enumeration cfg ra rb hs).2.2.1 pas' pbs').2 ⟨pas, pbs, h1, h2, h3, h4, by simp [e1], by simp [e2], by simp [e3]⟩
  rw [hn] at this
  cases this

/-- The ranges of config_apery.ini:22-23. -/
example : ShapeOK {} [[(0, 5), (0, 5), (0, 5), (0, 5)]] [[(-3, 4), (-3, 4)]] ∧ ¬ HasEmpty [[(0, 5), (0, 5), (0, 5), (0, 5)]] ∧ ¬ HasEmpty [[(-3, 4), (-3, 4)]] := by
  refine ⟨fun _ => ⟨⟨_, _, _, rfl⟩, by simp⟩, ?_, ?_⟩ <;>
  · rintro ⟨r, hr, p, hp, h⟩
    rw [List.mem_singleton] at hr
    subst hr
    simp only [List.mem_cons, List.not_mem_nil, or_false] at hp
    rcases hp with rfl | rfl | rfl | rfl <;> exact absurd h (by decide)

end PiCF
