import Mathlib.Data.List.Sym
import Mathlib.Data.List.Nodup
import Mathlib.Data.List.GetD
import Mathlib.Algebra.Order.BigOperators.Ring.List
import Verif.Model.EnumPoly
import Verif.Spec.EnumPoly
import Verif.Props.ContFrac

/-!
# Lemmas about the enumeration model
-/

namespace PiCF.EnumPoly
open PiCF.ContFrac PiCF.Spec

/-! ## ranges and products -/

theorem mem_pyRange (r : Rng) (c : ℤ) : c ∈ pyRange r ↔ r.1 ≤ c ∧ c < r.2 := by
  simp only [pyRange, List.mem_map, List.mem_range]
  constructor
  · rintro ⟨n, h, rfl⟩; omega
  · intro h; exact ⟨(c - r.1).toNat, by omega, by omega⟩

theorem nodup_pyRange (r : Rng) : (pyRange r).Nodup :=
  List.nodup_range.map (fun a b h => by simpa using h)

theorem length_pyRange (r : Rng) : (pyRange r).length = (r.2 - r.1).toNat := by simp [pyRange]

theorem mem_product {α : Type} (ls : List (List α)) (xs : List α) :
    xs ∈ product ls ↔ List.Forall₂ (fun l x => x ∈ l) ls xs := by
  induction ls generalizing xs with
  | nil => simp [product]
  | cons l ls ih =>
    simp only [product, List.mem_flatMap, List.mem_map, List.forall₂_cons_left_iff]
    constructor
    · rintro ⟨x, hx, ys, hys, rfl⟩; exact ⟨x, ys, hx, (ih ys).1 hys, rfl⟩
    · rintro ⟨x, ys, hx, hys, rfl⟩; exact ⟨x, hx, ys, (ih ys).2 hys, rfl⟩

theorem nodup_product {α : Type} (ls : List (List α)) (h : ∀ l ∈ ls, l.Nodup) : (product ls).Nodup := by
  induction ls with
  | nil => simp [product]
  | cons l ls ih =>
    rw [product, List.nodup_flatMap]
    refine ⟨fun x _ => (ih fun l hl => h l (List.mem_cons_of_mem _ hl)).map (fun a b e => (List.cons.inj e).2), ?_⟩
    refine (h l List.mem_cons_self).imp fun {x y} hxy => ?_
    intro z hz1 hz2
    obtain ⟨_, _, rfl⟩ := List.mem_map.1 hz1
    obtain ⟨_, _, e⟩ := List.mem_map.1 hz2
    exact hxy (List.cons.inj e).1.symm

theorem length_product {α : Type} (ls : List (List α)) : (product ls).length = (ls.map List.length).prod := by
  induction ls with
  | nil => rfl
  | cons l ls ih => simp [product, List.length_flatMap, ih, List.map_const']

theorem mem_coeffTuples (rs : Ranges) (ps : Polys) : ps ∈ coeffTuples rs ↔ InRanges rs ps := by
  rw [coeffTuples, mem_product, List.forall₂_map_left_iff, InRanges]
  simp only [mem_product, List.forall₂_map_left_iff, mem_pyRange]

theorem nodup_coeffTuples (rs : Ranges) : (coeffTuples rs).Nodup := by
  apply nodup_product
  intro l hl
  obtain ⟨r, _, rfl⟩ := List.mem_map.1 hl
  apply nodup_product
  intro l hl
  obtain ⟨r, _, rfl⟩ := List.mem_map.1 hl
  exact nodup_pyRange r

/-- Ranges as in the documentation: `m ≤ n`. -/
def WFRanges (rs : Ranges) : Prop := ∀ r ∈ rs, ∀ x ∈ r, x.1 ≤ x.2

theorem length_coeffTuples (rs : Ranges) (h : WFRanges rs) :
    ((coeffTuples rs).length : ℤ) = (rs.map fun ar => (ar.map fun r => r.2 - r.1).prod).prod := by
  rw [coeffTuples, length_product]
  induction rs with
  | nil => rfl
  | cons r rs ih =>
    simp only [List.map_cons, List.prod_cons, Nat.cast_mul]
    rw [ih fun r hr => h r (List.mem_cons_of_mem _ hr)]
    congr 1
    have hr := h r List.mem_cons_self
    clear ih h
    rw [length_product]
    induction r with
    | nil => rfl
    | cons x r ih =>
      simp only [List.map_cons, List.prod_cons, Nat.cast_mul]
      rw [ih fun x hx => hr x (List.mem_cons_of_mem _ hx), length_pyRange]
      have := hr x List.mem_cons_self
      congr 1
      omega

/-! ## squeezing -/

theorem squeeze_spec (ps : Polys) : Squeezed ps (squeeze ps) := by
  rw [squeeze]
  split
  · rename_i h
    left
    obtain ⟨h1, h2⟩ := h
    match ps, h1 with
    | p :: q :: ps, _ =>
      refine ⟨ps.length, p, ?_, rfl⟩
      rw [List.eq_replicate_iff]
      refine ⟨rfl, fun x hx => ?_⟩
      have := List.all_eq_true.1 h2 x hx
      exact (by simpa using this : p = x).symm
  · rename_i h
    right
    refine ⟨?_, rfl⟩
    rintro ⟨m, p, rfl⟩
    apply h
    refine ⟨by simp, ?_⟩
    rw [List.all_eq_true]
    intro x hx
    rw [List.eq_of_mem_replicate hx]
    simp [List.replicate_succ]

theorem squeezed_unique {ps q q' : Polys} (h : Squeezed ps q) (h' : Squeezed ps q') : q = q' := by
  rcases h with ⟨m, p, e, rfl⟩ | ⟨hn, rfl⟩
  · rcases h' with ⟨m', p', e', rfl⟩ | ⟨hn', rfl⟩
    · rw [e] at e'
      simp only [List.replicate_succ, List.cons.injEq] at e'
      rw [e'.1]
    · exact absurd ⟨m, p, e⟩ hn'
  · rcases h' with ⟨m', p', e', rfl⟩ | ⟨hn', rfl⟩
    · exact absurd ⟨m', p', e'⟩ hn
    · rfl

theorem squeezed_iff (ps q : Polys) : Squeezed ps q ↔ q = squeeze ps :=
  ⟨fun h => squeezed_unique h (squeeze_spec ps), fun h => h ▸ squeeze_spec ps⟩

theorem squeeze_idem (ps : Polys) : squeeze (squeeze ps) = squeeze ps := by
  rcases squeeze_spec ps with ⟨m, p, _, h2⟩ | ⟨_, h2⟩
  · rw [h2]; rfl
  · rw [h2, h2]

theorem squeeze_inj {ps qs : Polys} (hl : ps.length = qs.length) (h : squeeze ps = squeeze qs) : ps = qs := by
  rcases squeeze_spec ps with ⟨m, p, e, h2⟩ | ⟨hn, h2⟩
  · rcases squeeze_spec qs with ⟨m', p', e', h2'⟩ | ⟨hn', h2'⟩
    · rw [h2, h2'] at h
      have hp : p = p' := (List.cons.inj h).1
      rw [e, e'] at hl
      simp only [List.length_replicate] at hl
      rw [e, e', hp, show m = m' by omega]
    · rw [h2, h2'] at h
      rw [e, ← h] at hl
      simp at hl
  · rcases squeeze_spec qs with ⟨m', p', e', h2'⟩ | ⟨hn', h2'⟩
    · rw [h2, h2'] at h
      rw [e', h] at hl
      simp at hl
    · rw [h2, h2'] at h; exact h

theorem seqAt_squeeze (ps : Polys) : seqAt (squeeze ps) = seqAt ps := by
  rcases squeeze_spec ps with ⟨m, p, e, h2⟩ | ⟨_, h2⟩
  · funext i
    rw [h2, e, seqAt, seqAt]
    have hlt : i % (List.replicate (m + 2) p).length < m + 2 := by
      rw [List.length_replicate]; exact Nat.mod_lt _ (by omega)
    rw [List.getD_eq_getElem?_getD, List.getD_eq_getElem?_getD,
      List.getElem?_replicate_of_lt hlt, List.length_singleton, Nat.mod_one]
    rfl
  · rw [h2]

theorem squeeze_ne_nil {ps : Polys} (h : ps ≠ []) : squeeze ps ≠ [] := by
  rcases squeeze_spec ps with ⟨m, p, _, h2⟩ | ⟨_, h2⟩
  · simp [h2]
  · rwa [h2]

theorem squeeze_wf {a b : Polys} (h : WF a b) : WF (squeeze a) (squeeze b) := by
  obtain ⟨x, xs, ys, rfl⟩ := h.a_head
  refine ⟨?_, squeeze_ne_nil h.hb⟩
  rcases squeeze_spec ((x :: xs) :: ys) with ⟨m, p, e, h2⟩ | ⟨_, h2⟩
  · rw [h2]
    rw [List.replicate_succ] at e
    rw [← (List.cons.inj e).1]; simp
  · rw [h2]; simp

/-! ## the degree -/

theorem degreeLoop_spec (p : Poly) : ∀ d : ℤ, d = p.length → IsDegree p.reverse (degreeLoop p d - 1) := by
  induction p with
  | nil => rintro d rfl; left; simp [degreeLoop]
  | cons c p ih =>
    rintro d rfl
    rw [degreeLoop]
    by_cases hc : c = 0
    · subst hc
      simp only [ne_eq, not_true_eq_false, if_false]
      rcases ih (p.length : ℤ) rfl with ⟨h1, h2⟩ | ⟨i, h1, h2, h3⟩
      · left
        refine ⟨by simpa using h1, ?_⟩
        intro x hx
        simp only [List.reverse_cons, List.mem_append, List.mem_singleton] at hx
        rcases hx with hx | hx
        · exact h2 x hx
        · exact hx
      · right
        have hil : i < p.reverse.length := by
          by_contra hge
          exact h2 (List.getD_eq_default _ _ (by omega))
        refine ⟨i, by simpa using h1, ?_, ?_⟩
        · rw [List.reverse_cons, List.getD_append _ _ _ _ hil]; exact h2
        · intro j hj
          rw [List.reverse_cons]
          by_cases hjl : j < p.reverse.length
          · rw [List.getD_append _ _ _ _ hjl]; exact h3 j hj
          · rw [List.getD_append_right _ _ _ _ (by omega)]
            cases hk : j - p.reverse.length <;> simp
    · rw [if_pos hc]
      right
      refine ⟨p.length, by simp, ?_, ?_⟩
      · rw [List.reverse_cons, List.getD_append_right _ _ _ _ (by simp)]
        simpa using hc
      · intro j hj
        exact List.getD_eq_default _ _ (by simp; omega)

theorem polynomDegree_spec (p : Poly) : IsDegree p (polynomDegree p) := by
  have := degreeLoop_spec p.reverse p.length (by simp)
  rwa [List.reverse_reverse] at this

theorem isDegree_unique {p : Poly} {d d' : ℤ} (h : IsDegree p d) (h' : IsDegree p d') : d = d' := by
  have hz : (∀ c ∈ p, c = 0) → ∀ i, p.getD i 0 = 0 := by
    intro h i
    rw [List.getD_eq_getElem?_getD]
    cases hi : p[i]? with
    | none => rfl
    | some c => exact h c (List.mem_of_getElem? hi)
  rcases h with ⟨rfl, h2⟩ | ⟨i, rfl, h2, h3⟩ <;> rcases h' with ⟨rfl, h2'⟩ | ⟨i', rfl, h2', h3'⟩
  · rfl
  · exact absurd (hz h2 i') h2'
  · exact absurd (hz h2' i) h2
  · rcases lt_trichotomy i i' with h | h | h
    · exact absurd (h3 _ h) h2'
    · rw [h]
    · exact absurd (h3' _ h) h2

/-! ## the generator in closed form -/

/-- The filters of the generator, for a pair of interlaced polynomials. -/
def Passes (cfg : Config) (pas pbs : Polys) : Prop :=
  (cfg.avoidIntRoots = true → ∀ pb ∈ pbs, hasIntRoots pb = false) ∧
  (cfg.expOnly = true → ∀ pa pb, squeeze pas = [pa] → squeeze pbs = [pb] → polynomDegree pb ≤ 2 * polynomDegree pa) ∧
  (cfg.genContFrac = true → cfg.avoidZeroB = true → ∀ j, 1 ≤ j → j ≤ cfg.numIters → seqAt pbs j ≠ 0)

open Classical in
/-- The pairs yielded for one pair of interlaced polynomials. -/
noncomputable def emit (cfg : Config) (pas pbs : Polys) : List (Polys × Polys) :=
  if Passes cfg pas pbs then [(squeeze pas, squeeze pbs)] else []

/-- What is known of a yielded tuple. -/
def ItemOK (cfg : Config) (it : Item) : Prop :=
  if cfg.genContFrac then ∃ cf, it.cf = some cf ∧ cf.params.a = it.pas ∧ cf.params.b = it.pbs ∧
    getResult cf = convVal it.pas it.pbs cfg.numIters ∧ cf.executed = cfg.numIters
  else it.cf = none

/-- The pair of polynomials of a yielded tuple. -/
def Item.pair (it : Item) : Polys × Polys := (it.pas, it.pbs)

theorem passes_squeeze (cfg : Config) (pas pbs : Polys) : Passes cfg (squeeze pas) pbs ↔ Passes cfg pas pbs := by
  rw [Passes, Passes, squeeze_idem]

theorem emit_squeeze (cfg : Config) (pas pbs : Polys) : emit cfg (squeeze pas) pbs = emit cfg pas pbs := by
  rw [emit, emit, squeeze_idem]
  by_cases h : Passes cfg pas pbs
  · rw [if_pos h, if_pos ((passes_squeeze cfg pas pbs).2 h)]
  · rw [if_neg h, if_neg fun h' => h ((passes_squeeze cfg pas pbs).1 h')]

theorem keepOr_some {a b : Coeffs} (h : a ≠ []) : keepOr (some a) b = a := by
  match a, h with
  | x :: xs, _ => rfl

theorem length_one_iff (ps : Polys) : ps.length = 1 ↔ ps = [ps.headD []] := by
  match ps with
  | [] => simp
  | [p] => simp
  | p :: q :: ps => simp

/-- The state while the generator runs: the items yielded so far are `pairs`. -/
structure Inv (cfg : Config) (s : St) (pairs : List (Polys × Polys)) : Prop where
  good : Good s.cf cfg.avoidZeroB false
  out : s.out.map Item.pair = pairs
  ok : ∀ it ∈ s.out, ItemOK cfg it

theorem body_spec {cfg : Config} {s : St} {pairs : List (Polys × Polys)} (hI : Inv cfg s pairs) (pas pbs : Polys)
    (hw : cfg.genContFrac = true → WF pas pbs) :
    ∃ s' pas', body cfg pas pbs s = (s', .ok pas') ∧ (pas' = pas ∨ pas' = squeeze pas) ∧
      Inv cfg s' (pairs ++ emit cfg pas pbs) := by
  rw [body]
  by_cases hr : (cfg.avoidIntRoots && pbs.any hasIntRoots) = true
  · rw [if_pos hr]
    have hnp : ¬ Passes cfg pas pbs := by
      rintro ⟨h1, -, -⟩
      rw [Bool.and_eq_true, List.any_eq_true] at hr
      obtain ⟨hr1, pb, hpb, hr2⟩ := hr
      rw [h1 hr1 pb hpb] at hr2
      cases hr2
    exact ⟨s, pas, rfl, .inl rfl, by rw [emit, if_neg hnp, List.append_nil]; exact hI⟩
  rw [if_neg hr]
  have hr' : cfg.avoidIntRoots = true → ∀ pb ∈ pbs, hasIntRoots pb = false := by
    intro h1 pb hpb
    by_contra h2
    apply hr
    rw [Bool.and_eq_true, List.any_eq_true]
    exact ⟨h1, pb, hpb, by simpa using h2⟩
  simp only
  by_cases hd : (squeeze pas).length = 1 ∧ (squeeze pbs).length = 1 ∧ cfg.expOnly = true ∧
      polynomDegree ((squeeze pbs).headD []) > 2 * polynomDegree ((squeeze pas).headD [])
  · rw [if_pos hd]
    have hnp : ¬ Passes cfg pas pbs := by
      rintro ⟨-, h2, -⟩
      obtain ⟨d1, d2, d3, d4⟩ := hd
      have := h2 d3 _ _ ((length_one_iff _).1 d1) ((length_one_iff _).1 d2)
      omega
    exact ⟨s, _, rfl, .inr rfl, by rw [emit, if_neg hnp, List.append_nil]; exact hI⟩
  rw [if_neg hd]
  have hd' : cfg.expOnly = true → ∀ pa pb, squeeze pas = [pa] → squeeze pbs = [pb] →
      polynomDegree pb ≤ 2 * polynomDegree pa := by
    intro h1 pa pb h2 h3
    by_contra h4
    apply hd
    rw [h2, h3]
    exact ⟨rfl, rfl, h1, by simpa using h4⟩
  by_cases hg : cfg.genContFrac = true
  · rw [if_pos hg]
    have hwf := squeeze_wf (hw hg)
    have hre := reinit_good hI.good (some (squeeze pas)) (some (squeeze pbs))
    have hreq : ∃ cf, reinitialize (some (squeeze pas)) (some (squeeze pbs)) none s.cf = (cf, .ok ()) ∧
        cf.params.a = squeeze pas ∧ cf.params.b = squeeze pbs := by
      obtain ⟨x, xs, ys, hx⟩ := hwf.a_head
      rw [reinitialize]
      simp only [hI.good.auto, keepOr_some hwf.hb, keepOr_some (show squeeze pas ≠ [] by rw [hx]; simp)]
      rw [hx]
      exact ⟨_, rfl, rfl, rfl⟩
    obtain ⟨cf, e1, ha, hb⟩ := hreq
    rw [e1] at hre
    rw [e1]
    simp only
    by_cases hz : cfg.avoidZeroB = true → ∀ j, 1 ≤ j → j ≤ cfg.numIters → seqAt pbs j ≠ 0
    · obtain ⟨cf', e2, hs, hc, hres⟩ := gen_ok hre cfg.numIters true (by
        intro j h1 h2 h3
        rw [hb, seqAt_squeeze] at h3
        exact hz h3.1 j h1 h2 h3.2)
      rw [e2]
      simp only
      have hres := hres (by simp)
      refine ⟨_, _, rfl, .inr rfl, good_of_core hc hre, ?_, ?_⟩
      · rw [emit, if_pos ⟨hr', hd', fun _ => hz⟩, List.map_append, hI.out]; rfl
      · intro it hit
        rcases List.mem_append.1 hit with hit | hit
        · exact hI.ok it hit
        · rw [List.mem_singleton] at hit
          subst hit
          rw [ItemOK, if_pos hg]
          have hc' := hc
          simp only [core, Prod.mk.injEq] at hc
          refine ⟨cf', rfl, by rw [hc.1, ha], by rw [hc.1, hb], ?_, hs.hn⟩
          rw [hres, ha, hb]
    · have hnp : ¬ Passes cfg pas pbs := fun hp => hz (hp.2.2 hg)
      have hcl := addIterations_closed (good_reset_synced hre) cfg.numIters true
      have hpres := pres_gen cfg.numIters true cf
      rw [genIterations_eq, hcl] at hpres ⊢
      simp only at hpres ⊢
      rw [if_neg] at hpres ⊢
      · refine ⟨_, _, rfl, .inr rfl, good_of_core hpres hre, ?_, hI.ok⟩
        rw [emit, if_neg hnp, List.append_nil]; exact hI.out
      all_goals
        rw [stepsBefore_eq_iff]
        intro hno
        apply hz
        intro h1 j h2 h3 h4
        refine hno j (by omega) (by omega) ⟨?_, ?_⟩
        · rw [show cf.reset.avoidZeroB = cfg.avoidZeroB from hre.avoid]; exact h1
        · rw [hb, seqAt_squeeze]; exact h4
  · rw [if_neg hg]
    refine ⟨_, _, rfl, .inr rfl, hI.good, ?_, ?_⟩
    · rw [emit, if_pos ⟨hr', hd', fun h => absurd h hg⟩, List.map_append, hI.out]; rfl
    · intro it hit
      rcases List.mem_append.1 hit with hit | hit
      · exact hI.ok it hit
      · rw [List.mem_singleton] at hit
        subst hit
        rw [ItemOK, if_neg hg]

/-- Lists of manipulated polynomials without exceptions. -/
def oks (l : List Polys) : List (Except PyErr Polys) := l.map .ok

theorem manipLoopB_spec {cfg : Config} (bs : List Polys) : ∀ {s : St} {pairs : List (Polys × Polys)} (pas pas₀ : Polys),
    Inv cfg s pairs → (pas = pas₀ ∨ pas = squeeze pas₀) →
    (cfg.genContFrac = true → ∀ pbs ∈ bs, WF pas₀ pbs) →
    ∃ s' pas', manipLoopB cfg (oks bs) pas s = (s', .ok pas') ∧ (pas' = pas₀ ∨ pas' = squeeze pas₀) ∧
      Inv cfg s' (pairs ++ bs.flatMap (emit cfg pas₀)) := by
  induction bs with
  | nil => intro s pairs pas pas₀ hI hp _; exact ⟨s, pas, rfl, hp, by simpa using hI⟩
  | cons pbs bs ih =>
    intro s pairs pas pas₀ hI hp hw
    have hw' : cfg.genContFrac = true → WF pas pbs := by
      intro hg
      have := hw hg pbs List.mem_cons_self
      rcases hp with rfl | rfl
      · exact this
      · exact ⟨(squeeze_wf this).a_head, this.hb⟩
    obtain ⟨s₁, pas₁, e₁, hp₁, hI₁⟩ := body_spec hI pas pbs hw'
    have hem : emit cfg pas pbs = emit cfg pas₀ pbs := by
      rcases hp with rfl | rfl
      · rfl
      · exact emit_squeeze _ _ _
    have hp₁' : pas₁ = pas₀ ∨ pas₁ = squeeze pas₀ := by
      rcases hp with rfl | rfl
      · exact hp₁
      · rw [squeeze_idem] at hp₁; exact .inr (hp₁.elim id id)
    obtain ⟨s₂, pas₂, e₂, hp₂, hI₂⟩ := ih pas₁ pas₀ hI₁ hp₁' (fun hg pbs h => hw hg pbs (List.mem_cons_of_mem _ h))
    refine ⟨s₂, pas₂, ?_, hp₂, ?_⟩
    · show (body cfg pas pbs >>= fun pas => manipLoopB cfg (oks bs) pas) s = _
      rw [PyM.bind_ok e₁]; exact e₂
    · rw [hem, List.append_assoc] at hI₂
      simpa using hI₂

theorem loopB_spec {cfg : Config} {manip : Manip} {f : Polys → List Polys} (bs : List Polys)
    (hf : ∀ pbs ∈ bs, manip .b pbs = oks (f pbs)) : ∀ {s : St} {pairs : List (Polys × Polys)} (pas pas₀ : Polys),
    Inv cfg s pairs → (pas = pas₀ ∨ pas = squeeze pas₀) →
    (cfg.genContFrac = true → ∀ pbs ∈ bs.flatMap f, WF pas₀ pbs) →
    ∃ s' pas', loopB cfg manip bs pas s = (s', .ok pas') ∧ (pas' = pas₀ ∨ pas' = squeeze pas₀) ∧
      Inv cfg s' (pairs ++ (bs.flatMap f).flatMap (emit cfg pas₀)) := by
  induction bs with
  | nil => intro s pairs pas pas₀ hI hp _; exact ⟨s, pas, rfl, hp, by simpa using hI⟩
  | cons pbs bs ih =>
    intro s pairs pas pas₀ hI hp hw
    obtain ⟨s₁, pas₁, e₁, hp₁, hI₁⟩ := manipLoopB_spec (f pbs) pas pas₀ hI hp
      (fun hg p h => hw hg p (by rw [List.flatMap_cons]; exact List.mem_append_left _ h))
    obtain ⟨s₂, pas₂, e₂, hp₂, hI₂⟩ := ih (fun p h => hf p (List.mem_cons_of_mem _ h)) pas₁ pas₀ hI₁ hp₁
      (fun hg p h => hw hg p (by rw [List.flatMap_cons]; exact List.mem_append_right _ h))
    refine ⟨s₂, pas₂, ?_, hp₂, ?_⟩
    · show (manipLoopB cfg (manip .b pbs) pas >>= fun pas => loopB cfg manip bs pas) s = _
      rw [hf pbs List.mem_cons_self, PyM.bind_ok e₁]; exact e₂
    · rw [List.append_assoc] at hI₂
      simpa using hI₂

theorem manipLoopA_spec {cfg : Config} {manip : Manip} {f : Polys → List Polys} (rb : Ranges)
    (hf : ∀ pbs ∈ coeffTuples rb, manip .b pbs = oks (f pbs)) (as : List Polys) :
    ∀ {s : St} {pairs : List (Polys × Polys)}, Inv cfg s pairs →
    (cfg.genContFrac = true → ∀ pas ∈ as, ∀ pbs ∈ (coeffTuples rb).flatMap f, WF pas pbs) →
    ∃ s', manipLoopA cfg manip rb (oks as) s = (s', .ok ()) ∧
      Inv cfg s' (pairs ++ as.flatMap fun pas => ((coeffTuples rb).flatMap f).flatMap (emit cfg pas)) := by
  induction as with
  | nil => intro s pairs hI _; exact ⟨s, rfl, by simpa using hI⟩
  | cons pas as ih =>
    intro s pairs hI hw
    obtain ⟨s₁, pas₁, e₁, hp₁, hI₁⟩ := loopB_spec (coeffTuples rb) hf pas pas hI (.inl rfl)
      (fun hg => hw hg pas List.mem_cons_self)
    obtain ⟨s₂, e₂, hI₂⟩ := ih hI₁ (fun hg p h => hw hg p (List.mem_cons_of_mem _ h))
    refine ⟨s₂, ?_, ?_⟩
    · show (loopB cfg manip (coeffTuples rb) pas >>= fun _ => manipLoopA cfg manip rb (oks as)) s = _
      rw [PyM.bind_ok e₁]; exact e₂
    · rw [List.append_assoc] at hI₂
      simpa using hI₂

theorem loopA_spec {cfg : Config} {manip : Manip} {f g : Polys → List Polys} (rb : Ranges)
    (hf : ∀ pbs ∈ coeffTuples rb, manip .b pbs = oks (f pbs)) (as : List Polys)
    (hg : ∀ pas ∈ as, manip .a pas = oks (g pas)) :
    ∀ {s : St} {pairs : List (Polys × Polys)}, Inv cfg s pairs →
    (cfg.genContFrac = true → ∀ pas ∈ as.flatMap g, ∀ pbs ∈ (coeffTuples rb).flatMap f, WF pas pbs) →
    ∃ s', loopA cfg manip rb as s = (s', .ok ()) ∧
      Inv cfg s' (pairs ++ (as.flatMap g).flatMap fun pas => ((coeffTuples rb).flatMap f).flatMap (emit cfg pas)) := by
  induction as with
  | nil => intro s pairs hI _; exact ⟨s, rfl, by simpa using hI⟩
  | cons pas as ih =>
    intro s pairs hI hw
    obtain ⟨s₁, e₁, hI₁⟩ := manipLoopA_spec rb hf (g pas) hI
      (fun hgc p h => hw hgc p (by rw [List.flatMap_cons]; exact List.mem_append_left _ h))
    obtain ⟨s₂, e₂, hI₂⟩ := ih (fun p h => hg p (List.mem_cons_of_mem _ h)) hI₁
      (fun hgc p h => hw hgc p (by rw [List.flatMap_cons]; exact List.mem_append_right _ h))
    refine ⟨s₂, ?_, ?_⟩
    · show (manipLoopA cfg manip rb (manip .a pas) >>= fun _ => loopA cfg manip rb as) s = _
      rw [hg pas List.mem_cons_self, PyM.bind_ok e₁]; exact e₂
    · rw [List.append_assoc] at hI₂
      simpa using hI₂

/-- Everything the generator yields, for any class whose `manipulate_poly` does not raise. -/
theorem polysGenerator_spec (cfg : Config) (manip : Manip) (f g : Polys → List Polys) (ra rb : Ranges)
    (hf : ∀ pbs ∈ coeffTuples rb, manip .b pbs = oks (f pbs)) (hg : ∀ pas ∈ coeffTuples ra, manip .a pas = oks (g pas))
    (hw : cfg.genContFrac = true → ∀ pas ∈ (coeffTuples ra).flatMap g, ∀ pbs ∈ (coeffTuples rb).flatMap f, WF pas pbs) :
    (polysGenerator manip cfg ra rb).2 = .ok () ∧
    ((polysGenerator manip cfg ra rb).1.map Item.pair =
      ((coeffTuples ra).flatMap g).flatMap fun pas => ((coeffTuples rb).flatMap f).flatMap (emit cfg pas)) ∧
    ∀ it ∈ (polysGenerator manip cfg ra rb).1, ItemOK cfg it := by
  have hwf : WF [[1]] [[1]] := ⟨⟨1, [], [], rfl⟩, by simp⟩
  rw [polysGenerator, init_wf hwf]
  simp only
  obtain ⟨s', e, hI⟩ := loopA_spec rb hf (coeffTuples ra) hg (s := ⟨fresh [[1]] [[1]] cfg.avoidZeroB false, []⟩) (pairs := [])
    ⟨fresh_good hwf _ _, rfl, by simp⟩ hw
  rw [e]
  exact ⟨rfl, by simpa using hI.out, hI.ok⟩

end PiCF.EnumPoly
