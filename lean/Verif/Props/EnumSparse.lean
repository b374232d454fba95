import Verif.Props.EnumPoly
import Verif.Lemmas.EnumSparse

/-!
# C35, C40: sparse enumeration and length estimates
-/

namespace PiCF
open PiCF.ContFrac PiCF.Spec PiCF.EnumPoly

/-! ### C40 -/

/-- What the sparse `manipulate_poly` yields, as a function. -/
noncomputable def sparseList (so : List (List (List ℕ)) → List (List (List ℕ))) (n : ℕ) (ps : Polys) : List Polys :=
  (masksList so n (ps.headD []).length ps.length).map fun masks => (ps.zip masks).map fun pm => placePoly n pm.1 pm.2

theorem manipSparse_eq {so} (hso : IsSetOrder so) (nA nB : ℕ) (side : Side) (k : ℕ) (ps : Polys) (hne : ps ≠ [])
    (hk : ∀ p ∈ ps, p.length = k) :
    manipSparse so nA nB side ps = oks (sparseList so (if side = .a then nA else nB) ps) := by
  match ps, hne with
  | p :: ps, _ =>
    rw [manipSparse, oks, sparseList, List.map_map]
    apply List.map_congr_left
    intro masks hm
    obtain ⟨-, hm⟩ := (mem_masksList hso _ _ _ _).1 hm
    have hpk := hk p (by simp)
    exact applyMasks_ok _ k (p :: ps) masks hk (by rw [← hpk]; exact hm)

/-- **C40.** For an interlace of `m` coefficient lists of length `k`, the sparse enumeration goes through all
`binom(n, k)^m` ways to choose `k` of `n` positions for each of the lists, each exactly once, and yields for each the
interlace with the coefficients at these positions.  If no coefficient is zero, no interlace is yielded twice. -/
theorem C40_sparse {so} (hso : IsSetOrder so) (nA nB : ℕ) (side : Side) (k : ℕ) (ps : Polys) (hne : ps ≠ [])
    (hk : ∀ p ∈ ps, p.length = k) :
    ∃ (pl : List (List (List ℕ))) (L : List Polys),
      pl.Nodup ∧ pl.length = (if side = .a then nA else nB).choose k ^ ps.length ∧
      (∀ masks, masks ∈ pl ↔
        masks.length = ps.length ∧ ∀ mask ∈ masks, IsMask (if side = .a then nA else nB) k mask) ∧
      manipSparse so nA nB side ps = L.map .ok ∧
      List.Forall₂ (fun masks qs => qs.length = ps.length ∧ ∀ j, j < ps.length →
        IsPlacement (if side = .a then nA else nB) (ps.getD j []) (masks.getD j []) (qs.getD j [])) pl L ∧
      ((∀ p ∈ ps, ∀ c ∈ p, c ≠ 0) → L.Nodup) := by
  set n := if side = .a then nA else nB
  have hhead : (ps.headD []).length = k := by
    match ps, hne with
    | p :: ps, _ => exact hk p (by simp)
  have hplace : ∀ masks ∈ masksList so n k ps.length, ∀ j, j < ps.length →
      (IsMask n k (masks.getD j []) ∧ IsPlacement n (ps.getD j []) (masks.getD j [])
        (((ps.zip masks).map fun pm => placePoly n pm.1 pm.2).getD j [])) := by
    intro masks hm j hj
    obtain ⟨hl, hm⟩ := (mem_masksList hso _ _ _ _).1 hm
    have hjm : j < masks.length := by omega
    rw [List.getD_eq_getElem (List.map _ _) _ (by simp; omega), List.getD_eq_getElem masks _ hjm,
      List.getD_eq_getElem ps _ hj]
    simp only [List.getElem_map, List.getElem_zip]
    refine ⟨hm _ (List.getElem_mem hjm), placePoly_spec n _ _ ?_⟩
    rw [hk _ (List.getElem_mem hj)]
    exact hm _ (List.getElem_mem hjm)
  refine ⟨masksList so n k ps.length, sparseList so n ps, nodup_masksList hso _ _ _, length_masksList hso _ _ _,
    fun masks => mem_masksList hso _ _ _ _, manipSparse_eq hso nA nB side k ps hne hk, ?_, ?_⟩
  · rw [sparseList, hhead, List.forall₂_map_right_iff]
    apply List.forall₂_same.2
    intro masks hm
    refine ⟨?_, fun j hj => (hplace masks hm j hj).2⟩
    rw [List.length_map, List.length_zip, ((mem_masksList hso _ _ _ _).1 hm).1, Nat.min_self]
  · intro hnz
    rw [sparseList, hhead]
    refine (nodup_masksList hso n k ps.length).map_on ?_
    intro m1 hm1 m2 hm2 e
    have hl1 := ((mem_masksList hso _ _ _ _).1 hm1).1
    have hl2 := ((mem_masksList hso _ _ _ _).1 hm2).1
    apply List.ext_getElem (hl1.trans hl2.symm)
    intro j hj1 hj2
    have hj : j < ps.length := by omega
    obtain ⟨a1, a2⟩ := hplace m1 hm1 j hj
    obtain ⟨b1, b2⟩ := hplace m2 hm2 j hj
    rw [← e] at b2
    have hpj : ps.getD j [] ∈ ps := by rw [List.getD_eq_getElem ps _ hj]; exact List.getElem_mem hj
    have := isPlacement_inj (hnz _ hpj) (by rw [hk _ hpj]; exact a1) (by rw [hk _ hpj]; exact b1) a2 b2
    rwa [List.getD_eq_getElem m1 _ hj1, List.getD_eq_getElem m2 _ hj2] at this

/-- The order of a set may be any: the first-occurrence order is one, its reverse another. -/
example : IsSetOrder (fun l => l.dedup) ∧ IsSetOrder (fun l => l.dedup.reverse) :=
  ⟨fun _ => List.Perm.refl _, fun _ => List.reverse_perm _⟩

/-- The coefficients `5, 7` in polynomials of three coefficients. -/
example : [[0, 1], [0, 2], [1, 2]].map (placePoly 3 [5, 7]) = [[5, 7, 0], [5, 0, 7], [0, 5, 7]] ∧
    IsMask 3 2 [0, 2] ∧ IsPlacement 3 [5, 7] [0, 2] [5, 0, 7] := by
  refine ⟨by decide, by simp [IsMask], rfl, ?_, ?_⟩
  · intro j hj
    simp only [List.length_cons, List.length_nil] at hj
    interval_cases j <;> rfl
  · intro i hi
    match i with
    | 0 => simp at hi
    | 1 => rfl
    | 2 => simp at hi
    | i + 3 => simp

/-- With a zero coefficient polynomials are repeated: both placements of a single `0` give the zero polynomial. -/
theorem C40_zero_coefficients_repeat {so} (hso : IsSetOrder so) :
    ¬ (sparseList so 2 [[0]]).Nodup := by
  have hlen : (sparseList so 2 [[0]]).length = 2 := by
    rw [sparseList, List.length_map, length_masksList hso]; rfl
  have hall : ∀ x ∈ sparseList so 2 [[0]], x = [[0, 0]] := by
    intro x hx
    rw [sparseList] at hx
    obtain ⟨masks, hm, rfl⟩ := List.mem_map.1 hx
    obtain ⟨h1, h2⟩ := (mem_masksList hso _ _ _ _).1 hm
    match masks, h1 with
    | [mask], _ =>
      obtain ⟨h3, -, -⟩ := h2 mask (by simp)
      match mask, h3 with
      | [i], _ =>
        simp only [List.zip_cons_cons, List.zip_nil_right, List.map_cons, List.map_nil, placePoly, List.range_succ,
          List.range_zero, List.nil_append, List.cons_append]
        by_cases h0 : 0 = i <;> by_cases h1 : 1 = i <;> simp_all
  match h : sparseList so 2 [[0]], hlen with
  | [x, y], _ =>
    have hx := hall x (by rw [h]; simp)
    have hy := hall y (by rw [h]; simp)
    simp [hx, hy]

/-! ### C35 -/

theorem length_emits_le (cfg : Config) (A B : List Polys) :
    (A.flatMap fun pas => B.flatMap (emit cfg pas)).length ≤ A.length * B.length := by
  have h1 : ∀ pas, (B.flatMap (emit cfg pas)).length ≤ B.length := by
    intro pas
    induction B with
    | nil => simp
    | cons b B ih =>
      rw [List.flatMap_cons, List.length_append, List.length_cons]
      have : (emit cfg pas b).length ≤ 1 := by rw [emit]; split <;> simp
      omega
  induction A with
  | nil => simp
  | cons a A ih =>
    rw [List.flatMap_cons, List.length_append, List.length_cons, Nat.succ_mul]
    have := h1 a
    omega

/-- No filter applies. -/
def NoFilter (cfg : Config) : Prop :=
  cfg.avoidIntRoots = false ∧ cfg.expOnly = false ∧ (cfg.genContFrac && cfg.avoidZeroB) = false

theorem length_emits_eq (cfg : Config) (hn : NoFilter cfg) (A B : List Polys) :
    (A.flatMap fun pas => B.flatMap (emit cfg pas)).length = A.length * B.length := by
  have hp : ∀ pas pbs, emit cfg pas pbs = [(squeeze pas, squeeze pbs)] := by
    intro pas pbs
    rw [emit, if_pos]
    refine ⟨fun h => absurd h (by simp [hn.1]), fun h => absurd h (by simp [hn.2.1]), fun h1 h2 => ?_⟩
    have := hn.2.2
    rw [h1, h2] at this
    cases this
  simp [hp, List.length_flatMap, List.map_const']

theorem length_of_pairs {r : List Item} {l : List (Polys × Polys)} (h : r.map Item.pair = l) : r.length = l.length := by
  rw [← h, List.length_map]

theorem genLen_eq (ra rb : Ranges) (ha : WFRanges ra) (hb : WFRanges rb) :
    genLen ra rb = (((coeffTuples ra).length * (coeffTuples rb).length : ℕ) : ℤ) := by
  rw [genLen, ← length_coeffTuples ra ha, ← length_coeffTuples rb hb]; push_cast; rfl

/-- **C35 (plain class).** The returned length is at least the number of yielded pairs, and equal to it if no filter
applies. -/
theorem C35_length_basic (cfg : Config) (ra rb : Ranges) (hs : ShapeOK cfg ra rb) (ha : WFRanges ra) (hb : WFRanges rb) :
    ((polysGenerator manipBasic cfg ra rb).1.length : ℤ) ≤ lenEstimate ra rb ∧
    (NoFilter cfg → ((polysGenerator manipBasic cfg ra rb).1.length : ℤ) = lenEstimate ra rb) := by
  obtain ⟨-, h2, -⟩ := basic_spec cfg ra rb hs
  rw [length_of_pairs h2, lenEstimate, genLen_eq ra rb ha hb]
  refine ⟨?_, fun hn => ?_⟩
  · exact_mod_cast length_emits_le cfg _ _
  · rw [length_emits_eq cfg hn]

theorem flatMap_single {α β : Type} (f : α → β) (l : List α) : (l.flatMap fun x => [f x]) = l.map f := by
  induction l with
  | nil => rfl
  | cons x l ih => rw [List.flatMap_cons, ih]; rfl

theorem indexed_spec (cfg : Config) (ra rb : Ranges) (hs : ShapeOK cfg ra rb) :
    (polysGenerator manipIndexed cfg ra rb).2 = .ok () ∧
    ((polysGenerator manipIndexed cfg ra rb).1.map Item.pair =
      ((coeffTuples ra).map fun p => p.map indexedPoly).flatMap
        fun pas => ((coeffTuples rb).map fun p => p.map indexedPoly).flatMap (emit cfg pas)) := by
  have := polysGenerator_spec cfg manipIndexed (fun p => [p.map indexedPoly]) (fun p => [p.map indexedPoly]) ra rb
    (fun _ _ => rfl) (fun _ _ => rfl)
  simp only [flatMap_single] at this
  have h := this (fun hg pas hp pbs hq => by
    obtain ⟨pas, hp', rfl⟩ := List.mem_map.1 hp
    obtain ⟨pbs, hq', rfl⟩ := List.mem_map.1 hq
    have := wf_of_ranges (hs hg) ((mem_coeffTuples _ _).1 hp') ((mem_coeffTuples _ _).1 hq')
    obtain ⟨x, xs, ys, rfl⟩ := this.a_head
    refine ⟨?_, by simpa using this.hb⟩
    rw [List.map_cons]
    match hi : indexedPoly (x :: xs) with
    | [] => simp [indexedPoly] at hi
    | c :: cs => exact ⟨_, _, _, rfl⟩)
  exact ⟨h.1, h.2.1⟩

/-- **C35 (indexed class).** -/
theorem C35_length_indexed (cfg : Config) (ra rb : Ranges) (hs : ShapeOK cfg ra rb) (ha : WFRanges ra)
    (hb : WFRanges rb) :
    ((polysGenerator manipIndexed cfg ra rb).1.length : ℤ) ≤ lenEstimate ra rb ∧
    (NoFilter cfg → ((polysGenerator manipIndexed cfg ra rb).1.length : ℤ) = lenEstimate ra rb) := by
  obtain ⟨-, h2⟩ := indexed_spec cfg ra rb hs
  rw [length_of_pairs h2, lenEstimate, genLen_eq ra rb ha hb]
  refine ⟨?_, fun hn => ?_⟩
  · have := length_emits_le cfg ((coeffTuples ra).map fun p => p.map indexedPoly) ((coeffTuples rb).map fun p => p.map indexedPoly)
    rw [List.length_map, List.length_map] at this
    exact_mod_cast this
  · rw [length_emits_eq cfg hn, List.length_map, List.length_map]

theorem length_sparseList {so} (hso : IsSetOrder so) (n : ℕ) (ps : Polys) :
    (sparseList so n ps).length = n.choose (ps.headD []).length ^ ps.length := by
  rw [sparseList, List.length_map, length_masksList hso]

theorem coeffTuples_lengths {k : ℕ} {rs : Ranges} (hk : ∀ r ∈ rs, r.length = k) {ps : Polys} (h : ps ∈ coeffTuples rs) :
    ∀ p ∈ ps, p.length = k := by
  rw [mem_coeffTuples, InRanges] at h
  induction h with
  | nil => simp
  | @cons r p rs ps h1 _ ih =>
    intro q hq
    rcases List.mem_cons.1 hq with rfl | hq
    · rw [← h1.length_eq]; exact hk r (by simp)
    · exact ih (fun r hr => hk r (by simp [hr])) q hq

theorem length_sparse_all {so} (hso : IsSetOrder so) (n k : ℕ) (rs : Ranges) (hne : rs ≠ []) (hk : ∀ r ∈ rs, r.length = k) :
    ((coeffTuples rs).flatMap (sparseList so n)).length = (coeffTuples rs).length * n.choose k ^ rs.length := by
  rw [List.length_flatMap]
  have : ∀ ps ∈ coeffTuples rs, (sparseList so n ps).length = n.choose k ^ rs.length := by
    intro ps hps
    have hl := coeffTuples_length hps
    rw [length_sparseList hso, hl]
    congr 2
    match ps, hl with
    | [], hl => exact absurd (List.length_eq_zero_iff.1 hl.symm) hne
    | p :: ps, _ => exact coeffTuples_lengths hk hps p (by simp)
  rw [List.map_congr_left this, List.map_const', List.sum_replicate, smul_eq_mul]

theorem sparse_spec {so} (hso : IsSetOrder so) (cfg : Config) (nA nB kA kB : ℕ) (ra rb : Ranges) (hra : ra ≠ [])
    (hrb : rb ≠ []) (hkA : ∀ r ∈ ra, r.length = kA) (hkB : ∀ r ∈ rb, r.length = kB)
    (hn : cfg.genContFrac = true → 0 < nA) :
    (polysGenerator (manipSparse so nA nB) cfg ra rb).2 = .ok () ∧
    ((polysGenerator (manipSparse so nA nB) cfg ra rb).1.map Item.pair =
      ((coeffTuples ra).flatMap (sparseList so nA)).flatMap
        fun pas => ((coeffTuples rb).flatMap (sparseList so nB)).flatMap (emit cfg pas)) := by
  have hne : ∀ {rs : Ranges} {ps : Polys}, rs ≠ [] → ps ∈ coeffTuples rs → ps ≠ [] := by
    rintro rs ps h1 h2 rfl
    exact h1 (List.length_eq_zero_iff.1 (coeffTuples_length h2).symm)
  have := polysGenerator_spec cfg (manipSparse so nA nB) (sparseList so nB) (sparseList so nA) ra rb
    (fun pbs h => manipSparse_eq hso nA nB .b kB pbs (hne hrb h) (coeffTuples_lengths hkB h))
    (fun pas h => manipSparse_eq hso nA nB .a kA pas (hne hra h) (coeffTuples_lengths hkA h))
    (fun hg pas hp pbs hq => by
      have hlen : ∀ {n : ℕ} {rs : Ranges} {ps qs : Polys}, rs ≠ [] → qs ∈ coeffTuples rs → ps ∈ sparseList so n qs →
          ps ≠ [] ∧ ∀ p ∈ ps, p.length = n := by
        intro n rs ps qs hr hqs hps
        rw [sparseList] at hps
        obtain ⟨masks, hm, rfl⟩ := List.mem_map.1 hps
        have hl := ((mem_masksList hso _ _ _ _).1 hm).1
        have hq0 := hne hr hqs
        refine ⟨?_, ?_⟩
        · intro h0
          have := congrArg List.length h0
          rw [List.length_map, List.length_zip, hl, Nat.min_self] at this
          exact hq0 (List.length_eq_zero_iff.1 this)
        · intro p hp
          obtain ⟨pm, -, rfl⟩ := List.mem_map.1 hp
          simp [placePoly]
      obtain ⟨qa, ha1, ha2⟩ := List.mem_flatMap.1 hp
      obtain ⟨qb, hb1, hb2⟩ := List.mem_flatMap.1 hq
      obtain ⟨a1, a2⟩ := hlen hra ha1 ha2
      obtain ⟨b1, -⟩ := hlen hrb hb1 hb2
      refine ⟨?_, b1⟩
      match pas, a1 with
      | p :: ps, _ =>
        have := a2 p (by simp)
        match p with
        | [] => exact absurd this (by have := hn hg; simp; omega)
        | c :: cs => exact ⟨_, _, _, rfl⟩)
  exact ⟨this.1, this.2.1⟩

/-- The exact number of pairs yielded by the sparse class when no filter applies. -/
theorem C35_sparse_count {so} (hso : IsSetOrder so) (cfg : Config) (nA nB kA kB : ℕ) (ra rb : Ranges) (hra : ra ≠ [])
    (hrb : rb ≠ []) (hkA : ∀ r ∈ ra, r.length = kA) (hkB : ∀ r ∈ rb, r.length = kB)
    (hn : cfg.genContFrac = true → 0 < nA) (ha : WFRanges ra) (hb : WFRanges rb) :
    ((polysGenerator (manipSparse so nA nB) cfg ra rb).1.length : ℤ) ≤
      genLen ra rb * (nA.choose kA ^ ra.length * nB.choose kB ^ rb.length : ℕ) ∧
    (NoFilter cfg → ((polysGenerator (manipSparse so nA nB) cfg ra rb).1.length : ℤ) =
      genLen ra rb * (nA.choose kA ^ ra.length * nB.choose kB ^ rb.length : ℕ)) := by
  obtain ⟨-, h2⟩ := sparse_spec hso cfg nA nB kA kB ra rb hra hrb hkA hkB hn
  have e : genLen ra rb * (nA.choose kA ^ ra.length * nB.choose kB ^ rb.length : ℕ) =
      ((((coeffTuples ra).flatMap (sparseList so nA)).length * ((coeffTuples rb).flatMap (sparseList so nB)).length : ℕ) : ℤ) := by
    rw [length_sparse_all hso nA kA ra hra hkA, length_sparse_all hso nB kB rb hrb hkB, genLen_eq ra rb ha hb]
    push_cast
    ring
  rw [length_of_pairs h2, e]
  exact ⟨by exact_mod_cast length_emits_le cfg _ _, fun hnf => by rw [length_emits_eq cfg hnf]⟩

/-- **C35 (sparse class, partial).** For single (non-interlaced) polynomials the returned length is at least the number
of yielded pairs, and equal to it if no filter applies.  Missing: interlaces, see
`C35_length_sparse_violated`. -/
theorem C35_length_sparse_partial {so} (hso : IsSetOrder so) (cfg : Config) (nA nB : ℕ) (a b : List Rng)
    (hn : cfg.genContFrac = true → 0 < nA) (ha : WFRanges [a]) (hb : WFRanges [b]) :
    ∃ n, lenEstimateSparse nA nB [a] [b] = .ok n ∧
      ((polysGenerator (manipSparse so nA nB) cfg [a] [b]).1.length : ℤ) ≤ n ∧
      (NoFilter cfg → ((polysGenerator (manipSparse so nA nB) cfg [a] [b]).1.length : ℤ) = n) := by
  have := C35_sparse_count hso cfg nA nB a.length b.length [a] [b] (by simp) (by simp) (by simp) (by simp) hn ha hb
  simp only [List.length_singleton, pow_one] at this
  exact ⟨_, rfl, this⟩

example : WFRanges [[(-3, 4), (1, 3)], [(2, 2)]] ∧ NoFilter { avoidIntRoots := false, avoidZeroB := false } ∧
    lenEstimate [[(1, 3)], [(1, 3)]] [[(-1, 1), (0, 2)]] = 16 ∧
    lenEstimateSparse 3 2 [[(1, 4), (1, 4)]] [[(1, 3)]] = .ok 108 := by
  refine ⟨by unfold WFRanges; decide, ⟨rfl, rfl, rfl⟩, by decide, rfl⟩

/-- **C35 (sparse class, negated).** For an interlace of two sparse polynomials the returned length is smaller than
the number of yielded pairs: 4 pairs are yielded (each of the two one-coefficient polynomials can be placed in 2 ways)
but the length is 2. -/
theorem C35_length_sparse_violated {so} (hso : IsSetOrder so) :
    lenEstimateSparse 2 1 [[(1, 2)], [(2, 3)]] [[(1, 2)]] = .ok 2 ∧
    (polysGenerator (manipSparse so 2 1) { genContFrac := false, avoidIntRoots := false } [[(1, 2)], [(2, 3)]] [[(1, 2)]]).1.length = 4 := by
  refine ⟨rfl, ?_⟩
  have := (C35_sparse_count hso { genContFrac := false, avoidIntRoots := false } 2 1 1 1 [[(1, 2)], [(2, 3)]] [[(1, 2)]]
    (by simp) (by simp) (by simp) (by simp) (by simp) (by simp [WFRanges]) (by simp [WFRanges])).2 ⟨rfl, rfl, rfl⟩
  have e : genLen [[(1, 2)], [(2, 3)]] [[(1, 2)]] = 1 := by decide
  rw [e] at this
  have h4 : ((1 : ℤ) * ((2 : ℕ).choose 1 ^ 2 * (1 : ℕ).choose 1 ^ 1 : ℕ)) = ((4 : ℕ) : ℤ) := by decide
  exact Int.ofNat.inj (this.trans h4)

end PiCF
