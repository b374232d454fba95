import Verif.Props.Distribute

/-!
# C147: no continued fraction is enumerated twice
-/

namespace PiCF
open PiCF.ContFrac PiCF.Spec PiCF.EnumPoly PiCF.Hashtable PiCF.Mitm

/-- A polynomial that vanishes at arbitrarily large numbers has no coefficient other than 0. -/
theorem zero_of_often : ∀ cs : List ℤ, (∀ N : ℕ, ∃ x : ℕ, N ≤ x ∧ horner cs x = 0) → ∀ c ∈ cs, c = 0
  | [], _ => by simp
  | c :: cs, h => by
    have hc : c = 0 := by
      obtain ⟨x, hx, h0⟩ := h (c.natAbs + 1)
      rw [horner] at h0
      have hd : (x : ℤ) ∣ c := ⟨-horner cs x, by linarith⟩
      by_contra hne
      have := Int.natAbs_dvd_natAbs.2 hd
      have := Nat.le_of_dvd (Int.natAbs_pos.2 hne) this
      simp only [Int.natAbs_natCast] at this
      omega
    have ih := zero_of_often cs (fun N => by
      obtain ⟨x, hx, h0⟩ := h (N + 1)
      rw [horner, hc, zero_add] at h0
      exact ⟨x, by omega, (mul_eq_zero.1 h0).resolve_left (by omega)⟩)
    intro d hd
    rcases List.mem_cons.1 hd with rfl | hd
    · exact hc
    · exact ih d hd

theorem horner_sub : ∀ p q : List ℤ, p.length = q.length → ∀ x : ℤ, horner (List.zipWith (· - ·) p q) x = horner p x - horner q x
  | [], [], _, x => by simp [horner]
  | c :: p, d :: q, h, x => by
    rw [List.zipWith_cons_cons, horner, horner, horner, horner_sub p q (by simpa using h)]
    ring

theorem eq_of_sub : ∀ p q : List ℤ, p.length = q.length → (∀ c ∈ List.zipWith (· - ·) p q, c = 0) → p = q
  | [], [], _, _ => rfl
  | c :: p, d :: q, h, h0 => by
    rw [List.zipWith_cons_cons] at h0
    rw [eq_of_sub p q (by simpa using h) (fun c hc => h0 c (by simp [hc])), sub_eq_zero.1 (h0 (c - d) (by simp))]

/-- Two polynomials with equally many coefficients that agree at arbitrarily large numbers are equal. -/
theorem eq_of_often {p q : List ℤ} (hl : p.length = q.length) (h : ∀ N : ℕ, ∃ x : ℕ, N ≤ x ∧ horner p x = horner q x) : p = q :=
  eq_of_sub p q hl (zero_of_often _ fun N => by
    obtain ⟨x, hx, h0⟩ := h N
    exact ⟨x, hx, by rw [horner_sub p q hl, h0, sub_self]⟩)

/-- The numbers of coefficients. -/
def shape (ps : List (List ℤ)) : List ℕ := ps.map List.length

/-- Interlaced polynomials of the same shape whose terms agree from some index on are equal. -/
theorem interlace_inj {ps qs : List (List ℤ)} (hs : shape ps = shape qs) {N : ℕ} (h : ∀ i ≥ N, seqAt ps i = seqAt qs i) : ps = qs := by
  have hl : ps.length = qs.length := by simpa [shape] using congrArg List.length hs
  apply List.ext_getElem hl
  intro j hj hj'
  apply eq_of_often
  · have := List.getElem_of_eq hs (i := j) (by simpa [shape] using hj)
    simpa [shape] using this
  · intro M
    have hpos : 0 < ps.length := by omega
    have hmod : (j + (M + N) * ps.length) % ps.length = j := by rw [Nat.add_mul_mod_self_right, Nat.mod_eq_of_lt hj]
    have hle : M + N ≤ (M + N) * ps.length := Nat.le_mul_of_pos_right _ hpos
    refine ⟨j + (M + N) * ps.length, by omega, ?_⟩
    have := h (j + (M + N) * ps.length) (by omega)
    unfold seqAt at this
    rw [← hl, hmod, List.getD_eq_getElem _ _ hj, List.getD_eq_getElem _ _ hj'] at this
    exact this

/-- Two enumerated pairs with the same terms from some index on. -/
def SameTerms (x y : Polys × Polys) : Prop := ∃ N, ∀ i ≥ N, seqAt x.1 i = seqAt y.1 i ∧ seqAt x.2 i = seqAt y.2 i

theorem distinct_emits {cfg : Config} {A B : List Polys} (hA : ∀ p ∈ A, ∀ q ∈ A, shape p = shape q) (hB : ∀ p ∈ B, ∀ q ∈ B, shape p = shape q)
    {x y : Polys × Polys} (hx : x ∈ A.flatMap fun pas => B.flatMap (emit cfg pas)) (hy : y ∈ A.flatMap fun pas => B.flatMap (emit cfg pas))
    (h : SameTerms x y) : x = y := by
  obtain ⟨a, ha, hx⟩ := List.mem_flatMap.1 hx
  obtain ⟨b, hb, hx⟩ := List.mem_flatMap.1 hx
  obtain ⟨a', ha', hy⟩ := List.mem_flatMap.1 hy
  obtain ⟨b', hb', hy⟩ := List.mem_flatMap.1 hy
  obtain ⟨-, rfl⟩ := (mem_emit _ _ _ _).1 hx
  obtain ⟨-, rfl⟩ := (mem_emit _ _ _ _).1 hy
  obtain ⟨N, h⟩ := h
  simp only [seqAt_squeeze] at h
  rw [interlace_inj (hA a ha a' ha') fun i hi => (h i hi).1, interlace_inj (hB b hb b' hb') fun i hi => (h i hi).2]

theorem shape_ranges : ∀ {rs : Ranges} {ps : Polys}, InRanges rs ps → shape ps = rs.map List.length
  | _, _, .nil => rfl
  | _, _, .cons h t => by
    rw [shape, List.map_cons, List.map_cons, h.length_eq]
    congr 1
    exact shape_ranges t

theorem shape_tuples {rs : Ranges} {p : Polys} (h : p ∈ coeffTuples rs) : shape p = rs.map List.length := shape_ranges ((mem_coeffTuples _ _).1 h)

/-- **C147 (plain class).** No continued fraction is enumerated twice: any two tuples yielded at different places have terms that differ at arbitrarily large indices. -/
theorem C147_plain (cfg : Config) (ra rb : Ranges) (hs : ShapeOK cfg ra rb) :
    ((polysGenerator manipBasic cfg ra rb).1.map Item.pair).Pairwise fun x y => ¬ SameTerms x y := by
  obtain ⟨-, hn, -⟩ := C34_enumeration cfg ra rb hs
  refine hn.imp_of_mem fun {x y} hx hy hne h => hne ?_
  rw [(basic_spec cfg ra rb hs).2.1] at hx hy
  exact distinct_emits (fun p hp q hq => (shape_tuples hp).trans (shape_tuples hq).symm)
    (fun p hp q hq => (shape_tuples hp).trans (shape_tuples hq).symm) hx hy h

example : ShapeOK {} [[(0, 2), (0, 3)], [(1, 4)]] [[(1, 3)], [(1, 3)]] := fun _ => ⟨⟨_, _, _, rfl⟩, by simp⟩

theorem nodup_images {f : Polys → List Polys} {rs : Ranges} (h : ∀ p ∈ coeffTuples rs, (f p).Nodup) (hsep : Separates f rs) :
    ((coeffTuples rs).flatMap f).Nodup := by
  rw [List.nodup_flatMap]
  refine ⟨h, (nodup_coeffTuples rs).imp_of_mem fun {p q} hp hq hpq => ?_⟩
  intro x hx hy
  exact hpq (hsep p q ((mem_coeffTuples _ _).1 hp) ((mem_coeffTuples _ _).1 hq) x hx x hy rfl)

theorem distinct_pairs {cfg : Config} {A B : List Polys} (hA : ∀ p ∈ A, ∀ q ∈ A, shape p = shape q) (hB : ∀ p ∈ B, ∀ q ∈ B, shape p = shape q)
    (nA : A.Nodup) (nB : B.Nodup) : (A.flatMap fun pas => B.flatMap (emit cfg pas)).Pairwise fun x y => ¬ SameTerms x y := by
  have hl : ∀ {p q : Polys}, shape p = shape q → p.length = q.length := fun h => by simpa [shape] using congrArg List.length h
  exact (nodup_emits cfg A B nA nB (fun p hp q hq => hl (hA p hp q hq)) (fun p hp q hq => hl (hB p hp q hq))).imp_of_mem
    fun {x y} hx hy hne h => hne (distinct_emits hA hB hx hy h)

/-- **C147 (indexed class).** -/
theorem C147_indexed (cfg : Config) (ra rb : Ranges) (hs : ShapeOK cfg ra rb) :
    ((polysGenerator manipIndexed cfg ra rb).1.map Item.pair).Pairwise fun x y => ¬ SameTerms x y := by
  have hi : ∀ p : Polys, shape (p.map indexedPoly) = shape p := fun p => by simp [shape, indexedPoly]
  have hsh : ∀ rs : Ranges, ∀ p ∈ (coeffTuples rs).map fun p => p.map indexedPoly, ∀ q ∈ (coeffTuples rs).map fun p => p.map indexedPoly,
      shape p = shape q := by
    intro rs p hp q hq
    obtain ⟨p, hp', rfl⟩ := List.mem_map.1 hp
    obtain ⟨q, hq', rfl⟩ := List.mem_map.1 hq
    rw [hi, hi, shape_tuples hp', shape_tuples hq']
  have hn : ∀ rs : Ranges, ((coeffTuples rs).map fun p => p.map indexedPoly).Nodup := by
    intro rs
    have := nodup_images (rs := rs) (f := fun p => [p.map indexedPoly]) (by simp) (separates_indexed rs)
    rwa [flatMap_single] at this
  rw [(indexed_spec cfg ra rb hs).2]
  exact distinct_pairs (hsh ra) (hsh rb) (hn ra) (hn rb)

theorem sparse_shape {so} (hso : EnumPoly.IsSetOrder so) (n : ℕ) {rs : Ranges} {ps : Polys} (h : ps ∈ (coeffTuples rs).flatMap (sparseList so n)) :
    shape ps = List.replicate rs.length n := by
  obtain ⟨qs, hq, h⟩ := List.mem_flatMap.1 h
  rw [sparseList] at h
  obtain ⟨masks, hm, rfl⟩ := List.mem_map.1 h
  have hl := ((mem_masksList hso _ _ _ _).1 hm).1
  rw [List.eq_replicate_iff]
  constructor
  · rw [shape, List.length_map, List.length_map, List.length_zip, hl, Nat.min_self, coeffTuples_length hq]
  · intro k hk
    rw [shape, List.map_map] at hk
    obtain ⟨pm, -, rfl⟩ := List.mem_map.1 hk
    simp [placePoly]

theorem sparse_nodup {so} (hso : EnumPoly.IsSetOrder so) (n k : ℕ) {rs : Ranges} (hu : Uniform k rs) (hz : NoZero rs) :
    ((coeffTuples rs).flatMap (sparseList so n)).Nodup := by
  refine nodup_images (fun p hp => ?_) (separates_sparse hso n k rs hu hz)
  have hne : p ≠ [] := by
    rintro rfl
    exact hu.1 (List.length_eq_zero_iff.1 (coeffTuples_length hp).symm)
  have hk := coeffTuples_lengths hu.2 hp
  obtain ⟨pl, L, -, -, -, e, -, hn⟩ := C40_sparse hso n n .a k p hne hk
  rw [manipSparse_eq hso n n .a k p hne hk, oks] at e
  have : sparseList so n p = L := List.map_injective_iff.2 (fun _ _ h => Except.ok.inj h) e
  rw [this]
  exact hn (hz.coeff ((mem_coeffTuples _ _).1 hp))

/-- **C147 (sparse class, partial).** The same if no coefficient can be zero; in any case, tuples with the same terms have the same polynomials.
Missing with respect to C147: with zeros a polynomial can be yielded several times (`C147_sparse_violated`). -/
theorem C147_sparse_partial {so} (hso : EnumPoly.IsSetOrder so) (cfg : Config) (nA nB kA kB : ℕ) {ra rb : Ranges} (ha : Uniform kA ra) (hb : Uniform kB rb)
    (hn : cfg.genContFrac = true → 0 < nA) :
    (∀ x ∈ (polysGenerator (manipSparse so nA nB) cfg ra rb).1, ∀ y ∈ (polysGenerator (manipSparse so nA nB) cfg ra rb).1,
      SameTerms x.pair y.pair → x.pair = y.pair) ∧
    (NoZero ra → NoZero rb → ((polysGenerator (manipSparse so nA nB) cfg ra rb).1.map Item.pair).Pairwise fun x y => ¬ SameTerms x y) := by
  obtain ⟨-, e⟩ := sparse_spec hso cfg nA nB kA kB ra rb ha.1 hb.1 ha.2 hb.2 hn
  have sa : ∀ (n : ℕ) (rs : Ranges), ∀ p ∈ (coeffTuples rs).flatMap (sparseList so n), ∀ q ∈ (coeffTuples rs).flatMap (sparseList so n), shape p = shape q :=
    fun n rs p hp q hq => (sparse_shape hso n hp).trans (sparse_shape hso n hq).symm
  constructor
  · intro x hx y hy h
    have hx' := List.mem_map_of_mem (f := Item.pair) hx
    have hy' := List.mem_map_of_mem (f := Item.pair) hy
    rw [e] at hx' hy'
    exact distinct_emits (sa nA ra) (sa nB rb) hx' hy' h
  · intro za zb
    rw [e]
    exact distinct_pairs (sa nA ra) (sa nB rb) (sparse_nodup hso nA kA ha za) (sparse_nodup hso nB kB hb zb)

example : Uniform 2 [[(1, 3), (-2, 0)]] ∧ NoZero [[(1, 3), (-2, 0)]] := ⟨⟨by simp, by simp⟩, by unfold NoZero; decide⟩

/-- **C147 (sparse class, violated).** With two coefficients from 0 and 1 at two of three places, `n` is yielded for the coefficients 0, 1 and again for 1, 0. -/
theorem C147_sparse_violated {so} (hso : EnumPoly.IsSetOrder so) :
    ¬ ((polysGenerator (manipSparse so 3 1) { avoidIntRoots := false } [[(0, 2), (0, 2)]] [[(1, 2)]]).1.map Item.pair).Pairwise fun x y => ¬ SameTerms x y := by
  obtain ⟨-, e⟩ := sparse_spec hso { avoidIntRoots := false } 3 1 2 1 [[(0, 2), (0, 2)]] [[(1, 2)]] (by simp) (by simp) (by simp) (by simp) (by simp)
  rw [e]
  intro h
  have hn : ((coeffTuples [[(0, 2), (0, 2)]]).flatMap (sparseList so 3)).flatMap (fun pas =>
      ((coeffTuples [[(1, 2)]]).flatMap (sparseList so 1)).flatMap (emit { avoidIntRoots := false } pas)) |>.Nodup :=
    h.imp fun hxy hne => hxy ⟨0, fun i _ => by rw [hne]; exact ⟨rfl, rfl⟩⟩
  rw [List.flatMap_assoc, List.nodup_flatMap] at hn
  have hm : ∀ {n k : ℕ} {p : Poly} {mask : List ℕ}, p.length = k → IsMask n k mask → [placePoly n p mask] ∈ sparseList so n [p] := by
    intro n k p mask hp hmask
    rw [sparseList]
    refine List.mem_map.2 ⟨[mask], (mem_masksList hso _ _ _ _).2 ⟨rfl, ?_⟩, rfl⟩
    intro m hm
    rw [List.mem_singleton.1 hm]
    show IsMask n p.length mask
    rw [hp]; exact hmask
  have e2 : coeffTuples [[(0, 2), (0, 2)]] = [[[0, 0]], [[0, 1]], [[1, 0]], [[1, 1]]] := by decide
  have hdis := hn.2
  rw [e2] at hdis
  simp only [List.pairwise_cons] at hdis
  have hd := hdis.2.1 [[1, 0]] (by simp)
  have hb : [[1]] ∈ (coeffTuples [[(1, 2)]]).flatMap (sparseList so 1) := by
    refine List.mem_flatMap.2 ⟨[[1]], by decide, ?_⟩
    exact hm (p := [1]) (mask := [0]) (k := 1) rfl (by unfold IsMask; decide)
  have hp : Passes { avoidIntRoots := false } [[0, 1, 0]] [[1]] := by
    refine ⟨by simp, by simp, fun _ _ j _ _ => ?_⟩
    simp [seqAt, horner, Nat.mod_one]
  have hx : ((squeeze [[0, 1, 0]], squeeze [[1]]) : Polys × Polys) ∈
      ((coeffTuples [[(1, 2)]]).flatMap (sparseList so 1)).flatMap (emit { avoidIntRoots := false } [[0, 1, 0]]) :=
    List.mem_flatMap.2 ⟨_, hb, (mem_emit _ _ _ _).2 ⟨hp, rfl⟩⟩
  have h1 : [[0, 1, 0]] ∈ sparseList so 3 [[0, 1]] := hm (p := [0, 1]) (mask := [0, 1]) (k := 2) rfl (by unfold IsMask; decide)
  have h2 : [[0, 1, 0]] ∈ sparseList so 3 [[1, 0]] := hm (p := [1, 0]) (mask := [1, 2]) (k := 2) rfl (by unfold IsMask; decide)
  exact hd (List.mem_flatMap.2 ⟨_, h1, hx⟩) (List.mem_flatMap.2 ⟨_, h2, hx⟩)

theorem same_of_pairwise {l : List (Polys × Polys)} (h : l.Pairwise fun x y => ¬ SameTerms x y) {x y : Polys × Polys} (hx : x ∈ l) (hy : y ∈ l)
    (hs : SameTerms x y) : x = y := by
  by_contra hne
  have symm : ∀ x y : Polys × Polys, ¬ SameTerms x y → ¬ SameTerms y x := fun x y h ⟨N, e⟩ => h ⟨N, fun i hi => ⟨(e i hi).1.symm, (e i hi).2.symm⟩⟩
  induction l with
  | nil => simp at hx
  | cons a l ih =>
    rw [List.pairwise_cons] at h
    rcases List.mem_cons.1 hx with ex | hx' <;> rcases List.mem_cons.1 hy with ey | hy'
    · exact hne (ex.trans ey.symm)
    · exact h.1 _ hy' (ex ▸ hs)
    · exact symm _ _ (h.1 _ hx') (ey ▸ hs)
    · exact ih h.2 hx' hy'

/-- The classes of polynomials; the sparse class with polynomials of one length. -/
inductive KnownClass (ra rb : Ranges) : Manip → Prop
  | plain : KnownClass ra rb manipBasic
  | indexed : KnownClass ra rb manipIndexed
  | sparse {so} (hso : EnumPoly.IsSetOrder so) (nA nB kA kB : ℕ) (ha : Uniform kA ra) (hb : Uniform kB rb) : KnownClass ra rb (manipSparse so nA nB)

/-- **C147 (table).** After a build into an empty table, whether it ended normally or not, every continued fraction is held at most
once with each function: no two entries with the same function and terms that agree from some place on, neither under one key nor under
two.  This holds for the sparse class with zeros, too. -/
theorem C147_table {env : Env} (ho : IsSetOrder env.order) {manip : Manip} {ra rb : Ranges} (hk : KnownClass ra rb manip) (cfg : Config)
    (validate : Bool) (n : ℤ) :
    let t := (buildHashtable env manip cfg validate ra rb (Table.init n)).1
    (∀ κ, (entries t κ).Nodup) ∧
    ∀ κ κ' e e', e ∈ entries t κ → e' ∈ entries t κ' → e.2 = e'.2 → SameTerms e.1 e'.1 → κ = κ' ∧ e = e' := by
  intro t
  have hs : ShapeOK { cfg with genContFrac := false } ra rb := fun h => by simp at h
  have hd : ∀ x ∈ enumerated manip cfg ra rb, ∀ y ∈ enumerated manip cfg ra rb, SameTerms x y → x = y := by
    intro x hx y hy h
    cases hk with
    | plain => exact same_of_pairwise (C147_plain _ ra rb hs) hx hy h
    | indexed => exact same_of_pairwise (C147_indexed _ ra rb hs) hx hy h
    | sparse hso nA nB kA kB ha hb =>
      obtain ⟨x, hx', rfl⟩ := List.mem_map.1 hx
      obtain ⟨y, hy', rfl⟩ := List.mem_map.1 hy
      exact (C147_sparse_partial hso { cfg with genContFrac := false } nA nB kA kB ha hb (by simp)).1 x hx' y hy' h
  refine ⟨(C52_no_loss_no_duplicates [(env, manip, cfg, validate, ra, rb)] (by simpa using ho) (Table.init n)).2.2.1 fun κ => List.nodup_nil, ?_⟩
  intro κ κ' e e' he he' h2 h
  rcases C51_sound ho manip cfg validate ra rb _ κ e he with h0 | ⟨k, rfl, hm, v, f, y, h1, -, -, hf, hy, -, rfl⟩
  · cases h0
  rcases C51_sound ho manip cfg validate ra rb _ κ' e' he' with h0 | ⟨k', rfl, hm', v', f', y', h1', -, -, hf', hy', -, rfl⟩
  · cases h0
  have hee : e = e' := Prod.ext (hd _ hm _ hm' h) h2
  subst hee
  rw [h1] at h1'; cases h1'
  rw [hf] at hf'; cases hf'
  rw [hy] at hy'; cases hy'
  exact ⟨rfl, rfl⟩

example : KnownClass [[(0, 2), (0, 2)]] [[(1, 2)]] (manipSparse (fun l => l.dedup) 3 1) :=
  .sparse (fun _ => List.Perm.refl _) 3 1 2 1 ⟨by simp, by simp⟩ ⟨by simp, by simp⟩

/-- **C147 (two builds, violated).** A second build with a longer range of coefficients stores a continued fraction again, with a zero as
its leading coefficient. -/
theorem C147_two_builds_violated :
    let t := builds [(exEnv, manipBasic, {}, true, [[(2, 3)]], [[(1, 2)]]), (exEnv, manipBasic, {}, true, [[(2, 3), (0, 1)]], [[(1, 2)]])] (Table.init 8)
    (([[2]], [[1]]), 0) ∈ entries t (.num (1 / 2)) ∧ (([[2, 0]], [[1]]), 0) ∈ entries t (.num (1 / 2)) ∧
      SameTerms ([[2]], [[1]]) ([[2, 0]], [[1]]) := by
  refine ⟨by decide +kernel, by decide +kernel, 0, fun i _ => ⟨?_, rfl⟩⟩
  simp [seqAt, Nat.mod_one, horner]

end PiCF
