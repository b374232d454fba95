import Mathlib.Analysis.Real.Pi.Bounds
import Mathlib.Analysis.Real.Pi.Irrational
import Verif.Lemmas.Limit
import Verif.Lemmas.Documented
import Verif.Model.Pipeline
import Verif.Props.ContFracEval
import Verif.Props.MitmRefine

/-!
# C114: with enough iterations the refinement decides whether the limits agree
-/

namespace PiCF
open PiCF.Spec PiCF.Mitm PiCF.Lhs PiCF.ContFrac PiCF.DecStr Filter Topology

variable {L : Type}

/-- The sides of the click evaluate to numbers near `x.1` (RHS) and `x.2` (LHS). -/
structure Approximates (C : LhsClass L) (Inv : L → Prop) (env : RefineEnv) (ε : ℝ) (x : ℝ × ℝ) (c : Click L) : Prop where
  inv : Inv c.lhs
  rhs : ∃ f v y, env.funcs[c.post]? = some f ∧ env.eval c.a c.b c.conv = .ok v ∧ f v = .ok (.fin y) ∧ |(y : ℝ) - x.1| < ε
  lhs : ∃ w, C.val c.lhs = .fin w ∧ |(w : ℝ) - x.2| < ε

/-- Both sides are irrational, with fractional parts that are printed without exponent. -/
def Decidable10 (x : ℝ × ℝ) : Prop :=
  Irrational x.1 ∧ Irrational x.2 ∧ 1 / 10 ^ 6 < Int.fract |x.1| ∧ 1 / 10 ^ 6 < Int.fract |x.2|

theorem Prints.mono {eng : EngN} {a b : ℝ} (h : Prints eng a) (hab : a ≤ b) : Prints eng b :=
  ⟨h.total, fun q q0 q1 => by obtain ⟨d, x1, x2, x3⟩ := h.near q q0 q1; exact ⟨d, x1, x2, x3.trans hab⟩⟩

theorem Approximates.mono {C : LhsClass L} {Inv : L → Prop} {env : RefineEnv} {a b : ℝ} {x : ℝ × ℝ} {c : Click L}
    (h : Approximates C Inv env a x c) (hab : a ≤ b) : Approximates C Inv env b x c := by
  obtain ⟨h1, ⟨f, v, y, h2, h3, h4, h5⟩, w, h6, h7⟩ := h
  exact ⟨h1, ⟨f, v, y, h2, h3, h4, h5.trans_le hab⟩, w, h6, h7.trans_le hab⟩

theorem Approximates.evaluable {C : LhsClass L} {Inv : L → Prop} {env : RefineEnv} {ε : ℝ} {x : ℝ × ℝ} {c : Click L}
    (h : Approximates C Inv env ε x c) : Evaluable C Inv env c := by
  obtain ⟨h1, ⟨f, v, y, h2, h3, h4, -⟩, w, h6, -⟩ := h
  exact ⟨h1, ⟨w, h6⟩, f, h2, .inl ⟨v, h3, .inl ⟨_, h4⟩⟩⟩

theorem sides_limit {x : ℝ × ℝ} (hx : Decidable10 x) (n : ℕ) : ∃ ε > 0, ∀ (C : LhsClass L) (Inv : L → Prop) (env : RefineEnv) (c : Click L),
    env.trunc = true → env.accuracy = n → Prints env.eng ε → Approximates C Inv env ε x c → (SidesAgree C env c ↔ DigitsAgree n x.1 x.2) := by
  obtain ⟨i1, i2, k1, k2⟩ := hx
  obtain ⟨ε, he, hf⟩ := near_compare i1 i2 k1 k2 n
  refine ⟨ε, he, fun C Inv env c ht ha hE hc => ?_⟩
  obtain ⟨-, ⟨f, v, y, h2, h3, h4, h5⟩, w, h6, h7⟩ := hc
  obtain ⟨hy0, r, hr, hiff⟩ := hf env.eng y w hE h5 h7
  obtain ⟨s, s', e1, e2, e3⟩ := compareDec_ok hr
  rw [← hiff, e3, SidesAgree, ha, ht, h6]
  constructor
  · rintro ⟨f', v', y', t, r', t', g1, g2, g3, g4, g5, g6, g7, g8⟩
    rw [h2] at g1; cases g1
    rw [h3] at g2; cases g2
    rw [h4] at g3; cases g3
    rw [HasSearchKey] at g6
    simp only [searchKey, if_true] at g5 g6
    subst g6
    rw [e1] at g5; cases g5
    rw [e2] at g7; cases g7
    exact g8
  · intro h
    exact ⟨f, v, y, s, .fin (Int.fract |w|), s', h2, h3, h4, hy0, by simpa [searchKey] using e1, by simp [HasSearchKey, searchKey], e2, h⟩

open Classical in
/-- **C114 (partial).** Take clicks whose two sides have irrational limits with fractional parts above `10^-6`, and an accuracy `n`.
There is a bound `ε` such that, if all sides are evaluated and printed with an error below `ε`, a refinement that is not interrupted
returns normally and keeps exactly the clicks whose limits have the same first `n` digits after the point (of the absolute values): true
identities are never lost, and limits at a distance of at least `10^-n` are told apart.
Missing: rational limits, see `C114_rational_violated`; smaller fractional parts; `mpf` numbers, which cannot be compared, see `C56_refine_violated`. -/
theorem C114_limit_partial (xs : List (ℝ × ℝ)) (hxs : ∀ x ∈ xs, Decidable10 x) (n : ℕ) : ∃ ε > 0,
    ∀ (C : LhsClass L) (Inv : L → Prop) (env : RefineEnv) (cs : List (Click L)), LhsTotal C Inv → env.trunc = true → env.accuracy = n →
      Prints env.eng ε → List.Forall₂ (Approximates C Inv env ε) xs cs →
      ∃ kept, refineClicks C env (none, cs) = ((none, kept), .ok ()) ∧
        List.Forall₂ SameClick (((xs.zip cs).filter fun p => decide (DigitsAgree n p.1.1 p.1.2)).map Prod.snd) kept := by
  have key : ∃ ε > 0, ∀ (C : LhsClass L) (Inv : L → Prop) (env : RefineEnv) (cs : List (Click L)), env.trunc = true → env.accuracy = n →
      Prints env.eng ε → List.Forall₂ (Approximates C Inv env ε) xs cs →
      (∀ c ∈ cs, Evaluable C Inv env c) ∧ cs.filter (fun c => decide (SidesAgree C env c)) =
        ((xs.zip cs).filter fun p => decide (DigitsAgree n p.1.1 p.1.2)).map Prod.snd := by
    induction xs with
    | nil =>
      refine ⟨1, one_pos, fun C Inv env cs _ _ _ h => ?_⟩
      cases h
      simp
    | cons x xs ih =>
      obtain ⟨ε1, e1, f1⟩ := ih fun x hx => hxs x (List.mem_cons_of_mem _ hx)
      obtain ⟨ε2, e2, f2⟩ := sides_limit (L := L) (hxs x List.mem_cons_self) n
      refine ⟨min ε1 ε2, lt_min e1 e2, fun C Inv env cs ht ha hE h => ?_⟩
      cases h with
      | cons h hs =>
        rename_i c cs
        obtain ⟨g1, g2⟩ := f1 C Inv env cs ht ha (Prints.mono hE (min_le_left _ _)) (hs.imp fun _ _ h => h.mono (min_le_left _ _))
        have g3 := f2 C Inv env c ht ha (Prints.mono hE (min_le_right _ _)) (h.mono (min_le_right _ _))
        refine ⟨fun c' hc' => ?_, ?_⟩
        · rcases List.mem_cons.1 hc' with rfl | hc'
          · exact h.evaluable
          · exact g1 c' hc'
        · rw [List.zip_cons_cons, List.filter_cons, List.filter_cons]
          simp only [decide_eq_decide.2 g3]
          split
          · rw [List.map_cons, g2]
          · exact g2
  obtain ⟨ε, he, hf⟩ := key
  refine ⟨ε, he, fun C Inv env cs laws ht ha hE h => ?_⟩
  obtain ⟨g1, g2⟩ := hf C Inv env cs ht ha hE h
  obtain ⟨kept, hk⟩ := C56_refine_returns laws hE.total g1
  exact ⟨kept, hk, by rw [← g2]; exact C56_refine_partial hk⟩

/-- Equal absolute values up to integers have the same digits; at a distance of at least `10^-n` they have not. -/
theorem digitsAgree_cases (n : ℕ) (l l' : ℝ) : (Int.fract |l| = Int.fract |l'| → DigitsAgree n l l') ∧
    (1 / 10 ^ n ≤ abs (Int.fract |l| - Int.fract |l'|) → ¬ DigitsAgree n l l') := by
  refine ⟨fun h => by rw [DigitsAgree, h], fun h hd => ?_⟩
  rw [DigitsAgree] at hd
  have hp : (0 : ℝ) < 10 ^ n := by positivity
  have h1 := Int.abs_sub_lt_one_of_floor_eq_floor hd
  rw [← sub_mul, abs_mul, abs_of_pos hp] at h1
  rw [div_le_iff₀ hp] at h
  linarith

theorem nested_positive {a b : ℕ → ℤ} (hp : ∀ n, 1 ≤ n → 0 < a n ∧ 0 < b n) : ∀ n k,
    ∃ v, nested (fun i => (a i : ℚ)) (fun i => (b i : ℚ)) k n = some v ∧ (1 ≤ k → 0 < v)
  | 0, k => ⟨(a k : ℚ), rfl, fun hk => by exact_mod_cast (hp k hk).1⟩
  | n + 1, k => by
    obtain ⟨v, hv, h0⟩ := nested_positive hp n (k + 1)
    have h0 := h0 (by omega)
    refine ⟨a k + b (k + 1) / v, by rw [nested, hv]; simp [h0.ne'], fun hk => ?_⟩
    have h1 : (0 : ℚ) < a k := by exact_mod_cast (hp k hk).1
    have h2 : (0 : ℚ) < b (k + 1) := by exact_mod_cast (hp (k + 1) (by omega)).2
    positivity

theorem evalConst_nested {a b : EnumPoly.Polys} (ha : a ≠ []) (hb : b ≠ []) {n : ℕ} {v : ℚ}
    (hv : nested (fun i => (seqAt a i : ℚ)) (fun i => (seqAt b i : ℚ)) 0 n = some v) (info : Option Conv) :
    evalConst (n + 1) a b info = .ok (.fin v) := by
  have hval : ∀ (cs : Coeffs) (i : ℕ),
      Utils.subsInPolynom ((cs.getD (i % cs.length) []).map (Int.cast : ℤ → ℚ)) (i : ℚ) = ((seqAt cs i : ℤ) : ℚ) := by
    intro cs i
    rw [Utils.subsInPolynom_eq_horner, seqAt, ← horner_cast]
    simp
  rw [evalConst, evalByPolys, if_neg (by simp [ha, hb])]
  simp only [hval]
  rw [(C21_eval_contfrac_partial _ _).1 (by simp), Nat.add_sub_cancel, List.range_eq_range',
    nestedList_range (fun i => ((seqAt a i : ℤ) : ℚ)) (fun i => ((seqAt b i : ℤ) : ℚ)), hv]
  rfl

theorem evalConst_positive {a b : EnumPoly.Polys} (ha : a ≠ []) (hb : b ≠ []) (hp : ∀ n, 1 ≤ n → 0 < seqAt a n ∧ 0 < seqAt b n) (n : ℕ)
    (info : Option Conv) : evalConst (n + 1) a b info = .ok (.fin ((contP (seqAt a) (seqAt b) (n + 1) : ℚ) / contQ (seqAt a) (seqAt b) (n + 1))) := by
  obtain ⟨v, hv, -⟩ := nested_positive hp n 0
  rw [evalConst_nested ha hb hv, (nested_eq_cont _ _ _ _ hv).2]

open Classical in
/-- **C114 (partial, iterations).** For a continued fraction with positive terms whose convergents tend to `r`, a function that maps the
numbers near `r` to numbers near `l`, and an LHS near `l'`: from some number of iterations on, `refine_clicks_with_const_num_of_iters` keeps
the click iff `l` and `l'` have the same first `n` digits. -/
theorem C114_iterations_partial {l l' r : ℝ} (hx : Decidable10 (l, l')) (n : ℕ) : ∃ ε > 0,
    ∀ (C : LhsClass L) (Inv : L → Prop) (env : RefineEnv) (c : Click L) (f : Num → Except PyErr Num) (w : ℚ), LhsTotal C Inv →
      env.trunc = true → env.accuracy = n → Prints env.eng ε → c.a ≠ [] → c.b ≠ [] →
      (∀ n, 1 ≤ n → 0 < seqAt c.a n ∧ 0 < seqAt c.b n) →
      Tendsto (fun n => (contP (seqAt c.a) (seqAt c.b) (n + 1) : ℝ) / contQ (seqAt c.a) (seqAt c.b) (n + 1)) atTop (𝓝 r) →
      env.funcs[c.post]? = some f → (∃ η > 0, ∀ x : ℚ, |(x : ℝ) - r| < η → ∃ y : ℚ, f (.fin x) = .ok (.fin y) ∧ |(y : ℝ) - l| < ε) →
      Inv c.lhs → C.val c.lhs = .fin w → |(w : ℝ) - l'| < ε →
      ∃ N, ∀ m, N ≤ m → ∃ kept, refineClicks C { env with eval := evalConst m } (none, [c]) = ((none, kept), .ok ()) ∧
        List.Forall₂ SameClick (if DigitsAgree n l l' then [c] else []) kept := by
  obtain ⟨ε, he, hf⟩ := C114_limit_partial (L := L) [(l, l')] (by simpa using hx) n
  refine ⟨ε, he, fun C Inv env c f w laws ht ha hE hca hcb hp hlim hfun hmap hinv hw hwl => ?_⟩
  obtain ⟨η, hη, hmap⟩ := hmap
  obtain ⟨N, hN⟩ := (Metric.tendsto_atTop.1 hlim) η hη
  refine ⟨N + 1, fun m hm => ?_⟩
  obtain ⟨m, rfl⟩ : ∃ k, m = k + 1 := ⟨m - 1, by omega⟩
  have hd := hN m (by omega)
  rw [Real.dist_eq] at hd
  obtain ⟨y, hy1, hy2⟩ := hmap ((contP (seqAt c.a) (seqAt c.b) (m + 1) : ℚ) / contQ (seqAt c.a) (seqAt c.b) (m + 1)) (by push_cast; exact hd)
  obtain ⟨kept, hk1, hk2⟩ := hf C Inv { env with eval := evalConst (m + 1) } [c] laws ht ha hE
    (.cons ⟨hinv, ⟨f, _, y, hfun, evalConst_positive hca hcb hp m c.conv, hy1, hy2⟩, w, hw, hwl⟩ .nil)
  refine ⟨kept, hk1, ?_⟩
  by_cases hD : DigitsAgree n l l'
  · simpa [hD] using hk2
  · simpa [hD] using hk2

/-! ### An example -/

/-- Numbers printed with `P` digits after the point, cut off. -/
def cutEng (P : ℕ) : EngN := fun x =>
  match x with
  | .fin q => .ok (Dec.mk false ⌊q * 10 ^ P⌋.toNat (-P)).eng
  | _ => .ok []

theorem cutEng_value {q : ℚ} (h : 0 ≤ q) (P : ℕ) : (Dec.mk false ⌊q * 10 ^ P⌋.toNat (-P)).value = ⌊q * 10 ^ P⌋ / 10 ^ P := by
  have h1 : (0 : ℤ) ≤ ⌊q * 10 ^ P⌋ := Int.floor_nonneg.2 (by positivity)
  rw [Dec.value]
  simp only [Bool.false_eq_true, if_false, one_mul]
  rw [zpow_neg, zpow_natCast, ← div_eq_mul_inv]
  congr 1
  have : ((⌊q * 10 ^ P⌋.toNat : ℤ) : ℚ) = ⌊q * 10 ^ P⌋ := by rw [Int.toNat_of_nonneg h1]
  exact_mod_cast this

theorem cutEng_prints (P : ℕ) : Prints (cutEng P) (1 / 10 ^ P) := by
  refine ⟨fun q => ⟨_, rfl⟩, fun q q0 q1 => ⟨_, rfl, rfl, ?_⟩⟩
  have hp : (0 : ℚ) < 10 ^ P := by positivity
  have hv := cutEng_value q0.le P
  have hq : |(Dec.mk false ⌊q * 10 ^ P⌋.toNat (-P)).value - q| ≤ 1 / 10 ^ P := by
    rw [hv, abs_le]
    have f1 := Int.floor_le (q * 10 ^ P)
    have f2 := Int.lt_floor_add_one (q * 10 ^ P)
    constructor
    · rw [neg_le_sub_iff_le_add, ← add_div, le_div_iff₀ hp]
      linarith
    · rw [sub_le_iff_le_add]
      rw [div_le_iff₀ hp, add_mul, div_mul_cancel₀ _ hp.ne']
      linarith
  have : ((|(Dec.mk false ⌊q * 10 ^ P⌋.toNat (-P)).value - q| : ℚ) : ℝ) ≤ ((1 / 10 ^ P : ℚ) : ℝ) := by exact_mod_cast hq
  push_cast at this
  exact this

theorem four_div_pi_decidable : Decidable10 (4 / Real.pi, 4 / Real.pi) := by
  have hirr : Irrational (4 / Real.pi) := by
    have := irrational_pi.inv.natCast_mul (m := 4) (by norm_num)
    rwa [div_eq_mul_inv]
  have h1 : 1 < 4 / Real.pi := by rw [lt_div_iff₀ Real.pi_pos]; linarith [Real.pi_lt_four]
  have h2 : 4 / Real.pi < 2 := by rw [div_lt_iff₀ Real.pi_pos]; linarith [Real.pi_gt_three]
  have hfl : Int.fract |4 / Real.pi| = 4 / Real.pi - 1 := by
    rw [abs_of_pos (by linarith), Int.fract, show ⌊4 / Real.pi⌋ = 1 from Int.floor_eq_iff.2 ⟨by simpa using h1.le, by norm_num; exact h2⟩]
    simp
  have hk : 1 / 10 ^ 6 < Int.fract |4 / Real.pi| := by
    rw [hfl, lt_sub_iff_add_lt, lt_div_iff₀ Real.pi_pos]
    have := Real.pi_lt_d2
    norm_num at this ⊢
    linarith
  exact ⟨hirr, hirr, hk, hk⟩

/-- `4/π = 1 + 1/(3 + 4/(5 + 9/(7 + ...)))`, compared with a number near `4/π` on the left: for every accuracy, with enough digits and
iterations, the click is kept. -/
example (n : ℕ) : ∃ ε > 0, ∀ (w : ℚ) (P : ℕ), |(w : ℝ) - 4 / Real.pi| < ε → w ≠ 0 → 1 / 10 ^ P ≤ ε → ∃ N, ∀ m, N ≤ m → ∃ c',
    refineClicks ulcdClass ⟨[fun x => .ok x], true, n, cutEng P, evalConst m⟩ (none, [⟨[[1, 2]], [[0, 0, 1]], exUlcd w, 0, none⟩]) =
      ((none, [c']), .ok ()) := by
  obtain ⟨ε, he, hf⟩ := C114_iterations_partial (L := Ulcd) (r := 4 / Real.pi) (l := 4 / Real.pi) (l' := 4 / Real.pi) four_div_pi_decidable n
  refine ⟨ε, he, fun w P hw hw0 hP => ?_⟩
  obtain ⟨N, hN⟩ := hf ulcdClass (UlcdOk w) ⟨[fun x => .ok x], true, n, cutEng P, evalConst 0⟩ ⟨[[1, 2]], [[0, 0, 1]], exUlcd w, 0, none⟩
    (fun x => .ok x) w (ulcd_laws w).total rfl rfl (Prints.mono (cutEng_prints P) hP) (by simp) (by simp) cf3_pos cf3_tendsto rfl
    ⟨ε, he, fun x hx => ⟨x, rfl, hx⟩⟩ (exUlcd_ok hw0) rfl hw
  refine ⟨N, fun m hm => ?_⟩
  obtain ⟨kept, k1, k2⟩ := hN m hm
  rw [if_pos ((digitsAgree_cases n _ _).1 rfl)] at k2
  cases k2 with
  | cons h h' =>
    cases h'
    exact ⟨_, k1⟩

/-! ### Rational limits -/

theorem nested_three (n k : ℕ) : nested (fun i => (seqAt [[3]] i : ℚ)) (fun i => (seqAt [[-2]] i : ℚ)) k n =
    some ((2 ^ (n + 2) - 1) / (2 ^ (n + 1) - 1)) := by
  have h3 : ∀ i, seqAt [[3]] i = 3 := fun i => by simp [seqAt, Nat.mod_one, horner]
  have h2 : ∀ i, seqAt [[-2]] i = -2 := fun i => by simp [seqAt, Nat.mod_one, horner]
  simp only [h3, h2]
  induction n generalizing k with
  | zero => rw [nested]; norm_num
  | succ n ih =>
    have p1 : (1 : ℚ) ≤ 2 ^ n := one_le_pow₀ (by norm_num)
    have e1 : (2 : ℚ) ^ (n + 1) - 1 ≠ 0 := by rw [pow_succ]; linarith
    have e2 : (2 : ℚ) ^ (n + 1 + 1) - 1 ≠ 0 := by rw [pow_succ, pow_succ]; linarith
    rw [nested, ih]
    simp only
    rw [if_neg (div_ne_zero e2 e1)]
    congr 1
    push_cast
    field_simp
    ring

theorem rational_dropped {f : Num → Except PyErr Num} (hf : ∀ x : ℚ, x ≠ 0 → f (.fin x) = .ok (.fin x⁻¹)) {n P : ℕ} (hn : 1 ≤ n)
    (hP : n ≤ P) (m : ℕ) : refineClicks ulcdClass ⟨[f], true, n, cutEng P, evalConst (m + 1)⟩ (none, [⟨[[3]], [[-2]], exUlcd (1 / 2), 0, none⟩]) =
      ((none, []), .ok ()) := by
  set env : RefineEnv := ⟨[f], true, n, cutEng P, evalConst (m + 1)⟩
  set c : Click Ulcd := ⟨[[3]], [[-2]], exUlcd (1 / 2), 0, none⟩
  have p1 : (1 : ℚ) ≤ 2 ^ m := one_le_pow₀ (by norm_num)
  have e1 : (0 : ℚ) < 2 ^ (m + 1) - 1 := by rw [pow_succ]; linarith
  have e2 : (0 : ℚ) < 2 ^ (m + 2) - 1 := by rw [pow_add]; linarith
  set v : ℚ := (2 ^ (m + 2) - 1) / (2 ^ (m + 1) - 1)
  have hv0 : v ≠ 0 := (div_pos e2 e1).ne'
  have hy : v⁻¹ = (2 ^ (m + 1) - 1) / (2 ^ (m + 2) - 1) := inv_div _ _
  have hy1 : 1 / 3 ≤ v⁻¹ := by
    rw [hy, div_le_div_iff₀ (by norm_num) e2, pow_add, pow_add]; linarith
  have hy2 : v⁻¹ < 1 / 2 := by
    rw [hy, div_lt_div_iff₀ e2 (by norm_num), pow_add, pow_add]; linarith
  have hev : evalConst (m + 1) [[3]] [[-2]] none = .ok (.fin v) := evalConst_nested (by simp) (by simp) (nested_three m 0) none
  have hE : Evaluable ulcdClass (UlcdOk (1 / 2)) env c :=
    ⟨exUlcd_ok (by norm_num), ⟨_, rfl⟩, f, rfl, .inl ⟨_, hev, .inl ⟨_, hf v hv0⟩⟩⟩
  obtain ⟨kept, hk⟩ := C56_refine_returns (ulcd_laws (1 / 2)).total (env := env) (cutEng_prints P).total (cs := [c]) (by simpa using hE)
  have hno : ¬ SidesAgree ulcdClass env c := by
    rintro ⟨f', v', y', s, r, s', g1, g2, g3, g4, g5, g6, g7, g8⟩
    cases g1
    replace g2 : evalConst (m + 1) [[3]] [[-2]] none = .ok v' := g2
    rw [hev] at g2; cases g2
    rw [hf v hv0] at g3; cases g3
    have k1 : Int.fract |v⁻¹| = v⁻¹ := by rw [abs_of_nonneg (by linarith)]; exact Int.fract_eq_self.2 ⟨by linarith, by linarith⟩
    have k2 : Int.fract |(1 / 2 : ℚ)| = 1 / 2 := by rw [abs_of_nonneg (by norm_num)]; exact Int.fract_eq_self.2 ⟨by norm_num, by norm_num⟩
    have g6 : r = .fin (searchKey true (1 / 2)) := g6
    replace g5 : cutEng P (.fin (searchKey true v⁻¹)) = .ok s := g5
    replace g7 : cutEng P r = .ok s' := g7
    rw [searchKey, if_pos rfl, k1] at g5
    rw [g6, searchKey, if_pos rfl, k2] at g7
    have hp : (0 : ℚ) < 10 ^ P := by positivity
    have hpn : (0 : ℚ) < 10 ^ n := by positivity
    have plain : ∀ q : ℚ, 1 / 3 ≤ q → q < 1 → Plain (Dec.mk false ⌊q * 10 ^ P⌋.toNat (-P)) n := by
      intro q q1 q2
      have hv := cutEng_value (q := q) (by linarith) P
      have t : (10 : ℚ) ≤ 10 ^ P := by
        calc (10 : ℚ) = 10 ^ 1 := by norm_num
          _ ≤ 10 ^ P := pow_le_pow_right₀ (by norm_num) (by omega)
      have f1 := Int.lt_floor_add_one (q * 10 ^ P)
      have f2 := Int.floor_le (q * 10 ^ P)
      refine ⟨?_, rfl, by simpa using hP, by simp only [Left.neg_neg_iff]; omega, .inl ?_⟩
      · rw [hv, div_lt_one hp]
        exact f2.trans_lt (by nlinarith)
      · rw [hv, le_div_iff₀ hp]
        nlinarith
    have hc : compareDec (cutEng P) (.fin v⁻¹) (.fin (1 / 2)) n = .ok true := by
      rw [compareDec, g5]
      simp only [g7]
      rw [show ((n : ℤ) + 1 + 1) = (n : ℤ) + 2 by ring]
      replace g8 : Hashtable.sliceTo s ((n : ℤ) + 2) = Hashtable.sliceTo s' ((n : ℤ) + 2) := g8
      simp [g8]
    obtain ⟨r', hr, hiff⟩ := C79_digits_partial (eng := cutEng P) (x := .fin v⁻¹) (y := .fin (1 / 2)) rfl rfl (plain _ hy1 (by linarith))
      (plain _ (by norm_num) (by norm_num))
    rw [hc] at hr; cases hr
    have hs := hiff.1 rfl
    rw [SameDigits, cutEng_value (by linarith), cutEng_value (by norm_num)] at hs
    have half : ∀ k : ℕ, 1 ≤ k → (1 / 2 : ℚ) * 10 ^ k = ((5 * 10 ^ (k - 1) : ℤ) : ℚ) := by
      intro k hk
      obtain ⟨k, rfl⟩ : ∃ j, k = j + 1 := ⟨k - 1, by omega⟩
      rw [Nat.add_sub_cancel, pow_succ]
      push_cast
      ring
    have hr : (⌊(1 / 2 : ℚ) * 10 ^ P⌋ : ℚ) / 10 ^ P = 1 / 2 := by
      rw [half P (by omega), Int.floor_intCast, ← half P (by omega), mul_div_assoc, div_self hp.ne', mul_one]
    rw [hr, half n hn, Int.floor_intCast] at hs
    have h1 := (Int.floor_eq_iff.1 hs).1
    rw [← half n hn] at h1
    have h2 : (⌊v⁻¹ * 10 ^ P⌋ : ℚ) / 10 ^ P ≤ v⁻¹ := by
      rw [div_le_iff₀ hp]; exact Int.floor_le _
    nlinarith
  have h := C56_refine_partial hk
  rw [List.filter_cons, if_neg (by simpa using hno), List.filter_nil] at h
  cases h
  exact hk

/-- **C114 (violated).** Rational limits: the convergents of `3 - 2/(3 - 2/(3 - ...))` tend to `2`, and the LHS is exactly `1/2`. With the function
`1/x` the limits of the sides are equal, but the click is dropped for every number of iterations, every accuracy and every number of digits used. -/
theorem C114_rational_violated {f : Num → Except PyErr Num} (hf : ∀ x : ℚ, x ≠ 0 → f (.fin x) = .ok (.fin x⁻¹)) :
    (∃ v : ℕ → ℚ, (∀ m, evalConst (m + 1) [[3]] [[-2]] none = .ok (.fin (v m))) ∧ Tendsto (fun m => (v m : ℝ)) atTop (𝓝 2)) ∧
    ulcdClass.val (exUlcd (1 / 2)) = .fin (1 / 2) ∧
    ∀ n P m : ℕ, 1 ≤ n → n ≤ P →
      refineClicks ulcdClass ⟨[f], true, n, cutEng P, evalConst (m + 1)⟩ (none, [⟨[[3]], [[-2]], exUlcd (1 / 2), 0, none⟩]) =
        ((none, []), .ok ()) := by
  refine ⟨⟨_, fun m => evalConst_nested (by simp) (by simp) (nested_three m 0) none, ?_⟩, rfl, fun n P m hn hP => rational_dropped hf hn hP m⟩
  have h0 : Tendsto (fun m : ℕ => (2 : ℝ) + (1 / 2) ^ m) atTop (𝓝 2) := by
    have := (tendsto_pow_atTop_nhds_zero_of_lt_one (r := (1 / 2 : ℝ)) (by norm_num) (by norm_num)).const_add 2
    simpa using this
  refine tendsto_of_tendsto_of_tendsto_of_le_of_le tendsto_const_nhds h0 (fun m => ?_) fun m => ?_
  all_goals
    have p1 : (1 : ℝ) ≤ 2 ^ m := one_le_pow₀ (by norm_num)
    have e1 : (0 : ℝ) < 2 ^ (m + 1) - 1 := by rw [pow_succ]; linarith
    push_cast
  · rw [le_div_iff₀ e1, pow_add, pow_add]; linarith
  · rw [div_le_iff₀ e1, one_div, inv_pow, pow_add, pow_add]
    have : ((2 : ℝ) ^ m)⁻¹ * 2 ^ m = 1 := inv_mul_cancel₀ (by positivity)
    have h3 : ((2 : ℝ) ^ m)⁻¹ ≤ 1 := inv_le_one_of_one_le₀ p1
    nlinarith

end PiCF
