import Mathlib.Data.List.Sublists
import Mathlib.Data.List.Sort
import Mathlib.Data.List.Permutation
import Verif.Lemmas.EnumPoly

/-!
# Lemmas about the sparse enumeration
-/

namespace PiCF
open PiCF.ContFrac PiCF.Spec PiCF.EnumPoly

namespace EnumPoly

theorem combinations_perm {α : Type} (l : List α) (k : ℕ) : (combinations l k).Perm (List.sublistsLen k l) := by
  induction l generalizing k with
  | nil => cases k <;> simp [combinations]
  | cons x xs ih =>
    cases k with
    | zero => simp [combinations]
    | succ k =>
      rw [combinations, List.sublistsLen_succ_cons]
      exact (((ih k).map _).append (ih (k + 1))).trans List.perm_append_comm

theorem mem_combinations {α : Type} (l : List α) (k : ℕ) (c : List α) :
    c ∈ combinations l k ↔ c.Sublist l ∧ c.length = k := by
  rw [(combinations_perm l k).mem_iff, List.mem_sublistsLen]

theorem nodup_combinations {α : Type} (l : List α) (k : ℕ) (h : l.Nodup) : (combinations l k).Nodup :=
  (combinations_perm l k).nodup_iff.2 (List.nodup_sublistsLen k h)

theorem length_combinations {α : Type} (l : List α) (k : ℕ) : (combinations l k).length = l.length.choose k := by
  rw [(combinations_perm l k).length_eq, List.length_sublistsLen]

theorem mem_combinations_range (n k : ℕ) (mask : List ℕ) : mask ∈ combinations (List.range n) k ↔ IsMask n k mask := by
  rw [mem_combinations, IsMask]
  constructor
  · rintro ⟨h1, h2⟩
    exact ⟨h2, List.pairwise_lt_range.sublist h1, fun i hi => List.mem_range.1 (h1.subset hi)⟩
  · rintro ⟨h1, h2, h3⟩
    refine ⟨?_, h1⟩
    have hnd : mask.Nodup := h2.imp (fun h => by omega)
    exact List.sublist_of_subperm_of_pairwise (r := (· ≤ ·))
      (hnd.subperm (fun i hi => List.mem_range.2 (h3 i hi))) (h2.imp (fun h => by omega))
      (List.pairwise_lt_range.imp (fun h => by omega))

section WR
variable {α : Type}

theorem of_mem_combinationsWR {L : List α} {m : ℕ} {c : List α} (h : c ∈ combinationsWR L m) :
    c.length = m ∧ ∀ x ∈ c, x ∈ L := by
  induction L, m using combinationsWR.induct generalizing c with
  | case1 l => simp [combinationsWR] at h; simp [h]
  | case2 m => simp [combinationsWR] at h
  | case3 x xs m ih1 ih2 =>
    rw [combinationsWR, List.mem_append, List.mem_map] at h
    rcases h with ⟨c, hc, rfl⟩ | h
    · obtain ⟨h1, h2⟩ := ih1 hc
      refine ⟨by simp [h1], ?_⟩
      intro y hy
      rcases List.mem_cons.1 hy with rfl | hy
      · simp
      · exact h2 y hy
    · obtain ⟨h1, h2⟩ := ih2 h
      exact ⟨h1, fun y hy => List.mem_cons_of_mem _ (h2 y hy)⟩

theorem exists_mem_combinationsWR [DecidableEq α] (L : List α) (m : ℕ) (y : List α) (hl : y.length = m)
    (hy : ∀ x ∈ y, x ∈ L) : ∃ c ∈ combinationsWR L m, c.Perm y := by
  induction L, m using combinationsWR.induct generalizing y with
  | case1 l =>
    rw [List.length_eq_zero_iff] at hl
    exact ⟨[], by simp [combinationsWR], by simp [hl]⟩
  | case2 m =>
    match y, hl with
    | x :: y, _ => exact absurd (hy x (by simp)) (by simp)
  | case3 x xs m ih1 ih2 =>
    by_cases hx : x ∈ y
    · have hp := List.perm_cons_erase hx
      obtain ⟨c, hc, hcp⟩ := ih1 (y.erase x) (by rw [List.length_erase_of_mem hx, hl]; rfl)
        (fun z hz => hy z (List.mem_of_mem_erase hz))
      exact ⟨x :: c, by rw [combinationsWR]; simp [hc], (hcp.cons x).trans hp.symm⟩
    · obtain ⟨c, hc, hcp⟩ := ih2 y hl (fun z hz => by
        rcases List.mem_cons.1 (hy z hz) with rfl | h
        · exact absurd hz hx
        · exact h)
      exact ⟨c, by rw [combinationsWR]; simp [hc], hcp⟩

theorem pairwise_combinationsWR (L : List α) (m : ℕ) (h : L.Nodup) :
    (combinationsWR L m).Pairwise fun c d => ¬ c.Perm d := by
  induction L, m using combinationsWR.induct with
  | case1 l => simp [combinationsWR]
  | case2 m => simp [combinationsWR]
  | case3 x xs m ih1 ih2 =>
    rw [combinationsWR, List.pairwise_append]
    rw [List.nodup_cons] at h
    refine ⟨?_, ih2 h.2, ?_⟩
    · rw [List.pairwise_map]
      exact (ih1 (List.nodup_cons.2 h)).imp fun hcd hp => hcd ((List.perm_cons x).1 hp)
    · intro c hc d hd hp
      obtain ⟨c, -, rfl⟩ := List.mem_map.1 hc
      exact h.1 ((of_mem_combinationsWR hd).2 x (hp.subset (by simp)))

end WR

/-- What `set(permutations(masks))` iterates over: every distinct permutation once, in some order. -/
def IsSetOrder (setOrder : List (List (List ℕ)) → List (List (List ℕ))) : Prop := ∀ l, (setOrder l).Perm l.dedup

theorem mem_masksList {so} (hso : IsSetOrder so) (n k m : ℕ) (masks : List (List ℕ)) :
    masks ∈ masksList so n k m ↔ masks.length = m ∧ ∀ mask ∈ masks, IsMask n k mask := by
  rw [masksList, List.mem_flatMap]
  simp only [(hso _).mem_iff, List.mem_dedup, List.mem_permutations, ← mem_combinations_range]
  constructor
  · rintro ⟨c, hc, hp⟩
    obtain ⟨h1, h2⟩ := of_mem_combinationsWR hc
    exact ⟨hp.length_eq.trans h1, fun x hx => h2 x (hp.subset hx)⟩
  · rintro ⟨h1, h2⟩
    obtain ⟨c, hc, hp⟩ := exists_mem_combinationsWR _ m masks h1 h2
    exact ⟨c, hc, hp.symm⟩

theorem nodup_masksList {so} (hso : IsSetOrder so) (n k m : ℕ) : (masksList so n k m).Nodup := by
  rw [masksList, List.nodup_flatMap]
  refine ⟨fun c _ => (hso _).nodup_iff.2 (List.nodup_dedup _), ?_⟩
  refine (pairwise_combinationsWR _ m (nodup_combinations _ k List.nodup_range)).imp ?_
  intro c d hcd x hx1 hx2
  rw [(hso _).mem_iff, List.mem_dedup, List.mem_permutations] at hx1 hx2
  exact hcd (hx1.symm.trans hx2)

theorem length_masksList {so} (hso : IsSetOrder so) (n k m : ℕ) : (masksList so n k m).length = n.choose k ^ m := by
  have hp : (masksList so n k m).Perm (product (List.replicate m (combinations (List.range n) k))) := by
    rw [List.perm_ext_iff_of_nodup (nodup_masksList hso n k m)
      (nodup_product _ fun l hl => by
        rw [List.eq_of_mem_replicate hl]; exact nodup_combinations _ k List.nodup_range)]
    intro masks
    rw [mem_masksList hso, mem_product]
    induction m generalizing masks with
    | zero => rw [List.replicate_zero, List.forall₂_nil_left_iff]; simp +contextual [List.length_eq_zero_iff]
    | succ m ih =>
      rw [List.replicate_succ, List.forall₂_cons_left_iff]
      constructor
      · rintro ⟨h1, h2⟩
        match masks, h1 with
        | x :: masks, h1 =>
          refine ⟨x, masks, (mem_combinations_range n k x).2 (h2 x (by simp)), ?_, rfl⟩
          exact (ih masks).1 ⟨by simpa using h1, fun y hy => h2 y (by simp [hy])⟩
      · rintro ⟨x, masks, hx, hm, rfl⟩
        obtain ⟨h1, h2⟩ := (ih masks).2 hm
        refine ⟨by simp [h1], fun y hy => ?_⟩
        rcases List.mem_cons.1 hy with rfl | hy
        · exact (mem_combinations_range n k y).1 hx
        · exact h2 y hy
  rw [hp.length_eq, length_product]
  simp [length_combinations]

/-- `applyMask` when it does not raise. -/
def placePoly (n : ℕ) (p : Poly) (mask : List ℕ) : Poly :=
  (List.range n).map fun i => if i ∈ mask then p.getD (mask.idxOf i) 0 else 0

theorem mapM_ok {α β : Type} (f : α → Except PyErr β) (g : α → β) (l : List α) (h : ∀ x ∈ l, f x = .ok (g x)) :
    l.mapM f = .ok (l.map g) := by
  induction l with
  | nil => rfl
  | cons x l ih =>
    rw [List.mapM_cons, h x (by simp), ih fun y hy => h y (by simp [hy])]
    rfl

theorem applyMask_ok (n : ℕ) (p : Poly) (mask : List ℕ) (h : IsMask n p.length mask) :
    applyMask n p mask = .ok (placePoly n p mask) := by
  rw [applyMask, placePoly]
  apply mapM_ok
  intro i _
  by_cases hi : i ∈ mask
  · have hlt : mask.idxOf i < p.length := by rw [← h.1]; exact List.idxOf_lt_length_of_mem hi
    simp only [if_pos hi, List.getElem?_eq_getElem hlt, List.getD_eq_getElem _ _ hlt]
  · simp only [if_neg hi]

theorem applyMasks_ok (n k : ℕ) (ps : Polys) (masks : List (List ℕ)) (hk : ∀ p ∈ ps, p.length = k)
    (h : ∀ mask ∈ masks, IsMask n k mask) :
    applyMasks n ps masks = .ok ((ps.zip masks).map fun pm => placePoly n pm.1 pm.2) := by
  rw [applyMasks]
  apply mapM_ok
  rintro ⟨p, mask⟩ hpm
  obtain ⟨h1, h2⟩ := List.of_mem_zip hpm
  exact applyMask_ok n p mask (by rw [hk p h1]; exact h mask h2)

theorem placePoly_spec (n : ℕ) (p : Poly) (mask : List ℕ) (h : IsMask n p.length mask) :
    IsPlacement n p mask (placePoly n p mask) := by
  have hget : ∀ i, i < n → (placePoly n p mask).getD i 0 = if i ∈ mask then p.getD (mask.idxOf i) 0 else 0 := by
    intro i hi
    rw [placePoly, List.getD_eq_getElem _ _ (by simpa using hi)]
    simp
  have hnd : mask.Nodup := h.2.1.imp (fun h => by omega)
  refine ⟨by simp [placePoly], ?_, ?_⟩
  · intro j hj
    rw [List.getD_eq_getElem mask _ hj, hget _ (h.2.2 _ (List.getElem_mem hj)), if_pos (List.getElem_mem hj),
      hnd.idxOf_getElem]
  · intro i hi
    by_cases hin : i < n
    · rw [hget i hin, if_neg hi]
    · rw [List.getD_eq_default]; simpa [placePoly] using hin

theorem isPlacement_inj {n : ℕ} {p : Poly} {m1 m2 : List ℕ} {q : Poly} (hp : ∀ c ∈ p, c ≠ 0)
    (h1 : IsMask n p.length m1) (h2 : IsMask n p.length m2) (e1 : IsPlacement n p m1 q) (e2 : IsPlacement n p m2 q) :
    m1 = m2 := by
  have key : ∀ m, IsMask n p.length m → IsPlacement n p m q → ∀ i, i ∈ m ↔ q.getD i 0 ≠ 0 := by
    intro m hm hq i
    constructor
    · intro hi
      obtain ⟨j, hj, rfl⟩ := List.mem_iff_getElem.1 hi
      have := hq.2.1 j hj
      rw [List.getD_eq_getElem m _ hj] at this
      rw [this, List.getD_eq_getElem p _ (by rw [← hm.1]; exact hj)]
      exact hp _ (List.getElem_mem _)
    · intro hi
      by_contra hne
      exact hi (hq.2.2 i hne)
  have hperm : m1.Perm m2 := by
    rw [List.perm_ext_iff_of_nodup (h1.2.1.imp (fun h => by omega)) (h2.2.1.imp (fun h => by omega))]
    intro i
    rw [key m1 h1 e1, key m2 h2 e2]
  exact hperm.eq_of_pairwise' (r := (· ≤ ·)) (h1.2.1.imp (fun h => by omega)) (h2.2.1.imp (fun h => by omega))

end EnumPoly
end PiCF
