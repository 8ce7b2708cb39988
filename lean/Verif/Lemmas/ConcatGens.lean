import Verif.Lemmas.Concat

/-!
# The generators of a concatenated code
-/

namespace PyQ

open Spec

variable {B l m : ℕ}

theorem blockRows_length (inner : List (List ℤ)) : (blockRows m B inner).length = B * inner.length :=
  flatMap_length _ B _ fun b _ => by simp

theorem mem_blockRows {inner : List (List ℤ)} {r : List ℤ} (h : r ∈ blockRows m B inner) :
    ∃ b : Fin B, ∃ g ∈ inner, r = blockRow m B b g := by
  obtain ⟨b, hb, h⟩ := List.mem_flatMap.mp h
  obtain ⟨g, hg, rfl⟩ := List.mem_map.mp h
  exact ⟨⟨b, List.mem_range.mp hb⟩, g, hg, rfl⟩

theorem blockRows_getD (inner : List (List ℤ)) (t : ℕ) (ht : t < B * inner.length) :
    (blockRows m B inner).getD t [] = blockRow m B (t / inner.length) (inner.getD (t % inner.length) []) := by
  unfold blockRows
  rw [flatMap_getD _ B inner.length [] (fun b _ => by simp) t ht]
  have hr : 0 < inner.length := by
    rcases Nat.eq_zero_or_pos inner.length with h0 | h0
    · rw [h0] at ht; simp at ht
    · exact h0
  have h1 : t % inner.length < inner.length := Nat.mod_lt _ hr
  rw [List.getD_eq_getElem _ _ (by simpa using h1), List.getD_eq_getElem _ _ h1, List.getElem_map]

theorem concat_commuting {inner subs : List (List ℤ)} {X Z : Fin l → BVec m} (hl : ∀ g ∈ inner, g.length = 2 * m)
    (hL : LogicalOf inner X Z) (hcom : ∀ p ∈ inner, ∀ q ∈ inner, symp (rowPauli m p) (rowPauli m q) = 0)
    (hs : ∀ r ∈ subs, ∃ ux uz, (rowPauli (B * m) r).vec = substituted ux uz X Z)
    (hss : ∀ p ∈ subs, ∀ q ∈ subs, sympV (rowPauli (B * m) p).vec (rowPauli (B * m) q).vec = 0) :
    ∀ p ∈ blockRows m B inner ++ subs, ∀ q ∈ blockRows m B inner ++ subs,
      symp (rowPauli (B * m) p) (rowPauli (B * m) q) = 0 := by
  have key : ∀ g ∈ inner, ∀ b : Fin B, ∀ r ∈ subs,
      sympV (rowPauli (B * m) (blockRow m B b g)).vec (rowPauli (B * m) r).vec = 0 := by
    intro g hg b r hr
    obtain ⟨ux, uz, h⟩ := hs r hr
    rw [h, blockRow_vec m B b g (hl g hg), sympV_inBlock_subst]
    simp only [hL.commX g hg, hL.commZ g hg, mul_zero, add_zero, Finset.sum_const_zero]
  intro p hp q hq
  rw [← sympV_vec]
  rcases List.mem_append.mp hp with hp | hp
  · obtain ⟨b, g, hg, rfl⟩ := mem_blockRows hp
    rcases List.mem_append.mp hq with hq | hq
    · obtain ⟨b', g', hg', rfl⟩ := mem_blockRows hq
      rw [blockRow_vec m B b g (hl g hg), blockRow_vec m B b' g' (hl g' hg'), sympV_inBlock]
      split_ifs
      · rw [sympV_vec]; exact hcom g hg g' hg'
      · rfl
    · exact key g hg b q hq
  · rcases List.mem_append.mp hq with hq | hq
    · obtain ⟨b', g', hg', rfl⟩ := mem_blockRows hq
      rw [sympV_comm]
      exact key g' hg' b' p hp
    · exact hss p hp q hq

theorem concat_independent {inner subs : List (List ℤ)} {X Z : Fin l → BVec m} (hl : ∀ g ∈ inner, g.length = 2 * m)
    (hL : LogicalOf inner X Z)
    (hind : LinearIndependent (ZMod 2) fun i : Fin inner.length => (rowPauli m inner[i]).vec)
    (hs : ∀ r ∈ subs, ∃ ux uz, (rowPauli (B * m) r).vec = substituted ux uz X Z)
    (hd : ∀ i : Fin subs.length, ∃ wx wz, ∀ j : Fin subs.length,
      sympV (substituted wx wz X Z) (rowPauli (B * m) subs[j]).vec = if j = i then 1 else 0) :
    LinearIndependent (ZMod 2) fun i : Fin (blockRows m B inner ++ subs).length =>
      (rowPauli (B * m) (blockRows m B inner ++ subs)[i]).vec := by
  have hlen := blockRows_length (m := m) (B := B) inner
  -- the entries
  have hblk : ∀ t : ℕ, ∀ ht : t < (blockRows m B inner ++ subs).length, t < B * inner.length →
      ∃ b : Fin B, ∃ i : Fin inner.length, (b : ℕ) = t / inner.length ∧ (i : ℕ) = t % inner.length ∧
        (rowPauli (B * m) (blockRows m B inner ++ subs)[t]).vec = inBlock b (rowPauli m inner[i]).vec := by
    intro t ht h
    have hr : 0 < inner.length := by
      rcases Nat.eq_zero_or_pos inner.length with h0 | h0
      · rw [h0] at h; simp at h
      · exact h0
    have hb : t / inner.length < B := (Nat.div_lt_iff_lt_mul hr).mpr h
    have hi : t % inner.length < inner.length := Nat.mod_lt _ hr
    refine ⟨⟨_, hb⟩, ⟨_, hi⟩, rfl, rfl, ?_⟩
    have h1 := blockRows_getD (m := m) (B := B) inner t h
    rw [List.getD_eq_getElem _ _ (by rw [hlen]; exact h), List.getD_eq_getElem _ _ hi] at h1
    rw [List.getElem_append_left (by rw [hlen]; exact h), h1]
    exact blockRow_vec m B ⟨_, hb⟩ _ (hl _ (List.getElem_mem hi))
  have hsub : ∀ t : ℕ, ∀ ht : t < (blockRows m B inner ++ subs).length, ¬ t < B * inner.length →
      ∃ i : Fin subs.length, (i : ℕ) = t - B * inner.length ∧
        (rowPauli (B * m) (blockRows m B inner ++ subs)[t]).vec = (rowPauli (B * m) subs[i]).vec := by
    intro t ht h
    have ht' : t - B * inner.length < subs.length := by
      rw [List.length_append, hlen] at ht; omega
    refine ⟨⟨_, ht'⟩, rfl, ?_⟩
    rw [List.getElem_append_right (by rw [hlen]; omega)]
    simp only [hlen, Fin.getElem_fin]
  refine independent_of_dual _ fun t => ?_
  by_cases ht : (t : ℕ) < B * inner.length
  · obtain ⟨b, i, hb, hi, -⟩ := hblk t t.2 ht
    obtain ⟨y, hy⟩ := exists_partner _ hind i
    -- make `y` commute with the logical operators
    set y' : BVec m := y + ∑ a, (sympV y (Z a) • X a + sympV y (X a) • Z a) with hy'
    have hyX : ∀ a, sympV y' (X a) = 0 := by
      intro a
      rw [hy', sympV_add_left, sympV_sum_left]
      simp only [sympV_add_left, sympV_smul_left, hL.XX, sympV_comm (Z _) (X a), hL.XZ, mul_zero, zero_add, mul_ite, mul_one,
        Finset.sum_ite_eq, Finset.mem_univ, if_true]
      exact CharTwo.add_self_eq_zero _
    have hyZ : ∀ a, sympV y' (Z a) = 0 := by
      intro a
      rw [hy', sympV_add_left, sympV_sum_left]
      simp only [sympV_add_left, sympV_smul_left, hL.ZZ, hL.XZ, mul_zero, add_zero, mul_ite, mul_one,
        Finset.sum_ite_eq', Finset.mem_univ, if_true]
      exact CharTwo.add_self_eq_zero _
    have hyg : ∀ j : Fin inner.length, sympV y' (rowPauli m inner[j]).vec = if j = i then 1 else 0 := by
      intro j
      have hm : inner[j] ∈ inner := List.getElem_mem j.2
      rw [hy', sympV_add_left, sympV_sum_left, hy j]
      simp only [sympV_add_left, sympV_smul_left, sympV_comm (X _) _, sympV_comm (Z _) _, hL.commX _ hm, hL.commZ _ hm,
        mul_zero, add_zero, Finset.sum_const_zero]
    refine ⟨inBlock b y', fun t' => ?_⟩
    by_cases ht' : (t' : ℕ) < B * inner.length
    · obtain ⟨b', i', hb', hi', hv⟩ := hblk t' t'.2 ht'
      show sympV (inBlock b y') (rowPauli (B * m) (blockRows m B inner ++ subs)[(t' : ℕ)]).vec = _
      rw [hv, sympV_inBlock, hyg]
      by_cases h : t' = t
      · have h1 : b = b' := by apply Fin.ext; rw [hb, hb', h]
        have h2 : i' = i := by apply Fin.ext; rw [hi, hi', h]
        rw [if_pos h1, if_pos h2, if_pos h]
      · rw [if_neg h]
        split_ifs with h1 h2
        · exfalso
          apply h
          apply Fin.ext
          rw [← Nat.div_add_mod (t' : ℕ) inner.length, ← Nat.div_add_mod (t : ℕ) inner.length, ← hb, ← hb', ← hi, ← hi', h1, h2]
        · rfl
        · rfl
    · obtain ⟨i', hi', hv⟩ := hsub t' t'.2 ht'
      show sympV (inBlock b y') (rowPauli (B * m) (blockRows m B inner ++ subs)[(t' : ℕ)]).vec = _
      obtain ⟨ux, uz, hu⟩ := hs subs[i'] (List.getElem_mem i'.2)
      rw [hv, hu, sympV_inBlock_subst, if_neg (by rintro rfl; exact ht' ht)]
      simp only [hyX, hyZ, mul_zero, add_zero, Finset.sum_const_zero]
  · obtain ⟨i, hi, -⟩ := hsub t t.2 ht
    obtain ⟨wx, wz, hw⟩ := hd i
    refine ⟨substituted wx wz X Z, fun t' => ?_⟩
    by_cases ht' : (t' : ℕ) < B * inner.length
    · obtain ⟨b', i', hb', hi', hv⟩ := hblk t' t'.2 ht'
      show sympV _ (rowPauli (B * m) (blockRows m B inner ++ subs)[(t' : ℕ)]).vec = _
      have hm : inner[i'] ∈ inner := List.getElem_mem i'.2
      rw [hv, sympV_comm, sympV_inBlock_subst, if_neg (by rintro rfl; exact ht ht')]
      simp only [hL.commX _ hm, hL.commZ _ hm, mul_zero, add_zero, Finset.sum_const_zero]
    · obtain ⟨i', hi', hv⟩ := hsub t' t'.2 ht'
      show sympV _ (rowPauli (B * m) (blockRows m B inner ++ subs)[(t' : ℕ)]).vec = _
      rw [hv, hw]
      have : i' = i ↔ t' = t := by
        rw [Fin.ext_iff, Fin.ext_iff, hi, hi']
        omega
      by_cases h : t' = t
      · rw [if_pos h, if_pos (this.mpr h)]
      · rw [if_neg h, if_neg fun h' => h (this.mp h')]

end PyQ
