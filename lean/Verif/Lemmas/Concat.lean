import Verif.Spec.Concat
import Verif.Model.CodeKraus
import Verif.Lemmas.CodeSpace

/-!
# Concatenation: symplectic products and lists
-/

namespace PyQ

open Spec

/-- The symplectic form with one argument fixed. -/
def sympL {n : ℕ} (u : BVec n) : BVec n →ₗ[ZMod 2] ZMod 2 where
  toFun := sympV u
  map_add' v w := sympV_add_right u v w
  map_smul' c v := by rw [sympV_smul_right]; rfl

theorem sympV_sum_right {n : ℕ} {ι : Type} (s : Finset ι) (u : BVec n) (f : ι → BVec n) :
    sympV u (∑ i ∈ s, f i) = ∑ i ∈ s, sympV u (f i) := map_sum (sympL u) f s

theorem sympV_sum_left {n : ℕ} {ι : Type} (s : Finset ι) (u : BVec n) (f : ι → BVec n) :
    sympV (∑ i ∈ s, f i) u = ∑ i ∈ s, sympV (f i) u := by
  rw [sympV_comm, sympV_sum_right]
  exact Finset.sum_congr rfl fun i _ => sympV_comm _ _

theorem sum_blocksF {B m : ℕ} {M : Type} [AddCommMonoid M] (F : Fin B → Fin m → M) :
    ∑ t : Fin (B * m), F t.divNat t.modNat = ∑ b, ∑ q, F b q := by
  rw [← Fintype.sum_prod_type', ← finProdFinEquiv.symm.sum_comp]
  rfl

/-- Blocks do not interact. -/
theorem sympV_joined {B m : ℕ} (f g : Fin B → BVec m) : sympV (joined f) (joined g) = ∑ b, sympV (f b) (g b) := by
  unfold sympV joined dotp
  rw [Finset.sum_add_distrib]
  congr 1
  · exact sum_blocksF fun b q => (f b).1 q * (g b).2 q
  · exact sum_blocksF fun b q => (f b).2 q * (g b).1 q

theorem sympV_inBlock {B m : ℕ} (b b' : Fin B) (v w : BVec m) :
    sympV (inBlock b v) (inBlock b' w) = if b = b' then sympV v w else 0 := by
  unfold inBlock
  rw [sympV_joined, Finset.sum_eq_single b]
  · rw [if_pos rfl]
    by_cases h : b = b'
    · rw [if_pos h, if_pos h]
    · rw [if_neg h, if_neg h, sympV_zero_right]
  · intro c _ hc
    rw [if_neg hc, sympV_zero_left]
  · simp

theorem sympV_inBlock_subst {B l m : ℕ} (b : Fin B) (v : BVec m) (ux uz : Fin B → Fin l → ZMod 2) (X Z : Fin l → BVec m) :
    sympV (inBlock b v) (substituted ux uz X Z) = ∑ a, (ux b a * sympV v (X a) + uz b a * sympV v (Z a)) := by
  unfold inBlock substituted
  rw [sympV_joined, Finset.sum_eq_single b]
  · rw [if_pos rfl, sympV_sum_right]
    simp only [sympV_add_right, sympV_smul_right]
  · intro c _ hc
    rw [if_neg hc, sympV_zero_left]
  · simp

/-- Substitution keeps the symplectic form. -/
theorem sympV_subst {B l m : ℕ} (ux uz vx vz : Fin B → Fin l → ZMod 2) (X Z : Fin l → BVec m)
    (hXZ : ∀ a b, sympV (X a) (Z b) = if a = b then 1 else 0) (hXX : ∀ a b, sympV (X a) (X b) = 0)
    (hZZ : ∀ a b, sympV (Z a) (Z b) = 0) :
    sympV (substituted ux uz X Z) (substituted vx vz X Z) = ∑ b, ∑ a, (ux b a * vz b a + uz b a * vx b a) := by
  unfold substituted
  rw [sympV_joined]
  refine Finset.sum_congr rfl fun b _ => ?_
  rw [sympV_sum_left]
  refine Finset.sum_congr rfl fun a _ => ?_
  rw [sympV_sum_right]
  simp only [sympV_add_left, sympV_add_right, sympV_smul_left, sympV_smul_right, hXZ, hXX, hZZ,
    sympV_comm (Z a) (X _), mul_zero, zero_add, add_zero]
  rw [Finset.sum_eq_single a]
  · simp only [if_true]
    ring
  · intro c _ hc
    rw [if_neg hc, if_neg (Ne.symm hc)]
    simp
  · simp

/-- A family with a dual system is independent. -/
theorem independent_of_dual {n r : ℕ} (v : Fin r → BVec n) (h : ∀ i, ∃ w, ∀ j, sympV w (v j) = if j = i then 1 else 0) :
    LinearIndependent (ZMod 2) v := by
  rw [Fintype.linearIndependent_iff]
  intro g hg i
  obtain ⟨w, hw⟩ := h i
  have := congrArg (sympV w) hg
  rw [sympV_sum_right, sympV_zero_right] at this
  simp only [sympV_smul_right, hw] at this
  simpa using this

/-! ### Lists -/

theorem flatMap_length {α : Type} (F : ℕ → List α) (n r : ℕ) (h : ∀ b < n, (F b).length = r) :
    ((List.range n).flatMap F).length = n * r := by
  induction n with
  | zero => simp
  | succ n ih =>
    rw [List.range_succ, List.flatMap_append, List.length_append, ih fun b hb => h b (by omega), List.flatMap_singleton,
      h n (by omega)]
    ring

theorem flatMap_getD {α : Type} (F : ℕ → List α) (n r : ℕ) (d : α) (h : ∀ b < n, (F b).length = r) (t : ℕ) (ht : t < n * r) :
    ((List.range n).flatMap F).getD t d = (F (t / r)).getD (t % r) d := by
  induction n with
  | zero => simp at ht
  | succ n ih =>
    have hlen := flatMap_length F n r fun b hb => h b (by omega)
    have hr : 0 < r := by
      rcases Nat.eq_zero_or_pos r with h0 | h0
      · subst h0; simp at ht
      · exact h0
    rw [List.range_succ, List.flatMap_append, List.flatMap_singleton]
    rcases Nat.lt_or_ge t (n * r) with h1 | h1
    · rw [List.getD_append _ _ _ _ (by rw [hlen]; exact h1), ih (fun b hb => h b (by omega)) h1]
    · rw [List.getD_append_right _ _ _ _ (by rw [hlen]; exact h1), hlen]
      have h2 : t < n * r + r := by rw [← Nat.succ_mul]; exact ht
      have h3 : t / r = n := by
        rw [Nat.div_eq_iff hr]
        omega
      have h4 : t % r = t - n * r := by
        have := Nat.div_add_mod t r
        rw [h3] at this
        rw [mul_comm] at this
        omega
      rw [h3, h4]

/-- A list in the middle of zeros. -/
theorem padded_getD (m B b : ℕ) (v : List ℤ) (hv : v.length = m) (hb : b < B) (t : ℕ) (ht : t < B * m) :
    (List.replicate (b * m) 0 ++ v ++ List.replicate ((B - b - 1) * m) 0).getD t 0 =
      if t / m = b then v.getD (t % m) 0 else 0 := by
  have hm : 0 < m := by
    rcases Nat.eq_zero_or_pos m with h0 | h0
    · subst h0; simp at ht
    · exact h0
  rcases Nat.lt_or_ge t (b * m) with h1 | h1
  · rw [List.append_assoc, List.getD_append _ _ _ _ (by simpa using h1), List.getD_replicate _ h1, if_neg]
    exact (Nat.div_lt_iff_lt_mul hm |>.mpr h1).ne
  · rcases Nat.lt_or_ge t (b * m + m) with h2 | h2
    · have h3 : t / m = b := by
        rw [Nat.div_eq_iff hm]
        omega
      have h4 : t % m = t - b * m := by
        have := Nat.div_add_mod t m
        rw [h3, mul_comm] at this
        omega
      rw [List.getD_append _ _ _ _ (by simp [hv]; omega), List.getD_append_right _ _ _ _ (by simpa using h1), if_pos h3, h4]
      simp
    · rw [List.getD_append_right _ _ _ _ (by simp [hv]; omega), if_neg]
      · simp only [List.length_append, List.length_replicate, hv]
        rw [List.getD_replicate]
        have : (B - b - 1) * m = B * m - b * m - m := by rw [Nat.sub_sub, Nat.sub_mul, Nat.add_mul, one_mul, Nat.sub_sub]
        omega
      · have : b + 1 ≤ t / m := (Nat.le_div_iff_mul_le hm).mpr (by nlinarith)
        omega

theorem padded_length (m B b : ℕ) (v : List ℤ) (hv : v.length = m) (hb : b < B) :
    (List.replicate (b * m) (0 : ℤ) ++ v ++ List.replicate ((B - b - 1) * m) 0).length = B * m := by
  simp only [List.length_append, List.length_replicate, hv]
  have h1 : (B - b - 1) * m = B * m - b * m - m := by rw [Nat.sub_sub, Nat.sub_mul, Nat.add_mul, one_mul, Nat.sub_sub]
  have h2 : b * m + m ≤ B * m := by nlinarith
  omega

theorem blockRow_length (m B b : ℕ) (row : List ℤ) (hr : row.length = 2 * m) (hb : b < B) :
    (blockRow m B b row).length = 2 * (B * m) := by
  unfold blockRow
  rw [List.length_append, padded_length m B b _ (by simp; omega) hb, padded_length m B b _ (by simp; omega) hb]
  ring

/-- An inner generator copied to block `b`. -/
theorem blockRow_vec (m B : ℕ) (b : Fin B) (row : List ℤ) (hr : row.length = 2 * m) :
    (rowPauli (B * m) (blockRow m B b row)).vec = inBlock b (rowPauli m row).vec := by
  have hl := padded_length m B b (row.take m) (by simp; omega) b.2
  have hdiv : ∀ t : Fin (B * m), (t : ℕ) / m = b ↔ t.divNat = b := by
    intro t
    rw [Fin.ext_iff]
    rfl
  apply Prod.ext
  · funext t
    show (((blockRow m B b row).getD t 0 : ℤ) : ZMod 2) = ((if t.divNat = b then (rowPauli m row).vec else 0).1 t.modNat)
    unfold blockRow
    rw [List.getD_append _ _ _ _ (by rw [hl]; exact t.2), padded_getD m B b _ (by simp; omega) b.2 t t.2]
    by_cases h : t.divNat = b
    · rw [if_pos h, if_pos ((hdiv t).mpr h)]
      show _ = ((row.getD (t.modNat) 0 : ℤ) : ZMod 2)
      have hm : (t : ℕ) % m < m := t.modNat.2
      rw [List.getD_eq_getElem?_getD, List.getElem?_take_of_lt hm, ← List.getD_eq_getElem?_getD]
      rfl
    · rw [if_neg h, if_neg (fun h' => h ((hdiv t).mp h'))]
      simp
  · funext t
    show (((blockRow m B b row).getD (B * m + t) 0 : ℤ) : ZMod 2) = ((if t.divNat = b then (rowPauli m row).vec else 0).2 t.modNat)
    unfold blockRow
    rw [List.getD_append_right _ _ _ _ (by rw [hl]; omega), hl, Nat.add_sub_cancel_left,
      padded_getD m B b _ (by simp; omega) b.2 t t.2]
    by_cases h : t.divNat = b
    · rw [if_pos h, if_pos ((hdiv t).mpr h)]
      show _ = ((row.getD (m + t.modNat) 0 : ℤ) : ZMod 2)
      rw [List.getD_eq_getElem?_getD, List.getElem?_drop, ← List.getD_eq_getElem?_getD]
      rfl
    · rw [if_neg h, if_neg (fun h' => h ((hdiv t).mp h'))]
      simp

theorem blockRow_binary (m B b : ℕ) (row : List ℤ) (h : IsBinary row) : IsBinary (blockRow m B b row) := by
  intro v hv
  unfold blockRow at hv
  simp only [List.mem_append, List.mem_replicate] at hv
  rcases hv with ((⟨-, h1⟩ | h1) | ⟨-, h1⟩) | (⟨-, h1⟩ | h1) | ⟨-, h1⟩
  · exact Or.inl h1
  · exact h v (List.mem_of_mem_take h1)
  · exact Or.inl h1
  · exact Or.inl h1
  · exact h v (List.mem_of_mem_drop h1)
  · exact Or.inl h1

theorem substLetter_length (m : ℕ) (lx lz : List ℤ) (hx : lx.length = 2 * m) (hz : lz.length = 2 * m) (x z : ℤ) :
    (substLetter m lx lz x z).1.length = m ∧ (substLetter m lx lz x z).2.length = m := by
  unfold substLetter
  split_ifs <;> simp <;> omega

theorem substLetter_binary (m : ℕ) (lx lz : List ℤ) (hx : IsBinary lx) (hz : IsBinary lz) (x z : ℤ) :
    IsBinary (substLetter m lx lz x z).1 ∧ IsBinary (substLetter m lx lz x z).2 := by
  have h0 : IsBinary (List.replicate m 0) := fun v hv => Or.inl (List.eq_of_mem_replicate hv)
  have h1 : IsBinary (lx.take m) := fun v hv => hx v (List.mem_of_mem_take hv)
  have h2 : IsBinary (lz.drop m) := fun v hv => hz v (List.mem_of_mem_drop hv)
  unfold substLetter
  split_ifs <;> exact ⟨by assumption, by assumption⟩

theorem substRow_eq (n m : ℕ) (lx lz row : List ℤ) : substRow n m lx lz row =
    ((List.range n).flatMap fun j => (substLetter m lx lz (row.getD j 0) (row.getD (n + j) 0)).1) ++
      (List.range n).flatMap fun j => (substLetter m lx lz (row.getD j 0) (row.getD (n + j) 0)).2 := by
  unfold substRow
  simp only [List.flatMap_map]

theorem substRow_length (n m : ℕ) (lx lz row : List ℤ) (hx : lx.length = 2 * m) (hz : lz.length = 2 * m) :
    (substRow n m lx lz row).length = 2 * (n * m) := by
  rw [substRow_eq, List.length_append, flatMap_length _ n m fun b _ => (substLetter_length m lx lz hx hz _ _).1,
    flatMap_length _ n m fun b _ => (substLetter_length m lx lz hx hz _ _).2]
  ring

theorem substRow_binary (n m : ℕ) (lx lz row : List ℤ) (hx : IsBinary lx) (hz : IsBinary lz) :
    IsBinary (substRow n m lx lz row) := by
  intro v hv
  rw [substRow_eq, List.mem_append] at hv
  rcases hv with h | h
  · obtain ⟨j, -, hj⟩ := List.mem_flatMap.mp h
    exact (substLetter_binary m lx lz hx hz _ _).1 v hj
  · obtain ⟨j, -, hj⟩ := List.mem_flatMap.mp h
    exact (substLetter_binary m lx lz hx hz _ _).2 v hj

/-- An outer generator with its letters replaced.  The code only takes the X part of the logical X and the Z part of the
logical Z. -/
theorem substRow_vec (n m : ℕ) (lx lz row : List ℤ) (hx : lx.length = 2 * m) (hz : lz.length = 2 * m) (hrow : IsBinary row) :
    (rowPauli (n * m) (substRow n m lx lz row)).vec =
      substituted (l := 1) (fun b _ => (rowPauli n row).x b) (fun b _ => (rowPauli n row).z b)
        (fun _ => ((rowPauli m lx).x, 0)) (fun _ => (0, (rowPauli m lz).z)) := by
  have hbin : ∀ j, row.getD j 0 = 0 ∨ row.getD j 0 = 1 := by
    intro j
    by_cases h : j < row.length
    · rw [List.getD_eq_getElem _ _ h]; exact hrow _ (List.getElem_mem h)
    · left; rw [List.getD_eq_default _ _ (by omega)]
  have hl := flatMap_length (fun j => (substLetter m lx lz (row.getD j 0) (row.getD (n + j) 0)).1) n m
    fun b _ => (substLetter_length m lx lz hx hz _ _).1
  have hrep : ∀ q, (List.replicate m (0 : ℤ)).getD q 0 = 0 := by
    intro q
    rw [List.getD_eq_getElem?_getD, List.getElem?_replicate]
    split_ifs <;> rfl
  have hrep' := hrep
  simp only [List.getD_eq_getElem?_getD] at hrep'
  apply Prod.ext
  · funext t
    show (((substRow n m lx lz row).getD t 0 : ℤ) : ZMod 2) = _
    rw [substRow_eq, List.getD_append _ _ _ _ (by rw [hl]; exact t.2),
      flatMap_getD _ n m 0 (fun b _ => (substLetter_length m lx lz hx hz _ _).1) t t.2]
    simp only [substituted, joined, Finset.univ_unique, Finset.sum_singleton, Prod.fst_add, Prod.smul_fst, Pi.add_apply,
      Pi.smul_apply, Pi.zero_apply, smul_eq_mul, mul_zero, add_zero, rowPauli]
    have htake : (lx.take m).getD (t % m) 0 = lx.getD (t % m) 0 := by
      have hm : (t : ℕ) % m < m := t.modNat.2
      rw [List.getD_eq_getElem?_getD, List.getElem?_take_of_lt hm, ← List.getD_eq_getElem?_getD]
    have htake' := htake
    simp only [List.getD_eq_getElem?_getD] at htake'
    show _ = ((row.getD (t / m) 0 : ℤ) : ZMod 2) * ((lx.getD (t % m) 0 : ℤ) : ZMod 2)
    unfold substLetter
    rcases hbin (t / m) with h | h <;> rcases hbin (n + t / m) with h' | h' <;> rw [h, h'] <;> simp [htake', hrep']
  · funext t
    show (((substRow n m lx lz row).getD (n * m + t) 0 : ℤ) : ZMod 2) = _
    rw [substRow_eq, List.getD_append_right _ _ _ _ (by rw [hl]; omega), hl, Nat.add_sub_cancel_left,
      flatMap_getD _ n m 0 (fun b _ => (substLetter_length m lx lz hx hz _ _).2) t t.2]
    simp only [substituted, joined, Finset.univ_unique, Finset.sum_singleton, Prod.snd_add, Prod.smul_snd, Pi.add_apply,
      Pi.smul_apply, Pi.zero_apply, smul_eq_mul, mul_zero, zero_add, rowPauli]
    show _ = ((row.getD (n + t / m) 0 : ℤ) : ZMod 2) * ((lz.getD (m + t % m) 0 : ℤ) : ZMod 2)
    have hdrop : (lz.drop m).getD (t % m) 0 = lz.getD (m + t % m) 0 := by
      rw [List.getD_eq_getElem?_getD, List.getElem?_drop, ← List.getD_eq_getElem?_getD]
    have hdrop' := hdrop
    simp only [List.getD_eq_getElem?_getD] at hdrop'
    unfold substLetter
    rcases hbin (t / m) with h | h <;> rcases hbin (n + t / m) with h' | h' <;> rw [h, h'] <;> simp [hdrop', hrep']

end PyQ
