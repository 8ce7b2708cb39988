import Verif.Lemmas.HaarMoments

/-!
# What the rounds of the two-design do to an operator of two copies of the register
-/

namespace PyQ

open Spec

variable {N : ℕ}

/-- The sum of the entries `⟨ab|M|ab⟩` with `a + b = w`. -/
noncomputable def sumA (M : Tab N) (w : Fin N → ZMod 2) : ℂ := ∑ a, M a (a + w) a (a + w)

/-- The sum of the entries `⟨ab|M|ba⟩` with `a + b = w`. -/
noncomputable def sumB (M : Tab N) (w : Fin N → ZMod 2) : ℂ := ∑ a, M a (a + w) (a + w) a

theorem sumB_zero (M : Tab N) : sumB M 0 = sumA M 0 := by
  simp [sumA, sumB]

theorem bits_self (a : Fin N → ZMod 2) : a + a = 0 := (bits_add_eq_zero a a).mpr rfl

theorem bits_cancel (a w : Fin N → ZMod 2) : a + (a + w) = w := by rw [← add_assoc, bits_self, zero_add]

/-- A sum over pairs, sorted by the sum of the pair. -/
theorem sum_bitPairs (f : (Fin N → ZMod 2) → (Fin N → ZMod 2) → ℂ) : ∑ a, ∑ b, f a b = ∑ w, ∑ a, f a (a + w) := by
  conv_rhs => rw [Finset.sum_comm]
  apply Finset.sum_congr rfl; intro a _
  exact (Equiv.sum_comp (Equiv.addLeft a) (f a)).symm

theorem pair_split (M : Tab N) (a b a' b' : Fin N → ZMod 2) :
    pairInd a b a' b' * M a b a' b' =
      (if a = a' then if b = b' then M a b a b else 0 else 0) + (if b = a' then if a = b' then M a b b a else 0 else 0) -
        if a = b then if a = a' then if a = b' then M a a a a else 0 else 0 else 0 := by
  unfold pairInd
  by_cases hp : a' = a ∧ b' = b ∨ a' = b ∧ b' = a
  · rcases hp with ⟨rfl, rfl⟩ | ⟨rfl, rfl⟩
    · by_cases h : a' = b'
      · subst h
        simp
      · simp [h, Ne.symm h]
    · by_cases h : a' = b'
      · subst h
        simp
      · simp [h, Ne.symm h]
  · rw [if_neg hp, zero_mul]
    have h1 : (if a = a' then if b = b' then M a b a b else 0 else 0) = 0 := by
      split_ifs with h1 h2
      · exact absurd (Or.inl ⟨h1.symm, h2.symm⟩) hp
      all_goals rfl
    have h2 : (if b = a' then if a = b' then M a b b a else 0 else 0) = 0 := by
      split_ifs with h1 h2
      · exact absurd (Or.inr ⟨h1.symm, h2.symm⟩) hp
      all_goals rfl
    have h3 : (if a = b then if a = a' then if a = b' then M a a a a else 0 else 0 else 0) = 0 := by
      split_ifs with h1 h2 h3
      · exact absurd (Or.inl ⟨h2.symm, h3.symm.trans h1⟩) hp
      all_goals rfl
    rw [h1, h2, h3]
    ring

theorem roundTab_pairs (M : Tab N) (x y x' y' : Fin N → ZMod 2) :
    roundTab M x y x' y' = ((2 : ℂ) ^ N)⁻¹ ^ 2 * ((∑ a, ∑ b, chi (x + x') a * chi (y + y') b * M a b a b) +
      (∑ a, ∑ b, chi (x + y') a * chi (y + x') b * M a b b a) - ∑ a, chi (x + y + x' + y') a * M a a a a) := by
  unfold roundTab
  simp only [pair_split]
  simp only [mul_add _ (ite _ _ _), mul_sub, mul_ite, mul_zero, Finset.sum_add_distrib, Finset.sum_sub_distrib,
    Finset.sum_ite_irrel, Finset.sum_const_zero, Finset.sum_ite_eq, Finset.mem_univ, if_true]
  have h1 : ∑ a, ∑ b, chi x a * chi y b * chi x' a * chi y' b * M a b a b =
      ∑ a, ∑ b, chi (x + x') a * chi (y + y') b * M a b a b := by
    apply Finset.sum_congr rfl; intro a _
    apply Finset.sum_congr rfl; intro b _
    rw [chi_add, chi_add]
    ring
  have h2 : ∑ a, ∑ b, chi x a * chi y b * chi x' b * chi y' a * M a b b a =
      ∑ a, ∑ b, chi (x + y') a * chi (y + x') b * M a b b a := by
    apply Finset.sum_congr rfl; intro a _
    apply Finset.sum_congr rfl; intro b _
    rw [chi_add, chi_add]
    ring
  have h3 : ∑ a, chi x a * chi y a * chi x' a * chi y' a * M a a a a = ∑ a, chi (x + y + x' + y') a * M a a a a := by
    apply Finset.sum_congr rfl; intro a _
    rw [chi_add, chi_add, chi_add]
  rw [h1, h2, h3]

/-- The entries `⟨xy|·|xy⟩` after a round, as a function of `x + y`. -/
noncomputable def nextA (M : Tab N) (w : Fin N → ZMod 2) : ℂ :=
  ((2 : ℂ) ^ N)⁻¹ ^ 2 * (∑ v, sumA M v + ∑ v, chi w v * sumB M v - sumA M 0)

/-- The entries `⟨xy|·|yx⟩` after a round, as a function of `x + y`. -/
noncomputable def nextB (M : Tab N) (w : Fin N → ZMod 2) : ℂ :=
  ((2 : ℂ) ^ N)⁻¹ ^ 2 * (∑ v, chi w v * sumA M v + ∑ v, sumB M v - sumA M 0)

theorem chi_zero_left (a : Fin N → ZMod 2) : chi 0 a = 1 := by rw [chi_comm, chi_zero]

theorem chi_pair (w a v : Fin N → ZMod 2) : chi w a * chi w (a + v) = chi w v := by
  rw [chi_comm w a, chi_comm w (a + v), ← chi_add, bits_cancel, chi_comm]

theorem roundTab_diag (M : Tab N) (x y : Fin N → ZMod 2) : roundTab M x y x y = nextA M (x + y) := by
  rw [roundTab_pairs, nextA, bits_self, bits_self, bits_pair_cancel]
  simp only [chi_zero_left, one_mul]
  rw [sum_bitPairs fun a b => M a b a b, sum_bitPairs fun a b => chi (x + y) a * chi (y + x) b * M a b b a]
  congr 3
  · apply Finset.sum_congr rfl; intro v _
    unfold sumB
    rw [Finset.mul_sum]
    apply Finset.sum_congr rfl; intro a _
    rw [add_comm y x, chi_pair]
  · simp [sumA]

theorem roundTab_cross (M : Tab N) (x y : Fin N → ZMod 2) : roundTab M x y y x = nextB M (x + y) := by
  rw [roundTab_pairs, nextB, bits_self, bits_self, bits_pair_cancel']
  simp only [chi_zero_left, one_mul]
  rw [sum_bitPairs fun a b => M a b b a, sum_bitPairs fun a b => chi (x + y) a * chi (y + x) b * M a b a b]
  congr 3
  · apply Finset.sum_congr rfl; intro v _
    unfold sumA
    rw [Finset.mul_sum]
    apply Finset.sum_congr rfl; intro a _
    rw [add_comm y x, chi_pair]
  · simp [sumA]

theorem card_bits_c : (Fintype.card (Fin N → ZMod 2) : ℂ) = 2 ^ N := by
  simp [ZMod.card]

theorem sumA_round (M : Tab N) (w : Fin N → ZMod 2) : sumA (roundTab M) w = 2 ^ N * nextA M w := by
  unfold sumA
  simp only [roundTab_diag, bits_cancel, Finset.sum_const, Finset.card_univ, nsmul_eq_mul, card_bits_c]

theorem sumB_round (M : Tab N) (w : Fin N → ZMod 2) : sumB (roundTab M) w = 2 ^ N * nextB M w := by
  unfold sumB
  simp only [roundTab_cross, bits_cancel, Finset.sum_const, Finset.card_univ, nsmul_eq_mul, card_bits_c]

/-- Fourier inversion. -/
theorem chi_inverse (g : (Fin N → ZMod 2) → ℂ) (w : Fin N → ZMod 2) :
    ∑ v, chi w v * ∑ u, chi v u * g u = 2 ^ N * g w := by
  simp only [Finset.mul_sum]
  rw [Finset.sum_comm]
  have h : ∀ u, ∑ v, chi w v * (chi v u * g u) = if w = u then 2 ^ N * g u else 0 := by
    intro u
    have h1 : ∀ v, chi w v * (chi v u * g u) = (chi u v * chi w v) * g u := fun v => by rw [chi_comm v u]; ring
    simp only [h1]
    rw [← Finset.sum_mul, chi_prod_sum]
    split_ifs <;> simp
  simp only [h, Finset.sum_ite_eq, Finset.mem_univ, if_true]

theorem two_pow_ne : (2 : ℂ) ^ N ≠ 0 := pow_ne_zero _ (by norm_num)

theorem total_A (M : Tab N) : ∑ w, sumA (roundTab M) w = ∑ w, sumA M w := by
  have hd := two_pow_ne (N := N)
  simp only [sumA_round, nextA]
  rw [← Finset.mul_sum, ← Finset.mul_sum]
  have h := chi_inverse (sumB M) 0
  simp only [chi_zero_left, one_mul] at h
  simp only [Finset.sum_sub_distrib, Finset.sum_add_distrib, h, Finset.sum_const, Finset.card_univ, nsmul_eq_mul, card_bits_c,
    sumB_zero]
  field_simp
  ring

theorem total_B (M : Tab N) : ∑ w, sumB (roundTab M) w = ∑ w, sumB M w := by
  have hd := two_pow_ne (N := N)
  simp only [sumB_round, nextB]
  rw [← Finset.mul_sum, ← Finset.mul_sum]
  have h := chi_inverse (sumA M) 0
  simp only [chi_zero_left, one_mul] at h
  simp only [Finset.sum_sub_distrib, Finset.sum_add_distrib, h, Finset.sum_const, Finset.card_univ, nsmul_eq_mul, card_bits_c]
  field_simp
  ring

/-- The entry `⟨aa|·|aa⟩` after a round. -/
theorem next_zero (M : Tab N) : nextA M 0 = ((2 : ℂ) ^ N)⁻¹ ^ 2 * (∑ v, sumA M v + ∑ v, sumB M v - sumA M 0) := by
  simp [nextA, chi_zero_left]

/-- Two rounds. -/
theorem twoRounds_A (M : Tab N) {w : Fin N → ZMod 2} (hw : w ≠ 0) :
    nextA (roundTab M) w = ((2 : ℂ) ^ N)⁻¹ ^ 2 * (sumA M w + ∑ v, sumA M v - 2 ^ N * nextA M 0) := by
  have hd := two_pow_ne (N := N)
  have h : ∑ v, chi w v * sumB (roundTab M) v = sumA M w := by
    simp only [sumB_round, nextB]
    have h1 : ∀ v, chi w v * (2 ^ N * (((2 : ℂ) ^ N)⁻¹ ^ 2 * (∑ u, chi v u * sumA M u + ∑ u, sumB M u - sumA M 0))) =
        ((2 : ℂ) ^ N)⁻¹ * (chi w v * ∑ u, chi v u * sumA M u) + ((2 : ℂ) ^ N)⁻¹ * (∑ u, sumB M u - sumA M 0) * chi w v := by
      intro v
      field_simp
      ring
    simp only [h1]
    rw [Finset.sum_add_distrib, ← Finset.mul_sum, ← Finset.mul_sum, chi_inverse, chi_sum, if_neg hw]
    field_simp
    ring
  unfold nextA
  rw [h, total_A, sumA_round]
  unfold nextA
  ring

theorem twoRounds_B (M : Tab N) {w : Fin N → ZMod 2} (hw : w ≠ 0) :
    nextB (roundTab M) w = ((2 : ℂ) ^ N)⁻¹ ^ 2 * (sumB M w + ∑ v, sumB M v - 2 ^ N * nextA M 0) := by
  have hd := two_pow_ne (N := N)
  have h : ∑ v, chi w v * sumA (roundTab M) v = sumB M w := by
    simp only [sumA_round, nextA]
    have h1 : ∀ v, chi w v * (2 ^ N * (((2 : ℂ) ^ N)⁻¹ ^ 2 * (∑ u, sumA M u + ∑ u, chi v u * sumB M u - sumA M 0))) =
        ((2 : ℂ) ^ N)⁻¹ * (chi w v * ∑ u, chi v u * sumB M u) + ((2 : ℂ) ^ N)⁻¹ * (∑ u, sumA M u - sumA M 0) * chi w v := by
      intro v
      field_simp
      ring
    simp only [h1]
    rw [Finset.sum_add_distrib, ← Finset.mul_sum, ← Finset.mul_sum, chi_inverse, chi_sum, if_neg hw]
    field_simp
    ring
  unfold nextB
  rw [h, total_B, sumA_round]

/-- The coefficient by which an entry `⟨ab|·|ab⟩` adds to the entries `⟨aa|·|aa⟩` in `2l` rounds. -/
noncomputable def leak (N : ℕ) : ℕ → ℝ
  | 0 => 0
  | l + 1 => (((2 : ℝ) ^ N) ^ l)⁻¹ * ((2 : ℝ) ^ N)⁻¹ ^ 2 + leak N l * ((2 : ℝ) ^ N)⁻¹ ^ 2

/-- What is left on the entries `⟨aa|·|aa⟩` after `2l` rounds. -/
noncomputable def restC (M : Tab N) (l : ℕ) : ℂ :=
  leak N l * (∑ v, sumA M v + ∑ v, sumB M v - 2 * sumA M 0) + (((2 : ℂ) ^ N) ^ (2 * l))⁻¹ * sumA M 0

theorem restC_succ (M : Tab N) (l : ℕ) : restC M (l + 1) =
    (restC M l + (((2 : ℂ) ^ N) ^ l)⁻¹ * (∑ v, sumA M v + ∑ v, sumB M v - 2 * sumA M 0)) * ((2 : ℂ) ^ N)⁻¹ ^ 2 := by
  unfold restC
  rw [leak, show 2 * (l + 1) = 2 * l + 2 from by ring, pow_add]
  push_cast
  rw [mul_inv, inv_pow ((2 : ℂ) ^ N) 2]
  ring

theorem sum_ne_zero_add (g h : (Fin N → ZMod 2) → ℂ) (a k c : ℂ) (hw : ∀ w ≠ 0, g w = a * h w + k) (h0 : g 0 = c) :
    ∑ w, g w = a * (∑ w, h w - h 0) + (2 ^ N - 1) * k + c := by
  rw [← Finset.add_sum_erase Finset.univ g (Finset.mem_univ 0), ← Finset.add_sum_erase Finset.univ h (Finset.mem_univ 0), h0]
  have h1 : ∑ w ∈ Finset.univ.erase 0, g w = ∑ w ∈ Finset.univ.erase 0, (a * h w + k) :=
    Finset.sum_congr rfl fun w hw' => hw w (Finset.ne_of_mem_erase hw')
  rw [h1, Finset.sum_add_distrib, ← Finset.mul_sum, Finset.sum_const, Finset.card_erase_of_mem (Finset.mem_univ 0),
    nsmul_eq_mul, Finset.card_univ, Nat.cast_sub Fintype.card_pos, card_bits_c]
  push_cast
  ring

/-- The sums after `2l` rounds: up to the sums of `p·1 + q·F` only a small rest is left. -/
theorem evenRounds_sums (M : Tab N) (l : ℕ) : ∃ p q : ℂ,
    (∀ w ≠ 0, sumA (roundTab^[2 * l] M) w = (((2 : ℂ) ^ N) ^ l)⁻¹ * sumA M w + 2 ^ N * p) ∧
    (∀ w ≠ 0, sumB (roundTab^[2 * l] M) w = (((2 : ℂ) ^ N) ^ l)⁻¹ * sumB M w + 2 ^ N * q) ∧
    sumA (roundTab^[2 * l] M) 0 = 2 ^ N * (p + q) + restC M l ∧
    ∑ w, sumA (roundTab^[2 * l] M) w = ∑ w, sumA M w ∧ ∑ w, sumB (roundTab^[2 * l] M) w = ∑ w, sumB M w := by
  have hd := two_pow_ne (N := N)
  induction l with
  | zero => exact ⟨0, 0, by simp, by simp, by simp [restC, leak], by simp, by simp⟩
  | succ l ih =>
    obtain ⟨p, q, hA, hB, h0, htA, htB⟩ := ih
    have hit : roundTab^[2 * (l + 1)] M = roundTab (roundTab (roundTab^[2 * l] M)) := by
      rw [show 2 * (l + 1) = 2 * l + 1 + 1 from by ring, Function.iterate_succ_apply', Function.iterate_succ_apply']
    set L := roundTab^[2 * l] M with hL
    rw [hit]
    have hsA := sum_ne_zero_add (sumA L) (sumA M) _ _ _ hA h0
    have hsB := sum_ne_zero_add (sumB L) (sumB M) _ _ _ hB ((sumB_zero L).trans h0)
    rw [htA] at hsA
    rw [htB, sumB_zero] at hsB
    refine ⟨((2 : ℂ) ^ N)⁻¹ ^ 2 * (2 ^ N * p + ∑ v, sumA L v - 2 ^ N * nextA L 0),
      ((2 : ℂ) ^ N)⁻¹ ^ 2 * (2 ^ N * q + ∑ v, sumB L v - 2 ^ N * nextA L 0), ?_, ?_, ?_, ?_, ?_⟩
    · intro w hw
      rw [sumA_round, twoRounds_A _ hw, hA w hw, pow_succ]
      field_simp
      ring
    · intro w hw
      rw [sumB_round, twoRounds_B _ hw, hB w hw, pow_succ]
      field_simp
      ring
    · rw [sumA_round, next_zero, total_A, total_B, sumA_round, next_zero, h0, htA, htB]
      rw [restC_succ]
      generalize restC M l = R at *
      generalize (((2 : ℂ) ^ N) ^ l)⁻¹ = D at *
      generalize ∑ v, sumA M v = t at *
      generalize ∑ v, sumB M v = f at *
      generalize sumA M 0 = c at *
      generalize (2 : ℂ) ^ N = d at *
      have h : t + f - 2 * (d * (p + q) + R) - D * (t + f - 2 * c) - (d - 1) * (d * (p + q)) = 0 := by
        linear_combination hsA + hsB
      field_simp
      linear_combination h
    · rw [total_A, total_A, htA]
    · rw [total_B, total_B, htB]

/-- The table of the identity. -/
def tabI : Tab N := fun x y x' y' => if x' = x ∧ y' = y then 1 else 0

/-- The table of the swap of the two copies. -/
def tabF : Tab N := fun x y x' y' => if x' = y ∧ y' = x then 1 else 0

/-- The rest after `2l` rounds. -/
noncomputable def restTab (M : Tab N) (l : ℕ) : Tab N := fun x y x' y' =>
  (if x ≠ y ∧ x' = x ∧ y' = y then (((2 : ℂ) ^ N) ^ l)⁻¹ * ((2 : ℂ) ^ N)⁻¹ * sumA M (x + y) else 0) +
  (if x ≠ y ∧ x' = y ∧ y' = x then (((2 : ℂ) ^ N) ^ l)⁻¹ * ((2 : ℂ) ^ N)⁻¹ * sumB M (x + y) else 0) +
  if x = y ∧ x' = x ∧ y' = x then ((2 : ℂ) ^ N)⁻¹ * restC M l else 0

theorem roundTab_add (M M' : Tab N) (x y x' y' : Fin N → ZMod 2) :
    roundTab (fun x y x' y' => M x y x' y' + M' x y x' y') x y x' y' = roundTab M x y x' y' + roundTab M' x y x' y' := by
  unfold roundTab
  simp only [mul_add, Finset.sum_add_distrib]

theorem roundTab_smul (c : ℂ) (M : Tab N) (x y x' y' : Fin N → ZMod 2) :
    roundTab (fun x y x' y' => c * M x y x' y') x y x' y' = c * roundTab M x y x' y' := by
  unfold roundTab
  simp only [mul_left_comm _ c, ← Finset.mul_sum]

theorem roundTab_I (x y x' y' : Fin N → ZMod 2) : roundTab tabI x y x' y' = tabI x y x' y' := by
  have hd := two_pow_ne (N := N)
  rw [roundTab_pairs]
  have h1 : ∀ a b : Fin N → ZMod 2, tabI a b a b = 1 := fun a b => by simp [tabI]
  have h2 : ∀ a b : Fin N → ZMod 2, tabI a b b a = if a = b then 1 else 0 := fun a b => by
    unfold tabI
    by_cases h : a = b
    · simp [h]
    · simp [h, Ne.symm h]
  simp only [h1, h2, mul_one, mul_ite, mul_zero, Finset.sum_ite_eq, Finset.mem_univ, if_true]
  have h3 : ∑ a, ∑ b, chi (x + x') a * chi (y + y') b = (if x + x' = 0 then (2 : ℂ) ^ N else 0) * if y + y' = 0 then 2 ^ N else 0 := by
    rw [← chi_sum, ← chi_sum, Finset.sum_mul_sum]
  have h4 : ∑ a, chi (x + y') a * chi (y + x') a = ∑ a, chi (x + y + x' + y') a := by
    apply Finset.sum_congr rfl; intro a _
    rw [← chi_add]
    congr 1
    abel
  rw [h3, h4, add_sub_cancel_right]
  simp only [bits_add_eq_zero]
  unfold tabI
  by_cases hx : x = x' <;> by_cases hy : y = y'
  · subst hx hy
    simp only [if_true, and_self]
    field_simp
  · simp [hy, Ne.symm hy]
  · simp [hx, Ne.symm hx]
  · simp [hx, Ne.symm hx]

theorem roundTab_F (x y x' y' : Fin N → ZMod 2) : roundTab tabF x y x' y' = tabF x y x' y' := by
  have hd := two_pow_ne (N := N)
  rw [roundTab_pairs]
  have h1 : ∀ a b : Fin N → ZMod 2, tabF a b b a = 1 := fun a b => by simp [tabF]
  have h2 : ∀ a b : Fin N → ZMod 2, tabF a b a b = if a = b then 1 else 0 := fun a b => by
    unfold tabF
    by_cases h : a = b
    · simp [h]
    · simp [h]
  simp only [h1, h2, mul_one, mul_ite, mul_zero, Finset.sum_ite_eq, Finset.mem_univ, if_true]
  have h3 : ∑ a, ∑ b, chi (x + y') a * chi (y + x') b = (if x + y' = 0 then (2 : ℂ) ^ N else 0) * if y + x' = 0 then 2 ^ N else 0 := by
    rw [← chi_sum, ← chi_sum, Finset.sum_mul_sum]
  have h4 : ∑ a, chi (x + x') a * chi (y + y') a = ∑ a, chi (x + y + x' + y') a := by
    apply Finset.sum_congr rfl; intro a _
    rw [← chi_add]
    congr 1
    abel
  rw [h3, h4, add_sub_cancel_left]
  simp only [bits_add_eq_zero]
  unfold tabF
  by_cases hx : x = y' <;> by_cases hy : y = x'
  · subst hx hy
    simp only [if_true, and_self]
    field_simp
  · simp [hy, Ne.symm hy]
  · simp [hx, Ne.symm hx]
  · simp [hx, Ne.symm hx]

/-- An odd number of rounds gives `p·1 + q·F`, up to the rest. -/
theorem oddRounds (M : Tab N) (l : ℕ) : ∃ p q : ℂ, ∀ x y x' y',
    roundTab^[2 * (l + 1) + 1] M x y x' y' =
      p * tabI x y x' y' + q * tabF x y x' y' + roundTab (restTab M (l + 1)) x y x' y' := by
  have hd := two_pow_ne (N := N)
  have hit : roundTab^[2 * (l + 1)] M = roundTab (roundTab (roundTab^[2 * l] M)) := by
    rw [show 2 * (l + 1) = 2 * l + 1 + 1 from by ring, Function.iterate_succ_apply', Function.iterate_succ_apply']
  obtain ⟨p', q', hA', hB', h0', -, -⟩ := evenRounds_sums M (l + 1)
  rw [hit] at hA' hB' h0'
  rw [Function.iterate_succ_apply', hit]
  set L := roundTab (roundTab (roundTab^[2 * l] M)) with hL
  have eA : ∀ x y, L x y x y = nextA (roundTab (roundTab^[2 * l] M)) (x + y) := fun x y => roundTab_diag _ x y
  have eB : ∀ x y, L x y y x = nextB (roundTab (roundTab^[2 * l] M)) (x + y) := fun x y => roundTab_cross _ x y
  have fA : ∀ w ≠ 0, nextA (roundTab (roundTab^[2 * l] M)) w = (((2 : ℂ) ^ N) ^ (l + 1))⁻¹ * ((2 : ℂ) ^ N)⁻¹ * sumA M w + p' := by
    intro w hw
    have := hA' w hw
    rw [hL, sumA_round] at this
    field_simp at this ⊢
    linear_combination this
  have fB : ∀ w ≠ 0, nextB (roundTab (roundTab^[2 * l] M)) w = (((2 : ℂ) ^ N) ^ (l + 1))⁻¹ * ((2 : ℂ) ^ N)⁻¹ * sumB M w + q' := by
    intro w hw
    have := hB' w hw
    rw [hL, sumB_round] at this
    field_simp at this ⊢
    linear_combination this
  have f0 : nextA (roundTab (roundTab^[2 * l] M)) 0 = p' + q' + ((2 : ℂ) ^ N)⁻¹ * restC M (l + 1) := by
    have := h0'
    rw [hL, sumA_round] at this
    field_simp
    linear_combination this
  refine ⟨p', q', fun x y x' y' => ?_⟩
  rw [← roundTab_I x y x' y', ← roundTab_F x y x' y', ← roundTab_smul, ← roundTab_smul, ← roundTab_add, ← roundTab_add]
  refine congrFun (congrFun (congrFun (congrFun (roundTab_congr ?_) x) y) x') y'
  intro a b a' b'
  by_cases hp : a' = a ∧ b' = b ∨ a' = b ∧ b' = a
  · congr 1
    have hne : ∀ {u v : Fin N → ZMod 2}, u ≠ v → u + v ≠ 0 := fun h h' => h ((bits_add_eq_zero _ _).mp h')
    rcases hp with ⟨rfl, rfl⟩ | ⟨rfl, rfl⟩
    · rw [eA]
      by_cases h : a' = b'
      · subst h
        rw [bits_self, f0]
        simp [restTab, tabI, tabF]
      · rw [fA _ (hne h)]
        simp [restTab, tabI, tabF, h]
        ring
    · rw [eB]
      by_cases h : b' = a'
      · subst h
        rw [← eB, eA, bits_self, f0]
        simp [restTab, tabI, tabF]
      · rw [fB _ (hne h)]
        simp [restTab, tabI, tabF, h, Ne.symm h]
        ring
  · simp [pairInd, hp]

end PyQ
