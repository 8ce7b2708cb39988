import Verif.Props.Device

/-!
# C54, C55: the circuit of the two-design
-/

namespace PyQ

open Spec

variable {N : ℕ}

/-! ### Specification -/

/-- The phase of the basis state `y` under the diagonal gates of one round: `2π/3 · a i` for every qubit `i` that is
one, and `π` for every ordered pair of distinct qubits that are both one and for which `c` holds. -/
noncomputable def Spec.diagPhase (a : Fin N → Fin 3) (c : Fin N → Fin N → Bool) (y : Fin N → ZMod 2) : ℝ :=
  (∑ i, if y i = 1 then 2 * Real.pi / 3 * (a i : ℕ) else 0) +
    ∑ i, ∑ j, if i ≠ j ∧ y i = 1 ∧ y j = 1 ∧ c i j then Real.pi else 0

/-- Diagonal phases followed by the Hadamard transform of all qubits. -/
noncomputable def Spec.diagHadamard (θ : (Fin N → ZMod 2) → ℝ) (ψ : Amp N) : Amp N := fun x =>
  ((Real.sqrt 2 : ℝ) : ℂ)⁻¹ ^ N * ∑ y, sgn (∑ i, x i * y i) * (Complex.exp (θ y * Complex.I) * ψ y)

/-! ### The diagonal part -/

/-- The angle a phase gate adds at a basis state. -/
noncomputable def gateAngle (y : Fin N → ZMod 2) : DGate → ℝ
  | .R c θ w => if (∀ i ∈ c, bitAt y i = 1) ∧ bitAt y w = 1 then θ else 0
  | .H _ => 0

theorem run_phases {ι : Type} (l : List ι) (c : ι → Option ℕ) (θ : ι → ℝ) (w : ι → ℕ) (ψ : Amp N)
    (y : Fin N → ZMod 2) :
    runD (l.map fun i => DGate.R (c i) (θ i) (w i)) ψ y =
      Complex.exp (((l.map fun i => gateAngle y (.R (c i) (θ i) (w i))).sum : ℝ) * Complex.I) * ψ y := by
  induction l generalizing ψ with
  | nil => simp [runD]
  | cons i l ih =>
    rw [List.map_cons, runD_cons, ih, List.map_cons, List.sum_cons, Complex.ofReal_add, add_mul, Complex.exp_add]
    simp only [applyD, gateAngle]
    split_ifs
    · ring
    · simp

theorem sum_range_fin (f : ℕ → ℝ) : ((List.range N).map f).sum = ∑ i : Fin N, f i := by
  rw [← Finset.sum_range]
  induction N with
  | zero => rfl
  | succ n ih => simp [List.range_succ, Finset.sum_range_succ, ih]

theorem sum_filter_real (l : List ℕ) (p : ℕ → Bool) (f : ℕ → ℝ) :
    ((l.filter p).map f).sum = (l.map fun j => if p j then f j else 0).sum := by
  induction l with
  | nil => rfl
  | cons a l ih =>
    rw [List.filter_cons]
    split_ifs with h <;> simp [h, ih]

theorem sum_flatMap_real (l : List ℕ) (g : ℕ → List (ℕ × ℕ)) (f : ℕ × ℕ → ℝ) :
    ((l.flatMap g).map f).sum = (l.map fun i => ((g i).map f).sum).sum := by
  induction l with
  | nil => rfl
  | cons a l ih => simp [ih]

theorem sum_pairs (f : ℕ × ℕ → ℝ) :
    ((pairs N).map f).sum = ∑ i : Fin N, ∑ j : Fin N, if i ≠ j then f (i, j) else 0 := by
  unfold pairs
  rw [sum_flatMap_real, sum_range_fin]
  apply Finset.sum_congr rfl; intro i _
  rw [List.map_map, sum_filter_real, sum_range_fin]
  apply Finset.sum_congr rfl; intro j _
  simp [Fin.ext_iff]

/-! ### The Hadamard gates -/

theorem run_H (m : ℕ) (hm : m ≤ N) (ψ : Amp N) (x : Fin N → ZMod 2) :
    runD ((List.range m).map DGate.H) ψ x = ((Real.sqrt 2 : ℝ) : ℂ)⁻¹ ^ m *
      ∑ y, if ∀ i : Fin N, m ≤ i.val → y i = x i then sgn (∑ i, if i.val < m then x i * y i else 0) * ψ y else 0 := by
  induction m generalizing x with
  | zero =>
    simp only [List.range_zero, List.map_nil, runD_nil, pow_zero, one_mul, Nat.zero_le, true_imp_iff, not_lt_zero,
      if_false, Finset.sum_const_zero, sgn_zero]
    rw [Finset.sum_eq_single x]
    · simp
    · intro y _ hy
      rw [if_neg]
      intro h
      exact hy (funext h)
    · simp
  | succ m ih =>
    rw [List.range_succ, List.map_append, runD_append, List.map_singleton, runD_cons, runD_nil, applyH]
    simp only [ih (by omega), opMat_H]
    rw [pow_succ, mul_assoc (_ ^ m)]
    simp only [Finset.mul_sum]
    rw [Finset.sum_comm]
    apply Finset.sum_congr rfl; intro y _
    have hmN : m < N := by omega
    rw [Finset.sum_eq_single (y ⟨m, hmN⟩)]
    · by_cases h : ∀ i : Fin N, m + 1 ≤ i.val → y i = x i
      · rw [if_pos h, if_pos]
        · have hs : (sgn (bitAt x m * y ⟨m, hmN⟩) : ℂ) *
              sgn (∑ i : Fin N, if i.val < m then setBit x m (y ⟨m, hmN⟩) i * y i else 0) =
              sgn (∑ i : Fin N, if i.val < m + 1 then x i * y i else 0) := by
            rw [← sgn_add]
            congr 1
            rw [bitAt_of_lt x hmN]
            rw [show x ⟨m, hmN⟩ * y ⟨m, hmN⟩ = ∑ i : Fin N, if i = ⟨m, hmN⟩ then x i * y i else 0 by simp]
            rw [← Finset.sum_add_distrib]
            apply Finset.sum_congr rfl; intro i _
            simp only [setBit]
            by_cases h1 : i.val = m
            · have : i = ⟨m, hmN⟩ := Fin.ext h1
              subst this
              simp
            · have h2 : i ≠ ⟨m, hmN⟩ := fun h => h1 (congrArg Fin.val h)
              rw [if_neg h2, zero_add]
              by_cases h3 : i.val < m
              · rw [if_neg h1, if_pos h3, if_pos (by omega)]
              · rw [if_neg h3, if_neg (by omega)]
          rw [← hs]
          ring
        · intro i hi
          simp only [setBit]
          split_ifs with h1
          · congr 1
            exact Fin.ext h1
          · exact h i (by omega)
      · rw [if_neg h, if_neg]
        · simp
        · intro h'
          apply h
          intro i hi
          rw [h' i (by omega)]
          simp only [setBit]
          rw [if_neg (by omega)]
    · intro v _ hv
      rw [if_neg]
      · simp
      · intro h
        apply hv
        rw [h ⟨m, hmN⟩ le_rfl]
        simp [setBit]
    · simp

/-! ### C54 -/

theorem designRound_run (d : Draws) (r : ℕ) (ψ : Amp N) :
    runD (designRound N d r).1 ψ =
      Spec.diagHadamard (Spec.diagPhase (fun i => d.single r i) fun i j => d.ctrl r i j) ψ := by
  rw [designRound_eq]
  funext x
  simp only
  rw [runD_append, runD_append]
  unfold allH
  rw [run_H N le_rfl]
  unfold Spec.diagHadamard
  congr 1
  apply Finset.sum_congr rfl; intro y _
  rw [if_pos (fun i hi => absurd i.2 (by omega))]
  congr 1
  · congr 1
    apply Finset.sum_congr rfl; intro i _
    rw [if_pos i.2]
  · rw [run_phases, run_phases, ← mul_assoc, ← Complex.exp_add, ← add_mul, ← Complex.ofReal_add]
    congr 4
    rw [sum_range_fin, sum_pairs, add_comm]
    unfold Spec.diagPhase
    congr 1
    · apply Finset.sum_congr rfl; intro i _
      simp only [gateAngle, bitAt_fin]
      by_cases h : y i = 1
      · rw [if_pos ⟨by simp, h⟩, if_pos h]
        unfold singleAngle designPhases
        generalize d.single r i = a
        fin_cases a <;> simp
        ring
      · rw [if_neg (fun h' => h h'.2), if_neg h]
    · apply Finset.sum_congr rfl; intro i _
      apply Finset.sum_congr rfl; intro j _
      simp only [gateAngle, bitAt_fin, ctrlAngle]
      by_cases h : i = j
      · rw [if_neg (by simpa using h), if_neg (fun h' => h'.1 h)]
      · rw [if_pos h]
        by_cases h1 : y i = 1 <;> by_cases h2 : y j = 1 <;> by_cases h3 : d.ctrl r i j <;>
          simp [h, h1, h2, h3, bitAt_fin]

/-- C54.  `approximate_unitary_two_design` applies `2 ⌈log₂(1/ε)/N⌉ + 1` rounds; round `r` multiplies the amplitude
of each basis state with the random phase `diagPhase` and then applies the Hadamard transform. -/
theorem C54_circuit {epsilon : ℝ} {d : Draws} {gs : List DGate} {phases : List (List ℝ)}
    (h : twoDesign N epsilon d = .ok (gs, phases)) (ψ : Amp N) :
    runD gs ψ = (List.range (2 * ⌈Real.logb 2 (1 / epsilon) / N⌉ + 1).toNat).foldl
      (fun ψ r => Spec.diagHadamard (Spec.diagPhase (fun i => d.single r i) fun i j => d.ctrl r i j) ψ) ψ := by
  obtain ⟨h1, h2⟩ := (C42_accepted (N := N) epsilon d).mp ⟨_, h⟩
  unfold twoDesign numbTimes at h
  rw [if_neg h1.ne', if_neg (not_lt.mpr h1.le), if_neg h2.ne'] at h
  injection h with h
  have hg := congrArg Prod.fst h
  simp only at hg
  rw [← hg, List.map_map]
  generalize (2 * ⌈Real.logb 2 (1 / epsilon) / N⌉ + 1).toNat = m
  induction m with
  | zero => rfl
  | succ m ih =>
    rw [List.range_succ, List.map_append, List.flatten_append, runD_append, List.foldl_append, ← ih]
    simp only [List.map_cons, List.map_nil, List.flatten_cons, List.flatten_nil, List.append_nil, Function.comp_apply,
      List.foldl_cons, List.foldl_nil]
    exact designRound_run d m _

/-! ### C55: the diagonal gates are an exact diagonal two-design -/

/-- The bit as a number. -/
def bit (v : ZMod 2) : ℤ := if v = 1 then 1 else 0

theorem avg_single (t : ℤ) (ht : |t| ≤ 2) :
    ∑ a : Fin 3, Complex.exp ((2 * Real.pi / 3 * (a : ℕ) * t : ℝ) * Complex.I) = if t = 0 then 3 else 0 := by
  set z := Complex.exp ((2 * Real.pi / 3 * t : ℝ) * Complex.I) with hz
  have h1 : ∀ a : Fin 3, Complex.exp ((2 * Real.pi / 3 * (a : ℕ) * t : ℝ) * Complex.I) = z ^ (a : ℕ) := by
    intro a
    rw [hz, ← Complex.exp_nat_mul]
    congr 1
    push_cast
    ring
  simp only [h1, Fin.sum_univ_three]
  have h3 : z ^ 3 = 1 := by
    rw [hz, ← Complex.exp_nat_mul]
    rw [show (((3 : ℕ) : ℂ) * ((2 * Real.pi / 3 * t : ℝ) * Complex.I)) = t * (2 * Real.pi * Complex.I) by
      push_cast; ring]
    exact Complex.exp_int_mul_two_pi_mul_I t
  split_ifs with h0
  · have : z = 1 := by rw [hz, h0]; simp
    rw [this]
    norm_num
  · have hne : z ≠ 1 := by
      rw [hz, Ne, Complex.exp_eq_one_iff]
      rintro ⟨n, hn⟩
      have hpi : (Real.pi : ℂ) ≠ 0 := by exact_mod_cast Real.pi_ne_zero
      have h2 : (t : ℂ) = 3 * n := by
        have : (2 * Real.pi * Complex.I) * ((t : ℂ) - 3 * n) = 0 := by
          push_cast at hn
          linear_combination 3 * hn
        rcases mul_eq_zero.mp this with h | h
        · simp [hpi] at h
        · linear_combination h
      have h2' : t = 3 * n := by exact_mod_cast h2
      rw [abs_le] at ht
      omega
    have h4 : (z - 1) * (1 + z + z ^ 2) = 0 := by linear_combination h3
    rcases mul_eq_zero.mp h4 with h | h
    · exact absurd (by linear_combination h) hne
    · simp only [Fin.val_zero, pow_zero, Fin.val_one, pow_one, Fin.val_two]
      exact h

theorem avg_ctrl (u : ℤ) :
    ∑ c : Bool, Complex.exp (((if c then Real.pi else 0) * u : ℝ) * Complex.I) = if Even u then 2 else 0 := by
  rw [Fintype.sum_bool]
  simp only [if_true, Bool.false_eq_true, if_false, zero_mul, Complex.ofReal_zero, Complex.exp_zero]
  have h : Complex.exp ((Real.pi * u : ℝ) * Complex.I) = (-1) ^ u := by
    rw [← Complex.exp_pi_mul_I, ← Complex.exp_int_mul]
    congr 1
    push_cast
    ring
  rw [h]
  split_ifs with he
  · rw [he.neg_one_zpow]; norm_num
  · rw [(Int.not_even_iff_odd.mp he).neg_one_zpow]; norm_num

/-- The number of ones among the four bits, with signs. -/
def sgnCount (x y x' y' : Fin N → ZMod 2) (i : Fin N) : ℤ := bit (x i) + bit (y i) - bit (x' i) - bit (y' i)

/-- The number of pairs of ones, with signs. -/
def sgnPairs (x y x' y' : Fin N → ZMod 2) (i j : Fin N) : ℤ :=
  if i ≠ j then bit (x i) * bit (x j) + bit (y i) * bit (y j) - bit (x' i) * bit (x' j) - bit (y' i) * bit (y' j)
  else 0

theorem diagPhase_eq (a : Fin N → Fin 3) (c : Fin N → Fin N → Bool) (y : Fin N → ZMod 2) :
    Spec.diagPhase a c y = (∑ i, 2 * Real.pi / 3 * (a i : ℕ) * bit (y i)) +
      ∑ i, ∑ j, (if c i j then Real.pi else 0) * ((if i ≠ j then bit (y i) * bit (y j) else 0 : ℤ) : ℝ) := by
  unfold Spec.diagPhase bit
  congr 1
  · apply Finset.sum_congr rfl; intro i _
    split_ifs <;> simp
  · apply Finset.sum_congr rfl; intro i _
    apply Finset.sum_congr rfl; intro j _
    by_cases h : i = j <;> by_cases h1 : y i = 1 <;> by_cases h2 : y j = 1 <;> by_cases h3 : c i j <;>
      simp [h, h1, h2, h3]

theorem phase_difference (a : Fin N → Fin 3) (c : Fin N → Fin N → Bool) (x y x' y' : Fin N → ZMod 2) :
    Spec.diagPhase a c x + Spec.diagPhase a c y - Spec.diagPhase a c x' - Spec.diagPhase a c y' =
      (∑ i, 2 * Real.pi / 3 * (a i : ℕ) * sgnCount x y x' y' i) +
        ∑ i, ∑ j, (if c i j then Real.pi else 0) * (sgnPairs x y x' y' i j : ℝ) := by
  simp only [diagPhase_eq]
  have h1 : ∀ i, 2 * Real.pi / 3 * (a i : ℕ) * (sgnCount x y x' y' i : ℝ) =
      2 * Real.pi / 3 * (a i : ℕ) * bit (x i) + 2 * Real.pi / 3 * (a i : ℕ) * bit (y i) -
        2 * Real.pi / 3 * (a i : ℕ) * bit (x' i) - 2 * Real.pi / 3 * (a i : ℕ) * bit (y' i) := by
    intro i; unfold sgnCount; push_cast; ring
  have h2 : ∀ i j, (if c i j then Real.pi else 0) * (sgnPairs x y x' y' i j : ℝ) =
      (if c i j then Real.pi else 0) * ((if i ≠ j then bit (x i) * bit (x j) else 0 : ℤ) : ℝ) +
      (if c i j then Real.pi else 0) * ((if i ≠ j then bit (y i) * bit (y j) else 0 : ℤ) : ℝ) -
      (if c i j then Real.pi else 0) * ((if i ≠ j then bit (x' i) * bit (x' j) else 0 : ℤ) : ℝ) -
      (if c i j then Real.pi else 0) * ((if i ≠ j then bit (y' i) * bit (y' j) else 0 : ℤ) : ℝ) := by
    intro i j
    unfold sgnPairs
    split_ifs <;> push_cast <;> ring
  simp only [h1, h2, Finset.sum_add_distrib, Finset.sum_sub_distrib]
  ring

theorem bits_pair : ∀ a b a' b' c d c' d' : ZMod 2, (bit a + bit b - bit a' - bit b' = 0 ∧
    bit c + bit d - bit c' - bit d' = 0 ∧
    (bit a * bit c + bit b * bit d - bit a' * bit c' - bit b' * bit d') % 2 = 0 ∧ a' ≠ a) → c' = d ∧ d' = c := by
  decide

theorem bits_one : ∀ a b a' b' : ZMod 2, bit a + bit b - bit a' - bit b' = 0 →
    (a' = a → b' = b) ∧ (a' ≠ a → a' = b ∧ b' = a) := by decide

theorem bits_bound : ∀ a b a' b' : ZMod 2, |bit a + bit b - bit a' - bit b'| ≤ 2 := by decide

theorem same_pair (x y x' y' : Fin N → ZMod 2) :
    ((∀ i, sgnCount x y x' y' i = 0) ∧ ∀ i j, Even (sgnPairs x y x' y' i j)) ↔
      x' = x ∧ y' = y ∨ x' = y ∧ y' = x := by
  constructor
  · rintro ⟨h1, h2⟩
    by_cases hx : x' = x
    · left
      exact ⟨hx, funext fun i => (bits_one _ _ _ _ (h1 i)).1 (congrFun hx i)⟩
    · right
      obtain ⟨i, hi⟩ := Function.ne_iff.mp hx
      have key : ∀ j, x' j = y j ∧ y' j = x j := by
        intro j
        by_cases hij : i = j
        · subst hij
          exact (bits_one _ _ _ _ (h1 i)).2 hi
        · have := h2 i j
          unfold sgnPairs at this
          rw [if_pos hij] at this
          exact bits_pair _ _ _ _ _ _ _ _ ⟨h1 i, h1 j, Int.even_iff.mp this, hi⟩
      exact ⟨funext fun j => (key j).1, funext fun j => (key j).2⟩
  · rintro (⟨rfl, rfl⟩ | ⟨rfl, rfl⟩)
    · refine ⟨fun i => by unfold sgnCount; ring, fun i j => ?_⟩
      unfold sgnPairs
      split_ifs
      · ring_nf; exact Even.zero
      · exact Even.zero
    · refine ⟨fun i => by unfold sgnCount; ring, fun i j => ?_⟩
      unfold sgnPairs
      split_ifs
      · ring_nf; exact Even.zero
      · exact Even.zero

/-- C55.  The diagonal gates of a round are exactly a diagonal two-design: over uniform draws, the average of
`exp i(θ(x) + θ(y) - θ(x') - θ(y'))` is one if `x', y'` are `x, y` in some order and zero otherwise, which is the
value for independent uniform phases `θ`.  (`c` also ranges over the pairs `i = j`, which `diagPhase` ignores.) -/
theorem C55_diagonal_design (x y x' y' : Fin N → ZMod 2) :
    (∑ a : Fin N → Fin 3, ∑ c : Fin N → Fin N → Bool,
      Complex.exp ((Spec.diagPhase a c x + Spec.diagPhase a c y - Spec.diagPhase a c x' -
        Spec.diagPhase a c y' : ℝ) * Complex.I)) / (3 ^ N * 2 ^ (N * N)) =
      if x' = x ∧ y' = y ∨ x' = y ∧ y' = x then 1 else 0 := by
  have h1 : ∀ (a : Fin N → Fin 3) (c : Fin N → Fin N → Bool),
      Complex.exp ((Spec.diagPhase a c x + Spec.diagPhase a c y - Spec.diagPhase a c x' -
        Spec.diagPhase a c y' : ℝ) * Complex.I) =
      (∏ i, Complex.exp ((2 * Real.pi / 3 * (a i : ℕ) * sgnCount x y x' y' i : ℝ) * Complex.I)) *
        ∏ i, ∏ j, Complex.exp (((if c i j then Real.pi else 0) * (sgnPairs x y x' y' i j : ℝ) : ℝ) * Complex.I) := by
    intro a c
    rw [phase_difference, Complex.ofReal_add, add_mul, Complex.exp_add]
    simp only [Complex.ofReal_sum, Finset.sum_mul, Complex.exp_sum]
  have h2 : ∑ a : Fin N → Fin 3,
      ∏ i, Complex.exp ((2 * Real.pi / 3 * (a i : ℕ) * sgnCount x y x' y' i : ℝ) * Complex.I) =
      if ∀ i, sgnCount x y x' y' i = 0 then 3 ^ N else 0 := by
    rw [← Fintype.prod_sum fun (i : Fin N) (a : Fin 3) =>
      Complex.exp ((2 * Real.pi / 3 * (a : ℕ) * sgnCount x y x' y' i : ℝ) * Complex.I)]
    have hb : ∀ i, |sgnCount x y x' y' i| ≤ 2 := fun i => bits_bound _ _ _ _
    simp only [fun i => avg_single _ (hb i)]
    rw [Finset.prod_ite_zero]
    simp
  have h3 : ∑ c : Fin N → Fin N → Bool, ∏ i, ∏ j,
      Complex.exp (((if c i j then Real.pi else 0) * (sgnPairs x y x' y' i j : ℝ) : ℝ) * Complex.I) =
      if ∀ i j, Even (sgnPairs x y x' y' i j) then 2 ^ (N * N) else 0 := by
    rw [← Fintype.prod_sum fun (i : Fin N) (c : Fin N → Bool) => ∏ j,
      Complex.exp (((if c j then Real.pi else 0) * (sgnPairs x y x' y' i j : ℝ) : ℝ) * Complex.I)]
    have : ∀ i, ∑ c : Fin N → Bool, ∏ j,
        Complex.exp (((if c j then Real.pi else 0) * (sgnPairs x y x' y' i j : ℝ) : ℝ) * Complex.I) =
        if ∀ j, Even (sgnPairs x y x' y' i j) then 2 ^ N else 0 := by
      intro i
      rw [← Fintype.prod_sum fun (j : Fin N) (c : Bool) =>
        Complex.exp (((if c then Real.pi else 0) * (sgnPairs x y x' y' i j : ℝ) : ℝ) * Complex.I)]
      simp only [avg_ctrl]
      rw [Finset.prod_ite_zero]
      simp
    simp only [this]
    rw [Finset.prod_ite_zero]
    simp [pow_mul]
  simp only [h1, ← Finset.mul_sum]
  rw [← Finset.sum_mul, h2, h3]
  by_cases h : x' = x ∧ y' = y ∨ x' = y ∧ y' = x
  · obtain ⟨k1, k2⟩ := (same_pair x y x' y').mpr h
    rw [if_pos h, if_pos k1, if_pos k2, div_self]
    exact mul_ne_zero (pow_ne_zero _ (by norm_num)) (pow_ne_zero _ (by norm_num))
  · rw [if_neg h]
    by_cases k1 : ∀ i, sgnCount x y x' y' i = 0
    · by_cases k2 : ∀ i j, Even (sgnPairs x y x' y' i j)
      · exact absurd ((same_pair x y x' y').mp ⟨k1, k2⟩) h
      · rw [if_neg k2]; simp
    · rw [if_neg k1]; simp

/-- Two draws with different phases at `11`: the circuit does depend on them. -/
example : Spec.diagPhase (N := 2) (fun _ => 0) (fun _ _ => false) 1 ≠
    Spec.diagPhase (N := 2) (fun _ => 0) (fun i j => decide (i = 0 ∧ j = 1)) 1 := by
  simp [Spec.diagPhase, Fin.sum_univ_two]
  exact Real.pi_ne_zero.symm

end PyQ
