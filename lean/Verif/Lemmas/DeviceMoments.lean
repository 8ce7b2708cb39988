import Verif.Props.DeviceDesign
import Verif.Spec.Runs
import Verif.Lemmas.Measure
import Mathlib.Algebra.Order.Chebyshev

/-!
# The second moments of the states prepared by the two-design
-/

namespace PyQ

open Spec Matrix

variable {N : ℕ}

/-- The state after `T` rounds on `|0...0⟩`. -/
noncomputable def designState {T : ℕ} (δ : Fin T → RoundDraw N) : Amp N :=
  (List.range T).foldl (fun ψ r => Spec.diagHadamard
    (Spec.diagPhase (fun i => (drawsOf δ).single r i) fun i j => (drawsOf δ).ctrl r i j) ψ) (ket 0)

theorem drawsOf_single {T : ℕ} (δ : Fin T → RoundDraw N) (r : Fin T) :
    (fun i : Fin N => (drawsOf δ).single r i) = (δ r).1 := by
  funext i
  simp [drawsOf]

theorem drawsOf_ctrl {T : ℕ} (δ : Fin T → RoundDraw N) (r : Fin T) :
    (fun i j : Fin N => (drawsOf δ).ctrl r i j) = (δ r).2 := by
  funext i j
  simp [drawsOf]

theorem foldl_congr_mem {α β : Type} {l : List β} {f g : α → β → α} (h : ∀ a, ∀ b ∈ l, f a b = g a b) (a : α) :
    l.foldl f a = l.foldl g a := by
  induction l generalizing a with
  | nil => rfl
  | cons b l ih =>
    rw [List.foldl_cons, List.foldl_cons, h a b (by simp)]
    exact ih (fun a b hb => h a b (by simp [hb])) _

theorem designState_snoc {T : ℕ} (δ : Fin T → RoundDraw N) (e : RoundDraw N) :
    designState (Fin.snoc δ e : Fin (T + 1) → RoundDraw N) = Spec.diagHadamard (Spec.diagPhase e.1 e.2) (designState δ) := by
  unfold designState
  rw [List.range_succ, List.foldl_append, List.foldl_cons, List.foldl_nil]
  have hT := drawsOf_single (Fin.snoc δ e : Fin (T + 1) → RoundDraw N) (Fin.last T)
  have hT' := drawsOf_ctrl (Fin.snoc δ e : Fin (T + 1) → RoundDraw N) (Fin.last T)
  rw [Fin.val_last, Fin.snoc_last] at hT hT'
  rw [hT, hT']
  congr 1
  apply foldl_congr_mem
  intro ψ r hr
  rw [List.mem_range] at hr
  have h1 := drawsOf_single (Fin.snoc δ e : Fin (T + 1) → RoundDraw N) (Fin.castSucc ⟨r, hr⟩)
  have h2 := drawsOf_ctrl (Fin.snoc δ e : Fin (T + 1) → RoundDraw N) (Fin.castSucc ⟨r, hr⟩)
  rw [Fin.snoc_castSucc] at h1 h2
  have h3 := drawsOf_single δ ⟨r, hr⟩
  have h4 := drawsOf_ctrl δ ⟨r, hr⟩
  simp only [Fin.val_castSucc] at h1 h2
  simp only at h3 h4
  rw [h1, h2, h3, h4]

/-- The number of draws of one round. -/
theorem card_roundDraw : (Fintype.card (RoundDraw N) : ℂ) = 3 ^ N * 2 ^ (N * N) := by
  simp [RoundDraw, ← pow_mul]

/-! ### Characters -/

theorem char_sum (x : Fin N → ZMod 2) : ∑ y : Fin N → ZMod 2, (sgn (∑ i, x i * y i) : ℂ) = if x = 0 then 2 ^ N else 0 := by
  have h : ∀ y : Fin N → ZMod 2, (sgn (∑ i, x i * y i) : ℂ) = ∏ i, (sgn (x i * y i) : ℂ) := fun y => sgn_sum _ _
  simp only [h]
  rw [← Fintype.prod_sum fun (i : Fin N) (v : ZMod 2) => (sgn (x i * v) : ℂ)]
  have h2 : ∀ i, ∑ v : ZMod 2, (sgn (x i * v) : ℂ) = if x i = 0 then 2 else 0 := by
    intro i
    rw [sum_zmod2]
    rcases zmod2_cases (x i) with h | h <;> rw [h] <;> simp
    norm_num
  simp only [h2]
  rw [Finset.prod_ite_zero]
  by_cases hx : x = 0
  · rw [if_pos hx, if_pos (by intro i _; rw [hx]; rfl)]; simp
  · rw [if_neg hx, if_neg]
    intro h
    exact hx (funext fun i => h i (Finset.mem_univ i))

/-- The character of the pair `x`, `y`. -/
noncomputable def chi (x y : Fin N → ZMod 2) : ℂ := sgn (∑ i, x i * y i)

theorem chi_add (x x' y : Fin N → ZMod 2) : chi (x + x') y = chi x y * chi x' y := by
  unfold chi
  rw [← sgn_add, ← Finset.sum_add_distrib]
  congr 1
  apply Finset.sum_congr rfl; intro i _
  rw [Pi.add_apply, add_mul]

theorem chi_sum (x : Fin N → ZMod 2) : ∑ y, chi x y = if x = 0 then 2 ^ N else 0 := char_sum x

theorem chi_star (x y : Fin N → ZMod 2) : (starRingEnd ℂ) (chi x y) = chi x y := conj_sgn _

theorem bits_add_eq_zero (x y : Fin N → ZMod 2) : x + y = 0 ↔ x = y := by
  constructor
  · intro h
    funext i
    have := congrFun h i
    exact (by decide : ∀ a b : ZMod 2, a + b = 0 → a = b) _ _ this
  · rintro rfl
    funext i
    exact (by decide : ∀ a : ZMod 2, a + a = 0) _

/-! ### One round -/

/-- Four-index tables. -/
abbrev Tab (N : ℕ) : Type := (Fin N → ZMod 2) → (Fin N → ZMod 2) → (Fin N → ZMod 2) → (Fin N → ZMod 2) → ℂ

/-- The table of a state. -/
noncomputable def stateTab (ψ : Amp N) : Tab N := fun x y x' y' =>
  ψ x * ψ y * (starRingEnd ℂ) (ψ x') * (starRingEnd ℂ) (ψ y')

/-- `1` if the second pair is the first in some order. -/
def pairInd : Tab N := fun x y x' y' => if x' = x ∧ y' = y ∨ x' = y ∧ y' = x then 1 else 0

/-- What one round does to the averaged table. -/
noncomputable def roundTab (M : Tab N) : Tab N := fun x y x' y' =>
  ((2 : ℂ) ^ N)⁻¹ ^ 2 * ∑ a, ∑ b, ∑ a', ∑ b', chi x a * chi y b * chi x' a' * chi y' b' * (pairInd a b a' b' * M a b a' b')

theorem inv_sqrt_pow_four : (((Real.sqrt 2 : ℝ) : ℂ)⁻¹ ^ N) ^ 4 = ((2 : ℂ) ^ N)⁻¹ ^ 2 := by
  have h : ((Real.sqrt 2 : ℝ) : ℂ) ^ 2 = 2 := by
    rw [← Complex.ofReal_pow, Real.sq_sqrt (by norm_num)]; norm_num
  calc (((Real.sqrt 2 : ℝ) : ℂ)⁻¹ ^ N) ^ 4 = ((((Real.sqrt 2 : ℝ) : ℂ) ^ 2)⁻¹ ^ N) ^ 2 := by ring
    _ = _ := by rw [h, inv_pow]

theorem conj_exp_real (t : ℝ) : (starRingEnd ℂ) (Complex.exp (t * Complex.I)) = Complex.exp (-t * Complex.I) := by
  rw [← Complex.exp_conj]
  congr 1
  simp

theorem four_sums {ι : Type} [Fintype ι] (f g h k : ι → ℂ) (s : ℂ) :
    s * (∑ a, f a) * (s * ∑ a, g a) * (s * ∑ a, h a) * (s * ∑ a, k a) =
      s ^ 4 * ∑ a, ∑ b, ∑ a', ∑ b', f a * g b * h a' * k b' := by
  simp only [← Finset.mul_sum, ← Finset.sum_mul]
  ring

theorem diagHadamard_tab (θ : (Fin N → ZMod 2) → ℝ) (ψ : Amp N) (x y x' y' : Fin N → ZMod 2) :
    stateTab (Spec.diagHadamard θ ψ) x y x' y' =
      ((2 : ℂ) ^ N)⁻¹ ^ 2 * ∑ a, ∑ b, ∑ a', ∑ b', chi x a * chi y b * chi x' a' * chi y' b' *
        (Complex.exp ((θ a + θ b - θ a' - θ b' : ℝ) * Complex.I) * stateTab ψ a b a' b') := by
  have hs : (starRingEnd ℂ) (((Real.sqrt 2 : ℝ) : ℂ)⁻¹ ^ N) = ((Real.sqrt 2 : ℝ) : ℂ)⁻¹ ^ N := by
    rw [map_pow, map_inv₀, Complex.conj_ofReal]
  unfold stateTab Spec.diagHadamard
  simp only [map_mul, hs, map_sum]
  rw [← inv_sqrt_pow_four]
  refine (four_sums _ _ _ _ _).trans (congrArg (fun t => _ * t) ?_)
  apply Finset.sum_congr rfl; intro a _
  apply Finset.sum_congr rfl; intro b _
  apply Finset.sum_congr rfl; intro a' _
  apply Finset.sum_congr rfl; intro b' _
  rw [conj_exp_real, conj_exp_real, conj_sgn, conj_sgn]
  have : Complex.exp ((θ a + θ b - θ a' - θ b' : ℝ) * Complex.I) = Complex.exp (θ a * Complex.I) *
        Complex.exp (θ b * Complex.I) * Complex.exp (-θ a' * Complex.I) * Complex.exp (-θ b' * Complex.I) := by
    rw [← Complex.exp_add, ← Complex.exp_add, ← Complex.exp_add]
    congr 1
    push_cast
    ring
  rw [this]
  unfold chi
  ring

/-- The average over the draws of one round. -/
theorem round_moment (ψ : Amp N) (x y x' y' : Fin N → ZMod 2) :
    (∑ e : RoundDraw N, stateTab (Spec.diagHadamard (Spec.diagPhase e.1 e.2) ψ) x y x' y') / (3 ^ N * 2 ^ (N * N)) =
      roundTab (stateTab ψ) x y x' y' := by
  simp only [diagHadamard_tab]
  rw [← Finset.mul_sum, mul_div_assoc]
  unfold roundTab
  congr 1
  rw [Finset.sum_comm, Finset.sum_div]
  apply Finset.sum_congr rfl; intro a _
  rw [Finset.sum_comm, Finset.sum_div]
  apply Finset.sum_congr rfl; intro b _
  rw [Finset.sum_comm, Finset.sum_div]
  apply Finset.sum_congr rfl; intro a' _
  rw [Finset.sum_comm, Finset.sum_div]
  apply Finset.sum_congr rfl; intro b' _
  rw [← Finset.mul_sum, mul_div_assoc, ← Finset.sum_mul, mul_div_right_comm]
  congr 2
  rw [← Finset.univ_product_univ, Finset.sum_product]
  exact C55_diagonal_design a b a' b'

/-! ### All rounds -/

/-- The averaged table of the states after `T` rounds. -/
noncomputable def momentTab (N T : ℕ) : Tab N := fun x y x' y' =>
  (∑ δ : Fin T → RoundDraw N, stateTab (designState δ) x y x' y') / (3 ^ N * 2 ^ (N * N)) ^ T

theorem momentTab_succ (T : ℕ) : momentTab N (T + 1) = roundTab (momentTab N T) := by
  funext x y x' y'
  have h1 : ∑ δ : Fin (T + 1) → RoundDraw N, stateTab (designState δ) x y x' y' =
      ∑ δ : Fin T → RoundDraw N, ∑ e : RoundDraw N,
        stateTab (Spec.diagHadamard (Spec.diagPhase e.1 e.2) (designState δ)) x y x' y' := by
    rw [← (Fin.snocEquiv fun _ : Fin (T + 1) => RoundDraw N).sum_comp, ← Finset.univ_product_univ,
      Finset.sum_product_right]
    apply Finset.sum_congr rfl; intro δ _
    apply Finset.sum_congr rfl; intro e _
    rw [← designState_snoc]
    rfl
  unfold momentTab
  rw [h1, pow_succ, mul_comm, ← div_div, Finset.sum_div]
  simp only [round_moment]
  unfold roundTab
  rw [← Finset.mul_sum, mul_div_assoc]
  congr 1
  rw [Finset.sum_comm, Finset.sum_div]
  apply Finset.sum_congr rfl; intro a _
  rw [Finset.sum_comm, Finset.sum_div]
  apply Finset.sum_congr rfl; intro b _
  rw [Finset.sum_comm, Finset.sum_div]
  apply Finset.sum_congr rfl; intro a' _
  rw [Finset.sum_comm, Finset.sum_div]
  apply Finset.sum_congr rfl; intro b' _
  rw [← Finset.mul_sum, mul_div_assoc, ← Finset.mul_sum, mul_div_assoc]

/-- The two ways to pair the indices. -/
def tabA : Tab N := fun x y x' y' => (if x' = x ∧ y' = y then 1 else 0) + if x' = y ∧ y' = x then 1 else 0

/-- The four indices cancel. -/
def tabZ : Tab N := fun x y x' y' => if x + y + x' + y' = 0 then 1 else 0

theorem bits_pair_cancel (u v : Fin N → ZMod 2) : u + v + u + v = 0 := by
  funext i
  exact (by decide : ∀ a b : ZMod 2, a + b + a + b = 0) _ _

theorem bits_pair_cancel' (u v : Fin N → ZMod 2) : u + v + v + u = 0 := by
  funext i
  exact (by decide : ∀ a b : ZMod 2, a + b + b + a = 0) _ _

theorem pair_mul_AZ (α γ : ℂ) (a b a' b' : Fin N → ZMod 2) :
    pairInd a b a' b' * (α * tabA a b a' b' + γ * tabZ a b a' b') =
      (if a = a' then if b = b' then α + γ else 0 else 0) + (if b = a' then if a = b' then α + γ else 0 else 0) -
        if a = b then if a = a' then if a = b' then γ else 0 else 0 else 0 := by
  unfold pairInd tabA tabZ
  by_cases hp : a' = a ∧ b' = b ∨ a' = b ∧ b' = a
  · rcases hp with ⟨rfl, rfl⟩ | ⟨rfl, rfl⟩
    · by_cases h : a' = b'
      · subst h
        simp [bits_pair_cancel]
        ring
      · simp [bits_pair_cancel, h, Ne.symm h]
    · by_cases h : a' = b'
      · subst h
        simp [bits_pair_cancel]
        ring
      · simp [bits_pair_cancel', h, Ne.symm h]
  · rw [if_neg hp, zero_mul]
    have h1 : (if a = a' then if b = b' then α + γ else 0 else 0) = 0 := by
      split_ifs with h1 h2
      · exact absurd (Or.inl ⟨h1.symm, h2.symm⟩) hp
      all_goals rfl
    have h2 : (if b = a' then if a = b' then α + γ else 0 else 0) = 0 := by
      split_ifs with h1 h2
      · exact absurd (Or.inr ⟨h1.symm, h2.symm⟩) hp
      all_goals rfl
    have h3 : (if a = b then if a = a' then if a = b' then γ else 0 else 0 else 0) = 0 := by
      split_ifs with h1 h2 h3
      · exact absurd (Or.inl ⟨h2.symm, h3.symm.trans h1⟩) hp
      all_goals rfl
    rw [h1, h2, h3]
    ring

theorem chi_prod_sum (x x' : Fin N → ZMod 2) : ∑ a, chi x a * chi x' a = if x' = x then 2 ^ N else 0 := by
  simp only [← chi_add, chi_sum, bits_add_eq_zero]
  simp only [eq_comm]

theorem roundTab_AZ (α γ : ℂ) (x y x' y' : Fin N → ZMod 2) :
    roundTab (fun x y x' y' => α * tabA x y x' y' + γ * tabZ x y x' y') x y x' y' =
      (α + γ) * tabA x y x' y' + (-(γ / 2 ^ N)) * tabZ x y x' y' := by
  have hd : (2 : ℂ) ^ N ≠ 0 := pow_ne_zero _ (by norm_num)
  unfold roundTab
  simp only [pair_mul_AZ]
  simp only [mul_add _ (ite _ _ _), mul_sub, mul_ite, mul_zero, Finset.sum_add_distrib, Finset.sum_sub_distrib,
    Finset.sum_ite_irrel, Finset.sum_const_zero, Finset.sum_ite_eq, Finset.mem_univ, if_true]
  have h1 : ∑ a, ∑ b, chi x a * chi y b * chi x' a * chi y' b * (α + γ) =
      (α + γ) * ((if x' = x then 2 ^ N else 0) * if y' = y then 2 ^ N else 0) := by
    rw [← chi_prod_sum, ← chi_prod_sum, Finset.sum_mul_sum, Finset.mul_sum]
    apply Finset.sum_congr rfl; intro a _
    rw [Finset.mul_sum]
    apply Finset.sum_congr rfl; intro b _
    ring
  have h2 : ∑ a, ∑ b, chi x a * chi y b * chi x' b * chi y' a * (α + γ) =
      (α + γ) * ((if x' = y then 2 ^ N else 0) * if y' = x then 2 ^ N else 0) := by
    rw [mul_comm (ite _ _ _), ← chi_prod_sum, ← chi_prod_sum, Finset.sum_mul_sum, Finset.mul_sum]
    apply Finset.sum_congr rfl; intro a _
    rw [Finset.mul_sum]
    apply Finset.sum_congr rfl; intro b _
    ring
  have h3 : ∑ a, chi x a * chi y a * chi x' a * chi y' a * γ = γ * if x + y + x' + y' = 0 then 2 ^ N else 0 := by
    rw [← chi_sum, Finset.mul_sum]
    apply Finset.sum_congr rfl; intro a _
    rw [chi_add, chi_add, chi_add]
    ring
  rw [h1, h2, h3]
  unfold tabA tabZ
  have e1 : ∀ (p q : Prop) [Decidable p] [Decidable q], ((if p then (2 : ℂ) ^ N else 0) * if q then 2 ^ N else 0) =
      (2 ^ N) ^ 2 * if p ∧ q then 1 else 0 := by
    intro p q _ _
    by_cases hp : p <;> by_cases hq : q <;> simp [hp, hq, sq]
  have e2 : ∀ (p : Prop) [Decidable p], (if p then (2 : ℂ) ^ N else 0) = 2 ^ N * if p then 1 else 0 := by
    intro p _
    by_cases hp : p <;> simp [hp]
  rw [e1, e1, e2]
  field_simp
  ring

theorem momentTab_zero : momentTab N 0 = fun x y x' y' =>
    if x = 0 then if y = 0 then if x' = 0 then if y' = 0 then 1 else 0 else 0 else 0 else 0 := by
  funext x y x' y'
  unfold momentTab stateTab designState
  simp only [pow_zero, div_one, List.range_zero, List.foldl_nil, Finset.univ_unique, Finset.sum_const,
    Finset.card_singleton, one_smul, ket]
  by_cases h1 : x = 0 <;> by_cases h2 : y = 0 <;> by_cases h3 : x' = 0 <;> by_cases h4 : y' = 0 <;> simp [h1, h2, h3, h4]

theorem roundTab_congr {M M' : Tab N} (h : ∀ a b a' b', pairInd a b a' b' * M a b a' b' = pairInd a b a' b' * M' a b a' b') :
    roundTab M = roundTab M' := by
  funext x y x' y'
  unfold roundTab
  simp only [h]

theorem chi_zero (x : Fin N → ZMod 2) : chi x 0 = 1 := by
  simp [chi]

theorem momentTab_one : momentTab N 1 = fun _ _ _ _ => ((2 : ℂ) ^ N)⁻¹ ^ 2 := by
  rw [momentTab_succ, momentTab_zero]
  funext x y x' y'
  unfold roundTab
  simp only [mul_ite, mul_zero, Finset.sum_ite_irrel, Finset.sum_const_zero, Finset.sum_ite_eq', Finset.mem_univ, if_true,
    chi_zero]
  simp [pairInd]

theorem momentTab_two : momentTab N 2 = fun x y x' y' =>
    (((2 : ℂ) ^ N)⁻¹ ^ 2) * tabA x y x' y' + (-((2 : ℂ) ^ N)⁻¹ ^ 3) * tabZ x y x' y' := by
  rw [momentTab_succ, momentTab_one]
  have h : roundTab (fun _ _ _ _ => ((2 : ℂ) ^ N)⁻¹ ^ 2 : Tab N) =
      roundTab (fun x y x' y' => 0 * tabA x y x' y' + ((2 : ℂ) ^ N)⁻¹ ^ 2 * tabZ x y x' y') := by
    apply roundTab_congr
    intro a b a' b'
    unfold pairInd
    split_ifs with hp
    · have : tabZ a b a' b' = 1 := by
        unfold tabZ
        rcases hp with ⟨rfl, rfl⟩ | ⟨rfl, rfl⟩
        · rw [if_pos (bits_pair_cancel _ _)]
        · rw [if_pos (bits_pair_cancel' _ _)]
      rw [this]; ring
    · ring
  rw [h]
  funext x y x' y'
  rw [roundTab_AZ]
  ring

/-- The averaged table after two or more rounds. -/
theorem momentTab_closed (t : ℕ) : ∃ α : ℝ, momentTab N (t + 2) = (fun x y x' y' =>
      (α : ℂ) * tabA x y x' y' + ((-(-1) ^ t / (2 ^ N) ^ (t + 3) : ℝ) : ℂ) * tabZ x y x' y') ∧
    α * ((2 ^ N) ^ 2 + 2 ^ N) + (-(-1) ^ t / (2 ^ N) ^ (t + 3)) * (2 ^ N) ^ 2 = 1 := by
  have hd : (2 : ℝ) ^ N ≠ 0 := pow_ne_zero _ (by norm_num)
  have hd' : (2 : ℂ) ^ N ≠ 0 := pow_ne_zero _ (by norm_num)
  induction t with
  | zero =>
    refine ⟨((2 : ℝ) ^ N)⁻¹ ^ 2, ?_, ?_⟩
    · rw [momentTab_two]
      funext x y x' y'
      push_cast
      rw [pow_zero]
      ring
    · field_simp
      ring
  | succ t ih =>
    obtain ⟨α, h1, h2⟩ := ih
    refine ⟨α + -(-1) ^ t / (2 ^ N) ^ (t + 3), ?_, ?_⟩
    · rw [momentTab_succ, h1]
      funext x y x' y'
      rw [roundTab_AZ]
      push_cast
      congr 2
      field_simp
      ring
    · refine Eq.trans ?_ h2
      field_simp
      ring

/-! ### Contracting a table with an operator -/

/-- Contracting a table with an operator and its conjugate. -/
noncomputable def contract (K : Matrix (Fin N → ZMod 2) (Fin N → ZMod 2) ℂ) (M : Tab N) : ℂ :=
  ∑ u, ∑ v, ∑ u', ∑ v', K u v * (starRingEnd ℂ) (K u' v') * M v u' u v'

theorem normSq_contract (K : Matrix (Fin N → ZMod 2) (Fin N → ZMod 2) ℂ) (ψ : Amp N) :
    (Complex.normSq (braket ψ (K.mulVec ψ)) : ℂ) = contract K (stateTab ψ) := by
  have h1 : braket ψ (K.mulVec ψ) = ∑ u, ∑ v, (starRingEnd ℂ) (ψ u) * K u v * ψ v := by
    unfold braket
    apply Finset.sum_congr rfl; intro u _
    unfold Matrix.mulVec dotProduct
    rw [Finset.mul_sum]
    apply Finset.sum_congr rfl; intro v _
    ring
  rw [← Complex.mul_conj, h1, map_sum, Finset.sum_mul]
  unfold contract
  apply Finset.sum_congr rfl; intro u _
  rw [Finset.sum_mul]
  apply Finset.sum_congr rfl; intro v _
  rw [Finset.mul_sum]
  apply Finset.sum_congr rfl; intro u' _
  rw [map_sum, Finset.mul_sum]
  apply Finset.sum_congr rfl; intro v' _
  unfold stateTab
  rw [map_mul, map_mul, Complex.conj_conj]
  ring

theorem contract_sum {ι : Type} (s : Finset ι) (K : Matrix (Fin N → ZMod 2) (Fin N → ZMod 2) ℂ) (M : ι → Tab N) :
    contract K (fun x y x' y' => ∑ i ∈ s, M i x y x' y') = ∑ i ∈ s, contract K (M i) := by
  unfold contract
  symm
  rw [Finset.sum_comm]
  apply Finset.sum_congr rfl; intro u _
  rw [Finset.sum_comm]
  apply Finset.sum_congr rfl; intro v _
  rw [Finset.sum_comm]
  apply Finset.sum_congr rfl; intro u' _
  rw [Finset.sum_comm]
  apply Finset.sum_congr rfl; intro v' _
  rw [Finset.mul_sum]

theorem contract_smul (c : ℂ) (K : Matrix (Fin N → ZMod 2) (Fin N → ZMod 2) ℂ) (M : Tab N) :
    contract K (fun x y x' y' => c * M x y x' y') = c * contract K M := by
  unfold contract
  simp only [Finset.mul_sum]
  apply Finset.sum_congr rfl; intro u _
  apply Finset.sum_congr rfl; intro v _
  apply Finset.sum_congr rfl; intro u' _
  apply Finset.sum_congr rfl; intro v' _
  ring

theorem contract_add (K : Matrix (Fin N → ZMod 2) (Fin N → ZMod 2) ℂ) (M M' : Tab N) :
    contract K (fun x y x' y' => M x y x' y' + M' x y x' y') = contract K M + contract K M' := by
  unfold contract
  simp only [mul_add, Finset.sum_add_distrib]

/-- The sum of the squares of the entries. -/
noncomputable def frob (K : Matrix (Fin N → ZMod 2) (Fin N → ZMod 2) ℂ) : ℝ := ∑ u, ∑ v, Complex.normSq (K u v)

/-- The squares of the sums of the entries along the translates of the diagonal. -/
noncomputable def diagSq (K : Matrix (Fin N → ZMod 2) (Fin N → ZMod 2) ℂ) : ℝ :=
  ∑ w, Complex.normSq (∑ v, K (v + w) v)

theorem contract_A (K : Matrix (Fin N → ZMod 2) (Fin N → ZMod 2) ℂ) :
    contract K tabA = ((Complex.normSq K.trace + frob K : ℝ) : ℂ) := by
  have h1 : contract K (fun x y x' y' => if x' = x ∧ y' = y then 1 else 0) = (Complex.normSq K.trace : ℂ) := by
    unfold contract
    simp only [ite_and, mul_ite, mul_one, mul_zero, Finset.sum_ite_irrel, Finset.sum_const_zero, Finset.sum_ite_eq',
      Finset.sum_ite_eq, Finset.mem_univ, if_true]
    rw [← Complex.mul_conj]
    unfold Matrix.trace
    rw [map_sum, Finset.sum_mul_sum]
    rfl
  have h2 : contract K (fun x y x' y' => if x' = y ∧ y' = x then 1 else 0) = (frob K : ℂ) := by
    unfold contract frob
    simp only [ite_and, mul_ite, mul_one, mul_zero, Finset.sum_ite_irrel, Finset.sum_const_zero, Finset.sum_ite_eq',
      Finset.sum_ite_eq, Finset.mem_univ, if_true]
    push_cast
    simp only [Complex.mul_conj]
  unfold tabA
  rw [contract_add, h1, h2]
  push_cast
  rfl

theorem bits_solve (v u' u v' : Fin N → ZMod 2) : v + u' + u + v' = 0 ↔ u' = v' + (v + u) := by
  constructor
  · intro h
    funext i
    exact (by decide : ∀ a b c d : ZMod 2, a + b + c + d = 0 → b = d + (a + c)) _ _ _ _ (congrFun h i)
  · rintro rfl
    funext i
    exact (by decide : ∀ a c d : ZMod 2, a + (d + (a + c)) + c + d = 0) _ _ _

theorem bits_add_add (v w : Fin N → ZMod 2) : v + (v + w) = w := by
  funext i
  exact (by decide : ∀ a b : ZMod 2, a + (a + b) = b) _ _

/-- Translating by `v`. -/
def shiftEquiv (v : Fin N → ZMod 2) : (Fin N → ZMod 2) ≃ (Fin N → ZMod 2) where
  toFun w := v + w
  invFun w := v + w
  left_inv := bits_add_add v
  right_inv := bits_add_add v

theorem contract_Z (K : Matrix (Fin N → ZMod 2) (Fin N → ZMod 2) ℂ) : contract K tabZ = (diagSq K : ℂ) := by
  unfold contract tabZ diagSq
  simp only [bits_solve]
  have h : ∀ u v, ∑ u', ∑ v', K u v * (starRingEnd ℂ) (K u' v') * (if u' = v' + (v + u) then (1 : ℂ) else 0) =
      K u v * (starRingEnd ℂ) (∑ v', K (v' + (v + u)) v') := by
    intro u v
    rw [Finset.sum_comm, map_sum, Finset.mul_sum]
    apply Finset.sum_congr rfl; intro v' _
    simp
  simp only [h]
  rw [Finset.sum_comm]
  have h2 : ∀ v, ∑ u, K u v * (starRingEnd ℂ) (∑ v', K (v' + (v + u)) v') =
      ∑ w, K (v + w) v * (starRingEnd ℂ) (∑ v', K (v' + w) v') := by
    intro v
    rw [← (shiftEquiv v).sum_comp]
    apply Finset.sum_congr rfl; intro w _
    show K (v + w) v * (starRingEnd ℂ) (∑ v', K (v' + (v + (v + w))) v') = _
    rw [bits_add_add]
  simp only [h2]
  rw [Finset.sum_comm]
  push_cast
  apply Finset.sum_congr rfl; intro w _
  rw [← Finset.sum_mul, Complex.mul_conj]

theorem frob_nonneg (K : Matrix (Fin N → ZMod 2) (Fin N → ZMod 2) ℂ) : 0 ≤ frob K :=
  Finset.sum_nonneg fun _ _ => Finset.sum_nonneg fun _ _ => Complex.normSq_nonneg _

theorem card_bits : (Finset.univ : Finset (Fin N → ZMod 2)).card = 2 ^ N := by
  simp [ZMod.card]

/-- Cauchy-Schwarz for the sum of the entries of a vector. -/
theorem normSq_sum_le (f : (Fin N → ZMod 2) → ℂ) : Complex.normSq (∑ v, f v) ≤ 2 ^ N * ∑ v, Complex.normSq (f v) := by
  have h1 : Complex.normSq (∑ v, f v) ≤ (∑ v, ‖f v‖) ^ 2 := by
    rw [Complex.normSq_eq_norm_sq]
    exact pow_le_pow_left₀ (norm_nonneg _) (norm_sum_le _ _) 2
  have h2 := sq_sum_le_card_mul_sum_sq (s := (Finset.univ : Finset (Fin N → ZMod 2))) (f := fun v => ‖f v‖)
  rw [card_bits] at h2
  push_cast at h2
  simp only [Complex.normSq_eq_norm_sq] at h1 ⊢
  exact h1.trans h2

theorem diagSq_nonneg (K : Matrix (Fin N → ZMod 2) (Fin N → ZMod 2) ℂ) : 0 ≤ diagSq K :=
  Finset.sum_nonneg fun _ _ => Complex.normSq_nonneg _

theorem diagSq_le (K : Matrix (Fin N → ZMod 2) (Fin N → ZMod 2) ℂ) : diagSq K ≤ 2 ^ N * frob K := by
  unfold diagSq
  calc ∑ w, Complex.normSq (∑ v, K (v + w) v) ≤ ∑ w, (2 : ℝ) ^ N * ∑ v, Complex.normSq (K (v + w) v) :=
        Finset.sum_le_sum fun w _ => normSq_sum_le _
    _ = 2 ^ N * frob K := by
        rw [← Finset.mul_sum, Finset.sum_comm]
        unfold frob
        rw [Finset.sum_comm (f := fun u v => Complex.normSq (K u v))]
        congr 1
        apply Finset.sum_congr rfl; intro v _
        exact (shiftEquiv v).sum_comp fun u => Complex.normSq (K u v)

theorem trace_le (K : Matrix (Fin N → ZMod 2) (Fin N → ZMod 2) ℂ) : Complex.normSq K.trace ≤ 2 ^ N * frob K := by
  refine (normSq_sum_le _).trans (mul_le_mul_of_nonneg_left ?_ (by positivity))
  unfold frob
  exact Finset.sum_le_sum fun v _ => Finset.single_le_sum (f := fun w => Complex.normSq (K v w))
    (fun _ _ => Complex.normSq_nonneg _) (Finset.mem_univ v)

theorem frob_total {J : ℕ} {K : Fin J → Matrix (Fin N → ZMod 2) (Fin N → ZMod 2) ℂ}
    (hK : ∑ j, (K j).conjTranspose * K j = 1) : ∑ j, frob (K j) = 2 ^ N := by
  have h := congrArg Matrix.trace hK
  rw [Matrix.trace_sum, Matrix.trace_one] at h
  have h2 : ∀ j, ((K j).conjTranspose * K j).trace = (frob (K j) : ℂ) := by
    intro j
    unfold frob Matrix.trace
    rw [Finset.sum_comm]
    push_cast
    apply Finset.sum_congr rfl; intro v _
    rw [Matrix.diag_apply, Matrix.mul_apply]
    apply Finset.sum_congr rfl; intro u _
    rw [Matrix.conjTranspose_apply, Complex.star_def, mul_comm, Complex.mul_conj]
  simp only [h2] at h
  have h3 : Fintype.card (Fin N → ZMod 2) = 2 ^ N := by simp [ZMod.card]
  rw [h3] at h
  exact_mod_cast h

end PyQ
