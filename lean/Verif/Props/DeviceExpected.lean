import Verif.Lemmas.HaarMoments
import Verif.Lemmas.HaarExists

/-!
# C75: the expected value of the estimate of the average fidelity
-/

namespace PyQ

open Spec MeasureTheory

variable {N J : ℕ}

/-! ### The chance of all zeros for given draws -/

theorem runD_design {epsilon : ℝ} {e : CallDraw N epsilon} {gs : List DGate} {phases : List (List ℝ)}
    (h : twoDesign N epsilon (drawsOf e) = .ok (gs, phases)) : runD gs (ket 0) = designState e :=
  C54_circuit h _

theorem design_braket {epsilon : ℝ} {d : Draws} {gs : List DGate} {phases : List (List ℝ)}
    (h : twoDesign N epsilon d = .ok (gs, phases)) (φ ψ : Amp N) : braket (runD gs φ) (runD gs ψ) = braket φ ψ := by
  rw [C54_circuit h, C54_circuit h]
  generalize List.range _ = l
  induction l generalizing φ ψ with
  | nil => rfl
  | cons r l ih =>
    rw [List.foldl_cons, List.foldl_cons, ih, diagHadamard_braket]

theorem braket_ket_left (b : Fin N → ZMod 2) (ψ : Amp N) : braket (ket b) ψ = ψ b := by
  unfold braket ket
  simp

theorem undo_amplitude {epsilon : ℝ} {d : Draws} {gs gs' : List DGate} {phases : List (List ℝ)}
    (h : twoDesign N epsilon d = .ok (gs, phases)) (h' : inverseDesign N phases = .ok gs') (φ : Amp N) :
    runD gs' φ 0 = braket (runD gs (ket 0)) φ := by
  obtain ⟨gs'', h1, -, h2⟩ := C42_inverse h
  rw [h'] at h1
  injection h1 with h1
  subst h1
  rw [← braket_ket_left 0 (runD gs' φ), ← design_braket h, h2]

theorem zeroChance_eq {epsilon : ℝ} {e : CallDraw N epsilon} {gs gs' : List DGate} {phases : List (List ℝ)}
    (h : twoDesign N epsilon (drawsOf e) = .ok (gs, phases)) (h' : inverseDesign N phases = .ok gs')
    (K : Fin J → Matrix (Fin N → ZMod 2) (Fin N → ZMod 2) ℂ) : zeroChance K gs gs' = stateFidelity K (designState e) := by
  unfold zeroChance stateFidelity
  apply Finset.sum_congr rfl; intro j _
  rw [undo_amplitude h h', runD_design h]

theorem designState_len {T : ℕ} (δ : Fin T → RoundDraw N) : lenSq (designState δ) = 1 := by
  unfold designState
  generalize List.range T = l
  have h0 : lenSq (ket 0 : Amp N) = 1 := by
    unfold lenSq ket
    rw [Finset.sum_eq_single 0]
    · simp
    · intro b _ hb; simp [hb]
    · simp
  have : ∀ ψ : Amp N, lenSq ψ = 1 → lenSq (l.foldl (fun ψ r => Spec.diagHadamard
    (Spec.diagPhase (fun i => (drawsOf δ).single r i) fun i j => (drawsOf δ).ctrl r i j) ψ) ψ) = 1 := by
    induction l with
    | nil => exact fun ψ h => h
    | cons r l ih =>
      intro ψ h
      rw [List.foldl_cons]
      exact ih _ ((diagHadamard_norm _ ψ).trans h)
  exact this _ h0

/-! ### Bounds -/

theorem braket_le (φ ψ : Amp N) : Complex.normSq (braket φ ψ) ≤ lenSq φ * lenSq ψ := by
  have h1 : ‖braket φ ψ‖ ≤ ∑ b, ‖φ b‖ * ‖ψ b‖ := by
    unfold braket
    refine (norm_sum_le _ _).trans (Finset.sum_le_sum fun b _ => ?_)
    rw [norm_mul, RCLike.norm_conj]
  have h2 := Finset.sum_mul_sq_le_sq_mul_sq Finset.univ (fun b => ‖φ b‖) fun b => ‖ψ b‖
  rw [Complex.normSq_eq_norm_sq]
  unfold lenSq
  simp only [Complex.normSq_eq_norm_sq]
  exact (pow_le_pow_left₀ (norm_nonneg _) h1 2).trans h2

theorem braket_mulVec (K : Matrix (Fin N → ZMod 2) (Fin N → ZMod 2) ℂ) (φ ψ : Amp N) :
    braket (K.mulVec φ) ψ = braket φ (K.conjTranspose.mulVec ψ) := by
  unfold braket Matrix.mulVec dotProduct
  simp only [map_sum, map_mul, Finset.sum_mul, Finset.mul_sum, Matrix.conjTranspose_apply, Complex.star_def]
  rw [Finset.sum_comm]
  apply Finset.sum_congr rfl; intro a _
  apply Finset.sum_congr rfl; intro b _
  ring

theorem kraus_len {K : Fin J → Matrix (Fin N → ZMod 2) (Fin N → ZMod 2) ℂ}
    (hK : ∑ j, (K j).conjTranspose * K j = 1) (ψ : Amp N) : ∑ j, lenSq ((K j).mulVec ψ) = lenSq ψ := by
  have h : ∀ j, (lenSq ((K j).mulVec ψ) : ℂ) = braket ψ (((K j).conjTranspose * K j).mulVec ψ) := by
    intro j
    rw [← Matrix.mulVec_mulVec, ← braket_mulVec, braket_self]
    rfl
  have h2 : ((∑ j, lenSq ((K j).mulVec ψ) : ℝ) : ℂ) = (lenSq ψ : ℂ) := by
    push_cast
    simp only [h]
    have : ∑ j, braket ψ (((K j).conjTranspose * K j).mulVec ψ) = braket ψ ((∑ j, (K j).conjTranspose * K j).mulVec ψ) := by
      unfold braket
      rw [Finset.sum_comm]
      apply Finset.sum_congr rfl; intro b _
      rw [← Finset.mul_sum, Matrix.sum_mulVec, Finset.sum_apply]
    rw [this, hK, Matrix.one_mulVec, braket_self]
    rfl
  exact_mod_cast h2

theorem stateFidelity_nonneg (K : Fin J → Matrix (Fin N → ZMod 2) (Fin N → ZMod 2) ℂ) (ψ : Amp N) : 0 ≤ stateFidelity K ψ :=
  Finset.sum_nonneg fun _ _ => Complex.normSq_nonneg _

theorem stateFidelity_le {K : Fin J → Matrix (Fin N → ZMod 2) (Fin N → ZMod 2) ℂ}
    (hK : ∑ j, (K j).conjTranspose * K j = 1) {ψ : Amp N} (h : lenSq ψ = 1) : stateFidelity K ψ ≤ 1 := by
  calc stateFidelity K ψ ≤ ∑ j, lenSq ψ * lenSq ((K j).mulVec ψ) := Finset.sum_le_sum fun j _ => braket_le _ _
    _ = 1 := by rw [← Finset.mul_sum, kraus_len hK, h, one_mul]

/-- The average over the draws of `T` rounds. -/
noncomputable def designFidelity (T : ℕ) (K : Fin J → Matrix (Fin N → ZMod 2) (Fin N → ZMod 2) ℂ) : ℝ :=
  (∑ δ : Fin T → RoundDraw N, stateFidelity K (designState δ)) / Fintype.card (Fin T → RoundDraw N)

theorem designFidelity_mem {K : Fin J → Matrix (Fin N → ZMod 2) (Fin N → ZMod 2) ℂ}
    (hK : ∑ j, (K j).conjTranspose * K j = 1) (T : ℕ) : 0 ≤ designFidelity T K ∧ designFidelity T K ≤ 1 := by
  unfold designFidelity
  constructor
  · exact div_nonneg (Finset.sum_nonneg fun _ _ => stateFidelity_nonneg _ _) (Nat.cast_nonneg _)
  · refine div_le_one_of_le₀ ?_ (Nat.cast_nonneg _)
    calc ∑ δ : Fin T → RoundDraw N, stateFidelity K (designState δ) ≤ ∑ _δ : Fin T → RoundDraw N, (1 : ℝ) :=
          Finset.sum_le_sum fun δ _ => stateFidelity_le hK (designState_len δ)
      _ = _ := by simp

theorem card_draws (T : ℕ) : (Fintype.card (Fin T → RoundDraw N) : ℂ) = (3 ^ N * 2 ^ (N * N)) ^ T := by
  rw [Fintype.card_fun, Fintype.card_fin]
  push_cast
  rw [card_roundDraw]

theorem designFidelity_contract (T : ℕ) (K : Fin J → Matrix (Fin N → ZMod 2) (Fin N → ZMod 2) ℂ) :
    (designFidelity T K : ℂ) = ∑ j, contract (K j) (momentTab N T) := by
  unfold designFidelity stateFidelity
  push_cast
  simp only [normSq_contract]
  rw [Finset.sum_comm, Finset.sum_div]
  apply Finset.sum_congr rfl; intro j _
  rw [← contract_sum]
  have hc : (Fintype.card (RoundDraw N) : ℂ) ^ Fintype.card (Fin T) = (3 ^ N * 2 ^ (N * N)) ^ T := by
    rw [card_roundDraw, Fintype.card_fin]
  have : momentTab N T = fun x y x' y' => ((Fintype.card (Fin T → RoundDraw N) : ℂ))⁻¹ *
      ∑ δ : Fin T → RoundDraw N, stateTab (designState δ) x y x' y' := by
    funext x y x' y'
    unfold momentTab
    rw [card_draws, div_eq_inv_mul]
  rw [this, contract_smul, div_eq_inv_mul]

theorem traces_le {K : Fin J → Matrix (Fin N → ZMod 2) (Fin N → ZMod 2) ℂ}
    (hK : ∑ j, (K j).conjTranspose * K j = 1) : ∑ j, Complex.normSq (K j).trace ≤ (2 ^ N) ^ 2 := by
  calc ∑ j, Complex.normSq (K j).trace ≤ ∑ j, (2 : ℝ) ^ N * frob (K j) := Finset.sum_le_sum fun j _ => trace_le _
    _ = (2 ^ N) ^ 2 := by rw [← Finset.mul_sum, frob_total hK]; ring

theorem diagSq_total_le {K : Fin J → Matrix (Fin N → ZMod 2) (Fin N → ZMod 2) ℂ}
    (hK : ∑ j, (K j).conjTranspose * K j = 1) : ∑ j, diagSq (K j) ≤ (2 ^ N) ^ 2 := by
  calc ∑ j, diagSq (K j) ≤ ∑ j, (2 : ℝ) ^ N * frob (K j) := Finset.sum_le_sum fun j _ => diagSq_le _
    _ = (2 ^ N) ^ 2 := by rw [← Finset.mul_sum, frob_total hK]; ring

theorem avgFidelity_mem (hN : 0 < N) {μ : Measure (Amp N)} (hμ : UniformStates μ)
    {K : Fin J → Matrix (Fin N → ZMod 2) (Fin N → ZMod 2) ℂ} (hK : ∑ j, (K j).conjTranspose * K j = 1) :
    0 ≤ avgFidelity μ K ∧ avgFidelity μ K ≤ 1 := by
  rw [avgFidelity_eq hN hμ, Finset.sum_add_distrib, frob_total hK]
  have h := traces_le hK
  have h0 : 0 ≤ ∑ j, Complex.normSq (K j).trace := Finset.sum_nonneg fun _ _ => Complex.normSq_nonneg _
  constructor
  · positivity
  · rw [div_le_one (by positivity)]
    linarith

/-- The difference between the average over the draws and the average over all states. -/
theorem designFidelity_sub (hN : 0 < N) {μ : Measure (Amp N)} (hμ : UniformStates μ)
    (K : Fin J → Matrix (Fin N → ZMod 2) (Fin N → ZMod 2) ℂ) (t : ℕ) :
    designFidelity (t + 2) K - avgFidelity μ K =
      (-(-1) ^ t / (2 ^ N) ^ (t + 3)) * (∑ j, diagSq (K j) - (2 ^ N) ^ 2 * avgFidelity μ K) := by
  obtain ⟨α, h1, h2⟩ := momentTab_closed (N := N) t
  set γ : ℝ := -(-1) ^ t / (2 ^ N) ^ (t + 3) with hγ
  have h3 : designFidelity (t + 2) K = α * ∑ j, (Complex.normSq (K j).trace + frob (K j)) + γ * ∑ j, diagSq (K j) := by
    have h := designFidelity_contract (t + 2) K
    rw [h1] at h
    simp only [contract_add, contract_smul, contract_A, contract_Z] at h
    rw [Finset.sum_add_distrib, ← Finset.mul_sum, ← Finset.mul_sum, ← Complex.ofReal_sum, ← Complex.ofReal_sum] at h
    exact_mod_cast h
  have h4 := avgFidelity_eq hN hμ K
  have hd : (0 : ℝ) < (2 ^ N) ^ 2 + 2 ^ N := by positivity
  rw [eq_div_iff hd.ne'] at h4
  rw [h3, ← h4]
  linear_combination avgFidelity μ K * h2

theorem abs_designFidelity_sub (hN : 0 < N) {μ : Measure (Amp N)} (hμ : UniformStates μ)
    {K : Fin J → Matrix (Fin N → ZMod 2) (Fin N → ZMod 2) ℂ} (hK : ∑ j, (K j).conjTranspose * K j = 1) (t : ℕ) :
    |designFidelity (t + 2) K - avgFidelity μ K| ≤ ((2 ^ N) ^ (t + 1))⁻¹ := by
  rw [designFidelity_sub hN hμ]
  obtain ⟨h1, h2⟩ := avgFidelity_mem hN hμ hK
  have h3 := diagSq_total_le hK
  have h4 : 0 ≤ ∑ j, diagSq (K j) := Finset.sum_nonneg fun _ _ => diagSq_nonneg _
  have hd : (0 : ℝ) < 2 ^ N := by positivity
  have h5 : |∑ j, diagSq (K j) - (2 ^ N) ^ 2 * avgFidelity μ K| ≤ (2 ^ N) ^ 2 := by
    rw [abs_le]
    constructor <;> nlinarith [sq_nonneg ((2 : ℝ) ^ N)]
  rw [abs_mul, abs_div, abs_neg, abs_pow, abs_neg, abs_one, one_pow, abs_of_pos (pow_pos hd _)]
  calc 1 / ((2 : ℝ) ^ N) ^ (t + 3) * |∑ j, diagSq (K j) - (2 ^ N) ^ 2 * avgFidelity μ K|
      ≤ 1 / ((2 : ℝ) ^ N) ^ (t + 3) * (2 ^ N) ^ 2 := mul_le_mul_of_nonneg_left h5 (by positivity)
    _ = ((2 ^ N) ^ (t + 1))⁻¹ := by
        field_simp
        ring

theorem rounds_error (hN : 0 < N) {epsilon : ℝ} (he : 0 < epsilon) {μ : Measure (Amp N)} (hμ : UniformStates μ)
    {K : Fin J → Matrix (Fin N → ZMod 2) (Fin N → ZMod 2) ℂ} (hK : ∑ j, (K j).conjTranspose * K j = 1) :
    |designFidelity (rounds N epsilon) K - avgFidelity μ K| ≤ epsilon ^ 2 := by
  unfold rounds
  set l := ⌈Real.logb 2 (1 / epsilon) / N⌉ with hl
  have hN' : (0 : ℝ) < N := by exact_mod_cast hN
  have hle : Real.logb 2 (1 / epsilon) ≤ l * N := by
    rw [← div_le_iff₀ hN']
    exact Int.le_ceil _
  rcases le_or_gt l 0 with h | h
  · have h1 : Real.logb 2 (1 / epsilon) ≤ 0 := hle.trans (mul_nonpos_of_nonpos_of_nonneg (by exact_mod_cast h) hN'.le)
    have h2 : 1 ≤ epsilon := by
      have := (Real.logb_nonpos_iff (b := 2) (by norm_num) (by positivity : 0 < 1 / epsilon)).mp h1
      rwa [div_le_one he] at this
    obtain ⟨a1, a2⟩ := designFidelity_mem hK (2 * l + 1).toNat
    obtain ⟨b1, b2⟩ := avgFidelity_mem hN hμ hK
    have h3 : (1 : ℝ) ≤ epsilon ^ 2 := one_le_pow₀ h2
    rw [abs_le]
    constructor <;> linarith
  · obtain ⟨m, hm⟩ : ∃ m : ℕ, l = m + 1 := ⟨(l - 1).toNat, by omega⟩
    have ht : (2 * l + 1).toNat = (2 * m + 1) + 2 := by omega
    rw [ht]
    refine (abs_designFidelity_sub hN hμ hK _).trans ?_
    have h1 : 1 / epsilon ≤ (2 ^ N) ^ (m + 1) := by
      have h2 := (Real.logb_le_iff_le_rpow (b := 2) (by norm_num) (by positivity : 0 < 1 / epsilon)).mp hle
      refine h2.trans (le_of_eq ?_)
      rw [hm]
      have : (((m : ℤ) + 1 : ℤ) : ℝ) * (N : ℝ) = ((N * (m + 1) : ℕ) : ℝ) := by push_cast; ring
      rw [this, Real.rpow_natCast, pow_mul]
    have h2 : ((2 : ℝ) ^ N) ^ (2 * m + 1 + 1) = ((2 ^ N) ^ (m + 1)) ^ 2 := by ring
    rw [h2, ← inv_pow]
    apply pow_le_pow_left₀ (by positivity)
    rw [inv_le_comm₀ (by positivity) he]
    rwa [one_div] at h1

/-! ### C75 -/

/-- C75.  Average the chance that the circuit of `approximate_unitary_two_design(epsilon)`, the channel and the
circuit of `inverse_of_unitary_two_design` bring the register back to all zeros over the random draws of the two-design.
This differs from the average fidelity of the channel by at most `epsilon²`, for every register, every channel and
every `epsilon`. -/
theorem C75_two_design (hN : 0 < N) {epsilon : ℝ} (he : 0 < epsilon) {μ : Measure (Amp N)} (hμ : UniformStates μ)
    {K : Fin J → Matrix (Fin N → ZMod 2) (Fin N → ZMod 2) ℂ} (hK : ∑ j, (K j).conjTranspose * K j = 1)
    (gs gs' : CallDraw N epsilon → List DGate) (phases : CallDraw N epsilon → List (List ℝ))
    (h : ∀ e, twoDesign N epsilon (drawsOf e) = .ok (gs e, phases e))
    (h' : ∀ e, inverseDesign N (phases e) = .ok (gs' e)) :
    |(∑ e, zeroChance K (gs e) (gs' e)) / Fintype.card (CallDraw N epsilon) - avgFidelity μ K| ≤ epsilon ^ 2 := by
  have h1 : ∀ e, zeroChance K (gs e) (gs' e) = stateFidelity K (designState e) := fun e => zeroChance_eq (h e) (h' e) K
  simp only [h1]
  exact rounds_error hN he hμ hK

theorem direction_born (gs' : List DGate) (v : Amp N) :
    Complex.normSq (runD gs' (direction v) 0) * lenSq v = Complex.normSq (runD gs' v 0) := by
  unfold direction
  rw [runD_smul, Pi.smul_apply, smul_eq_mul, map_mul, ← Complex.ofReal_inv, Complex.normSq_ofReal, ← mul_inv,
    Real.mul_self_sqrt (lenSq_nonneg v)]
  by_cases h : lenSq v = 0
  · have hv := lenSq_eq_zero.mp h
    have h0 : runD gs' (0 : Amp N) = 0 := by
      have := runD_smul gs' 0 (0 : Amp N)
      rwa [zero_smul, zero_smul] at this
    rw [h, hv, h0]
    simp
  · field_simp

theorem sum_fibre {Ω : Type} [Fintype Ω] {κ κ' : Type} [Fintype κ] [Fintype κ'] [DecidableEq κ] [DecidableEq κ']
    (f : Ω → κ) (g : Ω → κ') (h : Ω → ℝ) : ∑ ω, h ω = ∑ e, ∑ j, ∑ ω with f ω = e ∧ g ω = j, h ω := by
  rw [← Finset.sum_fiberwise Finset.univ f h]
  apply Finset.sum_congr rfl; intro e _
  rw [← Finset.sum_fiberwise _ g h]
  apply Finset.sum_congr rfl; intro j _
  rw [Finset.filter_filter]

/-- The probability that trial `t` ends with all zeros. -/
theorem trial_chance {Ω : Type} [Fintype Ω] {P : Ω → ℝ} {K : Fin J → Matrix (Fin N → ZMod 2) (Fin N → ZMod 2) ℂ}
    {epsilon : ℝ} {n : ℕ} {draw : Ω → ℕ → CallDraw N epsilon} {kraus : Ω → ℕ → Fin J} {w : Ω → World N}
    (hr : RandomRuns P K epsilon n draw kraus w)
    {gs gs' : CallDraw N epsilon → List DGate} {phases : CallDraw N epsilon → List (List ℝ)}
    (h : ∀ e, twoDesign N epsilon (drawsOf e) = .ok (gs e, phases e))
    (h' : ∀ e, inverseDesign N (phases e) = .ok (gs' e)) {t : ℕ} (ht : t < n) :
    (∑ ω with (w ω).outcome t (runD (gs' (draw ω t)) (direction ((K (kraus ω t)).mulVec (runD (gs (draw ω t)) (ket 0))))) = 0,
      P ω) = designFidelity (rounds N epsilon) K := by
  unfold designFidelity
  rw [Finset.sum_filter, sum_fibre (fun ω => draw ω t) (fun ω => kraus ω t), Finset.sum_div]
  apply Finset.sum_congr rfl; intro e _
  rw [← zeroChance_eq (h e) (h' e) K]
  unfold zeroChance
  rw [Finset.sum_div]
  apply Finset.sum_congr rfl; intro j _
  have h1 := hr.born t ht e j (gs e) (gs' e) (phases e) (h e) (h' e) _ rfl
  rw [hr.law t ht e j (gs e) (phases e) (h e), ← Finset.filter_filter, Finset.sum_filter, ← mul_div_assoc,
    direction_born] at h1
  have h2 : ∀ ω ∈ Finset.univ.filter (fun ω => draw ω t = e ∧ kraus ω t = j),
      (if (w ω).outcome t (runD (gs' (draw ω t)) (direction ((K (kraus ω t)).mulVec (runD (gs (draw ω t)) (ket 0))))) = 0
        then P ω else 0) =
      if (w ω).outcome t (runD (gs' e) (direction ((K j).mulVec (runD (gs e) (ket 0))))) = 0 then P ω else 0 := by
    intro ω hω
    obtain ⟨rfl, rfl⟩ := (Finset.mem_filter.mp hω).2
    rfl
  rw [Finset.sum_congr rfl h2]
  exact h1

/-- Circuits exist for all draws. -/
theorem circuits_exist (hN : 0 < N) {epsilon : ℝ} (he : 0 < epsilon) :
    ∃ (gs gs' : CallDraw N epsilon → List DGate) (phases : CallDraw N epsilon → List (List ℝ)),
      (∀ e, twoDesign N epsilon (drawsOf e) = .ok (gs e, phases e)) ∧ ∀ e, inverseDesign N (phases e) = .ok (gs' e) := by
  choose r hr using fun e : CallDraw N epsilon => (C42_accepted (N := N) epsilon (drawsOf e)).mpr ⟨he, hN⟩
  have hr' : ∀ e, twoDesign N epsilon (drawsOf e) = .ok ((r e).1, (r e).2) := hr
  choose gs' h1 _ using fun e => C42_inverse (hr' e)
  exact ⟨fun e => (r e).1, gs', fun e => (r e).2, hr', h1⟩

/-- What trial `t` reports, whatever the state of the register before it. -/
theorem trial_reports {Ω : Type} [Fintype Ω] {P : Ω → ℝ} {K : Fin J → Matrix (Fin N → ZMod 2) (Fin N → ZMod 2) ℂ}
    {epsilon : ℝ} {n : ℕ} {draw : Ω → ℕ → CallDraw N epsilon} {kraus : Ω → ℕ → Fin J} {w : Ω → World N}
    (hr : RandomRuns P K epsilon n draw kraus w)
    {gs gs' : CallDraw N epsilon → List DGate} {phases : CallDraw N epsilon → List (List ℝ)}
    (h : ∀ e, twoDesign N epsilon (drawsOf e) = .ok (gs e, phases e))
    (h' : ∀ e, inverseDesign N (phases e) = .ok (gs' e)) (ω : Ω) {t : ℕ} (ht : t < n) (cheat : Bool) (χ : Amp N) :
    trial false cheat epsilon (w ω) t χ =
      .ok (ket ((w ω).outcome t (runD (gs' (draw ω t)) (direction ((K (kraus ω t)).mulVec (runD (gs (draw ω t)) (ket 0)))))),
        decide ((w ω).outcome t (runD (gs' (draw ω t)) (direction ((K (kraus ω t)).mulVec (runD (gs (draw ω t)) (ket 0))))) = 0)) := by
  unfold trial
  rw [hr.draws ω t ht, h]
  simp only [bind, Except.bind, hr.channel ω t ht, h', setRegisterToZero, Bool.false_eq_true, if_false]
  rfl

/-- The estimate for the outcomes of all trials. -/
theorem estimate_value {Ω : Type} [Fintype Ω] {P : Ω → ℝ} {K : Fin J → Matrix (Fin N → ZMod 2) (Fin N → ZMod 2) ℂ}
    {epsilon : ℝ} {n : ℕ} {draw : Ω → ℕ → CallDraw N epsilon} {kraus : Ω → ℕ → Fin J} {w : Ω → World N}
    (hr : RandomRuns P K epsilon n draw kraus w)
    {gs gs' : CallDraw N epsilon → List DGate} {phases : CallDraw N epsilon → List (List ℝ)}
    (h : ∀ e, twoDesign N epsilon (drawsOf e) = .ok (gs e, phases e))
    (h' : ∀ e, inverseDesign N (phases e) = .ok (gs' e)) (hn : 0 < n) (ω : Ω) (cheat : Bool) (χ : Amp N) :
    estimateFidelity false cheat (w ω) n epsilon χ =
      .ok ((((Finset.range n).filter fun t => (w ω).outcome t (runD (gs' (draw ω t))
        (direction ((K (kraus ω t)).mulVec (runD (gs (draw ω t)) (ket 0))))) = 0).card : ℝ) / n) := by
  refine C43_value hn (fun t => gs (draw ω t)) (fun t => runD (gs' (draw ω t))
    (direction ((K (kraus ω t)).mulVec (runD (gs (draw ω t)) (ket 0))))) χ ?_ ?_
  · intro t ht
    exact ⟨phases (draw ω t), by rw [hr.draws ω t ht, h]⟩
  · intro t ht
    rw [hr.channel ω t ht]
    obtain ⟨gs'', h1, -, h2⟩ := C42_inverse (h (draw ω t))
    rw [h'] at h1
    injection h1 with h1
    rw [h1, h2]

/-- C75.  On a simulator with a noisy channel, whose random draws are uniform and whose measurements follow the Born
rule, the expected value of `estimate_average_fidelity(channel, ntimes, epsilon)` differs from the average fidelity of
the channel by at most `epsilon²`: for every register, channel, number of trials and `epsilon`, whatever the dependence
between the trials and whatever the state of the register at the start. -/
theorem C75_expected (hN : 0 < N) {epsilon : ℝ} (he : 0 < epsilon) {μ : Measure (Amp N)} (hμ : UniformStates μ)
    {K : Fin J → Matrix (Fin N → ZMod 2) (Fin N → ZMod 2) ℂ} (hK : ∑ j, (K j).conjTranspose * K j = 1)
    {Ω : Type} [Fintype Ω] {P : Ω → ℝ} {n : ℕ} (hn : 0 < n) {draw : Ω → ℕ → CallDraw N epsilon}
    {kraus : Ω → ℕ → Fin J} {w : Ω → World N} (hr : RandomRuns P K epsilon n draw kraus w) (cheat : Bool) (χ : Amp N) :
    ∃ E : Ω → ℝ, (∀ ω, estimateFidelity false cheat (w ω) n epsilon χ = .ok (E ω)) ∧
      |∑ ω, P ω * E ω - avgFidelity μ K| ≤ epsilon ^ 2 := by
  obtain ⟨gs, gs', phases, h, h'⟩ := circuits_exist hN he
  refine ⟨_, fun ω => estimate_value hr h h' hn ω cheat χ, ?_⟩
  have hn' : (n : ℝ) ≠ 0 := by exact_mod_cast hn.ne'
  have h1 : ∑ ω, P ω * ((((Finset.range n).filter fun t => (w ω).outcome t (runD (gs' (draw ω t))
        (direction ((K (kraus ω t)).mulVec (runD (gs (draw ω t)) (ket 0))))) = 0).card : ℝ) / n) =
      designFidelity (rounds N epsilon) K := by
    simp only [Finset.card_filter, Nat.cast_sum, Nat.cast_ite, Nat.cast_one, Nat.cast_zero, ← mul_div_assoc,
      Finset.mul_sum, mul_ite, mul_one, mul_zero]
    rw [← Finset.sum_div, Finset.sum_comm]
    have h2 : ∀ t ∈ Finset.range n, (∑ ω, if (w ω).outcome t (runD (gs' (draw ω t))
        (direction ((K (kraus ω t)).mulVec (runD (gs (draw ω t)) (ket 0))))) = 0 then P ω else 0) =
        designFidelity (rounds N epsilon) K := by
      intro t ht
      rw [← Finset.sum_filter]
      exact trial_chance hr h h' (Finset.mem_range.mp ht)
    rw [Finset.sum_congr rfl h2, Finset.sum_const, Finset.card_range, nsmul_eq_mul]
    field_simp
  rw [h1]
  exact rounds_error hN he hμ hK

/-! ### C76: how far the estimate is from its expected value -/

/-- Chebyshev's inequality for the fraction of `n` pairwise independent events of the same probability. -/
theorem chebyshev_fraction {Ω : Type} [Fintype Ω] {P : Ω → ℝ} (hP : ∀ ω, 0 ≤ P ω) (h1 : ∑ ω, P ω = 1) {n : ℕ} (hn : 0 < n)
    {Z : Ω → ℕ → Prop} [∀ ω t, Decidable (Z ω t)] {p : ℝ} (hp : ∀ t < n, ∑ ω with Z ω t, P ω = p)
    (hind : ∀ s < n, ∀ t < n, s ≠ t → ∑ ω with Z ω s ∧ Z ω t, P ω = (∑ ω with Z ω s, P ω) * ∑ ω with Z ω t, P ω)
    {a : ℝ} (ha : 0 < a) :
    ∑ ω with a ≤ |(((Finset.range n).filter fun t => Z ω t).card : ℝ) / n - p|, P ω ≤ 1 / (4 * n * a ^ 2) := by
  have hn' : (0 : ℝ) < n := by exact_mod_cast hn
  set X : Ω → ℕ → ℝ := fun ω t => (if Z ω t then 1 else 0) - p with hX
  have hdev : ∀ ω, (((Finset.range n).filter fun t => Z ω t).card : ℝ) / n - p = (∑ t ∈ Finset.range n, X ω t) / n := by
    intro ω
    rw [hX]
    simp only [Finset.sum_sub_distrib, Finset.sum_const, Finset.card_range, nsmul_eq_mul]
    rw [Finset.card_filter]
    push_cast
    field_simp
  have hcov : ∀ s < n, ∀ t < n, ∑ ω, P ω * (X ω s * X ω t) = if s = t then p * (1 - p) else 0 := by
    intro s hs t ht
    have e1 : ∀ u < n, ∑ ω, P ω * (if Z ω u then 1 else 0) = p := by
      intro u hu
      rw [← hp u hu, Finset.sum_filter]
      simp only [mul_ite, mul_one, mul_zero]
    have e2 : ∑ ω, P ω * (X ω s * X ω t) = ∑ ω, P ω * ((if Z ω s then 1 else 0) * (if Z ω t then 1 else 0)) - p * p := by
      have : ∀ ω, P ω * (X ω s * X ω t) = P ω * ((if Z ω s then 1 else 0) * (if Z ω t then 1 else 0)) -
          p * (P ω * (if Z ω s then 1 else 0)) - p * (P ω * (if Z ω t then 1 else 0)) + p * p * P ω := by
        intro ω; rw [hX]; ring
      simp only [this]
      rw [Finset.sum_add_distrib, Finset.sum_sub_distrib, Finset.sum_sub_distrib, ← Finset.mul_sum, ← Finset.mul_sum,
        ← Finset.mul_sum, e1 s hs, e1 t ht, h1]
      ring
    rw [e2]
    split_ifs with hst
    · subst hst
      have : ∀ ω, P ω * ((if Z ω s then (1 : ℝ) else 0) * (if Z ω s then 1 else 0)) = P ω * (if Z ω s then 1 else 0) := by
        intro ω; split_ifs <;> ring
      simp only [this]
      rw [e1 s hs]
      ring
    · have : ∀ ω, P ω * ((if Z ω s then (1 : ℝ) else 0) * (if Z ω t then 1 else 0)) = if Z ω s ∧ Z ω t then P ω else 0 := by
        intro ω
        by_cases hs : Z ω s <;> by_cases ht : Z ω t <;> simp [hs, ht]
      simp only [this]
      rw [← Finset.sum_filter, hind s hs t ht hst, hp s hs, hp t ht]
      ring
  have hvar : ∑ ω, P ω * ((∑ t ∈ Finset.range n, X ω t) / n) ^ 2 = p * (1 - p) / n := by
    have : ∀ ω, P ω * ((∑ t ∈ Finset.range n, X ω t) / n) ^ 2 =
        (∑ s ∈ Finset.range n, ∑ t ∈ Finset.range n, P ω * (X ω s * X ω t)) / n ^ 2 := by
      intro ω
      rw [div_pow, sq (∑ t ∈ Finset.range n, X ω t), Finset.sum_mul_sum, ← mul_div_assoc]
      simp only [Finset.mul_sum]
    simp only [this]
    rw [← Finset.sum_div, Finset.sum_comm]
    have h2 : ∀ s ∈ Finset.range n, ∑ ω, ∑ t ∈ Finset.range n, P ω * (X ω s * X ω t) = p * (1 - p) := by
      intro s hs
      rw [Finset.sum_comm, Finset.sum_congr rfl fun t ht => hcov s (Finset.mem_range.mp hs) t (Finset.mem_range.mp ht)]
      simp [Finset.mem_range.mp hs]
    rw [Finset.sum_congr rfl h2, Finset.sum_const, Finset.card_range, nsmul_eq_mul]
    field_simp
  have hmark : a ^ 2 * ∑ ω with a ≤ |(((Finset.range n).filter fun t => Z ω t).card : ℝ) / n - p|, P ω ≤
      ∑ ω, P ω * ((∑ t ∈ Finset.range n, X ω t) / n) ^ 2 := by
    rw [Finset.sum_filter, Finset.mul_sum]
    apply Finset.sum_le_sum
    intro ω _
    rw [hdev ω]
    split_ifs with h
    · rw [mul_comm]
      refine mul_le_mul_of_nonneg_left ?_ (hP ω)
      rw [← sq_abs ((∑ t ∈ Finset.range n, X ω t) / n)]
      exact pow_le_pow_left₀ ha.le h 2
    · rw [mul_zero]
      exact mul_nonneg (hP ω) (sq_nonneg _)
  rw [hvar] at hmark
  have hq : p * (1 - p) ≤ 1 / 4 := by nlinarith [sq_nonneg (p - 1 / 2)]
  have h3 : p * (1 - p) / n ≤ 1 / 4 / n := div_le_div_of_nonneg_right hq hn'.le
  rw [show (1 : ℝ) / (4 * n * a ^ 2) = 1 / 4 / n / a ^ 2 by field_simp, le_div_iff₀ (by positivity), mul_comm]
  exact hmark.trans h3

/-- C76.  If moreover the trials are pairwise independent, then the estimate of `n` trials differs from the average
fidelity by `epsilon² + a` or more with the probability `1 / (4 n a²)` at most.  `Z ω t` says that trial `t` reported all
zeros. -/
theorem C76_deviation (hN : 0 < N) {epsilon : ℝ} (he : 0 < epsilon) {μ : Measure (Amp N)} (hμ : UniformStates μ)
    {K : Fin J → Matrix (Fin N → ZMod 2) (Fin N → ZMod 2) ℂ} (hK : ∑ j, (K j).conjTranspose * K j = 1)
    {Ω : Type} [Fintype Ω] {P : Ω → ℝ} {n : ℕ} (hn : 0 < n) {draw : Ω → ℕ → CallDraw N epsilon}
    {kraus : Ω → ℕ → Fin J} {w : Ω → World N} (hr : RandomRuns P K epsilon n draw kraus w) (cheat : Bool) (χ : Amp N)
    {Z : Ω → ℕ → Bool} (hZ : ∀ ω, ∀ t < n, ∃ φ, trial false cheat epsilon (w ω) t (ket 0) = .ok (φ, Z ω t))
    (hind : ∀ s < n, ∀ t < n, s ≠ t →
      ∑ ω with Z ω s = true ∧ Z ω t = true, P ω = (∑ ω with Z ω s = true, P ω) * ∑ ω with Z ω t = true, P ω)
    {a : ℝ} (ha : 0 < a) :
    ∃ E : Ω → ℝ, (∀ ω, estimateFidelity false cheat (w ω) n epsilon χ = .ok (E ω)) ∧
      ∑ ω with epsilon ^ 2 + a ≤ |E ω - avgFidelity μ K|, P ω ≤ 1 / (4 * n * a ^ 2) := by
  obtain ⟨gs, gs', phases, h, h'⟩ := circuits_exist hN he
  have hZ' : ∀ ω, ∀ t < n, (Z ω t = true ↔ (w ω).outcome t (runD (gs' (draw ω t))
        (direction ((K (kraus ω t)).mulVec (runD (gs (draw ω t)) (ket 0))))) = 0) := by
    intro ω t ht
    obtain ⟨φ, hφ⟩ := hZ ω t ht
    rw [trial_reports hr h h' ω ht cheat] at hφ
    injection hφ with hφ
    rw [← (Prod.mk.inj hφ).2, decide_eq_true_iff]
  have hcount : ∀ ω, ((Finset.range n).filter fun t => (w ω).outcome t (runD (gs' (draw ω t))
        (direction ((K (kraus ω t)).mulVec (runD (gs (draw ω t)) (ket 0))))) = 0) =
      (Finset.range n).filter fun t => Z ω t = true := by
    intro ω
    apply Finset.filter_congr
    intro t ht
    rw [hZ' ω t (Finset.mem_range.mp ht)]
  refine ⟨_, fun ω => estimate_value hr h h' hn ω cheat χ, ?_⟩
  simp only [hcount]
  have hp : ∀ t < n, ∑ ω with Z ω t = true, P ω = designFidelity (rounds N epsilon) K := by
    intro t ht
    rw [← trial_chance hr h h' ht]
    apply Finset.sum_congr _ fun _ _ => rfl
    apply Finset.filter_congr
    intro ω _
    rw [hZ' ω t ht]
  have hc := chebyshev_fraction hr.nonneg hr.total hn hp hind ha
  refine le_trans (Finset.sum_le_sum_of_subset_of_nonneg ?_ fun ω _ _ => hr.nonneg ω) hc
  intro ω hω
  rw [Finset.mem_filter] at hω ⊢
  refine ⟨hω.1, ?_⟩
  have hb := rounds_error hN he hμ hK
  have := abs_sub_le ((((Finset.range n).filter fun t => Z ω t = true).card : ℝ) / n)
    (designFidelity (rounds N epsilon) K) (avgFidelity μ K)
  linarith [hω.2]

/-! ### Such runs exist -/

/-- The sum of a product of functions of the coordinates, two of which are weighted. -/
theorem sum_coords {Ω₀ : Type} [Fintype Ω₀] {P : Ω₀ → ℝ} (h1 : ∑ x, P x = 1) {n : ℕ} (g : Fin n → Ω₀ → ℝ) :
    ∑ ω : Fin n → Ω₀, (∏ s, P (ω s)) * ∏ s, g s (ω s) = ∏ s, ∑ x, P x * g s x := by
  rw [Finset.prod_univ_sum]
  simp only [Finset.prod_mul_distrib, Fintype.piFinset_univ]

theorem sum_one_coord {Ω₀ : Type} [Fintype Ω₀] {P : Ω₀ → ℝ} (h1 : ∑ x, P x = 1) {n : ℕ} (t : Fin n) (f : Ω₀ → ℝ) :
    ∑ ω : Fin n → Ω₀, (∏ s, P (ω s)) * f (ω t) = ∑ x, P x * f x := by
  have h := sum_coords h1 (fun s x => if s = t then f x else 1)
  have e1 : ∀ ω : Fin n → Ω₀, ∏ s, (if s = t then f (ω s) else 1) = f (ω t) := fun ω => by
    rw [Finset.prod_ite_eq' Finset.univ t fun s => f (ω s)]; simp
  simp only [e1] at h
  rw [h, Finset.prod_eq_single t]
  · simp
  · intro s _ hs; simp [hs, h1]
  · simp

theorem sum_two_coords {Ω₀ : Type} [Fintype Ω₀] {P : Ω₀ → ℝ} (h1 : ∑ x, P x = 1) {n : ℕ} {t u : Fin n} (htu : t ≠ u)
    (f g : Ω₀ → ℝ) :
    ∑ ω : Fin n → Ω₀, (∏ s, P (ω s)) * (f (ω t) * g (ω u)) = (∑ x, P x * f x) * ∑ x, P x * g x := by
  have h := sum_coords h1 (fun s x => (if s = t then f x else 1) * if s = u then g x else 1)
  have e1 : ∀ ω : Fin n → Ω₀, ∏ s, ((if s = t then f (ω s) else 1) * if s = u then g (ω s) else 1) = f (ω t) * g (ω u) :=
    fun ω => by
      rw [Finset.prod_mul_distrib, Finset.prod_ite_eq' Finset.univ t fun s => f (ω s),
        Finset.prod_ite_eq' Finset.univ u fun s => g (ω s)]
      simp
  simp only [e1] at h
  rw [h, ← Finset.mul_prod_erase Finset.univ _ (Finset.mem_univ t),
    ← Finset.mul_prod_erase (Finset.univ.erase t) _ (Finset.mem_erase.mpr ⟨htu.symm, Finset.mem_univ u⟩)]
  rw [Finset.prod_eq_one]
  · simp [htu, htu.symm]
  · intro s hs
    simp only [Finset.mem_erase, Finset.mem_univ, and_true] at hs
    simp [hs.1, hs.2, h1]

/-- Runs as in the hypotheses of C75 and C76 exist for every register, channel, number of trials and `epsilon`. -/
theorem randomRuns_exist (hN : 0 < N) {epsilon : ℝ} (he : 0 < epsilon)
    {K : Fin J → Matrix (Fin N → ZMod 2) (Fin N → ZMod 2) ℂ} (hK : ∑ j, (K j).conjTranspose * K j = 1) (n : ℕ) :
    ∃ (Ω : Type) (_ : Fintype Ω) (P : Ω → ℝ) (draw : Ω → ℕ → CallDraw N epsilon) (kraus : Ω → ℕ → Fin J) (w : Ω → World N)
      (Z : Ω → ℕ → Bool), RandomRuns P K epsilon n draw kraus w ∧
      (∀ ω, ∀ t < n, ∃ φ, trial false false epsilon (w ω) t (ket 0) = .ok (φ, Z ω t)) ∧
      ∀ s < n, ∀ t < n, s ≠ t →
        ∑ ω with Z ω s = true ∧ Z ω t = true, P ω = (∑ ω with Z ω s = true, P ω) * ∑ ω with Z ω t = true, P ω := by
  obtain ⟨gs, gs', phases, h, h'⟩ := circuits_exist hN he
  have hJ : 0 < J := by
    rcases Nat.eq_zero_or_pos J with rfl | hJ
    · exfalso
      have := congrFun (congrFun hK 0) 0
      simp at this
    · exact hJ
  set C : ℝ := (Fintype.card (CallDraw N epsilon) : ℝ) with hC
  have hC0 : C ≠ 0 := by
    rw [hC]
    exact_mod_cast Fintype.card_ne_zero
  set v : CallDraw N epsilon → Fin J → Amp N := fun e j => (K j).mulVec (runD (gs e) (ket 0)) with hv
  set φ : CallDraw N epsilon → Fin J → Amp N := fun e j => runD (gs' e) (direction (v e j)) with hφ
  have hlen : ∀ e j, lenSq (v e j) * ∑ b, Complex.normSq (φ e j b) = lenSq (v e j) := by
    intro e j
    by_cases h0 : v e j = 0
    · rw [lenSq_eq_zero.mpr h0, zero_mul]
    · obtain ⟨gs'', h1, -, h2⟩ := C42_inverse (h e)
      rw [h' e] at h1
      injection h1 with h1
      subst h1
      have h3 := design_braket (h e) (φ e j) (φ e j)
      rw [h2, braket_self, braket_self] at h3
      have h4 : lenSq (direction (v e j)) = ∑ b, Complex.normSq (φ e j b) := by exact_mod_cast h3
      rw [← h4, direction_len h0, mul_one]
  have hstate : ∀ e, ∑ j, lenSq (v e j) = 1 := by
    intro e
    rw [hv]
    simp only
    rw [kraus_len hK, runD_design (h e), designState_len]
  set P₀ : CallDraw N epsilon × Fin J × (Fin N → ZMod 2) → ℝ :=
    fun x => lenSq (v x.1 x.2.1) / C * Complex.normSq (φ x.1 x.2.1 x.2.2) with hP₀
  have hP₀n : ∀ x, 0 ≤ P₀ x := fun x =>
    mul_nonneg (div_nonneg (lenSq_nonneg _) (Nat.cast_nonneg _)) (Complex.normSq_nonneg _)
  have hrow : ∀ e j, ∑ b, P₀ (e, j, b) = lenSq (v e j) / C := by
    intro e j
    rw [hP₀]
    simp only
    rw [← Finset.mul_sum, div_mul_eq_mul_div, hlen]
  have htot : ∑ x, P₀ x = 1 := by
    rw [← Finset.univ_product_univ, Finset.sum_product]
    simp only [← Finset.univ_product_univ, Finset.sum_product, hrow, ← Finset.sum_div, hstate, Finset.sum_const,
      Finset.card_univ, nsmul_eq_mul, mul_one]
    exact div_self hC0
  set x₀ : CallDraw N epsilon × Fin J × (Fin N → ZMod 2) := (fun _ => (0, fun _ _ => false), ⟨0, hJ⟩, 0)
  let co : (Fin n → CallDraw N epsilon × Fin J × (Fin N → ZMod 2)) → ℕ → CallDraw N epsilon × Fin J × (Fin N → ZMod 2) :=
    fun ω t => if ht : t < n then ω ⟨t, ht⟩ else x₀
  have hco : ∀ ω t (ht : t < n), co ω t = ω ⟨t, ht⟩ := fun ω t ht => dif_pos ht
  have hsum : ∀ t < n, ∀ Q : CallDraw N epsilon × Fin J × (Fin N → ZMod 2) → Prop, ∀ _ : DecidablePred Q,
      ∑ ω with Q (co ω t), ∏ s, P₀ (ω s) = ∑ x, if Q x then P₀ x else 0 := by
    intro t ht Q _
    have := sum_one_coord htot ⟨t, ht⟩ fun x => if Q x then (1 : ℝ) else 0
    simp only [mul_ite, mul_one, mul_zero] at this
    rw [← this, Finset.sum_filter]
    simp only [hco _ t ht]
  have hpick : ∀ (e : CallDraw N epsilon) (j : Fin J) (f : CallDraw N epsilon × Fin J × (Fin N → ZMod 2) → ℝ),
      (∑ x, if x.1 = e ∧ x.2.1 = j then f x else 0) = ∑ b, f (e, j, b) := by
    intro e j f
    rw [← Finset.univ_product_univ, Finset.sum_product]
    rw [Finset.sum_eq_single e]
    · simp only [← Finset.univ_product_univ, Finset.sum_product, true_and]
      rw [Finset.sum_eq_single j]
      · simp
      · intro j' _ hj; simp [hj]
      · simp
    · intro e' _ he; simp [he]
    · simp
  have hlaw : ∀ t < n, ∀ e j, ∑ ω with (co ω t).1 = e ∧ (co ω t).2.1 = j, ∏ s, P₀ (ω s) = lenSq (v e j) / C := by
    intro t ht e j
    rw [hsum t ht (fun x => x.1 = e ∧ x.2.1 = j) inferInstance, hpick, hrow]
  let w : (Fin n → CallDraw N epsilon × Fin J × (Fin N → ZMod 2)) → World N := fun ω =>
    ⟨fun t => drawsOf (co ω t).1, fun t ψ => .ok (direction ((K (co ω t).2.1).mulVec ψ)), fun t _ => (co ω t).2.2⟩
  have hruns : RandomRuns (fun ω => ∏ s, P₀ (ω s)) K epsilon n (fun ω t => (co ω t).1) (fun ω t => (co ω t).2.1) w := by
    refine ⟨fun ω => Finset.prod_nonneg fun s _ => hP₀n _, ?_, fun ω t _ => rfl, fun ω t _ ψ => rfl, ?_, ?_⟩
    · have := sum_coords htot (n := n) fun _ _ => 1
      simpa [htot] using this
    · intro t ht e j g ph hg
      rw [h e] at hg
      injection hg with hg
      rw [← (Prod.mk.inj hg).1]
      exact hlaw t ht e j
    · intro t ht e j g g' ph hg hg' ψ hψ
      rw [h e] at hg
      injection hg with hg
      obtain ⟨rfl, rfl⟩ := Prod.mk.inj hg
      rw [h' e] at hg'
      injection hg' with hg'
      subst hg' hψ
      rw [hlaw t ht e j]
      show ∑ ω with ((co ω t).1 = e ∧ (co ω t).2.1 = j) ∧ (co ω t).2.2 = 0, ∏ s, P₀ (ω s) = _
      rw [hsum t ht (fun x => (x.1 = e ∧ x.2.1 = j) ∧ x.2.2 = 0) inferInstance]
      have e1 : ∀ x : CallDraw N epsilon × Fin J × (Fin N → ZMod 2),
          (if (x.1 = e ∧ x.2.1 = j) ∧ x.2.2 = 0 then P₀ x else 0) =
          if x.1 = e ∧ x.2.1 = j then (if x.2.2 = 0 then P₀ x else 0) else 0 := fun x => ite_and ..
      simp only [e1]
      rw [hpick e j fun x => if x.2.2 = 0 then P₀ x else 0]
      simp only [Finset.sum_ite_eq', Finset.mem_univ, if_true]
      rw [mul_comm]
  refine ⟨_, inferInstance, _, _, _, w, fun ω t => decide ((co ω t).2.2 = 0), hruns, ?_, ?_⟩
  · intro ω t ht
    exact ⟨_, trial_reports hruns h h' ω ht false _⟩
  · intro s hs t ht hst
    simp only [decide_eq_true_iff]
    rw [hsum s hs (fun x => x.2.2 = 0) inferInstance, hsum t ht (fun x => x.2.2 = 0) inferInstance]
    have := sum_two_coords htot (t := ⟨s, hs⟩) (u := ⟨t, ht⟩) (by simpa using hst)
      (fun x => if x.2.2 = 0 then (1 : ℝ) else 0) fun x => if x.2.2 = 0 then (1 : ℝ) else 0
    simp only [mul_ite, mul_one, mul_zero] at this
    rw [← this, Finset.sum_filter]
    apply Finset.sum_congr rfl; intro ω _
    simp only [hco _ s hs, hco _ t ht]
    by_cases h1 : (ω ⟨s, hs⟩).2.2 = 0 <;> by_cases h2 : (ω ⟨t, ht⟩).2.2 = 0 <;> simp [h1, h2]

/-- Flipping every qubit. -/
def flipAll (N : ℕ) : Matrix (Fin N → ZMod 2) (Fin N → ZMod 2) ℂ := Matrix.of fun x y => if x = y + 1 then 1 else 0

/-- Every qubit is flipped with the probability 16/25. -/
noncomputable def flipChannel (N : ℕ) : Fin 2 → Matrix (Fin N → ZMod 2) (Fin N → ZMod 2) ℂ :=
  ![(3 / 5 : ℂ) • 1, (4 / 5 : ℂ) • flipAll N]

theorem flipChannel_total (N : ℕ) : ∑ j, (flipChannel N j).conjTranspose * flipChannel N j = 1 := by
  have h : (flipAll N).conjTranspose * flipAll N = 1 := by
    ext x y
    rw [Matrix.mul_apply, Matrix.one_apply]
    simp only [Matrix.conjTranspose_apply, flipAll, Matrix.of_apply, mul_ite, mul_one, mul_zero, Finset.sum_ite_eq',
      Finset.mem_univ, if_true, add_left_inj]
    split_ifs with h1 h2 h2 <;> first | exact absurd h1.symm h2 | exact absurd h2.symm h1 | simp
  rw [Fin.sum_univ_two]
  simp only [flipChannel, Matrix.cons_val_zero, Matrix.cons_val_one, Matrix.conjTranspose_smul, Matrix.smul_mul,
    Matrix.mul_smul, h, Matrix.conjTranspose_one, one_mul, smul_smul, ← add_smul]
  simp
  norm_num

/-- Beside C75 and C76: runs with this channel on three qubits for `epsilon = 1/10`, and the uniform distribution of
states. -/
example (n : ℕ) (hn : 0 < n) (χ : Amp 3) : ∃ (Ω : Type) (_ : Fintype Ω) (P : Ω → ℝ) (w : Ω → World 3) (E : Ω → ℝ),
    (∀ ω, estimateFidelity false false (w ω) n (1 / 10) χ = .ok (E ω)) ∧
      |∑ ω, P ω * E ω - avgFidelity (uniformMeasure 3) (flipChannel 3)| ≤ (1 / 10) ^ 2 ∧
      ∑ ω with (1 / 10 : ℝ) ^ 2 + 1 / 10 ≤ |E ω - avgFidelity (uniformMeasure 3) (flipChannel 3)|, P ω ≤
        1 / (4 * n * (1 / 10) ^ 2) := by
  obtain ⟨Ω, _, P, draw, kraus, w, Z, hr, hZ, hind⟩ :=
    randomRuns_exist (N := 3) (by norm_num) (epsilon := 1 / 10) (by norm_num) (flipChannel_total 3) n
  obtain ⟨E, h1, h2⟩ := C75_expected (by norm_num) (by norm_num) (uniformStates_uniformMeasure 3) (flipChannel_total 3) hn
    hr false χ
  obtain ⟨E', h3, h4⟩ := C76_deviation (by norm_num) (by norm_num) (uniformStates_uniformMeasure 3) (flipChannel_total 3) hn
    hr false χ hZ hind (a := 1 / 10) (by norm_num)
  have : E' = E := by
    funext ω
    have := (h3 ω).symm.trans (h1 ω)
    injection this
  rw [this] at h4
  exact ⟨Ω, _, P, w, E, h1, h2, h4⟩

end PyQ
