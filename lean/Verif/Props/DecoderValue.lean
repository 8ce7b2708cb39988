import Verif.Props.DecoderInfo

/-!
# C120: the value of the search for a decoder belongs to the channel
-/

namespace PyQ

open Matrix Spec
open scoped ComplexOrder

/-- The entanglement fidelity in terms of the channels alone. -/
theorem entangFidelity_eq {ι κ : Type} [Fintype ι] [Fintype κ] {s N : ℕ} (R : ι → Matrix (Fin s) (Fin N) ℂ)
    (K : κ → Matrix (Fin N) (Fin s) ℂ) : ((entangFidelity R K : ℝ) : ℂ) =
      (∑ y, ∑ y', applyKraus R (applyKraus K (Matrix.single y y' (1 : ℂ))) y y') / (s : ℂ) ^ 2 := by
  have h1 : ∀ (A : Matrix (Fin s) (Fin s) ℂ), ((‖trace A‖ ^ 2 : ℝ) : ℂ) =
      ∑ y, ∑ y', (A * Matrix.single y y' (1 : ℂ) * Aᴴ : Matrix (Fin s) (Fin s) ℂ) y y' := by
    intro A
    have h2 : ∀ y y', (A * Matrix.single y y' (1 : ℂ) * Aᴴ : Matrix (Fin s) (Fin s) ℂ) y y' = A y y * star (A y' y') := by
      intro y y'
      rw [Matrix.mul_apply, Finset.sum_eq_single y']
      · rw [Matrix.mul_single_apply_same, mul_one, conjTranspose_apply]
      · intro z _ hz
        rw [Matrix.mul_single_apply_of_ne (hbj := hz), zero_mul]
      · simp
    simp only [h2]
    rw [← Finset.sum_mul_sum, ← star_sum, Complex.ofReal_pow, ← Complex.conj_mul', mul_comm]
    rfl
  unfold entangFidelity
  rw [Complex.ofReal_div, Complex.ofReal_pow, Complex.ofReal_natCast, Complex.ofReal_sum]
  congr 1
  simp only [Complex.ofReal_sum, h1, ← applyKraus_comp]
  unfold applyKraus
  simp only [Matrix.sum_apply]
  rw [← Fintype.sum_prod_type' (f := fun a b => ∑ y, ∑ y', (R a * K b * Matrix.single y y' (1 : ℂ) * (R a * K b)ᴴ : Matrix _ _ ℂ) y y'),
    Finset.sum_comm]
  refine Finset.sum_congr rfl fun y _ => ?_
  rw [Finset.sum_comm]

/-- The fidelity depends on the operators of the noise only through its action. -/
theorem entangFidelity_congr {ι κ κ' : Type} [Fintype ι] [Fintype κ] [Fintype κ'] {s N : ℕ} (R : ι → Matrix (Fin s) (Fin N) ℂ)
    {K : κ → Matrix (Fin N) (Fin s) ℂ} {K' : κ' → Matrix (Fin N) (Fin s) ℂ}
    (h : ∀ y y', applyKraus K (Matrix.single y y' (1 : ℂ)) = applyKraus K' (Matrix.single y y' (1 : ℂ))) :
    entangFidelity R K = entangFidelity R K' := by
  have := entangFidelity_eq R K
  simp only [h] at this
  rw [← entangFidelity_eq R K'] at this
  exact_mod_cast this

/-- The operators of a channel followed by another, with any dimensions. -/
noncomputable def thenDec {l k s m N : ℕ} (R : Fin l → Matrix (Fin s) (Fin m) ℂ) (M : Fin k → Matrix (Fin m) (Fin N) ℂ) :
    Fin (l * k) → Matrix (Fin s) (Fin N) ℂ := fun i => R (finProdFinEquiv.symm i).1 * M (finProdFinEquiv.symm i).2

theorem thenDec_sum {l k s m N : ℕ} {T : Type} [AddCommMonoid T] (R : Fin l → Matrix (Fin s) (Fin m) ℂ)
    (M : Fin k → Matrix (Fin m) (Fin N) ℂ) (f : Matrix (Fin s) (Fin N) ℂ → T) :
    ∑ i, f (thenDec R M i) = ∑ j, ∑ k, f (R j * M k) := by
  rw [← Fintype.sum_prod_type', ← finProdFinEquiv.sum_comp]
  simp [thenDec]

theorem thenDec_apply {l k s m N : ℕ} (R : Fin l → Matrix (Fin s) (Fin m) ℂ) (M : Fin k → Matrix (Fin m) (Fin N) ℂ)
    (ρ : Matrix (Fin N) (Fin N) ℂ) : applyKraus (thenDec R M) ρ = applyKraus R (applyKraus M ρ) := by
  rw [← applyKraus_comp]
  unfold applyKraus
  rw [thenDec_sum R M fun A => A * ρ * Aᴴ, Fintype.sum_prod_type]

theorem thenDec_tp {l k s m N : ℕ} {R : Fin l → Matrix (Fin s) (Fin m) ℂ} {M : Fin k → Matrix (Fin m) (Fin N) ℂ}
    (hR : TracePreserving R) (hM : TracePreserving M) : TracePreserving (thenDec R M) := by
  unfold TracePreserving
  rw [thenDec_sum R M fun A => Aᴴ * A, Finset.sum_comm]
  have : ∀ k, ∑ j, (R j * M k)ᴴ * (R j * M k) = (M k)ᴴ * M k := by
    intro k
    simp only [conjTranspose_mul, Matrix.mul_assoc]
    simp only [← Matrix.mul_assoc (R _)ᴴ]
    rw [← Matrix.mul_sum, ← Matrix.sum_mul, hR, Matrix.one_mul]
  simp only [this]
  exact hM

/-- Further noise can be counted as part of the decoder. -/
theorem entangFidelity_then {l k s m N : ℕ} {κ κ' : Type} [Fintype κ] [Fintype κ'] (R : Fin l → Matrix (Fin s) (Fin m) ℂ)
    (M : Fin k → Matrix (Fin m) (Fin N) ℂ) {K : κ → Matrix (Fin N) (Fin s) ℂ} {K' : κ' → Matrix (Fin m) (Fin s) ℂ}
    (h : ∀ ρ, applyKraus K' ρ = applyKraus M (applyKraus K ρ)) : entangFidelity R K' = entangFidelity (thenDec R M) K := by
  have h1 := entangFidelity_eq R K'
  have h2 := entangFidelity_eq (thenDec R M) K
  simp only [h, ← thenDec_apply] at h1
  rw [← h2] at h1
  exact_mod_cast h1

/-- Decoders for the factors make a decoder for the product. -/
theorem entangFidelity_pow {l k s N : ℕ} (R : Fin l → Matrix (Fin s) (Fin N) ℂ) (K : Fin k → Matrix (Fin N) (Fin s) ℂ) (n : ℕ) :
    entangFidelity (tensorPow R n) (tensorPow K n) = entangFidelity R K ^ n := by
  unfold entangFidelity
  have h1 : ∀ a b, ‖trace (tensorPow R n a * tensorPow K n b)‖ ^ 2 = ∏ t, ‖trace (R (digit a t) * K (digit b t))‖ ^ 2 := by
    intro a b
    unfold tensorPow
    rw [tensorProd_mul, tensorProd_trace, norm_prod, Finset.prod_pow]
  simp only [h1]
  rw [sum_digits fun (x : Fin n → Fin l) => ∑ b : Fin (k ^ n), ∏ t, ‖trace (R (x t) * K (digit b t))‖ ^ 2]
  have h2 : ∀ x : Fin n → Fin l, ∑ b : Fin (k ^ n), ∏ t, ‖trace (R (x t) * K (digit b t))‖ ^ 2 =
      ∏ t, ∑ b, ‖trace (R (x t) * K b)‖ ^ 2 := by
    intro x
    rw [sum_digits fun (y : Fin n → Fin k) => ∏ t, ‖trace (R (x t) * K (y t))‖ ^ 2, Finset.prod_univ_sum]
    simp
  simp only [h2]
  rw [div_pow, ← pow_mul, mul_comm 2 n, pow_mul, Nat.cast_pow]
  congr 1
  have := Finset.prod_univ_sum (fun _ : Fin n => (Finset.univ : Finset (Fin l))) fun _ a => ∑ b, ‖trace (R a * K b)‖ ^ 2
  rw [Finset.prod_const, Finset.card_univ, Fintype.card_fin] at this
  rw [this]
  simp

/-- Two products. -/
theorem entangFidelity_kron {l k s N l' k' s' N' : ℕ} (R : Fin l → Matrix (Fin s) (Fin N) ℂ) (K : Fin k → Matrix (Fin N) (Fin s) ℂ)
    (R' : Fin l' → Matrix (Fin s') (Fin N') ℂ) (K' : Fin k' → Matrix (Fin N') (Fin s') ℂ) :
    entangFidelity (fun i : Fin (l * l') => kron (R i.divNat) (R' i.modNat)) (fun i : Fin (k * k') => kron (K i.divNat) (K' i.modNat)) =
      entangFidelity R K * entangFidelity R' K' := by
  have htr : ∀ (A : Matrix (Fin s) (Fin s) ℂ) (B : Matrix (Fin s') (Fin s') ℂ), trace (kron A B) = trace A * trace B := by
    intro A B
    simp only [trace, Matrix.diag, kron]
    rw [Finset.sum_mul_sum, ← sum_finProd]
  unfold entangFidelity
  simp only [kron_mul, htr, norm_mul, mul_pow]
  rw [div_mul_div_comm, Nat.cast_mul, mul_pow]
  congr 1
  have h1 : ∀ i : Fin (l * l'), ∑ x : Fin (k * k'), ‖trace (R i.divNat * K x.divNat)‖ ^ 2 * ‖trace (R' i.modNat * K' x.modNat)‖ ^ 2 =
      (∑ x, ‖trace (R i.divNat * K x)‖ ^ 2) * ∑ x, ‖trace (R' i.modNat * K' x)‖ ^ 2 := by
    intro i
    rw [Finset.sum_mul_sum, ← sum_finProd]
  simp only [h1]
  rw [Finset.sum_mul_sum, ← sum_finProd]

/-- A decoder that ignores what it gets. -/
theorem exists_ignore {k N M : ℕ} (hN : 0 < N) {K : Fin k → Matrix (Fin M) (Fin N) ℂ} (hK : TracePreserving K) :
    ∃ (l : ℕ) (R : Fin l → Matrix (Fin N) (Fin M) ℂ), TracePreserving R ∧ entangFidelity R K = 1 / (N : ℝ) ^ 2 := by
  have hN' : (N : ℝ) ≠ 0 := Nat.cast_ne_zero.mpr hN.ne'
  let R : Fin (N * M) → Matrix (Fin N) (Fin M) ℂ := fun i =>
    Matrix.single (finProdFinEquiv.symm i).1 (finProdFinEquiv.symm i).2 ((Real.sqrt (N : ℝ)⁻¹ : ℝ) : ℂ)
  have hsum : ∀ {T : Type} [AddCommMonoid T] (f : Fin N → Fin M → T),
      ∑ i : Fin (N * M), f (finProdFinEquiv.symm i).1 (finProdFinEquiv.symm i).2 = ∑ x, ∑ y, f x y := by
    intro T _ f
    rw [← Fintype.sum_prod_type' (f := f), ← finProdFinEquiv.sum_comp]
    simp
  have hsq : ((Real.sqrt (N : ℝ)⁻¹ : ℝ) : ℂ) * ((Real.sqrt (N : ℝ)⁻¹ : ℝ) : ℂ) = (N : ℂ)⁻¹ := by
    rw [← Complex.ofReal_mul, Real.mul_self_sqrt (by positivity)]
    push_cast
    rfl
  refine ⟨N * M, R, ?_, ?_⟩
  · unfold TracePreserving
    have h1 : ∀ i, (R i)ᴴ * R i = Matrix.single (finProdFinEquiv.symm i).2 (finProdFinEquiv.symm i).2 ((N : ℂ)⁻¹) := by
      intro i
      simp only [R, conjTranspose_single, Complex.star_def, Complex.conj_ofReal]
      rw [Matrix.single_mul_single_same, hsq]
    simp only [h1]
    rw [hsum fun _ y => Matrix.single y y ((N : ℂ)⁻¹)]
    ext i j
    rw [Finset.sum_const, Finset.card_univ, Fintype.card_fin, Matrix.smul_apply, Matrix.sum_apply, Matrix.one_apply]
    have hN'' : (N : ℂ) ≠ 0 := Nat.cast_ne_zero.mpr hN.ne'
    rcases eq_or_ne i j with rfl | hij
    · rw [Finset.sum_eq_single i]
      · simp [hN'']
      · intro b _ hb; simp [hb]
      · simp
    · rw [Finset.sum_eq_zero]
      · simp [hij]
      · intro b _
        rw [Matrix.single_apply, if_neg]
        rintro ⟨rfl, rfl⟩
        exact hij rfl
  · unfold entangFidelity
    congr 1
    have h1 : ∀ i b, ‖trace (R i * K b)‖ ^ 2 = (N : ℝ)⁻¹ * ‖K b (finProdFinEquiv.symm i).2 (finProdFinEquiv.symm i).1‖ ^ 2 := by
      intro i b
      simp only [R]
      rw [trace_single_mul, smul_eq_mul, norm_mul, mul_pow, Complex.norm_real, Real.norm_of_nonneg (Real.sqrt_nonneg _),
        Real.sq_sqrt (by positivity)]
    simp only [h1]
    rw [hsum fun x y => ∑ b, (N : ℝ)⁻¹ * ‖K b y x‖ ^ 2]
    have h2 : ∀ x : Fin N, ∑ y : Fin M, ∑ b, (N : ℝ)⁻¹ * ‖K b y x‖ ^ 2 = (N : ℝ)⁻¹ := by
      intro x
      have h3 := congrFun (congrFun hK x) x
      rw [Matrix.one_apply_eq, Matrix.sum_apply] at h3
      simp only [Matrix.mul_apply, conjTranspose_apply] at h3
      rw [Finset.sum_comm]
      simp only [← Finset.mul_sum]
      have h4 : (((∑ b, ∑ y, ‖K b y x‖ ^ 2 : ℝ)) : ℂ) = 1 := by
        rw [← h3]
        push_cast
        refine Finset.sum_congr rfl fun b _ => Finset.sum_congr rfl fun y _ => ?_
        rw [← Complex.conj_mul']
        rfl
      have h5 : (∑ b, ∑ y, ‖K b y x‖ ^ 2 : ℝ) = 1 := by exact_mod_cast h4
      rw [h5, mul_one]
    simp only [h2]
    rw [Finset.sum_const, Finset.card_univ, Fintype.card_fin, nsmul_eq_mul, mul_inv_cancel₀ hN']

section

variable {ks cs : List (Arr ℂ)} {q0 q1 di do' q0' q1' di' do'' : ℕ} {sp sp' sp₁ : Bool} {orth orth' orth₁ : List ℕ} {o c r : KrausObj}
  {sol : SdpSolver}

/-- What a channel built from a list of operators does, for any number of uses. -/
theorem list_channel (hne : ks ≠ []) {M N : ℕ} (hM : M = di ^ q0) (hN : N = do' ^ q1) (hsh : ∀ k ∈ ks, k.rows = M ∧ k.cols = N)
    (ho : QChan.ofList sp ks q1 q0 do' di orth = .ok o) (n : ℕ) (hn : 1 ≤ n) (x : Arr ℂ)
    (hr : x.rows = N ^ n) (hc : x.cols = N ^ n) :
    ∃ y, (QChan.channel o x n false).1 = .ok y ∧ y.rows = M ^ n ∧ y.cols = M ^ n ∧
      y.mat (M ^ n) (M ^ n) = applyKraus (tensorPow (fun b : Fin ks.length => ks[b].mat M N) n) (x.mat (N ^ n) (N ^ n)) := by
  subst hM hN
  obtain ⟨A, hA, A1, A2, A3, A4⟩ := arr3_ofList hne hsh
  have hops : A.ops ks.length (di ^ q0) (do' ^ q1) = fun b : Fin ks.length => ks[b].mat (di ^ q0) (do' ^ q1) := by
    funext b
    ext i j
    change A.get b i j = ks[b].get i j
    rw [A4 b b.2]
    rfl
  unfold QChan.ofList at ho
  rw [hA] at ho
  obtain ⟨y, y1, y2, y3, y4⟩ := api_channel ho [] n ⟨by simpa using hn, by simp⟩ x hr hc
  exact ⟨y, y1, y2, y3, by rw [y4, A1, hops]⟩

/-- The same for one use. -/
theorem list_channel_one (hne : ks ≠ []) {M N : ℕ} (hM : M = di ^ q0) (hN : N = do' ^ q1) (hsh : ∀ k ∈ ks, k.rows = M ∧ k.cols = N)
    (ho : QChan.ofList sp ks q1 q0 do' di orth = .ok o) (x : Arr ℂ) (hr : x.rows = N) (hc : x.cols = N) :
    ∃ y, (QChan.channel o x 1 false).1 = .ok y ∧ y.rows = M ∧ y.cols = M ∧
      y.mat M M = applyKraus (fun b : Fin ks.length => ks[b].mat M N) (x.mat N N) := by
  subst hM hN
  obtain ⟨A, hA, A1, A2, A3, A4⟩ := arr3_ofList hne hsh
  have hops : A.ops ks.length (di ^ q0) (do' ^ q1) = fun b : Fin ks.length => ks[b].mat (di ^ q0) (do' ^ q1) := by
    funext b
    ext i j
    change A.get b i j = ks[b].get i j
    rw [A4 b b.2]
    rfl
  unfold QChan.ofList at ho
  rw [hA] at ho
  obtain ⟨y, y1, y2, y3, y4⟩ := api_channel_one ho [] ⟨by simp, by simp⟩ x hr hc
  exact ⟨y, y1, y2, y3, by rw [y4, A1, hops]⟩

/-- The value of the search is `(N / M)²` times the fidelity of a best decoder. -/
theorem search_value (hsol : sol.Correct) (hne : ks ≠ []) {M N : ℕ} (hM : M = di ^ q0) (hN : N = do' ^ q1)
    (hsh : ∀ k ∈ ks, k.rows = M ∧ k.cols = N) (hd : 0 < do') (hdi : 0 < di)
    (hreal : ∀ k ∈ ks, ∀ i < k.rows, ∀ j < k.cols, star (k.get i j) = k.get i j) :
    ∃ (X : Arr ℂ) (v : ℝ) (l : ℕ) (R : Fin l → Matrix (Fin N) (Fin M) ℂ),
      optimizeEntangFid sol ks q0 q1 di do' = .ok (X, v) ∧ TracePreserving R ∧
      (∀ (m : ℕ) (S : Fin m → Matrix (Fin N) (Fin M) ℂ), TracePreserving S →
        entangFidelity S (fun b : Fin ks.length => ks[b].mat M N) ≤ entangFidelity R (fun b : Fin ks.length => ks[b].mat M N)) ∧
      v * ((M : ℝ) / (N : ℝ)) ^ 2 = entangFidelity R (fun b : Fin ks.length => ks[b].mat M N) := by
  subst hM hN
  obtain ⟨X, v, l, R, x1, x2, x3, x4, x5⟩ := C46_solution_partial hsol hne hsh hd hdi hreal
  refine ⟨X, v, l, R, x1, x2, x4, ?_⟩
  have h1 : ((do' ^ q1 : ℕ) : ℝ) ≠ 0 := Nat.cast_ne_zero.mpr (Nat.pow_pos hd).ne'
  have h2 : ((di ^ q0 : ℕ) : ℝ) ≠ 0 := Nat.cast_ne_zero.mpr (Nat.pow_pos hdi).ne'
  rw [x5]
  field_simp

/-! ### The theorems -/

/-- **C120**, further noise.  Two lists of real Kraus operators describe channels `o` and `c`, and `c` does what `o` followed by an
exactly trace preserving channel `r` does.  Then the search for a decoder finds nothing better for `c`: the reported values, in
the units of C46, are ordered. -/
theorem C120_noise {ops₁ : Arr3 ℂ} {a₁ b₁ d₁ e₁ : ℕ} (hsol : sol.Correct) (hd : 0 < do') (hdi : 0 < di) (hdi' : 0 < di')
    (hne : ks ≠ []) (hsh : ∀ k ∈ ks, k.rows = di ^ q0 ∧ k.cols = do' ^ q1)
    (hreal : ∀ k ∈ ks, ∀ i < k.rows, ∀ j < k.cols, star (k.get i j) = k.get i j)
    (ho : QChan.ofList sp ks q1 q0 do' di orth = .ok o)
    (hne' : cs ≠ []) (hsh' : ∀ k ∈ cs, k.rows = di' ^ q0' ∧ k.cols = do' ^ q1)
    (hreal' : ∀ k ∈ cs, ∀ i < k.rows, ∀ j < k.cols, star (k.get i j) = k.get i j)
    (hc : QChan.ofList sp' cs q1 q0' do' di' orth' = .ok c)
    (hr : QChan.init sp₁ ops₁ a₁ b₁ d₁ e₁ orth₁ = .ok r) (hin : d₁ ^ a₁ = di ^ q0) (hout : e₁ ^ b₁ = di' ^ q0')
    (htp : TracePreserving (ops₁.ops ops₁.len (e₁ ^ b₁) (d₁ ^ a₁)))
    (hact : ∀ x : Arr ℂ, x.rows = do' ^ q1 → x.cols = do' ^ q1 → ∃ y z w, (QChan.channel o x 1 false).1 = .ok y ∧
      (QChan.channel r y 1 false).1 = .ok z ∧ (QChan.channel c x 1 false).1 = .ok w ∧ Arr.Same w z) :
    ∃ (X X' : Arr ℂ) (v v' : ℝ), optimizeEntangFid sol ks q0 q1 di do' = .ok (X, v) ∧
      optimizeEntangFid sol cs q0' q1 di' do' = .ok (X', v') ∧
      v' * ((di' ^ q0' : ℕ) : ℝ) ^ 2 ≤ v * ((di ^ q0 : ℕ) : ℝ) ^ 2 := by
  obtain ⟨X, v, l, R, x1, x2, x3, x4⟩ := search_value hsol hne rfl rfl hsh hd hdi hreal
  obtain ⟨X', v', l', R', y1, y2, y3, y4⟩ := search_value hsol hne' rfl rfl hsh' hd hdi' hreal'
  refine ⟨X, X', v, v', x1, y1, ?_⟩
  have hN : 0 < (((do' ^ q1 : ℕ) : ℝ)) ^ 2 := by
    have : 0 < ((do' ^ q1 : ℕ) : ℝ) := Nat.cast_pos.mpr (Nat.pow_pos hd)
    positivity
  rw [div_pow, ← mul_div_assoc] at x4 y4
  rw [← div_le_div_iff_of_pos_right hN, x4, y4]
  rw [hin, hout] at htp
  have key : ∀ ρ, applyKraus (fun b : Fin cs.length => cs[b].mat (di' ^ q0') (do' ^ q1)) ρ =
      applyKraus (ops₁.ops ops₁.len (di' ^ q0') (di ^ q0)) (applyKraus (fun b : Fin ks.length => ks[b].mat (di ^ q0) (do' ^ q1)) ρ) := by
    intro ρ
    obtain ⟨y, z, w, h1, h2, h3, h4⟩ := hact (Arr.ofMat ρ) rfl rfl
    obtain ⟨y', g1, g2, g3, g4⟩ := list_channel_one hne rfl rfl hsh ho (Arr.ofMat ρ) rfl rfl
    obtain ⟨w', k1, k2, k3, k4⟩ := list_channel_one hne' rfl rfl hsh' hc (Arr.ofMat ρ) rfl rfl
    rw [h1] at g1
    injection g1 with g1
    subst g1
    rw [h3] at k1
    injection k1 with k1
    subst k1
    obtain ⟨z', m1, m2, m3, m4⟩ := api_channel_one hr [] ⟨by simp, by simp⟩ y (by rw [hin]; exact g2) (by rw [hin]; exact g3)
    change (QChan.channel r y 1 false).1 = .ok z' at m1
    rw [h2] at m1
    injection m1 with m1
    subst m1
    rw [hin, hout] at m4
    rw [hout] at m2 m3
    rw [Arr.ofMat_mat] at g4 k4
    rw [← k4, ← g4, ← m4]
    rw [Arr.same_iff_mat, k2, k3, m2, m3] at h4
    exact h4.2.2
  rw [entangFidelity_then R' _ key]
  exact x3 _ _ (thenDec_tp y2 htp)

/-- **C120**.  The value of the search belongs to the channel: two lists of real Kraus operators that describe the same channel give
the same value. -/
theorem C120_same_partial (hsol : sol.Correct) (hd : 0 < do') (hdi : 0 < di)
    (hne : ks ≠ []) (hsh : ∀ k ∈ ks, k.rows = di ^ q0 ∧ k.cols = do' ^ q1)
    (hreal : ∀ k ∈ ks, ∀ i < k.rows, ∀ j < k.cols, star (k.get i j) = k.get i j)
    (ho : QChan.ofList sp ks q1 q0 do' di orth = .ok o)
    (hne' : cs ≠ []) (hsh' : ∀ k ∈ cs, k.rows = di ^ q0 ∧ k.cols = do' ^ q1)
    (hreal' : ∀ k ∈ cs, ∀ i < k.rows, ∀ j < k.cols, star (k.get i j) = k.get i j)
    (hc : QChan.ofList sp' cs q1 q0 do' di orth' = .ok c)
    (hact : ∀ x : Arr ℂ, x.rows = do' ^ q1 → x.cols = do' ^ q1 → ∃ y z, (QChan.channel o x 1 false).1 = .ok y ∧
      (QChan.channel c x 1 false).1 = .ok z ∧ Arr.Same y z) :
    ∃ (X X' : Arr ℂ) (v : ℝ), optimizeEntangFid sol ks q0 q1 di do' = .ok (X, v) ∧
      optimizeEntangFid sol cs q0 q1 di do' = .ok (X', v) := by
  obtain ⟨X, v, l, R, x1, x2, x3, x4⟩ := search_value hsol hne rfl rfl hsh hd hdi hreal
  obtain ⟨X', v', l', R', y1, y2, y3, y4⟩ := search_value hsol hne' rfl rfl hsh' hd hdi hreal'
  have hN : 0 < ((do' ^ q1 : ℕ) : ℝ) := Nat.cast_pos.mpr (Nat.pow_pos hd)
  have hM : 0 < ((di ^ q0 : ℕ) : ℝ) := Nat.cast_pos.mpr (Nat.pow_pos hdi)
  have hS : (((di ^ q0 : ℕ) : ℝ) / ((do' ^ q1 : ℕ) : ℝ)) ^ 2 ≠ 0 := by positivity
  have key : ∀ ρ, applyKraus (fun b : Fin ks.length => ks[b].mat (di ^ q0) (do' ^ q1)) ρ =
      applyKraus (fun b : Fin cs.length => cs[b].mat (di ^ q0) (do' ^ q1)) ρ := by
    intro ρ
    obtain ⟨y, w, h1, h3, h4⟩ := hact (Arr.ofMat ρ) rfl rfl
    obtain ⟨y', g1, g2, g3, g4⟩ := list_channel_one hne rfl rfl hsh ho (Arr.ofMat ρ) rfl rfl
    obtain ⟨w', k1, k2, k3, k4⟩ := list_channel_one hne' rfl rfl hsh' hc (Arr.ofMat ρ) rfl rfl
    rw [h1] at g1
    injection g1 with g1
    subst g1
    rw [h3] at k1
    injection k1 with k1
    subst k1
    rw [Arr.ofMat_mat] at g4 k4
    rw [← k4, ← g4]
    rw [Arr.same_iff_mat, k2, k3, g2, g3] at h4
    exact h4.2.2
  have h5 := fun {m : ℕ} (S : Fin m → Matrix (Fin (do' ^ q1)) (Fin (di ^ q0)) ℂ) => entangFidelity_congr S fun y y' => key (Matrix.single y y' 1)
  have h6 : v = v' := by
    refine mul_right_cancel₀ hS ?_
    rw [x4, y4]
    refine le_antisymm ?_ ?_
    · rw [h5]; exact y3 _ _ x2
    · rw [← h5]; exact x3 _ _ y2
  exact ⟨X, X', v, x1, h6 ▸ y1⟩

/-- **C120**, several uses.  If a list of real operators `cs` describes `n` uses of the channel that the list `ks` describes, the
search finds for it at least the `n`-th power of the value it finds for one use. -/
theorem C120_uses (hsol : sol.Correct) (hd : 0 < do') (hdi : 0 < di) (hd' : 0 < do'') (hdi' : 0 < di')
    (hne : ks ≠ []) (hsh : ∀ k ∈ ks, k.rows = di ^ q0 ∧ k.cols = do' ^ q1)
    (hreal : ∀ k ∈ ks, ∀ i < k.rows, ∀ j < k.cols, star (k.get i j) = k.get i j)
    (ho : QChan.ofList sp ks q1 q0 do' di orth = .ok o)
    (hne' : cs ≠ []) (hsh' : ∀ k ∈ cs, k.rows = di' ^ q0' ∧ k.cols = do'' ^ q1')
    (hreal' : ∀ k ∈ cs, ∀ i < k.rows, ∀ j < k.cols, star (k.get i j) = k.get i j)
    (hc : QChan.ofList sp' cs q1' q0' do'' di' orth' = .ok c) (n : ℕ) (hn : 1 ≤ n)
    (hM' : di' ^ q0' = (di ^ q0) ^ n) (hN' : do'' ^ q1' = (do' ^ q1) ^ n)
    (hact : ∀ x : Arr ℂ, x.rows = (do' ^ q1) ^ n → x.cols = (do' ^ q1) ^ n → ∃ y z, (QChan.channel o x n false).1 = .ok y ∧
      (QChan.channel c x 1 false).1 = .ok z ∧ Arr.Same y z) :
    ∃ (X X' : Arr ℂ) (v v' : ℝ), optimizeEntangFid sol ks q0 q1 di do' = .ok (X, v) ∧
      optimizeEntangFid sol cs q0' q1' di' do'' = .ok (X', v') ∧ v ^ n ≤ v' := by
  rw [hM', hN'] at hsh'
  obtain ⟨X, v, l, R, x1, x2, x3, x4⟩ := search_value hsol hne rfl rfl hsh hd hdi hreal
  obtain ⟨X', v', l', R', y1, y2, y3, y4⟩ := search_value hsol hne' hM'.symm hN'.symm hsh' hd' hdi' hreal'
  refine ⟨X, X', v, v', x1, y1, ?_⟩
  have hN : 0 < ((do' ^ q1 : ℕ) : ℝ) := Nat.cast_pos.mpr (Nat.pow_pos hd)
  have hM : 0 < ((di ^ q0 : ℕ) : ℝ) := Nat.cast_pos.mpr (Nat.pow_pos hdi)
  have hS : 0 < ((((di ^ q0 : ℕ) : ℝ) / ((do' ^ q1 : ℕ) : ℝ)) ^ 2) ^ n := by positivity
  have key : ∀ ρ, applyKraus (tensorPow (fun b : Fin ks.length => ks[b].mat (di ^ q0) (do' ^ q1)) n) ρ =
      applyKraus (fun b : Fin cs.length => cs[b].mat ((di ^ q0) ^ n) ((do' ^ q1) ^ n)) ρ := by
    intro ρ
    obtain ⟨y, w, h1, h3, h4⟩ := hact (Arr.ofMat ρ) rfl rfl
    obtain ⟨y', g1, g2, g3, g4⟩ := list_channel hne rfl rfl hsh ho n hn (Arr.ofMat ρ) rfl rfl
    obtain ⟨w', k1, k2, k3, k4⟩ := list_channel_one hne' hM'.symm hN'.symm hsh' hc (Arr.ofMat ρ) rfl rfl
    rw [h1] at g1
    injection g1 with g1
    subst g1
    rw [h3] at k1
    injection k1 with k1
    subst k1
    rw [Arr.ofMat_mat] at g4 k4
    rw [← k4, ← g4]
    rw [Arr.same_iff_mat, k2, k3, g2, g3] at h4
    exact h4.2.2
  refine le_of_mul_le_mul_right ?_ hS
  have hscale : v' * ((((di ^ q0 : ℕ) : ℝ) / ((do' ^ q1 : ℕ) : ℝ)) ^ 2) ^ n =
      entangFidelity R' (fun b : Fin cs.length => cs[b].mat ((di ^ q0) ^ n) ((do' ^ q1) ^ n)) := by
    rw [← y4, ← pow_mul, mul_comm 2 n, pow_mul, div_pow, Nat.cast_pow (di ^ q0), Nat.cast_pow (do' ^ q1)]
  rw [hscale, ← mul_pow, x4, ← entangFidelity_pow, entangFidelity_congr _ fun y y' => key (Matrix.single y y' 1)]
  exact y3 _ _ (tensorPow_tp R n x2)

/-- **C120**, different channels side by side.  If a list of real operators `cs` describes the channels of `ks` and `ks'` side by side
(it takes products of states to the products of the outputs), the search finds for it at least the product of the values. -/
theorem C120_product {ks' : List (Arr ℂ)} {p0 p1 ei eo : ℕ} {o' : KrausObj} {sp'' : Bool} {orth'' : List ℕ}
    (hsol : sol.Correct) (hd : 0 < do') (hdi : 0 < di) (hei : 0 < ei) (heo : 0 < eo) (hd' : 0 < do'') (hdi' : 0 < di')
    (hne : ks ≠ []) (hsh : ∀ k ∈ ks, k.rows = di ^ q0 ∧ k.cols = do' ^ q1)
    (hreal : ∀ k ∈ ks, ∀ i < k.rows, ∀ j < k.cols, star (k.get i j) = k.get i j)
    (ho : QChan.ofList sp ks q1 q0 do' di orth = .ok o)
    (hne₂ : ks' ≠ []) (hsh₂ : ∀ k ∈ ks', k.rows = ei ^ p0 ∧ k.cols = eo ^ p1)
    (hreal₂ : ∀ k ∈ ks', ∀ i < k.rows, ∀ j < k.cols, star (k.get i j) = k.get i j)
    (ho₂ : QChan.ofList sp'' ks' p1 p0 eo ei orth'' = .ok o')
    (hne' : cs ≠ []) (hsh' : ∀ k ∈ cs, k.rows = di' ^ q0' ∧ k.cols = do'' ^ q1')
    (hreal' : ∀ k ∈ cs, ∀ i < k.rows, ∀ j < k.cols, star (k.get i j) = k.get i j)
    (hc : QChan.ofList sp' cs q1' q0' do'' di' orth' = .ok c)
    (hM' : di' ^ q0' = di ^ q0 * ei ^ p0) (hN' : do'' ^ q1' = do' ^ q1 * eo ^ p1)
    (hact : ∀ x x' : Arr ℂ, x.rows = do' ^ q1 → x.cols = do' ^ q1 → x'.rows = eo ^ p1 → x'.cols = eo ^ p1 →
      ∃ y y' z, (QChan.channel o x 1 false).1 = .ok y ∧ (QChan.channel o' x' 1 false).1 = .ok y' ∧
        (QChan.channel c (x.kron x') 1 false).1 = .ok z ∧ Arr.Same z (y.kron y')) :
    ∃ (X X₂ X' : Arr ℂ) (v v₂ v' : ℝ), optimizeEntangFid sol ks q0 q1 di do' = .ok (X, v) ∧
      optimizeEntangFid sol ks' p0 p1 ei eo = .ok (X₂, v₂) ∧
      optimizeEntangFid sol cs q0' q1' di' do'' = .ok (X', v') ∧ v * v₂ ≤ v' := by
  rw [hM', hN'] at hsh'
  obtain ⟨X, v, l, R, x1, x2, x3, x4⟩ := search_value hsol hne rfl rfl hsh hd hdi hreal
  obtain ⟨X₂, v₂, l₂, R₂, z1, z2, z3, z4⟩ := search_value hsol hne₂ rfl rfl hsh₂ heo hei hreal₂
  obtain ⟨X', v', l', R', y1, y2, y3, y4⟩ := search_value hsol hne' hM'.symm hN'.symm hsh' hd' hdi' hreal'
  refine ⟨X, X₂, X', v, v₂, v', x1, z1, y1, ?_⟩
  have hN : 0 < ((do' ^ q1 : ℕ) : ℝ) := Nat.cast_pos.mpr (Nat.pow_pos hd)
  have hM : 0 < ((di ^ q0 : ℕ) : ℝ) := Nat.cast_pos.mpr (Nat.pow_pos hdi)
  have hN₂ : 0 < ((eo ^ p1 : ℕ) : ℝ) := Nat.cast_pos.mpr (Nat.pow_pos heo)
  have hM₂ : 0 < ((ei ^ p0 : ℕ) : ℝ) := Nat.cast_pos.mpr (Nat.pow_pos hei)
  have hS : 0 < (((di ^ q0 : ℕ) : ℝ) / ((do' ^ q1 : ℕ) : ℝ)) ^ 2 * (((ei ^ p0 : ℕ) : ℝ) / ((eo ^ p1 : ℕ) : ℝ)) ^ 2 := by positivity
  have key : ∀ (ρ : Matrix (Fin (do' ^ q1)) (Fin (do' ^ q1)) ℂ) (σ : Matrix (Fin (eo ^ p1)) (Fin (eo ^ p1)) ℂ),
      applyKraus (fun i : Fin (ks.length * ks'.length) => kron (ks[i.divNat].mat (di ^ q0) (do' ^ q1)) (ks'[i.modNat].mat (ei ^ p0) (eo ^ p1)))
        (kron ρ σ) = applyKraus (fun b : Fin cs.length => cs[b].mat (di ^ q0 * ei ^ p0) (do' ^ q1 * eo ^ p1)) (kron ρ σ) := by
    intro ρ σ
    obtain ⟨y, y', w, h1, h2, h3, h4⟩ := hact (Arr.ofMat ρ) (Arr.ofMat σ) rfl rfl rfl rfl
    obtain ⟨u, g1, g2, g3, g4⟩ := list_channel_one hne rfl rfl hsh ho (Arr.ofMat ρ) rfl rfl
    obtain ⟨u', f1, f2, f3, f4⟩ := list_channel_one hne₂ rfl rfl hsh₂ ho₂ (Arr.ofMat σ) rfl rfl
    obtain ⟨w', k1, k2, k3, k4⟩ := list_channel_one hne' hM'.symm hN'.symm hsh' hc ((Arr.ofMat ρ).kron (Arr.ofMat σ)) rfl rfl
    rw [h1] at g1
    injection g1 with g1
    subst g1
    rw [h2] at f1
    injection f1 with f1
    subst f1
    rw [h3] at k1
    injection k1 with k1
    subst k1
    rw [Arr.ofMat_mat] at g4 f4
    rw [arr_kron_mat (Arr.ofMat ρ) (Arr.ofMat σ) (do' ^ q1) (eo ^ p1) (do' ^ q1) (eo ^ p1) rfl rfl, Arr.ofMat_mat, Arr.ofMat_mat] at k4
    rw [← k4]
    rw [applyKraus_kron (fun b : Fin ks.length => ks[b].mat (di ^ q0) (do' ^ q1)) (fun b : Fin ks'.length => ks'[b].mat (ei ^ p0) (eo ^ p1)),
      ← g4, ← f4, ← arr_kron_mat _ _ _ _ _ _ f2 f3]
    rw [Arr.same_iff_mat, k2, k3] at h4
    exact h4.2.2.symm
  have hsingle : ∀ y y' : Fin (do' ^ q1 * eo ^ p1), Matrix.single y y' (1 : ℂ) =
      kron (Matrix.single y.divNat y'.divNat 1) (Matrix.single y.modNat y'.modNat 1) := by
    intro y y'
    ext i j
    have hinj : ∀ a b : Fin (do' ^ q1 * eo ^ p1), a = b ↔ a.divNat = b.divNat ∧ a.modNat = b.modNat := by
      intro a b
      rw [← finProdFinEquiv.symm.injective.eq_iff, Prod.ext_iff]
      rfl
    simp only [kron, Matrix.single_apply, hinj y i, hinj y' j]
    by_cases h1 : y.divNat = i.divNat <;> by_cases h2 : y.modNat = i.modNat <;> by_cases h3 : y'.divNat = j.divNat <;>
      by_cases h4 : y'.modNat = j.modNat <;> simp [h1, h2, h3, h4]
  refine le_of_mul_le_mul_right ?_ hS
  have hscale : v' * ((((di ^ q0 : ℕ) : ℝ) / ((do' ^ q1 : ℕ) : ℝ)) ^ 2 * (((ei ^ p0 : ℕ) : ℝ) / ((eo ^ p1 : ℕ) : ℝ)) ^ 2) =
      entangFidelity R' (fun b : Fin cs.length => cs[b].mat (di ^ q0 * ei ^ p0) (do' ^ q1 * eo ^ p1)) := by
    rw [← y4, ← mul_pow, div_mul_div_comm, Nat.cast_mul (di ^ q0), Nat.cast_mul (do' ^ q1)]
  rw [hscale, mul_mul_mul_comm, x4, z4, ← entangFidelity_kron]
  refine le_trans (le_of_eq (entangFidelity_congr _ fun y y' => ?_)) (y3 _ _ (tp_kron R R₂ x2 z2))
  rw [hsingle y y']
  exact key _ _

/-- **C120**, the range of the values.  For trace preserving noise the reported value, in the units of C46, lies between `1 / N²`,
where `N` is the dimension of the input, and 1. -/
theorem C120_range (hsol : sol.Correct) (hd : 0 < do') (hdi : 0 < di)
    (hne : ks ≠ []) (hsh : ∀ k ∈ ks, k.rows = di ^ q0 ∧ k.cols = do' ^ q1)
    (hreal : ∀ k ∈ ks, ∀ i < k.rows, ∀ j < k.cols, star (k.get i j) = k.get i j)
    (htp : TracePreserving fun b : Fin ks.length => ks[b].mat (di ^ q0) (do' ^ q1)) :
    ∃ (X : Arr ℂ) (v : ℝ), optimizeEntangFid sol ks q0 q1 di do' = .ok (X, v) ∧
      1 / ((do' ^ q1 : ℕ) : ℝ) ^ 2 ≤ v * (((di ^ q0 : ℕ) : ℝ) / ((do' ^ q1 : ℕ) : ℝ)) ^ 2 ∧
      v * (((di ^ q0 : ℕ) : ℝ) / ((do' ^ q1 : ℕ) : ℝ)) ^ 2 ≤ 1 := by
  obtain ⟨X, v, l, R, x1, x2, x3, x4⟩ := search_value hsol hne rfl rfl hsh hd hdi hreal
  obtain ⟨l', S, hS, hS'⟩ := exists_ignore (Nat.pow_pos hd) htp
  refine ⟨X, v, x1, ?_, ?_⟩
  · rw [x4, ← hS']
    exact x3 _ _ hS
  · rw [x4]
    exact entangFidelity_le_one x2 htp

/-- **C120**, refuted for complex operators.  The lists `[1]` and `[i 1]` describe the same channel on a qubit, which does nothing;
the search reports the value 1 for the first and 0 for the second. -/
theorem C120_same_refuted (hsol : sol.Correct) :
    ∃ (o c : KrausObj) (X X' : Arr ℂ),
      QChan.ofList false [⟨2, 2, fun i j => if i = j then 1 else 0⟩] 1 1 2 2 [] = .ok o ∧
      QChan.ofList false [⟨2, 2, fun i j => if i = j then Complex.I else 0⟩] 1 1 2 2 [] = .ok c ∧
      (∀ x : Arr ℂ, x.rows = 2 → x.cols = 2 → ∃ y z, (QChan.channel o x 1 false).1 = .ok y ∧
        (QChan.channel c x 1 false).1 = .ok z ∧ Arr.Same y z ∧ Arr.Same y x) ∧
      optimizeEntangFid sol [⟨2, 2, fun i j => if i = j then 1 else 0⟩] 1 1 2 2 = .ok (X, 1) ∧
      optimizeEntangFid sol [⟨2, 2, fun i j => if i = j then Complex.I else 0⟩] 1 1 2 2 = .ok (X', 0) := by
  obtain ⟨X', v, l, R, h1, rfl, -⟩ := C46_complex_refuted hsol
  have hI : ∀ z : ℂ, z * star z = 1 → ∃ c, QChan.ofList false [⟨2, 2, fun i j => if i = j then z else 0⟩] 1 1 2 2 [] = .ok c ∧
      TracePreserving (fun b : Fin 1 => ([⟨2, 2, fun i j => if i = j then z else 0⟩] : List (Arr ℂ))[b].mat (2 ^ 1) (2 ^ 1)) ∧
      (∀ ρ, applyKraus (fun b : Fin 1 => ([⟨2, 2, fun i j => if i = j then z else 0⟩] : List (Arr ℂ))[b].mat (2 ^ 1) (2 ^ 1)) ρ = ρ) ∧
      ∀ x : Arr ℂ, x.rows = 2 → x.cols = 2 → ∃ y, (QChan.channel c x 1 false).1 = .ok y ∧ Arr.Same y x := by
    intro z hz
    have hmat : (fun b : Fin 1 => ([⟨2, 2, fun i j => if i = j then z else 0⟩] : List (Arr ℂ))[b].mat (2 ^ 1) (2 ^ 1)) = fun _ => z • 1 := by
      funext b
      fin_cases b
      ext i j
      simp only [Arr.mat, Matrix.smul_apply, Matrix.one_apply, smul_eq_mul, Fin.ext_iff]
      change (if (i : ℕ) = j then z else 0) = _
      split_ifs <;> simp
    have hz' : star z * z = 1 := by rw [mul_comm]; exact hz
    have htp : TracePreserving (fun _ : Fin 1 => z • (1 : Matrix (Fin (2 ^ 1)) (Fin (2 ^ 1)) ℂ)) := by
      unfold TracePreserving
      rw [Fin.sum_univ_one, conjTranspose_smul, conjTranspose_one, Matrix.smul_mul, Matrix.one_mul, smul_smul, hz', one_smul]
    have happ : ∀ ρ : Matrix (Fin (2 ^ 1)) (Fin (2 ^ 1)) ℂ, applyKraus (fun _ : Fin 1 => z • (1 : Matrix (Fin (2 ^ 1)) (Fin (2 ^ 1)) ℂ)) ρ = ρ := by
      intro ρ
      unfold applyKraus
      rw [Fin.sum_univ_one, conjTranspose_smul, conjTranspose_one, Matrix.smul_mul, Matrix.one_mul, Matrix.mul_smul, Matrix.mul_one,
        smul_smul, hz', one_smul]
    have hsh : ∀ k ∈ ([⟨2, 2, fun i j => if i = j then z else 0⟩] : List (Arr ℂ)), k.rows = 2 ^ 1 ∧ k.cols = 2 ^ 1 := by simp
    obtain ⟨A, hA, A1, A2, A3, A4⟩ := arr3_ofList (by simp) hsh
    have hops : A.ops 1 (2 ^ 1) (2 ^ 1) = fun _ => z • 1 := by
      rw [← hmat]
      funext b
      ext i j
      change A.get b i j = _
      rw [A4 b b.2]
      rfl
    obtain ⟨c, hc⟩ := init_exact false A 1 1 2 2 [] (by rw [A1]; simp) A3 A2 (by rw [A1]; exact hops ▸ htp)
    have hc' : QChan.ofList false [⟨2, 2, fun i j => if i = j then z else 0⟩] 1 1 2 2 [] = .ok c := by
      unfold QChan.ofList
      rw [hA]
      exact hc
    refine ⟨c, hc', hmat ▸ htp, fun ρ => by rw [hmat]; exact happ ρ, fun x x1 x2 => ?_⟩
    obtain ⟨y, y1, y2, y3, y4⟩ := list_channel_one (by simp) rfl rfl hsh hc' x x1 x2
    refine ⟨y, y1, ?_⟩
    have h5 : (fun b : Fin [(⟨2, 2, fun i j => if i = j then z else 0⟩ : Arr ℂ)].length =>
      [(⟨2, 2, fun i j => if i = j then z else 0⟩ : Arr ℂ)][b].mat (2 ^ 1) (2 ^ 1)) = fun _ => z • 1 := hmat
    rw [h5] at y4
    rw [Arr.same_iff_mat, y2, y3, x1, x2]
    exact ⟨rfl, rfl, y4.trans (happ _)⟩
  obtain ⟨o, o1, o2, o3, o4⟩ := hI 1 (by simp)
  obtain ⟨c, c1, -, -, c4⟩ := hI Complex.I (by simp)
  obtain ⟨X, v, k1, k2, -⟩ := C113_decoder (q0 := 1) (q1 := 1) (di := 2) (do' := 2) hsol
    (ks := [⟨2, 2, fun i j => if i = j then 1 else 0⟩]) (by simp) (by simp) (by norm_num) (by norm_num) (by
      simp only [List.mem_singleton, forall_eq]
      intro i _ j _
      split_ifs <;> simp) o2
  have hv := k2.mpr ⟨1, fun _ => 1, by simp [TracePreserving], fun Y =>
    (congrArg (applyKraus _) (o3 Y)).trans (by simp [applyKraus])⟩
  refine ⟨o, c, X, X', o1, c1, fun x x1 x2 => ?_, ?_, h1⟩
  · obtain ⟨y, y1, y2⟩ := o4 x x1 x2
    obtain ⟨z, z1, z2⟩ := c4 x x1 x2
    exact ⟨y, z, y1, z1, y2.trans z2.symm, y2⟩
  · rw [k1, hv]
    norm_num

/-! ### Instances -/

/-- A list of operators with given matrices. -/
noncomputable def opsList {l M N : ℕ} (K : Fin l → Matrix (Fin M) (Fin N) ℂ) : List (Arr ℂ) := List.ofFn fun i => Arr.ofMat (K i)

/-- Such lists meet the hypotheses on lists if the operators are real and preserve the trace. -/
theorem opsList_ok {l M N : ℕ} (K : Fin l → Matrix (Fin M) (Fin N) ℂ) (hl : 0 < l) (hK : TracePreserving K)
    (hre : ∀ a i j, star (K a i j) = K a i j) (sp : Bool) (hM : M = di ^ q0) (hN : N = do' ^ q1) :
    opsList K ≠ [] ∧ (∀ k ∈ opsList K, k.rows = di ^ q0 ∧ k.cols = do' ^ q1) ∧
      (∀ k ∈ opsList K, ∀ i < k.rows, ∀ j < k.cols, star (k.get i j) = k.get i j) ∧
      TracePreserving (fun b : Fin (opsList K).length => (opsList K)[b].mat (di ^ q0) (do' ^ q1)) ∧
      ∃ o, QChan.ofList sp (opsList K) q1 q0 do' di [] = .ok o ∧
        (∀ x : Arr ℂ, x.rows = N → x.cols = N → ∃ y, (QChan.channel o x 1 false).1 = .ok y ∧ y.rows = M ∧ y.cols = M ∧
          y.mat M M = applyKraus K (x.mat N N)) ∧
        ∀ n, 1 ≤ n → ∀ x : Arr ℂ, x.rows = N ^ n → x.cols = N ^ n → ∃ y, (QChan.channel o x n false).1 = .ok y ∧
          y.rows = M ^ n ∧ y.cols = M ^ n ∧ y.mat (M ^ n) (M ^ n) = applyKraus (tensorPow K n) (x.mat (N ^ n) (N ^ n)) := by
  have hne : opsList K ≠ [] := by
    intro h
    have := congrArg List.length h
    simp [opsList] at this
    omega
  have hsh : ∀ k ∈ opsList K, k.rows = M ∧ k.cols = N := by
    intro k hk
    obtain ⟨i, rfl⟩ := (List.mem_ofFn' _ _).mp hk
    exact ⟨rfl, rfl⟩
  have hmat : ∀ {T : Type} [AddCommMonoid T] (f : Matrix (Fin M) (Fin N) ℂ → T),
      ∑ b : Fin (opsList K).length, f ((opsList K)[b].mat M N) = ∑ a, f (K a) := by
    intro T _ f
    have hlen : (opsList K).length = l := by simp [opsList]
    refine Fintype.sum_equiv (finCongr hlen) _ _ fun b => ?_
    congr 1
    have : (opsList K)[b] = Arr.ofMat (K (finCongr hlen b)) := by
      unfold opsList
      exact List.getElem_ofFn _
    rw [this, Arr.ofMat_mat]
  obtain ⟨A, hA, A1, A2, A3, A4⟩ := arr3_ofList hne hsh
  have hops : A.ops (opsList K).length M N = fun b : Fin (opsList K).length => (opsList K)[b].mat M N := by
    funext b
    ext i j
    change A.get b i j = (opsList K)[b].get i j
    rw [A4 b b.2]
    rfl
  subst hM hN
  have htp : TracePreserving (A.ops A.len (di ^ q0) (do' ^ q1)) := by
    rw [A1, hops]
    unfold TracePreserving
    rw [hmat fun B => Bᴴ * B]
    exact hK
  obtain ⟨o, ho⟩ := init_exact sp A q1 q0 do' di [] (by rw [A1]; exact List.length_pos_iff.mpr hne) A3 A2 htp
  have ho' : QChan.ofList sp (opsList K) q1 q0 do' di [] = .ok o := by
    unfold QChan.ofList
    rw [hA]
    exact ho
  refine ⟨hne, hsh, ?_, by rw [A1, hops] at htp; exact htp, o, ho', fun x x1 x2 => ?_, fun n hn x x1 x2 => ?_⟩
  · intro k hk i hi j hj
    obtain ⟨a, rfl⟩ := (List.mem_ofFn' _ _).mp hk
    have h1 : i < di ^ q0 := hi
    have h2 : j < do' ^ q1 := hj
    have h3 := congrFun (congrFun (Arr.ofMat_mat (K a)) ⟨i, h1⟩) ⟨j, h2⟩
    change (Arr.ofMat (K a)).get i j = _ at h3
    rw [h3]
    exact hre _ _ _
  · obtain ⟨y, y1, y2, y3, y4⟩ := list_channel_one hne rfl rfl hsh ho' x x1 x2
    refine ⟨y, y1, y2, y3, ?_⟩
    rw [y4]
    unfold applyKraus
    exact hmat fun B => B * x.mat (do' ^ q1) (do' ^ q1) * Bᴴ
  · have hlen : (opsList K).length = l := by simp [opsList]
    have hK' : A.ops l (di ^ q0) (do' ^ q1) = K := by
      funext b
      have h1 : A.get b = (opsList K)[b].get := A4 b (by rw [hlen]; exact b.2)
      have h2 : (opsList K)[b] = Arr.ofMat (K b) := by
        unfold opsList
        exact List.getElem_ofFn _
      rw [h2] at h1
      rw [← Arr.ofMat_mat (K b)]
      ext i j
      change A.get b i j = (Arr.ofMat (K b)).get i j
      rw [h1]
    obtain ⟨y, y1, y2, y3, y4⟩ := api_channel ho [] n ⟨by simpa using hn, by simp⟩ x x1 x2
    exact ⟨y, y1, y2, y3, by rw [y4, A1, hlen, hK']⟩

/-- Reading a qubit, as projections. -/
noncomputable def readOps : Fin 2 → Matrix (Fin 2) (Fin 2) ℂ := fun a => Matrix.single a a 1

/-- Reading a qubit, with other operators. -/
noncomputable def readOps' : Fin 2 → Matrix (Fin 2) (Fin 2) ℂ := fun a =>
  Matrix.diagonal fun i => ((![![3 / 5, 4 / 5], ![4 / 5, -3 / 5]] a i : ℝ) : ℂ)

theorem readOps_tp : TracePreserving readOps := by
  unfold TracePreserving
  ext i j
  fin_cases i <;> fin_cases j <;> simp [readOps]

theorem readOps_real (a i j) : star (readOps a i j) = readOps a i j := by
  simp only [readOps, Matrix.single_apply]
  split_ifs <;> simp

theorem readOps'_real (a i j) : star (readOps' a i j) = readOps' a i j := by
  simp only [readOps', Matrix.diagonal_apply]
  split_ifs
  · exact Complex.conj_ofReal _
  · simp

theorem readOps'_conj (a) : (readOps' a)ᴴ = readOps' a := by
  ext i j
  rw [conjTranspose_apply, readOps'_real]
  simp only [readOps', Matrix.diagonal_apply, eq_comm (a := i)]
  split_ifs with h
  · rw [h]
  · rfl

theorem readOps'_tp : TracePreserving readOps' := by
  unfold TracePreserving
  simp only [readOps'_conj]
  rw [Fin.sum_univ_two]
  ext i j
  simp only [readOps', diagonal_mul_diagonal, Matrix.add_apply]
  fin_cases i <;> fin_cases j <;> simp <;> norm_num

theorem readOps_same (ρ : Matrix (Fin 2) (Fin 2) ℂ) : applyKraus readOps ρ = applyKraus readOps' ρ := by
  unfold applyKraus
  simp only [readOps'_conj]
  rw [Fin.sum_univ_two, Fin.sum_univ_two]
  ext i j
  simp only [readOps', diagonal_mul, mul_diagonal, Matrix.add_apply]
  fin_cases i <;> fin_cases j <;>
    simp [readOps] <;> ring

/-- The hypotheses of the theorem on the operators are met by two ways to describe the reading of a qubit. -/
example : ∃ (sol : SdpSolver) (X X' : Arr ℂ) (v : ℝ), sol.Correct ∧ optimizeEntangFid sol (opsList readOps) 1 1 2 2 = .ok (X, v) ∧
    optimizeEntangFid sol (opsList readOps') 1 1 2 2 = .ok (X', v) := by
  obtain ⟨sol, hsol⟩ := exists_sdpSolver
  obtain ⟨h1, h2, h3, h6, o, h4, h5, h7⟩ := opsList_ok (di := 2) (do' := 2) (q0 := 1) (q1 := 1) readOps (by norm_num) readOps_tp readOps_real true
    rfl rfl
  obtain ⟨g1, g2, g3, g6, c, g4, g5, -⟩ := opsList_ok (di := 2) (do' := 2) (q0 := 1) (q1 := 1) readOps' (by norm_num) readOps'_tp readOps'_real
    false rfl rfl
  obtain ⟨X, X', v, k1, k2⟩ := C120_same_partial hsol (by norm_num) (by norm_num) h1 h2 h3 h4 g1 g2 g3 g4 fun x x1 x2 => by
    obtain ⟨y, y1, y2, y3, y4⟩ := h5 x x1 x2
    obtain ⟨z, z1, z2, z3, z4⟩ := g5 x x1 x2
    refine ⟨y, z, y1, z1, ?_⟩
    rw [Arr.same_iff_mat, y2, y3, z2, z3, y4, z4]
    exact ⟨rfl, rfl, readOps_same _⟩
  exact ⟨sol, X, X', v, hsol, k1, k2⟩

/-- The hypotheses of the theorem on further noise are met by the channel that does nothing, followed by the reading of the qubit; the
value found for that is at most 1. -/
example : ∃ (sol : SdpSolver) (X : Arr ℂ) (v : ℝ), sol.Correct ∧ optimizeEntangFid sol (opsList readOps) 1 1 2 2 = .ok (X, v) ∧
    1 / 4 ≤ v ∧ v ≤ 1 := by
  obtain ⟨sol, hsol⟩ := exists_sdpSolver
  have hone : TracePreserving (fun _ : Fin 1 => (1 : Matrix (Fin 2) (Fin 2) ℂ)) := by simp [TracePreserving]
  obtain ⟨h1, h2, h3, h6, o, h4, h5, h7⟩ := opsList_ok (di := 2) (do' := 2) (q0 := 1) (q1 := 1) (fun _ : Fin 1 => (1 : Matrix (Fin 2) (Fin 2) ℂ))
    (by norm_num) hone (by intro a i j; rw [Matrix.one_apply]; split_ifs <;> simp) true rfl rfl
  obtain ⟨g1, g2, g3, g6, c, g4, g5, -⟩ := opsList_ok (di := 2) (do' := 2) (q0 := 1) (q1 := 1) readOps (by norm_num) readOps_tp readOps_real
    false rfl rfl
  obtain ⟨r, hr⟩ := opsArr_init (a := 1) (b := 1) (d := 2) (e := 2) true readOps' (by norm_num) readOps'_tp []
  have hops : (opsArr readOps').ops (opsArr readOps').len (2 ^ 1) (2 ^ 1) = readOps' := opsArr_ops readOps'
  obtain ⟨X, X', v, v', k1, k2, k3⟩ := C120_noise hsol (by norm_num) (by norm_num) (by norm_num) h1 h2 h3 h4 g1 g2 g3 g4 hr rfl rfl
    (by rw [hops]; exact readOps'_tp) fun x x1 x2 => by
    obtain ⟨y, y1, y2, y3, y4⟩ := h5 x x1 x2
    obtain ⟨z, z1, z2, z3, z4⟩ := api_channel_one hr [] ⟨by simp, by simp⟩ y y2 y3
    obtain ⟨w, w1, w2, w3, w4⟩ := g5 x x1 x2
    refine ⟨y, z, w, y1, z1, w1, ?_⟩
    rw [Arr.same_iff_mat, w2, w3, z2, z3, w4]
    refine ⟨rfl, rfl, ?_⟩
    have y5 : y.mat 2 2 = x.mat 2 2 := by
      rw [y4]
      simp [applyKraus]
    rw [hops] at z4
    refine Eq.trans ?_ z4.symm
    rw [readOps_same]
    exact congrArg _ y5.symm
  have hX : v ≤ 1 := by
    obtain ⟨X'', v'', j1, -, j2⟩ := C120_range hsol (by norm_num) (by norm_num) h1 h2 h3 h6
    rw [k1] at j1
    injection j1 with j1
    injection j1 with _ j1
    subst j1
    norm_num at j2
    exact j2
  obtain ⟨X'', v'', j1, j2, -⟩ := C120_range hsol (by norm_num) (by norm_num) g1 g2 g3 g6
  rw [k2] at j1
  injection j1 with j1
  injection j1 with _ j1
  subst j1
  norm_num at k3 j2
  exact ⟨sol, X', v', hsol, k2, j2, k3.trans hX⟩

/-- The hypotheses of the theorem on several uses are met: the reading of two qubits, described by the four projections. -/
example : ∃ (sol : SdpSolver) (X X' : Arr ℂ) (v v' : ℝ), sol.Correct ∧
    optimizeEntangFid sol (opsList readOps) 1 1 2 2 = .ok (X, v) ∧
    optimizeEntangFid sol (opsList (tensorPow readOps 2)) 2 2 2 2 = .ok (X', v') ∧ v ^ 2 ≤ v' := by
  obtain ⟨sol, hsol⟩ := exists_sdpSolver
  obtain ⟨h1, h2, h3, h6, o, h4, h5, h7⟩ := opsList_ok (di := 2) (do' := 2) (q0 := 1) (q1 := 1) readOps (by norm_num) readOps_tp
    readOps_real true rfl rfl
  obtain ⟨g1, g2, g3, g6, c, g4, g5, -⟩ := opsList_ok (di := 2) (do' := 2) (q0 := 2) (q1 := 2) (tensorPow readOps 2) (by norm_num)
    (tensorPow_tp _ 2 readOps_tp) (by
      intro a i j
      simp only [tensorPow, tensorProd, star_prod]
      exact Finset.prod_congr rfl fun t _ => readOps_real _ _ _) false rfl rfl
  obtain ⟨X, X', v, v', k1, k2, k3⟩ := C120_uses hsol (by norm_num) (by norm_num) (by norm_num) (by norm_num) h1 h2 h3 h4 g1 g2 g3 g4 2
    (by norm_num) rfl rfl fun x x1 x2 => by
    obtain ⟨y, y1, y2, y3, y4⟩ := h7 2 (by norm_num) x x1 x2
    obtain ⟨z, z1, z2, z3, z4⟩ := g5 x x1 x2
    refine ⟨y, z, y1, z1, ?_⟩
    rw [Arr.same_iff_mat, y2, y3, z2, z3]
    exact ⟨rfl, rfl, y4.trans z4.symm⟩
  exact ⟨sol, X, X', v, v', hsol, k1, k2, k3⟩

/-- A qubit that is read beside one that is left alone. -/
noncomputable def sideOps : Fin (2 * 1) → Matrix (Fin (2 * 2)) (Fin (2 * 2)) ℂ := fun i => kron (readOps i.divNat) 1

theorem sideOps_tp : TracePreserving sideOps :=
  tp_kron readOps (fun _ : Fin 1 => (1 : Matrix (Fin 2) (Fin 2) ℂ)) readOps_tp (by simp [TracePreserving])

theorem sideOps_real (a i j) : star (sideOps a i j) = sideOps a i j := by
  simp only [sideOps, kron, star_mul', readOps_real, Matrix.one_apply]
  split_ifs <;> simp

theorem sideOps_apply (ρ σ : Matrix (Fin 2) (Fin 2) ℂ) : applyKraus sideOps (kron ρ σ) =
    kron (applyKraus readOps ρ) (applyKraus (fun _ : Fin 1 => (1 : Matrix (Fin 2) (Fin 2) ℂ)) σ) :=
  applyKraus_kron readOps (fun _ : Fin 1 => (1 : Matrix (Fin 2) (Fin 2) ℂ)) ρ σ

/-- The hypotheses of the theorem on channels side by side are met: a qubit that is read beside one that is left alone. -/
example : ∃ (sol : SdpSolver) (X X₂ X' : Arr ℂ) (v v₂ v' : ℝ), sol.Correct ∧
    optimizeEntangFid sol (opsList readOps) 1 1 2 2 = .ok (X, v) ∧
    optimizeEntangFid sol (opsList fun _ : Fin 1 => (1 : Matrix (Fin 2) (Fin 2) ℂ)) 1 1 2 2 = .ok (X₂, v₂) ∧
    optimizeEntangFid sol (opsList sideOps) 2 2 2 2 = .ok (X', v') ∧
    v * v₂ ≤ v' := by
  obtain ⟨sol, hsol⟩ := exists_sdpSolver
  have hone : TracePreserving (fun _ : Fin 1 => (1 : Matrix (Fin 2) (Fin 2) ℂ)) := by simp [TracePreserving]
  have hreal : ∀ i j, star ((1 : Matrix (Fin 2) (Fin 2) ℂ) i j) = (1 : Matrix (Fin 2) (Fin 2) ℂ) i j := by
    intro i j
    rw [Matrix.one_apply]
    split_ifs <;> simp
  obtain ⟨h1, h2, h3, h6, o, h4, h5, h7⟩ := opsList_ok (di := 2) (do' := 2) (q0 := 1) (q1 := 1) readOps (by norm_num) readOps_tp
    readOps_real true rfl rfl
  obtain ⟨f1, f2, f3, f6, o', f4, f5, f7⟩ := opsList_ok (di := 2) (do' := 2) (q0 := 1) (q1 := 1)
    (fun _ : Fin 1 => (1 : Matrix (Fin 2) (Fin 2) ℂ)) (by norm_num) hone (fun _ => hreal) true rfl rfl
  obtain ⟨g1, g2, g3, g6, c, g4, g5, -⟩ := opsList_ok (di := 2) (do' := 2) (q0 := 2) (q1 := 2)
    sideOps (by norm_num) sideOps_tp sideOps_real false rfl rfl
  obtain ⟨X, X₂, X', v, v₂, v', k1, k2, k3, k4⟩ := C120_product hsol (by norm_num) (by norm_num) (by norm_num) (by norm_num) (by norm_num)
    (by norm_num) h1 h2 h3 h4 f1 f2 f3 f4 g1 g2 g3 g4 rfl rfl fun x x' x1 x2 x3 x4 => by
    obtain ⟨y, y1, y2, y3, y4⟩ := h5 x x1 x2
    obtain ⟨w, w1, w2, w3, w4⟩ := f5 x' x3 x4
    obtain ⟨z, z1, z2, z3, z4⟩ := g5 (x.kron x') (by rw [Arr.rows_kron, x1, x3]; rfl) (by rw [Arr.cols_kron, x2, x4]; rfl)
    refine ⟨y, w, z, y1, w1, z1, ?_⟩
    rw [Arr.same_iff_mat, z2, z3, z4, Arr.rows_kron, Arr.cols_kron, y2, y3, w2, w3]
    refine ⟨rfl, rfl, ?_⟩
    rw [arr_kron_mat x x' 2 2 2 2 x3 x4, arr_kron_mat y w 2 2 2 2 w2 w3, y4, w4]
    exact sideOps_apply _ _
  exact ⟨sol, X, X₂, X', v, v₂, v', hsol, k1, k2, k3, k4⟩

end

end PyQ
