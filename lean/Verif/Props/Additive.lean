import Verif.Props.EntropyBounds

/-! # C69: the coherent information of product states adds up -/

namespace PyQ

open Matrix Polynomial
open scoped ComplexOrder

theorem Spec.tensorProd_diagonal {a n : ℕ} (w : Fin n → Fin a → ℂ) :
    Spec.tensorProd (fun t => diagonal (w t)) = diagonal fun x : Fin (a ^ n) => ∏ t, w t (Spec.digit x t) := by
  ext i j
  simp only [Spec.tensorProd]
  by_cases h : i = j
  · subst h; simp
  · rw [diagonal_apply_ne _ h]
    have : ∃ t, Spec.digit i t ≠ Spec.digit j t := by
      by_contra hc
      push Not at hc
      exact h (Spec.digit_injective (funext hc))
    obtain ⟨t, ht⟩ := this
    exact Finset.prod_eq_zero (Finset.mem_univ t) (diagonal_apply_ne _ ht)

theorem Spec.tensorProd_charpoly {a n : ℕ} (A : Fin n → Matrix (Fin a) (Fin a) ℂ) (hA : ∀ t, (A t).IsHermitian) :
    ∃ w : Fin n → Fin a → ℝ, (∀ t, (A t).charpoly = ∏ i, (X - C ((w t i : ℝ) : ℂ))) ∧
      (Spec.tensorProd A).charpoly = ∏ x : Fin (a ^ n), (X - C ((∏ t, w t (Spec.digit x t) : ℝ) : ℂ)) := by
  choose w V h1 h2 h3 h4 using fun t => hermitian_diag (A t) (hA t)
  refine ⟨w, h4, ?_⟩
  have e : Spec.tensorProd A = Spec.tensorProd V * Spec.tensorProd (fun t => diagonal fun i => ((w t i : ℝ) : ℂ)) *
      (Spec.tensorProd V)ᴴ := by
    rw [Spec.tensorProd_conjTranspose, Spec.tensorProd_mul, Spec.tensorProd_mul]
    congr 1
    funext t
    rw [← h3, Matrix.mul_assoc, h2, Matrix.mul_one]
  have hV : (Spec.tensorProd V)ᴴ * Spec.tensorProd V = 1 := by
    rw [Spec.tensorProd_conjTranspose, Spec.tensorProd_mul]
    simp only [h1]
    exact Spec.tensorProd_one
  rw [e, Matrix.charpoly_mul_comm, ← Matrix.mul_assoc, hV, Matrix.one_mul, Spec.tensorProd_diagonal, charpoly_diagonal]
  refine Finset.prod_congr rfl fun x _ => ?_
  push_cast
  rfl

theorem negMulLog_prod {n : ℕ} (p : Fin n → ℝ) :
    Real.negMulLog (∏ t, p t) = ∑ t, ∏ s, if s = t then Real.negMulLog (p s) else p s := by
  by_cases h : ∀ t, p t ≠ 0
  · rw [Real.negMulLog, Real.log_prod fun t _ => h t, Finset.mul_sum]
    refine Finset.sum_congr rfl fun t _ => ?_
    rw [← Finset.mul_prod_erase Finset.univ _ (Finset.mem_univ t),
      ← Finset.mul_prod_erase Finset.univ (fun s => if s = t then Real.negMulLog (p s) else p s) (Finset.mem_univ t),
      if_pos rfl, Real.negMulLog]
    rw [Finset.prod_congr rfl fun s hs => if_neg (Finset.ne_of_mem_erase hs)]
    ring
  · push Not at h
    obtain ⟨s, hs⟩ := h
    rw [Finset.prod_eq_zero (Finset.mem_univ s) hs, Real.negMulLog_zero]
    refine (Finset.sum_eq_zero fun t _ => Finset.prod_eq_zero (Finset.mem_univ s) ?_).symm
    split_ifs
    · rw [hs, Real.negMulLog_zero]
    · exact hs

/-- The entropy of independent distributions is the sum of their entropies. -/
theorem shannon_prod {a n : ℕ} (p : Fin n → Fin a → ℝ) (hp : ∀ t, ∑ i, p t i = 1) :
    ∑ x : Fin (a ^ n), Real.negMulLog (∏ t, p t (Spec.digit x t)) = ∑ t, ∑ i, Real.negMulLog (p t i) := by
  rw [Spec.sum_digits fun g : Fin n → Fin a => Real.negMulLog (∏ t, p t (g t))]
  simp only [negMulLog_prod]
  rw [Finset.sum_comm]
  refine Finset.sum_congr rfl fun t _ => ?_
  have h := Finset.prod_univ_sum (fun _ : Fin n => (Finset.univ : Finset (Fin a)))
    (fun s i => if s = t then Real.negMulLog (p s i) else p s i)
  rw [Fintype.piFinset_univ] at h
  rw [← h, Finset.prod_eq_single t]
  · simp only [if_true]
  · intro s _ hs
    simp only [if_neg hs]
    exact hp s
  · simp

theorem Spec.entropyExchange_tensor {l a b : ℕ} (K : Fin l → Matrix (Fin a) (Fin b) ℂ) (n : ℕ)
    (ρ : Fin n → Matrix (Fin b) (Fin b) ℂ) :
    Spec.entropyExchange (Spec.tensorPow K n) (Spec.tensorProd ρ) =
      Spec.tensorProd fun t => Spec.entropyExchange K (ρ t) := by
  ext i j
  unfold Spec.entropyExchange Spec.tensorPow
  rw [Spec.tensorProd_conjTranspose, Spec.tensorProd_mul, Spec.tensorProd_mul, Spec.tensorProd_trace]
  rfl

/-- The entropy of a tensor product of density matrices, given by any of their eigenvalue lists. -/
theorem entropy_tensor {a n : ℕ} (A : Fin n → Matrix (Fin a) (Fin a) ℂ) (hA : ∀ t, Spec.IsDensity (A t))
    (w : Fin n → Fin a → ℝ) (hw : ∀ t, (A t).charpoly = ∏ i, (X - C ((w t i : ℝ) : ℂ)))
    (v : Fin (a ^ n) → ℝ) (hv : (Spec.tensorProd A).charpoly = ∏ x, (X - C ((v x : ℝ) : ℂ))) :
    Spec.shannon v = ∑ t, Spec.shannon (w t) := by
  obtain ⟨u, h1, h2⟩ := Spec.tensorProd_charpoly A fun t => (hA t).1.isHermitian
  have e0 := sum_eq_of_charpoly (p := 0) (q := 0) hv h2 rfl Real.negMulLog Real.negMulLog_zero
  have e1 : ∀ t, ∑ i, Real.negMulLog (w t i) = ∑ i, Real.negMulLog (u t i) := fun t =>
    sum_eq_of_charpoly (p := 0) (q := 0) (hw t) (h1 t) rfl Real.negMulLog Real.negMulLog_zero
  have hs : ∀ t, ∑ i, u t i = 1 := by
    intro t
    obtain ⟨z, V, k1, k2, k3, k4⟩ := hermitian_diag (A t) (hA t).1.isHermitian
    rw [sum_eq_of_charpoly (p := 0) (q := 0) (h1 t) k4 rfl (fun x => x) rfl]
    have : A t = V * diagonal (fun i => ((z i : ℝ) : ℂ)) * Vᴴ := by
      rw [← k3, Matrix.mul_assoc, k2, Matrix.mul_one]
    have htr : trace (A t) = ∑ i, ((z i : ℝ) : ℂ) := by
      rw [this, trace_mul_comm, ← Matrix.mul_assoc, k1, Matrix.one_mul, trace_diagonal]
    rw [(hA t).2] at htr
    exact_mod_cast htr.symm
  rw [shannon_negMulLog, e0, shannon_prod u hs, Finset.sum_div]
  refine Finset.sum_congr rfl fun t _ => ?_
  rw [shannon_negMulLog, e1]

variable {a b d e : ℕ}

/-- **C69**.  For a trace preserving channel and `n` density matrices, the coherent information of `n` uses on their tensor
product is the sum of the coherent informations of one use on each of them, up to the cut-off of small eigenvalues, which
accounts for at most `4e-9` per eigenvalue. -/
theorem C69_additive {eig : Eigvalsh} (heig : eig.Correct) {sp : Bool} {ops : Arr3 ℂ} {orth : List ℕ} {o : KrausObj}
    (h : QChan.init sp ops a b d e orth = .ok o)
    (ho : sp = true ∨ orth = []) (htp : Spec.TracePreserving (ops.ops ops.len (e ^ b) (d ^ a)))
    (calls calls₁ : List QChan.Call) (n : ℕ) (hsafe : Spec.SafeUses sp (calls.map QChan.Call.uses ++ [n]))
    (hsafe₁ : Spec.SafeUses sp (calls₁.map QChan.Call.uses ++ [1]))
    (R : Fin n → Arr ℂ) (hR : ∀ t, (R t).rows = d ^ a ∧ (R t).cols = d ^ a ∧ Spec.IsDensity ((R t).mat (d ^ a) (d ^ a)))
    (rho : Arr ℂ) (hr : rho.rows = (d ^ a) ^ n) (hc : rho.cols = (d ^ a) ^ n)
    (hprod : rho.mat ((d ^ a) ^ n) ((d ^ a) ^ n) = Spec.tensorProd fun t => (R t).mat (d ^ a) (d ^ a)) :
    ∃ (v : ℝ) (u : Fin n → ℝ), (QChan.coherentInformation eig (QChan.history o calls) rho n false).1 = .ok v ∧
      (∀ t, (QChan.coherentInformation eig (QChan.history o calls₁) (R t) 1 false).1 = .ok (u t)) ∧
      v ≤ ∑ t, u t + ((ops.len ^ n : ℕ) + n * (e ^ b : ℕ)) * (4 / 10 ^ 9) ∧
      ∑ t, u t ≤ v + (((e ^ b) ^ n : ℕ) + n * (ops.len : ℕ)) * (4 / 10 ^ 9) := by
  obtain ⟨out, W, -, x2, x3, x4, w2, w3, w4, hv⟩ := C45_coherent_value (eig := eig) h ho calls n hsafe rho hr hc false
  have hone : ∀ t, ∃ out W, out.rows = e ^ b ∧ out.cols = e ^ b ∧
      out.mat (e ^ b) (e ^ b) = Spec.applyKraus (ops.ops ops.len (e ^ b) (d ^ a)) ((R t).mat (d ^ a) (d ^ a)) ∧
      W.rows = ops.len ∧ W.cols = ops.len ∧
      W.mat ops.len ops.len = Spec.entropyExchange (ops.ops ops.len (e ^ b) (d ^ a)) ((R t).mat (d ^ a) (d ^ a)) ∧
      (QChan.coherentInformation eig (QChan.history o calls₁) (R t) 1 false).1 =
        .ok (entropyOne eig entropyCut out - entropyOne eig entropyCut W) := by
    intro t
    obtain ⟨out, W, -, x2, x3, x4, w2, w3, w4, hv⟩ := C45_coherent_value (eig := eig) h ho calls₁ 1 hsafe₁ (R t)
      (by rw [pow_one]; exact (hR t).1) (by rw [pow_one]; exact (hR t).2.1) false
    rw [tensorPow_one_eq] at x4 w4
    rw [pow_one (d ^ a), pow_one (e ^ b), pow_one ops.len] at x4 w4
    rw [pow_one] at x2 x3 w2 w3
    exact ⟨out, W, x2, x3, x4, w2, w3, w4, by rw [hv, if_neg (by simp)]⟩
  choose out₁ W₁ y2 y3 y4 z2 z3 z4 hu using hone
  have dens : ∀ {l p q : ℕ} (K : Fin l → Matrix (Fin p) (Fin q) ℂ) (ρ : Matrix (Fin q) (Fin q) ℂ),
      Spec.TracePreserving K → Spec.IsDensity ρ →
        Spec.IsDensity (Spec.applyKraus K ρ) ∧ Spec.IsDensity (Spec.entropyExchange K ρ) := by
    intro l p q K ρ hK hρ
    refine ⟨⟨Spec.applyKraus_posSemidef _ hρ.1, (Spec.applyKraus_trace _ hK _).trans hρ.2⟩,
      Spec.exchange_posSemidef _ hρ.1, ?_⟩
    rw [Spec.exchange_trace, Spec.applyKraus_trace _ hK, hρ.2]
  have hrho : Spec.IsDensity (rho.mat ((d ^ a) ^ n) ((d ^ a) ^ n)) := by
    rw [hprod]
    refine ⟨?_, ?_⟩
    · -- a tensor product of positive matrices is positive
      obtain ⟨B, hB⟩ : ∃ B : Fin n → Matrix (Fin (d ^ a)) (Fin (d ^ a)) ℂ, ∀ t, (R t).mat (d ^ a) (d ^ a) = (B t)ᴴ * B t := by
        obtain ⟨sqrtm, hs⟩ := exists_sqrtm
        refine ⟨fun t => (sqrtm (R t)).mat (d ^ a) (d ^ a), fun t => ?_⟩
        obtain ⟨-, -, s3, s4⟩ := hs (R t) _ (hR t).1 (hR t).2.1 (hR t).2.2.1
        rw [s3.isHermitian.eq, s4]
      simp only [hB]
      rw [← Spec.tensorProd_mul, ← Spec.tensorProd_conjTranspose]
      exact posSemidef_conjTranspose_mul_self _
    · rw [Spec.tensorProd_trace]
      exact Finset.prod_eq_one fun t _ => (hR t).2.2.2
  have htp' := Spec.tensorPow_tp _ n htp
  obtain ⟨hO, hE⟩ := dens _ _ htp' hrho
  have hone := fun t => dens _ _ htp (hR t).2.2
  have hO' : Spec.IsDensity (out.mat ((e ^ b) ^ n) ((e ^ b) ^ n)) := by rw [x4]; exact hO
  have hE' : Spec.IsDensity (W.mat (ops.len ^ n) (ops.len ^ n)) := by rw [w4]; exact hE
  have hO₁ : ∀ t, Spec.IsDensity ((out₁ t).mat (e ^ b) (e ^ b)) := fun t => by rw [y4]; exact (hone t).1
  have hE₁ : ∀ t, Spec.IsDensity ((W₁ t).mat ops.len ops.len) := fun t => by rw [z4]; exact (hone t).2
  have S1 : Spec.shannon (fun i : Fin ((e ^ b) ^ n) => eig out i) =
      ∑ t, Spec.shannon (fun i : Fin (e ^ b) => eig (out₁ t) i) := by
    refine entropy_tensor (fun t => (out₁ t).mat (e ^ b) (e ^ b)) hO₁ _
      (fun t => heig (out₁ t) _ (y2 t) (y3 t) (hO₁ t).1.isHermitian) _ ?_
    rw [← heig out _ x2 x3 hO'.1.isHermitian, x4, hprod, Spec.applyKraus_tensor]
    simp only [y4]
  have S2 : Spec.shannon (fun i : Fin (ops.len ^ n) => eig W i) =
      ∑ t, Spec.shannon (fun i : Fin ops.len => eig (W₁ t) i) := by
    refine entropy_tensor (fun t => (W₁ t).mat ops.len ops.len) hE₁ _
      (fun t => heig (W₁ t) _ (z2 t) (z3 t) (hE₁ t).1.isHermitian) _ ?_
    rw [← heig W _ w2 w3 hE'.1.isHermitian, w4, hprod, Spec.entropyExchange_tensor]
    simp only [z4]
  have cut : ∀ (A : Arr ℂ) (m : ℕ), A.rows = m → A.cols = m → Spec.IsDensity (A.mat m m) →
      entropyOne eig entropyCut A ≤ Spec.shannon (fun i : Fin m => eig A i) ∧
      Spec.shannon (fun i : Fin m => eig A i) - m * (4 / 10 ^ 9) ≤ entropyOne eig entropyCut A := by
    intro A m h1 h2 hA
    obtain ⟨s, hs, a1, a2⟩ := C45_cut_off heig A m h1 h2 hA
    rw [entropyList_one eig entropyCut A (h1.trans h2.symm)] at hs
    injection hs with hs
    rw [hs]; exact ⟨a1, a2⟩
  obtain ⟨o1, o2⟩ := cut out _ x2 x3 hO'
  obtain ⟨q1, q2⟩ := cut W _ w2 w3 hE'
  have o3 := fun t => cut (out₁ t) _ (y2 t) (y3 t) (hO₁ t)
  have q3 := fun t => cut (W₁ t) _ (z2 t) (z3 t) (hE₁ t)
  refine ⟨_, _, hv, hu, ?_, ?_⟩
  · rw [if_neg (by simp)]
    have A1 : ∑ t, (Spec.shannon (fun i : Fin (e ^ b) => eig (out₁ t) i) - (e ^ b : ℕ) * (4 / 10 ^ 9)) ≤
        ∑ t, entropyOne eig entropyCut (out₁ t) := Finset.sum_le_sum fun t _ => (o3 t).2
    have A2 : ∑ t, entropyOne eig entropyCut (W₁ t) ≤ ∑ t, Spec.shannon (fun i : Fin ops.len => eig (W₁ t) i) :=
      Finset.sum_le_sum fun t _ => (q3 t).1
    rw [Finset.sum_sub_distrib, Finset.sum_const, Finset.card_univ, Fintype.card_fin, nsmul_eq_mul] at A1
    rw [Finset.sum_sub_distrib]
    linarith
  · rw [if_neg (by simp)]
    have A1 : ∑ t, (Spec.shannon (fun i : Fin ops.len => eig (W₁ t) i) - (ops.len : ℕ) * (4 / 10 ^ 9)) ≤
        ∑ t, entropyOne eig entropyCut (W₁ t) := Finset.sum_le_sum fun t _ => (q3 t).2
    have A2 : ∑ t, entropyOne eig entropyCut (out₁ t) ≤ ∑ t, Spec.shannon (fun i : Fin (e ^ b) => eig (out₁ t) i) :=
      Finset.sum_le_sum fun t _ => (o3 t).1
    rw [Finset.sum_sub_distrib, Finset.sum_const, Finset.card_univ, Fintype.card_fin, nsmul_eq_mul] at A1
    rw [Finset.sum_sub_distrib]
    linarith

theorem coherent_reg {eig : Eigvalsh} {o : KrausObj} {rho : Arr ℂ} {n : ℕ} {v : ℝ}
    (h : (QChan.coherentInformation eig o rho n false).1 = .ok v) :
    (QChan.coherentInformation eig o rho n true).1 = .ok (v / n) := by
  unfold QChan.coherentInformation at h ⊢
  generalize QChan.channel o rho n false = c at h ⊢
  obtain ⟨x, o'⟩ := c
  cases x with
  | error er => cases h
  | ok out =>
    simp only at h ⊢
    generalize QChan.entropyExchange o' rho n = c at h ⊢
    obtain ⟨y, o''⟩ := c
    cases y with
    | error er => cases h
    | ok W =>
      change (do
        let s ← entropyList eig entropyCut [out]
        let t ← entropyList eig entropyCut W
        return if false = true then (s - t) / n else s - t : Except PyErr ℝ) = .ok v at h
      change (do
        let s ← entropyList eig entropyCut [out]
        let t ← entropyList eig entropyCut W
        return if true = true then (s - t) / n else s - t : Except PyErr ℝ) = .ok (v / n)
      generalize entropyList eig entropyCut [out] = s at h ⊢
      generalize entropyList eig entropyCut W = t at h ⊢
      cases s with
      | error er => cases h
      | ok s =>
      cases t with
      | error er => cases h
      | ok t =>
      rw [ok_bind', ok_bind'] at h ⊢
      have := Except.ok.inj h
      rw [if_neg (by simp)] at this
      rw [if_pos rfl, this]; rfl

/-- **C69**, regularised.  With `n` copies of one density matrix the regularised coherent information of `n` uses is the
coherent information of one use, up to the cut-off. -/
theorem C69_regularized {eig : Eigvalsh} (heig : eig.Correct) {sp : Bool} {ops : Arr3 ℂ} {orth : List ℕ} {o : KrausObj}
    (h : QChan.init sp ops a b d e orth = .ok o)
    (ho : sp = true ∨ orth = []) (htp : Spec.TracePreserving (ops.ops ops.len (e ^ b) (d ^ a)))
    (calls calls₁ : List QChan.Call) (n : ℕ) (hsafe : Spec.SafeUses sp (calls.map QChan.Call.uses ++ [n]))
    (hsafe₁ : Spec.SafeUses sp (calls₁.map QChan.Call.uses ++ [1]))
    (rho₁ : Arr ℂ) (hr₁ : rho₁.rows = d ^ a) (hc₁ : rho₁.cols = d ^ a) (hd : Spec.IsDensity (rho₁.mat (d ^ a) (d ^ a)))
    (rho : Arr ℂ) (hr : rho.rows = (d ^ a) ^ n) (hc : rho.cols = (d ^ a) ^ n)
    (hprod : rho.mat ((d ^ a) ^ n) ((d ^ a) ^ n) = Spec.tensorProd fun _ => rho₁.mat (d ^ a) (d ^ a)) :
    ∃ v u : ℝ, (QChan.coherentInformation eig (QChan.history o calls) rho n true).1 = .ok v ∧
      (QChan.coherentInformation eig (QChan.history o calls₁) rho₁ 1 false).1 = .ok u ∧
      v ≤ u + ((ops.len ^ n : ℕ) + n * (e ^ b : ℕ)) * (4 / 10 ^ 9) / n ∧
      u ≤ v + (((e ^ b) ^ n : ℕ) + n * (ops.len : ℕ)) * (4 / 10 ^ 9) / n := by
  have hn : 1 ≤ n := hsafe.1 n (by simp)
  obtain ⟨v, u, hv, hu, h1, h2⟩ := C69_additive heig h ho htp calls calls₁ n hsafe hsafe₁ (fun _ => rho₁)
    (fun _ => ⟨hr₁, hc₁, hd⟩) rho hr hc hprod
  have hpos : (0 : ℝ) < n := by exact_mod_cast hn
  have he : ∀ t t', u t = u t' := fun t t' => Except.ok.inj ((hu t).symm.trans (hu t'))
  have hs : ∑ t, u t = n * u ⟨0, hn⟩ := by
    rw [Finset.sum_congr rfl fun t _ => he t ⟨0, hn⟩]; simp
  rw [hs] at h1 h2
  refine ⟨v / n, u ⟨0, hn⟩, coherent_reg hv, hu ⟨0, hn⟩, ?_, ?_⟩
  · rw [div_le_iff₀ hpos, add_mul, div_mul_cancel₀ _ hpos.ne']
    linarith
  · rw [← add_div, le_div_iff₀ hpos]
    linarith

/-- The hypotheses are met: two uses of the dephasing channel on two copies of the maximally mixed state. -/
example : ∃ o, QChan.init false dephOps 1 1 2 2 [] = .ok o ∧
    Spec.TracePreserving (dephOps.ops dephOps.len (2 ^ 1) (2 ^ 1)) ∧
    Spec.SafeUses false (([] : List QChan.Call).map QChan.Call.uses ++ [2]) ∧
    ∃ rho₁ rho : Arr ℂ, rho₁.rows = 2 ^ 1 ∧ rho₁.cols = 2 ^ 1 ∧ Spec.IsDensity (rho₁.mat (2 ^ 1) (2 ^ 1)) ∧
      rho.rows = (2 ^ 1) ^ 2 ∧ rho.cols = (2 ^ 1) ^ 2 ∧
      rho.mat ((2 ^ 1) ^ 2) ((2 ^ 1) ^ 2) = Spec.tensorProd fun _ : Fin 2 => rho₁.mat (2 ^ 1) (2 ^ 1) := by
  obtain ⟨o, ho⟩ := deph_ok false []
  exact ⟨o, ho, dephOps_tp, by simp [Spec.SafeUses], mixedState, Arr.ofMat (Spec.tensorProd fun _ : Fin 2 => mixedState.mat (2 ^ 1) (2 ^ 1)),
    rfl, rfl, mixedState_density, rfl, rfl, Arr.ofMat_mat _⟩

end PyQ
