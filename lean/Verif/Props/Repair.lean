import Verif.Lemmas.Repair

/-! # C121: what the tolerance of the constructor costs -/

namespace PyQ

open Matrix Spec
open scoped ComplexOrder

section
variable {eig : Eigvalsh}

theorem entropyTerm_near {x : ℝ} (h0 : 0 ≤ x) :
    x * Real.logb 2 x ≤ entropyTerm entropyCut x ∧ entropyTerm entropyCut x - 4 / 10 ^ 9 ≤ x * Real.logb 2 x := by
  have hlog2 : (0 : ℝ) < Real.log 2 := Real.log_pos (by norm_num)
  unfold entropyTerm
  split_ifs with hc
  · exact ⟨le_rfl, by linarith [show (0 : ℝ) ≤ 4 / 10 ^ 9 by norm_num]⟩
  rw [abs_of_nonneg h0, not_lt] at hc
  have hcut1 : entropyCut ≤ 1 := by unfold entropyCut; norm_num
  refine ⟨mul_nonpos_of_nonneg_of_nonpos h0 (Real.logb_nonpos (by norm_num) h0 (hc.trans hcut1)), ?_⟩
  have hcut : entropyCut ≤ Real.exp (-1) := by
    unfold entropyCut
    have : (1 : ℝ) / 4 ≤ Real.exp (-1) := by
      rw [Real.exp_neg, ← one_div]
      apply one_div_le_one_div_of_le (Real.exp_pos 1)
      linarith [Real.exp_one_lt_d9]
    refine le_trans ?_ this
    norm_num
  have hm := Real.mul_log_strictAntiOn.antitoneOn (a := x) (b := entropyCut)
    ⟨h0, hc.trans hcut⟩ ⟨entropyCut_nonneg, hcut⟩ hc
  have hval : -(4 / 10 ^ 9) * Real.log 2 ≤ entropyCut * Real.log entropyCut := by
    unfold entropyCut
    have : Real.log (1 / 10 ^ 10) = -(10 * Real.log 10) := by
      rw [one_div, Real.log_inv, Real.log_pow]; norm_num
    rw [this]
    have h10 : Real.log 10 ≤ 4 * Real.log 2 := by
      rw [show (4 : ℝ) * Real.log 2 = Real.log (2 ^ 4) by rw [Real.log_pow]; norm_num]
      exact Real.log_le_log (by norm_num) (by norm_num)
    nlinarith
  rw [zero_sub, Real.logb, ← mul_div_assoc, le_div_iff₀ hlog2]
  exact hval.trans hm

/-- The effect of the cut-off on a matrix that need not have trace one. -/
theorem entropyOne_cut_psd (heig : eig.Correct) {A : Arr ℂ} {m : ℕ} (h1 : A.rows = m) (h2 : A.cols = m)
    (hA : (A.mat m m).PosSemidef) :
    entropyOne eig entropyCut A ≤ specSum Real.negMulLog (A.mat m m) / Real.log 2 ∧
    specSum Real.negMulLog (A.mat m m) / Real.log 2 - m * (4 / 10 ^ 9) ≤ entropyOne eig entropyCut A := by
  obtain ⟨e1, -⟩ := eigvals_density heig h1 h2 hA
  rw [← shannon_specSum heig h1 h2 hA, entropyOne_eq eig entropyCut A m h1, Spec.shannon]
  refine ⟨neg_le_neg (Finset.sum_le_sum fun i _ => (entropyTerm_near (e1 i)).1), ?_⟩
  have hsum := Finset.sum_le_sum (s := Finset.univ) fun (i : Fin m) _ => (entropyTerm_near (e1 i)).2
  simp only [Finset.sum_sub_distrib, Finset.sum_const, Finset.card_univ, Fintype.card_fin, nsmul_eq_mul] at hsum
  linarith

/-- `coherent_information` of an accepted channel, whether or not it preserves the trace. -/
theorem api_info_near (heig : eig.Correct) {sp : Bool} {ops : Arr3 ℂ} {a b d e : ℕ} {orth : List ℕ} {o : KrausObj}
    (h : QChan.init sp ops a b d e orth = .ok o) (ho : sp = true ∨ orth = []) (calls : List QChan.Call) (n : ℕ)
    (hsafe : SafeUses sp (calls.map QChan.Call.uses ++ [n])) (rho : Arr ℂ) (hr : rho.rows = (d ^ a) ^ n)
    (hc : rho.cols = (d ^ a) ^ n) (hrho : (rho.mat ((d ^ a) ^ n) ((d ^ a) ^ n)).PosSemidef) :
    ∃ v, (QChan.coherentInformation eig (QChan.history o calls) rho n false).1 = .ok v ∧
      v ≤ krausInfo (tensorPow (ops.ops ops.len (e ^ b) (d ^ a)) n) (rho.mat ((d ^ a) ^ n) ((d ^ a) ^ n)) / Real.log 2 +
        (ops.len ^ n : ℕ) * (4 / 10 ^ 9) ∧
      krausInfo (tensorPow (ops.ops ops.len (e ^ b) (d ^ a)) n) (rho.mat ((d ^ a) ^ n) ((d ^ a) ^ n)) / Real.log 2 -
        ((e ^ b) ^ n : ℕ) * (4 / 10 ^ 9) ≤ v := by
  obtain ⟨out, W, -, x2, x3, x4, w2, w3, w4, hv⟩ := C45_coherent_value (eig := eig) h ho calls n hsafe rho hr hc false
  have D1 := applyKraus_posSemidef (tensorPow (ops.ops ops.len (e ^ b) (d ^ a)) n) hrho
  have D2 := exchange_posSemidef (tensorPow (ops.ops ops.len (e ^ b) (d ^ a)) n) hrho
  rw [← x4] at D1
  rw [← w4] at D2
  refine ⟨_, hv, ?_⟩
  obtain ⟨a1, a2⟩ := entropyOne_cut_psd heig x2 x3 D1
  obtain ⟨b1, b2⟩ := entropyOne_cut_psd heig w2 w3 D2
  unfold krausInfo
  rw [if_neg (by simp), ← x4, ← w4, sub_div]
  constructor <;> linarith

variable {sp : Bool} {ops : Arr3 ℂ} {a b d e : ℕ} {orth : List ℕ} {o : KrausObj}

/-- C121.  For every channel that the constructor accepts, of dimension `D` below `10 ^ 5`, there is a channel of the same
shape that preserves the trace exactly and from which it differs little, for every number of uses `n`, every history and
every density matrix: no measurement (an effect `E` with `0 ≤ E ≤ 1`) of the output of `channel` has probabilities that
differ by more than `(1 + D 1e-5) ^ (2 n) - 1`, and with `ε = (1 + D 1e-5) ^ n - 1` the values of `coherent_information`
differ by at most `(4 ε + ε²) (log2 D' + log2 E) + 2 ((1 + T) log2 (1 + T) - T log2 T)`, `T = 3 ε + ε²`, where `D'` is the
dimension of the output and `E` the number of operators of the `n` uses, up to the cut-off of small eigenvalues. -/
theorem C121_exact (h : QChan.init sp ops a b d e orth = .ok o) (hD : d ^ a < 10 ^ 5) :
    ∃ (ops' : Arr3 ℂ) (o' : KrausObj), QChan.init sp ops' a b d e orth = .ok o' ∧ ops'.len = ops.len ∧
      TracePreserving (ops'.ops ops'.len (e ^ b) (d ^ a)) ∧
      ∀ (calls calls' : List QChan.Call) (n : ℕ), SafeUses sp (calls.map QChan.Call.uses ++ [n]) →
        SafeUses sp (calls'.map QChan.Call.uses ++ [n]) → ∀ rho : Arr ℂ, rho.rows = (d ^ a) ^ n → rho.cols = (d ^ a) ^ n →
        IsDensity (rho.mat ((d ^ a) ^ n) ((d ^ a) ^ n)) →
        (∃ out out', (QChan.channel (QChan.history o calls) rho n false).1 = .ok out ∧
          (QChan.channel (QChan.history o' calls') rho n false).1 = .ok out' ∧
          ∀ E : Matrix (Fin ((e ^ b) ^ n)) (Fin ((e ^ b) ^ n)) ℂ, E.PosSemidef → (1 - E).PosSemidef →
            |(trace (E * out.mat ((e ^ b) ^ n) ((e ^ b) ^ n))).re - (trace (E * out'.mat ((e ^ b) ^ n) ((e ^ b) ^ n))).re| ≤
              (1 + (d ^ a : ℕ) / 10 ^ 5) ^ (2 * n) - 1) ∧
        ((sp = true ∨ orth = []) → ∀ eig : Eigvalsh, eig.Correct → ∀ ε : ℝ, ε = (1 + (d ^ a : ℕ) / 10 ^ 5) ^ n - 1 →
          ∃ v w, (QChan.coherentInformation eig (QChan.history o calls) rho n false).1 = .ok v ∧
            (QChan.coherentInformation eig (QChan.history o' calls') rho n false).1 = .ok w ∧
            |v - w| ≤ (4 * ε + ε ^ 2) * (Real.logb 2 ((e ^ b) ^ n : ℕ) + Real.logb 2 (ops.len ^ n : ℕ)) +
              2 * mixingBits (3 * ε + ε ^ 2) + (((e ^ b) ^ n : ℕ) + (ops.len ^ n : ℕ)) * (4 / 10 ^ 9)) := by
  obtain ⟨hl, -, -, hnear⟩ := (qchanInit_iff sp ops a b d e orth).mp ⟨o, h⟩
  obtain ⟨K', V, w, htp, hV1, hV2, hK, hw⟩ := near_factor hnear hD
  obtain ⟨o', ho'⟩ := opsArr_init sp K' hl htp orth
  have hlen : (opsArr K').len = ops.len := rfl
  have hops : (opsArr K').ops (opsArr K').len (e ^ b) (d ^ a) = K' := opsArr_ops K'
  refine ⟨opsArr K', o', ho', hlen, by rw [hops]; exact htp, ?_⟩
  intro calls calls' n hs hs' rho hr hc hrho
  have hn : 1 ≤ n := hs.1 n (by simp)
  have hda : 0 < d ^ a := by
    rcases Nat.eq_zero_or_pos (d ^ a) with h0 | h0
    · have : (d ^ a) ^ n = 0 := by rw [h0, zero_pow (by omega)]
      have ht := hrho.2
      haveI : IsEmpty (Fin ((d ^ a) ^ n)) := by rw [this]; infer_instance
      rw [trace, Finset.univ_eq_empty, Finset.sum_empty] at ht
      exact absurd ht (by norm_num)
    · exact h0
  obtain ⟨U, u, hU1, hU2, hT, hu⟩ := near_factor_pow hV1 hV2 hK hw n
  obtain ⟨c, hcd⟩ : ∃ c : ℝ, c = (1 + (d ^ a : ℕ) / 10 ^ 5) ^ n := ⟨_, rfl⟩
  rw [← hcd] at hu
  have hδ : (0 : ℝ) < (d ^ a : ℕ) / 10 ^ 5 := div_pos (by exact_mod_cast hda) (by norm_num)
  have hc1 : 0 < c - 1 := by
    have : 1 < c := by rw [hcd]; exact one_lt_pow₀ (by linarith) (by omega)
    linarith
  have hactA : ∀ ρ : Matrix (Fin ((d ^ a) ^ n)) (Fin ((d ^ a) ^ n)) ℂ,
      applyKraus (tensorPow (ops.ops ops.len (e ^ b) (d ^ a)) n) ρ =
      applyKraus (tensorPow K' n) (U * diagonal (fun i => (u i : ℂ)) * Uᴴ * ρ * (U * diagonal (fun i => (u i : ℂ)) * Uᴴ)ᴴ) := by
    intro ρ
    unfold applyKraus
    refine Finset.sum_congr rfl fun k _ => ?_
    rw [hT k, conjTranspose_mul (tensorPow K' n k)]
    simp only [Matrix.mul_assoc]
  have hactX : ∀ ρ : Matrix (Fin ((d ^ a) ^ n)) (Fin ((d ^ a) ^ n)) ℂ,
      Spec.entropyExchange (tensorPow (ops.ops ops.len (e ^ b) (d ^ a)) n) ρ =
      Spec.entropyExchange (tensorPow K' n) (U * diagonal (fun i => (u i : ℂ)) * Uᴴ * ρ * (U * diagonal (fun i => (u i : ℂ)) * Uᴴ)ᴴ) := by
    intro ρ
    funext k k'
    unfold Spec.entropyExchange
    rw [hT k, hT k', conjTranspose_mul (tensorPow K' n k')]
    simp only [Matrix.mul_assoc]
  have htpn := tensorPow_tp K' n htp
  generalize hρd : rho.mat ((d ^ a) ^ n) ((d ^ a) ^ n) = ρ at hrho
  obtain ⟨σ, hσ⟩ : ∃ σ, σ = U * diagonal (fun i => (u i : ℂ)) * Uᴴ * ρ * (U * diagonal (fun i => (u i : ℂ)) * Uᴴ)ᴴ := ⟨_, rfl⟩
  have eA := hactA ρ
  have eX := hactX ρ
  rw [← hσ] at eA eX
  constructor
  · obtain ⟨out, y1, -, -, y4⟩ := api_channel h calls n hs rho hr hc
    obtain ⟨out', z1, -, -, z4⟩ := api_channel ho' calls' n hs' rho hr hc
    refine ⟨out, out', y1, z1, fun E hE hE1 => ?_⟩
    have z4' : out'.mat ((e ^ b) ^ n) ((e ^ b) ^ n) = applyKraus (tensorPow K' n) (rho.mat ((d ^ a) ^ n) ((d ^ a) ^ n)) := by
      rw [hops] at z4
      exact z4
    rw [y4, z4', hρd, eA]
    obtain ⟨P, Z, Q, R, hP, hZ, hQ, hR, s1, s2, t1, t2⟩ := filter_split hU1 hU2 hc1 hu hrho
    rw [← hσ] at s1 s2
    have lin : ∀ A B : Matrix (Fin ((d ^ a) ^ n)) (Fin ((d ^ a) ^ n)) ℂ, (trace (E * applyKraus (tensorPow K' n) (A + B))).re =
        (trace (E * applyKraus (tensorPow K' n) A)).re + (trace (E * applyKraus (tensorPow K' n) B)).re := by
      intro A B
      rw [applyKraus_add, Matrix.mul_add, trace_add, Complex.add_re]
    have q1 := congrArg (fun A => (trace (E * applyKraus (tensorPow K' n) A)).re) s1
    have q2 := congrArg (fun A => (trace (E * applyKraus (tensorPow K' n) A)).re) s2
    simp only [lin] at q1 q2
    have b1 := effect_le hE hE1 (applyKraus_posSemidef (tensorPow K' n) hP)
    have b2 := effect_le hE hE1 (applyKraus_posSemidef (tensorPow K' n) hZ)
    have b3 := effect_le hE hE1 (applyKraus_posSemidef (tensorPow K' n) hQ)
    have b4 := effect_le hE hE1 (applyKraus_posSemidef (tensorPow K' n) hR)
    rw [applyKraus_trace _ htpn] at b1 b3
    have e2 : (1 + ((d ^ a : ℕ) : ℝ) / 10 ^ 5) ^ (2 * n) = c ^ 2 := by rw [hcd, ← pow_mul, mul_comm]
    rw [e2, abs_le]
    constructor <;> nlinarith [sq_nonneg (c - 1)]
  · intro horth eig heig ε hε
    obtain ⟨v, v0, v1, v2⟩ := api_info_near heig h horth calls n hs rho hr hc (by rw [hρd]; exact hrho.1)
    obtain ⟨x, x0, x1, x2⟩ := api_info_near heig ho' horth calls' n hs' rho hr hc (by rw [hρd]; exact hrho.1)
    refine ⟨v, x, v0, x0, ?_⟩
    rw [hρd] at v1 v2 x1 x2
    rw [hops] at x1 x2
    have x1' : x ≤ krausInfo (tensorPow K' n) ρ / Real.log 2 + (ops.len ^ n : ℕ) * (4 / 10 ^ 9) := x1
    have x2' : krausInfo (tensorPow K' n) ρ / Real.log 2 - ((e ^ b) ^ n : ℕ) * (4 / 10 ^ 9) ≤ x := x2
    have hk : krausInfo (tensorPow (ops.ops ops.len (e ^ b) (d ^ a)) n) ρ = krausInfo (tensorPow K' n) σ := by
      unfold krausInfo
      rw [eA, eX]
    rw [hk] at v1 v2
    rw [← hcd] at hε
    rw [← hε] at hc1 hu
    have htr : ‖trace σ - 1‖ ≤ ε := by
      have := near_trace (n := n) hnear hrho
      rw [eA, applyKraus_trace _ htpn, ← hcd, ← hε] at this
      exact this
    have hmain := krausInfo_filter (tensorPow K' n) htpn hU1 hU2 hc1 hu hrho hσ htr
    have hlog : 0 < Real.log 2 := Real.log_pos (by norm_num)
    have l1 : 0 ≤ Real.log ((e ^ b) ^ n : ℕ) := Real.log_natCast_nonneg _
    have l2 : 0 ≤ Real.log (ops.len ^ n : ℕ) := Real.log_natCast_nonneg _
    have hmax : max (Real.log ((e ^ b) ^ n : ℕ)) (Real.log (ops.len ^ n : ℕ)) ≤
        Real.log ((e ^ b) ^ n : ℕ) + Real.log (ops.len ^ n : ℕ) := max_le (by linarith) (by linarith)
    have hfin : |krausInfo (tensorPow K' n) σ - krausInfo (tensorPow K' n) ρ| ≤
        (4 * ε + ε ^ 2) * (Real.log ((e ^ b) ^ n : ℕ) + Real.log (ops.len ^ n : ℕ)) + 2 * mixNats (3 * ε + ε ^ 2) := by
      refine hmain.trans ?_
      have := mul_le_mul_of_nonneg_left hmax hc1.le
      linarith
    have hdiv := abs_le.1 hfin
    have d1 := div_le_div_of_nonneg_right hdiv.1 hlog.le
    have d2 := div_le_div_of_nonneg_right hdiv.2 hlog.le
    have e1 : ((4 * ε + ε ^ 2) * (Real.log ((e ^ b) ^ n : ℕ) + Real.log (ops.len ^ n : ℕ)) + 2 * mixNats (3 * ε + ε ^ 2)) /
        Real.log 2 = (4 * ε + ε ^ 2) * (Real.logb 2 ((e ^ b) ^ n : ℕ) + Real.logb 2 (ops.len ^ n : ℕ)) +
        2 * mixingBits (3 * ε + ε ^ 2) := by
      rw [mixingBits_eq]
      unfold Real.logb
      ring
    rw [neg_div, e1, sub_div] at d1
    rw [e1, sub_div] at d2
    rw [abs_le]
    constructor <;> linarith

/-- The filter `1 - J / D`, `J` all ones: it removes the uniform superposition. -/
noncomputable def holeOps (D : ℕ) : Fin 1 → Matrix (Fin (D ^ 1)) (Fin (D ^ 1)) ℂ :=
  fun _ => 1 - (D : ℂ)⁻¹ • Matrix.of fun _ _ => 1

theorem holeOps_sq {D : ℕ} (hD : 0 < D) : (∑ k, (holeOps D k)ᴴ * holeOps D k) - 1 = -((D : ℂ)⁻¹ • Matrix.of fun _ _ => 1) := by
  have hne : (D : ℂ) ≠ 0 := by exact_mod_cast hD.ne'
  have hJ : (Matrix.of fun _ _ => (1 : ℂ) : Matrix (Fin (D ^ 1)) (Fin (D ^ 1)) ℂ) * Matrix.of (fun _ _ => 1) =
      (D : ℂ) • Matrix.of fun _ _ => 1 := by
    ext i j
    simp [Matrix.mul_apply]
  have hJH : (Matrix.of fun _ _ => (1 : ℂ) : Matrix (Fin (D ^ 1)) (Fin (D ^ 1)) ℂ)ᴴ = Matrix.of fun _ _ => 1 := by
    ext i j
    simp
  have hs : star ((D : ℂ)⁻¹) = (D : ℂ)⁻¹ := by simp
  rw [Fin.sum_univ_one, holeOps, conjTranspose_sub, conjTranspose_one, conjTranspose_smul, hJH, hs]
  simp only [Matrix.sub_mul, Matrix.mul_sub, Matrix.one_mul, Matrix.mul_one, Matrix.smul_mul, Matrix.mul_smul, hJ, smul_smul]
  rw [inv_mul_cancel₀ hne, one_smul, sub_self, smul_zero]
  abel

/-- C121 is false for large dimensions: for every `D` above `10 ^ 5` the constructor accepts a channel of dimension `D` that
maps some density matrix to zero. -/
theorem C121_large_refuted (sp : Bool) {D : ℕ} (hD : 10 ^ 5 < D) :
    ∃ (o : KrausObj) (rho out : Arr ℂ), QChan.init sp (opsArr (holeOps D)) 1 1 D D [] = .ok o ∧ rho.rows = D ∧ rho.cols = D ∧
      IsDensity (rho.mat D D) ∧ (QChan.channel o rho 1 false).1 = .ok out ∧ out.rows = D ∧ out.cols = D ∧ out.mat D D = 0 := by
  have hD0 : 0 < D := by omega
  have hne : (D : ℂ) ≠ 0 := by exact_mod_cast hD0.ne'
  obtain ⟨o, ho⟩ := (qchanInit_iff sp (opsArr (holeOps D)) 1 1 D D []).2 ⟨one_pos, rfl, rfl, by
    have e : (opsArr (holeOps D)).ops (opsArr (holeOps D)).len (D ^ 1) (D ^ 1) = holeOps D := opsArr_ops _
    rw [e]
    intro i j
    have := holeOps_sq hD0
    rw [show (∑ k : Fin (opsArr (holeOps D)).len, (holeOps D k)ᴴ * holeOps D k) - 1 = _ from this]
    rw [Matrix.neg_apply, norm_neg, Matrix.smul_apply, Matrix.of_apply, smul_eq_mul, mul_one, norm_inv, Complex.norm_natCast,
      one_div]
    exact inv_strictAnti₀ (by norm_num) (by exact_mod_cast hD)⟩
  obtain ⟨ρ, hρ⟩ : ∃ ρ : Matrix (Fin (D ^ 1)) (Fin (D ^ 1)) ℂ, ρ = (D : ℂ)⁻¹ • Matrix.of fun _ _ => 1 := ⟨_, rfl⟩
  obtain ⟨out, h1, h2, h3, h4⟩ := api_channel_one ho [] ⟨by simp, by simp⟩ (Arr.ofMat ρ) rfl rfl
  have hcast : ∀ A : Arr ℂ, ∀ P : (m : ℕ) → Matrix (Fin m) (Fin m) ℂ → Prop, P (D ^ 1) (A.mat (D ^ 1) (D ^ 1)) → P D (A.mat D D) := by
    intro A P h
    have e := pow_one D
    generalize D ^ 1 = m at e h
    subst e
    exact h
  refine ⟨o, Arr.ofMat ρ, out, ho, pow_one D, pow_one D, hcast _ (fun m A => IsDensity A) ?_, h1, h2.trans (pow_one D),
    h3.trans (pow_one D), hcast _ (fun m A => A = 0) ?_⟩
  · rw [Arr.ofMat_mat, hρ]
    refine ⟨?_, ?_⟩
    · have : (Matrix.of fun _ _ => (1 : ℂ) : Matrix (Fin (D ^ 1)) (Fin (D ^ 1)) ℂ) = vecMulVec (fun _ => 1) (star fun _ => 1) := by
        ext i j
        simp [vecMulVec_apply]
      rw [this]
      exact (posSemidef_vecMulVec_self_star _).smul (by
        rw [show (D : ℂ)⁻¹ = (((D : ℝ)⁻¹ : ℝ) : ℂ) by push_cast; rfl]
        exact Complex.zero_le_real.2 (by positivity))
    · rw [trace_smul, trace]
      simp [hne]
  · rw [h4, Arr.ofMat_mat]
    have e : (opsArr (holeOps D)).ops (opsArr (holeOps D)).len (D ^ 1) (D ^ 1) = holeOps D := opsArr_ops _
    rw [e]
    have hz : holeOps D 0 * ρ = 0 := by
      have hJ : (Matrix.of fun _ _ => (1 : ℂ) : Matrix (Fin (D ^ 1)) (Fin (D ^ 1)) ℂ) * Matrix.of (fun _ _ => 1) =
          (D : ℂ) • Matrix.of fun _ _ => 1 := by
        ext i j
        simp [Matrix.mul_apply]
      rw [hρ, holeOps, Matrix.sub_mul, Matrix.one_mul, Matrix.smul_mul, Matrix.mul_smul, hJ, smul_smul, smul_smul,
        mul_assoc, inv_mul_cancel₀ hne, mul_one, sub_self]
    show ∑ k : Fin 1, holeOps D k * ρ * (holeOps D k)ᴴ = 0
    rw [Fin.sum_univ_one, hz, Matrix.zero_mul]

/-- The hypotheses of `C121_exact` are met by a qubit channel that is accepted and does not preserve the trace, for two uses. -/
example : ∃ (o : KrausObj) (rho : Arr ℂ), QChan.init false (scalOps (1 + 4 / 10 ^ 6)) 1 1 2 2 [] = .ok o ∧ 2 ^ 1 < 10 ^ 5 ∧
    ¬ TracePreserving ((scalOps (1 + 4 / 10 ^ 6)).ops 1 (2 ^ 1) (2 ^ 1)) ∧
    SafeUses false (([] : List QChan.Call).map QChan.Call.uses ++ [2]) ∧ rho.rows = (2 ^ 1) ^ 2 ∧
    rho.cols = (2 ^ 1) ^ 2 ∧ IsDensity (rho.mat ((2 ^ 1) ^ 2) ((2 ^ 1) ^ 2)) := by
  obtain ⟨o, ho, -⟩ := C94_accumulates
  refine ⟨o, Arr.ofMat (vecMulVec (Pi.single 0 1) (star (Pi.single 0 1))), ho, by norm_num, ?_, ⟨by simp, by simp⟩, rfl, rfl, ?_⟩
  · intro htp
    have := congrFun (congrFun htp 0) 0
    rw [Fin.sum_univ_one, Matrix.mul_apply] at this
    simp only [scalOps, Arr3.ops, conjTranspose_apply, Matrix.one_apply_eq] at this
    norm_num [Fin.sum_univ_two, map_ofNat] at this
  · rw [Arr.ofMat_mat]
    refine ⟨posSemidef_vecMulVec_self_star _, ?_⟩
    rw [trace_vecMulVec]
    simp

end

end PyQ
