import Verif.Lemmas.Entropy
import Verif.Props.KrausBlocks
import Mathlib.Analysis.SpecialFunctions.Log.NegMulLog
import Mathlib.Analysis.Convex.Jensen
import Mathlib.Analysis.SpecialFunctions.Log.Monotone
import Mathlib.Analysis.Complex.ExponentialBounds

/-!
# C45, C49: entropy and coherent information

`eig.Correct` is the contract of `np.linalg.eigvalsh`; the theorems hold for every routine that meets it.
-/

namespace PyQ

open Matrix Polynomial
open scoped ComplexOrder

/-- Shannon entropy in bits. -/
noncomputable def Spec.shannon {n : ℕ} (w : Fin n → ℝ) : ℝ := -∑ i, w i * Real.logb 2 (w i)

/-- A density matrix. -/
def Spec.IsDensity {n : ℕ} (ρ : Matrix (Fin n) (Fin n) ℂ) : Prop := ρ.PosSemidef ∧ trace ρ = 1

theorem shannon_le {n : ℕ} (w : Fin n → ℝ) (h0 : ∀ i, 0 ≤ w i) (h1 : ∑ i, w i = 1) :
    Spec.shannon w ≤ Real.logb 2 n := by
  have hn : 0 < n := by
    rcases Nat.eq_zero_or_pos n with rfl | h
    · simp at h1
    · exact h
  have hn' : (0 : ℝ) < n := by exact_mod_cast hn
  have hJ := Real.concaveOn_negMulLog.le_map_sum (t := Finset.univ) (w := fun _ : Fin n => (1 : ℝ) / n)
    (p := w) (fun _ _ => by positivity) (by simp [hn'.ne']) (fun i _ => h0 i)
  simp only [smul_eq_mul, ← Finset.mul_sum, h1, mul_one] at hJ
  have hlog : Real.negMulLog (1 / n) = 1 / n * Real.log n := by
    rw [Real.negMulLog, one_div, Real.log_inv]; ring
  rw [hlog] at hJ
  have hJ' : ∑ i, Real.negMulLog (w i) ≤ Real.log n := by
    have := mul_le_mul_of_nonneg_left hJ hn'.le
    rwa [← mul_assoc, ← mul_assoc, mul_one_div_cancel hn'.ne', one_mul, one_mul] at this
  have hS : Spec.shannon w = (∑ i, Real.negMulLog (w i)) / Real.log 2 := by
    unfold Spec.shannon
    rw [Finset.sum_div, ← Finset.sum_neg_distrib]
    apply Finset.sum_congr rfl
    intro i _
    rw [Real.negMulLog, Real.logb]
    ring
  rw [hS, Real.logb]
  exact div_le_div_of_nonneg_right hJ' (Real.log_nonneg (by norm_num))

theorem density_eigs {eig : Eigvalsh} (heig : eig.Correct) {A : Arr ℂ} {n : ℕ} (h1 : A.rows = n)
    (h2 : A.cols = n) (hA : Spec.IsDensity (A.mat n n)) :
    (∀ i : Fin n, 0 ≤ eig A i) ∧ (∀ i : Fin n, eig A i ≤ 1) ∧ ∑ i : Fin n, eig A i = 1 := by
  obtain ⟨e1, e2⟩ := eigvals_density heig h1 h2 hA.1
  have e3 : ∑ i : Fin n, eig A i = 1 := by
    rw [hA.2] at e2
    exact_mod_cast e2
  refine ⟨e1, fun i => ?_, e3⟩
  rw [← e3]
  exact Finset.single_le_sum (f := fun i : Fin n => eig A i) (fun j _ => e1 j) (Finset.mem_univ i)

/-- C45.  `entropy` of a density matrix of size `n` is between zero and `log2 n`. -/
theorem C45_entropy_bounds {eig : Eigvalsh} (heig : eig.Correct) (A : Arr ℂ) (n : ℕ) (h1 : A.rows = n)
    (h2 : A.cols = n) (hA : Spec.IsDensity (A.mat n n)) :
    ∃ s, entropyList eig entropyCut [A] = .ok s ∧ 0 ≤ s ∧ s ≤ Real.logb 2 n := by
  obtain ⟨e1, e2, e3⟩ := density_eigs heig h1 h2 hA
  refine ⟨_, entropyList_one eig entropyCut A (h1.trans h2.symm), ?_, ?_⟩
  · rw [entropyOne_eq eig entropyCut A n h1, le_neg, neg_zero]
    exact Finset.sum_nonpos fun i _ => entropyTerm_nonpos (e1 i) (e2 i)
  · refine le_trans ?_ (shannon_le (fun i : Fin n => eig A i) e1 e3)
    rw [entropyOne_eq eig entropyCut A n h1, Spec.shannon]
    exact neg_le_neg (Finset.sum_le_sum fun i _ => entropyTerm_ge (e1 i) (e2 i))

/-- C45.  The cut-off of small eigenvalues lowers the entropy by at most `4e-9` bits per dimension. -/
theorem C45_cut_off {eig : Eigvalsh} (heig : eig.Correct) (A : Arr ℂ) (n : ℕ) (h1 : A.rows = n)
    (h2 : A.cols = n) (hA : Spec.IsDensity (A.mat n n)) :
    ∃ s, entropyList eig entropyCut [A] = .ok s ∧ s ≤ Spec.shannon (fun i : Fin n => eig A i) ∧
      Spec.shannon (fun i : Fin n => eig A i) - n * (4 / 10 ^ 9) ≤ s := by
  obtain ⟨e1, e2, e3⟩ := density_eigs heig h1 h2 hA
  have hlog2 : (0 : ℝ) < Real.log 2 := Real.log_pos (by norm_num)
  refine ⟨_, entropyList_one eig entropyCut A (h1.trans h2.symm), ?_, ?_⟩
  · rw [entropyOne_eq eig entropyCut A n h1, Spec.shannon]
    exact neg_le_neg (Finset.sum_le_sum fun i _ => entropyTerm_ge (e1 i) (e2 i))
  · rw [entropyOne_eq eig entropyCut A n h1, Spec.shannon]
    have key : ∀ i : Fin n, entropyTerm entropyCut (eig A i) - 4 / 10 ^ 9 ≤
        eig A i * Real.logb 2 (eig A i) := by
      intro i
      unfold entropyTerm
      split_ifs with hc
      · linarith [show (0 : ℝ) ≤ 4 / 10 ^ 9 by norm_num]
      · rw [abs_of_nonneg (e1 i), not_lt] at hc
        have hcut : entropyCut ≤ Real.exp (-1) := by
          unfold entropyCut
          have : (1 : ℝ) / 4 ≤ Real.exp (-1) := by
            rw [Real.exp_neg, ← one_div]
            apply one_div_le_one_div_of_le (Real.exp_pos 1)
            linarith [Real.exp_one_lt_d9]
          refine le_trans ?_ this
          norm_num
        have hm := Real.mul_log_strictAntiOn.antitoneOn (a := eig A i) (b := entropyCut)
          ⟨e1 i, hc.trans hcut⟩ ⟨entropyCut_nonneg, hcut⟩ hc
        have hval : -(4 / 10 ^ 9) * Real.log 2 ≤ entropyCut * Real.log entropyCut := by
          unfold entropyCut
          have : Real.log (1 / 10 ^ 10) = -(10 * Real.log 10) := by
            rw [one_div, Real.log_inv, Real.log_pow]; norm_num
          rw [this]
          have h10 : Real.log 10 ≤ 4 * Real.log 2 := by
            rw [show (4 : ℝ) * Real.log 2 = Real.log (2 ^ 4) by rw [Real.log_pow]; norm_num]
            exact Real.log_le_log (by norm_num) (by norm_num)
          nlinarith
        have : -(4 / 10 ^ 9) * Real.log 2 ≤ eig A i * Real.log (eig A i) := hval.trans hm
        rw [zero_sub, Real.logb, ← mul_div_assoc, le_div_iff₀ hlog2]
        exact this
    have hsum := Finset.sum_le_sum (s := Finset.univ) fun i _ => key i
    simp only [Finset.sum_sub_distrib, Finset.sum_const, Finset.card_univ, Fintype.card_fin, nsmul_eq_mul] at hsum
    linarith

/-! ### Coherent information -/

variable {sp : Bool} {ops : Arr3 ℂ} {a b d e : ℕ} {orth : List ℕ} {o : KrausObj}

theorem safe_twice {sp : Bool} {l : List ℕ} {n : ℕ} (h : Spec.SafeUses sp (l ++ [n])) :
    Spec.SafeUses sp ((l ++ [n]) ++ [n]) := by
  have hm : ∀ m, m ∈ (l ++ [n]) ++ [n] → m ∈ l ++ [n] := by
    intro m hm
    simp only [List.mem_append, List.mem_cons, List.not_mem_nil, or_false] at hm ⊢
    tauto
  refine ⟨fun m hm' => h.1 m (hm m hm'), fun hs hl m hm' => h.2 hs ?_ m (hm m hm')⟩
  simpa using hl

/-- C45.  `coherent_information(rho, n)` is the entropy of `channel(rho, n)` minus the entropy of
`entropy_exchange(rho, n)`, divided by `n` if `regularized`. -/
theorem C45_coherent_value {eig : Eigvalsh} (h : QChan.init sp ops a b d e orth = .ok o)
    (ho : sp = true ∨ orth = [])
    (calls : List QChan.Call) (n : ℕ) (hsafe : Spec.SafeUses sp (calls.map QChan.Call.uses ++ [n]))
    (rho : Arr ℂ) (hr : rho.rows = (d ^ a) ^ n) (hc : rho.cols = (d ^ a) ^ n) (reg : Bool) :
    ∃ out W, (QChan.channel (QChan.history o calls) rho n false).1 = .ok out ∧
      out.rows = (e ^ b) ^ n ∧ out.cols = (e ^ b) ^ n ∧
      out.mat ((e ^ b) ^ n) ((e ^ b) ^ n) = Spec.applyKraus
        (Spec.tensorPow (ops.ops ops.len (e ^ b) (d ^ a)) n) (rho.mat ((d ^ a) ^ n) ((d ^ a) ^ n)) ∧
      W.rows = ops.len ^ n ∧ W.cols = ops.len ^ n ∧
      W.mat (ops.len ^ n) (ops.len ^ n) = Spec.entropyExchange
        (Spec.tensorPow (ops.ops ops.len (e ^ b) (d ^ a)) n) (rho.mat ((d ^ a) ^ n) ((d ^ a) ^ n)) ∧
      (QChan.coherentInformation eig (QChan.history o calls) rho n reg).1 =
        .ok (if reg then (entropyOne eig entropyCut out - entropyOne eig entropyCut W) / n
          else entropyOne eig entropyCut out - entropyOne eig entropyCut W) := by
  obtain ⟨out, x1, x2, x3, x4⟩ := api_channel h calls n hsafe rho hr hc
  obtain ⟨W, w1, w2, w3, w4⟩ := api_exchange h ho (calls ++ [.channel rho n false]) n (by
    rw [List.map_append]; exact safe_twice hsafe) rho hr hc
  refine ⟨out, W, x1, x2, x3, x4, w2, w3, w4, ?_⟩
  have hh : QChan.history o (calls ++ [.channel rho n false]) =
      (QChan.channel (QChan.history o calls) rho n false).2 := by
    unfold QChan.history
    rw [List.foldl_append]
    rfl
  rw [hh] at w1
  unfold QChan.coherentInformation
  rcases hch : QChan.channel (QChan.history o calls) rho n false with ⟨x, o'⟩
  rw [hch] at x1 w1
  simp only at x1 w1
  subst x1
  simp only
  rcases hex : QChan.entropyExchange o' rho n with ⟨y, o''⟩
  rw [hex] at w1
  simp only at w1
  subst w1
  simp only
  rw [entropyList_one eig entropyCut out (x2.trans x3.symm), entropyList_one eig entropyCut W (w2.trans w3.symm)]
  rfl

/-- C45.  For an exactly trace preserving channel and a density matrix the coherent information is at most
`n log2 (output dimension)` and at least `-n log2 (number of operators)`. -/
theorem C45_coherent_bounds {eig : Eigvalsh} (heig : eig.Correct) (h : QChan.init sp ops a b d e orth = .ok o)
    (ho : sp = true ∨ orth = []) (htp : Spec.TracePreserving (ops.ops ops.len (e ^ b) (d ^ a)))
    (calls : List QChan.Call) (n : ℕ) (hsafe : Spec.SafeUses sp (calls.map QChan.Call.uses ++ [n]))
    (rho : Arr ℂ) (hr : rho.rows = (d ^ a) ^ n) (hc : rho.cols = (d ^ a) ^ n)
    (hrho : Spec.IsDensity (rho.mat ((d ^ a) ^ n) ((d ^ a) ^ n))) :
    ∃ v, (QChan.coherentInformation eig (QChan.history o calls) rho n false).1 = .ok v ∧
      v ≤ n * Real.logb 2 ((e ^ b : ℕ) : ℝ) ∧ -(n * Real.logb 2 (ops.len : ℝ)) ≤ v := by
  obtain ⟨out, W, -, x2, x3, x4, w2, w3, w4, hv⟩ := C45_coherent_value (eig := eig) h ho calls n hsafe rho hr hc
    false
  refine ⟨_, hv, ?_⟩
  have htp' := Spec.tensorPow_tp _ n htp
  have hout : Spec.IsDensity (out.mat ((e ^ b) ^ n) ((e ^ b) ^ n)) := by
    rw [x4]
    exact ⟨Spec.applyKraus_posSemidef _ hrho.1, (Spec.applyKraus_trace _ htp' _).trans hrho.2⟩
  have hW : Spec.IsDensity (W.mat (ops.len ^ n) (ops.len ^ n)) := by
    rw [w4]
    refine ⟨Spec.exchange_posSemidef _ hrho.1, ?_⟩
    rw [Spec.exchange_trace, Spec.applyKraus_trace _ htp', hrho.2]
  obtain ⟨s, hs, s0, s1⟩ := C45_entropy_bounds heig out _ x2 x3 hout
  obtain ⟨t, ht, t0, t1⟩ := C45_entropy_bounds heig W _ w2 w3 hW
  rw [entropyList_one eig entropyCut out (x2.trans x3.symm)] at hs
  rw [entropyList_one eig entropyCut W (w2.trans w3.symm)] at ht
  injection hs with hs
  injection ht with ht
  rw [if_neg (by simp), hs, ht]
  have hp : ∀ m : ℕ, Real.logb 2 ((m ^ n : ℕ) : ℝ) = n * Real.logb 2 (m : ℝ) := by
    intro m
    rw [Nat.cast_pow, Real.logb_pow]
  rw [hp] at s1 t1
  constructor <;> linarith

/-- The maximally mixed qubit is a density matrix. -/
theorem mixedState_density : Spec.IsDensity (mixedState.mat 2 2) := by
  have : mixedState.mat 2 2 = diagonal fun _ => ((1 / 2 : ℝ) : ℂ) := by
    ext i j
    simp only [mixedState, Arr.mat_apply, diagonal_apply, Fin.ext_iff]
    push_cast
    rfl
  constructor
  · rw [this, posSemidef_diagonal_iff]
    intro i
    exact_mod_cast (by norm_num : (0 : ℝ) ≤ 1 / 2)
  · rw [this, trace_diagonal]
    simp

/-- The hypotheses of C45 are met by the dephasing channel and the maximally mixed state, for a routine
that exists. -/
example : ∃ (eig : Eigvalsh) (o : KrausObj) (v : ℝ), eig.Correct ∧ QChan.init true dephOps 1 1 2 2 [] = .ok o ∧
    (QChan.coherentInformation eig o mixedState 1 false).1 = .ok v ∧ v ≤ 1 := by
  obtain ⟨eig, heig⟩ := exists_eigvalsh
  obtain ⟨o, ho⟩ := deph_ok true []
  obtain ⟨v, hv, hle, -⟩ := C45_coherent_bounds heig ho (Or.inl rfl) dephOps_tp [] 1 ⟨by simp, by simp⟩
    mixedState rfl rfl mixedState_density
  refine ⟨eig, o, v, heig, ho, hv, hle.trans ?_⟩
  simp

/-! ### C49 -/

/-- C49.  The coherent information of a pure state is zero, for every channel, number of uses and
history. -/
theorem C49_pure_state {eig : Eigvalsh} (heig : eig.Correct) (h : QChan.init sp ops a b d e orth = .ok o)
    (ho : sp = true ∨ orth = [])
    (calls : List QChan.Call) (n : ℕ) (hsafe : Spec.SafeUses sp (calls.map QChan.Call.uses ++ [n]))
    (ψ : Fin ((d ^ a) ^ n) → ℂ) (rho : Arr ℂ) (hr : rho.rows = (d ^ a) ^ n) (hc : rho.cols = (d ^ a) ^ n)
    (hrho : rho.mat ((d ^ a) ^ n) ((d ^ a) ^ n) = vecMulVec ψ (star ψ)) (reg : Bool) :
    (QChan.coherentInformation eig (QChan.history o calls) rho n reg).1 = .ok 0 := by
  obtain ⟨out, W, -, x2, x3, x4, w2, w3, w4, hv⟩ := C45_coherent_value (eig := eig) h ho calls n hsafe rho hr hc
    reg
  set K := Spec.tensorPow (ops.ops ops.len (e ^ b) (d ^ a)) n
  let N : Matrix (Fin ((e ^ b) ^ n)) (Fin (ops.len ^ n)) ℂ := fun x k => (K k *ᵥ ψ) x
  have hterm : ∀ k l, K k * vecMulVec ψ (star ψ) * (K l)ᴴ = vecMulVec (K k *ᵥ ψ) (star (K l *ᵥ ψ)) := by
    intro k l
    rw [mul_vecMulVec, vecMulVec_mul, star_mulVec]
  have h1 : out.mat ((e ^ b) ^ n) ((e ^ b) ^ n) = N * Nᴴ := by
    rw [x4, hrho, Spec.applyKraus]
    ext x y
    rw [Matrix.sum_apply, Matrix.mul_apply]
    apply Finset.sum_congr rfl
    intro k _
    rw [hterm, vecMulVec_apply]
    rfl
  have h2 : W.mat (ops.len ^ n) (ops.len ^ n) = (Nᴴ * N)ᵀ := by
    rw [w4, hrho]
    ext k l
    unfold Spec.entropyExchange
    rw [hterm, trace_vecMulVec, transpose_apply, Matrix.mul_apply, dotProduct]
    apply Finset.sum_congr rfl
    intro x _
    rw [mul_comm]
    rfl
  have hs : entropyOne eig entropyCut out = entropyOne eig entropyCut W := by
    refine entropy_eq_of_charpoly heig entropyCut_nonneg (p := ops.len ^ n) (q := (e ^ b) ^ n) x2 x3 w2 w3 ?_ ?_ ?_
    · rw [h1]; exact isHermitian_mul_conjTranspose_self N
    · rw [h2]; exact (isHermitian_conjTranspose_mul_self N).transpose
    · rw [h1, h2, charpoly_transpose]
      have := charpoly_mul_comm' N Nᴴ
      simpa only [Fintype.card_fin] using this
  rw [hv, hs, sub_self]
  cases reg <;> simp

/-- C49.  A channel with one operator (an isometry) has coherent information equal to the entropy of the
input. -/
theorem C49_isometry {eig : Eigvalsh} (heig : eig.Correct) (h : QChan.init sp ops a b d e orth = .ok o)
    (ho : sp = true ∨ orth = []) (htp : Spec.TracePreserving (ops.ops ops.len (e ^ b) (d ^ a)))
    (hlen : ops.len = 1)
    (calls : List QChan.Call) (n : ℕ) (hsafe : Spec.SafeUses sp (calls.map QChan.Call.uses ++ [n]))
    (rho : Arr ℂ) (hr : rho.rows = (d ^ a) ^ n) (hc : rho.cols = (d ^ a) ^ n)
    (hrho : Spec.IsDensity (rho.mat ((d ^ a) ^ n) ((d ^ a) ^ n))) :
    (QChan.coherentInformation eig (QChan.history o calls) rho n false).1 =
      entropyList eig entropyCut [rho] := by
  obtain ⟨out, W, -, x2, x3, x4, w2, w3, w4, hv⟩ := C45_coherent_value (eig := eig) h ho calls n hsafe rho hr hc
    false
  have htp' := Spec.tensorPow_tp _ n htp
  have hW : Spec.IsDensity (W.mat (ops.len ^ n) (ops.len ^ n)) := by
    rw [w4]
    refine ⟨Spec.exchange_posSemidef _ hrho.1, ?_⟩
    rw [Spec.exchange_trace, Spec.applyKraus_trace _ htp', hrho.2]
  obtain ⟨t, ht, t0, t1⟩ := C45_entropy_bounds heig W _ w2 w3 hW
  rw [entropyList_one eig entropyCut W (w2.trans w3.symm)] at ht
  injection ht with ht
  have ht0 : t = 0 := by
    have : ((ops.len ^ n : ℕ) : ℝ) = 1 := by rw [hlen, one_pow]; simp
    rw [this, Real.logb_one] at t1
    exact le_antisymm t1 t0
  rw [hv, if_neg (by simp), ht, ht0, sub_zero, entropyList_one eig entropyCut rho (hr.trans hc.symm)]
  congr 1
  generalize hK : Spec.tensorPow (ops.ops ops.len (e ^ b) (d ^ a)) n = K at x4 htp'
  have hone : ops.len ^ n = 1 := by rw [hlen, one_pow]
  have hsub : ∀ f : Fin (ops.len ^ n) → Matrix (Fin ((e ^ b) ^ n)) (Fin ((e ^ b) ^ n)) ℂ,
      ∑ i, f i = f ⟨0, by omega⟩ := by
    intro f
    refine Finset.sum_eq_single _ (fun i _ hi => absurd (Fin.ext ?_) hi) (by simp)
    have := i.2
    simp only
    omega
  have hsub' : ∀ f : Fin (ops.len ^ n) → Matrix (Fin ((d ^ a) ^ n)) (Fin ((d ^ a) ^ n)) ℂ,
      ∑ i, f i = f ⟨0, by omega⟩ := by
    intro f
    refine Finset.sum_eq_single _ (fun i _ hi => absurd (Fin.ext ?_) hi) (by simp)
    have := i.2
    simp only
    omega
  set V := K ⟨0, by omega⟩
  have hV : Vᴴ * V = 1 := by
    unfold Spec.TracePreserving at htp'
    rw [hsub'] at htp'
    exact htp'
  have hx : out.mat ((e ^ b) ^ n) ((e ^ b) ^ n) = V * rho.mat ((d ^ a) ^ n) ((d ^ a) ^ n) * Vᴴ := by
    rw [x4, Spec.applyKraus, hsub]
  refine entropy_eq_of_charpoly heig entropyCut_nonneg (p := (d ^ a) ^ n) (q := (e ^ b) ^ n) x2 x3 hr hc ?_
    hrho.1.isHermitian ?_
  · rw [hx]
    exact (hrho.1.mul_mul_conjTranspose_same V).isHermitian
  · have := charpoly_mul_comm' (V * rho.mat ((d ^ a) ^ n) ((d ^ a) ^ n)) Vᴴ
    rw [← Matrix.mul_assoc, hV, Matrix.one_mul] at this
    rw [hx]
    simpa only [Fintype.card_fin] using this

/-- C49 applies to the two-qubit identity channel. -/
example : ∃ (eig : Eigvalsh) (o : KrausObj), eig.Correct ∧ QChan.init true (idOps 1) 1 1 2 2 [] = .ok o ∧
    (QChan.coherentInformation eig o mixedState 1 false).1 = entropyList eig entropyCut [mixedState] ∧
    (QChan.coherentInformation eig o zeroState 1 false).1 = .ok 0 := by
  obtain ⟨eig, heig⟩ := exists_eigvalsh
  obtain ⟨o, ho⟩ := init_exact true (idOps 1) 1 1 2 2 [] (by decide) rfl rfl (idOps_tp 1)
  refine ⟨eig, o, heig, ho, ?_, ?_⟩
  · exact C49_isometry heig ho (Or.inl rfl) (idOps_tp 1) rfl [] 1 ⟨by simp, by simp⟩ mixedState rfl rfl
      mixedState_density
  · refine C49_pure_state heig ho (Or.inl rfl) [] 1 ⟨by simp, by simp⟩
      (fun i : Fin ((2 ^ 1) ^ 1) => if (i : ℕ) = 0 then 1 else 0) zeroState rfl rfl ?_ false
    ext i j
    simp only [zeroState, Arr.mat_apply, vecMulVec_apply, Pi.star_apply]
    by_cases hi : (i : ℕ) = 0 <;> by_cases hj : (j : ℕ) = 0 <;> simp [hi, hj]

end PyQ
