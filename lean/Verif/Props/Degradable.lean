import Verif.Props.Mixture
import Verif.Props.Additive
import Verif.Lemmas.DegradablePow
import Verif.Lemmas.StdChannels
import Verif.Lemmas.OpsArr

/-!
# C103, C104, C105: channels whose environment learns less, or more, than the receiver
-/

namespace PyQ

open Matrix Spec
open scoped ComplexOrder

variable {eig : Eigvalsh}

/-- What `coherent_information` returns, next to its textbook value. -/
theorem api_info (heig : eig.Correct) {sp : Bool} {ops : Arr3 ℂ} {a b d e : ℕ} {orth : List ℕ} {o : KrausObj}
    (h : QChan.init sp ops a b d e orth = .ok o) (ho : sp = true ∨ orth = [])
    (htp : TracePreserving (ops.ops ops.len (e ^ b) (d ^ a))) (calls : List QChan.Call) (n : ℕ)
    (hsafe : SafeUses sp (calls.map QChan.Call.uses ++ [n])) (rho : Arr ℂ) (hr : rho.rows = (d ^ a) ^ n)
    (hc : rho.cols = (d ^ a) ^ n) (hrho : IsDensity (rho.mat ((d ^ a) ^ n) ((d ^ a) ^ n))) :
    ∃ v, (QChan.coherentInformation eig (QChan.history o calls) rho n false).1 = .ok v ∧
      v ≤ krausInfo (tensorPow (ops.ops ops.len (e ^ b) (d ^ a)) n) (rho.mat ((d ^ a) ^ n) ((d ^ a) ^ n)) / Real.log 2 +
        (ops.len ^ n : ℕ) * (4 / 10 ^ 9) ∧
      krausInfo (tensorPow (ops.ops ops.len (e ^ b) (d ^ a)) n) (rho.mat ((d ^ a) ^ n) ((d ^ a) ^ n)) / Real.log 2 -
        ((e ^ b) ^ n : ℕ) * (4 / 10 ^ 9) ≤ v := by
  have htp' := tensorPow_tp _ n htp
  obtain ⟨out, W, -, x2, x3, x4, w2, w3, w4, hv⟩ := C45_coherent_value (eig := eig) h ho calls n hsafe rho hr hc false
  obtain ⟨D1, D2⟩ := kraus_densities _ _ htp' hrho
  rw [← x4] at D1
  rw [← w4] at D2
  refine ⟨_, hv, ?_⟩
  obtain ⟨a1, a2⟩ := entropyOne_cut heig x2 x3 D1
  obtain ⟨b1, b2⟩ := entropyOne_cut heig w2 w3 D2
  rw [shannon_specSum heig x2 x3 D1.1] at a1 a2
  rw [shannon_specSum heig w2 w3 D2.1] at b1 b2
  unfold krausInfo
  rw [if_neg (by simp), ← x4, ← w4, sub_div]
  constructor <;> linarith

theorem mat_one (rho : Arr ℂ) (N : ℕ) : tensorProd (fun _ : Fin 1 => rho.mat N N) = rho.mat (N ^ 1) (N ^ 1) := by
  ext i j
  simp [tensorProd, digit, Arr.mat, Nat.mod_eq_of_lt, show (i : ℕ) < N by simpa using i.2,
    show (j : ℕ) < N by simpa using j.2]

/-- A single use, with the operators themselves. -/
theorem api_info_one (heig : eig.Correct) {sp : Bool} {ops : Arr3 ℂ} {a b d e : ℕ} {orth : List ℕ} {o : KrausObj}
    (h : QChan.init sp ops a b d e orth = .ok o) (ho : sp = true ∨ orth = [])
    (htp : TracePreserving (ops.ops ops.len (e ^ b) (d ^ a))) (calls : List QChan.Call)
    (hsafe : SafeUses sp (calls.map QChan.Call.uses ++ [1])) (rho : Arr ℂ) (hr : rho.rows = d ^ a)
    (hc : rho.cols = d ^ a) (hrho : IsDensity (rho.mat (d ^ a) (d ^ a))) :
    ∃ v, (QChan.coherentInformation eig (QChan.history o calls) rho 1 false).1 = .ok v ∧
      v ≤ krausInfo (ops.ops ops.len (e ^ b) (d ^ a)) (rho.mat (d ^ a) (d ^ a)) / Real.log 2 +
        (ops.len : ℕ) * (4 / 10 ^ 9) ∧
      krausInfo (ops.ops ops.len (e ^ b) (d ^ a)) (rho.mat (d ^ a) (d ^ a)) / Real.log 2 -
        (e ^ b : ℕ) * (4 / 10 ^ 9) ≤ v := by
  have hprod := mat_one rho (d ^ a)
  have hd1 : IsDensity (rho.mat ((d ^ a) ^ 1) ((d ^ a) ^ 1)) := by
    rw [← hprod]
    refine ⟨tensorProd_psd fun _ => hrho.1, ?_⟩
    rw [tensorProd_trace]
    simp [hrho.2]
  obtain ⟨v, hv, h1, h2⟩ := api_info heig h ho htp calls 1 hsafe rho (by rw [hr, pow_one]) (by rw [hc, pow_one]) hd1
  rw [← hprod, krausInfo_tensorProd _ htp fun _ => hrho] at h1 h2
  refine ⟨v, hv, ?_, ?_⟩
  · simpa using h1
  · simpa using h2

/-- The object `r` makes, out of what one use of `o` delivers, the state that the environment of `o` is left in:
`r.channel(o.channel(x, 1), 1)` is the matrix in the list `o.entropy_exchange(x, 1)`, for every input `x` of `N` rows and columns.
The receiver could play the environment. -/
def DegradedBy (o r : KrausObj) (N : ℕ) : Prop :=
  ∀ x : Arr ℂ, x.rows = N → x.cols = N → ∃ y z W, (QChan.channel o x 1 false).1 = .ok y ∧
    (QChan.channel r y 1 false).1 = .ok z ∧ (QChan.entropyExchange o x 1).1 = .ok [W] ∧ Arr.Same z W

/-- The object `r` makes, out of the state that the environment of `o` is left in, what one use of `o` delivers:
`r.channel(W, 1)` is `o.channel(x, 1)` for the matrix `W` in the list `o.entropy_exchange(x, 1)`.  The environment could play the
receiver. -/
def RestoredBy (o r : KrausObj) (N : ℕ) : Prop :=
  ∀ x : Arr ℂ, x.rows = N → x.cols = N → ∃ W z y, (QChan.entropyExchange o x 1).1 = .ok [W] ∧
    (QChan.channel r W 1 false).1 = .ok z ∧ (QChan.channel o x 1 false).1 = .ok y ∧ Arr.Same z y

section

variable {sp₁ sp : Bool} {ops₁ ops : Arr3 ℂ} {a₁ b₁ d₁ e₁ a b d e : ℕ} {orth₁ orth : List ℕ} {r o : KrausObj}
  {c₀ c₁ : List QChan.Call}

theorem api_exchange_one (h : QChan.init sp ops a b d e orth = .ok o) (ho : sp = true ∨ orth = [])
    (calls : List QChan.Call) (hsafe : SafeUses sp (calls.map QChan.Call.uses ++ [1])) (rho : Arr ℂ)
    (hr : rho.rows = d ^ a) (hc : rho.cols = d ^ a) :
    ∃ W, (QChan.entropyExchange (QChan.history o calls) rho 1).1 = .ok [W] ∧ W.rows = ops.len ∧ W.cols = ops.len ∧
      W.mat ops.len ops.len = entropyExchange (ops.ops ops.len (e ^ b) (d ^ a)) (rho.mat (d ^ a) (d ^ a)) := by
  obtain ⟨W, h1, h2, h3, h4⟩ := api_exchange h ho calls 1 hsafe rho (by rw [hr, pow_one]) (by rw [hc, pow_one])
  rw [pow_one] at h2 h3
  refine ⟨W, h1, h2, h3, ?_⟩
  rw [← mat_one rho, Spec.entropyExchange_tensor] at h4
  ext i j
  have hij := congrFun (congrFun h4 (Fin.cast (pow_one _).symm i)) (Fin.cast (pow_one _).symm j)
  refine Eq.trans rfl (hij.trans ?_)
  simp [tensorProd, digit, Nat.mod_eq_of_lt]

/-- The degrading map in terms of operators. -/
theorem degraded_ops (hr' : QChan.init sp₁ ops₁ a₁ b₁ d₁ e₁ orth₁ = .ok r) (h : QChan.init sp ops a b d e orth = .ok o)
    (ho : sp = true ∨ orth = []) (hin : d₁ ^ a₁ = e ^ b) (hout : e₁ ^ b₁ = ops.len)
    (h₀ : SafeUses sp (c₀.map QChan.Call.uses ++ [1])) (h₁ : SafeUses sp₁ (c₁.map QChan.Call.uses ++ [1]))
    (hdeg : DegradedBy (QChan.history o c₀) (QChan.history r c₁) (d ^ a)) (ρ : Matrix (Fin (d ^ a)) (Fin (d ^ a)) ℂ) :
    applyKraus (ops₁.ops ops₁.len ops.len (e ^ b)) (applyKraus (ops.ops ops.len (e ^ b) (d ^ a)) ρ) =
      entropyExchange (ops.ops ops.len (e ^ b) (d ^ a)) ρ := by
  obtain ⟨y, z, W, hy, hz, hW, hsame⟩ := hdeg (Arr.ofMat ρ) rfl rfl
  obtain ⟨y', y1, y2, y3, y4⟩ := api_channel_one h c₀ h₀ (Arr.ofMat ρ) rfl rfl
  obtain ⟨W', w1, w2, w3, w4⟩ := api_exchange_one h ho c₀ h₀ (Arr.ofMat ρ) rfl rfl
  rw [hy] at y1
  rw [hW] at w1
  injection y1 with y1
  injection w1 with w1
  injection w1 with w1
  subst y1 w1
  obtain ⟨z', z1, z2, z3, z4⟩ := api_channel_one hr' c₁ h₁ y (by rw [hin]; exact y2) (by rw [hin]; exact y3)
  rw [hz] at z1
  injection z1 with z1
  subst z1
  rw [Arr.same_iff_mat] at hsame
  obtain ⟨-, -, hm⟩ := hsame
  rw [hin, hout] at z4
  rw [hout] at z2 z3
  rw [z2, z3] at hm
  rw [Arr.ofMat_mat] at y4 w4
  rw [← y4, ← z4, hm, w4]

/-- The restoring map in terms of operators. -/
theorem restored_ops (hr' : QChan.init sp₁ ops₁ a₁ b₁ d₁ e₁ orth₁ = .ok r) (h : QChan.init sp ops a b d e orth = .ok o)
    (ho : sp = true ∨ orth = []) (hin : d₁ ^ a₁ = ops.len) (hout : e₁ ^ b₁ = e ^ b)
    (h₀ : SafeUses sp (c₀.map QChan.Call.uses ++ [1])) (h₁ : SafeUses sp₁ (c₁.map QChan.Call.uses ++ [1]))
    (hres : RestoredBy (QChan.history o c₀) (QChan.history r c₁) (d ^ a)) (ρ : Matrix (Fin (d ^ a)) (Fin (d ^ a)) ℂ) :
    applyKraus (ops₁.ops ops₁.len (e ^ b) ops.len) (entropyExchange (ops.ops ops.len (e ^ b) (d ^ a)) ρ) =
      applyKraus (ops.ops ops.len (e ^ b) (d ^ a)) ρ := by
  obtain ⟨W, z, y, hW, hz, hy, hsame⟩ := hres (Arr.ofMat ρ) rfl rfl
  obtain ⟨y', y1, y2, y3, y4⟩ := api_channel_one h c₀ h₀ (Arr.ofMat ρ) rfl rfl
  obtain ⟨W', w1, w2, w3, w4⟩ := api_exchange_one h ho c₀ h₀ (Arr.ofMat ρ) rfl rfl
  rw [hy] at y1
  rw [hW] at w1
  injection y1 with y1
  injection w1 with w1
  injection w1 with w1
  subst y1 w1
  obtain ⟨z', z1, z2, z3, z4⟩ := api_channel_one hr' c₁ h₁ W (by rw [hin]; exact w2) (by rw [hin]; exact w3)
  rw [hz] at z1
  injection z1 with z1
  subst z1
  rw [Arr.same_iff_mat] at hsame
  obtain ⟨-, -, hm⟩ := hsame
  rw [hin, hout] at z4
  rw [hout] at z2 z3
  rw [z2, z3] at hm
  rw [Arr.ofMat_mat] at y4 w4
  rw [← w4, ← z4, hm, y4]

/-! ## C103: mixing states -/

/-- **C103**.  If the receiver could play the environment (some object `r` makes the environment's state out of the output of one
use), then the coherent information is concave: for any number `n` of uses, that of a mixture of states is at least the mean of
those of the states, up to the cut-off of small eigenvalues. -/
theorem C103_concave (heig : eig.Correct) (hr' : QChan.init sp₁ ops₁ a₁ b₁ d₁ e₁ orth₁ = .ok r)
    (h : QChan.init sp ops a b d e orth = .ok o) (ho : sp = true ∨ orth = [])
    (htp₁ : TracePreserving (ops₁.ops ops₁.len (e₁ ^ b₁) (d₁ ^ a₁))) (htp : TracePreserving (ops.ops ops.len (e ^ b) (d ^ a)))
    (hin : d₁ ^ a₁ = e ^ b) (hout : e₁ ^ b₁ = ops.len)
    (h₀ : SafeUses sp (c₀.map QChan.Call.uses ++ [1])) (h₁ : SafeUses sp₁ (c₁.map QChan.Call.uses ++ [1]))
    (hdeg : DegradedBy (QChan.history o c₀) (QChan.history r c₁) (d ^ a))
    (calls : List QChan.Call) (n : ℕ) (hsafe : SafeUses sp (calls.map QChan.Call.uses ++ [n]))
    {m : ℕ} (p : Fin m → ℝ) (hp : ∀ i, 0 ≤ p i) (hp1 : ∑ i, p i = 1) (R : Fin m → Arr ℂ)
    (hR : ∀ i, (R i).rows = (d ^ a) ^ n ∧ (R i).cols = (d ^ a) ^ n ∧ IsDensity ((R i).mat ((d ^ a) ^ n) ((d ^ a) ^ n)))
    (rho : Arr ℂ) (hr : rho.rows = (d ^ a) ^ n) (hc : rho.cols = (d ^ a) ^ n)
    (hmix : rho.mat ((d ^ a) ^ n) ((d ^ a) ^ n) = ∑ i, (p i : ℂ) • (R i).mat ((d ^ a) ^ n) ((d ^ a) ^ n)) :
    ∃ (v : ℝ) (u : Fin m → ℝ), (QChan.coherentInformation eig (QChan.history o calls) rho n false).1 = .ok v ∧
      (∀ i, (QChan.coherentInformation eig (QChan.history o calls) (R i) n false).1 = .ok (u i)) ∧
      ∑ i, p i * u i ≤ v + ((ops.len ^ n : ℕ) + ((e ^ b) ^ n : ℕ)) * (4 / 10 ^ 9) := by
  have hlog : 0 < Real.log 2 := Real.log_pos (by norm_num)
  have hrho : IsDensity (rho.mat ((d ^ a) ^ n) ((d ^ a) ^ n)) := by
    rw [hmix]
    refine ⟨posSemidef_sum _ fun i _ => (hR i).2.2.1.smul (by exact_mod_cast hp i), ?_⟩
    rw [trace_sum, Finset.sum_congr rfl fun i _ => by rw [trace_smul, (hR i).2.2.2, smul_eq_mul, mul_one],
      ← Complex.ofReal_sum, hp1, Complex.ofReal_one]
  obtain ⟨v, hv, -, v2⟩ := api_info heig h ho htp calls n hsafe rho hr hc hrho
  choose u hu u1 u2 using fun i => api_info heig h ho htp calls n hsafe (R i) (hR i).1 (hR i).2.1 (hR i).2.2
  refine ⟨v, u, hv, hu, ?_⟩
  rw [hin, hout] at htp₁
  have key := degradable_concave _ (tensorPow_tp _ n htp₁) _ (tensorPow_tp _ n htp)
    (degradable_pow _ _ (degraded_ops hr' h ho hin hout h₀ h₁ hdeg) n) p hp (fun i => (R i).mat ((d ^ a) ^ n) ((d ^ a) ^ n))
    (fun i => (hR i).2.2.1) fun i => (hR i).2.2.2
  rw [← hmix] at key
  have key2 := div_le_div_of_nonneg_right key hlog.le
  rw [Finset.sum_div] at key2
  have le1 : ∑ i, p i * u i ≤ ∑ i, p i * (krausInfo (tensorPow (ops.ops ops.len (e ^ b) (d ^ a)) n)
      ((R i).mat ((d ^ a) ^ n) ((d ^ a) ^ n)) / Real.log 2 + (ops.len ^ n : ℕ) * (4 / 10 ^ 9)) :=
    Finset.sum_le_sum fun i _ => mul_le_mul_of_nonneg_left (u1 i) (hp i)
  have e1 : ∑ i, p i * (krausInfo (tensorPow (ops.ops ops.len (e ^ b) (d ^ a)) n) ((R i).mat ((d ^ a) ^ n) ((d ^ a) ^ n)) /
      Real.log 2 + (ops.len ^ n : ℕ) * (4 / 10 ^ 9)) =
      ∑ i, p i * krausInfo (tensorPow (ops.ops ops.len (e ^ b) (d ^ a)) n) ((R i).mat ((d ^ a) ^ n) ((d ^ a) ^ n)) / Real.log 2 +
      (ops.len ^ n : ℕ) * (4 / 10 ^ 9) := by
    rw [Finset.sum_congr rfl fun i _ => mul_add (p i) _ _, Finset.sum_add_distrib, ← Finset.sum_mul, hp1, one_mul]
    simp only [mul_div_assoc]
  rw [e1] at le1
  linarith

/-! ## C104: entangled inputs -/

/-- **C104**.  If the receiver could play the environment, then inputs that are entangled over several uses are no better than
the states of the separate systems: the coherent information of `n` uses is at most the sum of the coherent informations of one
use with the marginals, up to the cut-off of small eigenvalues. -/
theorem C104_subadditive (heig : eig.Correct) (hr' : QChan.init sp₁ ops₁ a₁ b₁ d₁ e₁ orth₁ = .ok r)
    (h : QChan.init sp ops a b d e orth = .ok o) (ho : sp = true ∨ orth = [])
    (htp₁ : TracePreserving (ops₁.ops ops₁.len (e₁ ^ b₁) (d₁ ^ a₁))) (htp : TracePreserving (ops.ops ops.len (e ^ b) (d ^ a)))
    (hin : d₁ ^ a₁ = e ^ b) (hout : e₁ ^ b₁ = ops.len)
    (h₀ : SafeUses sp (c₀.map QChan.Call.uses ++ [1])) (h₁ : SafeUses sp₁ (c₁.map QChan.Call.uses ++ [1]))
    (hdeg : DegradedBy (QChan.history o c₀) (QChan.history r c₁) (d ^ a))
    (calls calls₁ : List QChan.Call) (n : ℕ) (hsafe : SafeUses sp (calls.map QChan.Call.uses ++ [n]))
    (hsafe₁ : SafeUses sp (calls₁.map QChan.Call.uses ++ [1]))
    (rho : Arr ℂ) (hr : rho.rows = (d ^ a) ^ n) (hc : rho.cols = (d ^ a) ^ n)
    (hrho : IsDensity (rho.mat ((d ^ a) ^ n) ((d ^ a) ^ n)))
    (R : Fin n → Arr ℂ) (hR : ∀ t, (R t).rows = d ^ a ∧ (R t).cols = d ^ a ∧
      (R t).mat (d ^ a) (d ^ a) = marginal (rho.mat ((d ^ a) ^ n) ((d ^ a) ^ n)) t) :
    ∃ (v : ℝ) (u : Fin n → ℝ), (QChan.coherentInformation eig (QChan.history o calls) rho n false).1 = .ok v ∧
      (∀ t, (QChan.coherentInformation eig (QChan.history o calls₁) (R t) 1 false).1 = .ok (u t)) ∧
      v ≤ ∑ t, u t + ((ops.len ^ n : ℕ) + n * (e ^ b : ℕ)) * (4 / 10 ^ 9) := by
  have hlog : 0 < Real.log 2 := Real.log_pos (by norm_num)
  obtain ⟨v, hv, v1, -⟩ := api_info heig h ho htp calls n hsafe rho hr hc hrho
  choose u hu u1 u2 using fun t => api_info_one heig h ho htp calls₁ hsafe₁ (R t) (hR t).1 (hR t).2.1
    (by rw [(hR t).2.2]; exact marginal_density hrho t)
  refine ⟨v, u, hv, hu, ?_⟩
  rw [hin, hout] at htp₁
  have key := degradable_subadd _ htp₁ _ htp (degraded_ops hr' h ho hin hout h₀ h₁ hdeg) hrho.1
  have key2 := div_le_div_of_nonneg_right key hlog.le
  rw [Finset.sum_div] at key2
  have le1 : ∑ t : Fin n, (krausInfo (ops.ops ops.len (e ^ b) (d ^ a)) (marginal (rho.mat ((d ^ a) ^ n) ((d ^ a) ^ n)) t) /
      Real.log 2 - (e ^ b : ℕ) * (4 / 10 ^ 9)) ≤ ∑ t, u t :=
    Finset.sum_le_sum fun t _ => by rw [← (hR t).2.2]; exact u2 t
  rw [Finset.sum_sub_distrib, Finset.sum_const, Finset.card_univ, Fintype.card_fin, nsmul_eq_mul] at le1
  linarith

/-- **C104, regularised value**.  If the receiver could play the environment and `c` bounds the coherent information of one use
for every state, then `c` bounds the regularised coherent information of any number of uses, up to the cut-off: more uses at once
do not help, and the search over one use tells the whole story. -/
theorem C104_regularized (heig : eig.Correct) (hr' : QChan.init sp₁ ops₁ a₁ b₁ d₁ e₁ orth₁ = .ok r)
    (h : QChan.init sp ops a b d e orth = .ok o) (ho : sp = true ∨ orth = [])
    (htp₁ : TracePreserving (ops₁.ops ops₁.len (e₁ ^ b₁) (d₁ ^ a₁))) (htp : TracePreserving (ops.ops ops.len (e ^ b) (d ^ a)))
    (hin : d₁ ^ a₁ = e ^ b) (hout : e₁ ^ b₁ = ops.len)
    (h₀ : SafeUses sp (c₀.map QChan.Call.uses ++ [1])) (h₁ : SafeUses sp₁ (c₁.map QChan.Call.uses ++ [1]))
    (hdeg : DegradedBy (QChan.history o c₀) (QChan.history r c₁) (d ^ a))
    (calls calls₁ : List QChan.Call) (n : ℕ) (hsafe : SafeUses sp (calls.map QChan.Call.uses ++ [n]))
    (hsafe₁ : SafeUses sp (calls₁.map QChan.Call.uses ++ [1])) (c : ℝ)
    (hc1 : ∀ σ : Arr ℂ, σ.rows = d ^ a → σ.cols = d ^ a → IsDensity (σ.mat (d ^ a) (d ^ a)) →
      ∀ u, (QChan.coherentInformation eig (QChan.history o calls₁) σ 1 false).1 = .ok u → u ≤ c)
    (rho : Arr ℂ) (hr : rho.rows = (d ^ a) ^ n) (hc : rho.cols = (d ^ a) ^ n)
    (hrho : IsDensity (rho.mat ((d ^ a) ^ n) ((d ^ a) ^ n))) :
    ∃ v, (QChan.coherentInformation eig (QChan.history o calls) rho n true).1 = .ok v ∧
      v ≤ c + ((ops.len ^ n : ℕ) + n * (e ^ b : ℕ)) * (4 / 10 ^ 9) / n := by
  have hn : 1 ≤ n := hsafe.1 n (by simp)
  have hpos : (0 : ℝ) < n := by exact_mod_cast hn
  obtain ⟨v, u, hv, hu, hle⟩ := C104_subadditive heig hr' h ho htp₁ htp hin hout h₀ h₁ hdeg calls calls₁ n hsafe hsafe₁ rho hr hc
    hrho (fun t => Arr.ofMat (marginal (rho.mat ((d ^ a) ^ n) ((d ^ a) ^ n)) t))
    fun t => ⟨rfl, rfl, Arr.ofMat_mat _⟩
  have hs : ∑ t, u t ≤ n * c := by
    refine (Finset.sum_le_sum fun t _ => hc1 _ rfl rfl ?_ (u t) (hu t)).trans (by simp)
    rw [Arr.ofMat_mat]
    exact marginal_density hrho t
  refine ⟨v / n, coherent_reg hv, ?_⟩
  rw [div_le_iff₀ hpos, add_mul, div_mul_cancel₀ _ hpos.ne']
  linarith

/-! ## C105: the environment learns more -/

/-- **C105**.  If the environment could play the receiver (some object `r` makes the output out of the environment's state), then
no input has positive coherent information, for any number of uses, up to the cut-off of small eigenvalues. -/
theorem C105_useless (heig : eig.Correct) (hr' : QChan.init sp₁ ops₁ a₁ b₁ d₁ e₁ orth₁ = .ok r)
    (h : QChan.init sp ops a b d e orth = .ok o) (ho : sp = true ∨ orth = [])
    (htp₁ : TracePreserving (ops₁.ops ops₁.len (e₁ ^ b₁) (d₁ ^ a₁))) (htp : TracePreserving (ops.ops ops.len (e ^ b) (d ^ a)))
    (hin : d₁ ^ a₁ = ops.len) (hout : e₁ ^ b₁ = e ^ b)
    (h₀ : SafeUses sp (c₀.map QChan.Call.uses ++ [1])) (h₁ : SafeUses sp₁ (c₁.map QChan.Call.uses ++ [1]))
    (hres : RestoredBy (QChan.history o c₀) (QChan.history r c₁) (d ^ a))
    (calls : List QChan.Call) (n : ℕ) (hsafe : SafeUses sp (calls.map QChan.Call.uses ++ [n]))
    (rho : Arr ℂ) (hr : rho.rows = (d ^ a) ^ n) (hc : rho.cols = (d ^ a) ^ n)
    (hrho : IsDensity (rho.mat ((d ^ a) ^ n) ((d ^ a) ^ n))) :
    ∃ v, (QChan.coherentInformation eig (QChan.history o calls) rho n false).1 = .ok v ∧
      v ≤ (ops.len ^ n : ℕ) * (4 / 10 ^ 9) := by
  have hlog : 0 < Real.log 2 := Real.log_pos (by norm_num)
  obtain ⟨v, hv, v1, -⟩ := api_info heig h ho htp calls n hsafe rho hr hc hrho
  rw [hin, hout] at htp₁
  have key := antidegradable_nonpos _ (tensorPow_tp _ n htp₁) _
    (antidegradable_pow _ _ (restored_ops hr' h ho hin hout h₀ h₁ hres) n) hrho.1
  have key2 := div_le_div_of_nonneg_right key hlog.le
  rw [zero_div] at key2
  exact ⟨v, hv, by linarith⟩

/-! ### Instances -/

theorem degraded_of_ops (hr' : QChan.init sp₁ ops₁ a₁ b₁ d₁ e₁ orth₁ = .ok r) (h : QChan.init sp ops a b d e orth = .ok o)
    (ho : sp = true ∨ orth = []) (hin : d₁ ^ a₁ = e ^ b) (hout : e₁ ^ b₁ = ops.len)
    (hk : ∀ ρ, applyKraus (ops₁.ops ops₁.len ops.len (e ^ b)) (applyKraus (ops.ops ops.len (e ^ b) (d ^ a)) ρ) =
      entropyExchange (ops.ops ops.len (e ^ b) (d ^ a)) ρ) : DegradedBy o r (d ^ a) := by
  intro x hx hx'
  obtain ⟨y, y1, y2, y3, y4⟩ := api_channel_one h [] ⟨by simp, by simp⟩ x hx hx'
  obtain ⟨W, w1, w2, w3, w4⟩ := api_exchange_one h ho [] ⟨by simp, by simp⟩ x hx hx'
  obtain ⟨z, z1, z2, z3, z4⟩ := api_channel_one hr' [] ⟨by simp, by simp⟩ y (by rw [hin]; exact y2) (by rw [hin]; exact y3)
  refine ⟨y, z, W, y1, z1, w1, ?_⟩
  rw [hin, hout] at z4
  rw [hout] at z2 z3
  rw [Arr.same_iff_mat]
  refine ⟨z2.trans w2.symm, z3.trans w3.symm, ?_⟩
  rw [z2, z3, z4, y4, hk, w4]

theorem restored_of_ops (hr' : QChan.init sp₁ ops₁ a₁ b₁ d₁ e₁ orth₁ = .ok r) (h : QChan.init sp ops a b d e orth = .ok o)
    (ho : sp = true ∨ orth = []) (hin : d₁ ^ a₁ = ops.len) (hout : e₁ ^ b₁ = e ^ b)
    (hk : ∀ ρ, applyKraus (ops₁.ops ops₁.len (e ^ b) ops.len) (entropyExchange (ops.ops ops.len (e ^ b) (d ^ a)) ρ) =
      applyKraus (ops.ops ops.len (e ^ b) (d ^ a)) ρ) : RestoredBy o r (d ^ a) := by
  intro x hx hx'
  obtain ⟨y, y1, y2, y3, y4⟩ := api_channel_one h [] ⟨by simp, by simp⟩ x hx hx'
  obtain ⟨W, w1, w2, w3, w4⟩ := api_exchange_one h ho [] ⟨by simp, by simp⟩ x hx hx'
  obtain ⟨z, z1, z2, z3, z4⟩ := api_channel_one hr' [] ⟨by simp, by simp⟩ W (by rw [hin]; exact w2) (by rw [hin]; exact w3)
  refine ⟨W, z, y, w1, z1, y1, ?_⟩
  rw [hin, hout] at z4
  rw [hout] at z2 z3
  rw [Arr.same_iff_mat]
  refine ⟨z2.trans y2.symm, z3.trans y3.symm, ?_⟩
  rw [z2, z3, z4, w4, hk, y4]

/-- The hypotheses of C103 and C104 are met: a phase flip with probability `1/4`, as a sparse object, and the object that makes
the state of its environment. -/
example : ∃ o r, QChan.init true (opsArr (phaseFlip (1 / 4))) 1 1 2 2 [] = .ok o ∧
    QChan.init false (opsArr (phaseDegrade (1 / 4))) 1 1 2 2 [] = .ok r ∧
    TracePreserving ((opsArr (phaseFlip (1 / 4))).ops 2 2 2) ∧ TracePreserving ((opsArr (phaseDegrade (1 / 4))).ops 2 2 2) ∧
    DegradedBy o r 2 := by
  have h0 : (0 : ℝ) ≤ 1 / 4 := by norm_num
  have h1 : (1 / 4 : ℝ) ≤ 1 := by norm_num
  obtain ⟨o, ho⟩ := opsArr_init true (a := 1) (b := 1) (d := 2) (e := 2) (phaseFlip (1 / 4)) (by decide) (phaseFlip_tp h0 h1) []
  obtain ⟨r, hr⟩ := opsArr_init false (a := 1) (b := 1) (d := 2) (e := 2) (phaseDegrade (1 / 4)) (by decide)
    (phaseDegrade_tp h0 h1) []
  refine ⟨o, r, ho, hr, ?_, ?_, degraded_of_ops hr ho (Or.inl rfl) rfl rfl fun ρ => ?_⟩
  · rw [opsArr_ops]; exact phaseFlip_tp h0 h1
  · rw [opsArr_ops]; exact phaseDegrade_tp h0 h1
  · have e1 : (opsArr (phaseFlip (1 / 4))).ops (opsArr (phaseFlip (1 / 4))).len (2 ^ 1) (2 ^ 1) = phaseFlip (1 / 4) :=
      opsArr_ops _
    have e2 : (opsArr (phaseDegrade (1 / 4))).ops (opsArr (phaseDegrade (1 / 4))).len (opsArr (phaseFlip (1 / 4))).len (2 ^ 1) =
      phaseDegrade (1 / 4) := opsArr_ops _
    rw [e1, e2]
    exact phaseFlip_degrade h0 h1 ρ

/-- The hypotheses of C105 are met: erasure with probability `3/4`. -/
example : ∃ o r, QChan.init false (opsArr (erasure (3 / 4))) 1 1 2 3 [] = .ok o ∧
    QChan.init true (opsArr (eraseBack ((1 - 3 / 4) / (3 / 4)))) 1 1 3 3 [] = .ok r ∧
    TracePreserving ((opsArr (erasure (3 / 4))).ops 3 3 2) ∧
    TracePreserving ((opsArr (eraseBack ((1 - 3 / 4) / (3 / 4)))).ops 4 3 3) ∧ RestoredBy o r 2 := by
  have h0 : (0 : ℝ) ≤ 3 / 4 := by norm_num
  have h1 : (3 / 4 : ℝ) ≤ 1 := by norm_num
  have t2 : TracePreserving (eraseBack ((1 - 3 / 4) / (3 / 4))) := eraseBack_tp (by norm_num) (by norm_num)
  obtain ⟨o, ho⟩ := opsArr_init false (a := 1) (b := 1) (d := 2) (e := 3) (erasure (3 / 4)) (by decide) (erasure_tp h0 h1) []
  obtain ⟨r, hr⟩ := opsArr_init true (a := 1) (b := 1) (d := 3) (e := 3) (eraseBack ((1 - 3 / 4) / (3 / 4))) (by decide) t2 []
  refine ⟨o, r, ho, hr, ?_, ?_, restored_of_ops hr ho (Or.inr rfl) rfl rfl fun ρ => ?_⟩
  · rw [opsArr_ops]; exact erasure_tp h0 h1
  · rw [opsArr_ops]; exact t2
  · have e1 : (opsArr (erasure (3 / 4))).ops (opsArr (erasure (3 / 4))).len (3 ^ 1) (2 ^ 1) = erasure (3 / 4) := opsArr_ops _
    have e2 : (opsArr (eraseBack ((1 - 3 / 4) / (3 / 4)))).ops (opsArr (eraseBack ((1 - 3 / 4) / (3 / 4)))).len (3 ^ 1)
      (opsArr (erasure (3 / 4))).len = eraseBack ((1 - 3 / 4) / (3 / 4)) := opsArr_ops _
    rw [e1, e2]
    exact erasure_back (by norm_num) h1 ρ

end

end PyQ
