import Verif.Lemmas.Dephrasure
import Verif.Props.StdChannels
import Verif.Props.BlockInfo

/-!
# C107: the coherent information of the dephrasure channel
-/

namespace PyQ

open Matrix Spec
open scoped ComplexOrder

namespace Spec

/-- The quantity `u` of `_analytic_solution`, `PyQCodes/chan/tests/test_channel.py` line 123. -/
noncomputable def dephrasureRoot (lam : ℝ) (n : ℕ) (p : ℝ) : ℝ := √(1 - 4 * lam * (1 - lam) * (1 - (1 - 2 * p) ^ (2 * n)))

/-- The published coherent information of `n` uses of the dephrasure channel. -/
noncomputable def dephrasureInfo (lam : ℝ) (n : ℕ) (p q : ℝ) : ℝ :=
  ((1 - q) ^ n - q ^ n) * choiceEntropy lam - (1 - q) ^ n * choiceEntropy ((1 + dephrasureRoot lam n p) / 2)

end Spec

/-- The formula of the test, lines 118-126, for the values for which its logarithms are defined. -/
theorem dephrasureInfo_test {lam : ℝ} {n : ℕ} {p q : ℝ} (hu : dephrasureRoot lam n p < 1) (h0 : 0 < lam) (h1 : lam < 1) :
    dephrasureInfo lam n p q = ((1 - q) ^ n - q ^ n) * (-lam * Real.logb 2 lam - (1 - lam) * Real.logb 2 (1 - lam)) -
      (1 - q) ^ n * (1 - dephrasureRoot lam n p * Real.logb 2 ((1 + dephrasureRoot lam n p) / (1 - dephrasureRoot lam n p)) / 2 -
        Real.logb 2 (1 - dephrasureRoot lam n p ^ 2) / 2) := by
  have hl2 : Real.log 2 ≠ 0 := (Real.log_pos (by norm_num)).ne'
  unfold dephrasureInfo
  have hu0 : 0 ≤ dephrasureRoot lam n p := Real.sqrt_nonneg _
  generalize dephrasureRoot lam n p = u at hu hu0
  have a1 : (1 + u) ≠ 0 := by linarith
  have a2 : (1 - u) ≠ 0 := by linarith
  rw [choiceEntropy_eq, choiceEntropy_eq, show 1 - (1 + u) / 2 = (1 - u) / 2 by ring,
    show 1 - u ^ 2 = (1 + u) * (1 - u) by ring]
  simp only [Real.negMulLog, Real.logb]
  rw [Real.log_div a1 two_ne_zero, Real.log_div a2 two_ne_zero, Real.log_div a1 a2, Real.log_mul a1 a2]
  field_simp
  ring

variable {eig : Eigvalsh} {sp : Bool} {ops : Arr3 ℂ} {orth : List ℕ} {o : KrausObj} {p q lam : ℝ}

theorem dephrasure_groups (k m : Fin 4) (hk : (k : ℕ) < 2) (hm : 2 ≤ (m : ℕ)) :
    (dephrasure p q k)ᴴ * dephrasure p q m = 0 := by
  ext i j
  rw [Matrix.mul_apply, Fin.sum_univ_three]
  fin_cases k <;> fin_cases m <;> simp at hk hm <;> fin_cases i <;> fin_cases j <;> simp [dephrasure]

theorem cat_mat {n : ℕ} (hn : 1 ≤ n) {rho : Arr ℂ} (hrho : ∀ i < 2 ^ n, ∀ j < 2 ^ n, rho.get i j =
      if i = 0 ∧ j = 0 then (lam : ℂ) else if i = 2 ^ n - 1 ∧ j = 2 ^ n - 1 then ((1 - lam : ℝ) : ℂ) else 0) :
    rho.mat (2 ^ n) (2 ^ n) = catState n ![lam, 1 - lam] := by
  have h2 : 2 ^ n - 1 ≠ 0 := by
    have : 2 ^ 1 ≤ 2 ^ n := Nat.pow_le_pow_right (by norm_num) hn
    omega
  ext i j
  rw [catState_apply, Fin.sum_univ_two]
  simp only [digits_zero, digits_one]
  rw [Arr.mat, hrho i i.2 j j.2]
  by_cases h : (i : ℕ) = 0 ∧ (j : ℕ) = 0
  · rw [if_pos h, if_pos h, if_neg (by omega)]
    simp
  · rw [if_neg h, if_neg h]
    split_ifs <;> simp

theorem dephrasure_value (n : ℕ) : (((1 - q) ^ n - q ^ n) * choiceNats lam - (1 - q) ^ n * overlapNats lam ((1 - 2 * p) ^ n)) /
    Real.log 2 = dephrasureInfo lam n p q := by
  unfold dephrasureInfo overlapNats dephrasureRoot
  rw [choiceEntropy_eq, choiceEntropy_eq, ← pow_mul, Nat.mul_comm n 2]
  unfold choiceNats
  ring

/-- **C107**.  For every number `n` of uses of the channel that flips the phase with probability `p` and then erases the qubit with
probability `q`, the coherent information of the state with weight `lam` on "all zero" and `1 - lam` on "all one" is the published
value, up to the cut-off of small eigenvalues.  The object may be sparse, dense without groups, or dense with the two groups of two
operators that the tests give. -/
theorem C107_dephrasure (heig : eig.Correct) (h : QChan.init sp ops 1 1 2 3 orth = .ok o)
    (ho : sp = true ∨ orth = [] ∨ orth = [2]) (hl : ops.len = 4) (hops : ops.ops 4 3 2 = dephrasure p q)
    (p0 : 0 ≤ p) (p1 : p ≤ 1) (q0 : 0 ≤ q) (q1 : q ≤ 1) (l0 : 0 ≤ lam) (l1 : lam ≤ 1) (calls : List QChan.Call) (n : ℕ)
    (hsafe : SafeUses sp (calls.map QChan.Call.uses ++ [n])) (rho : Arr ℂ) (hr : rho.rows = 2 ^ n) (hc : rho.cols = 2 ^ n)
    (hrho : ∀ i < 2 ^ n, ∀ j < 2 ^ n, rho.get i j =
      if i = 0 ∧ j = 0 then (lam : ℂ) else if i = 2 ^ n - 1 ∧ j = 2 ^ n - 1 then ((1 - lam : ℝ) : ℂ) else 0)
    (reg : Bool) :
    ∃ v, (QChan.coherentInformation eig (QChan.history o calls) rho n reg).1 = .ok v ∧
      v * (if reg then (n : ℝ) else 1) ≤ dephrasureInfo lam n p q + 4 ^ n * (4 / 10 ^ 9) ∧
      dephrasureInfo lam n p q ≤ v * (if reg then (n : ℝ) else 1) + 3 ^ n * (4 / 10 ^ 9) := by
  have hn : 1 ≤ n := hsafe.1 n (by simp)
  have hn' : (n : ℝ) ≠ 0 := by exact_mod_cast (by omega : n ≠ 0)
  have hlam : ∀ x, 0 ≤ (![lam, 1 - lam] : Fin 2 → ℝ) x := by
    intro x
    fin_cases x
    · exact l0
    · exact sub_nonneg.mpr l1
  have hlam1 : (![lam, 1 - lam] : Fin 2 → ℝ) 0 + (![lam, 1 - lam] : Fin 2 → ℝ) 1 = 1 := by simp
  have hmat := cat_mat hn hrho
  have hd : IsDensity (rho.mat (2 ^ n) (2 ^ n)) := by
    rw [hmat]
    exact catState_density hlam hlam1
  have htp := dephrasure_tp p0 p1 q0 q1
  suffices hfalse : ∃ v, (QChan.coherentInformation eig (QChan.history o calls) rho n false).1 = .ok v ∧
      v ≤ dephrasureInfo lam n p q + 4 ^ n * (4 / 10 ^ 9) ∧ dephrasureInfo lam n p q ≤ v + 3 ^ n * (4 / 10 ^ 9) by
    obtain ⟨v, hv, v1, v2⟩ := hfalse
    cases reg with
    | false => exact ⟨v, hv, by simpa using v1, by simpa using v2⟩
    | true =>
      refine ⟨v / n, coherent_reg hv, ?_⟩
      rw [if_pos rfl, div_mul_cancel₀ v hn']
      exact ⟨v1, v2⟩
  have main : ∀ {sp' : Bool} {orth' : List ℕ} {o' : KrausObj} (calls' : List QChan.Call),
      QChan.init sp' ops 1 1 2 3 orth' = .ok o' → (sp' = true ∨ orth' = []) →
      SafeUses sp' (calls'.map QChan.Call.uses ++ [n]) →
      ∃ v, (QChan.coherentInformation eig (QChan.history o' calls') rho n false).1 = .ok v ∧
      v ≤ dephrasureInfo lam n p q + 4 ^ n * (4 / 10 ^ 9) ∧ dephrasureInfo lam n p q ≤ v + 3 ^ n * (4 / 10 ^ 9) := by
    intro sp' orth' o' calls' h' ho' hs'
    obtain ⟨v, hv, v1, v2⟩ := api_family heig h' ho' hl (by norm_num) (by norm_num) hops htp calls' n hs' rho hr hc hd
    rw [hmat, dephrasure_cat p0 p1 q0 q1 n hlam hlam1, cons_val_zero, dephrasure_value] at v1 v2
    exact ⟨v, hv, by exact_mod_cast v1, by exact_mod_cast v2⟩
  have htp' : TracePreserving (ops.ops ops.len (3 ^ 1) (2 ^ 1)) := by
    rw [hl]
    exact hops ▸ htp
  cases sp with
  | true => exact main calls h (Or.inl rfl) hsafe
  | false =>
    rcases ho with hx | rfl | rfl
    · exact absurd hx (by decide)
    · exact main calls h (Or.inr rfl) hsafe
    · obtain ⟨-, -, -, -, -, -, -, -, g9, g10, g11, -⟩ := qchanInit_ok h
      obtain ⟨o₁, h₁⟩ := init_exact false ops 1 1 2 3 [] g9 g10 g11 htp'
      obtain ⟨v, hv, hv₁⟩ := C30_coherent_partial (calls := calls) (calls₁ := calls) (n := n) heig 2 h h₁ (by rw [hl])
        (by
          clear main htp'
          intro k m hk hm
          have := dephrasure_groups (p := p) (q := q) ⟨k, hl ▸ k.2⟩ ⟨m, hl ▸ m.2⟩ hk hm
          rw [← hops] at this
          exact this) hsafe hsafe rho hr hc hd.1 false
      obtain ⟨w, hw, w1, w2⟩ := main calls h₁ (Or.inr rfl) hsafe
      rw [hv₁] at hw
      injection hw with hw
      subst hw
      exact ⟨v, hv, w1, w2⟩

/-- The objects and the states of the tests, for every choice of the probabilities. -/
example (sp : Bool) (p0 : 0 ≤ p) (p1 : p ≤ 1) (q0 : 0 ≤ q) (q1 : q ≤ 1) (n : ℕ) : ∃ o, ∃ rho : Arr ℂ,
    QChan.init sp (opsArr (dephrasure p q)) 1 1 2 3 [2] = .ok o ∧ (opsArr (dephrasure p q)).len = 4 ∧
    (opsArr (dephrasure p q)).ops 4 3 2 = dephrasure p q ∧ rho.rows = 2 ^ n ∧ rho.cols = 2 ^ n ∧
    ∀ i < 2 ^ n, ∀ j < 2 ^ n, rho.get i j =
      if i = 0 ∧ j = 0 then (lam : ℂ) else if i = 2 ^ n - 1 ∧ j = 2 ^ n - 1 then ((1 - lam : ℝ) : ℂ) else 0 := by
  obtain ⟨o, ho⟩ := opsArr_init sp (a := 1) (b := 1) (d := 2) (e := 3) (dephrasure p q) (by decide)
    (dephrasure_tp p0 p1 q0 q1) [2]
  exact ⟨o, ⟨2 ^ n, 2 ^ n, fun i j => if i = 0 ∧ j = 0 then (lam : ℂ) else
    if i = 2 ^ n - 1 ∧ j = 2 ^ n - 1 then ((1 - lam : ℝ) : ℂ) else 0⟩, ho, rfl, opsArr_ops _, rfl, rfl, fun _ _ _ _ => rfl⟩

end PyQ
