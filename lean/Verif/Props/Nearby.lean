import Verif.Lemmas.Nearby
import Verif.Props.Repair
import Verif.Lemmas.StdChannels
import Verif.Lemmas.OpsArr

/-! # C125: channels whose operators differ little -/

namespace PyQ

open Matrix Spec
open scoped ComplexOrder

section
variable {eig : Eigvalsh} {sp sp' : Bool} {ops ops' : Arr3 ℂ} {a b d e : ℕ} {orth orth' : List ℕ} {o o' : KrausObj}

/-- **C125**.  Two trace preserving channels of the same shape with equally many operators, whose entries differ by little, the
squares of all differences adding up to at most `ε²`: for every number of uses `n`, all histories and every density matrix
the outputs of `channel` give no outcome of any measurement (an effect `E` with `0 ≤ E ≤ 1`) probabilities that differ by more
than `2 n ε`, and the values of `coherent_information` differ by at most
`2 n ε (log2 D' + log2 N) + 2 ((1 + T) log2 (1 + T) - T log2 T)`, `T = 2 n ε`, where `D'` is the dimension of the output and `N` the
number of operators of the `n` uses, up to the cut-off of small eigenvalues. -/
theorem C125_channels (h : QChan.init sp ops a b d e orth = .ok o) (h' : QChan.init sp' ops' a b d e orth' = .ok o')
    (hlen : ops'.len = ops.len) (htp : TracePreserving (ops.ops ops.len (e ^ b) (d ^ a)))
    (htp' : TracePreserving (ops'.ops ops'.len (e ^ b) (d ^ a))) {ε : ℝ} (hε : 0 < ε)
    (hclose : ∑ k : Fin ops.len, ∑ i : Fin (e ^ b), ∑ j : Fin (d ^ a), ‖ops.get k i j - ops'.get k i j‖ ^ 2 ≤ ε ^ 2)
    (calls calls' : List QChan.Call) (n : ℕ) (hs : SafeUses sp (calls.map QChan.Call.uses ++ [n]))
    (hs' : SafeUses sp' (calls'.map QChan.Call.uses ++ [n])) (rho : Arr ℂ) (hr : rho.rows = (d ^ a) ^ n)
    (hc : rho.cols = (d ^ a) ^ n) (hrho : IsDensity (rho.mat ((d ^ a) ^ n) ((d ^ a) ^ n))) :
    (∃ out out', (QChan.channel (QChan.history o calls) rho n false).1 = .ok out ∧
      (QChan.channel (QChan.history o' calls') rho n false).1 = .ok out' ∧
      ∀ E : Matrix (Fin ((e ^ b) ^ n)) (Fin ((e ^ b) ^ n)) ℂ, E.PosSemidef → (1 - E).PosSemidef →
        |(trace (E * out.mat ((e ^ b) ^ n) ((e ^ b) ^ n))).re - (trace (E * out'.mat ((e ^ b) ^ n) ((e ^ b) ^ n))).re| ≤ 2 * n * ε) ∧
    ((sp = true ∨ orth = []) → (sp' = true ∨ orth' = []) → ∀ eig : Eigvalsh, eig.Correct →
      ∃ v w, (QChan.coherentInformation eig (QChan.history o calls) rho n false).1 = .ok v ∧
        (QChan.coherentInformation eig (QChan.history o' calls') rho n false).1 = .ok w ∧
        |v - w| ≤ 2 * n * ε * (Real.logb 2 ((e ^ b) ^ n : ℕ) + Real.logb 2 (ops.len ^ n : ℕ)) + 2 * mixingBits (2 * n * ε) +
          (((e ^ b) ^ n : ℕ) + (ops.len ^ n : ℕ)) * (4 / 10 ^ 9)) := by
  have hn : 1 ≤ n := hs.1 n (by simp)
  rw [hlen] at htp'
  have hpsd := entries_psd (δ := ε ^ 2) (fun k => ops.ops ops.len (e ^ b) (d ^ a) k - ops'.ops ops.len (e ^ b) (d ^ a) k) hclose
  have hsm := pow_small htp htp' hpsd n hrho
  rw [← mul_pow] at hsm
  have hnε : 0 < n * ε := mul_pos (by exact_mod_cast hn) hε
  have t1 := tensorPow_tp _ n htp
  have t2 := tensorPow_tp _ n htp'
  constructor
  · obtain ⟨out, y1, -, -, y4⟩ := api_channel h calls n hs rho hr hc
    obtain ⟨out', z1, -, -, z4⟩ := api_channel h' calls' n hs' rho hr hc
    rw [hlen] at z4
    refine ⟨out, out', y1, z1, fun E hE hE1 => ?_⟩
    obtain ⟨⟨P, Z, hP, hZ, hPZ, hZt⟩, -⟩ := near_outputs t1 t2 hrho hnε hsm
    rw [← y4, ← z4] at hPZ
    have d1 : trace (out.mat ((e ^ b) ^ n) ((e ^ b) ^ n)) = 1 := by rw [y4, applyKraus_trace _ t1, hrho.2]
    have d2 : trace (out'.mat ((e ^ b) ^ n) ((e ^ b) ^ n)) = 1 := by rw [z4, applyKraus_trace _ t2, hrho.2]
    have q0 := congrArg (fun A => (trace A).re) hPZ
    have q1 := congrArg (fun A => (trace (E * A)).re) hPZ
    simp only [Matrix.mul_add, trace_add, Complex.add_re, d1, d2] at q0 q1
    have b1 := effect_le hE hE1 hP
    have b2 := effect_le hE hE1 hZ
    rw [abs_le]
    constructor <;> linarith
  · intro horth horth' eig heig
    obtain ⟨v, v0, v1, v2⟩ := api_info_near heig h horth calls n hs rho hr hc hrho.1
    obtain ⟨x, x0, x1, x2⟩ := api_info_near heig h' horth' calls' n hs' rho hr hc hrho.1
    refine ⟨v, x, v0, x0, ?_⟩
    rw [hlen] at x1 x2
    have hmain := krausInfo_near t1 t2 hrho hnε hsm
    have hlog : 0 < Real.log 2 := Real.log_pos (by norm_num)
    have hdiv := abs_le.1 hmain
    have d1 := div_le_div_of_nonneg_right hdiv.1 hlog.le
    have d2 := div_le_div_of_nonneg_right hdiv.2 hlog.le
    have e0 : 2 * (n * ε) = 2 * n * ε := by ring
    have e1 : (2 * (n * ε) * (Real.log ((e ^ b) ^ n : ℕ) + Real.log (ops.len ^ n : ℕ)) + 2 * mixNats (2 * (n * ε))) / Real.log 2 =
        2 * n * ε * (Real.logb 2 ((e ^ b) ^ n : ℕ) + Real.logb 2 (ops.len ^ n : ℕ)) + 2 * mixingBits (2 * n * ε) := by
      rw [mixingBits_eq, e0]
      unfold Real.logb
      ring
    rw [neg_div, e1, sub_div] at d1
    rw [e1, sub_div] at d2
    rw [abs_le]
    constructor <;> linarith

end

/-! ### A case that meets the hypotheses: phase flips of nearby probabilities -/

theorem sqrt_sub_sq_le {x y : ℝ} (hx : 0 ≤ x) (hy : 0 ≤ y) : (√x - √y) ^ 2 ≤ |x - y| := by
  have h1 : |x - y| = |√x - √y| * (√x + √y) := by
    rw [← abs_of_nonneg (add_nonneg (Real.sqrt_nonneg x) (Real.sqrt_nonneg y)), ← abs_mul]
    congr 1
    have a1 := Real.mul_self_sqrt hx
    have a2 := Real.mul_self_sqrt hy
    linear_combination -a1 + a2
  rw [h1, ← sq_abs, sq]
  refine mul_le_mul_of_nonneg_left ?_ (abs_nonneg _)
  rw [abs_le]
  constructor <;> linarith [Real.sqrt_nonneg x, Real.sqrt_nonneg y]

theorem phase_close {p q : ℝ} (hp0 : 0 ≤ p) (hp1 : p ≤ 1) (hq0 : 0 ≤ q) (hq1 : q ≤ 1) :
    ∑ k, ∑ i, ∑ j, ‖phaseFlip p k i j - phaseFlip q k i j‖ ^ 2 ≤ (2 * √|p - q|) ^ 2 := by
  have h1 := sqrt_sub_sq_le hp0 hq0
  have h2 := sqrt_sub_sq_le (sub_nonneg.2 hp1) (sub_nonneg.2 hq1)
  have e : (1 - p) - (1 - q) = -(p - q) := by ring
  rw [e, abs_neg] at h2
  have hn : ∀ x y : ℝ, ‖amp x - amp y‖ ^ 2 = (√x - √y) ^ 2 := by
    intro x y
    unfold amp
    rw [← Complex.ofReal_sub, Complex.norm_real, Real.norm_eq_abs, sq_abs]
  have hneg : ∀ x y : ℝ, ‖-amp x + amp y‖ ^ 2 = (√x - √y) ^ 2 := by
    intro x y
    rw [← hn, ← norm_neg]
    congr 2
    ring
  rw [mul_pow, Real.sq_sqrt (abs_nonneg _)]
  simp [Fin.sum_univ_two, phaseFlip, hn, hneg]
  linarith

/-- Phase flips of probabilities `p` and `q`, for every number of uses: the coherent informations differ by at most
`4 n √|p - q|` times the number of bits, and a term that vanishes with it. -/
example (eig : Eigvalsh) (heig : eig.Correct) {p q : ℝ} (hp0 : 0 ≤ p) (hp1 : p ≤ 1) (hq0 : 0 ≤ q) (hq1 : q ≤ 1) (hne : p ≠ q)
    {n : ℕ} (hn : 1 ≤ n) (rho : Arr ℂ) (hr : rho.rows = 2 ^ n) (hc : rho.cols = 2 ^ n) (hrho : IsDensity (rho.mat (2 ^ n) (2 ^ n))) :
    ∃ o o' v w, QChan.init false (opsArr (phaseFlip p)) 1 1 2 2 [] = .ok o ∧ QChan.init false (opsArr (phaseFlip q)) 1 1 2 2 [] = .ok o' ∧
      (QChan.coherentInformation eig o rho n false).1 = .ok v ∧ (QChan.coherentInformation eig o' rho n false).1 = .ok w ∧
      |v - w| ≤ 2 * n * (2 * √|p - q|) * (Real.logb 2 (2 ^ n : ℕ) + Real.logb 2 (2 ^ n : ℕ)) + 2 * mixingBits (2 * n * (2 * √|p - q|)) +
        ((2 ^ n : ℕ) + (2 ^ n : ℕ)) * (4 / 10 ^ 9) := by
  obtain ⟨o, ho⟩ := opsArr_init (a := 1) (b := 1) (d := 2) (e := 2) false (phaseFlip p) (by norm_num) (phaseFlip_tp hp0 hp1) []
  obtain ⟨o', ho'⟩ := opsArr_init (a := 1) (b := 1) (d := 2) (e := 2) false (phaseFlip q) (by norm_num) (phaseFlip_tp hq0 hq1) []
  have hops : ∀ r : ℝ, (opsArr (phaseFlip r)).ops 2 2 2 = phaseFlip r := fun r => opsArr_ops (phaseFlip r)
  obtain ⟨-, H⟩ := C125_channels ho ho' rfl
    (by have := phaseFlip_tp hp0 hp1; rw [← hops p] at this; exact this)
    (by have := phaseFlip_tp hq0 hq1; rw [← hops q] at this; exact this)
    (ε := 2 * √|p - q|) (by have := Real.sqrt_pos.2 (abs_pos.2 (sub_ne_zero.2 hne)); linarith)
    (by
      have h1 := phase_close hp0 hp1 hq0 hq1
      rw [← hops p, ← hops q] at h1
      exact h1)
    [] [] n (by simp [SafeUses]; omega) (by simp [SafeUses]; omega) rho hr hc hrho
  obtain ⟨v, w, hv, hw, hb⟩ := H (Or.inr rfl) (Or.inr rfl) eig heig
  exact ⟨o, o', v, w, ho, ho', hv, hw, hb⟩

end PyQ
