import Verif.Lemmas.Syndrome
import Verif.Spec.Measure

/-! The syndrome circuit on an arbitrary state. -/

namespace PyQ

open Spec

variable {N n : ℕ}

theorem sqrt2_inv_sq : ((Real.sqrt 2 : ℝ) : ℂ)⁻¹ * ((Real.sqrt 2 : ℝ) : ℂ)⁻¹ = 1 / 2 := by
  rw [← mul_inv, ← Complex.ofReal_mul, Real.mul_self_sqrt (by norm_num)]; norm_num

/-- The syndrome circuit on any state, with the ancilla in state `a`. -/
theorem run_syndrome_part {s : List Char} (hs : s.length ≤ n) (φ : Amp n) (a : ZMod 2) :
    run (⟨none, .H, n⟩ :: strG (some n) 0 s ++ [⟨none, .H, n⟩]) (tensor φ (qubit a)) =
      tensor (part (strPauli n s) a φ) (qubit 0) + tensor (part (strPauli n s) (a + 1) φ) (qubit 1) := by
  rw [List.cons_append, run_cons, run_append, applyGate_H_last, run_smul, run_add, run_smul (strG (some n) 0 s)]
  have hc : ∀ u : ZMod 2, run (strG (some n) 0 s) (tensor φ (qubit u)) =
      tensor (if u = 1 then pauliAct (strPauli n s) φ else φ) (qubit u) := by
    intro u
    rw [run_strG_zero _ _ (by omega)]
    · exact ctrlAct_tensor s hs φ (fun _ : Fin 1 => u) (i := 0) (by omega)
    · intro i hi
      simp only [Option.mem_def, Option.some.injEq] at hi
      subst hi
      rw [List.getD_eq_default _ _ (by omega)]; rfl
  rw [hc, hc, if_neg (by decide), if_pos rfl, run_cons, run_nil, applyGate_smul, applyGate_add, applyGate_smul,
    applyGate_H_last, applyGate_H_last, sgn_zero, sgn_one]
  have hq := sqrt2_inv_sq
  generalize ((Real.sqrt 2 : ℝ) : ℂ)⁻¹ = w at *
  funext b
  simp only [Pi.add_apply, Pi.smul_apply, tensor_apply, part, smul_eq_mul, sgn_add, sgn_one, ← hq]
  ring

/-- Reading the ancilla of a sum of the two branches. -/
theorem measProb_branches (φ0 φ1 : Amp n) (r : ZMod 2) :
    measProb n r (tensor φ0 (qubit 0) + tensor φ1 (qubit 1)) = normSq (if r = 0 then φ0 else φ1) := by
  unfold measProb
  simp only [bitAt_last, tensor_apply, Pi.add_apply]
  rw [sum_split fun (u : Fin n → ZMod 2) (v : Fin 1 → ZMod 2) =>
    if v 0 = r then Complex.normSq (φ0 u * qubit 0 v + φ1 u * qubit 1 v) else 0]
  unfold normSq
  apply Finset.sum_congr rfl
  intro u _
  rw [Finset.sum_eq_single (fun _ : Fin 1 => r)]
  · have hk : ∀ u v : ZMod 2, ((fun _ : Fin 1 => u) = fun _ => v) ↔ u = v := by
      intro u v
      constructor
      · intro h; exact congrFun h 0
      · rintro rfl; rfl
    unfold qubit ket
    simp only [hk]
    rcases zmod2_cases r with rfl | rfl <;> simp
  · intro v _ hv
    rw [if_neg]
    intro h
    apply hv
    funext j
    rw [Subsingleton.elim j 0]; exact h
  · simp

theorem collapse_branches (φ0 φ1 : Amp n) (r : ZMod 2) :
    collapse n r (tensor φ0 (qubit 0) + tensor φ1 (qubit 1)) =
      tensor (((Real.sqrt (normSq (if r = 0 then φ0 else φ1)) : ℝ) : ℂ)⁻¹ • (if r = 0 then φ0 else φ1)) (qubit r) := by
  funext b
  unfold collapse
  rw [measProb_branches, bitAt_last]
  have hk : ∀ v : ZMod 2, (rightB b = fun _ : Fin 1 => v) ↔ rightB b 0 = v := by
    intro v
    constructor
    · intro h; exact congrFun h 0
    · intro h; funext j; rw [Subsingleton.elim j 0]; exact h
  simp only [tensor_apply, Pi.add_apply, Pi.smul_apply, qubit, ket, hk, smul_eq_mul]
  rcases zmod2_cases r with rfl | rfl <;> rcases zmod2_cases (rightB b 0) with h | h <;> rw [h] <;> simp

theorem conj_sgn (a : ZMod 2) : (starRingEnd ℂ) (sgn a : ℂ) = sgn a := by
  rcases zmod2_cases a with rfl | rfl <;> simp

theorem braket_pauli (p : Pauli n) (φ ψ : Amp n) :
    braket (pauliAct p φ) ψ = (sgn (parityY p) : ℂ) * braket φ (pauliAct p ψ) := by
  unfold braket
  rw [Finset.mul_sum, ← Equiv.sum_comp (Equiv.addRight p.x)]
  apply Finset.sum_congr rfl
  intro b _
  simp only [Equiv.coe_addRight, pauliAct_apply]
  have h1 : b + p.x + p.x = b := by rw [add_assoc, add_self_f, add_zero]
  rw [h1, map_mul, conj_sgn, dotp_add_right, sgn_add]
  unfold parityY
  have := sgn_mul_self (R := ℂ) (dotp p.z p.x)
  linear_combination (-(sgn (dotp p.z b) : ℂ) * (starRingEnd ℂ) (φ b) * ψ (b + p.x)) * this

end PyQ
