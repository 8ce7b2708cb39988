import Verif.Lemmas.Decode

/-! The syndrome circuit. -/

namespace PyQ

open Spec

variable {N n : ℕ}

theorem applyGate_HH (q : ℕ) (hq : q < N) (ψ : Amp N) : applyGate ⟨none, .H, q⟩ (applyGate ⟨none, .H, q⟩ ψ) = ψ := by
  have e1 : (1 : ZMod 2) + 1 = 0 := rfl
  have hss : ∀ (b : Fin N → ZMod 2) (u v : ZMod 2), setBit (setBit b q u) q v = setBit b q v := by
    intro b u v; funext j; unfold setBit; split_ifs <;> rfl
  have hsq : ((Real.sqrt 2 : ℝ) : ℂ)⁻¹ * ((Real.sqrt 2 : ℝ) : ℂ)⁻¹ = 1 / 2 := by
    rw [← mul_inv, ← Complex.ofReal_mul, Real.mul_self_sqrt (by norm_num)]; norm_num
  funext b
  rw [applyGate_H, applyGate_H, applyGate_H, hss, hss, hss, hss, bitAt_setBit _ _ hq, bitAt_setBit _ _ hq, sgn_zero, sgn_one]
  generalize ((Real.sqrt 2 : ℝ) : ℂ)⁻¹ = w at *
  have hb : ψ b = if bitAt b q = 0 then ψ (setBit b q 0) else ψ (setBit b q 1) := by
    rcases zmod2_cases (bitAt b q) with h | h
    · rw [if_pos h, ← h, setBit_self]
    · rw [if_neg (by rw [h]; decide)]
      conv_lhs => rw [← setBit_self b q, h]
  rw [hb]
  rcases zmod2_cases (bitAt b q) with h | h
  · rw [h, if_pos rfl, sgn_zero]; linear_combination (2 * ψ (setBit b q 0)) * hsq
  · rw [h, if_neg (by decide), sgn_one]; linear_combination (2 * ψ (setBit b q 1)) * hsq

/-- Hadamard on the last qubit of a product. -/
theorem applyGate_H_last (φ : Amp n) (a : ZMod 2) :
    applyGate ⟨none, .H, n⟩ (tensor φ (qubit a)) =
      ((Real.sqrt 2 : ℝ) : ℂ)⁻¹ • (tensor φ (qubit 0) + (sgn a : ℂ) • tensor φ (qubit 1)) := by
  funext b
  have hL : ∀ v, leftB (setBit b n v) = leftB b := by
    intro v; funext j; unfold leftB setBit; rw [if_neg (by simp; omega)]
  have hR : ∀ v, rightB (setBit b n v) = fun _ : Fin 1 => v := by
    intro v; funext j; unfold rightB setBit; rw [if_pos (by simp)]
  have hb : rightB b = fun _ : Fin 1 => bitAt b n := by
    funext j
    rw [bitAt_of_lt b (by omega)]
    unfold rightB
    congr 1
    apply Fin.ext; simp
  rw [applyGate_H, Pi.smul_apply, Pi.add_apply, Pi.smul_apply]
  simp only [tensor_apply, hL, hR, hb, qubit, ket, smul_eq_mul]
  have hk : ∀ u v : ZMod 2, ((fun _ : Fin 1 => u) = fun _ => v) ↔ u = v := by
    intro u v
    constructor
    · intro h; exact congrFun h 0
    · rintro rfl; rfl
  simp only [hk]
  rcases zmod2_cases a with rfl | rfl <;> rcases zmod2_cases (bitAt b n) with h | h <;> rw [h] <;> simp

/-- The syndrome circuit on an eigenstate of the operator: the eigenvalue is added to the ancilla. -/
theorem run_syndrome {s : List Char} (hs : s.length ≤ n) {φ : Amp n} {t : ZMod 2}
    (hφ : pauliAct (strPauli n s) φ = (sgn t : ℂ) • φ) (a : ZMod 2) :
    run (⟨none, .H, n⟩ :: strG (some n) 0 s ++ [⟨none, .H, n⟩]) (tensor φ (qubit a)) = tensor φ (qubit (a + t)) := by
  rw [List.cons_append, run_cons, run_append, applyGate_H_last, run_smul, run_add, run_smul (strG (some n) 0 s)]
  have hc : ∀ u : ZMod 2, run (strG (some n) 0 s) (tensor φ (qubit u)) = tensor (if u = 1 then (sgn t : ℂ) • φ else φ) (qubit u) := by
    intro u
    rw [run_strG_zero _ _ (by omega)]
    · have := ctrlAct_tensor s hs φ (fun _ : Fin 1 => u) (i := 0) (by omega)
      rw [hφ] at this
      exact this
    · intro i hi
      simp only [Option.mem_def, Option.some.injEq] at hi
      subst hi
      rw [List.getD_eq_default _ _ (by omega)]; rfl
  rw [hc, hc, if_neg (by decide), if_pos rfl, tensor_smul_left, smul_smul, ← sgn_add, ← applyGate_H_last, run_cons, run_nil,
    applyGate_HH _ (by omega)]

theorem syndromeLetter_ok {len anc : ℕ} {s : List Char} (hl : s.length ≤ len) (hs : ∀ ch ∈ s, ch = 'X' ∨ ch = 'Y' ∨ ch = 'Z' ∨ ch = 'I') :
    s.zipIdx.mapM (syndromeLetter len anc) = .ok (s.zipIdx.map fun cj => letterG (some anc) cj.2 cj.1) := by
  apply mapM_ok_of
  rintro ⟨ch, j⟩ hj
  have hj' := mem_zipIdx_lt hj
  unfold syndromeLetter
  simp only
  rcases hs ch (List.fst_mem_of_mem_zipIdx hj) with h | h | h | h
  · rw [if_pos (Or.inl h), letterGates_ok (by omega)]
  · rw [if_pos (Or.inr (Or.inl h)), letterGates_ok (by omega)]
  · rw [if_pos (Or.inr (Or.inr h)), letterGates_ok (by omega)]
  · subst h; rw [if_neg (by decide), if_pos rfl]; rfl

/-- The circuit built for a string of letters. -/
theorem syndromeCircuit_str {c : StabCode} {active len : ℕ} (h : (active = c.n ∧ len = c.n) ∨ (active = c.n + 1 ∧ len = c.n + 1))
    {s : List Char} (hl : s.length ≤ c.n) (hs : ∀ ch ∈ s, ch = 'X' ∨ ch = 'Y' ∨ ch = 'Z' ∨ ch = 'I') :
    syndromeCircuit c active len (.str s) = .ok (⟨none, .H, c.n⟩ :: strG (some c.n) 0 s ++ [⟨none, .H, c.n⟩], c.n) := by
  have hanc : (if active = c.n then .ok len else if len = 0 then .error .index else .ok (len - 1) : Except PyErr ℕ) = .ok c.n := by
    rcases h with ⟨rfl, rfl⟩ | ⟨rfl, rfl⟩
    · rw [if_pos rfl]
    · rw [if_neg (by omega), if_neg (by omega)]; rfl
  unfold syndromeCircuit
  rw [if_neg (by omega)]
  simp only [hanc, ok_bind']
  rw [syndromeLetter_ok (by omega) hs, ok_bind', ← List.flatMap_def]
  rfl

theorem binaryStr_letters {b : List ℤ} {s : List Char} (h : binaryRepToPauliStr b = .ok s) :
    ∀ ch ∈ s, ch = 'X' ∨ ch = 'Y' ∨ ch = 'Z' ∨ ch = 'I' := by
  unfold binaryRepToPauliStr at h
  simp only at h
  rw [mapM_ok_iff] at h
  intro ch hch
  obtain ⟨i, hi, rfl⟩ := List.getElem_of_mem hch
  obtain ⟨hlen, h2⟩ := List.forall₂_iff_get.mp h
  have hx := h2 i (by rw [hlen]; exact hi) hi
  simp only [List.get_eq_getElem] at hx
  unfold pauliChar at hx
  split_ifs at hx <;> (simp only [Except.ok.injEq] at hx) <;> (rw [← hx]; simp)

/-- The circuit built for a binary row. -/
theorem syndromeCircuit_bin {c : StabCode} {active len : ℕ} (h : (active = c.n ∧ len = c.n) ∨ (active = c.n + 1 ∧ len = c.n + 1))
    {b : List ℤ} (hl : b.length = 2 * c.n) (hb : IsBinary b) :
    ∃ s, s.length = c.n ∧ strPauli c.n s = rowPauli c.n b ∧ (∀ ch ∈ s, ch = 'X' ∨ ch = 'Y' ∨ ch = 'Z' ∨ ch = 'I') ∧
      syndromeCircuit c active len (.bin b) = .ok (⟨none, .H, c.n⟩ :: strG (some c.n) 0 s ++ [⟨none, .H, c.n⟩], c.n) := by
  obtain ⟨s, h1, h2, h3⟩ := rowStr hl hb
  refine ⟨s, h2, h3, binaryStr_letters h1, ?_⟩
  rw [← syndromeCircuit_str h (by omega) (binaryStr_letters h1)]
  unfold syndromeCircuit
  simp only [h1]

/-! ### Reading the last qubit -/

theorem bitAt_last (b : Fin (n + 1) → ZMod 2) : bitAt b n = rightB b 0 := bitAt_right b (q := 0) (by omega)

theorem sum_split {M : Type} [AddCommMonoid M] {m : ℕ} (f : (Fin n → ZMod 2) → (Fin m → ZMod 2) → M) :
    ∑ b : Fin (n + m) → ZMod 2, f (leftB b) (rightB b) = ∑ u, ∑ v, f u v := by
  rw [← Fintype.sum_prod_type', ← (Fin.appendEquiv n m).sum_comp]
  apply Finset.sum_congr rfl
  rintro ⟨u, v⟩ _
  have h1 : leftB (Fin.append u v) = u := by funext j; unfold leftB; rw [Fin.append_left]
  have h2 : rightB (Fin.append u v) = v := by funext j; unfold rightB; rw [Fin.append_right]
  show f (leftB (Fin.append u v)) (rightB (Fin.append u v)) = _
  rw [h1, h2]

theorem measProb_last (φ : Amp n) (hφ : Normalised φ) (a r : ZMod 2) :
    measProb n r (tensor φ (qubit a)) = if r = a then 1 else 0 := by
  unfold measProb
  simp only [bitAt_last, tensor_apply]
  rw [sum_split fun (u : Fin n → ZMod 2) (v : Fin 1 → ZMod 2) => if v 0 = r then Complex.normSq (φ u * qubit a v) else 0]
  have h1 : ∀ u : Fin n → ZMod 2, (∑ v : Fin 1 → ZMod 2, if v 0 = r then Complex.normSq (φ u * qubit a v) else 0) =
      if r = a then Complex.normSq (φ u) else 0 := by
    intro u
    rw [Finset.sum_eq_single (fun _ : Fin 1 => r)]
    · rw [if_pos rfl]
      unfold qubit ket
      by_cases h : r = a
      · subst h; rw [if_pos rfl, if_pos rfl, mul_one]
      · rw [if_neg (fun h' => h (congrFun h' 0)), if_neg h, mul_zero, map_zero]
    · intro v _ hv
      rw [if_neg]
      intro h
      apply hv
      funext j
      rw [Subsingleton.elim j 0]; exact h
    · simp
  rw [Finset.sum_congr rfl fun u _ => h1 u]
  split_ifs
  · exact hφ
  · simp

theorem collapse_last (φ : Amp n) (hφ : Normalised φ) (a : ZMod 2) :
    collapse n a (tensor φ (qubit a)) = tensor φ (qubit a) := by
  funext b
  unfold collapse
  rw [measProb_last φ hφ, if_pos rfl, Real.sqrt_one, Complex.ofReal_one, inv_one, one_mul, bitAt_last]
  split_ifs with h
  · rfl
  · rw [tensor_apply]
    unfold qubit ket
    rw [if_neg, mul_zero]
    intro h'; exact h (congrFun h' 0)

theorem tensor_qubit_inj {φ φ' : Amp n} {r : ZMod 2} (h : tensor φ (qubit r) = tensor φ' (qubit r)) : φ = φ' := by
  funext u
  have h' := congrFun h (Fin.append u fun _ : Fin 1 => r)
  have h1 : leftB (Fin.append u fun _ : Fin 1 => r) = u := by funext j; unfold leftB; rw [Fin.append_left]
  have h2 : rightB (Fin.append u fun _ : Fin 1 => r) = fun _ => r := by funext j; unfold rightB; rw [Fin.append_right]
  rw [tensor_apply, tensor_apply, h1, h2] at h'
  unfold qubit ket at h'
  rwa [if_pos rfl, mul_one, mul_one] at h'

theorem normalised_pauli (p : Pauli n) {ψ : Amp n} (hψ : Normalised ψ) : Normalised (pauliAct p ψ) := by
  unfold Normalised at *
  rw [← hψ, ← Equiv.sum_comp (Equiv.addRight p.x) (fun b => Complex.normSq (ψ b))]
  apply Finset.sum_congr rfl
  intro b _
  rw [pauliAct_apply, Complex.normSq_mul, Equiv.coe_addRight]
  have : Complex.normSq ((sgn (dotp p.z (b + p.x)) : ℂ)) = 1 := by
    rcases zmod2_cases (dotp p.z (b + p.x)) with e | e <;> rw [e] <;> simp
  rw [this, one_mul]

theorem normalised_of_braket {ψ : Amp n} (h : braket ψ ψ = 1) : Normalised ψ := by
  unfold braket at h
  unfold Normalised
  have : ∀ b, (starRingEnd ℂ) (ψ b) * ψ b = ((Complex.normSq (ψ b) : ℝ) : ℂ) := fun b => by
    rw [mul_comm, Complex.mul_conj]
  simp only [this] at h
  have hs := map_sum Complex.ofRealHom (fun b => Complex.normSq (ψ b)) Finset.univ
  exact Complex.ofReal_eq_one.mp (hs.trans h)

end PyQ
