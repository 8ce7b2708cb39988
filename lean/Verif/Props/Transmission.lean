import Verif.Props.Propagate
import Verif.Props.DecodeError
import Verif.Props.EncodeState
import Verif.Spec.Transmission

/-! # C149: encoding, rounds of error correction and decoding, with errors everywhere -/

namespace PyQ

open Spec

variable {n m k : ℕ}

/-- What the errors of a whole transmission do to the decoded qubits.  The errors `e₁` of the encoding circuit are taken to its end;
the rounds of error correction with the errors `ess` leave some Pauli operator on the code qubits; the logical operators of the code
see it as one on the decoded qubits, where what is left there of the errors `e₂` of the decoding circuit joins it. -/
def Spec.transmitted (c : StabCode) (table : List (ZMod 2) → List ℤ) (k : ℕ) (enc : List Gate) (e₁ : ℕ → Pauli c.n)
    (ess : List (List (ℕ → Pauli (c.n + 1)))) (dec : List Gate) (e₂ : ℕ → Pauli (c.n + k)) : Pauli k :=
  (totalError dec e₂).onMessage.add (seenBy (rowsOf c.logicalX) (rowsOf c.logicalZ) k (ofVec (leftoverCircuit c table (totalError enc e₁).vec ess)))

theorem runNoisy_smul (gs : List Gate) (e : ℕ → Pauli n) (a : ℂ) (ψ : Amp n) : runNoisy gs e (a • ψ) = a • runNoisy gs e ψ := by
  induction gs generalizing e ψ with
  | nil => exact pauliAct_smul _ _ _
  | cons g gs ih =>
    show runNoisy gs _ (applyGate g (pauliAct (e 0) (a • ψ))) = _
    rw [pauliAct_smul, show applyGate g (a • pauliAct (e 0) ψ) = a • applyGate g (pauliAct (e 0) ψ) from run_smul [g] a _, ih]
    rfl

theorem normalised_ket (b : Fin k → ZMod 2) : Normalised (ket b : Amp k) := by
  show ∑ x, Complex.normSq (ket b x) = 1
  rw [Finset.sum_eq_single b]
  · simp [ket]
  · intro x _ hx; simp [ket, hx]
  · simp

theorem pauliAct_parts (q : Pauli (n + m)) (φ : Amp n) (χ : Amp m) :
    pauliAct q (tensor φ χ) = tensor (pauliAct q.onCode φ) (pauliAct q.onMessage χ) := by
  funext b
  rw [pauliAct_apply, tensor_apply, tensor_apply, pauliAct_apply, pauliAct_apply, dotp_split, leftB_add, rightB_add, sgn_add]
  show sgn (dotp q.onCode.z (leftB b + q.onCode.x)) * sgn (dotp q.onMessage.z (rightB b + q.onMessage.x)) *
    (φ (leftB b + q.onCode.x) * χ (rightB b + q.onMessage.x)) = _
  ring

theorem pauliAct_add' (p q : Pauli n) : ∃ ω : ℂ, Complex.normSq ω = 1 ∧ ∀ ψ : Amp n,
    pauliAct p (pauliAct q ψ) = ω • pauliAct (p.add q) ψ :=
  ⟨sgn (dotp p.z q.x), normSq_sgn _, fun ψ => by rw [pauliAct_comp]⟩

theorem sum_ket_amp (α : (Fin k → ZMod 2) → ℂ) : ∑ δ, α δ • (ket δ : Amp k) = α := by
  funext b
  rw [Finset.sum_apply, Finset.sum_eq_single b]
  · simp [ket]
  · intro d _ hd
    simp [ket, hd.symm]
  · simp

/-- Only the identity takes every state to a multiple of itself. -/
theorem pauli_trivial (P : Pauli k) (h : ∀ χ : Amp k, Normalised χ → ∃ w : ℂ, pauliAct P χ = w • χ) : P = ⟨0, 0⟩ := by
  have hpx : P.x = 0 := by
    obtain ⟨w, hw⟩ := h (ket 0) (normalised_ket 0)
    rw [pauliAct_ket] at hw
    have := congrFun hw P.x
    simp only [Pi.smul_apply, smul_eq_mul, zero_add, dotp_zero_right, sgn_zero, one_mul] at this
    by_contra hne
    simp [ket, hne] at this
  have hpz : P.z = 0 := by
    set a : ℂ := (((Real.sqrt (2 ^ k))⁻¹ : ℝ) : ℂ) with ha
    have h2 : (0 : ℝ) < 2 ^ k := by positivity
    have hsq : Real.sqrt (2 ^ k) * Real.sqrt (2 ^ k) = 2 ^ k := Real.mul_self_sqrt h2.le
    have hs0 : Real.sqrt (2 ^ k) ≠ 0 := (Real.sqrt_pos.mpr h2).ne'
    have ha0 : a ≠ 0 := by rw [ha]; exact Complex.ofReal_ne_zero.mpr (inv_ne_zero hs0)
    have hN : Normalised (fun _ : Fin k → ZMod 2 => a) := by
      show ∑ _ : Fin k → ZMod 2, Complex.normSq a = 1
      rw [Finset.sum_const, Finset.card_univ, Fintype.card_fun, ZMod.card, Fintype.card_fin, ha, Complex.normSq_ofReal, nsmul_eq_mul]
      rw [← _root_.mul_inv, hsq]
      push_cast
      exact mul_inv_cancel₀ h2.ne'
    obtain ⟨w, hw⟩ := h _ hN
    have key : ∀ b : Fin k → ZMod 2, (sgn (dotp P.z b) : ℂ) = w := by
      intro b
      have := congrFun hw b
      rw [pauliAct_apply, hpx, add_zero, Pi.smul_apply, smul_eq_mul] at this
      exact mul_right_cancel₀ ha0 this
    funext i
    have h0 := key 0
    have h1' := key (Pi.single i 1)
    rw [dotp_zero_right, sgn_zero] at h0
    rw [← h0, dotp_single] at h1'
    rcases zmod2_cases (P.z i) with e | e
    · exact e
    · rw [e, sgn_one] at h1'
      norm_num at h1'
  exact congrArg₂ Pauli.mk hpx hpz

theorem normalised_nonzero {χ : Amp n} (h : Normalised χ) : ∃ x, χ x ≠ 0 := by
  by_contra hno
  push Not at hno
  unfold Normalised at h
  simp [hno] at h

/-- **C149**, decoding with errors.  Encode any state, let the Pauli operator `E` hit the code qubits, then decode while the Pauli
operator `e i` hits all qubits after the first `i` gates, for every `i`.  The decoded qubits hold the encoded state with one Pauli
operator: what `E` is seen as by the logical operators times what the errors of the circuit, taken to its end, leave on those qubits.
The code qubits are left, unentangled, in a state that does not depend on the encoded one.  The generators need not be
independent. -/
theorem C149_decoding (s : StabInput) (c : StabCode) (h : stabInit s n k none = .ok c) (hb : BinaryArr c.stab)
    (len : ℕ) (addAncilla : Bool) (hla : (len = n ∧ addAncilla = true) ∨ (len = n + k ∧ addAncilla = false)) :
    ∃ (enc : (Fin k → ZMod 2) → List Gate) (dec : List Gate),
      (∀ δ, encodingCircuit c n (bitsList δ) = .ok (enc δ)) ∧ decodingCircuit c len addAncilla = .ok dec ∧
      ∀ (E : Pauli n) (e : ℕ → Pauli (n + k)), ∃ χ : Amp n, Normalised χ ∧ ∀ α : (Fin k → ZMod 2) → ℂ,
        runNoisy dec e (tensor (pauliAct E (∑ δ, α δ • (run (enc δ) (ket 0) : Amp n))) (ket 0)) =
          tensor χ (pauliAct ((totalError dec e).onMessage.add (seenBy (rowsOf c.logicalX) (rowsOf c.logicalZ) k E))
            (∑ δ, α δ • ket δ)) := by
  obtain ⟨enc, dec, h1, h2, h3⟩ := C141_uncorrected s c h hb len addAncilla hla
  obtain ⟨_, dec', _, h2', hwf, -⟩ := C139_decoding s c h hb len addAncilla hla
  obtain rfl : dec = dec' := Except.ok.inj (h2.symm.trans h2')
  refine ⟨enc, dec, h1, h2, fun E e => ?_⟩
  have hpl := C148_plain c dec (Or.inr (Or.inr (Or.inl ⟨_, _, h2⟩)))
  obtain ⟨ω, hω, hall⟩ := C148_circuit dec (fun g hg => ⟨hwf g hg, hpl g hg⟩) e
  obtain ⟨σ, hσ, hrun⟩ := h3 E
  set P := seenBy (rowsOf c.logicalX) (rowsOf c.logicalZ) k E with hP
  obtain ⟨τ, hτ, htim⟩ := pauliAct_add' (totalError dec e).onMessage P
  have hnorm : Normalised (run (enc P.x) (ket 0) : Amp n) := by
    obtain ⟨gs1, gs2, q1, q2, q3⟩ := C139_isometry s c h hb _ _ (bitsList_length P.x) (bitsList_binary P.x)
      (bitsList_length P.x) (bitsList_binary P.x)
    rw [h1] at q1 q2
    cases q1; cases q2
    rw [if_pos rfl] at q3
    exact normalised_of_braket q3
  have hσn : Complex.normSq σ = 1 := by rcases hσ with rfl | rfl <;> simp
  refine ⟨(ω * τ) • pauliAct (totalError dec e).onCode (σ • pauliAct E (run (enc P.x) (ket 0))), ?_, fun α => ?_⟩
  · exact normalised_smul' (by rw [map_mul, hω, hτ, one_mul]) (normalised_pauli _ (normalised_smul' hσn (normalised_pauli _ hnorm)))
  · rw [hall, hrun, pauliAct_parts, htim, tensor_smul_right, tensor_smul_left, smul_smul]

/-- **C149**, when decoding with errors gives the right state: exactly when that Pauli operator is the identity. -/
theorem C149_right (s : StabInput) (c : StabCode) (h : stabInit s n k none = .ok c) (hb : BinaryArr c.stab)
    (len : ℕ) (addAncilla : Bool) (hla : (len = n ∧ addAncilla = true) ∨ (len = n + k ∧ addAncilla = false)) :
    ∃ (enc : (Fin k → ZMod 2) → List Gate) (dec : List Gate),
      (∀ δ, encodingCircuit c n (bitsList δ) = .ok (enc δ)) ∧ decodingCircuit c len addAncilla = .ok dec ∧
      ∀ (E : Pauli n) (e : ℕ → Pauli (n + k)),
        (∀ α : (Fin k → ZMod 2) → ℂ, ∃ φ : Amp n,
          runNoisy dec e (tensor (pauliAct E (∑ δ, α δ • (run (enc δ) (ket 0) : Amp n))) (ket 0)) = tensor φ (∑ δ, α δ • ket δ)) ↔
        (totalError dec e).onMessage = seenBy (rowsOf c.logicalX) (rowsOf c.logicalZ) k E := by
  obtain ⟨enc, dec, h1, h2, h3⟩ := C149_decoding s c h hb len addAncilla hla
  refine ⟨enc, dec, h1, h2, fun E e => ?_⟩
  obtain ⟨χ, hχ, hall⟩ := h3 E e
  set P := seenBy (rowsOf c.logicalX) (rowsOf c.logicalZ) k E with hP
  set A := (totalError dec e).onMessage with hA
  have hone : A = P ↔ A.add P = ⟨0, 0⟩ := by
    have hz : ∀ u v : Fin k → ZMod 2, u = v ↔ u + v = 0 := fun u v => by
      constructor
      · rintro rfl; funext j; exact add_self_z _
      · intro huv
        funext j
        have h0 : u j + v j = 0 := congrFun huv j
        rw [← add_zero (u j), ← add_self_z (v j), ← add_assoc, h0, zero_add]
    constructor
    · intro e1
      rw [e1]
      exact congrArg₂ Pauli.mk ((hz _ _).mp rfl) ((hz _ _).mp rfl)
    · intro e1
      have hx : A.x = P.x := (hz _ _).mpr (congrArg Pauli.x e1)
      have hzz : A.z = P.z := (hz _ _).mpr (congrArg Pauli.z e1)
      exact congrArg₂ Pauli.mk hx hzz
  rw [hone]
  constructor
  · intro hs
    obtain ⟨x, hx⟩ := normalised_nonzero hχ
    refine pauli_trivial _ fun α _ => ?_
    obtain ⟨φ, hφ⟩ := hs α
    rw [hall, sum_ket_amp] at hφ
    exact tensor_factor hφ hx
  · intro e1 α
    refine ⟨χ, ?_⟩
    rw [hall, e1, pauliAct_one]

section
variable {s : StabInput} {c : StabCode} {k : ℕ}

theorem transmission_from (h : stabInit s c.n k none = .ok c) (hb : BinaryArr c.stab) (hind : Independent c.n c.stab)
    (hY : ∀ a < c.stab.rows, parityY (rowPauli c.n (c.stab.row a)) = 0)
    (table : List (ZMod 2) → List ℤ) (ht : TableFor c.n table) :
    ∃ (enc : (Fin k → ZMod 2) → List Gate) (dec : List Gate),
      (∀ δ, encodingCircuit c c.n (bitsList δ) = .ok (enc δ)) ∧ decodingCircuit c c.n true = .ok dec ∧
      ∀ (E : Pauli c.n) (ess : List (List (ℕ → Pauli (c.n + 1)))) (e : ℕ → Pauli (c.n + k)) (z : ℂ), Complex.normSq z = 1 →
        ∃ χ : Amp c.n, Normalised χ ∧ ∀ α : (Fin k → ZMod 2) → ℂ, Normalised α → ∀ out,
          (∃ φ, CircuitRounds c table (z • pauliAct E (∑ δ, α δ • run (enc δ) (ket 0))) ess φ ∧
            out = runNoisy dec e (tensor φ (ket 0))) ↔
          out = tensor χ (pauliAct ((totalError dec e).onMessage.add
            (seenBy (rowsOf c.logicalX) (rowsOf c.logicalZ) k (ofVec (leftoverCircuit c table E.vec ess)))) α) := by
  obtain ⟨enc, dec, h1, h2, h3⟩ := C149_decoding s c h hb c.n true (Or.inl ⟨rfl, rfl⟩)
  obtain ⟨enc', f1, -, f3⟩ := encoded_family h hb hind
  obtain rfl : enc' = enc := by
    funext δ
    exact Except.ok.inj ((f1 δ).symm.trans (h1 δ))
  refine ⟨enc', dec, h1, h2, fun E ess e z hz => ?_⟩
  obtain ⟨ω, hω, hR⟩ := circuit_from h hb hind ht ess E.vec
  obtain ⟨χ, hχ, hall⟩ := h3 (ofVec (leftoverCircuit c table E.vec ess)) e
  refine ⟨(ω * z) • χ, normalised_smul' (by rw [map_mul, hω, hz, one_mul]) hχ, fun α hα out => ?_⟩
  have hN : Normalised (∑ δ, α δ • (run (enc' δ) (ket 0) : Amp c.n)) := by
    show normSq _ = 1
    rw [encoded_norm f3]; exact hα
  have key := hR _ hN (encoded_fix h hb hind hY ⟨enc', h1, α, rfl⟩) z hz
  have hlin : runNoisy dec e (tensor ((ω * z) • pauliAct (ofVec (leftoverCircuit c table E.vec ess))
      (∑ δ, α δ • (run (enc' δ) (ket 0) : Amp c.n))) (ket 0)) = tensor ((ω * z) • χ) (pauliAct ((totalError dec e).onMessage.add
            (seenBy (rowsOf c.logicalX) (rowsOf c.logicalZ) k (ofVec (leftoverCircuit c table E.vec ess)))) α) := by
    rw [tensor_smul_left, runNoisy_smul, hall, tensor_smul_left, sum_ket_amp]
  constructor
  · rintro ⟨φ, hφ, rfl⟩
    rw [(key φ).mp hφ, hlin]
  · rintro rfl
    exact ⟨_, (key _).mpr rfl, hlin.symm⟩

/-- **C149**, a whole transmission.  The register holds any state `α` on its last `k` qubits.  Run the encoding circuit for zeros,
then any number of rounds of error correction, then the decoding circuit, with any Pauli errors between the gates of all of them.
This can be done.  In the end the decoded qubits hold `α` with one Pauli operator, computed from the errors alone, and the code qubits
are in one state that does not depend on `α`. -/
theorem C149_transmission (h : stabInit s c.n k none = .ok c) (hb : BinaryArr c.stab) (hind : Independent c.n c.stab)
    (hY : ∀ a < c.stab.rows, parityY (rowPauli c.n (c.stab.row a)) = 0)
    (table : List (ZMod 2) → List ℤ) (ht : TableFor c.n table) :
    ∃ (hk : k ≤ c.n) (enc dec : List Gate),
      encodingCircuit c c.n (bitsList (0 : Fin k → ZMod 2)) = .ok enc ∧ decodingCircuit c c.n true = .ok dec ∧
      ∀ (e₁ : ℕ → Pauli c.n) (ess : List (List (ℕ → Pauli (c.n + 1)))) (e₂ : ℕ → Pauli (c.n + k)),
        ∃ χ : Amp c.n, Normalised χ ∧ ∀ α : Amp k, Normalised α → ∀ out,
          (∃ φ, CircuitRounds c table (runNoisy enc e₁ (onLast c.n hk α)) ess φ ∧ out = runNoisy dec e₂ (tensor φ (ket 0))) ↔
          out = tensor χ (pauliAct (transmitted c table k enc e₁ ess dec e₂) α) := by
  obtain ⟨encs, dec, h1, h2, h3⟩ := transmission_from h hb hind hY table ht
  obtain ⟨hk, encs', g1, -, g3⟩ := C89_superposition s c.n k c h hb hind
  obtain rfl : encs' = encs := by
    funext δ
    exact Except.ok.inj ((g1 δ).symm.trans (h1 δ))
  obtain ⟨gs, q1, q2, -⟩ := C11_encoding_closed_form s c.n k c h hb hind (bitsList 0) (bitsList_length _) (bitsList_binary _)
  obtain rfl : gs = encs' 0 := Except.ok.inj (q1.symm.trans (h1 0))
  refine ⟨hk, encs' 0, dec, h1 0, h2, fun e₁ ess e₂ => ?_⟩
  have hpl := C148_plain c (encs' 0) (Or.inl ⟨_, _, h1 0⟩)
  obtain ⟨ω, hω, hall⟩ := C148_circuit (encs' 0) (fun g hg => ⟨q2 g hg, hpl g hg⟩) e₁
  obtain ⟨χ, hχ, hout⟩ := h3 (totalError (encs' 0) e₁) ess e₂ ω hω
  refine ⟨χ, hχ, fun α hα out => ?_⟩
  rw [hall, g3]
  exact hout α hα out

/-- **C149**, when a transmission succeeds.  The decoded qubits hold the right state, whatever it was, exactly when that Pauli operator
is the identity. -/
theorem C149_succeeds (h : stabInit s c.n k none = .ok c) (hb : BinaryArr c.stab) (hind : Independent c.n c.stab)
    (hY : ∀ a < c.stab.rows, parityY (rowPauli c.n (c.stab.row a)) = 0)
    (table : List (ZMod 2) → List ℤ) (ht : TableFor c.n table) :
    ∃ (hk : k ≤ c.n) (enc dec : List Gate),
      encodingCircuit c c.n (bitsList (0 : Fin k → ZMod 2)) = .ok enc ∧ decodingCircuit c c.n true = .ok dec ∧
      ∀ (e₁ : ℕ → Pauli c.n) (ess : List (List (ℕ → Pauli (c.n + 1)))) (e₂ : ℕ → Pauli (c.n + k)),
        (∀ α : Amp k, Normalised α → ∀ φ, CircuitRounds c table (runNoisy enc e₁ (onLast c.n hk α)) ess φ →
          ∃ φ' : Amp c.n, runNoisy dec e₂ (tensor φ (ket 0)) = tensor φ' α) ↔
        transmitted c table k enc e₁ ess dec e₂ = ⟨0, 0⟩ := by
  obtain ⟨hk, enc, dec, h1, h2, h3⟩ := C149_transmission h hb hind hY table ht
  refine ⟨hk, enc, dec, h1, h2, fun e₁ ess e₂ => ?_⟩
  obtain ⟨χ, hχ, hall⟩ := h3 e₁ ess e₂
  constructor
  · intro hs
    obtain ⟨x, hx⟩ := normalised_nonzero hχ
    refine pauli_trivial _ fun α hα => ?_
    obtain ⟨φ, hφ, ho⟩ := (hall α hα _).mpr rfl
    obtain ⟨φ', hφ'⟩ := hs α hα φ hφ
    rw [← ho] at hφ'
    exact tensor_factor hφ' hx
  · intro e1 α hα φ hφ
    refine ⟨χ, ?_⟩
    rw [(hall α hα _).mp ⟨φ, hφ, rfl⟩, e1, pauliAct_one]

/-- What is in the group of the code is not seen by its logical operators. -/
theorem seenBy_group (h : stabInit s c.n k none = .ok c) (hb : BinaryArr c.stab) (hind : Independent c.n c.stab)
    (hY : ∀ a < c.stab.rows, parityY (rowPauli c.n (c.stab.row a)) = 0) {v : BVec c.n} (hv : v ∈ groupOf c.n c.iter) :
    seenBy (rowsOf c.logicalX) (rowsOf c.logicalZ) k (ofVec v) = ⟨0, 0⟩ := by
  obtain ⟨enc, dec, h1, h2, h3⟩ := C149_decoding s c h hb c.n true (Or.inl ⟨rfl, rfl⟩)
  obtain ⟨enc', dec', d1, d2, -, d4⟩ := C15_decoding s c.n k c h hb hind c.n true (Or.inl ⟨rfl, rfl⟩)
  obtain rfl : dec' = dec := Except.ok.inj (d2.symm.trans h2)
  obtain rfl : enc' = enc := by
    funext δ
    exact Except.ok.inj ((d1 δ).symm.trans (h1 δ))
  obtain ⟨e3, e4, e1, e2, hrun⟩ := C141_uncorrected s c h hb c.n true (Or.inl ⟨rfl, rfl⟩)
  obtain rfl : dec' = e4 := Except.ok.inj (d2.symm.trans e2)
  obtain rfl : enc' = e3 := by
    funext δ
    exact Except.ok.inj ((d1 δ).symm.trans (e1 δ))
  obtain ⟨ω, hω, hall⟩ := hrun (ofVec v)
  obtain ⟨t, ht⟩ := group_act _ hv
  set P := seenBy (rowsOf c.logicalX) (rowsOf c.logicalZ) k (ofVec v) with hP
  have hnorm : Normalised (run (enc' P.x) (ket 0) : Amp c.n) := by
    obtain ⟨gs1, gs2, q1, q2, q3⟩ := C12_encoding_isometry s c.n k c h hb hind _ _ (bitsList_length P.x) (bitsList_binary P.x)
      (bitsList_length P.x) (bitsList_binary P.x)
    rw [h1] at q1 q2
    cases q1; cases q2
    rw [if_pos rfl] at q3
    exact normalised_of_braket q3
  have hωn : Complex.normSq ω = 1 := by rcases hω with rfl | rfl <;> simp
  obtain ⟨x, hx⟩ := normalised_nonzero (normalised_smul' hωn (normalised_pauli (ofVec v) hnorm))
  refine pauli_trivial _ fun α _ => ?_
  have key := hall α
  rw [ht _ (encoded_fix h hb hind hY ⟨enc', h1, α, rfl⟩), tensor_smul_left, run_smul, d4, sum_ket_amp, ← tensor_smul_left] at key
  exact tensor_factor key.symm hx

/-- **C149**, when the rounds succeed.  If the rounds leave a member of the group of the code, only the errors of the decoding circuit
reach the decoded qubits. -/
theorem C149_restored (h : stabInit s c.n k none = .ok c) (hb : BinaryArr c.stab) (hind : Independent c.n c.stab)
    (hY : ∀ a < c.stab.rows, parityY (rowPauli c.n (c.stab.row a)) = 0) (table : List (ZMod 2) → List ℤ) (enc dec : List Gate)
    (e₁ : ℕ → Pauli c.n) (ess : List (List (ℕ → Pauli (c.n + 1)))) (e₂ : ℕ → Pauli (c.n + k))
    (hm : leftoverCircuit c table (totalError enc e₁).vec ess ∈ groupOf c.n c.iter) :
    transmitted c table k enc e₁ ess dec e₂ = (totalError dec e₂).onMessage := by
  unfold transmitted
  rw [seenBy_group h hb hind hY hm]
  exact congrArg₂ Pauli.mk (add_zero _) (add_zero _)

end

/-! ### Instances -/

theorem pushed_zero (g : Gate) : pushed g (⟨0, 0⟩ : Pauli n) = ⟨0, 0⟩ := by
  have hb : ∀ w, bitAt (0 : Fin n → ZMod 2) w = 0 := fun w => by unfold bitAt; split_ifs <;> rfl
  obtain ⟨ctrl, op, w⟩ := g
  cases ctrl with
  | none =>
    unfold pushed
    simp only [hb]
    split_ifs
    · refine congrArg₂ Pauli.mk ?_ ?_ <;> funext j <;> simp [setBit]
    · rfl
  | some c =>
    unfold pushed
    simp only [hb]
    refine congrArg₂ Pauli.mk ?_ ?_ <;> funext j <;> simp

/-- An error after the last gate is the only one to arrive. -/
theorem totalError_end (gs : List Gate) (q : Pauli n) : totalError gs (fun i => if i = gs.length then q else ⟨0, 0⟩) = q := by
  induction gs with
  | nil => rfl
  | cons g gs ih =>
    have hp : ∀ l : List Gate, l.foldl (fun q g => pushed g q) (⟨0, 0⟩ : Pauli n) = ⟨0, 0⟩ := by
      intro l
      induction l with
      | nil => rfl
      | cons g l ih => rw [List.foldl_cons, pushed_zero, ih]
    have h0 : (0 : ℕ) ≠ (g :: gs).length := by simp
    have he : (fun i : ℕ => if i + 1 = (g :: gs).length then q else (⟨0, 0⟩ : Pauli n)) = fun i => if i = gs.length then q else ⟨0, 0⟩ := by
      funext i
      simp
    unfold totalError
    simp only [if_neg h0, pushed_zero, hp]
    rw [he, ih]
    exact congrArg₂ Pauli.mk (add_zero _) (add_zero _)

/-- The five-qubit code and its table meet the hypotheses.  An error on the decoded qubit after the last gate of the decoding circuit,
with no rounds and no other errors, arrives as it is, so the transmission succeeds only if it is the identity. -/
example : ∃ c, ∃ (_ : stabInit (.rows fiveRows) c.n 1 none = .ok c), BinaryArr c.stab ∧ Independent c.n c.stab ∧
    (∀ a < c.stab.rows, parityY (rowPauli c.n (c.stab.row a)) = 0) ∧ TableFor c.n fiveTable ∧
    ∀ (enc dec : List Gate) (q : Pauli (c.n + 1)),
      transmitted c fiveTable 1 enc (fun i => if i = enc.length then ⟨0, 0⟩ else ⟨0, 0⟩) [] dec
        (fun i => if i = dec.length then q else ⟨0, 0⟩) = q.onMessage := by
  obtain ⟨c, h1, h2, h3, h4, h5⟩ := five_code
  have hn : c.n = 5 := (accepted_facts h1 h2 h3).1
  rw [← hn] at h1 h3 h4
  refine ⟨c, h1, h2, h3, h4, by rw [hn]; exact fiveTable_for, fun enc dec q => ?_⟩
  unfold transmitted
  rw [totalError_end, totalError_end]
  refine congrArg₂ Pauli.mk ?_ ?_ <;> funext j <;> simp [seenBy, symp, leftoverCircuit, ofVec, Pauli.vec, dotp] <;> rfl

end PyQ
