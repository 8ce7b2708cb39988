import Verif.Lemmas.DecodeError
import Verif.Props.Dependent
import Verif.Lemmas.Blocks
import Verif.Lemmas.Normalizer

/-! **C141**: what an error does to the decoded qubits when nobody corrects it. -/

namespace PyQ

open Spec

variable {n k : ℕ}

/-- The Pauli operator on `k` qubits that has an X on qubit `i` when `E` anticommutes with logical Z `i` and a Z when it
anticommutes with logical X `i`. -/
def Spec.seenBy (lx lz : List (List ℤ)) (k : ℕ) (E : Pauli n) : Pauli k :=
  ⟨fun i => symp (rowPauli n (lz.getD i [])) E, fun i => symp (rowPauli n (lx.getD i [])) E⟩

/-- The rows of an array. -/
def Spec.rowsOf (A : Arr ℤ) : List (List ℤ) := (List.range A.rows).map A.row

theorem rowsOf_getD (A : Arr ℤ) {i : ℕ} (hi : i < A.rows) : (rowsOf A).getD i [] = A.row i := by
  unfold rowsOf
  rw [List.getD_eq_getElem _ _ (by simpa using hi)]
  simp

/-- **C141**.  Encode any state, let a Pauli error `E` happen, do not correct it, decode.  The decoded qubits hold the encoded
state with a Pauli operator applied: X on qubit `i` exactly when `E` anticommutes with logical Z `i`, Z on qubit `i` exactly
when it anticommutes with logical X `i`.  The code qubits are left, unentangled, in a state that does not depend on the
encoded one.  The generators need not be independent. -/
theorem C141_uncorrected (s : StabInput) (c : StabCode) (h : stabInit s n k none = .ok c) (hb : BinaryArr c.stab)
    (len : ℕ) (addAncilla : Bool) (hla : (len = n ∧ addAncilla = true) ∨ (len = n + k ∧ addAncilla = false)) :
    ∃ (enc : (Fin k → ZMod 2) → List Gate) (dec : List Gate),
      (∀ δ, encodingCircuit c n (bitsList δ) = .ok (enc δ)) ∧ decodingCircuit c len addAncilla = .ok dec ∧
      ∀ E : Pauli n, ∃ ω : ℂ, (ω = 1 ∨ ω = -1) ∧ ∀ α : (Fin k → ZMod 2) → ℂ,
        run dec (tensor (pauliAct E (∑ δ, α δ • (run (enc δ) (ket 0) : Amp n))) (ket 0)) =
          tensor (ω • pauliAct E (run (enc (seenBy (rowsOf c.logicalX) (rowsOf c.logicalZ) k E).x) (ket 0)))
            (pauliAct (seenBy (rowsOf c.logicalX) (rowsOf c.logicalZ) k E) (∑ δ, α δ • ket δ)) := by
  obtain ⟨l, c', h1, h2, h3, -, -, h6, h7, h8⟩ := C139_as_independent s c h hb
  obtain ⟨hn, hk, -, hsh, hX, hZ, -⟩ := accepted_facts h1 h2 h3
  have henc := fun δ : Fin k → ZMod 2 =>
    C11_encoding_closed_form _ n k c' h1 h2 h3 (bitsList δ) (bitsList_length δ) (bitsList_binary δ)
  choose enc g1 _ g3 using henc
  obtain ⟨dec, d1, -, -⟩ := decoding_ok hn hk hsh hX hZ hla
  refine ⟨enc, dec, fun δ => by rw [← h8.encoding]; exact g1 δ, by rw [← h8.decoding]; exact d1, ?_⟩
  intro E
  set P := seenBy (rowsOf c.logicalX) (rowsOf c.logicalZ) k E with hP
  have hxr : c'.logicalX.rows = k := by rw [hX]; exact (lx_shape hsh).1
  have hzr : c'.logicalZ.rows = k := by rw [hZ]; exact (lz_shape hsh).1
  have hu : ∀ i (hi : i < k), symp (rowPauli n (c'.logicalZ.row i)) E = bitFn (bitsList P.x) i := by
    intro i hi
    rw [bitFn_bitsList, dif_pos hi, hP]
    unfold seenBy
    simp only
    rw [rowsOf_getD _ (by rw [← h7.1, hzr]; exact hi), row_congr h7 (by rw [← h7.1, hzr]; exact hi)]
  have hv : ∀ i (hi : i < k), symp (rowPauli n (c'.logicalX.row i)) E = bitFn (bitsList P.z) i := by
    intro i hi
    rw [bitFn_bitsList, dif_pos hi, hP]
    unfold seenBy
    simp only
    rw [rowsOf_getD _ (by rw [← h6.1, hxr]; exact hi), row_congr h6 (by rw [← h6.1, hxr]; exact hi)]
  refine ⟨sgn (dotp P.x P.z), ?_, ?_⟩
  · rcases zmod2_cases (dotp P.x P.z) with e | e <;> rw [e]
    · left; exact sgn_zero
    · right; exact sgn_one
  intro α
  rw [pauliAct_sum', tensor_sum_left, run_sum, pauliAct_sum', tensor_sum_right]
  apply Finset.sum_congr rfl
  intro δ _
  rw [pauliAct_smul, tensor_smul_left, run_smul, pauliAct_smul, tensor_smul_right, g3, g3,
    decoding_error hn hk hsh hX hZ hla d1 E _ _ hu hv, pauliAct_ket, tensor_smul_right, tensor_smul_left, smul_smul]
  have e1 : (fun j => if j < k then bitFn (bitsList P.x) j else bitFn (bitsList δ) j) = bitFn (bitsList P.x) := by
    funext j
    rw [bitFn_bitsList, bitFn_bitsList]
    split_ifs <;> rfl
  have e2 : (fun i : Fin k => bitFn (bitsList δ) i + bitFn (bitsList P.x) i) = δ + P.x := by
    funext i
    rw [bitFn_bitsList, dif_pos i.2, bitFn_bitsList, dif_pos i.2]
    rfl
  have e3 : ∑ i ∈ Finset.range k, (bitFn (bitsList δ) i + bitFn (bitsList P.x) i) * bitFn (bitsList P.z) i =
      dotp P.z δ + dotp P.x P.z := by
    rw [← Fin.sum_univ_eq_sum_range (fun i => (bitFn (bitsList δ) i + bitFn (bitsList P.x) i) * bitFn (bitsList P.z) i) k]
    unfold dotp
    rw [← Finset.sum_add_distrib]
    apply Finset.sum_congr rfl
    intro i _
    simp only [bitFn_bitsList, dif_pos i.2, Fin.eta]
    ring
  rw [e1, e2, e3, sgn_add, mul_smul, mul_smul]

/-- Equal products of states have proportional factors. -/
theorem tensor_factor {m : ℕ} {φ φ' : Amp n} {χ χ' : Amp m} (h : tensor φ χ = tensor φ' χ') {x : Fin n → ZMod 2} (hx : φ x ≠ 0) :
    ∃ w : ℂ, χ = w • χ' := by
  refine ⟨φ' x / φ x, ?_⟩
  funext y
  have := congrFun h (Fin.append x y)
  rw [tensor_apply, tensor_apply] at this
  have hl : leftB (Fin.append x y) = x := by funext j; simp [leftB]
  have hr : rightB (Fin.append x y) = y := by funext j; simp [rightB]
  rw [hl, hr] at this
  rw [Pi.smul_apply, smul_eq_mul]
  field_simp
  rw [mul_comm, this]

/-- **C141, which errors do no harm**.  The decoded qubits hold the right state, whatever it was, exactly when the error
commutes with every logical operator of the code; whether it can be detected plays no role. -/
theorem C141_harmless (s : StabInput) (c : StabCode) (h : stabInit s n k none = .ok c) (hb : BinaryArr c.stab)
    (len : ℕ) (addAncilla : Bool) (hla : (len = n ∧ addAncilla = true) ∨ (len = n + k ∧ addAncilla = false)) :
    ∃ (enc : (Fin k → ZMod 2) → List Gate) (dec : List Gate),
      (∀ δ, encodingCircuit c n (bitsList δ) = .ok (enc δ)) ∧ decodingCircuit c len addAncilla = .ok dec ∧
      ∀ E : Pauli n,
        (∀ α : (Fin k → ZMod 2) → ℂ, ∃ φ : Amp n,
          run dec (tensor (pauliAct E (∑ δ, α δ • (run (enc δ) (ket 0) : Amp n))) (ket 0)) = tensor φ (∑ δ, α δ • ket δ)) ↔
        ∀ g ∈ rowsOf c.logicalX ++ rowsOf c.logicalZ, symp (rowPauli n g) E = 0 := by
  obtain ⟨enc, dec, h1, h2, h3⟩ := C141_uncorrected s c h hb len addAncilla hla
  obtain ⟨l, c', g1, g2, g3, -, -, g6, g7, g8⟩ := C139_as_independent s c h hb
  obtain ⟨hn, hk, -, hsh, hX, hZ, -⟩ := accepted_facts g1 g2 g3
  have hxr : c.logicalX.rows = k := by rw [← g6.1, hX]; exact (lx_shape hsh).1
  have hzr : c.logicalZ.rows = k := by rw [← g7.1, hZ]; exact (lz_shape hsh).1
  refine ⟨enc, dec, h1, h2, ?_⟩
  intro E
  obtain ⟨ω, hω, hrun⟩ := h3 E
  set P := seenBy (rowsOf c.logicalX) (rowsOf c.logicalZ) k E with hP
  have hmem : (∀ g ∈ rowsOf c.logicalX ++ rowsOf c.logicalZ, symp (rowPauli n g) E = 0) ↔ P = ⟨0, 0⟩ := by
    constructor
    · intro hg
      rw [hP]
      unfold seenBy
      congr 1
      · funext i
        exact hg _ (List.mem_append.mpr (Or.inr (by
          rw [rowsOf_getD _ (by rw [hzr]; exact i.2)]
          exact List.mem_map.mpr ⟨i, by simp [hzr], rfl⟩)))
      · funext i
        exact hg _ (List.mem_append.mpr (Or.inl (by
          rw [rowsOf_getD _ (by rw [hxr]; exact i.2)]
          exact List.mem_map.mpr ⟨i, by simp [hxr], rfl⟩)))
    · intro e g hg
      rcases List.mem_append.mp hg with hg | hg
      · obtain ⟨i, hi, rfl⟩ := List.mem_map.mp hg
        have hi' := List.mem_range.mp hi
        have := congrFun (congrArg Pauli.z e) ⟨i, by omega⟩
        rw [hP] at this
        simp only [seenBy] at this
        rwa [rowsOf_getD _ hi'] at this
      · obtain ⟨i, hi, rfl⟩ := List.mem_map.mp hg
        have hi' := List.mem_range.mp hi
        have := congrFun (congrArg Pauli.x e) ⟨i, by omega⟩
        rw [hP] at this
        simp only [seenBy] at this
        rwa [rowsOf_getD _ hi'] at this
  rw [hmem]
  constructor
  · intro hall
    have hnorm : Normalised (pauliAct E (run (enc P.x) (ket 0) : Amp n)) := by
      apply normalised_pauli
      obtain ⟨gs1, gs2, q1, q2, q3⟩ := C12_encoding_isometry _ n k c' g1 g2 g3 _ _ (bitsList_length P.x) (bitsList_binary P.x)
        (bitsList_length P.x) (bitsList_binary P.x)
      rw [g8.encoding, h1] at q1 q2
      cases q1; cases q2
      rw [if_pos rfl] at q3
      exact normalised_of_braket q3
    obtain ⟨x, hx⟩ : ∃ x, (ω • pauliAct E (run (enc P.x) (ket 0) : Amp n)) x ≠ 0 := by
      by_contra hno
      push Not at hno
      have hz : ∀ x, pauliAct E (run (enc P.x) (ket 0) : Amp n) x = 0 := by
        intro x
        have := hno x
        rw [Pi.smul_apply, smul_eq_mul] at this
        rcases hω with rfl | rfl
        · simpa using this
        · simpa using this
      unfold Normalised at hnorm
      simp [hz] at hnorm
    have hprop : ∀ α : (Fin k → ZMod 2) → ℂ, ∃ w : ℂ, pauliAct P (∑ δ, α δ • ket δ) = w • ∑ δ, α δ • ket δ := by
      intro α
      obtain ⟨φ, hφ⟩ := hall α
      rw [hrun] at hφ
      exact tensor_factor hφ hx
    have hsum : ∀ α : (Fin k → ZMod 2) → ℂ, ∑ δ, α δ • (ket δ : Amp k) = α := by
      intro α
      funext b
      rw [Finset.sum_apply, Finset.sum_eq_single b]
      · simp [ket]
      · intro d _ hd
        simp [ket, hd.symm]
      · simp
    have hpx : P.x = 0 := by
      obtain ⟨w, hw⟩ := hprop (ket 0)
      rw [hsum, pauliAct_ket] at hw
      have := congrFun hw P.x
      simp only [Pi.smul_apply, smul_eq_mul, zero_add, dotp_zero_right, sgn_zero, one_mul] at this
      by_contra hne
      simp [ket, hne] at this
    have hpz : P.z = 0 := by
      obtain ⟨w, hw⟩ := hprop fun _ => 1
      rw [hsum] at hw
      have key : ∀ b : Fin k → ZMod 2, (sgn (dotp P.z b) : ℂ) = w := by
        intro b
        have := congrFun hw b
        rw [pauliAct_apply, hpx, add_zero, Pi.smul_apply, smul_eq_mul, mul_one, mul_one] at this
        exact this
      funext i
      have h0 := key 0
      have h1' := key (Pi.single i 1)
      rw [dotp_zero_right, sgn_zero] at h0
      rw [← h0, dotp_single] at h1'
      rcases zmod2_cases (P.z i) with e | e
      · exact e
      · rw [e, sgn_one] at h1'
        norm_num at h1'
    rcases hPe : P with ⟨px, pz⟩
    rw [hPe] at hpx hpz
    simp only at hpx hpz
    rw [hpx, hpz]
  · intro e α
    refine ⟨ω • pauliAct E (run (enc P.x) (ket 0)), ?_⟩
    rw [hrun]
    congr 1
    rw [e, pauliAct_one]

/-- The code ZIZII, IZIII, ZZZII, IIIIZ with redundant generators meets the hypotheses, with ancillas of the caller. -/
example : ∃ c, stabInit (.rows redundantRows) 5 1 none = .ok c ∧ BinaryArr c.stab ∧
    ((6 = 5 ∧ false = true) ∨ (6 = 5 + 1 ∧ false = false)) := by
  obtain ⟨c, h1, h2, -⟩ := redundant_code
  exact ⟨c, h1, h2, Or.inr ⟨rfl, rfl⟩⟩

end PyQ
