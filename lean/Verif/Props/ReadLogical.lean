import Verif.Props.DependentMore
import Verif.Props.DecodeError

/-!
# C143: reading the logical qubits without decoding

`single_syndrome_measurement` measures any operator, so it can be given the logical Z operators of the code.  On an encoded
state this reads the logical qubits and leaves the rest of the encoded state alone.
-/

namespace PyQ

open Spec

variable {k : ℕ}

/-- A sequence of calls of `single_syndrome_measurement`, each with a fresh ancilla: the results, the probability of these
results, and the state of the register that remains. (codes.py 359-432) -/
inductive Readings (c : StabCode) : Amp c.n → List StabArg → List (ZMod 2) → ℝ → Amp c.n → Prop
  | nil (φ : Amp c.n) : Readings c φ [] [] 1 φ
  | cons {φ φ' φ'' : Amp c.n} {s : StabArg} {ss : List StabArg} {r : ZMod 2} {rs : List (ZMod 2)} {p : ℝ}
      {gs : List Gate} {q : ℕ} :
      syndromeCircuit c c.n c.n s = .ok (gs, q) → measProb q r (run gs (tensor φ (qubit 0))) ≠ 0 →
      collapse q r (run gs (tensor φ (qubit 0))) = tensor φ' (qubit r) → Readings c φ' ss rs p φ'' →
      Readings c φ (s :: ss) (r :: rs) (measProb q r (run gs (tensor φ (qubit 0))) * p) φ''

/-- The part of a superposition that agrees with the results. -/
noncomputable def Spec.agreeing (σ : Fin k → ZMod 2) (is : List (Fin k)) (rs : List (ZMod 2)) (α : (Fin k → ZMod 2) → ℂ) :
    (Fin k → ZMod 2) → ℂ := fun δ => if (is.map fun i => δ i + σ i) = rs then α δ else 0

/-- The part of a combination of eigenvectors. -/
theorem part_family {n : ℕ} {f : (Fin k → ZMod 2) → Amp n} {P : Pauli n} {σ : Fin k → ZMod 2} {i : Fin k}
    (hP : ∀ δ, pauliAct P (f δ) = (sgn (δ i + σ i) : ℂ) • f δ) (α : (Fin k → ZMod 2) → ℂ) (r : ZMod 2) :
    part P r (∑ δ, α δ • f δ) = ∑ δ, agreeing σ [i] [r] α δ • f δ := by
  unfold part
  rw [pauliAct_sum', Finset.smul_sum, ← Finset.sum_add_distrib, Finset.smul_sum]
  refine Finset.sum_congr rfl fun δ _ => ?_
  rw [pauliAct_smul, hP]
  unfold agreeing
  simp only [List.map_cons, List.map_nil, List.cons.injEq, and_true]
  have h2 : (2⁻¹ : ℂ) • α δ • f δ + (2⁻¹ : ℂ) • α δ • f δ = α δ • f δ := by
    rw [← add_smul]
    norm_num
  rcases zmod2_cases (δ i + σ i) with e | e <;> rcases zmod2_cases r with e' | e' <;> rw [e, e'] <;>
    simp [sgn_zero, sgn_one, h2]

/-- One reading. -/
theorem reading_step {c : StabCode} {f : (Fin k → ZMod 2) → Amp c.n}
    (hf : ∀ δ δ', braket (f δ) (f δ') = if δ = δ' then 1 else 0) {b : List ℤ} (hl : b.length = 2 * c.n) (hbin : IsBinary b)
    (hY : parityY (rowPauli c.n b) = 0) {σ : Fin k → ZMod 2} {i : Fin k}
    (hP : ∀ δ, pauliAct (rowPauli c.n b) (f δ) = (sgn (δ i + σ i) : ℂ) • f δ) (active len : ℕ)
    (ha : (active = c.n ∧ len = c.n) ∨ (active = c.n + 1 ∧ len = c.n + 1)) :
    ∃ gs, syndromeCircuit c active len (.bin b) = .ok (gs, c.n) ∧ ∀ α : (Fin k → ZMod 2) → ℂ, Normalised α → ∀ r,
      measProb c.n r (run gs (tensor (∑ δ, α δ • f δ) (qubit 0))) = normSq (agreeing σ [i] [r] α) ∧
      (normSq (agreeing σ [i] [r] α) ≠ 0 → collapse c.n r (run gs (tensor (∑ δ, α δ • f δ) (qubit 0))) =
        tensor (((Real.sqrt (normSq (agreeing σ [i] [r] α)) : ℝ) : ℂ)⁻¹ • ∑ δ, agreeing σ [i] [r] α δ • f δ) (qubit r)) := by
  obtain ⟨gs, h1, h2⟩ := C57_measures_partial c (.bin b) ⟨hl, hbin⟩ hY active len ha
  refine ⟨gs, h1, fun α hα r => ?_⟩
  have hn : Normalised (∑ δ, α δ • f δ) := by
    show normSq _ = 1
    rw [encoded_norm hf]
    exact hα
  obtain ⟨p1, -, p3⟩ := h2 _ hn
  have e : part (StabArg.pauli c.n (.bin b)) r (∑ δ, α δ • f δ) = ∑ δ, agreeing σ [i] [r] α δ • f δ := part_family hP α r
  have e2 : normSq (part (StabArg.pauli c.n (.bin b)) r (∑ δ, α δ • f δ)) = normSq (agreeing σ [i] [r] α) := by
    rw [e, encoded_norm hf]
  refine ⟨by rw [p1, e2], fun h0 => ?_⟩
  obtain ⟨φ', q1, q2, -⟩ := p3 r (by rw [e2]; exact h0)
  rw [q1, q2, e2, e]

theorem agreeing_comp (σ : Fin k → ZMod 2) (i : Fin k) (is : List (Fin k)) (r : ZMod 2) (rs : List (ZMod 2)) (a : ℂ)
    (α : (Fin k → ZMod 2) → ℂ) :
    agreeing σ is rs (a • agreeing σ [i] [r] α) = a • agreeing σ (i :: is) (r :: rs) α := by
  funext δ
  unfold agreeing
  simp only [Pi.smul_apply, smul_eq_mul, List.map_cons, List.map_nil, List.cons.injEq, and_true]
  by_cases h1 : δ i + σ i = r <;> by_cases h2 : (is.map fun i => δ i + σ i) = rs <;> simp [h1, h2]

theorem normSq_zero {n : ℕ} {φ : Amp n} (h : normSq φ = 0) : φ = 0 := by
  unfold normSq at h
  rw [Finset.sum_eq_zero_iff_of_nonneg fun b _ => Complex.normSq_nonneg _] at h
  funext b
  exact Complex.normSq_eq_zero.mp (h b (Finset.mem_univ b))

theorem normSq_of_zero {n : ℕ} : normSq (0 : Amp n) = 0 := by
  unfold normSq
  simp

theorem normSq_nonneg' {n : ℕ} (φ : Amp n) : 0 ≤ normSq φ := Finset.sum_nonneg fun _ _ => Complex.normSq_nonneg _

theorem normSq_inv_sqrt {p : ℝ} (hp : 0 ≤ p) : Complex.normSq (((Real.sqrt p : ℝ) : ℂ)⁻¹) = p⁻¹ := by
  rw [Complex.normSq_inv, Complex.normSq_ofReal, Real.mul_self_sqrt hp]

/-- All readings. -/
theorem readings_iff {c : StabCode} {f : (Fin k → ZMod 2) → Amp c.n}
    (hf : ∀ δ δ', braket (f δ) (f δ') = if δ = δ' then 1 else 0) {ops : Fin k → List ℤ}
    (hl : ∀ i, (ops i).length = 2 * c.n) (hbin : ∀ i, IsBinary (ops i)) (hY : ∀ i, parityY (rowPauli c.n (ops i)) = 0)
    {σ : Fin k → ZMod 2} (hP : ∀ i δ, pauliAct (rowPauli c.n (ops i)) (f δ) = (sgn (δ i + σ i) : ℂ) • f δ)
    (is : List (Fin k)) : ∀ (rs : List (ZMod 2)) (α : (Fin k → ZMod 2) → ℂ), Normalised α → ∀ p φ,
      Readings c (∑ δ, α δ • f δ) (is.map fun i => .bin (ops i)) rs p φ ↔
        p = normSq (agreeing σ is rs α) ∧ p ≠ 0 ∧
          φ = ((Real.sqrt p : ℝ) : ℂ)⁻¹ • ∑ δ, agreeing σ is rs α δ • f δ := by
  induction is with
  | nil =>
    intro rs α hα p φ
    cases rs with
    | nil =>
      have e : agreeing σ [] [] α = α := by funext δ; simp [agreeing]
      have h1 : normSq α = 1 := hα
      rw [e, h1]
      constructor
      · intro h
        cases h
        exact ⟨rfl, one_ne_zero, by simp⟩
      · rintro ⟨rfl, -, rfl⟩
        simpa using Readings.nil (c := c) (∑ δ, α δ • f δ)
    | cons r rs =>
      have e : agreeing σ [] (r :: rs) α = 0 := by funext δ; simp [agreeing]
      rw [e, normSq_of_zero]
      constructor
      · intro h
        cases h
      · rintro ⟨h1, h2, -⟩
        exact absurd h1 h2
  | cons i is ih =>
    intro rs α hα p φ
    cases rs with
    | nil =>
      have e : agreeing σ (i :: is) [] α = 0 := by funext δ; simp [agreeing]
      rw [e, normSq_of_zero]
      constructor
      · intro h
        cases h
      · rintro ⟨h1, h2, -⟩
        exact absurd h1 h2
    | cons r rs =>
      obtain ⟨gs, h1, h2⟩ := reading_step hf (hl i) (hbin i) (hY i) (hP i) c.n c.n (Or.inl ⟨rfl, rfl⟩)
      obtain ⟨p1, p2⟩ := h2 α hα r
      set p0 := normSq (agreeing σ [i] [r] α) with hp0
      set a : ℂ := ((Real.sqrt p0 : ℝ) : ℂ)⁻¹ with ha
      have hp00 : 0 ≤ p0 := normSq_nonneg' _
      have hna : Complex.normSq a = p0⁻¹ := normSq_inv_sqrt hp00
      have hsum : a • ∑ δ, agreeing σ [i] [r] α δ • f δ = ∑ δ, (a • agreeing σ [i] [r] α) δ • f δ := by
        rw [Finset.smul_sum]
        exact Finset.sum_congr rfl fun δ _ => by rw [smul_smul]; rfl
      have hnorm : p0 ≠ 0 → Normalised (a • agreeing σ [i] [r] α) := by
        intro h0
        show normSq _ = 1
        rw [normSq_smul, hna, ← hp0, inv_mul_cancel₀ h0]
      have hpp : normSq (agreeing σ is rs (a • agreeing σ [i] [r] α)) = p0⁻¹ * normSq (agreeing σ (i :: is) (r :: rs) α) := by
        rw [agreeing_comp, normSq_smul, hna]
      have hφφ : p0 ≠ 0 → ∀ p' : ℝ, 0 ≤ p' → ((Real.sqrt p' : ℝ) : ℂ)⁻¹ • ∑ δ, agreeing σ is rs (a • agreeing σ [i] [r] α) δ • f δ =
          ((Real.sqrt (p0 * p') : ℝ) : ℂ)⁻¹ • ∑ δ, agreeing σ (i :: is) (r :: rs) α δ • f δ := by
        intro h0 p' hp'
        rw [agreeing_comp, Real.sqrt_mul hp00, Complex.ofReal_mul, _root_.mul_inv, mul_comm (((Real.sqrt p0 : ℝ) : ℂ)⁻¹), mul_smul]
        congr 1
        rw [← ha, Finset.smul_sum]
        exact Finset.sum_congr rfl fun δ _ => by rw [smul_smul]; rfl
      rw [List.map_cons]
      constructor
      · intro h
        cases h with
        | @cons _ φ' _ _ _ _ _ p' gs' q g1 g2 g3 g4 =>
          rw [h1] at g1
          cases g1
          rw [p1] at g2 ⊢
          rw [p2 g2] at g3
          have e := tensor_qubit_inj g3
          rw [hsum] at e
          rw [← e] at g4
          obtain ⟨q1, q2, q3⟩ := (ih rs _ (hnorm g2) p' φ).mp g4
          refine ⟨?_, mul_ne_zero g2 q2, ?_⟩
          · rw [q1, hpp, mul_inv_cancel_left₀ g2]
          · rw [q3]
            exact hφφ g2 p' (by rw [q1]; exact normSq_nonneg' _)
      · rintro ⟨q1, q2, q3⟩
        have h0 : p0 ≠ 0 := by
          intro h0
          apply q2
          have e := agreeing_comp σ i is r rs 1 α
          rw [normSq_zero h0, smul_zero, one_smul] at e
          rw [q1, ← e]
          have : agreeing σ is rs (0 : (Fin k → ZMod 2) → ℂ) = 0 := by funext δ; simp [agreeing]
          rw [this, normSq_of_zero]
        have hp' : p = p0 * normSq (agreeing σ is rs (a • agreeing σ [i] [r] α)) := by
          rw [hpp, mul_inv_cancel_left₀ h0, q1]
        have h4 := (ih rs _ (hnorm h0) _ φ).mpr ⟨rfl, fun e => q2 (by rw [hp', e, mul_zero]), by
          rw [hφφ h0 _ (normSq_nonneg' _), ← hp', q3]⟩
        rw [← hsum] at h4
        have h5 := Readings.cons h1 (by rw [p1]; exact h0) (p2 h0) h4
        rw [p1, ← hp'] at h5
        exact h5

/-- The encoded basis states and the logical Z operators of an accepted code. -/
theorem logicalZ_family {s : StabInput} {n : ℕ} {c : StabCode} (h : stabInit s n k none = .ok c) (hb : BinaryArr c.stab) :
    ∃ enc : (Fin k → ZMod 2) → List Gate, (∀ δ, encodingCircuit c n (bitsList δ) = .ok (enc δ)) ∧
      (∀ δ δ', braket (run (enc δ) (ket 0) : Amp n) (run (enc δ') (ket 0)) = if δ = δ' then 1 else 0) ∧
      ∀ i : Fin k, (c.logicalZ.row i).length = 2 * n ∧ IsBinary (c.logicalZ.row i) ∧
        parityY (rowPauli n (c.logicalZ.row i)) = 0 ∧
        ∀ δ, pauliAct (rowPauli n (c.logicalZ.row i)) (run (enc δ) (ket 0)) = (sgn (δ i) : ℂ) • (run (enc δ) (ket 0) : Amp n) := by
  obtain ⟨l, c', h1, h2, h3, -, -, -, h7, h8⟩ := C139_as_independent s c h hb
  obtain ⟨-, -, -, hsh, -, hZ, -⟩ := accepted_facts h1 h2 h3
  obtain ⟨enc, g1, g2, g3⟩ := encoded_family h1 h2 h3
  refine ⟨enc, fun δ => by rw [← h8.encoding]; exact g1 δ, g3, fun i => ?_⟩
  obtain ⟨s1, s2⟩ := lz_shape hsh
  have hr : c.logicalZ.row i = (logicalZOf n k c'.rank c'.normalForm).row i := by
    rw [← hZ]
    exact (row_congr h7 (by rw [← h7.1, hZ, s1]; exact i.2)).symm
  have hx : (rowPauli n ((logicalZOf n k c'.rank c'.normalForm).row i)).x = 0 := by
    funext j
    rw [rowPauli_x s2, lz_x j.2]
    simp
  rw [hr]
  refine ⟨by rw [row_length, s2], row_binary (lz_binary hsh) (by rw [s1]; exact i.2), ?_, fun δ => ?_⟩
  · unfold parityY dotp
    rw [hx]
    simp
  · rw [g2, lz_codeword hsh i.2, bitFn_bitsList, dif_pos i.2]

theorem braket_pauli_both {n : ℕ} (p : Pauli n) (φ ψ : Amp n) : braket (pauliAct p φ) (pauliAct p ψ) = braket φ ψ := by
  have h0 : p.add p = ⟨0, 0⟩ := by
    unfold Pauli.add
    congr 1 <;> funext j <;> exact add_self_z _
  rw [braket_pauli, pauliAct_comp, h0, pauliAct_one, braket_smul_right]
  have : (sgn (parityY p) : ℂ) * sgn (dotp p.z p.x) = 1 := by
    show (sgn (dotp p.z p.x) : ℂ) * sgn (dotp p.z p.x) = 1
    rw [← sgn_add, add_self_z, sgn_zero]
  rw [← mul_assoc, this, one_mul]

/-- **C143**.  Encode any state of the `k` qubits, let any Pauli error `E` happen, and give the logical Z operators of the code,
in any order and any number, to `single_syndrome_measurement`.  A sequence of results `rs` can be read exactly when some part of
the encoded superposition agrees with it, its probability is the weight of this part, and the register is left with this part,
normalised, still encoded and with the same error.  "Agrees" means that result `j` is the bit of the measured logical qubit,
flipped when the error anticommutes with the operator measured.  The generators need not be independent. -/
theorem C143_read (s : StabInput) (c : StabCode) (h : stabInit s c.n k none = .ok c) (hb : BinaryArr c.stab) :
    ∃ enc : (Fin k → ZMod 2) → List Gate, (∀ δ, encodingCircuit c c.n (bitsList δ) = .ok (enc δ)) ∧
      ∀ (E : Pauli c.n) (α : (Fin k → ZMod 2) → ℂ), Normalised α → ∀ (is : List (Fin k)) rs p φ,
        let agrees := fun δ : Fin k → ZMod 2 => (is.map fun i => δ i + symp (rowPauli c.n (c.logicalZ.row i)) E) = rs
        Readings c (pauliAct E (∑ δ, α δ • (run (enc δ) (ket 0) : Amp c.n))) (is.map fun i : Fin k => .bin (c.logicalZ.row i)) rs p φ ↔
          p = (∑ δ, if agrees δ then Complex.normSq (α δ) else 0) ∧ p ≠ 0 ∧
          φ = ((Real.sqrt p : ℝ) : ℂ)⁻¹ • pauliAct E (∑ δ, (if agrees δ then α δ else 0) • (run (enc δ) (ket 0) : Amp c.n)) := by
  obtain ⟨enc, g1, g2, g3⟩ := logicalZ_family h hb
  refine ⟨enc, g1, fun E α hα is rs p φ => ?_⟩
  intro agrees
  have key := readings_iff (c := c) (f := fun δ => pauliAct E (run (enc δ) (ket 0)))
    (fun δ δ' => by rw [braket_pauli_both]; exact g2 δ δ') (ops := fun i => c.logicalZ.row i) (fun i => (g3 i).1)
    (fun i => (g3 i).2.1) (fun i => (g3 i).2.2.1) (σ := fun i => symp (rowPauli c.n (c.logicalZ.row i)) E)
    (fun i δ => by
      rw [pauliAct_comm, (g3 i).2.2.2 δ, pauliAct_smul, smul_smul, ← sgn_add, add_comm]) is rs α hα p φ
  have e : ∀ β : (Fin k → ZMod 2) → ℂ, pauliAct E (∑ δ, β δ • (run (enc δ) (ket 0) : Amp c.n)) =
      ∑ δ, β δ • pauliAct E (run (enc δ) (ket 0)) := by
    intro β
    rw [pauliAct_sum']
    exact Finset.sum_congr rfl fun δ _ => pauliAct_smul _ _ _
  have e2 : normSq (agreeing (fun i => symp (rowPauli c.n (c.logicalZ.row i)) E) is rs α) =
      ∑ δ, if agrees δ then Complex.normSq (α δ) else 0 := by
    unfold normSq agreeing
    refine Finset.sum_congr rfl fun δ _ => ?_
    by_cases ha : (is.map fun i => δ i + symp (rowPauli c.n (c.logicalZ.row i)) E) = rs
    · rw [if_pos ha, if_pos (show agrees δ from ha)]
    · rw [if_neg ha, if_neg (show ¬ agrees δ from ha), Complex.normSq_zero]
  rw [e2] at key
  rw [e α, e (fun δ => if agrees δ then α δ else 0), key]
  rfl

/-- **C143, reading all logical qubits**.  Measuring the logical Z operators one after the other gives the bit string `δ` with
the probability `|α δ|²` it has in the encoded superposition, and leaves the encoded basis state of `δ`. -/
theorem C143_read_all (s : StabInput) (c : StabCode) (h : stabInit s c.n k none = .ok c) (hb : BinaryArr c.stab) :
    ∃ enc : (Fin k → ZMod 2) → List Gate, (∀ δ, encodingCircuit c c.n (bitsList δ) = .ok (enc δ)) ∧
      ∀ α : (Fin k → ZMod 2) → ℂ, Normalised α → ∀ rs p φ,
        Readings c (∑ δ, α δ • (run (enc δ) (ket 0) : Amp c.n)) ((List.finRange k).map fun i : Fin k => .bin (c.logicalZ.row i)) rs p φ ↔
          ∃ δ, rs = (List.finRange k).map δ ∧ p = Complex.normSq (α δ) ∧ p ≠ 0 ∧
            φ = (((Real.sqrt p : ℝ) : ℂ)⁻¹ * α δ) • run (enc δ) (ket 0) := by
  obtain ⟨enc, g1, g2⟩ := C143_read s c h hb
  refine ⟨enc, g1, fun α hα rs p φ => ?_⟩
  have key := g2 ⟨0, 0⟩ α hα (List.finRange k) rs p φ
  have hz : ∀ i : Fin k, symp (rowPauli c.n (c.logicalZ.row i)) (⟨0, 0⟩ : Pauli c.n) = 0 := by
    intro i
    simp [symp, dotp]
  simp only [pauliAct_one, hz, add_zero] at key
  rw [key]
  have hinj : ∀ δ δ' : Fin k → ZMod 2, (List.finRange k).map δ = (List.finRange k).map δ' → δ = δ' := by
    intro δ δ' he
    funext i
    exact (List.map_inj_left.mp he) i (List.mem_finRange i)
  by_cases hd : ∃ δ₀ : Fin k → ZMod 2, (List.finRange k).map δ₀ = rs
  · obtain ⟨δ₀, rfl⟩ := hd
    have hiff : ∀ δ : Fin k → ZMod 2, ((List.finRange k).map δ = (List.finRange k).map δ₀) ↔ δ = δ₀ :=
      fun δ => ⟨hinj _ _, fun e => by rw [e]⟩
    have e1 : (∑ δ : Fin k → ZMod 2, if (List.finRange k).map (fun i => δ i) = (List.finRange k).map δ₀ then Complex.normSq (α δ) else 0) =
        Complex.normSq (α δ₀) := by
      rw [Finset.sum_eq_single δ₀ (fun δ _ hne => if_neg fun e => hne (hinj _ _ e)) (fun h => absurd (Finset.mem_univ _) h),
        if_pos rfl]
    have e2 : (∑ δ : Fin k → ZMod 2, (if (List.finRange k).map (fun i => δ i) = (List.finRange k).map δ₀ then α δ else 0) •
        (run (enc δ) (ket 0) : Amp c.n)) = α δ₀ • run (enc δ₀) (ket 0) := by
      rw [Finset.sum_eq_single δ₀ (fun δ _ hne => by rw [if_neg fun e => hne (hinj _ _ e), zero_smul])
        (fun h => absurd (Finset.mem_univ _) h), if_pos rfl]
    rw [e1, e2, smul_smul]
    constructor
    · rintro ⟨q1, q2, q3⟩
      exact ⟨δ₀, rfl, q1, q2, q3⟩
    · rintro ⟨δ, q0, q1, q2, q3⟩
      have := hinj _ _ q0
      subst this
      exact ⟨q1, q2, q3⟩
  · constructor
    · rintro ⟨q1, q2, -⟩
      refine absurd (q1.trans (Finset.sum_eq_zero fun δ _ => if_neg fun e => hd ⟨δ, e⟩)) q2
    · rintro ⟨δ, q0, -⟩
      exact absurd ⟨δ, q0.symm⟩ hd

/-- A qubit of the second of two registers. -/
theorem measProb_tensor_right {n m : ℕ} {φ : Amp n} (hφ : Normalised φ) (χ : Amp m) {i : ℕ} (hi : i < m) (r : ZMod 2) :
    measProb (n + i) r (tensor φ χ) = measProb i r χ := by
  unfold measProb
  have h : ∀ b : Fin (n + m) → ZMod 2, (if bitAt b (n + i) = r then Complex.normSq (tensor φ χ b) else 0) =
      (fun (u : Fin n → ZMod 2) (v : Fin m → ZMod 2) =>
        if bitAt v i = r then Complex.normSq (φ u * χ v) else 0) (leftB b) (rightB b) := by
    intro b
    have hbit : bitAt b (n + i) = bitAt (rightB b) i := by
      unfold bitAt rightB
      rw [dif_pos (by omega), dif_pos hi]
      rfl
    simp only [hbit, tensor_apply]
  rw [Finset.sum_congr rfl fun b _ => h b, sum_split fun (u : Fin n → ZMod 2) (v : Fin m → ZMod 2) =>
    if bitAt v i = r then Complex.normSq (φ u * χ v) else 0]
  rw [Finset.sum_comm]
  refine Finset.sum_congr rfl fun v _ => ?_
  split_ifs
  · simp only [Complex.normSq_mul]
    rw [← Finset.sum_mul, hφ, one_mul]
  · simp

/-- **C143, the decoder agrees**.  Decoding and then reading an ancilla gives the same probabilities as measuring the logical Z
operator of the same number on the encoded state. -/
theorem C143_decoder_agrees (s : StabInput) (c : StabCode) (h : stabInit s c.n k none = .ok c) (hb : BinaryArr c.stab)
    (len : ℕ) (addAncilla : Bool) (hla : (len = c.n ∧ addAncilla = true) ∨ (len = c.n + k ∧ addAncilla = false))
    (active len' : ℕ) (ha : (active = c.n ∧ len' = c.n) ∨ (active = c.n + 1 ∧ len' = c.n + 1)) (i : Fin k) :
    ∃ (enc : (Fin k → ZMod 2) → List Gate) (dec gs : List Gate), (∀ δ, encodingCircuit c c.n (bitsList δ) = .ok (enc δ)) ∧
      decodingCircuit c len addAncilla = .ok dec ∧ syndromeCircuit c active len' (.bin (c.logicalZ.row i)) = .ok (gs, c.n) ∧
      ∀ α : (Fin k → ZMod 2) → ℂ, Normalised α → ∀ r,
        measProb (c.n + i) r (run dec (tensor (∑ δ, α δ • (run (enc δ) (ket 0) : Amp c.n)) (ket (0 : Fin k → ZMod 2)))) =
          measProb c.n r (run gs (tensor (∑ δ, α δ • (run (enc δ) (ket 0) : Amp c.n)) (qubit 0))) := by
  obtain ⟨enc, g1, g2, g3⟩ := logicalZ_family h hb
  obtain ⟨enc', dec, d1, d2, -, d3⟩ := C139_decoding s c h hb len addAncilla hla
  have hee : enc' = enc := by
    funext δ
    have := (d1 δ).symm.trans (g1 δ)
    injection this
  subst hee
  obtain ⟨gs, h1, h2⟩ := reading_step (c := c) (f := fun δ => run (enc' δ) (ket 0)) g2 (g3 i).1 (g3 i).2.1 (g3 i).2.2.1 (σ := 0)
    (i := i) (fun δ => by rw [(g3 i).2.2.2 δ]; simp) active len' ha
  refine ⟨enc', dec, gs, g1, d2, h1, fun α hα r => ?_⟩
  have hn : Normalised (run (enc' 0) (ket 0) : Amp c.n) := by
    refine normalised_of_braket ?_
    rw [g2, if_pos rfl]
  rw [(h2 α hα r).1, d3, measProb_tensor_right hn _ i.2]
  have e : (∑ δ, α δ • ket δ : Amp k) = α := by
    funext b
    rw [Finset.sum_apply, Finset.sum_eq_single b]
    · simp [ket]
    · intro δ _ hne
      simp [ket, hne.symm]
    · intro hb
      exact absurd (Finset.mem_univ _) hb
  rw [e]
  unfold measProb normSq agreeing
  refine Finset.sum_congr rfl fun δ _ => ?_
  have hbit : bitAt δ i = δ i := by
    unfold bitAt
    rw [dif_pos i.2]
  rw [hbit]
  by_cases hr : δ i = r
  · rw [if_pos hr, if_pos (by simp [hr])]
  · rw [if_neg hr, if_neg (by simp [hr]), Complex.normSq_zero]

/-- The logical X operators of an accepted code contain no Y and flip the encoded bits. -/
theorem logicalX_family {s : StabInput} {n : ℕ} {c : StabCode} (h : stabInit s n k none = .ok c) (hb : BinaryArr c.stab) :
    ∃ enc : (Fin k → ZMod 2) → List Gate, (∀ δ, encodingCircuit c n (bitsList δ) = .ok (enc δ)) ∧
      (∀ δ δ', braket (run (enc δ) (ket 0) : Amp n) (run (enc δ') (ket 0)) = if δ = δ' then 1 else 0) ∧
      ∀ i : Fin k, (c.logicalX.row i).length = 2 * n ∧ IsBinary (c.logicalX.row i) ∧
        parityY (rowPauli n (c.logicalX.row i)) = 0 ∧
        ∀ δ, pauliAct (rowPauli n (c.logicalX.row i)) (run (enc δ) (ket 0)) =
          (run (enc (Function.update δ i (δ i + 1))) (ket 0) : Amp n) := by
  obtain ⟨l, c', h1, h2, h3, -, -, h6, -, h8⟩ := C139_as_independent s c h hb
  obtain ⟨-, -, -, hsh, hX, -⟩ := accepted_facts h1 h2 h3
  obtain ⟨enc, g1, g2, g3⟩ := encoded_family h1 h2 h3
  refine ⟨enc, fun δ => by rw [← h8.encoding]; exact g1 δ, g3, fun i => ?_⟩
  obtain ⟨s1, s2⟩ := lx_shape hsh
  have hr : c.logicalX.row i = (logicalXOf n k c'.rank c'.normalForm).row i := by
    rw [← hX]
    exact (row_congr h6 (by rw [← h6.1, hX, s1]; exact i.2)).symm
  rw [hr]
  refine ⟨by rw [row_length, s2], row_binary (lx_binary hsh) (by rw [s1]; exact i.2), ?_, fun δ => ?_⟩
  · unfold parityY dotp
    refine Finset.sum_eq_zero fun j _ => ?_
    rw [rowPauli_x s2, rowPauli_z s2]
    by_cases hj : j.val < c'.rank
    · rw [lx_x hsh j.2, if_pos hj]
      simp
    · rw [lx_z_high hsh (by omega)]
      simp
  · rw [g2, lx_codeword hsh i.2, g2]
    congr 1
    funext j
    rw [bitFn_bitsList (Function.update δ i (δ i + 1)) j]
    by_cases hj : j = i.val
    · subst hj
      rw [Function.update_self, dif_pos i.2, bitFn_bitsList, dif_pos i.2]
      simp
    · rw [Function.update_of_ne hj, bitFn_bitsList]
      split_ifs with hjk
      · rw [Function.update_of_ne]
        intro e
        exact hj (congrArg Fin.val e)
      · rfl

/-- **C143, logical X**.  Measuring logical X `i` on an encoded superposition reads logical qubit `i` in the basis of the
states `|0⟩ ± |1⟩`: result `r` has the weight of `(α δ + (-1)^r α δ') / 2`, where `δ'` is `δ` with bit `i` flipped, and the register
is left with this superposition, normalised and encoded. -/
theorem C143_read_X (s : StabInput) (c : StabCode) (h : stabInit s c.n k none = .ok c) (hb : BinaryArr c.stab) (i : Fin k)
    (active len : ℕ) (ha : (active = c.n ∧ len = c.n) ∨ (active = c.n + 1 ∧ len = c.n + 1)) :
    ∃ (enc : (Fin k → ZMod 2) → List Gate) (gs : List Gate), (∀ δ, encodingCircuit c c.n (bitsList δ) = .ok (enc δ)) ∧
      syndromeCircuit c active len (.bin (c.logicalX.row i)) = .ok (gs, c.n) ∧
      ∀ α : (Fin k → ZMod 2) → ℂ, Normalised α → ∀ r,
        let β := fun δ : Fin k → ZMod 2 => (α δ + sgn r * α (Function.update δ i (δ i + 1))) / 2
        measProb c.n r (run gs (tensor (∑ δ, α δ • (run (enc δ) (ket 0) : Amp c.n)) (qubit 0))) = normSq β ∧
        (normSq β ≠ 0 → collapse c.n r (run gs (tensor (∑ δ, α δ • (run (enc δ) (ket 0) : Amp c.n)) (qubit 0))) =
          tensor (((Real.sqrt (normSq β) : ℝ) : ℂ)⁻¹ • ∑ δ, β δ • (run (enc δ) (ket 0) : Amp c.n)) (qubit r)) := by
  obtain ⟨enc, g1, g2, g3⟩ := logicalX_family h hb
  obtain ⟨l1, l2, l3, l4⟩ := g3 i
  obtain ⟨gs, h1, h2⟩ := C57_measures_partial c (.bin (c.logicalX.row i)) ⟨l1, l2⟩ l3 active len ha
  refine ⟨enc, gs, g1, h1, fun α hα r => ?_⟩
  intro β
  have hn : Normalised (∑ δ, α δ • (run (enc δ) (ket 0) : Amp c.n)) := by
    show normSq _ = 1
    rw [encoded_norm g2]
    exact hα
  obtain ⟨p1, -, p3⟩ := h2 _ hn
  have hinv : Function.Involutive fun δ : Fin k → ZMod 2 => Function.update δ i (δ i + 1) := by
    intro δ
    funext j
    show Function.update (Function.update δ i (δ i + 1)) i (Function.update δ i (δ i + 1) i + 1) j = δ j
    by_cases hj : j = i
    · rw [hj, Function.update_self, Function.update_self, add_assoc, add_self_z, add_zero]
    · rw [Function.update_of_ne hj, Function.update_of_ne hj]
  have e : part (StabArg.pauli c.n (.bin (c.logicalX.row i))) r (∑ δ, α δ • (run (enc δ) (ket 0) : Amp c.n)) =
      ∑ δ, β δ • (run (enc δ) (ket 0) : Amp c.n) := by
    unfold part
    have e1 : pauliAct (StabArg.pauli c.n (.bin (c.logicalX.row i))) (∑ δ, α δ • (run (enc δ) (ket 0) : Amp c.n)) =
        ∑ δ, α (Function.update δ i (δ i + 1)) • (run (enc δ) (ket 0) : Amp c.n) := by
      rw [pauliAct_sum', ← Equiv.sum_comp hinv.toPerm]
      refine Finset.sum_congr rfl fun δ _ => ?_
      show pauliAct (rowPauli c.n (c.logicalX.row i)) (α (Function.update δ i (δ i + 1)) • run (enc (Function.update δ i (δ i + 1))) (ket 0)) = _
      rw [pauliAct_smul, l4]
      have := hinv δ
      simp only at this
      rw [this]
    rw [e1, Finset.smul_sum, ← Finset.sum_add_distrib, Finset.smul_sum]
    refine Finset.sum_congr rfl fun δ _ => ?_
    rw [smul_smul, ← add_smul, smul_smul]
    congr 1
    show _ = (α δ + sgn r * α (Function.update δ i (δ i + 1))) / 2
    ring
  have e2 : normSq (part (StabArg.pauli c.n (.bin (c.logicalX.row i))) r (∑ δ, α δ • (run (enc δ) (ket 0) : Amp c.n))) = normSq β := by
    rw [e, encoded_norm g2]
  refine ⟨by rw [p1, e2], fun h0 => ?_⟩
  obtain ⟨φ', q1, q2, -⟩ := p3 r (by rw [e2]; exact h0)
  rw [q1, q2, e2, e]

/-- **C143, logical Y**.  A row with the product of logical X `i` and logical Z `i` always has an odd number of Y's, so measuring it
gives 0 and 1 with probability one half whatever the register holds. -/
theorem C143_read_Y (s : StabInput) (c : StabCode) (h : stabInit s c.n k none = .ok c) (hb : BinaryArr c.stab) (i : Fin k)
    (b : List ℤ) (hl : b.length = 2 * c.n) (hbin : IsBinary b)
    (hY : rowPauli c.n b = (rowPauli c.n (c.logicalX.row i)).add (rowPauli c.n (c.logicalZ.row i)))
    (active len : ℕ) (ha : (active = c.n ∧ len = c.n) ∨ (active = c.n + 1 ∧ len = c.n + 1)) :
    ∃ gs, syndromeCircuit c active len (.bin b) = .ok (gs, c.n) ∧ ∀ φ : Amp c.n, Normalised φ →
      ∀ r, measProb c.n r (run gs (tensor φ (qubit 0))) = 1 / 2 := by
  obtain ⟨_, _, _, gx⟩ := logicalX_family h hb
  obtain ⟨_, _, _, gz⟩ := logicalZ_family h hb
  obtain ⟨hsy, -⟩ := C139_logical_operators s c h hb
  have h1 := (hsy i i.2 i i.2).1
  rw [if_pos rfl] at h1
  refine C57_odd_refuted c (.bin b) ⟨hl, hbin⟩ ?_ active len ha
  show parityY (rowPauli c.n b) = 1
  rw [hY]
  have hx := (gx i).2.2.1
  have hz := (gz i).2.2.1
  unfold parityY at hx hz ⊢
  unfold symp at h1
  unfold Pauli.add
  simp only [dotp_add_left, dotp_add_right, hx, hz]
  rw [zero_add, add_zero, ← h1, dotp_comm (rowPauli c.n (c.logicalZ.row i)).z, add_comm]

/-- Concrete case: an equal superposition of the two encoded states of the five-qubit code.  The logical Z operator reads 0 with
probability one half and leaves the encoded zero. -/
example : ∃ c enc, stabInit (.rows fiveRows) 5 1 none = .ok c ∧ encodingCircuit c c.n [0] = .ok enc ∧
    ∃ ψ φ : Amp c.n, Normalised ψ ∧ Readings c ψ [.bin (c.logicalZ.row 0)] [0] (1 / 2) φ ∧
      ∃ z : ℂ, φ = z • run enc (ket 0) := by
  obtain ⟨c, h, hb, -⟩ := five_code
  have hn : c.n = 5 := (accepted_weak h hb).1
  have h' : stabInit (.rows fiveRows) c.n 1 none = .ok c := by rw [hn]; exact h
  obtain ⟨enc, g1, g2⟩ := C143_read_all _ c h' hb
  obtain ⟨enc', k1, k2, -⟩ := logicalZ_family h' hb
  have hee : enc' = enc := by
    funext δ
    have := (k1 δ).symm.trans (g1 δ)
    injection this
  subst hee
  let α : (Fin 1 → ZMod 2) → ℂ := fun _ => ((Real.sqrt (1 / 2) : ℝ) : ℂ)
  have hs : Complex.normSq ((Real.sqrt (1 / 2) : ℝ) : ℂ) = 1 / 2 := by
    rw [Complex.normSq_ofReal, Real.mul_self_sqrt (by norm_num)]
  have hα : Normalised α := by
    show ∑ b : Fin 1 → ZMod 2, Complex.normSq ((Real.sqrt (1 / 2) : ℝ) : ℂ) = 1
    rw [hs, Finset.sum_const, Finset.card_univ]
    simp [ZMod.card]
  refine ⟨c, enc' 0, h, g1 0, ∑ δ, α δ • run (enc' δ) (ket 0), _, ?_,
    (g2 α hα [0] (1 / 2) _).mpr ⟨0, rfl, hs.symm, by norm_num, rfl⟩, _, rfl⟩
  show normSq _ = 1
  rw [encoded_norm k2]
  exact hα

end PyQ
