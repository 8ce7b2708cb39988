import Verif.Props.ReadShared
import Verif.Spec.ReadQubits

/-!
# C144: reading the logical qubits by measuring every qubit

The logical Z operators the package computes contain no X, so the user need not decode: measuring every qubit of the register
and adding up the bits on which a logical Z operator acts gives the logical qubit.
-/

namespace PyQ

open Spec

variable {n k : ℕ}

/-- The amplitudes that agree with the results. -/
noncomputable def Spec.agreeingBits {n : ℕ} (qs : List ℕ) (rs : List (ZMod 2)) (ψ : Amp n) : Amp n :=
  fun b => if qs.map (bitAt b) = rs then ψ b else 0

theorem agreeingBits_cons (q : ℕ) (qs : List ℕ) (r : ZMod 2) (rs : List (ZMod 2)) (ψ : Amp n) :
    agreeingBits qs rs (collapse q r ψ) = ((Real.sqrt (measProb q r ψ) : ℝ) : ℂ)⁻¹ • agreeingBits (q :: qs) (r :: rs) ψ := by
  funext b
  unfold agreeingBits collapse
  simp only [Pi.smul_apply, smul_eq_mul, List.map_cons, List.cons.injEq]
  by_cases h1 : bitAt b q = r <;> by_cases h2 : qs.map (bitAt b) = rs <;> simp [h1, h2]

theorem normSq_agreeing_one (q : ℕ) (r : ZMod 2) (ψ : Amp n) : normSq (agreeingBits [q] [r] ψ) = measProb q r ψ := by
  unfold normSq agreeingBits measProb
  refine Finset.sum_congr rfl fun b _ => ?_
  by_cases h : bitAt b q = r <;> simp [h]

/-- Reading qubits one after the other. -/
theorem qubitReadings_iff (qs : List ℕ) : ∀ (rs : List (ZMod 2)) (ψ : Amp n), Normalised ψ → ∀ p ψ',
    QubitReadings ψ qs rs p ψ' ↔
      p = normSq (agreeingBits qs rs ψ) ∧ p ≠ 0 ∧ ψ' = ((Real.sqrt p : ℝ) : ℂ)⁻¹ • agreeingBits qs rs ψ := by
  induction qs with
  | nil =>
    intro rs ψ hψ p ψ'
    cases rs with
    | nil =>
      have e : agreeingBits [] [] ψ = ψ := by funext b; simp [agreeingBits]
      have h1 : normSq ψ = 1 := hψ
      rw [e, h1]
      constructor
      · intro h
        cases h
        exact ⟨rfl, one_ne_zero, by simp⟩
      · rintro ⟨rfl, -, rfl⟩
        simpa using QubitReadings.nil ψ
    | cons r rs =>
      have e : agreeingBits [] (r :: rs) ψ = 0 := by funext b; simp [agreeingBits]
      rw [e, normSq_of_zero]
      constructor
      · intro h
        cases h
      · rintro ⟨h1, h2, -⟩
        exact absurd h1 h2
  | cons q qs ih =>
    intro rs ψ hψ p ψ'
    cases rs with
    | nil =>
      have e : agreeingBits (q :: qs) [] ψ = 0 := by funext b; simp [agreeingBits]
      rw [e, normSq_of_zero]
      constructor
      · intro h
        cases h
      · rintro ⟨h1, h2, -⟩
        exact absurd h1 h2
    | cons r rs =>
      have hp0 : 0 ≤ measProb q r ψ := measProb_nonneg q r ψ
      have hpp : normSq (agreeingBits qs rs (collapse q r ψ)) =
          (measProb q r ψ)⁻¹ * normSq (agreeingBits (q :: qs) (r :: rs) ψ) := by
        rw [agreeingBits_cons, normSq_smul, normSq_inv_sqrt hp0]
      have hψψ : ∀ p' : ℝ, ((Real.sqrt p' : ℝ) : ℂ)⁻¹ • agreeingBits qs rs (collapse q r ψ) =
          ((Real.sqrt (measProb q r ψ * p') : ℝ) : ℂ)⁻¹ • agreeingBits (q :: qs) (r :: rs) ψ := by
        intro p'
        rw [agreeingBits_cons, Real.sqrt_mul hp0, Complex.ofReal_mul, _root_.mul_inv,
          mul_comm (((Real.sqrt (measProb q r ψ) : ℝ) : ℂ)⁻¹), mul_smul]
      constructor
      · intro h
        cases h with
        | @cons _ _ _ _ _ _ p' g1 g2 =>
          obtain ⟨q1, q2, q3⟩ := (ih rs _ (collapse_normalised g1) p' ψ').mp g2
          refine ⟨?_, mul_ne_zero g1 q2, ?_⟩
          · rw [q1, hpp, mul_inv_cancel_left₀ g1]
          · rw [q3]
            exact hψψ p'
      · rintro ⟨q1, q2, q3⟩
        have h0 : measProb q r ψ ≠ 0 := by
          intro h0
          apply q2
          rw [q1]
          have hz : agreeingBits [q] [r] ψ = 0 := normSq_zero (by rw [normSq_agreeing_one, h0])
          have : agreeingBits (q :: qs) (r :: rs) ψ = 0 := by
            funext b
            have hb := congrFun hz b
            unfold agreeingBits at hb ⊢
            simp only [List.map_cons, List.map_nil, List.cons.injEq, and_true, Pi.zero_apply] at hb ⊢
            by_cases h1 : bitAt b q = r
            · rw [if_pos h1] at hb
              simp [hb]
            · simp [h1]
          rw [this, normSq_of_zero]
        have hp' : p = measProb q r ψ * normSq (agreeingBits qs rs (collapse q r ψ)) := by
          rw [hpp, mul_inv_cancel_left₀ h0, q1]
        have h4 := (ih rs _ (collapse_normalised h0) _ ψ').mpr ⟨rfl, fun e => q2 (by rw [hp', e, mul_zero]), by
          rw [hψψ, ← hp', q3]⟩
        have h5 := QubitReadings.cons h0 h4
        rw [← hp'] at h5
        exact h5

theorem map_bitAt (b : Fin n → ZMod 2) : (List.range n).map (bitAt b) = List.ofFn b := by
  refine List.ext_getElem (by simp) fun i h1 h2 => ?_
  have hi : i < n := by simpa using h1
  simp [bitAt, hi]

/-- **C144, measuring every qubit**.  Reading the qubits of a register one after the other gives the bits of `b` with probability
`|ψ b|²` and leaves the basis state of `b`. -/
theorem C144_every_qubit (ψ : Amp n) (hψ : Normalised ψ) (rs : List (ZMod 2)) (p : ℝ) (ψ' : Amp n) :
    QubitReadings ψ (List.range n) rs p ψ' ↔ ∃ b : Fin n → ZMod 2, rs = List.ofFn b ∧ p = Complex.normSq (ψ b) ∧ p ≠ 0 ∧
      ψ' = (((Real.sqrt p : ℝ) : ℂ)⁻¹ * ψ b) • ket b := by
  rw [qubitReadings_iff _ _ _ hψ]
  have hag : ∀ b₀ : Fin n → ZMod 2, agreeingBits (List.range n) (List.ofFn b₀) ψ = ψ b₀ • ket b₀ := by
    intro b₀
    funext b
    unfold agreeingBits ket
    rw [map_bitAt]
    by_cases h : b = b₀
    · subst h
      simp
    · rw [if_neg fun e => h (List.ofFn_injective e)]
      simp [h]
  have hn : ∀ b₀ : Fin n → ZMod 2, normSq (ψ b₀ • ket b₀ : Amp n) = Complex.normSq (ψ b₀) := by
    intro b₀
    have h1 : normSq (ket b₀ : Amp n) = 1 := by
      unfold normSq ket
      simp
    rw [normSq_smul, h1, mul_one]
  constructor
  · rintro ⟨q1, q2, q3⟩
    have hne : normSq (agreeingBits (List.range n) rs ψ) ≠ 0 := by rw [← q1]; exact q2
    have : ∃ b : Fin n → ZMod 2, rs = List.ofFn b := by
      by_contra hno
      apply hne
      have hz : agreeingBits (List.range n) rs ψ = 0 := by
        funext b
        unfold agreeingBits
        rw [map_bitAt, if_neg fun e => hno ⟨b, e.symm⟩]
        rfl
      rw [hz, normSq_of_zero]
    obtain ⟨b₀, rfl⟩ := this
    rw [hag, hn] at q1
    rw [hag, smul_smul] at q3
    exact ⟨b₀, rfl, q1, q2, q3⟩
  · rintro ⟨b₀, rfl, q1, q2, q3⟩
    rw [hag, hn, smul_smul]
    exact ⟨q1, q2, q3⟩

/-- An eigenstate of an operator without X consists of basis states with one and the same parity. -/
theorem parity_of_eigen {P : Pauli n} (hx : P.x = 0) {t : ZMod 2} {φ : Amp n} (h : pauliAct P φ = (sgn t : ℂ) • φ)
    {b : Fin n → ZMod 2} (hb : φ b ≠ 0) : dotp P.z b = t := by
  have e := congrFun h b
  rw [pauliAct_apply, hx, add_zero, Pi.smul_apply, smul_eq_mul] at e
  have e2 := mul_right_cancel₀ hb e
  rcases zmod2_cases (dotp P.z b) with h1 | h1 <;> rcases zmod2_cases t with h2 | h2 <;> rw [h1, h2] at e2 ⊢
  · rw [sgn_zero, sgn_one] at e2
    norm_num at e2
  · rw [sgn_zero, sgn_one] at e2
    norm_num at e2

/-- The logical Z operators the package computes contain no X. -/
theorem logicalZ_no_x {s : StabInput} {c : StabCode} (h : stabInit s n k none = .ok c) (hb : BinaryArr c.stab) (i : Fin k) :
    (rowPauli n (c.logicalZ.row i)).x = 0 := by
  obtain ⟨-, -, -, hrows, -, -, -, -, -, hZ⟩ := accepted_weak h hb
  obtain ⟨l, c', h1, h2, h3, -, -, -, h7, -⟩ := C139_as_independent s c h hb
  obtain ⟨-, -, -, hsh, -, hZ', -⟩ := accepted_facts h1 h2 h3
  obtain ⟨s1, s2⟩ := lz_shape hsh
  have hr : c.logicalZ.row i = (logicalZOf n k c'.rank c'.normalForm).row i := by
    rw [← hZ']
    exact (row_congr h7 (by rw [← h7.1, hZ', s1]; exact i.2)).symm
  rw [hr]
  funext j
  rw [rowPauli_x s2, lz_x j.2]
  simp

/-- **C144**.  Encode any state of the `k` qubits, let any Pauli error `E` happen, and measure every qubit of the register.  For
every bit string `v`, the results whose parities over the logical Z operators are `v`, with the bits flipped whose operator
anticommutes with the error, have together the probability `|α v|²` which `v` has in the state that was encoded.  The
generators need not be independent. -/
theorem C144_parities (s : StabInput) (c : StabCode) (h : stabInit s n k none = .ok c) (hb : BinaryArr c.stab) :
    ∃ enc : (Fin k → ZMod 2) → List Gate, (∀ δ, encodingCircuit c n (bitsList δ) = .ok (enc δ)) ∧
      ∀ (E : Pauli n) (α : (Fin k → ZMod 2) → ℂ), Normalised α →
        let ψ : Amp n := pauliAct E (∑ δ, α δ • run (enc δ) (ket 0))
        Normalised ψ ∧ ∀ v : Fin k → ZMod 2,
          (∑ b : Fin n → ZMod 2, if ∀ i : Fin k, dotp (rowPauli n (c.logicalZ.row i)).z b =
            v i + symp (rowPauli n (c.logicalZ.row i)) E then Complex.normSq (ψ b) else 0) = Complex.normSq (α v) := by
  obtain ⟨enc, g1, g2, g3⟩ := logicalZ_family h hb
  refine ⟨enc, g1, fun E α hα => ?_⟩
  intro ψ
  set f : (Fin k → ZMod 2) → Amp n := fun δ => pauliAct E (run (enc δ) (ket 0)) with hf
  have hψ : ψ = ∑ δ, α δ • f δ := by
    show pauliAct E (∑ δ, α δ • run (enc δ) (ket 0)) = _
    rw [pauliAct_sum']
    exact Finset.sum_congr rfl fun δ _ => pauliAct_smul _ _ _
  have horth : ∀ δ δ', braket (f δ) (f δ') = if δ = δ' then 1 else 0 := fun δ δ' => by
    rw [hf, braket_pauli_both]
    exact g2 δ δ'
  have hpar : ∀ δ b, f δ b ≠ 0 → ∀ i : Fin k, dotp (rowPauli n (c.logicalZ.row i)).z b =
      δ i + symp (rowPauli n (c.logicalZ.row i)) E := by
    intro δ b hne i
    refine parity_of_eigen (logicalZ_no_x h hb i) ?_ hne
    rw [hf, pauliAct_comm, (g3 i).2.2.2 δ, pauliAct_smul, smul_smul, ← sgn_add, add_comm]
  refine ⟨?_, fun v => ?_⟩
  · show normSq ψ = 1
    rw [hψ, encoded_norm horth]
    exact hα
  have hone : normSq (f v) = 1 := normalised_of_braket (by rw [horth, if_pos rfl])
  have hterm : ∀ b : Fin n → ZMod 2, (if ∀ i : Fin k, dotp (rowPauli n (c.logicalZ.row i)).z b =
      v i + symp (rowPauli n (c.logicalZ.row i)) E then Complex.normSq (ψ b) else 0) =
      Complex.normSq (α v) * Complex.normSq (f v b) := by
    intro b
    by_cases hv : ∀ i : Fin k, dotp (rowPauli n (c.logicalZ.row i)).z b = v i + symp (rowPauli n (c.logicalZ.row i)) E
    · rw [if_pos hv, hψ, Finset.sum_apply, Finset.sum_eq_single v, Pi.smul_apply, smul_eq_mul, map_mul]
      · intro δ _ hne
        by_cases h0 : f δ b = 0
        · rw [Pi.smul_apply, h0, smul_zero]
        · exfalso
          apply hne
          funext i
          exact add_right_cancel ((hpar δ b h0 i).symm.trans (hv i))
      · intro hh
        exact absurd (Finset.mem_univ _) hh
    · rw [if_neg hv]
      by_cases h0 : f v b = 0
      · rw [h0, map_zero, mul_zero]
      · exact absurd (hpar v b h0) hv
  rw [Finset.sum_congr rfl fun b _ => hterm b, ← Finset.mul_sum]
  show Complex.normSq (α v) * normSq (f v) = _
  rw [hone, mul_one]

/-- **C144, the syndrome in the same results**.  For independent generators the same results also show the error: over every row
`g` of the normal form without X, the parity of every possible result is the value `single_syndrome_measurement` would have
given, which is 1 exactly if the error anticommutes with `g`. -/
theorem C144_checks (s : StabInput) (c : StabCode) (h : stabInit s n k none = .ok c) (hb : BinaryArr c.stab)
    (hind : Independent n c.stab) :
    ∃ enc : (Fin k → ZMod 2) → List Gate, (∀ δ, encodingCircuit c n (bitsList δ) = .ok (enc δ)) ∧
      ∀ (E : Pauli n) (α : (Fin k → ZMod 2) → ℂ), Normalised α → ∀ g ∈ c.iter, (rowPauli n g).x = 0 →
        ∀ b p ψ', QubitReadings (pauliAct E (∑ δ, α δ • (run (enc δ) (ket 0) : Amp n))) (List.range n) (List.ofFn b) p ψ' →
          dotp (rowPauli n g).z b = symp (rowPauli n g) E := by
  obtain ⟨enc, g1, g2⟩ := C144_parities s c h hb
  refine ⟨enc, g1, fun E α hα g hg hx b p ψ' hr => ?_⟩
  obtain ⟨hn, -⟩ := g2 E α hα
  obtain ⟨b', e1, e2, e3, -⟩ := (C144_every_qubit _ hn _ _ _).mp hr
  have := List.ofFn_injective e1
  subst this
  refine parity_of_eigen hx (φ := pauliAct E (∑ δ, α δ • (run (enc δ) (ket 0) : Amp n))) ?_ ?_
  · rw [pauliAct_comm, pauliAct_sum']
    congr 2
    refine Finset.sum_congr rfl fun δ _ => ?_
    obtain ⟨gs, k1, k2⟩ := C13_normal_form_rows_fix s n k c h hb hind (bitsList δ) (by simp [bitsList]) (bitsList_binary δ)
    have : gs = enc δ := by
      have := k1.symm.trans (g1 δ)
      injection this
    rw [pauliAct_smul, ← this, k2 g hg]
    unfold parityY dotp
    rw [hx]
    simp
  · intro h0
    apply e3
    rw [e2, h0, map_zero]

/-- A normalised state has a possible result. -/
theorem exists_reading (ψ : Amp n) (hψ : Normalised ψ) :
    ∃ (b : Fin n → ZMod 2) (p : ℝ) (ψ' : Amp n), QubitReadings ψ (List.range n) (List.ofFn b) p ψ' := by
  have : ∃ b, ψ b ≠ 0 := by
    by_contra hno
    push Not at hno
    have h1 : normSq ψ = 1 := hψ
    rw [show ψ = 0 from funext hno, normSq_of_zero] at h1
    exact zero_ne_one h1
  obtain ⟨b, hb⟩ := this
  exact ⟨b, _, _, (C144_every_qubit ψ hψ _ _ _).mpr ⟨b, rfl, rfl, fun e => hb (Complex.normSq_eq_zero.mp e), rfl⟩⟩

/-- **C144, which errors the results allow to be corrected**.  Take the rows of the normal form without X, and a set of errors.  There
is a table that tells from the parities over these rows which parities over the logical Z operators to flip, such that the
encoded bits come out right whatever error of the set happened and whatever was read, exactly when any two errors of the
set with the same signs on these rows have the same signs on the logical Z operators. -/
theorem C144_table (s : StabInput) (c : StabCode) (h : stabInit s n k none = .ok c) (hb : BinaryArr c.stab)
    (hind : Independent n c.stab) (errors : Set (Pauli n)) :
    ∃ enc : (Fin k → ZMod 2) → List Gate, (∀ δ, encodingCircuit c n (bitsList δ) = .ok (enc δ)) ∧
      let rows := c.iter.filter fun g => decide ((rowPauli n g).x = 0)
      ((∃ table : List (ZMod 2) → Fin k → ZMod 2, ∀ E ∈ errors, ∀ δ b p ψ',
          QubitReadings (pauliAct E (run (enc δ) (ket 0) : Amp n)) (List.range n) (List.ofFn b) p ψ' →
            ∀ i : Fin k, dotp (rowPauli n (c.logicalZ.row i)).z b + table (rows.map fun g => dotp (rowPauli n g).z b) i = δ i) ↔
        ∀ E ∈ errors, ∀ E' ∈ errors, (∀ g ∈ rows, symp (rowPauli n g) E = symp (rowPauli n g) E') →
          ∀ i : Fin k, symp (rowPauli n (c.logicalZ.row i)) E = symp (rowPauli n (c.logicalZ.row i)) E') := by
  classical
  obtain ⟨enc, g1, g2, g3⟩ := logicalZ_family h hb
  obtain ⟨enc', g1', g4⟩ := C144_checks s c h hb hind
  have hee : enc' = enc := by
    funext δ
    have := (g1' δ).symm.trans (g1 δ)
    injection this
  subst hee
  refine ⟨enc', g1, ?_⟩
  intro rows
  have hα : ∀ δ : Fin k → ZMod 2, Normalised (ket δ : Amp k) := by
    intro δ
    show normSq _ = 1
    unfold normSq ket
    simp
  have hsum : ∀ δ : Fin k → ZMod 2, (∑ δ', (ket δ : Amp k) δ' • (run (enc' δ') (ket 0) : Amp n)) = run (enc' δ) (ket 0) := by
    intro δ
    rw [Finset.sum_eq_single δ]
    · simp [ket]
    · intro δ' _ hne
      simp [ket, hne]
    · intro hh
      exact absurd (Finset.mem_univ _) hh
  have hnorm : ∀ E δ, Normalised (pauliAct E (run (enc' δ) (ket 0) : Amp n)) := fun E δ =>
    normalised_pauli E (normalised_of_braket (by rw [g2, if_pos rfl]))
  -- what every possible result shows
  have hread : ∀ E δ b p ψ', QubitReadings (pauliAct E (run (enc' δ) (ket 0) : Amp n)) (List.range n) (List.ofFn b) p ψ' →
      (rows.map fun g => dotp (rowPauli n g).z b) = (rows.map fun g => symp (rowPauli n g) E) ∧
      ∀ i : Fin k, dotp (rowPauli n (c.logicalZ.row i)).z b = δ i + symp (rowPauli n (c.logicalZ.row i)) E := by
    intro E δ b p ψ' hr
    constructor
    · refine List.map_congr_left fun g hg => ?_
      obtain ⟨hg1, hg2⟩ := List.mem_filter.mp hg
      exact g4 E (ket δ) (hα δ) g hg1 (by simpa using hg2) b p ψ' (by rw [hsum]; exact hr)
    · intro i
      obtain ⟨b', e1, e2, e3, -⟩ := (C144_every_qubit _ (hnorm E δ) _ _ _).mp hr
      have := List.ofFn_injective e1
      subst this
      refine parity_of_eigen (logicalZ_no_x h hb i) (φ := pauliAct E (run (enc' δ) (ket 0))) ?_ ?_
      · rw [pauliAct_comm, (g3 i).2.2.2 δ, pauliAct_smul, smul_smul, ← sgn_add, add_comm]
      · intro h0
        apply e3
        rw [e2, h0, map_zero]
  constructor
  · rintro ⟨table, ht⟩ E hE E' hE' hs i
    have key : ∀ F ∈ errors, table (rows.map fun g => symp (rowPauli n g) F) i = symp (rowPauli n (c.logicalZ.row i)) F := by
      intro F hF
      obtain ⟨b, p, ψ', hr⟩ := exists_reading _ (hnorm F 0)
      obtain ⟨r1, r2⟩ := hread F 0 b p ψ' hr
      have e := ht F hF 0 b p ψ' hr i
      rw [r1, r2 i, Pi.zero_apply, zero_add] at e
      rw [← add_right_inj (symp (rowPauli n (c.logicalZ.row i)) F), e, add_self_z]
    rw [← key E hE, ← key E' hE', List.map_congr_left hs]
  · intro hall
    refine ⟨fun l i => if hl : ∃ E ∈ errors, (rows.map fun g => symp (rowPauli n g) E) = l then
      symp (rowPauli n (c.logicalZ.row i)) hl.choose else 0, fun E hE δ b p ψ' hr i => ?_⟩
    obtain ⟨r1, r2⟩ := hread E δ b p ψ' hr
    have hl : ∃ F ∈ errors, (rows.map fun g => symp (rowPauli n g) F) = rows.map fun g => dotp (rowPauli n g).z b :=
      ⟨E, hE, r1.symm⟩
    dsimp only
    rw [dif_pos hl, r2 i]
    obtain ⟨c1, c2⟩ := hl.choose_spec
    have c3 := c2.trans r1
    rw [hall _ c1 E hE (fun g hg => List.map_inj_left.mp c3 g hg) i, add_assoc, add_self_z, add_zero]

/-- Concrete case: phase errors never disturb this way of reading, whatever the code. -/
example (s : StabInput) (c : StabCode) (h : stabInit s n k none = .ok c) (hb : BinaryArr c.stab) (hind : Independent n c.stab) :
    ∃ enc : (Fin k → ZMod 2) → List Gate, (∀ δ, encodingCircuit c n (bitsList δ) = .ok (enc δ)) ∧
      ∃ table : List (ZMod 2) → Fin k → ZMod 2, ∀ E : Pauli n, E.x = 0 → ∀ δ b p ψ',
        QubitReadings (pauliAct E (run (enc δ) (ket 0) : Amp n)) (List.range n) (List.ofFn b) p ψ' → ∀ i : Fin k,
          dotp (rowPauli n (c.logicalZ.row i)).z b + table ((c.iter.filter fun g => decide ((rowPauli n g).x = 0)).map
            fun g => dotp (rowPauli n g).z b) i = δ i := by
  obtain ⟨enc, g1, g2⟩ := C144_table s c h hb hind {E | E.x = 0}
  refine ⟨enc, g1, g2.mpr fun E hE E' hE' _ i => ?_⟩
  have h0 : ∀ F : Pauli n, F.x = 0 → symp (rowPauli n (c.logicalZ.row i)) F = 0 := by
    intro F hF
    unfold symp dotp
    rw [hF, logicalZ_no_x h hb i]
    simp
  rw [h0 E hE, h0 E' hE']

/-- Concrete case: the code of `XXXX` and `ZZZZ` meets the hypotheses. -/
example : ∃ c, stabInit (.rows [[1, 1, 1, 1, 0, 0, 0, 0], [0, 0, 0, 0, 1, 1, 1, 1]]) 4 2 none = .ok c ∧ BinaryArr c.stab ∧
    Independent 4 c.stab ∧ ∃ g ∈ c.iter, (rowPauli 4 g).x = 0 ∧ (rowPauli 4 g).z ≠ 0 := by
  obtain ⟨c, h1, h2, h3, -, -, -, -, h4, -, h5⟩ := code422
  refine ⟨c, h1, h2, h3, c.normalForm.row 1, ?_, ?_⟩
  · unfold StabCode.iter
    exact List.mem_map.mpr ⟨1, List.mem_range.mpr (by omega), rfl⟩
  · rw [h5]
    decide

end PyQ
