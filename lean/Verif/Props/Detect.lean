import Verif.Props.Digitise

/-! # C100: what the measurements detect, and which erasures can be corrected -/

namespace PyQ

open Spec

/-- The measurements detect every noise operator of `N`: for every logical state, if the measurements of all rows of the normal form on
the encoded state after the operator (and normalisation) all read 0, the state they leave is the encoded state up to a phase. -/
def DetectsNoise (c : StabCode) (k : ℕ) (N : Set (Matrix (Fin c.n → ZMod 2) (Fin c.n → ZMod 2) ℂ)) : Prop :=
  ∃ enc : (Fin k → ZMod 2) → List Gate, (∀ δ, encodingCircuit c c.n (bitsList δ) = .ok (enc δ)) ∧
    ∀ A ∈ N, ∀ α : (Fin k → ZMod 2) → ℂ, Normalised α → ∀ φ₀ : Amp c.n, Normalised φ₀ →
      (∃ z : ℂ, φ₀ = z • A.mulVec (∑ δ, α δ • run (enc δ) (ket 0))) →
      ∀ rs φ, History (FreshStep c) φ₀ (c.iter.map StabArg.bin) rs φ → (∀ r ∈ rs, r = 0) →
        ∃ ω : ℂ, Complex.normSq ω = 1 ∧ φ = ω • ∑ δ, α δ • run (enc δ) (ket 0)

theorem pauliAct_injective {n : ℕ} (p : Pauli n) {φ ψ : Amp n} (h : pauliAct p φ = pauliAct p ψ) : φ = ψ := by
  have h1 := congrArg (pauliAct p) h
  rw [pauliAct_comp, pauliAct_comp] at h1
  have h2 : p.add p = ⟨0, 0⟩ := by simp [Pauli.add, add_self_f]
  rw [h2, pauliAct_one, pauliAct_one] at h1
  exact smul_right_injective _ (by rcases zmod2_cases (dotp p.z p.x) with h0 | h0 <;> simp [h0]) h1

/-- An operator of which every superposition is an eigenstate has one eigenvalue. -/
theorem one_eigenvalue {n k : ℕ} {f : (Fin k → ZMod 2) → Amp n} (hf : ∀ δ δ', braket (f δ) (f δ') = if δ = δ' then 1 else 0)
    (p : Pauli n) (h : ∀ α : (Fin k → ZMod 2) → ℂ, Normalised α → ∃ ω : ℂ, pauliAct p (∑ δ, α δ • f δ) = ω • ∑ δ, α δ • f δ) :
    ∃ ω : ℂ, ∀ α : (Fin k → ZMod 2) → ℂ, pauliAct p (∑ δ, α δ • f δ) = ω • ∑ δ, α δ • f δ := by
  classical
  have hcoef : ∀ (α : (Fin k → ZMod 2) → ℂ) δ, braket (f δ) (∑ δ, α δ • f δ) = α δ := by
    intro α δ
    rw [braket_sum_right]
    simp only [braket_smul_right, hf]
    simp
  have hket : ∀ δ, ∑ δ', (ket δ : (Fin k → ZMod 2) → ℂ) δ' • f δ' = f δ := by
    intro δ
    simp [ket, Finset.sum_ite_eq']
  have hall : ∀ α : (Fin k → ZMod 2) → ℂ, α ≠ 0 → ∃ ω : ℂ, pauliAct p (∑ δ, α δ • f δ) = ω • ∑ δ, α δ • f δ := by
    intro α h0
    set t : ℝ := ∑ b, Complex.normSq (α b) with ht
    have hpos : 0 < t := by
      obtain ⟨b, hb⟩ := Function.ne_iff.mp h0
      exact Finset.sum_pos' (fun _ _ => Complex.normSq_nonneg _) ⟨b, Finset.mem_univ _, Complex.normSq_pos.mpr hb⟩
    have hs : (((Real.sqrt t)⁻¹ : ℝ) : ℂ) ≠ 0 := by
      exact_mod_cast inv_ne_zero (Real.sqrt_pos.mpr hpos).ne'
    obtain ⟨ω, hω⟩ := h ((((Real.sqrt t)⁻¹ : ℝ) : ℂ) • α) (by
      show ∑ b, Complex.normSq (((((Real.sqrt t)⁻¹ : ℝ) : ℂ) • α) b) = 1
      simp only [Pi.smul_apply, smul_eq_mul, Complex.normSq_mul, Complex.normSq_ofReal]
      rw [← Finset.mul_sum, ← ht, ← mul_inv, Real.mul_self_sqrt hpos.le, inv_mul_cancel₀ hpos.ne'])
    refine ⟨ω, ?_⟩
    simp only [Pi.smul_apply, smul_assoc, ← Finset.smul_sum, pauliAct_smul] at hω
    rw [smul_comm] at hω
    exact smul_right_injective _ hs hω
  have hne : ∀ δ, (ket δ : (Fin k → ZMod 2) → ℂ) ≠ 0 := fun δ h0 => by
    have := congrFun h0 δ
    simp [ket] at this
  have hone : ∀ δ, ∃ ω : ℂ, pauliAct p (f δ) = ω • f δ := by
    intro δ
    obtain ⟨ω, hω⟩ := hall _ (hne δ)
    rw [hket] at hω
    exact ⟨ω, hω⟩
  choose w hw using hone
  have hsame : ∀ δ, w δ = w 0 := by
    intro δ
    by_cases h0 : δ = 0
    · rw [h0]
    obtain ⟨ω, hω⟩ := hall (ket δ + ket 0) (fun h1 => by
      have := congrFun h1 δ
      simp [ket, h0] at this)
    simp only [Pi.add_apply, add_smul, Finset.sum_add_distrib, hket] at hω
    rw [pauliAct_add, hw, hw] at hω
    have e1 := congrArg (braket (f δ)) hω
    have e2 := congrArg (braket (f 0)) hω
    simp only [smul_add, braket_add_right, braket_smul_right, hf, if_neg h0, if_neg (Ne.symm h0), if_true, mul_one, mul_zero, add_zero,
      zero_add] at e1 e2
    rw [e1, e2]
  refine ⟨w 0, fun α => ?_⟩
  rw [pauliAct_sum', Finset.smul_sum]
  refine Finset.sum_congr rfl fun δ _ => ?_
  rw [pauliAct_smul, hw, hsame, smul_comm]

theorem history_length {σ : Type} {step : σ → StabArg → ZMod 2 → σ → Prop} {a b : σ} {is : List StabArg} {rs : List (ZMod 2)} (h : History step a is rs b) :
    rs.length = is.length := by
  induction h with
  | nil => rfl
  | cons _ _ ih => rw [List.length_cons, List.length_cons, ih]

/-- **C100**.  For an accepted code with independent generators, each with an even number of `Y`s, and any set `T` of qubits, the
following are equivalent: every Pauli operator on these qubits that commutes with all rows of the normal form is in the group they
generate; the measurements detect every noise operator, unitary or not, on these qubits; and one table of corrections undoes every
noise operator on these qubits. -/
theorem C100_equivalent (s : StabInput) (k : ℕ) (c : StabCode) (h : stabInit s c.n k none = .ok c)
    (hb : BinaryArr c.stab) (hind : Independent c.n c.stab)
    (hY : ∀ a < c.stab.rows, parityY (rowPauli c.n (c.stab.row a)) = 0) (T : Finset (Fin c.n)) :
    ((∀ p : Pauli c.n, SupportedOn T p → (∀ g ∈ c.iter, symp (rowPauli c.n g) p = 0) → p.vec ∈ groupOf c.n c.iter) ↔
      DetectsNoise c k {A | ActsOn T A}) ∧
    (DetectsNoise c k {A | ActsOn T A} ↔
      ∃ table : List (ZMod 2) → List ℤ, (∀ rs, (table rs).length = 2 * c.n ∧ IsBinary (table rs)) ∧
        UndoesNoise c k {A | ActsOn T A} table) := by
  classical
  obtain ⟨enc, e1, -, e3⟩ := encoded_family h hb hind
  have uniq : ∀ {enc' : (Fin k → ZMod 2) → List Gate}, (∀ δ, encodingCircuit c c.n (bitsList δ) = .ok (enc' δ)) → enc' = enc := by
    intro enc' h'
    funext δ
    have h1 := h' δ
    rw [e1] at h1
    exact (Except.ok.inj h1).symm
  have hmeas : ∀ (e : Pauli c.n) (α : (Fin k → ZMod 2) → ℂ), Normalised α → ∀ rs φ',
      History (FreshStep c) (pauliAct e (∑ δ, α δ • run (enc δ) (ket 0))) (c.iter.map StabArg.bin) rs φ' ↔
        rs = c.iter.map (fun g => symp (rowPauli c.n g) e) ∧ φ' = pauliAct e (∑ δ, α δ • run (enc δ) (ket 0)) := by
    intro e α hα
    obtain ⟨enc', f1, f2⟩ := C62_syndrome s k c h hb hind hY e α hα
    obtain rfl := uniq f1
    exact f2
  have hnorm : ∀ α : (Fin k → ZMod 2) → ℂ, Normalised α → Normalised (∑ δ, α δ • run (enc δ) (ket 0) : Amp c.n) := by
    intro α hα
    show normSq _ = 1
    rw [encoded_norm e3]; exact hα
  have hpauli : ∀ p : Pauli c.n, SupportedOn T p → ActsOn T (pauliMatrix ℂ p) := by
    intro p hp
    refine ⟨fun a b hab j hj => ?_, fun a b d hd => ?_⟩
    · simp only [pauliMatrix, ne_eq, ite_eq_right_iff, not_forall] at hab
      obtain ⟨hab, -⟩ := hab
      rw [hab, Pi.add_apply, (hp j hj).1, add_zero]
    · simp only [pauliMatrix]
      have h1 : dotp p.z (b + d) = dotp p.z b := by
        unfold dotp
        refine Finset.sum_congr rfl fun j _ => ?_
        by_cases hj : j ∈ T
        · rw [Pi.add_apply, hd j hj, add_zero]
        · rw [(hp j hj).2, zero_mul, zero_mul]
      simp only [h1, add_right_comm b d, add_left_inj]
  have hone : ActsOn T (1 : Matrix (Fin c.n → ZMod 2) (Fin c.n → ZMod 2) ℂ) := by
    have := hpauli ⟨0, 0⟩ fun j _ => ⟨rfl, rfl⟩
    rwa [pauliMatrix_zero] at this
  -- condition → correction
  have hCU : (∀ p : Pauli c.n, SupportedOn T p → (∀ g ∈ c.iter, symp (rowPauli c.n g) p = 0) → p.vec ∈ groupOf c.n c.iter) →
      ∃ table : List (ZMod 2) → List ℤ, (∀ rs, (table rs).length = 2 * c.n ∧ IsBinary (table rs)) ∧
        UndoesNoise c k {A | ActsOn T A} table := by
    intro hcond
    obtain ⟨table, ht, hU⟩ := (C73_correctable s k c h hb hind hY
      {e | e.length = 2 * c.n ∧ IsBinary e ∧ SupportedOn T (rowPauli c.n e)} fun e he => ⟨he.1, he.2.1⟩).mpr (by
      intro e he e' he' hsame
      have hv : (ofVec ((rowPauli c.n e).vec + (rowPauli c.n e').vec)).vec = (rowPauli c.n e).vec + (rowPauli c.n e').vec := rfl
      rw [← hv]
      refine hcond _ ?_ ?_
      · intro j hj
        show (rowPauli c.n e).x j + (rowPauli c.n e').x j = 0 ∧ (rowPauli c.n e).z j + (rowPauli c.n e').z j = 0
        rw [(he.2.2 j hj).1, (he.2.2 j hj).2, (he'.2.2 j hj).1, (he'.2.2 j hj).2]
        simp
      · intro g hg
        rw [← sympV_vec, hv, sympV_add_right]
        have hz : ∀ a b : ZMod 2, a = b → a + b = 0 := by decide
        exact hz _ _ (hsame g hg))
    refine ⟨table, ht, span_mono_noise ?_ (C98_digitised s k c h hb hind hY _ table ht hU)⟩
    intro A hA
    refine Submodule.span_mono ?_ (actsOn_span hA)
    rintro M ⟨p, hp, rfl⟩
    obtain ⟨r1, r2, r3⟩ := pauliRow_spec p
    exact ⟨pauliRow p, ⟨r1, r2, by rw [r3]; exact hp⟩, by rw [r3]⟩
  -- correction → detection
  have hUD : (∃ table : List (ZMod 2) → List ℤ, (∀ rs, (table rs).length = 2 * c.n ∧ IsBinary (table rs)) ∧
        UndoesNoise c k {A | ActsOn T A} table) → DetectsNoise c k {A | ActsOn T A} := by
    rintro ⟨table, ht, enc', dec, u1, -, u3⟩
    obtain rfl := uniq u1
    refine ⟨enc', e1, ?_⟩
    intro A hA α hα φ₀ hφ₀ hz rs φ hh h0
    have hrs : rs = c.iter.map fun g => symp (rowPauli c.n g) (⟨0, 0⟩ : Pauli c.n) := by
      have hl : rs.length = (c.iter.map fun g => symp (rowPauli c.n g) (⟨0, 0⟩ : Pauli c.n)).length := by
        rw [List.length_map, ← List.length_map (as := c.iter) (f := StabArg.bin)]
        exact history_length hh
      refine List.ext_getElem hl fun i h1 h2 => ?_
      rw [h0 _ (List.getElem_mem h1), List.getElem_map]
      simp [symp, dotp]
    obtain ⟨ω, w1, corr, c1, c2, -⟩ := (u3 A hA α hα φ₀ hφ₀ hz).2 rs φ hh
    have hh1 := (hmeas ⟨0, 0⟩ α hα rs _).mpr ⟨hrs, rfl⟩
    rw [pauliAct_one] at hh1
    obtain ⟨ω', w1', corr', c1', c2', -⟩ := (u3 1 hone α hα _ (hnorm α hα) ⟨1, by rw [Matrix.one_mulVec, one_smul]⟩).2 rs _ hh1
    rw [c1] at c1'
    cases c1'
    have hω' : ω' ≠ 0 := by
      rintro rfl
      simp at w1'
    refine ⟨ω * ω'⁻¹, by rw [map_mul, map_inv₀, w1, w1']; norm_num, ?_⟩
    obtain ⟨gs, t, g1, -, -, g4⟩ := C48_apply_stabilizer c.n (table rs) (ht rs).1 (ht rs).2
    rw [c1] at g1
    cases g1
    have h3 : run corr φ = run corr ((ω * ω'⁻¹) • ∑ δ, α δ • run (enc' δ) (ket 0)) := by
      rw [run_smul, c2', smul_smul, c2, mul_assoc, inv_mul_cancel₀ hω', mul_one]
    rw [g4, g4] at h3
    exact pauliAct_injective _ (smul_right_injective _ (pow_ne_zero _ Complex.I_ne_zero) h3)
  -- detection → condition
  have hDC : DetectsNoise c k {A | ActsOn T A} →
      ∀ p : Pauli c.n, SupportedOn T p → (∀ g ∈ c.iter, symp (rowPauli c.n g) p = 0) → p.vec ∈ groupOf c.n c.iter := by
    rintro ⟨enc', u1, u2⟩ p hp hcom
    obtain rfl := uniq u1
    obtain ⟨ω, hω⟩ := one_eigenvalue e3 p (by
      intro α hα
      obtain ⟨ω, -, w2⟩ := u2 _ (hpauli p hp) α hα (pauliAct p (∑ δ, α δ • run (enc' δ) (ket 0))) (normalised_pauli _ (hnorm α hα))
        ⟨1, by rw [one_smul]; rfl⟩ _ _ ((hmeas p α hα _ _).mpr ⟨rfl, rfl⟩) (by
          intro r hr
          obtain ⟨g, hg, rfl⟩ := List.mem_map.mp hr
          exact hcom g hg)
      exact ⟨ω, w2⟩)
    obtain ⟨r1, r2, r3⟩ := pauliRow_spec p
    obtain ⟨z1, z2, z3⟩ := pauliRow_spec (⟨0, 0⟩ : Pauli c.n)
    obtain ⟨enc'', corr, dec', g1, g2, -, g4, -⟩ := C61_correction s c.n k c h hb hind hY (pauliRow p) (pauliRow (⟨0, 0⟩ : Pauli c.n)) z1 z2
    obtain rfl := uniq g1
    obtain ⟨gs, t, i1, -, -, i4⟩ := C48_apply_stabilizer c.n _ z1 z2
    rw [g2] at i1
    cases i1
    have := g4.mp ⟨_ * ω, fun α => by rw [i4, z3, pauliAct_one, r3, hω, smul_smul]⟩
    rw [r3, z3] at this
    have hz : (⟨0, 0⟩ : Pauli c.n).vec = 0 := rfl
    rwa [hz, add_zero] at this
  exact ⟨⟨fun hc => hUD (hCU hc), hDC⟩, fun hd => hCU (hDC hd), hUD⟩

theorem actsOn_weight {n : ℕ} {p : Pauli n} {T : Finset (Fin n)} (h : SupportedOn T p) : weight p ≤ T.card := by
  refine Finset.card_le_card ?_
  intro j hj
  by_contra hjT
  obtain ⟨h1, h2⟩ := h j hjT
  simp [h1, h2] at hj

/-- **C100**.  The rows of the normal form have distance at least `d` exactly when the measurements detect every noise operator on fewer
than `d` qubits. -/
theorem C100_detects_iff (s : StabInput) (k : ℕ) (c : StabCode) (h : stabInit s c.n k none = .ok c)
    (hb : BinaryArr c.stab) (hind : Independent c.n c.stab)
    (hY : ∀ a < c.stab.rows, parityY (rowPauli c.n (c.stab.row a)) = 0) (d : ℕ) :
    DistanceAtLeast c.n c.iter d ↔ DetectsNoise c k {A | ∃ T : Finset (Fin c.n), T.card < d ∧ ActsOn T A} := by
  classical
  obtain ⟨enc, e1, -, -⟩ := encoded_family h hb hind
  have hsplit : DetectsNoise c k {A | ∃ T : Finset (Fin c.n), T.card < d ∧ ActsOn T A} ↔
      ∀ T : Finset (Fin c.n), T.card < d → DetectsNoise c k {A | ActsOn T A} := by
    constructor
    · rintro ⟨enc', f1, f2⟩ T hT
      exact ⟨enc', f1, fun A hA => f2 A ⟨T, hT, hA⟩⟩
    · intro hall
      refine ⟨enc, e1, ?_⟩
      rintro A ⟨T, hT, hA⟩
      obtain ⟨enc', f1, f2⟩ := hall T hT
      have : enc' = enc := by
        funext δ
        have h1 := f1 δ
        rw [e1] at h1
        exact (Except.ok.inj h1).symm
      subst this
      exact f2 A hA
  rw [hsplit]
  constructor
  · intro hd T hT
    refine (C100_equivalent s k c h hb hind hY T).1.mp fun p hp hcom => ?_
    by_contra hno
    have := hd p hcom hno
    have := actsOn_weight hp
    omega
  · intro hall p hcom hno
    by_contra hlt
    refine hno ((C100_equivalent s k c h hb hind hY (Finset.univ.filter fun j => p.x j ≠ 0 ∨ p.z j ≠ 0)).1.mpr
      (hall _ (not_le.mp hlt)) p ?_ hcom)
    intro j hj
    simpa using hj

/-- **C100**.  If the rows of the normal form have distance at least `d`, then for every set of fewer than `d` qubits one table of
corrections undoes every noise operator on these qubits: the loss of any `d - 1` known qubits can be undone. -/
theorem C100_erasures (s : StabInput) (k : ℕ) (c : StabCode) (h : stabInit s c.n k none = .ok c)
    (hb : BinaryArr c.stab) (hind : Independent c.n c.stab)
    (hY : ∀ a < c.stab.rows, parityY (rowPauli c.n (c.stab.row a)) = 0) (d : ℕ) (hd : DistanceAtLeast c.n c.iter d)
    (T : Finset (Fin c.n)) (hT : T.card < d) :
    ∃ table : List (ZMod 2) → List ℤ, (∀ rs, (table rs).length = 2 * c.n ∧ IsBinary (table rs)) ∧
      UndoesNoise c k {A | ActsOn T A} table := by
  obtain ⟨h1, h2⟩ := C100_equivalent s k c h hb hind hY T
  refine h2.mp (h1.mp fun p hp hcom => ?_)
  by_contra hno
  have := hd p hcom hno
  have := actsOn_weight hp
  omega

/-! ### A case that meets the hypotheses -/

/-- **C100**, an instance: the code of XZZXI, IXZZX, XIXZZ and ZXIXZ detects every noise on two qubits, and the loss of any two known
qubits can be undone. -/
theorem C100_five_qubits : ∃ c, stabInit (.rows fiveRows) c.n 1 none = .ok c ∧ c.n = 5 ∧
    DetectsNoise c 1 {A | ∃ T : Finset (Fin c.n), T.card < 3 ∧ ActsOn T A} ∧
    ∀ T : Finset (Fin c.n), T.card < 3 →
      ∃ table : List (ZMod 2) → List ℤ, (∀ rs, (table rs).length = 2 * c.n ∧ IsBinary (table rs)) ∧
        UndoesNoise c 1 {A | ActsOn T A} table := by
  obtain ⟨c, h1, h2, h3, h4, h5⟩ := five_code
  have hn : c.n = 5 := (accepted_facts h1 h2 h3).1
  have hd : DistanceAtLeast c.n c.iter 3 := by
    rw [hn]
    intro p hcom hno
    by_contra hlt
    exact hno (five_distance h5 p (by omega) hcom)
  have g1 : stabInit (.rows fiveRows) c.n 1 none = .ok c := by rw [hn]; exact h1
  have g3 : Independent c.n c.stab := by rw [hn]; exact h3
  have g4 : ∀ a < c.stab.rows, parityY (rowPauli c.n (c.stab.row a)) = 0 := by rw [hn]; exact h4
  exact ⟨c, g1, hn, (C100_detects_iff _ 1 c g1 h2 g3 g4 3).mp hd, C100_erasures _ 1 c g1 h2 g3 g4 3 hd⟩

end PyQ
