import Verif.Props.Syndrome

/-! # C18: input checks of the circuit builders; C48: `apply_stabilizer_circuit` -/

namespace PyQ

open Spec

/-- **C18, encoding**.  `encoding_circuit` raises `AssertionError` exactly when the state has not `k` entries, the register
has not `n` qubits, or an entry is not 0 or 1.  Otherwise it succeeds and all gates act inside the register, with
controls different from targets. -/
theorem C18_encoding_guard (s : StabInput) (n k : ℕ) (c : StabCode) (h : stabInit s n k none = .ok c)
    (hb : BinaryArr c.stab) (hind : Independent n c.stab) (len : ℕ) (δ : List ℤ) :
    (encodingCircuit c len δ = .error .assertion ↔ δ.length ≠ k ∨ len ≠ n ∨ ∃ v ∈ δ, v ≠ 0 ∧ v ≠ 1) ∧
    ((∃ gs, encodingCircuit c len δ = .ok gs ∧ ∀ g ∈ gs, g.WF n) ↔ δ.length = k ∧ len = n ∧ ∀ v ∈ δ, v = 0 ∨ v = 1) := by
  obtain ⟨hn, hk, -, -, -, -, -⟩ := accepted_facts h hb hind
  have hgood : δ.length = k → len = n → (∀ v ∈ δ, v = 0 ∨ v = 1) → ∃ gs, encodingCircuit c len δ = .ok gs ∧ ∀ g ∈ gs, g.WF n := by
    intro h1 h2 h3
    obtain ⟨gs, g1, g2, -⟩ := C11_encoding_closed_form s n k c h hb hind δ h1 h3
    exact ⟨gs, by rw [h2]; exact g1, g2⟩
  have hbad : (δ.length ≠ k ∨ len ≠ n ∨ ∃ v ∈ δ, v ≠ 0 ∧ v ≠ 1) → encodingCircuit c len δ = .error .assertion := by
    intro hc
    unfold encodingCircuit pyAssert
    by_cases h1 : δ.length = c.k
    · rw [if_pos h1, ok_bind']
      by_cases h2 : len = c.n
      · rw [if_pos h2, ok_bind']
        have h3 : ∃ v ∈ δ, v ≠ 0 ∧ v ≠ 1 := by
          rcases hc with hc | hc | hc
          · exact absurd (h1.trans hk) hc
          · exact absurd (h2.trans hn) hc
          · exact hc
        have herr : δ.zipIdx.mapM (prepareBit c.n c.k) = .error .assertion := by
          have key : ∀ o, (δ.zipIdx o).mapM (prepareBit c.n c.k) = .error .assertion := by
            clear hgood h1 hc
            induction δ with
            | nil => obtain ⟨v, hv, -⟩ := h3; simp at hv
            | cons a δ ih =>
              intro o
              rw [List.zipIdx_cons, mapM_cons_except]
              by_cases ha : a = 0 ∨ a = 1
              · obtain ⟨v, hv, hv2⟩ := h3
                rw [List.mem_cons] at hv
                rcases hv with rfl | hv
                · omega
                · rw [ih ⟨v, hv, hv2⟩ (o + 1)]
                  simp [prepareBit, pyAssert, ha, Except.bind]
              · simp [prepareBit, pyAssert, ha, Except.bind]
          exact key 0
        rw [herr, error_bind']
      · rw [if_neg h2, error_bind']
    · rw [if_neg h1, error_bind']
  constructor
  · constructor
    · intro he
      by_contra hc
      push Not at hc
      obtain ⟨gs, g1, -⟩ := hgood hc.1 hc.2.1 (fun v hv => by
        by_cases h0 : v = 0
        · exact Or.inl h0
        · exact Or.inr (hc.2.2 v hv h0))
      rw [g1] at he; cases he
    · exact hbad
  · constructor
    · rintro ⟨gs, g1, -⟩
      by_contra hc
      have := hbad (by
        by_contra hc'
        push Not at hc'
        exact hc ⟨hc'.1, hc'.2.1, fun v hv => by
          by_cases h0 : v = 0
          · exact Or.inl h0
          · exact Or.inr (hc'.2.2 v hv h0)⟩)
      rw [g1] at this; cases this
    · rintro ⟨h1, h2, h3⟩; exact hgood h1 h2 h3

/-- A name accepted by `logical_circuit` for `k` logical qubits: X, Y or Z followed by one digit smaller than `k`. -/
def GoodName (k : ℕ) (op : List Char) : Prop :=
  ∃ p i, op = [p, Char.ofNat (48 + i)] ∧ (p = 'X' ∨ p = 'Y' ∨ p = 'Z') ∧ i < 10 ∧ i < k

/-- A name rejected because its second character is not a digit. -/
def NotADigit (op : List Char) : Prop :=
  ∃ p d, op = [p, d] ∧ (p = 'X' ∨ p = 'Y' ∨ p = 'Z') ∧ ∀ i < 10, d ≠ Char.ofNat (48 + i)

theorem intOfChar_cases (d : Char) :
    (∃ i < 10, d = Char.ofNat (48 + i) ∧ intOfChar d = .ok i) ∨ ((∀ i < 10, d ≠ Char.ofNat (48 + i)) ∧ intOfChar d = .error .value) := by
  by_cases h : ∃ i < 10, d = Char.ofNat (48 + i)
  · obtain ⟨i, hi, rfl⟩ := h
    exact Or.inl ⟨i, hi, rfl, intOfChar_digit hi⟩
  · push Not at h
    refine Or.inr ⟨h, ?_⟩
    unfold intOfChar
    rw [if_neg]
    rintro ⟨h1, h2⟩
    have h1' : 48 ≤ d.toNat := h1
    have h2' : d.toNat ≤ 57 := h2
    apply h (d.toNat - 48) (by omega)
    rw [show 48 + (d.toNat - 48) = d.toNat by omega, Char.ofNat_toNat]

/-- **C18, logical circuits**.  `logical_circuit` succeeds exactly on the good names; a name `Pd` with `d` not a digit gives
`ValueError`; every other name, among them all names of operators with index ten or more, gives `AssertionError`. -/
theorem C18_logical_guard (s : StabInput) (n k : ℕ) (c : StabCode) (h : stabInit s n k none = .ok c)
    (hb : BinaryArr c.stab) (hind : Independent n c.stab) (op : List Char) :
    ((∃ gs, logicalCircuit c n op = .ok gs ∧ ∀ g ∈ gs, g.WF n) ↔ GoodName k op) ∧
    (logicalCircuit c n op = .error .value ↔ NotADigit op) ∧
    (logicalCircuit c n op = .error .assertion ↔ ¬ GoodName k op ∧ ¬ NotADigit op) := by
  obtain ⟨hn, hk, -, hsh, hX, hZ, -⟩ := accepted_facts h hb hind
  have hgood : GoodName k op → ∃ gs, logicalCircuit c n op = .ok gs ∧ ∀ g ∈ gs, g.WF n := by
    rintro ⟨p, i, rfl, hp, hi10, hi⟩
    obtain ⟨gs, g1, g2, -⟩ := logicalCircuit_ok hk hsh hX hZ hp (intOfChar_digit hi10) hi
    exact ⟨gs, g1, g2⟩
  have hnd : NotADigit op → logicalCircuit c n op = .error .value := by
    rintro ⟨p, d, rfl, hp, hd⟩
    rcases intOfChar_cases d with ⟨i, hi, hdi, -⟩ | ⟨-, he⟩
    · exact absurd hdi (hd i hi)
    · unfold logicalCircuit pyAssert
      simp only
      rw [if_pos hp, ok_bind', he, error_bind']
  have hbad : ¬ GoodName k op → ¬ NotADigit op → logicalCircuit c n op = .error .assertion := by
    intro h1 h2
    match op with
    | [] => rfl
    | [_] => rfl
    | _ :: _ :: _ :: _ => rfl
    | [p, d] =>
      unfold logicalCircuit pyAssert
      simp only
      by_cases hp : p = 'X' ∨ p = 'Y' ∨ p = 'Z'
      · rw [if_pos hp, ok_bind']
        rcases intOfChar_cases d with ⟨i, hi, hdi, he⟩ | ⟨hd, -⟩
        · rw [he, ok_bind', if_neg, error_bind']
          intro hlt
          exact h1 ⟨p, i, by rw [hdi], hp, hi, by omega⟩
        · exact absurd ⟨p, d, rfl, hp, hd⟩ h2
      · rw [if_neg hp, error_bind']
  have hexcl : GoodName k op → ¬ NotADigit op := by
    rintro ⟨p, i, rfl, -, hi, -⟩ ⟨p', d, hpd, -, hd⟩
    simp only [List.cons.injEq, and_true] at hpd
    exact hd i hi hpd.2.symm
  refine ⟨⟨?_, hgood⟩, ⟨?_, hnd⟩, ⟨?_, fun h => hbad h.1 h.2⟩⟩
  · rintro ⟨gs, g1, -⟩
    by_contra hc
    by_cases h2 : NotADigit op
    · rw [hnd h2] at g1; cases g1
    · rw [hbad hc h2] at g1; cases g1
  · intro he
    by_contra hc
    by_cases h2 : GoodName k op
    · obtain ⟨gs, g1, -⟩ := hgood h2
      rw [g1] at he; cases he
    · rw [hbad h2 hc] at he; cases he
  · intro he
    constructor
    · intro h2
      obtain ⟨gs, g1, -⟩ := hgood h2
      rw [g1] at he; cases he
    · intro h2
      rw [hnd h2] at he; cases he

/-- **C18, syndrome measurement**.  For every code object, register and argument, `single_syndrome_measurement` raises
`TypeError` exactly when the engine has neither `n` nor `n + 1` active qubits.  With `n` or `n + 1` qubits and a valid
argument all gates act on the `n + 1` qubits. -/
theorem C18_syndrome_guard (c : StabCode) (active len : ℕ) (s : StabArg) :
    (syndromeCircuit c active len s = .error .type ↔ active ≠ c.n ∧ active ≠ c.n + 1) ∧
    (s.Valid c.n → (active = c.n ∧ len = c.n) ∨ (active = c.n + 1 ∧ len = c.n + 1) →
      ∃ gs, syndromeCircuit c active len s = .ok (gs, c.n) ∧ ∀ g ∈ gs, g.WF (c.n + 1)) := by
  constructor
  · constructor
    · intro he
      by_contra hc
      unfold syndromeCircuit at he
      rw [if_neg hc] at he
      rcases except_bind_error.mp he with he | ⟨anc, -, he⟩
      · by_cases h1 : active = c.n
        · rw [if_pos h1] at he; cases he
        · rw [if_neg h1] at he
          by_cases h2 : len = 0
          · rw [if_pos h2] at he; cases he
          · rw [if_neg h2] at he; cases he
      · rcases except_bind_error.mp he with he | ⟨str, -, he⟩
        · cases s with
          | str s => cases he
          | bin b =>
            unfold binaryRepToPauliStr at he
            simp only at he
            obtain ⟨l1, x, l2, -, -, hx⟩ := mapM_error_iff.mp he
            unfold pauliChar at hx
            split_ifs at hx
            cases hx
        · rcases except_bind_error.mp he with he | ⟨l, -, he⟩
          · obtain ⟨l1, x, l2, -, -, hx⟩ := mapM_error_iff.mp he
            unfold syndromeLetter letterGates onWire onQureg at hx
            split_ifs at hx <;> cases hx
          · cases he
    · intro hc
      unfold syndromeCircuit
      rw [if_pos hc]
  · intro hv hal
    obtain ⟨gs, h1, h2, -⟩ := syndromeCircuit_spec hal hv
    exact ⟨gs, h1, h2⟩

/-- **C18, decoding**.  The gates of `decoding_circuit` act on the `n + k` qubits, with controls different from targets. -/
theorem C18_decoding_wires (s : StabInput) (n k : ℕ) (c : StabCode) (h : stabInit s n k none = .ok c)
    (hb : BinaryArr c.stab) (hind : Independent n c.stab) :
    (∃ gs, decodingCircuit c n true = .ok gs ∧ ∀ g ∈ gs, g.WF (n + k)) ∧
    (∃ gs, decodingCircuit c (n + k) false = .ok gs ∧ ∀ g ∈ gs, g.WF (n + k)) := by
  obtain ⟨_, d1, _, h2, h3, _⟩ := C15_decoding s n k c h hb hind n true (Or.inl ⟨rfl, rfl⟩)
  obtain ⟨_, d2, _, h4, h5, _⟩ := C15_decoding s n k c h hb hind (n + k) false (Or.inr ⟨rfl, rfl⟩)
  exact ⟨⟨d1, h2, h3⟩, ⟨d2, h4, h5⟩⟩

/-- Concrete cases: good and bad names for two logical qubits. -/
example : GoodName 2 ['Y', '1'] ∧ NotADigit ['Z', 'a'] ∧ ¬ GoodName 2 ['X', '2'] ∧ ¬ NotADigit ['X', '2'] := by
  refine ⟨⟨'Y', 1, by decide, by decide, by decide, by decide⟩, ⟨'Z', 'a', rfl, by decide, by decide⟩, ?_, ?_⟩
  · rintro ⟨p, i, h1, -, h2, h3⟩
    interval_cases i <;> simp at h1
  · rintro ⟨p, d, h1, -, h2⟩
    simp only [List.cons.injEq, and_true] at h1
    exact h2 2 (by omega) h1.2.symm

/-! ### C48 -/

/-- The gates of one letter of `apply_stabilizer_circuit`. -/
def applyG (q : ℕ) (ch : Char) : List Gate :=
  if ch = 'X' then [⟨none, .X, q⟩] else if ch = 'Z' then [⟨none, .Z, q⟩] else if ch = 'Y' then [⟨none, .Y, q⟩] else []

theorem applyGate_Y {N : ℕ} (q : ℕ) (ψ : Amp N) :
    applyGate ⟨none, .Y, q⟩ ψ = Complex.I • applyGate ⟨none, .negIY, q⟩ ψ := by
  funext b
  rw [Pi.smul_apply, smul_eq_mul]
  unfold applyGate
  rw [if_pos (by unfold Gate.active; simp), if_pos (by unfold Gate.active; simp), Finset.mul_sum]
  apply Finset.sum_congr rfl
  intro v _
  simp only
  rw [opMat_Y, opMat_negIY]
  split_ifs <;> ring

theorem run_applyG {N : ℕ} (q : ℕ) (ch : Char) (ψ : Amp N) :
    run (applyG q ch) ψ = (if ch = 'Y' then Complex.I else 1) • run (letterG none q ch) ψ := by
  unfold applyG letterG
  by_cases h1 : ch = 'X'
  · rw [if_pos h1, if_pos h1, if_neg (by rw [h1]; decide), one_smul]
  · rw [if_neg h1, if_neg h1]
    by_cases h2 : ch = 'Z'
    · rw [if_pos h2, if_neg (by rw [h2]; decide), if_neg (by rw [h2]; decide), if_pos h2, one_smul]
    · rw [if_neg h2]
      by_cases h3 : ch = 'Y'
      · rw [if_pos h3, if_pos h3, if_pos h3, run_cons, run_cons, run_nil, run_nil, applyGate_Y]
      · rw [if_neg h3, if_neg h3, if_neg h3, if_neg h2, one_smul]

/-- **C48 (a)**.  On a 0/1 row of length `2 n` and a register of `n` qubits, `apply_stabilizer_circuit` applies the Pauli
operator of the row, times `i` to the number of Y's; all gates act inside the register. -/
theorem C48_apply_stabilizer (n : ℕ) (b : List ℤ) (hl : b.length = 2 * n) (hb : IsBinary b) :
    ∃ gs s, applyStabilizerCircuit n (.bin b) = .ok gs ∧ binaryRepToPauliStr b = .ok s ∧ (∀ g ∈ gs, g.WF n) ∧
      ∀ ψ : Amp n, run gs ψ = Complex.I ^ (s.count 'Y') • pauliAct (rowPauli n b) ψ := by
  obtain ⟨s, h1, h2, h3⟩ := rowStr hl hb
  refine ⟨s.zipIdx.flatMap fun cj => applyG cj.2 cj.1, s, ?_, h1, ?_, ?_⟩
  · unfold applyStabilizerCircuit
    simp only
    rw [h1, ok_bind', mapM_ok_of (g := fun cj => applyG cj.2 cj.1)]
    · rw [ok_bind', ← List.flatMap_def]; rfl
    · rintro ⟨ch, j⟩ hj
      have hj' := mem_zipIdx_lt hj
      simp only at hj'
      have hw : onWire n j = .ok j := by unfold onWire; rw [if_pos (by omega)]
      have hw' : onQureg n j = .ok j := by unfold onQureg; rw [if_pos (by omega)]
      unfold applyLetter applyG
      simp only [hw, hw']
      by_cases c1 : ch = 'X'
      · rw [if_pos c1, if_pos c1]; rfl
      · rw [if_neg c1, if_neg c1]
        by_cases c2 : ch = 'Z'
        · rw [if_pos c2, if_pos c2]; rfl
        · rw [if_neg c2, if_neg c2]
          by_cases c3 : ch = 'Y'
          · rw [if_pos c3, if_pos c3]; rfl
          · rw [if_neg c3, if_neg c3]
  · intro g hg
    simp only [List.mem_flatMap] at hg
    obtain ⟨⟨ch, j⟩, hj, hg⟩ := hg
    have hj' := mem_zipIdx_lt hj
    unfold applyG at hg
    split_ifs at hg <;> simp at hg <;> subst hg <;> exact ⟨by simp; omega, by simp⟩
  · intro ψ
    rw [← h3, ← ctrlAct_none, ← run_strG_zero none s (by omega) (by simp)]
    unfold strG
    have key : ∀ (s : List Char) (o : ℕ) (ψ : Amp n), run ((s.zipIdx o).flatMap fun cj => applyG cj.2 cj.1) ψ =
        Complex.I ^ (s.count 'Y') • run ((s.zipIdx o).flatMap fun cj => letterG none cj.2 cj.1) ψ := by
      intro s
      induction s with
      | nil => intro o ψ; simp [run_nil]
      | cons a s ih =>
        intro o ψ
        rw [List.zipIdx_cons, List.flatMap_cons, List.flatMap_cons, run_append, run_append, ih, run_applyG, run_smul, smul_smul]
        congr 1
        by_cases ha : a = 'Y'
        · subst ha; rw [if_pos rfl, List.count_cons_self, pow_succ]
        · rw [if_neg ha, List.count_cons_of_ne ha, mul_one]
    exact key s 0 ψ

/-- **C48 (b), refuted part**.  The documented string argument never works: every string gives `UnboundLocalError`. -/
theorem C48_string_argument_refuted (len : ℕ) (s : List Char) :
    applyStabilizerCircuit len (.str s) = .error .unboundLocal := rfl

example : ([1, 0, 1, 0, 0, 1] : List ℤ).length = 2 * 3 ∧ IsBinary [1, 0, 1, 0, 0, 1] := by
  refine ⟨rfl, ?_⟩; unfold IsBinary; decide

end PyQ
