import Verif.Lemmas.Syndrome
import Verif.Props.Decode

/-! # C16, C17: syndrome measurements -/

namespace PyQ

open Spec

/-- A stabilizer argument for `n` qubits: a string of at most `n` letters, or a 0/1 row of length `2 n`. -/
def StabArg.Valid (n : ℕ) : StabArg → Prop
  | .str s => s.length ≤ n ∧ ∀ ch ∈ s, ch = 'X' ∨ ch = 'Y' ∨ ch = 'Z' ∨ ch = 'I'
  | .bin b => b.length = 2 * n ∧ IsBinary b

/-- The Pauli operator meant by a stabilizer argument. -/
def StabArg.pauli (n : ℕ) : StabArg → Pauli n
  | .str s => strPauli n s
  | .bin b => rowPauli n b

/-- The circuit built for a valid argument, and its action. -/
theorem syndromeCircuit_spec {c : StabCode} {active len : ℕ}
    (h : (active = c.n ∧ len = c.n) ∨ (active = c.n + 1 ∧ len = c.n + 1)) {s : StabArg} (hs : s.Valid c.n) :
    ∃ gs, syndromeCircuit c active len s = .ok (gs, c.n) ∧ (∀ g ∈ gs, g.WF (c.n + 1)) ∧
      ∀ (φ : Amp c.n) (t : ZMod 2), pauliAct (s.pauli c.n) φ = (sgn t : ℂ) • φ → ∀ a : ZMod 2,
        run gs (tensor φ (qubit a)) = tensor φ (qubit (a + t)) := by
  have wf : ∀ str : List Char, str.length ≤ c.n →
      ∀ g ∈ (⟨none, .H, c.n⟩ :: strG (some c.n) 0 str ++ [⟨none, .H, c.n⟩] : List Gate), g.WF (c.n + 1) := by
    intro str hl g hg
    rw [List.mem_append, List.mem_cons, List.mem_singleton] at hg
    rcases hg with (rfl | hg) | rfl
    · exact ⟨by simp, by simp⟩
    · refine strG_wf (by omega) ?_ g hg
      intro i hi
      simp only [Option.mem_def, Option.some.injEq] at hi
      subst hi
      exact ⟨by omega, List.getD_eq_default _ _ hl⟩
    · exact ⟨by simp, by simp⟩
  cases s with
  | str s =>
    exact ⟨_, syndromeCircuit_str h hs.1 hs.2, wf s hs.1, fun φ t hφ a => run_syndrome hs.1 hφ a⟩
  | bin b =>
    obtain ⟨s, h1, h2, -, h4⟩ := syndromeCircuit_bin h hs.1 hs.2
    refine ⟨_, h4, wf s (by omega), fun φ t hφ a => run_syndrome (by omega) ?_ a⟩
    rw [h2]; exact hφ

/-- **C16**.  Let `ψ` be a normalised state fixed by the stabilizer `s` and `e` a Pauli error, both 0/1 rows of length
`2 n`.  For any code object on `n` qubits, `single_syndrome_measurement` of `s` on `e ψ`, with an ancilla in state 0
(allocated by the call or the last of `n + 1` qubits), reads `inner_prod(e, s)` with probability one and leaves the
register in the state `e ψ`. -/
theorem C16_syndrome (c : StabCode) (s e : List ℤ) (hsl : s.length = 2 * c.n) (hsb : IsBinary s)
    (hel : e.length = 2 * c.n) (ψ : Amp c.n) (hψ : Normalised ψ)
    (hfix : pauliAct (rowPauli c.n s) ψ = ψ) (active len : ℕ)
    (h : (active = c.n ∧ len = c.n) ∨ (active = c.n + 1 ∧ len = c.n + 1)) :
    ∃ gs q v, syndromeCircuit c active len (.bin s) = .ok (gs, q) ∧ (∀ g ∈ gs, g.WF (c.n + 1)) ∧ q = c.n ∧
      innerProd e s = .ok v ∧ (v = 0 ∨ v = 1) ∧
      run gs (tensor (pauliAct (rowPauli c.n e) ψ) (qubit 0)) = tensor (pauliAct (rowPauli c.n e) ψ) (qubit (v : ℤ)) ∧
      measProb q (v : ℤ) (run gs (tensor (pauliAct (rowPauli c.n e) ψ) (qubit 0))) = 1 ∧
      collapse q (v : ℤ) (run gs (tensor (pauliAct (rowPauli c.n e) ψ) (qubit 0))) =
        tensor (pauliAct (rowPauli c.n e) ψ) (qubit (v : ℤ)) := by
  obtain ⟨gs, h1, h2, h3⟩ := syndromeCircuit_spec h (s := .bin s) ⟨hsl, hsb⟩
  obtain ⟨v, v1, v2, v3⟩ := innerProd_spec hel hsl
  have heig : pauliAct (rowPauli c.n s) (pauliAct (rowPauli c.n e) ψ) = (sgn ((v : ℤ) : ZMod 2) : ℂ) • pauliAct (rowPauli c.n e) ψ := by
    rw [pauliAct_comm, hfix, v3, symp_comm]
  have hnorm : Normalised (pauliAct (rowPauli c.n e) ψ) := normalised_pauli _ hψ
  have hrun := h3 _ _ heig 0
  rw [zero_add] at hrun
  refine ⟨gs, c.n, v, h1, h2, rfl, v1, v2, hrun, ?_, ?_⟩
  · rw [hrun, measProb_last _ hnorm, if_pos rfl]
  · rw [hrun, collapse_last _ hnorm]

/-- **C16 on encoded states**.  For an accepted code whose generators have even numbers of Y's, any encoded basis state,
any error `e` and any row `g` of the normal form, the measurement of `g` reads `inner_prod(e, g)` with probability one. -/
theorem C16_encoded (s : StabInput) (n k : ℕ) (c : StabCode) (h : stabInit s n k none = .ok c)
    (hb : BinaryArr c.stab) (hind : Independent n c.stab)
    (hY : ∀ a < c.stab.rows, parityY (rowPauli n (c.stab.row a)) = 0)
    (δ : List ℤ) (hlen : δ.length = k) (hδ : IsBinary δ) (e : List ℤ) (hel : e.length = 2 * n) :
    ∃ enc, encodingCircuit c n δ = .ok enc ∧ ∀ g ∈ c.iter,
      ∃ gs v, syndromeCircuit c n n (.bin g) = .ok (gs, n) ∧ innerProd e g = .ok v ∧
        measProb n (v : ℤ) (run gs (tensor (pauliAct (rowPauli n e) (run enc (ket 0))) (qubit 0))) = 1 := by
  obtain ⟨hn, hk, -, hsh, -, -, -⟩ := accepted_facts h hb hind
  obtain ⟨enc, e1, e2⟩ := C13_even_generators_rows_fix s n k c h hb hind hY δ hlen hδ
  refine ⟨enc, e1, ?_⟩
  intro g hg
  have hnorm : Normalised (run enc (ket 0) : Amp n) := by
    obtain ⟨gs1, gs2, h1, h2, h3⟩ := C12_encoding_isometry s n k c h hb hind δ δ hlen hδ hlen hδ
    rw [e1] at h1 h2
    cases h1; cases h2
    rw [if_pos rfl] at h3
    exact normalised_of_braket h3
  have hfix := e2 g hg
  simp only [StabCode.iter, List.mem_map, List.mem_range] at hg
  obtain ⟨a, ha, rfl⟩ := hg
  subst hn
  obtain ⟨gs, q, v, g1, -, rfl, g3, -, -, g4, -⟩ := C16_syndrome c (c.normalForm.row a) e (by rw [row_length, hsh.cols])
    (row_binary hsh.binary ha) hel _ hnorm hfix c.n c.n (Or.inl ⟨rfl, rfl⟩)
  exact ⟨gs, v, g1, g3, g4⟩

/-- **C17, fresh ancillas**.  On a normalised state of `n` qubits which is an eigenvector of all measured operators, with
eigenvalue `(-1)^(t s)` for `s`, every history of `single_syndrome_measurement` calls returns `t s` for each `s`,
whatever was measured before, and leaves the state unchanged; and such a history exists. -/
theorem C17_fresh_history (c : StabCode) (φ : Amp c.n) (hφ : Normalised φ) (t : StabArg → ZMod 2) (ss : List StabArg)
    (hs : ∀ s ∈ ss, s.Valid c.n ∧ pauliAct (s.pauli c.n) φ = (sgn (t s) : ℂ) • φ) :
    (∀ rs φ', History (FreshStep c) φ ss rs φ' → rs = ss.map t ∧ φ' = φ) ∧ History (FreshStep c) φ ss (ss.map t) φ := by
  induction ss with
  | nil =>
    refine ⟨?_, .nil φ⟩
    intro rs φ' h
    cases h
    exact ⟨rfl, rfl⟩
  | cons s ss ih =>
    obtain ⟨ih1, ih2⟩ := ih fun s' hs' => hs s' (by simp [hs'])
    obtain ⟨hv, he⟩ := hs s (by simp)
    obtain ⟨gs, h1, -, h3⟩ := syndromeCircuit_spec (c := c) (active := c.n) (len := c.n) (Or.inl ⟨rfl, rfl⟩) hv
    have hrun := h3 φ (t s) he 0
    rw [zero_add] at hrun
    constructor
    · intro rs φ' h
      cases h with
      | cons hstep htail =>
        rename_i y r rs'
        obtain ⟨gs', q, g1, g2, g3⟩ := hstep
        rw [h1] at g1
        cases g1
        rw [hrun, measProb_last _ hφ] at g2
        have hr : r = t s := by
          by_contra hne
          rw [if_neg hne] at g2
          exact g2 rfl
        subst hr
        rw [hrun, collapse_last _ hφ] at g3
        have hy : y = φ := (tensor_qubit_inj g3).symm
        subst hy
        obtain ⟨e1, e2⟩ := ih1 _ _ htail
        exact ⟨by rw [e1, List.map_cons], e2⟩
    · rw [List.map_cons]
      refine .cons (y := φ) ⟨gs, c.n, h1, ?_, ?_⟩ ih2
      · rw [hrun, measProb_last _ hφ, if_pos rfl]; exact one_ne_zero
      · rw [hrun, collapse_last _ hφ]

/-- **C17, shared ancilla**.  With `n + 1` qubits the last qubit is used as the ancilla of every call and never reset: if
it starts in state `a`, every history returns the running sums modulo two of `a` and the syndromes, not the syndromes. -/
theorem C17_shared_history (c : StabCode) (φ : Amp c.n) (hφ : Normalised φ) (t : StabArg → ZMod 2) (ss : List StabArg)
    (hs : ∀ s ∈ ss, s.Valid c.n ∧ pauliAct (s.pauli c.n) φ = (sgn (t s) : ℂ) • φ) (a : ZMod 2) :
    (∀ rs Ψ, History (SharedStep c) (tensor φ (qubit a)) ss rs Ψ →
      rs = ((ss.map t).scanl (· + ·) a).tail ∧ Ψ = tensor φ (qubit (a + (ss.map t).sum))) ∧
    History (SharedStep c) (tensor φ (qubit a)) ss ((ss.map t).scanl (· + ·) a).tail (tensor φ (qubit (a + (ss.map t).sum))) := by
  induction ss generalizing a with
  | nil =>
    constructor
    · intro rs Ψ h
      cases h
      simp
    · simpa using History.nil (step := SharedStep c) (tensor φ (qubit a))
  | cons s ss ih =>
    obtain ⟨hv, he⟩ := hs s (by simp)
    obtain ⟨ih1, ih2⟩ := ih (fun s' hs' => hs s' (by simp [hs'])) (a + t s)
    obtain ⟨gs, h1, -, h3⟩ := syndromeCircuit_spec (c := c) (active := c.n + 1) (len := c.n + 1) (Or.inr ⟨rfl, rfl⟩) hv
    have hrun := h3 φ (t s) he a
    have hsc : (((s :: ss).map t).scanl (· + ·) a).tail = (a + t s) :: ((ss.map t).scanl (· + ·) (a + t s)).tail := by
      rw [List.map_cons, List.scanl_cons, List.tail_cons]
      cases ss.map t <;> simp
    have hsum : a + ((s :: ss).map t).sum = a + t s + (ss.map t).sum := by rw [List.map_cons, List.sum_cons, add_assoc]
    constructor
    · intro rs Ψ h
      cases h with
      | cons hstep htail =>
        rename_i y r rs'
        obtain ⟨gs', q, g1, g2, g3⟩ := hstep
        rw [h1] at g1
        cases g1
        rw [hrun, measProb_last _ hφ] at g2
        have hr : r = a + t s := by
          by_contra hne
          rw [if_neg hne] at g2
          exact g2 rfl
        subst hr
        rw [hrun, collapse_last _ hφ] at g3
        subst g3
        obtain ⟨e1, e2⟩ := ih1 _ _ htail
        rw [hsc, hsum, e1]
        exact ⟨rfl, e2⟩
    · rw [hsc, hsum]
      refine .cons (y := tensor φ (qubit (a + t s))) ⟨gs, c.n, h1, ?_, ?_⟩ ih2
      · rw [hrun, measProb_last _ hφ, if_pos rfl]; exact one_ne_zero
      · rw [hrun, collapse_last _ hφ]

/-- The hypotheses of C17 are met by every encoded state of a code with even numbers of Y's, after any Pauli error, and
the rows of the normal form. -/
theorem C17_encoded_state_qualifies (s : StabInput) (n k : ℕ) (c : StabCode) (h : stabInit s n k none = .ok c)
    (hb : BinaryArr c.stab) (hind : Independent n c.stab)
    (hY : ∀ a < c.stab.rows, parityY (rowPauli n (c.stab.row a)) = 0)
    (δ : List ℤ) (hlen : δ.length = k) (hδ : IsBinary δ) (e : Pauli n) :
    ∃ enc, encodingCircuit c n δ = .ok enc ∧ Normalised (pauliAct e (run enc (ket 0))) ∧
      ∀ st ∈ c.iter.map StabArg.bin, st.Valid n ∧
        pauliAct (st.pauli n) (pauliAct e (run enc (ket 0))) = (sgn (symp (st.pauli n) e) : ℂ) • pauliAct e (run enc (ket 0)) := by
  obtain ⟨hn, hk, -, hsh, -, -, -⟩ := accepted_facts h hb hind
  obtain ⟨enc, e1, e2⟩ := C13_even_generators_rows_fix s n k c h hb hind hY δ hlen hδ
  refine ⟨enc, e1, ?_, ?_⟩
  · apply normalised_pauli
    obtain ⟨gs1, gs2, h1, h2, h3⟩ := C12_encoding_isometry s n k c h hb hind δ δ hlen hδ hlen hδ
    rw [e1] at h1 h2
    cases h1; cases h2
    rw [if_pos rfl] at h3
    exact normalised_of_braket h3
  · intro st hst
    obtain ⟨g, hg, rfl⟩ := List.mem_map.mp hst
    have hfix := e2 g hg
    simp only [StabCode.iter, List.mem_map, List.mem_range] at hg
    obtain ⟨a, ha, rfl⟩ := hg
    refine ⟨⟨by rw [row_length, hsh.cols], row_binary hsh.binary ha⟩, ?_⟩
    show pauliAct (rowPauli n _) _ = _
    rw [pauliAct_comm, hfix]
    rfl

/-- A concrete case for C16 and C17: the `[[4,2]]` code, the error XIII; the two syndromes are 0 and 1. -/
example : ∃ c, stabInit (.rows [[1, 1, 1, 1, 0, 0, 0, 0], [0, 0, 0, 0, 1, 1, 1, 1]]) 4 2 none = .ok c ∧
    BinaryArr c.stab ∧ Independent 4 c.stab ∧ (∀ a < c.stab.rows, parityY (rowPauli 4 (c.stab.row a)) = 0) ∧
    (c.iter.map StabArg.bin).map (fun st => symp (st.pauli 4) (strPauli 4 ['X'])) = [0, 1] := by
  obtain ⟨c, h1, h2, h3, -, h4, h5, h6, h7, h8, h9⟩ := code422
  refine ⟨c, h1, h2, h3, ?_, ?_⟩
  · intro a ha
    rw [h4] at ha
    match a, ha with
    | 0, _ => rw [h5]; decide
    | 1, _ => rw [h6]; decide
  · unfold StabCode.iter
    rw [h7]
    simp only [List.range_succ, List.range_zero, List.nil_append, List.map_append, List.map_cons, List.map_nil]
    rw [h8, h9]
    decide

end PyQ
